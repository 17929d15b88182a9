import Verif.Props.FormatExact
import Verif.Props.CodeDoc
import Verif.Props.CommonMark
/-!
# C126: white space at the ends of lines

Two documents whose lines differ only in the white space at their ends are formatted alike, provided that a line has a
hard line break in both or in none, and that nothing is added to or taken from a marker of a list entry that has no text
behind it.
-/

namespace MF

/-- The last word of a line, without the quote marks that it begins with. -/
def lastWord (l : Str) : Str := ((rstrip l).reverse.takeWhile fun c => !isWs c).reverse.dropWhile (· == '>')

/-- The last word is the marker of a list entry. -/
def bareEnd (l : Str) : Bool := decide (markerLen (lastWord l) ≠ 0) && markerLen (lastWord l) == (lastWord l).length

/-- The lines differ at most in the white space at their ends, and that has the same meaning. -/
structure SameText (l l' : Str) : Prop where
  text : rstrip l = rstrip l'
  hard : emptyLine l = false → hardBreak l = hardBreak l'
  bare : bareEnd l = true → l = l'

theorem SameText.refl (l : Str) : SameText l l := ⟨rfl, fun _ => rfl, fun _ => rfl⟩

theorem SameText.strip {l l' : Str} (h : SameText l l') : strip l = strip l' := by
  rw [← strip_rstrip l, h.text, strip_rstrip]

theorem SameText.empty {l l' : Str} (h : SameText l l') : emptyLine l = emptyLine l' := by
  rw [← emptyLine_rstrip l, h.text, emptyLine_rstrip]

theorem SameText.blank {l l' : Str} (h : emptyLine l = true) (h' : emptyLine l' = true) : SameText l l' := by
  have e : ∀ x : Str, emptyLine x = true → rstrip x = [] := fun x hx =>
    (rstrip_eq_nil x).2 (by simpa [emptyLine] using hx)
  refine ⟨by rw [e l h, e l' h'], fun hh => ?_, fun hb => ?_⟩
  · rw [h] at hh; cases hh
  rw [bareEnd, lastWord, e l h] at hb
  exact absurd hb (by decide)

/-- The text in the middle of a line. -/
structure Middle (l a t s : Str) : Prop where
  eq : l = a ++ (t ++ s)
  before : ∀ c ∈ a, isWs c = true
  after : ∀ c ∈ s, isWs c = true
  first : ∃ c r, t = c :: r ∧ isWs c = false
  last : ∃ r c, t = r ++ [c] ∧ isWs c = false

theorem middle {l : Str} (h : emptyLine l = false) : ∃ a s, Middle l a (strip l) s := by
  obtain ⟨a, s, e, ha, hs⟩ := strip_split l
  rcases strip_head l with h0 | ⟨c, r, h0, hc⟩
  · rw [emptyLine_eq, isBlankLine, h0] at h; cases h
  rcases strip_last l with h1 | ⟨r', c', h1, hc'⟩
  · rw [h1] at h0; cases h0
  exact ⟨a, s, e, ha, hs, ⟨c, r, h0, hc⟩, ⟨r', c', h1, hc'⟩⟩

theorem Middle.rstrip {l a t s : Str} (h : Middle l a t s) : rstrip l = a ++ t := by
  obtain ⟨r, c, e, hc⟩ := h.last
  rw [h.eq, ← List.append_assoc, rstrip_append_ws _ _ h.after, e, ← List.append_assoc, rstrip_concat_of_not _ _ hc]

theorem Middle.lstrip {l a t s : Str} (h : Middle l a t s) : l.dropWhile isWs = t ++ s := by
  obtain ⟨c, r, e, hc⟩ := h.first
  show MF.lstrip l = _
  rw [h.eq, lstrip_append_ws _ _ h.before, e]
  exact lstrip_cons_of_not _ _ hc

theorem Middle.full {l a t s : Str} (h : Middle l a t s) : emptyLine l = false := by
  obtain ⟨c, r, e, hc⟩ := h.first
  cases he : emptyLine l with
  | false => rfl
  | true =>
    have := (List.all_eq_true.1 (by simpa [emptyLine] using he) : ∀ x ∈ l, isWs x = true) c (by rw [h.eq, e]; simp)
    rw [hc] at this; cases this

/-- Two lines with the same text, both cut. -/
theorem SameText.cut {l l' : Str} (h : SameText l l') (he : emptyLine l = false) :
    ∃ a t s s', Middle l a t s ∧ Middle l' a t s' := by
  obtain ⟨a, s, hm⟩ := middle he
  obtain ⟨a', s', hm'⟩ := middle (h.empty ▸ he)
  rw [← h.strip] at hm'
  have : a = a' := by
    have := h.text
    rw [hm.rstrip, hm'.rstrip] at this
    exact List.append_cancel_right this
  subst this
  exact ⟨a, _, s, s', hm, hm'⟩

theorem Middle.margin {l a t s : Str} (h : Middle l a t s) : margin l = a.length := by
  obtain ⟨c, r, e, hc⟩ := h.first
  rw [MF.margin, h.eq, e, List.cons_append, takeWhile_append_stop _ _ _ _ h.before (by simpa using hc)]

theorem SameText.margin {l l' : Str} (h : SameText l l') (he : emptyLine l = false) : margin l = margin l' := by
  obtain ⟨a, t, s, s', hm, hm'⟩ := h.cut he
  rw [hm.margin, hm'.margin]

theorem SameText.indent {l l' : Str} (h : SameText l l') (he : emptyLine l = false) : getIndent l = getIndent l' := by
  rw [← margin_eq, ← margin_eq, h.margin he]

theorem head_strip (l : Str) : (l.dropWhile isWs).head? = (strip l).head? := by
  cases he : emptyLine l with
  | true =>
    have h1 : ∀ x ∈ l, isWs x = true := by simpa [emptyLine] using he
    rw [(strip_eq_nil l).2 h1, (dropWhile_eq_nil _ _).2 h1]
  | false =>
    obtain ⟨a, s, h⟩ := middle he
    obtain ⟨c, r, e, _⟩ := h.first
    rw [h.lstrip, e]; rfl

theorem SameText.head {l l' : Str} (h : SameText l l') : (l.dropWhile isWs).head? = (l'.dropWhile isWs).head? := by
  rw [head_strip, head_strip, h.strip]

theorem SameText.fence {l l' : Str} (h : SameText l l') : fenceLine l = fenceLine l' := by
  rw [← fenceLine_rstrip l, h.text, fenceLine_rstrip]

theorem SameText.letters {l l' : Str} (h : SameText l l') :
    l.filter (fun c => !isWs c) = l'.filter (fun c => !isWs c) := by
  rw [← filter_rstrip_ws l, h.text, filter_rstrip_ws]

theorem SameText.rule {l l' : Str} (h : SameText l l') : ruleLine l = ruleLine l' := by
  simp only [ruleLine, h.letters]

theorem SameText.row {l l' : Str} (h : SameText l l') : rowLine l = rowLine l' := by simp only [rowLine, h.head]

theorem SameText.mark {l l' : Str} (h : SameText l l') : firstMark l = firstMark l' := by
  have := h.head
  simp only [firstMark, List.headD_eq_head?_getD, this]

/-- What holds of the indentation matters only for lines with text. -/
theorem SameText.quoted {l l' : Str} (h : SameText l l') : quotedLine l = quotedLine l' := by
  cases he : emptyLine l with
  | false => simp only [quotedLine, h.head, h.indent he]
  | true =>
    have e : ∀ x : Str, emptyLine x = true → quotedLine x = false := fun x hx => by
      rw [quotedLine, (dropWhile_eq_nil _ _).2 (by simpa [emptyLine] using hx)]; simp
    rw [e l he, e l' (h.empty ▸ he)]

theorem SameText.under {l l' : Str} (h : SameText l l') : underline l = underline l' := by
  cases he : emptyLine l with
  | false => simp only [underline, h.strip, h.indent he, ← h.empty]
  | true => simp only [underline, ← h.empty, he]; simp

theorem SameText.run {l l' : Str} (h : SameText l l') : fenceRun l = fenceRun l' := by
  cases he : emptyLine l with
  | false =>
    obtain ⟨a, t, s, s', hm, hm'⟩ := h.cut he
    obtain ⟨c, r, e, hc⟩ := hm.first
    have key : ∀ s : Str, (∀ c ∈ s, isWs c = true) → (c :: (r ++ s)).takeWhile (· == c) = (c :: r).takeWhile (· == c) := by
      intro s hs
      rw [← List.cons_append, List.takeWhile_append]
      split
      · have : s.takeWhile (· == c) = [] := by
          cases s with
          | nil => rfl
          | cons x s =>
            rw [List.takeWhile_cons, if_neg]
            have := hs x List.mem_cons_self
            simp only [beq_iff_eq]
            rintro rfl
            rw [hc] at this; cases this
        rw [this, List.append_nil]
        rename_i hl
        exact (List.takeWhile_prefix _).eq_of_length hl |>.symm
      · rfl
    simp only [fenceRun, hm.lstrip, hm'.lstrip, e, List.cons_append, key s hm.after, key s' hm'.after]
  | true =>
    have e : ∀ x : Str, emptyLine x = true → fenceRun x = [] := fun x hx => by
      simp only [fenceRun, (dropWhile_eq_nil _ _).2 (show ∀ c ∈ x, isWs c = true by simpa [emptyLine] using hx)]
    rw [e l he, e l' (h.empty ▸ he)]

/-! ## Markers -/

theorem markerLen_le (t : Str) : markerLen t ≤ t.length := by
  unfold markerLen
  simp only
  split
  · rename_i h
    cases t with
    | nil => simp at h
    | cons c r => simp
  · split
    · rename_i h
      have h1 : ((t.drop (t.takeWhile isDigit).length)).length ≠ 0 := by
        intro hl
        rw [List.length_eq_zero_iff.1 hl] at h
        simp at h
      rw [List.length_drop] at h1
      omega
    · omega

theorem takeWhile_digits_ws {t s : Str} (hs : ∀ c ∈ s, isWs c = true) : (t ++ s).takeWhile isDigit = t.takeWhile isDigit := by
  rw [List.takeWhile_append]
  split
  · have : s.takeWhile isDigit = [] := by
      cases s with
      | nil => rfl
      | cons x s =>
        rw [List.takeWhile_cons, if_neg]
        intro hd
        have := isDigit_not_ws x hd
        rw [hs x List.mem_cons_self] at this; cases this
    rw [this, List.append_nil]
    rename_i hl
    exact ((List.takeWhile_prefix _).eq_of_length hl).symm
  · rfl

theorem markerLen_ws {t s : Str} (ht : t ≠ []) (hs : ∀ c ∈ s, isWs c = true) : markerLen (t ++ s) = markerLen t := by
  have hh : (t ++ s).head? = t.head? := by
    cases t with
    | nil => exact absurd rfl ht
    | cons c r => rfl
  have hd : ((t ++ s).drop (t.takeWhile isDigit).length).head? = some '.' ↔ (t.drop (t.takeWhile isDigit).length).head? = some '.' := by
    rw [List.drop_append_of_le_length (List.takeWhile_prefix _).length_le]
    cases hx : t.drop (t.takeWhile isDigit).length with
    | cons c r => rfl
    | nil =>
      simp only [List.nil_append, List.head?_nil, reduceCtorEq, iff_false]
      intro hc
      have := hs '.' (List.mem_of_mem_head? hc)
      revert this; decide
  simp only [markerLen, takeWhile_digits_ws hs, hh, hd]

/-- A marker that the whole text of a line consists of. -/
theorem Middle.bare {l a t s : Str} (h : Middle l a t s) (h0 : markerLen t ≠ 0) (h1 : markerLen t = t.length) :
    bareEnd l = true := by
  have hw : ∀ c ∈ t, isWs c = false ∧ c ≠ '>' := by
    unfold markerLen at h0 h1
    simp only at h0 h1
    split at h1
    · rename_i hb
      cases t with
      | nil => simp at hb
      | cons c r =>
        simp only [List.length_cons] at h1
        have hr : r = [] := List.length_eq_zero_iff.1 (by omega)
        subst hr
        intro x hx
        rw [List.mem_singleton] at hx
        subst hx
        simp only [List.head?_cons, Option.some.injEq] at hb
        rcases hb with rfl | rfl | rfl <;> decide
    · rename_i hb
      rw [if_neg hb] at h0
      split at h1
      · rename_i hd
        intro x hx
        rw [← List.take_append_drop (t.takeWhile isDigit).length t, List.mem_append] at hx
        rcases hx with hx | hx
        · rw [← List.prefix_iff_eq_take.1 (List.takeWhile_prefix _)] at hx
          have := takeWhile_all _ _ x hx
          refine ⟨isDigit_not_ws x this, ?_⟩
          rintro rfl
          revert this; decide
        · have hl : (t.drop (t.takeWhile isDigit).length).length = 1 := by rw [List.length_drop]; omega
          cases hq : t.drop (t.takeWhile isDigit).length with
          | nil => rw [hq] at hl; cases hl
          | cons y ys =>
            rw [hq] at hl hx hd
            have : ys = [] := List.length_eq_zero_iff.1 (by simpa using hl)
            subst this
            have hy : y = '.' := by simpa using hd.2
            rw [List.mem_singleton] at hx
            rw [hx, hy]; decide
      · rename_i hd
        rw [if_neg hd] at h0
        exact absurd rfl h0
  have hlast : lastWord l = t := by
    rw [lastWord, h.rstrip, List.reverse_append]
    have h2 : (t.reverse ++ a.reverse).takeWhile (fun c => !isWs c) = t.reverse := by
      rw [List.takeWhile_append_of_pos (by intro x hx; simp [(hw x (List.mem_reverse.1 hx)).1])]
      have : a.reverse.takeWhile (fun c => !isWs c) = [] := by
        cases hr : a.reverse with
        | nil => rfl
        | cons x xs =>
          have hx : x ∈ a := List.mem_reverse.1 (by rw [hr]; simp)
          rw [List.takeWhile_cons, if_neg (by simp [h.before x hx])]
      rw [this, List.append_nil]
    rw [h2, List.reverse_reverse]
    obtain ⟨c, r, e, _⟩ := h.first
    rw [e, List.dropWhile_cons, if_neg]
    simpa using (hw c (by rw [e]; simp)).2
  rw [bareEnd, hlast]
  rw [Bool.and_eq_true]
  exact ⟨decide_eq_true h0, by rw [h1, beq_self_eq_true]⟩

/-- Unless the text of a line is a marker, what is behind its marker is in its text. -/
theorem Middle.behind {l a t s : Str} (h : Middle l a t s) (hb : bareEnd l = false) (h0 : markerLen t ≠ 0) :
    ∃ c r, t.drop (markerLen t) = c :: r := by
  cases hd : t.drop (markerLen t) with
  | cons c r => exact ⟨c, r, rfl⟩
  | nil =>
    have := List.drop_eq_nil_iff.1 hd
    have := markerLen_le t
    rw [h.bare h0 (by omega)] at hb; cases hb

theorem Middle.marker {l a t s : Str} (h : Middle l a t s) (hb : bareEnd l = false) :
    markLen l = if markerLen t ≠ 0 ∧ (t.drop (markerLen t)).head?.getD ' ' = ' ' then some (a.length + markerLen t) else none := by
  have hd : l.drop a.length = t ++ s := by rw [h.eq, List.drop_left' rfl]
  obtain ⟨c, r, e, _⟩ := h.first
  have hl := markerLen_ws (t := t) (s := s) (by rw [e]; simp) h.after
  simp only [markLen, h.margin, hd, hl]
  by_cases h0 : markerLen t = 0
  · simp [h0]
  · obtain ⟨x, y, hx⟩ := h.behind hb h0
    rw [List.drop_append_of_le_length (markerLen_le t), hx]
    rfl

theorem Middle.own {l a t s : Str} (h : Middle l a t s) : t.dropWhile isWs = t := by
  obtain ⟨c, r, e, hc⟩ := h.first
  rw [e]
  exact lstrip_cons_of_not _ _ hc

theorem Middle.bullet {l a t s : Str} (h : Middle l a t s) (hb : bareEnd l = false) : bulletLine l = bulletLine t := by
  have hown := h.own
  obtain ⟨c, r, e, hc⟩ := h.first
  rw [bulletLine, bulletLine, h.lstrip, hown, e]
  cases r with
  | cons d r =>
    by_cases hd : d = ' '
    · subst hd; rfl
    · simp [hd]
  | nil =>
    have hn : (c == '*' || c == '+' || c == '-') = false := by
      cases hx : (c == '*' || c == '+' || c == '-') with
      | false => rfl
      | true =>
        have hm : markerLen t = 1 := by
          simp only [Bool.or_eq_true, beq_iff_eq] at hx
          rw [e, markerLen]
          rcases hx with (rfl | rfl) | rfl <;> rfl
        rw [h.bare (by omega) (by rw [hm, e]; rfl)] at hb
        cases hb
    show (match c :: s with | c :: ' ' :: _ => c == '*' || c == '+' || c == '-' | _ => false) = false
    split
    · rename_i he
      cases he
      exact hn
    · rfl

theorem Middle.number {l a t s : Str} (h : Middle l a t s) (hb : bareEnd l = false) : numberLine l = numberLine t := by
  have hown := h.own
  obtain ⟨c, r, e, hc⟩ := h.first
  simp only [numberLine, h.lstrip, hown, takeWhile_digits_ws h.after]
  have e1 : (t ++ s).dropWhile isDigit = t.drop (t.takeWhile isDigit).length ++ s := by
    have h1 := List.takeWhile_append_dropWhile (p := isDigit) (l := t ++ s)
    rw [takeWhile_digits_ws h.after] at h1
    have h2 : t.takeWhile isDigit ++ t.drop (t.takeWhile isDigit).length = t := by
      conv => rhs; rw [← List.takeWhile_append_dropWhile (p := isDigit) (l := t)]
      congr 1
      conv => lhs; rw [← List.takeWhile_append_dropWhile (p := isDigit) (l := t)]
      exact List.drop_left' (by rw [List.takeWhile_append_dropWhile])
    have h3 := h1.trans (congrArg (· ++ s) h2.symm)
    simp only [List.append_assoc] at h3
    exact List.append_cancel_left h3
  have e2 : t.dropWhile isDigit = t.drop (t.takeWhile isDigit).length := by
    conv => rhs; rw [← List.takeWhile_append_dropWhile (p := isDigit) (l := t)]
    exact (List.drop_left' (by rw [List.takeWhile_append_dropWhile])).symm
  rw [e1, e2]
  cases hd : (t.takeWhile isDigit).isEmpty with
  | true => rfl
  | false =>
    congr 1
    cases hx : t.drop (t.takeWhile isDigit).length with
    | nil =>
      rw [List.nil_append]
      cases s with
      | nil => rfl
      | cons x s =>
        have := h.after x List.mem_cons_self
        cases s with
        | nil => simp
        | cons y s =>
          rw [Bool.eq_iff_iff]
          simp only [List.take_succ_cons, List.take_zero, beq_iff_eq, List.cons.injEq, List.take_nil, reduceCtorEq, iff_false]
          rintro ⟨rfl, _⟩
          revert this; decide
    | cons x y =>
      cases y with
      | cons z y => rfl
      | nil =>
        by_cases hdot : x = '.'
        · exfalso
          have hlen : (t.takeWhile isDigit).length ≠ 0 := by
            intro h0
            rw [List.length_eq_zero_iff.1 h0] at hd; cases hd
          have hl := congrArg List.length hx
          rw [List.length_drop, List.length_cons, List.length_nil] at hl
          have hhd : t.head? ≠ some '*' ∧ t.head? ≠ some '-' ∧ t.head? ≠ some '+' := by
            rw [e] at hlen ⊢
            have hdig : isDigit c = true := by
              cases hdg : isDigit c with
              | true => rfl
              | false => rw [List.takeWhile_cons, hdg] at hlen; exact absurd rfl hlen
            simp only [List.head?_cons, ne_eq, Option.some.injEq]
            refine ⟨?_, ?_, ?_⟩ <;> (rintro rfl; revert hdig; decide)
          have hm : markerLen t = (t.takeWhile isDigit).length + 1 := by
            simp only [markerLen]
            rw [if_neg (by simp [hhd]), if_pos ⟨hlen, by rw [hx, hdot]; rfl⟩]
          rw [h.bare (by omega) (by omega)] at hb
          cases hb
        · rw [Bool.eq_iff_iff]
          cases s <;> simp [hdot]

theorem SameText.bullet {l l' : Str} (h : SameText l l') : bulletLine l = bulletLine l' := by
  cases hb : bareEnd l with
  | true => rw [← h.bare hb]
  | false =>
    cases he : emptyLine l with
    | false =>
      obtain ⟨a, t, s, s', hm, hm'⟩ := h.cut he
      rw [hm.bullet hb, hm'.bullet (by rw [bareEnd, lastWord, ← h.text]; exact hb)]
    | true =>
      have e : ∀ x : Str, emptyLine x = true → bulletLine x = false := fun x hx => by
        rw [bulletLine, (dropWhile_eq_nil _ _).2 (by simpa [emptyLine] using hx)]
      rw [e l he, e l' (h.empty ▸ he)]

theorem SameText.number {l l' : Str} (h : SameText l l') : numberLine l = numberLine l' := by
  cases hb : bareEnd l with
  | true => rw [← h.bare hb]
  | false =>
    cases he : emptyLine l with
    | false =>
      obtain ⟨a, t, s, s', hm, hm'⟩ := h.cut he
      rw [hm.number hb, hm'.number (by rw [bareEnd, lastWord, ← h.text]; exact hb)]
    | true =>
      have e : ∀ x : Str, emptyLine x = true → numberLine x = false := fun x hx => by
        simp only [numberLine, (dropWhile_eq_nil isWs x).2 (by simpa [emptyLine] using hx)]
        rfl
      rw [e l he, e l' (h.empty ▸ he)]

theorem SameText.marker {l l' : Str} (h : SameText l l') : markLen l = markLen l' := by
  cases hb : bareEnd l with
  | true => rw [← h.bare hb]
  | false =>
    cases he : emptyLine l with
    | false =>
      obtain ⟨a, t, s, s', hm, hm'⟩ := h.cut he
      rw [hm.marker hb, hm'.marker (by rw [bareEnd, lastWord, ← h.text]; exact hb)]
    | true =>
      have e : ∀ x : Str, emptyLine x = true → markLen x = none := fun x hx => by
        have hx : ∀ c ∈ x, isWs c = true := by simpa [emptyLine] using hx
        have : x.drop (MF.margin x) = [] := by
          refine List.drop_eq_nil_iff.2 ?_
          rw [margin_eq, getIndent, (lstrip_eq_nil x).2 hx]
          simp
        simp only [markLen, this]
        rfl
      rw [e l he, e l' (h.empty ▸ he)]

theorem SameText.listEnd {l l' : Str} (h : SameText l l') : listEnd l = listEnd l' := by
  cases he : emptyLine l with
  | false => simp only [MF.listEnd, h.row, h.rule, h.indent he, ← h.empty]
  | true => simp only [MF.listEnd, ← h.empty, he, Bool.true_or]

theorem SameText.textEnd {l l' : Str} (h : SameText l l') : textEnd l = textEnd l' := by
  cases he : emptyLine l with
  | false =>
    simp only [MF.textEnd, h.row, h.rule, h.indent he, ← h.empty, h.fence, h.quoted, h.under, h.head, h.bullet, h.number]
  | true => simp only [MF.textEnd, ← h.empty, he, Bool.true_or]

theorem SameText.kind {l l' : Str} (h : SameText l l') : kindOf l = kindOf l' := by
  cases he : emptyLine l with
  | false =>
    simp only [kindOf, h.rule, h.indent he, h.fence, h.head, h.bullet, h.number]
  | true =>
    have e : ∀ x : Str, emptyLine x = true → kindOf x = some .blank := fun x hx => by
      rw [kindOf, (dropWhile_eq_nil _ _).2 (by simpa [emptyLine] using hx)]; rfl
    rw [e l he, e l' (h.empty ▸ he)]

theorem kind_full {l : Str} (h : kindOf l ≠ some .blank) : emptyLine l = false := by
  cases he : emptyLine l with
  | false => rfl
  | true =>
    exact absurd (by rw [kindOf, (dropWhile_eq_nil _ _).2 (by simpa [emptyLine] using he)]; rfl) h

/-! ## Link definitions -/

/-- The same but for white space at the end. -/
def SameEnd (a b : Str) : Prop := rstrip a = rstrip b

theorem SameEnd.cut {a b : Str} (h : SameEnd a b) : ∃ u s s', a = u ++ s ∧ b = u ++ s' ∧ (∀ c ∈ s, isWs c = true) ∧
    ∀ c ∈ s', isWs c = true := by
  obtain ⟨s, e, hs⟩ := rstrip_split a
  obtain ⟨s', e', hs'⟩ := rstrip_split b
  exact ⟨rstrip a, s, s', e, by rw [h]; exact e', hs, hs'⟩

theorem SameEnd.intro {u s s' : Str} (hs : ∀ c ∈ s, isWs c = true) (hs' : ∀ c ∈ s', isWs c = true) : SameEnd (u ++ s) (u ++ s') := by
  rw [SameEnd, rstrip_append_ws _ _ hs, rstrip_append_ws _ _ hs']

theorem closeAfter_blank {q : Char} (hq : isWs q = false) : ∀ (s : Str) (e : Bool), (∀ c ∈ s, isWs c = true) →
    closeAfter q e s = none
  | [], _, _ => rfl
  | c :: s, e, h => by
    have : (c == q) = false := by
      rw [beq_eq_false_iff_ne]
      rintro rfl
      rw [h c List.mem_cons_self] at hq; cases hq
    rw [closeAfter, this, Bool.false_and, if_neg (by simp)]
    exact closeAfter_blank hq s _ fun x hx => h x (List.mem_cons_of_mem _ hx)

theorem closeAfter_ws {q : Char} (hq : isWs q = false) {s : Str} (hs : ∀ c ∈ s, isWs c = true) : ∀ (u : Str) (e : Bool),
    closeAfter q e (u ++ s) = (closeAfter q e u).map (· ++ s)
  | [], e => by rw [List.nil_append, closeAfter_blank hq s e hs]; rfl
  | c :: u, e => by
    rw [List.cons_append, closeAfter, closeAfter]
    split
    · rfl
    · exact closeAfter_ws hq hs u _

theorem closeAfter_ends {q : Char} (hq : isWs q = false) {a b : Str} (h : SameEnd a b) :
    (closeAfter q false a).map (·.all isWs) = (closeAfter q false b).map (·.all isWs) := by
  obtain ⟨u, s, s', rfl, rfl, hs, hs'⟩ := h.cut
  rw [closeAfter_ws hq hs, closeAfter_ws hq hs', Option.map_map, Option.map_map]
  congr 1
  funext x
  simp [List.all_append, List.all_eq_true.2 hs, List.all_eq_true.2 hs']

theorem titleRun_ends {q : Char} (hq : isWs q = false) {more more' : List Str} (hm : Each SameText more more') :
    ∀ {a b : Str}, SameEnd a b → titleRun q a more = titleRun q b more' := by
  induction hm with
  | nil =>
    intro a b h
    have := closeAfter_ends hq h
    simp only [titleRun]
    cases ha : closeAfter q false a <;> cases hb : closeAfter q false b <;> rw [ha, hb] at this <;>
      simp only [Option.map_none, Option.map_some, reduceCtorEq, Option.some.injEq] at this
    simp only [this]
  | cons hx hs ih =>
    intro a b h
    have := closeAfter_ends hq h
    simp only [titleRun]
    cases ha : closeAfter q false a <;> cases hb : closeAfter q false b <;> rw [ha, hb] at this <;>
      simp only [Option.map_none, Option.map_some, reduceCtorEq, Option.some.injEq] at this
    · simp only [ih hx.text]
    · simp only [this]

theorem behindWord_ws {u s : Str} (hs : ∀ c ∈ s, isWs c = true) :
    behindWord (u ++ s) = (behindWord u).map fun x => if x = [] then [] else x ++ s := by
  unfold behindWord
  cases hu : u.dropWhile isWs with
  | nil =>
    rw [dropWhile_append_all _ _ _ ((dropWhile_eq_nil _ _).1 hu), (dropWhile_eq_nil _ _).2 hs]
    rfl
  | cons c v =>
    rw [dropWhile_append_of_ne _ _ _ (by rw [hu]; simp), hu]
    simp only [List.cons_append, Option.map_some, Option.some.injEq]
    rw [← List.cons_append]
    by_cases hz : (c :: v).dropWhile (fun x => !isWs x) = []
    · rw [dropWhile_append_all _ _ _ ((dropWhile_eq_nil _ _).1 hz), hz]
      have : s.dropWhile (fun x => !isWs x) = s := by
        cases s with
        | nil => rfl
        | cons x s => rw [List.dropWhile_cons, if_neg (by simp [hs x List.mem_cons_self])]
      rw [this, (dropWhile_eq_nil _ _).2 hs]
      rfl
    · rw [dropWhile_append_of_ne _ _ _ hz]
      by_cases hy : ((c :: v).dropWhile (fun x => !isWs x)).dropWhile isWs = []
      · rw [dropWhile_append_all _ _ _ ((dropWhile_eq_nil _ _).1 hy), (dropWhile_eq_nil _ _).2 hs, if_pos hy]
      · rw [dropWhile_append_of_ne _ _ _ hy, if_neg hy]

/-- What is behind the first word of two texts that end alike. -/
theorem behindWord_ends {a b : Str} (h : SameEnd a b) :
    behindWord a = none ∧ behindWord b = none ∨ behindWord a = some [] ∧ behindWord b = some [] ∨
      ∃ c x y, behindWord a = some (c :: x) ∧ behindWord b = some (c :: y) ∧ SameEnd x y := by
  obtain ⟨u, s, s', rfl, rfl, hs, hs'⟩ := h.cut
  rw [behindWord_ws hs, behindWord_ws hs']
  cases behindWord u with
  | none => exact .inl ⟨rfl, rfl⟩
  | some x =>
    cases x with
    | nil => exact .inr (.inl ⟨rfl, rfl⟩)
    | cons c x => exact .inr (.inr ⟨c, x ++ s, x ++ s', rfl, rfl, SameEnd.intro hs hs'⟩)

/-- What is behind a label. -/
theorem labelRest_same {l l' : Str} (h : SameText l l') : labelRest l = none ∧ labelRest l' = none ∨
    ∃ x y, labelRest l = some x ∧ labelRest l' = some y ∧ SameEnd x y := by
  cases he : emptyLine l with
  | true =>
    have e : ∀ x : Str, emptyLine x = true → labelRest x = none := fun x hx => by
      rw [labelRest, (dropWhile_eq_nil _ _).2 (by simpa [emptyLine] using hx)]
      split <;> rfl
    exact .inl ⟨e l he, e l' (h.empty ▸ he)⟩
  | false =>
    obtain ⟨a, t, s, s', hm, hm'⟩ := h.cut he
    obtain ⟨c, r, e, _⟩ := hm.first
    rw [labelRest, labelRest, ← h.indent he, hm.lstrip, hm'.lstrip, e]
    by_cases hi : 4 ≤ getIndent l
    · rw [if_pos hi, if_pos hi]; exact .inl ⟨rfl, rfl⟩
    rw [if_neg hi, if_neg hi]
    by_cases hc : c ≠ '['
    · left
      constructor <;>
      · simp only [List.cons_append]
        split
        · rename_i heq
          cases heq
          exact absurd rfl hc
        · rfl
    obtain rfl : c = '[' := Classical.not_not.1 hc
    simp only [List.cons_append]
    have hno : ∀ s : Str, (∀ c ∈ s, isWs c = true) → s.dropWhile (· != ']') = [] := fun s hs =>
      (dropWhile_eq_nil _ _).2 fun x hx => by
        simp only [bne_iff_ne, ne_eq]
        rintro rfl
        have := hs _ hx
        revert this; decide
    have hcol : ∀ s z : Str, (∀ c ∈ s, isWs c = true) → s ≠ ':' :: z := fun s z hs e => by
      have := hs ':' (by rw [e]; simp)
      revert this; decide
    cases hr : r.dropWhile (· != ']') with
    | nil =>
      have hall := (dropWhile_eq_nil _ _).1 hr
      rw [dropWhile_append_all _ _ _ hall, dropWhile_append_all _ _ _ hall, hno s hm.after, hno s' hm'.after]
      exact .inl ⟨rfl, rfl⟩
    | cons d z =>
      have hd : d = ']' := by
        have := List.head_dropWhile_not (fun x : Char => x != ']') (l := r) (by rw [hr]; simp)
        simpa [hr] using this
      subst hd
      have htw : ∀ s : Str, (r ++ s).takeWhile (· != ']') = r.takeWhile (· != ']') := by
        intro s
        have hrr := List.takeWhile_append_dropWhile (p := (· != ']')) (l := r)
        rw [hr] at hrr
        conv => lhs; rw [← hrr, List.append_assoc, List.cons_append]
        exact takeWhile_append_stop _ _ _ _ (takeWhile_all _ _) (by decide)
      rw [dropWhile_append_of_ne _ _ _ (by rw [hr]; simp), dropWhile_append_of_ne _ _ _ (by rw [hr]; simp), hr, htw, htw]
      cases z with
      | nil =>
        left
        constructor
        · simp only [List.cons_append, List.nil_append]
          split
          · rename_i heq
            cases heq
            exact absurd rfl (hcol _ _ hm.after)
          · rfl
        · simp only [List.cons_append, List.nil_append]
          split
          · rename_i heq
            cases heq
            exact absurd rfl (hcol _ _ hm'.after)
          · rfl
      | cons x z =>
        by_cases hx : x = ':'
        · subst hx
          simp only [List.cons_append]
          split
          · exact .inr ⟨_, _, rfl, rfl, SameEnd.intro hm.after hm'.after⟩
          · exact .inl ⟨rfl, rfl⟩
        · left
          constructor <;>
          · simp only [List.cons_append]
            split
            · rename_i heq
              cases heq
              exact absurd rfl hx
            · rfl

theorem titleNeeded_same {k : Nat} {c : Char} {x y : Str} {more more' : List Str} (h : SameEnd x y)
    (hm : Each SameText more more') : titleNeeded k (c :: x) more = titleNeeded k (c :: y) more' := by
  simp only [titleNeeded]
  cases hc : (c == '\'' || c == '"') with
  | false => simp
  | true =>
    have hq : isWs c = false := by
      simp only [Bool.or_eq_true, beq_iff_eq] at hc
      rcases hc with rfl | rfl <;> decide
    rw [titleRun_ends hq hm h]

theorem titleMaybe_same {k : Nat} {l l' : Str} {more more' : List Str} (h : SameText l l')
    (hm : Each SameText more more') : titleMaybe k l more = titleMaybe k l' more' := by
  cases he : emptyLine l with
  | true =>
    have e : ∀ (x : Str) (m : List Str), emptyLine x = true → titleMaybe k x m = k := fun x m hx => by
      cases x with
      | nil => rfl
      | cons c x =>
        have hc : isWs c = true := by
          rw [emptyLine, List.all_cons, Bool.and_eq_true] at hx; exact hx.1
        rw [titleMaybe, if_neg]
        intro hq
        simp only [Bool.or_eq_true, beq_iff_eq] at hq
        rcases hq with rfl | rfl <;> revert hc <;> decide
    rw [e _ _ he, e _ _ (h.empty ▸ he)]
  | false =>
    obtain ⟨a, t, s, s', hm1, hm2⟩ := h.cut he
    obtain ⟨c, r, e, _⟩ := hm1.first
    have key : ∃ d x y, l = d :: x ∧ l' = d :: y ∧ SameEnd x y := by
      rw [hm1.eq, hm2.eq, e]
      cases a with
      | nil => exact ⟨c, r ++ s, r ++ s', rfl, rfl, SameEnd.intro hm1.after hm2.after⟩
      | cons d a =>
        refine ⟨d, a ++ (c :: r ++ s), a ++ (c :: r ++ s'), rfl, rfl, ?_⟩
        rw [← List.append_assoc, ← List.append_assoc]
        exact SameEnd.intro hm1.after hm2.after
    obtain ⟨d, x, y, rfl, rfl, hxy⟩ := key
    simp only [titleMaybe]
    cases hc : (d == '\'' || d == '"') with
    | false => simp
    | true =>
      have hq : isWs d = false := by
        simp only [Bool.or_eq_true, beq_iff_eq] at hc
        rcases hc with rfl | rfl <;> decide
      rw [titleRun_ends hq hm hxy]

theorem bracket_same {l l' : Str} (h : SameText l l') : (l.head? = some '[') ↔ (l'.head? = some '[') := by
  cases he : emptyLine l with
  | true =>
    have e : ∀ x : Str, emptyLine x = true → x.head? ≠ some '[' := fun x hx hh => by
      have := (List.all_eq_true.1 (by simpa [emptyLine] using hx) : ∀ c ∈ x, isWs c = true) _ (List.mem_of_mem_head? hh)
      revert this; decide
    exact ⟨fun hh => absurd hh (e l he), fun hh => absurd hh (e l' (h.empty ▸ he))⟩
  | false =>
    obtain ⟨a, t, s, s', hm1, hm2⟩ := h.cut he
    obtain ⟨c, r, e, _⟩ := hm1.first
    rw [hm1.eq, hm2.eq, e]
    cases a <;> simp

theorem defLines_same {ls ls' : List Str} (h : Each SameText ls ls') : defLines ls = defLines ls' := by
  cases h with
  | nil => rfl
  | cons hx hs =>
    simp only [defLines]
    rcases labelRest_same hx with ⟨h1, h2⟩ | ⟨x, y, h1, h2, hxy⟩
    · rw [h1, h2]
    rw [h1, h2]
    rcases behindWord_ends hxy with ⟨h3, h4⟩ | ⟨h3, h4⟩ | ⟨c, u, v, h3, h4, huv⟩
    · simp only [h3, h4]
      cases hs with
      | nil => rfl
      | cons hy hs =>
        simp only [bracket_same hy]
        split
        · rfl
        · rcases behindWord_ends hy.text with ⟨h5, h6⟩ | ⟨h5, h6⟩ | ⟨c, u, v, h5, h6, huv⟩
          · simp only [h5, h6]
          · simp only [h5, h6]
            cases hs with
            | nil => rfl
            | cons hz hs => simp only [titleMaybe_same hz hs]
          · simp only [h5, h6, titleNeeded_same huv hs]
    · simp only [h3, h4]
      cases hs with
      | nil => rfl
      | cons hy hs => simp only [titleMaybe_same hy hs]
    · simp only [h3, h4, titleNeeded_same huv hs]

/-! ## Division -/

section
variable {α β : Type} {R : α → β → Prop}

theorem each_length {xs : List α} {ys : List β} (h : Each R xs ys) : xs.length = ys.length := by
  induction h with
  | nil => rfl
  | cons _ _ ih => rw [List.length_cons, List.length_cons, ih]

theorem each_take {xs : List α} {ys : List β} (h : Each R xs ys) : ∀ n, Each R (xs.take n) (ys.take n) := by
  induction h with
  | nil => intro n; rw [List.take_nil, List.take_nil]; exact .nil
  | cons hx _ ih =>
    intro n
    cases n with
    | zero => exact .nil
    | succ n => exact .cons hx (ih n)

theorem each_drop {xs : List α} {ys : List β} (h : Each R xs ys) : ∀ n, Each R (xs.drop n) (ys.drop n) := by
  induction h with
  | nil => intro n; rw [List.drop_nil, List.drop_nil]; exact .nil
  | cons hx hs ih =>
    intro n
    cases n with
    | zero => exact .cons hx hs
    | succ n => exact ih n

theorem each_takeWhile {p : α → Bool} {q : β → Bool} (hp : ∀ x y, R x y → p x = q y) {xs : List α} {ys : List β}
    (h : Each R xs ys) : Each R (xs.takeWhile p) (ys.takeWhile q) := by
  induction h with
  | nil => exact .nil
  | cons hx _ ih =>
    rw [List.takeWhile_cons, List.takeWhile_cons, hp _ _ hx]
    split
    · exact .cons hx ih
    · exact .nil

theorem each_dropWhile {p : α → Bool} {q : β → Bool} (hp : ∀ x y, R x y → p x = q y) {xs : List α} {ys : List β}
    (h : Each R xs ys) : Each R (xs.dropWhile p) (ys.dropWhile q) := by
  induction h with
  | nil => exact .nil
  | cons hx hs ih =>
    rw [List.dropWhile_cons, List.dropWhile_cons, hp _ _ hx]
    split
    · exact ih
    · exact .cons hx hs

theorem each_append {xs us : List α} {ys vs : List β} (h : Each R xs ys) (h' : Each R us vs) :
    Each R (xs ++ us) (ys ++ vs) := by
  induction h with
  | nil => exact h'
  | cons hx _ ih => exact .cons hx ih

theorem each_reverse {xs : List α} {ys : List β} (h : Each R xs ys) : Each R xs.reverse ys.reverse := by
  induction h with
  | nil => exact .nil
  | cons hx _ ih =>
    rw [List.reverse_cons, List.reverse_cons]
    exact each_append ih (.cons hx .nil)

theorem each_last {xs : List α} {ys : List β} (h : Each R xs ys) :
    xs.getLast? = none ∧ ys.getLast? = none ∨ ∃ x y, xs.getLast? = some x ∧ ys.getLast? = some y ∧ R x y := by
  rw [← List.head?_reverse, ← List.head?_reverse]
  have hr := each_reverse h
  generalize xs.reverse = a at hr ⊢
  generalize ys.reverse = b at hr ⊢
  cases hr with
  | nil => exact .inl ⟨rfl, rfl⟩
  | cons hx _ => exact .inr ⟨_, _, rfl, rfl, hx⟩

end

theorem each_map {α β γ δ : Type} {R : α → β → Prop} {S : γ → δ → Prop} {f : α → γ} {g : β → δ}
    (hf : ∀ x y, R x y → S (f x) (g y)) {xs : List α} {ys : List β} (h : Each R xs ys) : Each S (xs.map f) (ys.map g) := by
  induction h with
  | nil => exact .nil
  | cons hx _ ih => exact .cons (hf _ _ hx) ih

/-- Results that are errors alike, or related. -/
def Both {α β : Type} (R : α → β → Prop) : Except Err α → Except Err β → Prop
  | .ok x, .ok y => R x y
  | .error e, .error e' => e = e'
  | _, _ => False

theorem textEnd_full {l : Str} (h : textEnd l = false) : emptyLine l = false := by
  cases he : emptyLine l with
  | false => rfl
  | true => rw [textEnd, he] at h; simp at h

theorem fencedRun_same {F : Str} {ls ls' : List Str} (h : Each SameText ls ls') : fencedRun F ls = fencedRun F ls' := by
  induction h with
  | nil => rfl
  | cons hx _ ih => simp only [fencedRun, hx.strip, ih]

theorem codeRun_same {ls ls' : List Str} (h : Each SameText ls ls') : codeRun ls = codeRun ls' := by
  refine each_length (R := SameText) (each_dropWhile (fun x y hxy => hxy.empty) (each_reverse (each_takeWhile ?_ h)))
  intro x y hxy
  cases he : emptyLine x with
  | true => simp [← hxy.empty, he]
  | false => simp [← hxy.empty, he, hxy.indent he]

section
variable {sq : List Str → Except Err Nat} (hsq : ∀ {a b : List Str}, Each SameText a b → sq a = sq b)
include hsq

theorem textRunQ_same {ls ls' : List Str} (h : Each SameText ls ls') : textRunQ sq ls = textRunQ sq ls' := by
  induction h with
  | nil => rfl
  | cons hx hs ih =>
    rename_i x y xs ys
    have he : xs.isEmpty = ys.isEmpty := by cases hs <;> rfl
    simp only [textRunQ, hx.quoted, hx.textEnd, hsq (.cons hx hs), ih, he]
    split
    · rfl
    · split
      · rfl
      · rename_i ht
        rw [hx.hard (textEnd_full (by rw [hx.textEnd]; simpa using ht))]

theorem textLinesQ_same {l l' : Str} {ls ls' : List Str} (hl : SameText l l') (h : Each SameText ls ls')
    (he : emptyLine l = false) : textLinesQ sq l ls = textLinesQ sq l' ls' := by
  simp only [textLinesQ, hl.hard he, textRunQ_same hsq h]

theorem underlinedAt_same {l l' : Str} {ls ls' : List Str} (hl : SameText l l') (h : Each SameText ls ls')
    (he : emptyLine l = false) : underlinedAt sq l ls = underlinedAt sq l' ls' := by
  simp only [underlinedAt, textLinesQ_same hsq hl h he]
  cases textLinesQ sq l' ls' with
  | error e => rfl
  | ok t =>
    simp only [bind, Except.bind]
    have hr := each_drop (Each.cons hl h) t
    generalize (l :: ls).drop t = a at hr ⊢
    generalize (l' :: ls').drop t = b at hr ⊢
    cases hr with
    | nil => rfl
    | cons hx _ => simp only [hx.under]

theorem lazyRun_same {ls ls' : List Str} (h : Each SameText ls ls') : lazyRun sq ls = lazyRun sq ls' := by
  induction h with
  | nil => rfl
  | cons hx hs ih =>
    rename_i x y xs ys
    have : lazyStop sq x xs = lazyStop sq y ys := by
      simp only [lazyStop, hx.quoted, hx.kind, hx.textEnd, hx.under]
      split
      · rfl
      · split
        · rename_i hk
          rw [underlinedAt_same hsq hx hs (kind_full (by rw [hx.kind, hk]; simp))]
        · rfl
    simp only [lazyRun, this, ih]

theorem firstExtentQ_same {l l' : Str} {ls ls' : List Str} (hl : SameText l l') (h : Each SameText ls ls') :
    firstExtentQ sq l ls = firstExtentQ sq l' ls' := by
  have h1 := each_length (each_takeWhile (p := fun x => !listEnd x) (q := fun x => !listEnd x)
    (fun x y hxy => by rw [hxy.listEnd]) h)
  have h2 := each_length (each_takeWhile (p := rowLine) (q := rowLine) (fun x y hxy => hxy.row) h)
  simp only [firstExtentQ, hl.kind, hsq (.cons hl h), hl.run, fencedRun_same h, codeRun_same h, h1, h2,
    defLines_same (.cons hl h)]
  cases hk : kindOf l' with
  | some k => cases k <;> rfl
  | none =>
    have he := kind_full (l := l) (by rw [hl.kind, hk]; simp)
    simp only [textLinesQ_same hsq hl h he]
    cases defLines (l' :: ls') with
    | error e => rfl
    | ok d =>
      simp only [bind, Except.bind]
      split
      · rfl
      · cases textLinesQ sq l' ls' with
        | error e => rfl
        | ok t =>
          simp only
          have hr := each_drop (Each.cons hl h) t
          generalize (l :: ls).drop t = a at hr ⊢
          generalize (l' :: ls').drop t = b at hr ⊢
          cases hr with
          | nil => rfl
          | cons hx _ => simp only [hx.under]

/-- Sections of one kind, whose lines have the same text. -/
def SameSec (s s' : Sec × List Str) : Prop := s.1 = s'.1 ∧ Each SameText s.2 s'.2

theorem divideLoopQ_same : ∀ (fuel : Nat) {ls ls' : List Str}, Each SameText ls ls' →
    Both (Each SameSec) (divideLoopQ sq fuel ls) (divideLoopQ sq fuel ls')
  | fuel, _, _, .nil => by cases fuel <;> exact .nil
  | 0, _, _, .cons _ _ => rfl
  | fuel + 1, _, _, .cons (x := l) (y := l') (xs := ls) (ys := ls') hl h => by
    rw [divideLoopQ, divideLoopQ, firstExtentQ_same hsq hl h]
    cases firstExtentQ sq l' ls' with
    | error e => rfl
    | ok r =>
      simp only [bind, Except.bind]
      have ih := divideLoopQ_same fuel (each_drop (Each.cons hl h) r.2)
      revert ih
      cases divideLoopQ sq fuel ((l :: ls).drop r.2) <;> cases divideLoopQ sq fuel ((l' :: ls').drop r.2) <;> intro ih
      · exact ih
      · exact ih.elim
      · exact ih.elim
      · exact .cons ⟨rfl, each_take (Each.cons hl h) r.2⟩ ih

theorem divideWith_same {ls ls' : List Str} (h : Each SameText ls ls') :
    Both (Each SameSec) (divideWith sq ls) (divideWith sq ls') := by
  rw [divideWith, divideWith, each_length h]
  exact divideLoopQ_same hsq _ h

end

/-! ## Parts of lines -/

/-- What a text ends with, back to the last white space. -/
def wordEnd (s : Str) : Str := (s.reverse.takeWhile fun c => !isWs c).reverse

theorem wordEnd_append {p y : Str} (hp : ∀ c ∈ wordEnd p, c = '>') :
    (wordEnd (p ++ y)).dropWhile (· == '>') = (wordEnd y).dropWhile (· == '>') := by
  unfold wordEnd
  rw [List.reverse_append, List.takeWhile_append]
  split
  · rename_i hl
    have e : y.reverse.takeWhile (fun c => !isWs c) = y.reverse := (List.takeWhile_prefix _).eq_of_length hl
    rw [e, List.reverse_append]
    exact dropWhile_append_all _ _ _ fun c hc => by simpa using hp c hc
  · rfl

theorem rstrip_behind {p x : Str} (h : emptyLine x = false) : rstrip (p ++ x) = p ++ rstrip x := by
  refine rstrip_append_of_ne _ _ fun hx => ?_
  have := (rstrip_eq_nil x).1 hx
  rw [emptyLine, List.all_eq_true.2 this] at h
  cases h

theorem bareEnd_behind {p x : Str} (h : emptyLine x = false) (hp : ∀ c ∈ wordEnd p, c = '>') :
    bareEnd (p ++ x) = bareEnd x := by
  have : lastWord (p ++ x) = lastWord x := by
    rw [lastWord, lastWord, rstrip_behind h]
    exact wordEnd_append hp
  rw [bareEnd, bareEnd, this]

theorem hardBreak_tail {r s : Str} {c : Char} (hc : isWs c = false) : hardBreak ((r ++ [c]) ++ s) = hardBreak s := by
  rw [Bool.eq_iff_iff, hardBreak, hardBreak, endsWith_iff, endsWith_iff]
  have hne : c ≠ ' ' := by rintro rfl; revert hc; decide
  constructor
  · rintro ⟨u, e⟩
    have e' := congrArg List.reverse e
    rw [List.reverse_append, List.reverse_append, List.reverse_append] at e'
    cases hs : s.reverse with
    | nil =>
      rw [hs] at e'
      have : c = ' ' := by simpa using (List.cons.inj e').1
      exact absurd this hne
    | cons d ds =>
      rw [hs] at e'
      have e2 := (List.cons.inj e').2
      cases ds with
      | nil =>
        have : c = ' ' := by simpa using (List.cons.inj e2).1
        exact absurd this hne
      | cons f fs =>
        have h1 : d = ' ' := by simpa using (List.cons.inj e').1
        have h2 : f = ' ' := by simpa using (List.cons.inj e2).1
        refine ⟨fs.reverse, ?_⟩
        rw [← List.reverse_reverse s, hs, h1, h2]
        simp
  · rintro ⟨u, e⟩
    exact ⟨(r ++ [c]) ++ u, by rw [e, ← List.append_assoc]⟩

theorem hardBreak_behind {p x : Str} (h : emptyLine x = false) : hardBreak (p ++ x) = hardBreak x := by
  obtain ⟨a, s, hm⟩ := middle h
  obtain ⟨r, c, e, hc⟩ := hm.last
  have h1 : x = (a ++ r ++ [c]) ++ s := by rw [hm.eq, e]; simp
  rw [h1, hardBreak_tail hc, ← List.append_assoc, ← List.append_assoc, hardBreak_tail hc]

/-- Behind a common beginning. -/
theorem SameText.rest {p x x' : Str} (h : SameText (p ++ x) (p ++ x')) (hp : ∀ c ∈ wordEnd p, c = '>') : SameText x x' := by
  have key : ∀ u v : Str, rstrip (p ++ u) = rstrip (p ++ v) → emptyLine u = true → emptyLine v = true := by
    intro u v e hu
    cases hv : emptyLine v with
    | true => rfl
    | false =>
      exfalso
      rw [rstrip_behind hv, rstrip_append_ws _ _ (by simpa [emptyLine] using hu)] at e
      obtain ⟨s, es, _⟩ := rstrip_split p
      have h1 := congrArg List.length e
      have h2 := congrArg List.length es
      rw [List.length_append] at h1 h2
      have h3 : rstrip v = [] := List.length_eq_zero_iff.1 (by omega)
      rw [emptyLine, List.all_eq_true.2 ((rstrip_eq_nil v).1 h3)] at hv
      cases hv
  cases he : emptyLine x with
  | true => exact .blank he (key x x' h.text he)
  | false =>
    have he' : emptyLine x' = false := by
      cases he' : emptyLine x' with
      | false => rfl
      | true => rw [key x' x h.text.symm he'] at he; cases he
    have hf : emptyLine (p ++ x) = false := by
      rw [emptyLine, List.all_append, Bool.and_eq_false_iff]; exact .inr he
    refine ⟨?_, fun _ => ?_, fun hb => ?_⟩
    · have := h.text
      rw [rstrip_behind he, rstrip_behind he'] at this
      exact List.append_cancel_left this
    · rw [← hardBreak_behind (p := p) he, h.hard hf, hardBreak_behind he']
    · exact List.append_cancel_left (h.bare (by rw [bareEnd_behind he hp]; exact hb))

/-- With marks before both. -/
theorem SameText.marked {p x x' : Str} (h : SameText x x') (he : emptyLine x = false) (hp : ∀ c ∈ wordEnd p, c = '>') :
    SameText (p ++ x) (p ++ x') := by
  have he' : emptyLine x' = false := h.empty ▸ he
  refine ⟨?_, fun _ => ?_, fun hb => ?_⟩
  · rw [rstrip_behind he, rstrip_behind he', h.text]
  · rw [hardBreak_behind he, hardBreak_behind he', h.hard he]
  · rw [bareEnd_behind he hp] at hb
    rw [h.bare hb]

theorem wordEnd_ws {p : Str} (h : ∀ c, p.getLast? = some c → isWs c = true) : wordEnd p = [] := by
  unfold wordEnd
  rw [← List.head?_reverse] at h
  cases hr : p.reverse with
  | nil => rfl
  | cons c r =>
    rw [List.takeWhile_cons, if_neg (by simp [h c (by rw [hr]; rfl)])]
    rfl

theorem quoted_full {l : Str} (h : quotedLine l = true) : emptyLine l = false := by
  cases he : emptyLine l with
  | false => rfl
  | true =>
    rw [quotedLine, (dropWhile_eq_nil _ _).2 (by simpa [emptyLine] using he)] at h
    simp at h

theorem dropWhile_spaces {a r : Str} {c : Char} (ha : ∀ x ∈ a, isWs x = true) (hc : isWs c = false) :
    (∀ x ∈ a, x = ' ') ∧ (a ++ c :: r).takeWhile (· == ' ') = a ∧ (a ++ c :: r).dropWhile (· == ' ') = c :: r ∨
    ∃ d e, isWs d = true ∧ d ≠ ' ' ∧ (a ++ c :: r).dropWhile (· == ' ') = d :: e := by
  induction a with
  | nil =>
    have hc' : (c == ' ') = false := by
      rw [beq_eq_false_iff_ne]; rintro rfl; revert hc; decide
    exact .inl ⟨by simp, by rw [List.nil_append, List.takeWhile_cons, if_neg (by simp [hc'])],
      by rw [List.nil_append, List.dropWhile_cons, if_neg (by simp [hc'])]⟩
  | cons d a ih =>
    by_cases hd : d = ' '
    · subst hd
      rw [List.cons_append, List.takeWhile_cons, if_pos (by simp), List.dropWhile_cons, if_pos (by simp)]
      rcases ih fun x hx => ha x (List.mem_cons_of_mem _ hx) with ⟨h1, h2, h3⟩ | h
      · refine .inl ⟨fun x hx => ?_, by rw [h2], h3⟩
        rcases List.mem_cons.1 hx with rfl | hx
        · rfl
        · exact h1 x hx
      · exact .inr h
    · right
      refine ⟨d, a ++ c :: r, ha d List.mem_cons_self, hd, ?_⟩
      rw [List.cons_append, List.dropWhile_cons, if_neg (by simpa using hd)]

theorem SameText.unmark {l l' : Str} (h : SameText l l') (hq : emptyLine l = false) : SameText (unmark l) (unmark l') := by
  obtain ⟨a, t, s, s', hm, hm'⟩ := h.cut hq
  obtain ⟨c, r, e, hc⟩ := hm.first
  have el : l = a ++ c :: (r ++ s) := by rw [hm.eq, e]; rfl
  have el' : l' = a ++ c :: (r ++ s') := by rw [hm'.eq, e]; rfl
  have h1 := dropWhile_spaces (r := r ++ s) hm.before hc
  have h2 := dropWhile_spaces (r := r ++ s') hm.before hc
  rw [← el] at h1
  rw [← el'] at h2
  by_cases ha : (∀ x ∈ a, x = ' ') ∧ a.length ≤ 3 ∧ c = '>'
  · obtain ⟨ha, hlen, rfl⟩ := ha
    have key : ∀ r : Str, MF.unmark (a ++ '>' :: r) = r := by
      intro r
      rcases dropWhile_spaces (r := r) hm.before hc with ⟨_, h3, h4⟩ | ⟨d, f, hd, hn, h4⟩
      · rw [MF.unmark, h3, if_pos hlen, h4]; rfl
      · exfalso
        have : d ∈ a ++ '>' :: r := (List.dropWhile_suffix _).subset (by rw [h4]; simp)
        have h5 : (a ++ '>' :: r).dropWhile (· == ' ') = '>' :: r := by
          rw [dropWhile_append_all _ _ _ fun x hx => by simpa using ha x hx]; rfl
        rw [h5] at h4
        cases h4
        rw [hc] at hd; cases hd
    rw [el, el', key, key]
    have hx : SameText ((a ++ ['>']) ++ (r ++ s)) ((a ++ ['>']) ++ (r ++ s')) := by
      rw [List.append_assoc, List.append_assoc]
      rw [el, el'] at h
      exact h
    refine hx.rest fun x hx => ?_
    unfold wordEnd at hx
    rw [List.mem_reverse, List.reverse_append, List.reverse_singleton, List.singleton_append, List.takeWhile_cons] at hx
    rw [if_pos (by decide)] at hx
    rcases List.mem_cons.1 hx with rfl | hx
    · rfl
    · exfalso
      have h3 := takeWhile_all _ _ x hx
      have h4 := hm.before x (List.mem_reverse.1 ((List.takeWhile_prefix _).subset hx))
      rw [h4] at h3; cases h3
  · have key : ∀ r : Str, MF.unmark (a ++ c :: r) = a ++ c :: r := by
      intro r
      unfold MF.unmark
      rcases dropWhile_spaces (r := r) hm.before hc with ⟨h5, h3, h4⟩ | ⟨d, f, hd, hn, h4⟩
      · rw [h3, h4]
        by_cases hl : a.length ≤ 3
        · rw [if_pos hl]
          split
          · rename_i heq
            cases heq
            exact absurd ⟨h5, hl, rfl⟩ ha
          · rfl
        · rw [if_neg hl]
      · rw [h4]
        split
        · split
          · rename_i heq
            cases heq
            exact absurd hd (by decide)
          · rfl
        · rfl
    rw [el, el', key, key, ← el, ← el']
    exact h

/-! ## Quotes -/

theorem endsPar_same {divide : List Str → Except Err (List (Sec × List Str))}
    (hd : ∀ {a b : List Str}, Each SameText a b → Both (Each SameSec) (divide a) (divide b))
    (hq : ∀ {a : List Str} {secs : List (Sec × List Str)}, divide a = .ok secs → ∀ s ∈ secs, s.1 = .quote → ∀ l ∈ s.2, emptyLine l = false) :
    ∀ (n : Nat) {ls ls' : List Str}, Each SameText ls ls' → (∀ l ∈ ls, emptyLine l = false) →
    endsPar divide n ls = endsPar divide n ls'
  | 0, _, _, _, _ => rfl
  | n + 1, ls, ls', h, hf => by
    have hm : Each SameText (ls.map unmark) (ls'.map unmark) := by
      induction h with
      | nil => exact .nil
      | cons hx _ ih =>
        exact .cons (hx.unmark (hf _ List.mem_cons_self)) (ih fun l hl => hf l (List.mem_cons_of_mem _ hl))
    simp only [endsPar]
    have h1 := hd hm
    revert h1
    cases ha : divide (ls.map unmark) with
    | error e =>
      cases divide (ls'.map unmark) with
      | error e' => intro h1; rw [show e = e' from h1]
      | ok b => intro h1; exact h1.elim
    | ok a =>
      cases divide (ls'.map unmark) with
      | error e' => intro h1; exact h1.elim
      | ok b =>
        intro h1
        simp only [bind, Except.bind]
        rcases each_last h1 with ⟨h2, h3⟩ | ⟨⟨k, x⟩, ⟨k', y⟩, h2, h3, h4, h5⟩
        · rw [h2, h3]
        · rw [h2, h3]
          simp only at h4 h5
          subst h4
          cases k <;> try rfl
          exact endsPar_same hd hq n h5 (hq ha _ (List.mem_of_getLast? h2) rfl)

theorem quote_full {n : Nat} {ls : List Str} {secs : List (Sec × List Str)} (h : divideQ n ls = .ok secs) :
    ∀ s ∈ secs, s.1 = .quote → ∀ l ∈ s.2, emptyLine l = false := by
  rintro ⟨k, x⟩ hs hk l hl
  simp only at hk hl
  subst hk
  have hp : parse (n + 1) ls = .ok secs := by rw [C117_enough n ls (by rw [h]; simp), h]
  obtain ⟨pre, post, rfl⟩ := List.append_of_mem hs
  rcases (C52_extent hp).2.1 l hl with h1 | h1
  · exact quoted_full h1
  · exact textEnd_full h1

theorem quoteLines_same : ∀ (n : Nat) {a b : List Str}, Each SameText a b → quoteLines n a = quoteLines n b
  | n, _, _, .nil => by cases n <;> rfl
  | 0, _, _, .cons hx _ => by simp only [quoteLines, hx.quoted]
  | n + 1, _, _, .cons (x := l) (y := l') (xs := ls) (ys := ls') hx hs => by
    have h := Each.cons hx hs
    have ht := each_takeWhile (p := quotedLine) (q := quotedLine) (fun x y hxy => hxy.quoted) h
    have hd := each_dropWhile (p := quotedLine) (q := quotedLine) (fun x y hxy => hxy.quoted) h
    have he : endsPar (divideWith (quoteLines n)) n ((l :: ls).takeWhile quotedLine) =
        endsPar (divideWith (quoteLines n)) n ((l' :: ls').takeWhile quotedLine) :=
      endsPar_same (fun hab => divideWith_same (fun hab => quoteLines_same n hab) hab) (fun hab => quote_full hab) n ht
        fun x hx => quoted_full (takeWhile_all _ _ x hx)
    have hr := lazyRun_same (fun hab => quoteLines_same n hab) hd
    simp only [quoteLines, hx.quoted, he, hr, each_length ht]

theorem divideQ_same (n : Nat) {a b : List Str} (h : Each SameText a b) : Both (Each SameSec) (divideQ n a) (divideQ n b) :=
  divideWith_same (fun hab => quoteLines_same n hab) h

/-! ## Sections formatted -/

theorem each_head {a b : List Str} (h : Each SameText a b) : SameText (a.headD []) (b.headD []) := by
  cases h with
  | nil => exact .refl _
  | cons hx _ => exact hx

theorem each_lastD {a b : List Str} (h : Each SameText a b) : SameText (a.getLastD []) (b.getLastD []) := by
  rw [List.getLastD_eq_getLast?, List.getLastD_eq_getLast?]
  rcases each_last h with ⟨h1, h2⟩ | ⟨x, y, h1, h2, h3⟩
  · rw [h1, h2]; exact .refl _
  · rw [h1, h2]; exact h3

theorem each_dropLast {α β : Type} {R : α → β → Prop} {a : List α} {b : List β} (h : Each R a b) : Each R a.dropLast b.dropLast := by
  rw [List.dropLast_eq_take, List.dropLast_eq_take, each_length h]
  exact each_take h _

theorem each_map_eq {γ : Type} {f : Str → γ} (hf : ∀ x y, SameText x y → f x = f y) {a b : List Str}
    (h : Each SameText a b) : a.map f = b.map f := by
  induction h with
  | nil => rfl
  | cons hx _ ih => rw [List.map_cons, List.map_cons, hf _ _ hx, ih]

theorem headingRef_same {l l' : Str} (h : SameText l l') : headingRef l = headingRef l' := by
  simp only [headingRef, h.strip]

theorem ruleRef_same (w : Width) {l l' : Str} (h : SameText l l') : ruleRef w l = ruleRef w l' := by
  simp only [ruleRef, h.mark]

theorem fenceRef_same {a b : List Str} (h : Each SameText a b) : fenceRef a = fenceRef b := by
  simp only [fenceRef, (each_head h).run, (each_head h).strip,
    each_map_eq (f := rstrip) (fun x y hxy => hxy.text) (each_dropLast (each_drop h 1))]

theorem parRef_same (w : Width) {a b : List Str} (h : Each SameText a b) (hf : emptyLine (a.getLastD []) = false) :
    parRef w a = parRef w b := by
  have h1 := (each_lastD h).hard hf
  simp only [hardBreak] at h1
  simp only [parRef, each_map_eq (f := strip) (fun x y hxy => hxy.strip) h, h1]

theorem underlinedRef_same (w : Width) {a b : List Str} (h : Each SameText a b) : underlinedRef w a = underlinedRef w b := by
  simp only [underlinedRef, each_map_eq (f := strip) (fun x y hxy => hxy.strip) (each_dropLast h), (each_lastD h).mark]

end MF
