import Verif.Lemmas.Splits
import Verif.Lemmas.ListMark
import Verif.Props.Lrd
import Verif.Props.Trailing
import Verif.Lemmas.Greedy
import Verif.Props.Inline
import Verif.Props.TextSpec
/-!
# Lines of running text
-/

namespace MF

/-- the first word of a line -/
theorem first_word {l w : Str} {ws : List Str} (h : splitWs l = w :: ws) :
    ∃ rest, lstrip l = w ++ rest ∧ (rest = [] ∨ ∃ c r, rest = c :: r ∧ isWs c = true) := by
  have h2 : splitWs (lstrip l) = w :: ws := by
    obtain ⟨t, ht, hall⟩ := lstrip_split l
    rw [ht, splitWs_prepend_all hall] at h
    exact h
  rcases lstrip_head l with h0 | ⟨c, r, h0, hc⟩
  · rw [h0] at h2; cases h2
  · rw [h0, splitWs_first r hc] at h2
    rw [h0]
    have hw := (List.cons.inj h2).1
    refine ⟨r.dropWhile (fun x => !isWs x), ?_, ?_⟩
    · rw [← hw, List.cons_append, List.takeWhile_append_dropWhile]
    · rcases dropWhile_head (fun x => !isWs x) r with h3 | ⟨d, r', h3, h4⟩
      · exact .inl h3
      · exact .inr ⟨d, r', h3, by simpa using h4⟩

theorem first_word_of {l w rest : Str} (hl : lstrip l = w ++ rest) (hne : w ≠ []) (hw : ∀ c ∈ w, isWs c = false)
    (hr : rest = [] ∨ ∃ c r, rest = c :: r ∧ isWs c = true) : ∃ ws, splitWs l = w :: ws := by
  have h : splitWs l = splitWs (lstrip l) := by
    obtain ⟨t, ht, hall⟩ := lstrip_split l
    conv => lhs; rw [ht, splitWs_prepend_all hall]
  obtain ⟨c, r, rfl⟩ := List.exists_cons_of_ne_nil hne
  rw [h, hl, List.cons_append, splitWs_first _ (hw c (by simp))]
  refine ⟨_, congrArg (· :: _) (congrArg (c :: ·) ?_)⟩
  rcases hr with rfl | ⟨d, r', rfl, hd⟩
  · rw [List.append_nil]
    exact takeWhile_eq_self fun x hx => by simp [hw x (by simp [hx])]
  · exact takeWhile_append_stop _ r r' d (fun x hx => by simp [hw x (by simp [hx])]) (by simp [hd])

/-- the words up to the first whitespace agree -/
theorem word_append_eq {u v a b : Str} (hu : ∀ c ∈ u, isWs c = false) (hv : ∀ c ∈ v, isWs c = false)
    (ha : a = [] ∨ ∃ c r, a = c :: r ∧ isWs c = true) (hb : b = [] ∨ ∃ c r, b = c :: r ∧ isWs c = true)
    (h : u ++ a = v ++ b) : u = v := by
  have key : ∀ (u a : Str), (∀ c ∈ u, isWs c = false) → (a = [] ∨ ∃ c r, a = c :: r ∧ isWs c = true) →
      (u ++ a).takeWhile (fun x => !isWs x) = u := by
    intro u a hu ha
    rcases ha with rfl | ⟨c, r, rfl, hc⟩
    · rw [List.append_nil]
      apply takeWhile_eq_self
      intro x hx; simp [hu x hx]
    · exact takeWhile_append_stop _ u r c (fun x hx => by simp [hu x hx]) (by simp [hc])
  rw [← key u a hu ha, ← key v b hv hb, h]

/-- facts about a line that starts with such a word -/
theorem opener_line {l w : Str} {ws : List Str} (h : splitWs l = w :: ws) (hw : Opener w) (hi : getIndent l < 4) :
    (∃ c, firstCh l = some c ∧ c ∉ c!"#>|") ∧ isAtx l = false ∧ isBlankLine l = false ∧ isQuote l = false ∧
    isBulletStart l = false ∧ isFenceStart l = false ∧ isOrderedStart l = false ∧ isTableStart l = false ∧
    isThematic l = false ∧ isSetextUnderline l = false ∧ isIndentedStart l = false := by
  obtain ⟨rest, h1, h2⟩ := first_word h
  obtain ⟨c, r, hcr⟩ := List.exists_cons_of_ne_nil hw.ne
  have hfc : firstCh l = some c := by unfold firstCh; rw [h1, hcr]; rfl
  have hc1 := hw.start c (by rw [hcr]; rfl)
  have hne : ∀ x ∈ c!"#>|", c ≠ x := by intro x hx e; subst e; exact hc1 hx
  obtain ⟨p1, p2, p3, _, _, _, _, _, p9⟩ := false_of_first hfc
  have hmem : ∀ x ∈ w, x ∈ l := fun x hx => mem_of_mem_lstrip (by rw [h1]; simp [hx])
  refine ⟨⟨c, hfc, fun hm => hne c hm rfl⟩, p1 (hne _ (by decide)), p9, p2 (hne _ (by decide)), ?_, ?_, ?_,
    p3 (hne _ (by decide)), ?_, ?_, ?_⟩
  · cases hb : isBulletStart l with
    | false => rfl
    | true =>
      exfalso
      simp only [isBulletStart, Bool.and_eq_true] at hb
      obtain ⟨d, r', hd, hd2⟩ := (isBulletStart_iff l).1 hb.2
      rw [h1] at hd
      have hdw : isWs d = false := by rcases hd2 with rfl | rfl | rfl <;> decide
      have : w = [d] := word_append_eq hw.noWs (by simpa using hdw) h2 (.inr ⟨' ', r', rfl, by decide⟩) hd
      obtain ⟨x, hx, hxd⟩ := hw.rule d (by rcases hd2 with rfl | rfl | rfl <;> decide)
      rw [this] at hx
      exact hxd (by simpa using hx)
  · cases hb : isFenceStart l with
    | false => rfl
    | true =>
      exfalso
      have key : ∀ f : Char, isWs f = false → startsWith (strip l) (List.replicate 3 f) = true → w.take 3 = [f, f, f] := by
        intro f hf hb
        obtain ⟨r', hr'⟩ := (startsWith_iff _ _).1 hb
        have h3 : rstrip (lstrip l) = [f, f, f] ++ r' := hr'
        obtain ⟨t, ht, _⟩ := rstripBy_split isWs (lstrip l)
        have h4 : w ++ rest = [f, f, f] ++ (r' ++ t) := by
          rw [← h1, ht]
          show rstrip (lstrip l) ++ t = _
          rw [h3, List.append_assoc]
        rcases List.append_eq_append_iff.1 h4 with ⟨a', e1, e2⟩ | ⟨a', e1, e2⟩
        · cases a' with
          | nil => rw [List.append_nil] at e1; rw [← e1]; rfl
          | cons x a' =>
            exfalso
            have hx : x ∈ [f, f, f] := by rw [e1]; simp
            have : x = f := by simpa using hx
            subst this
            rcases h2 with h2 | ⟨y, r'', h2, hy⟩
            · rw [h2] at e2; cases e2
            · rw [h2] at e2
              cases e2
              rw [hf] at hy; cases hy
        · rw [e1]; rfl
      simp only [isFenceStart, List.any_cons, List.any_nil, Bool.or_false, Bool.or_eq_true] at hb
      rcases hb with hb | hb
      · obtain ⟨x, hx, hxn⟩ := hw.fence '`' (by decide)
        rw [key '`' (by decide) hb] at hx
        exact hxn (by simpa using hx)
      · obtain ⟨x, hx, hxn⟩ := hw.fence '~' (by decide)
        rw [key '~' (by decide) hb] at hx
        exact hxn (by simpa using hx)
  · cases hb : isOrderedStart l with
    | false => rfl
    | true =>
      exfalso
      simp only [isOrderedStart, Bool.and_eq_true] at hb
      obtain ⟨ds, r', hd, _, hd2⟩ := (isOrderedStart_iff l).1 hb.2
      rw [h1] at hd
      have hdw : ∀ x ∈ ds ++ c!".", isWs x = false := by
        intro x hx
        rcases List.mem_append.1 hx with hx | hx
        · exact isDigit_not_ws x (hd2 x hx)
        · rw [List.mem_singleton.1 hx]; decide
      have : w = ds ++ c!"." := word_append_eq hw.noWs hdw h2 (.inr ⟨' ', r', rfl, by decide⟩) (by rw [hd]; simp)
      exact hw.number ⟨ds, this, hd2⟩
  · cases hb : isThematic l with
    | false => rfl
    | true =>
      exfalso
      obtain ⟨_, d, hd, _, hd2⟩ := (isThematic_iff l).1 hb
      obtain ⟨x, hx, hxd⟩ := hw.rule d (by rcases hd with rfl | rfl | rfl <;> decide)
      exact hxd (hd2 x (hmem x hx) (hw.noWs x hx))
  · cases hb : isSetextUnderline l with
    | false => rfl
    | true =>
      exfalso
      obtain ⟨d, _, _, hd, hd2⟩ := underline_char hb
      obtain ⟨x, hx, hxd⟩ := hw.rule d (by rcases hd with rfl | rfl <;> decide)
      rcases hd2 x (hmem x hx) with h3 | h3
      · rw [hw.noWs x hx] at h3; cases h3
      · exact hxd h3
  · simp [isIndentedStart]; intro _; exact hi

theorem TextLine.facts {l : Str} (h : TextLine l) :
    isParStart l = true ∧ Continues l ∧ NoLabel l ∧ endsWith l c!"  " = false ∧ NoLB l := by
  obtain ⟨w, ws, hw, ho⟩ := h.opens
  obtain ⟨⟨c, h0, h0'⟩, h1, h2, h3, h4, h5, h6, h7, h8, h9, h10⟩ := opener_line hw ho h.indent
  refine ⟨by simp [isParStart, h1, h2, h3, h4, h5, h6, h7, h8, h10], ⟨h3, by simp [interrupts, h1, h2, h4, h5, h6, h7, h8],
    h9⟩, h.label, ?_, spaces_noLB h.spaces⟩
  cases he : endsWith l c!"  " with
  | false => rfl
  | true => exact absurd ((endsWith_iff _ _).1 he) h.noBreak

theorem TextLine.ne {l : Str} (h : TextLine l) : splitWs l ≠ [] := by
  obtain ⟨w, ws, hw, _⟩ := h.opens
  rw [hw]; simp

theorem Opener.append {w z : Str} (h : Opener w) (hz : ∀ c ∈ z, isWs c = false)
    (hn : z = [] ∨ ∃ c ∈ w ++ z, c ∈ c!"`<[]") : Opener (w ++ z) := by
  have hne := h.ne
  refine ⟨by simp [hne], ?_, ?_, ?_, ?_, ?_⟩
  · intro c hc
    rcases List.mem_append.1 hc with hc | hc
    · exact h.noWs c hc
    · exact hz c hc
  · intro c hc
    obtain ⟨d, r, rfl⟩ := List.exists_cons_of_ne_nil hne
    exact h.start c hc
  · intro x hx
    obtain ⟨c, hc, hcx⟩ := h.fence x hx
    refine ⟨c, ?_, hcx⟩
    rw [List.take_append]
    simp [hc]
  · intro x hx
    obtain ⟨c, hc, hcx⟩ := h.rule x hx
    exact ⟨c, by simp [hc], hcx⟩
  · rintro ⟨ds, e, hd⟩
    have hall : ∀ c ∈ w ++ z, isDigit c = true ∨ c = '.' := by
      rw [e]; intro c hc
      rcases List.mem_append.1 hc with hc | hc
      · exact .inl (hd c hc)
      · exact .inr (List.mem_singleton.1 hc)
    have bad : ∀ c ∈ c!"`<[]", ¬ (isDigit c = true ∨ c = '.') := by decide
    rcases hn with rfl | ⟨c, hc, hcb⟩
    · exact h.number ⟨ds, by simpa using e, hd⟩
    · exact bad c hcb (hall c hc)

/-- A token right behind another one: one of them is a code span, a line break or a part of a link. -/
def Glued (x y : Str) : Prop :=
  (∃ c, y.head? = some c ∧ c ∈ c!"`<[") ∨
    (∃ c ∈ x, c ∈ c!"`<[]") ∧ x.getLast? ≠ some ']'

theorem Opens.append {x y : Str} (h : Opens x) (hs : StartsNonWs x) (hy : StartsNonWs y → Glued x y) : Opens (x ++ y) := by
  obtain ⟨w, ws, hw, ho⟩ := h
  obtain ⟨rest, h1, h2⟩ := first_word hw
  obtain ⟨c, r, rfl, hc⟩ := hs
  rw [lstrip_cons_of_not _ _ hc] at h1
  have hl : lstrip (c :: r ++ y) = w ++ (rest ++ y) := by
    rw [List.cons_append, lstrip_cons_of_not _ _ hc, ← List.cons_append, h1, List.append_assoc]
  rcases h2 with rfl | ⟨d, r', rfl, hd⟩
  · rw [List.append_nil] at h1
    subst h1
    rw [List.nil_append] at hl
    have hz : (c :: r ++ y) = (c :: r ++ y.takeWhile (fun x => !isWs x)) ++ y.dropWhile (fun x => !isWs x) := by
      rw [List.append_assoc, List.takeWhile_append_dropWhile]
    have hzw : ∀ c ∈ y.takeWhile (fun x => !isWs x), isWs c = false := by
      intro x hx
      have := List.all_eq_true.1 (List.all_takeWhile (p := fun x => !isWs x) (l := y)) x hx
      simpa using this
    have ho2 : Opener (c :: r ++ y.takeWhile (fun x => !isWs x)) := by
      refine ho.append hzw ?_
      cases y with
      | nil => exact .inl rfl
      | cons d y =>
        cases hd : isWs d with
        | true => left; simp [hd]
        | false =>
          right
          rcases hy ⟨d, y, rfl, hd⟩ with ⟨e, he, heb⟩ | ⟨⟨e, he, heb⟩, _⟩
          · refine ⟨e, ?_, ?_⟩
            · simp only [List.head?_cons, Option.some.injEq] at he
              subst he
              simp [hd]
            · simp only [List.mem_cons] at heb ⊢
              rcases heb with h | h | h | h <;> simp_all
          · exact ⟨e, List.mem_append_left _ he, heb⟩
    obtain ⟨ws', hws'⟩ := first_word_of (l := c :: r ++ y) (w := c :: r ++ y.takeWhile (fun x => !isWs x))
      (rest := y.dropWhile (fun x => !isWs x)) (by rw [hl]; exact hz) (by simp) ho2.noWs (by
        rcases dropWhile_head (fun x => !isWs x) y with h3 | ⟨d, r', h3, h4⟩
        · exact .inl h3
        · exact .inr ⟨d, r', h3, by simpa using h4⟩)
    exact ⟨_, _, hws', ho2⟩
  · obtain ⟨ws', hws'⟩ := first_word_of (l := c :: r ++ y) hl ho.ne ho.noWs (.inr ⟨d, r' ++ y, rfl, hd⟩)
    exact ⟨_, _, hws', ho⟩

/-- the tokens of words are next to white space -/
theorem adj_words {R : Tok → Tok → Prop} {x : Gap} {ws : List Str} {w : Str} {ts : List Tok}
    (hsp : ∀ t u : Tok, u.gap = .space → R t u) (h : ∀ g, Adj R (⟨g, w⟩ :: ts)) : Adj R (wordToks x (ws ++ [w]) ++ ts) := by
  have rest : ∀ ws : List Str, Adj R ((ws ++ [w]).map (fun v => (⟨.space, v⟩ : Tok)) ++ ts) := by
    intro ws
    induction ws with
    | nil => exact h .space
    | cons v ws ih =>
      refine Adj.cons ?_ ih
      intro u hu
      apply hsp
      cases ws <;> (simp at hu; subst hu; rfl)
  cases ws with
  | nil => exact h x
  | cons v ws =>
    refine Adj.cons ?_ (rest ws)
    intro u hu
    apply hsp
    cases ws <;> (simp at hu; subst hu; rfl)

/-- a token is in the text, behind white space -/
theorem Runs.next {k : Ctx} {rest : Str} {u : Tok} {us : List Tok} (h : Runs k rest (u :: us)) :
    u.gap = .space ∨ (∃ r, rest = u.text ++ r) ∨ (k.next = .behind ∧ u.gap = .link ∧ u.text.head? = some '[') := by
  obtain ⟨g, r, hg, hs, hgap, hst, _⟩ := h.first
  cases g with
  | nil => exact .inr (.inl ⟨r, hs⟩)
  | cons c g =>
    rcases hgap with hgap | hgap
    · exact .inl hgap
    · cases k with
      | start => exact .inl hgap
      | br => exact .inl hgap
      | link o tail =>
        right; right
        refine ⟨rfl, hgap, ?_⟩
        generalize hts : u :: us = ts at h
        generalize hk' : Ctx.link o tail = k at h
        cases h with
        | nil => cases hts
        | @word _ g' w rest _ _ hk hw hr h => cases hts; exact absurd hgap (gapOf_ne_link _)
        | @br _ g' w rest _ _ hk hw h => cases hts; exact absurd hgap (gapOf_ne_link _)
        | @code _ g' body dot rest n _ _ hsp hd h => cases hts; exact absurd hgap (gapOf_ne_link _)
        | @link _ g' pre name v target tail' rest o' c' _ _ hk hl hv h =>
          subst hk'
          obtain ⟨w, ws, e1, e2⟩ := wordToks_ne (g := (Ctx.link o tail).gap g') (fun x hx => (hl.preOk x hx).1) (name ++ [']', o'])
          have hpre : pre = [] := hk.1
          subst hpre
          have h3 := splitWs_first (name ++ [']', o']) (c := '[') (by decide)
          rw [List.nil_append] at hts
          rw [h3] at hts
          simp only [wordToks, List.cons_append, List.cons.injEq] at hts
          rw [hts.1]
          rfl

/-- tokens that are no parts of links -/
theorem Runs.plain {k : Ctx} {s : Str} {ts : List Tok} (h : Runs k s ts) (ht : '`' ∉ s) (hp : ∀ t ∈ ts, NoPair t.text) :
    Bare s ts := by
  induction h with
  | nil h => exact .nil h
  | @word k g w rest ts hg hk hw hr h ih =>
    exact .word hg hw.bare hr (ih (fun h => ht (by simp [h])) fun t h => hp t (by simp [h]))
  | @br k g b rest ts hg hk hb h ih =>
    exact .br hg hb (ih (fun h => ht (by simp [h])) fun t h => hp t (by simp [h]))
  | @code k g body dot rest n ts hg hs hd h ih =>
    exfalso
    apply ht
    rw [ticks_cons hs.pos]
    simp
  | @link k g pre name v target tail rest o c ts hg hk hl hv h ih =>
    exfalso
    obtain ⟨ws, w, e, h1, _⟩ := hl.words
    rw [e] at hp
    have hm : ∃ g', (⟨g', w⟩ : Tok) ∈ wordToks (k.gap g) (ws ++ [w]) := by
      cases ws with
      | nil => exact ⟨_, by simp [wordToks]; rfl⟩
      | cons v ws => exact ⟨.space, by simp [wordToks]⟩
    obtain ⟨g', hm⟩ := hm
    have := (hp _ (List.mem_append_left _ hm)).ends
    rw [h1] at this
    cases this

theorem Runs.glued {k : Ctx} {s : Str} {ts : List Tok} (h : Runs k s ts) :
    Adj (fun t u => u.gap = .space ∨ Glued t.text u.text) ts := by
  have key : ∀ {k : Ctx} {rest x : Str} {ts : List Tok}, Runs k rest ts →
      Adj (fun t u => u.gap = .space ∨ Glued t.text u.text) ts →
      (∀ c, rest.head? = some c → isWs c = false → Glued x [c]) → ∀ g,
      Adj (fun t u => u.gap = .space ∨ Glued t.text u.text) (⟨g, x⟩ :: ts) := by
    intro k rest x ts h ha hc g
    refine Adj.cons ?_ ha
    intro u hu
    cases ts with
    | nil => cases hu
    | cons u' us =>
      simp only [List.head?_cons, Option.some.injEq] at hu
      subst hu
      rcases h.next with h1 | ⟨r, h1⟩ | ⟨_, _, h1⟩
      · exact .inl h1
      · right
        have hst := (h.tok u' (by simp)).1
        obtain ⟨c, q, e, hcw⟩ := hst.starts
        rcases hc c (by rw [h1, e]; rfl) hcw with ⟨d, hd, hdb⟩ | hd
        · left; exact ⟨d, by rw [e]; exact hd, hdb⟩
        · right; exact hd
      · exact .inr (.inl ⟨'[', h1, by decide⟩)
  induction h with
  | nil => exact Adj.nil
  | @word k g w rest ts hg hk hw hr h ih =>
    refine key h ih ?_ _
    intro c hc hcw
    left
    refine ⟨c, rfl, ?_⟩
    rcases hr with rfl | ⟨d, r, rfl, hd⟩ | ⟨b, r, rfl, hb⟩
    · cases hc
    · simp only [List.head?_cons, Option.some.injEq] at hc
      subst hc
      rcases hd with hd | rfl
      · rw [hcw] at hd; cases hd
      · decide
    · obtain ⟨r', rfl⟩ := hb.tag
      cases hc; decide
  | @br k g b rest ts hg hk hb h ih =>
    refine key h ih ?_ _
    intro c _ _
    right
    rcases hb with rfl | rfl | rfl | rfl <;> exact ⟨⟨'<', by decide, by decide⟩, by decide⟩
  | @code k g body dot rest n ts hg hs hd h ih =>
    refine key h ih ?_ _
    intro c _ _
    right
    obtain ⟨j, rfl⟩ : ∃ j, n = j + 1 := ⟨n - 1, by have := hs.pos; omega⟩
    refine ⟨⟨'`', by rw [ticks_cons hs.pos]; simp, by decide⟩, ?_⟩
    rw [← List.append_assoc, ← List.append_assoc, List.getLast?_append]
    rcases hd.dot with ⟨rfl, _⟩ | ⟨rfl, _⟩
    · rw [List.append_assoc, List.getLast?_append]
      simp [ticks, List.replicate_succ']
    · simp
  | @link k g pre name v target tail rest o c ts hg hk hl hv h ih =>
    obtain ⟨ws, w, e, h1, h2⟩ := hl.words
    rw [e]
    refine adj_words (fun t u h => .inl h) ?_
    intro g'
    have h3 : Adj (fun t u => u.gap = .space ∨ Glued t.text u.text) (⟨.link, target ++ c :: tail⟩ :: ts) := by
      refine Adj.cons ?_ ih
      intro u hu
      cases ts with
      | nil => cases hu
      | cons u' us =>
        simp only [List.head?_cons, Option.some.injEq] at hu
        subst hu
        clear ih
        generalize hts : u' :: us = ts' at h
        generalize hk' : Ctx.link o tail = k' at h
        cases h with
        | nil => cases hts
        | @word _ g' w rest _ hgw hk hw hr h =>
          subst hk'
          cases hts
          left
          cases g' with
          | nil => exact absurd rfl hk
          | cons => rfl
        | @br _ g' w rest _ hgw hk hw h =>
          subst hk'
          cases hts
          left
          cases g' with
          | nil => exact absurd rfl hk
          | cons => rfl
        | @code _ g' body dot rest n _ hgw hsp hd h =>
          cases hts
          right; left
          refine ⟨'`', ?_, by decide⟩
          simp only
          rw [ticks_cons hsp.pos]; rfl
        | @link _ g' pre name v target tail' rest o' c' _ hgw hk hl hv h =>
          subst hk'
          have hpre : pre = [] := hk.1
          subst hpre
          rw [List.nil_append, splitWs_first (name ++ [']', o']) (c := '[') (by decide)] at hts
          simp only [wordToks, List.cons_append, List.cons.injEq] at hts
          right; left
          rw [hts.1]
          exact ⟨'[', rfl, by decide⟩
    refine Adj.cons ?_ h3
    intro u hu
    cases hu
    right; right
    obtain ⟨q, hq, r, hr⟩ := endsPair_iff.1 h1
    simp only
    rw [hr]
    refine ⟨⟨']', by simp, by decide⟩, ?_⟩
    rw [List.getLast?_append]
    rcases hq with rfl | rfl <;> simp

theorem Adj.infix {α : Type} {R : α → α → Prop} {p q r : List α} (h : Adj R (p ++ q ++ r)) : Adj R q := by
  intro a x y b e
  exact h (p ++ a) x y (b ++ r) (by rw [e]; simp)

theorem mem_flatten_infix {α : Type} {l : List α} {ls : List (List α)} (h : l ∈ ls) : ∃ p r, ls.flatten = p ++ l ++ r := by
  obtain ⟨a, b, rfl⟩ := List.append_of_mem h
  exact ⟨a.flatten, b.flatten, by simp⟩

theorem spaced_last {t : Tok} (h : t.text ≠ []) : t.spaced.getLast? = t.text.getLast? := by
  unfold Tok.spaced
  split
  · obtain ⟨c, r, e⟩ := List.exists_cons_of_ne_nil h
    rw [e]; rfl
  · rfl

theorem label_line {l : List Tok} (ha : Adj (fun t u => u.gap = .space ∨ Glued t.text u.text) l)
    (hs : ∀ t ∈ l, Stripped t.text ∧ ¬ c!"]:" <:+: t.text) : ¬ c!"]:" <:+: (l.map Tok.spaced).flatten := by
  induction l with
  | nil => intro h; have := List.IsInfix.length_le h; simp at this
  | cons t ts ih =>
    intro h
    rw [List.map_cons, List.flatten_cons] at h
    rcases pair_append h with h | h | ⟨h1, h2⟩
    · unfold Tok.spaced at h
      split at h
      · rcases pair_append (a := [' ']) (b := t.text) h with h | h | ⟨h, _⟩
        · have := List.IsInfix.length_le h; simp at this
        · exact (hs t (by simp)).2 h
        · cases h
      · exact (hs t (by simp)).2 h
    · exact ih ha.tail (fun t ht => hs t (by simp [ht])) h
    · rw [spaced_last (hs t (by simp)).1.1] at h1
      cases ts with
      | nil => cases h2
      | cons u us =>
        obtain ⟨c, r, e, hc⟩ := (hs u (by simp)).1.starts
        rcases ha.head with hg | hg
        · simp [Tok.spaced, hg] at h2
        · have : u.gap ≠ .space := by
            intro hg; simp [Tok.spaced, hg] at h2
          simp only [List.map_cons, List.flatten_cons, Tok.spaced, this, if_false, e, List.cons_append, List.head?_cons,
            Option.some.injEq] at h2
          subst h2
          rcases hg with ⟨d, hd, hdb⟩ | ⟨_, hl⟩
          · rw [e] at hd
            cases hd
            exact absurd hdb (by decide)
          · exact hl h1

/-- A line of tokens is a line of text. -/
theorem textLine_line {l : List Tok} (hne : l ≠ []) (ha : Adj (fun t u => u.gap = .space ∨ Glued t.text u.text) l)
    (ho : ∀ t ∈ l, Opens t.text) (hs : ∀ t ∈ l, Stripped t.text ∧ ∀ c ∈ t.text, isWs c = true → c = ' ')
    (hl : (∀ t ∈ l, t.text.head? ≠ some '[') ∨ ∀ t ∈ l, ¬ c!"]:" <:+: t.text) (hst : Stripped (lineText l)) :
    TextLine (lineText l) ∧ getIndent (lineText l) = 0 := by
  obtain ⟨t, ts, rfl⟩ := List.exists_cons_of_ne_nil hne
  obtain ⟨c, r, e, hc⟩ := hst.starts
  have hi : getIndent (lineText (t :: ts)) = 0 := by
    rw [e]; simp [getIndent, lstrip_cons_of_not _ _ hc]
  refine ⟨⟨?_, by omega, ?_, ?_, ?_⟩, hi⟩
  · intro c hc hw
    simp only [lineText, List.mem_append, List.mem_flatten, List.mem_map] at hc
    rcases hc with hc | ⟨_, ⟨u, hu, rfl⟩, hc⟩
    · exact (hs t (by simp)).2 c hc hw
    · unfold Tok.spaced at hc
      split at hc
      · rcases List.mem_cons.1 hc with h | hc
        · exact h
        · exact (hs u (by simp [hu])).2 c hc hw
      · exact (hs u (by simp [hu])).2 c hc hw
  · refine (ho t (by simp)).append (hs t (by simp)).1.starts ?_
    rintro ⟨d, q, e, hd⟩
    cases ts with
    | nil => cases e
    | cons u us =>
      have hne := (hs u (by simp)).1.1
      obtain ⟨d', q', e'⟩ := List.exists_cons_of_ne_nil hne
      rcases ha.head with hg | hg
      · simp only [List.map_cons, List.flatten_cons, Tok.spaced, hg, if_true, List.cons_append, List.cons.injEq] at e
        rw [← e.1] at hd; exact absurd hd (by decide)
      · have hgap : u.gap ≠ .space := by
          intro hg
          simp only [List.map_cons, List.flatten_cons, Tok.spaced, hg, if_true, List.cons_append, List.cons.injEq] at e
          rw [← e.1] at hd; exact absurd hd (by decide)
        rcases hg with ⟨x, hx, hxb⟩ | hg
        · left
          refine ⟨x, ?_, hxb⟩
          rw [e'] at hx
          simp [Tok.spaced, hgap, e']
          simpa using hx
        · exact .inr hg
  · intro hf
    have ht : t.text.head? = some '[' := by
      obtain ⟨d, q, e', hd⟩ := (hs t (by simp)).1.starts
      have : firstCh (lineText (t :: ts)) = some d := by
        unfold firstCh
        rw [lineText, e', List.cons_append, lstrip_cons_of_not _ _ hd]; rfl
      rw [this] at hf
      rw [e']; exact hf
    rcases hl with hl | hl
    · exact absurd ht (hl t (by simp))
    · have := label_line (l := ⟨.glue, t.text⟩ :: ts) (Adj.cons (fun y hy => by
          cases ts with
          | nil => cases hy
          | cons u us => cases hy; exact ha.head) ha.tail) (by
        intro u hu
        rcases List.mem_cons.1 hu with rfl | hu
        · exact ⟨(hs t (by simp)).1, hl t (by simp)⟩
        · exact ⟨(hs u (by simp [hu])).1, hl u (by simp [hu])⟩)
      exact this
  · rintro ⟨q, e⟩
    obtain ⟨q', d, e', hd⟩ := hst.ends
    rw [e'] at e
    have := congrArg List.getLast? e
    rw [List.getLast?_concat, List.getLast?_append] at this
    simp at this
    subst this
    revert hd; decide

/-- Tokens laid out in lines are text that stands for the same tokens, apart from the new spaces. -/
theorem text_layLines {ts : List Tok} (h : Layable ts) (w : Width) :
    Text (layLines w ts) (settle w ts) ∧ layLines w ts ≠ [] ∧ ∀ l ∈ layLines w ts, Stripped l ∧ getIndent l = 0 := by
  obtain ⟨s, hs⟩ := h.inline
  have hok := layLines_ok hs (spaces_noLB hs.spaces) w
  have htok := hs.runs.tok
  have hline : ∀ l ∈ layLines w ts, TextLine l ∧ getIndent l = 0 := by
    intro x hx
    have hxs := (hok x hx).2
    obtain ⟨l, hl, rfl⟩ := List.mem_map.1 hx
    have hfl := lay_flatten w ts []
    obtain ⟨p, r, e⟩ := mem_flatten_infix hl
    rw [hfl, List.nil_append] at e
    have hmem : ∀ t ∈ l, t ∈ ts := by intro t ht; rw [e]; simp [ht]
    have hg := hs.runs.glued
    rw [e] at hg
    refine textLine_line (lay_ne w ts [] l hl) hg.infix (fun t ht => h.opens t (hmem t ht)) ?_ ?_ hxs
    · intro t ht
      exact ⟨(htok t (hmem t ht)).1, fun c hc hw => hs.spaces c ((htok t (hmem t ht)).2.2 c hc) hw⟩
    · rcases h.label with hl | hl
      · exact .inl fun t ht => hl t (hmem t ht)
      · exact .inr fun t ht => hl t (hmem t ht)
  have hin := inline_settle hs w
  have hr := settle_respaced w ts
  have htext : ∀ t ∈ settle w ts, ∃ u ∈ ts, t.text = u.text := by
    clear hin
    generalize settle w ts = us at hr
    clear hline hok htok hs h
    induction hr with
    | nil => intro t ht; cases ht
    | @cons t t' ts ts' ht hg _ ih =>
      intro x hx
      rcases List.mem_cons.1 hx with rfl | hx
      · exact ⟨t, by simp, ht⟩
      · obtain ⟨u, hu, e⟩ := ih x hx
        exact ⟨u, by simp [hu], e⟩
  have hne : settle w ts ≠ [] := by
    intro e
    rw [e] at hr
    have := h.ne
    cases hr; exact this rfl
  refine ⟨⟨fun l hl => (hline l hl).1, ?_, ⟨hne, ⟨_, hin⟩, ?_, ?_⟩⟩, ?_, fun l hl => ⟨(hok l hl).2, (hline l hl).2⟩⟩
  · have : (layLines w ts).map strip = layLines w ts := by
      conv => rhs; rw [← List.map_id (layLines w ts)]
      exact List.map_congr_left fun l hl => (hok l hl).2.2
    rw [this]; exact hin
  · intro t ht
    obtain ⟨u, hu, e⟩ := htext t ht
    rw [e]; exact h.opens u hu
  · rcases h.label with hl | hl
    · left; intro t ht; obtain ⟨u, hu, e⟩ := htext t ht; rw [e]; exact hl u hu
    · right; intro t ht; obtain ⟨u, hu, e⟩ := htext t ht; rw [e]; exact hl u hu
  · intro e
    have hfl := lay_flatten w ts []
    have : lay w [] ts = [] := List.map_eq_nil_iff.1 e
    rw [this] at hfl
    exact h.ne hfl.symm

theorem Text.ne {ls : List Str} {ts : List Tok} (h : Text ls ts) : ls ≠ [] := by
  rintro rfl
  have h1 := h.inline
  have h2 : Inline [] [] := ⟨.nil (by simp), rfl, by simp, rfl⟩
  exact h.layable.ne (inline_unique h1 h2)

theorem Text.unique {ls : List Str} {ts us : List Tok} (h : Text ls ts) (h' : Text ls us) : ts = us :=
  inline_unique h.inline h'.inline

theorem wrapInput_line {s : Str} (h : NoLB s) (hs : strip s = s) : wrapInput s = s := by
  cases e : s with
  | nil => rfl
  | cons c r =>
    rw [← e, wrapInput, splitlines_single s h (by rw [e]; simp)]
    simp [pyJoin, hs]

theorem Text.wrap {ls : List Str} {ts : List Tok} (h : Text ls ts) (w : Width) :
    MF.wrap (parContent ls) w = .ok (pyJoin ['\n'] (layLines w ts)) := by
  apply wrap_fill
  have hin := h.inline
  have hn : NoLB (parContent ls) := spaces_noLB hin.spaces
  rwa [wrapInput_line hn hin.stripped]

/-- The tokens of plain words. -/
def plainToks : List Str → List Tok
  | [] => []
  | w :: ws => ⟨.glue, w⟩ :: ws.map fun v => ⟨.space, v⟩

theorem runs_words (n : Nat) : ∀ s : Str, s.length ≤ n → (∀ w ∈ splitWs s, PlainWord w) →
    Runs .start s (match splitWs s with
      | [] => []
      | w :: ws => ⟨gapOf (s.takeWhile isWs), w⟩ :: ws.map fun v => ⟨.space, v⟩) := by
  induction n with
  | zero =>
    intro s hs _
    have : s = [] := List.eq_nil_of_length_eq_zero (by omega)
    subst this
    exact .nil (by simp)
  | succ n ih =>
    intro s hs hw
    have hsplit : s = s.takeWhile isWs ++ lstrip s := (List.takeWhile_append_dropWhile (p := isWs) (l := s)).symm
    have hws : ∀ c ∈ s.takeWhile isWs, isWs c = true := takeWhile_all isWs s
    rcases lstrip_head s with h0 | ⟨c, r, h0, hc⟩
    · rw [h0, List.append_nil] at hsplit
      have hall : ∀ c ∈ s, isWs c = true := by rw [hsplit]; exact hws
      rw [splitWs_all_ws hall]
      exact .nil hall
    · have h1 : splitWs s = (c :: r.takeWhile (fun x => !isWs x)) :: splitWs (r.dropWhile (fun x => !isWs x)) := by
        rw [hsplit, splitWs_prepend_all hws, h0, splitWs_first r hc]
      have hlen : (r.dropWhile (fun x => !isWs x)).length ≤ n := by
        have h2 := congrArg List.length hsplit
        rw [h0] at h2
        have h3 := congrArg List.length (List.takeWhile_append_dropWhile (p := fun x => !isWs x) (l := r))
        rw [List.length_append] at h2 h3
        rw [List.length_cons] at h2
        have : s.length = List.length s := rfl
        omega
      have h4 := ih _ hlen (fun w hm => hw w (by rw [h1]; simp [hm]))
      rw [h1]
      have hend : WordEnd (r.dropWhile (fun x => !isWs x)) := by
        rcases dropWhile_head (fun x => !isWs x) r with h3 | ⟨d, r', h3, h4⟩
        · exact .inl h3
        · exact .inr (.inl ⟨d, r', h3, .inl (by simpa using h4)⟩)
      have h5 := Runs.word (k := .start) (w := c :: r.takeWhile (fun x => !isWs x)) hws trivial (hw _ (by rw [h1]; simp)) hend h4
      have h6 : s.takeWhile isWs ++ (c :: r.takeWhile (fun x => !isWs x) ++ r.dropWhile (fun x => !isWs x)) = s := by
        rw [List.cons_append, List.takeWhile_append_dropWhile, ← h0]; exact hsplit.symm
      rw [h6] at h5
      refine (congrArg (Runs .start s) ?_).mp h5
      congr 1
      split
      · rename_i e; rw [e]; rfl
      · rename_i w ws e
        rw [e, List.map_cons]
        congr 2
        rcases dropWhile_head (fun x => !isWs x) r with h3 | ⟨d, r', h3, h4⟩
        · rw [h3] at e; cases e
        · have : isWs d = true := by simpa using h4
          rw [h3, List.takeWhile_cons, this]; rfl

end MF
