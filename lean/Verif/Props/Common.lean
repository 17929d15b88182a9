import Verif.Props.CommonRead
import Verif.Props.Tree
/-!
# C125: how CommonMark reads single lines

-/

namespace MF

open CM (Piece Ev Leaf Ctr State)

/-! ## Lines -/

theorem cm_lead {i : Nat} {t : Str} (h : t.head? ≠ some ' ') : CM.indent (blanks i ++ t) = i ∧ CM.text (blanks i ++ t) = t := by
  induction i with
  | zero =>
    cases t with
    | nil => exact ⟨rfl, rfl⟩
    | cons c r =>
      have : (c == ' ') = false := by simpa using h
      simp [CM.indent, CM.text, blanks, this]
  | succ i ih =>
    have e : blanks (i + 1) ++ t = ' ' :: (blanks i ++ t) := rfl
    rw [e]
    constructor
    · have : CM.indent (' ' :: (blanks i ++ t)) = CM.indent (blanks i ++ t) + 1 := by simp [CM.indent]
      rw [this, ih.1]
    · have : CM.text (' ' :: (blanks i ++ t)) = CM.text (blanks i ++ t) := by simp [CM.text]
      rw [this, ih.2]

theorem cm_split (l : Str) : l = blanks (CM.indent l) ++ CM.text l ∧ (CM.text l).head? ≠ some ' ' := by
  induction l with
  | nil => exact ⟨rfl, by simp [CM.text]⟩
  | cons c r ih =>
    by_cases hc : c = ' '
    · subst hc
      have e1 : CM.indent (' ' :: r) = CM.indent r + 1 := by simp [CM.indent]
      have e2 : CM.text (' ' :: r) = CM.text r := by simp [CM.text]
      rw [e1, e2]
      refine ⟨?_, ih.2⟩
      show ' ' :: r = ' ' :: (blanks (CM.indent r) ++ CM.text r)
      rw [← ih.1]
    · have hb : (c == ' ') = false := by simpa using hc
      have e1 : CM.indent (c :: r) = 0 := by simp [CM.indent, hb]
      have e2 : CM.text (c :: r) = c :: r := by simp [CM.text, hb]
      rw [e1, e2]
      exact ⟨rfl, by simpa using hc⟩

theorem cm_blank_false {l : Str} {c : Char} (hm : c ∈ l) (hc : c ≠ ' ') : CM.blank l = false := by
  cases h : CM.blank l with
  | false => rfl
  | true =>
    have := List.all_eq_true.1 h c hm
    exact absurd (by simpa using this) hc

theorem cm_blank_text {l : Str} (h : CM.blank l = true) : CM.text l = [] := by
  induction l with
  | nil => rfl
  | cons c r ih =>
    have : c = ' ' ∧ CM.blank r = true := by simpa [CM.blank] using h
    rw [this.1]
    have e2 : CM.text (' ' :: r) = CM.text r := by simp [CM.text]
    rw [e2, ih this.2]

theorem cm_blank_iff (l : Str) : CM.blank l = true ↔ CM.text l = [] := by
  refine ⟨cm_blank_text, fun h => ?_⟩
  have := (cm_split l).1
  rw [h, List.append_nil] at this
  rw [this]
  simp [CM.blank, blanks]

theorem unindent_length (n : Nat) (l : Str) : (CM.unindent n l).length ≤ l.length := by
  induction n generalizing l with
  | zero => simp [CM.unindent]
  | succ n ih =>
    match l with
    | [] => simp [CM.unindent]
    | c :: r =>
      by_cases hc : c = ' '
      · subst hc
        have := ih r
        simp only [CM.unindent, List.length_cons]; omega
      · have : CM.unindent (n + 1) (c :: r) = c :: r := by
          unfold CM.unindent
          split
          · rename_i h; cases h; exact absurd rfl hc
          · rfl
        rw [this]; exact Nat.le_refl _

/-- removing exactly the spaces that are there -/
theorem unindent_blanks (n : Nat) (l : Str) : CM.unindent n (blanks n ++ l) = l := by
  induction n with
  | zero => simp [CM.unindent, blanks]
  | succ n ih => exact ih

theorem text_length (l : Str) : (CM.text l).length ≤ l.length := (List.dropWhile_suffix _).sublist.length_le

theorem marker_length {t : Str} {m : CM.Mark} {k w : Nat} {r : Str} (h : CM.marker t = some (m, k, w, r)) :
    r.length < t.length := by
  cases t with
  | nil => simp [CM.marker] at h
  | cons c s =>
    simp only [CM.marker] at h
    split at h
    · injection h with h; injection h with _ h; injection h with _ h; injection h with _ h; subst h; simp
    · split at h
      · cases h
      · rename_i d s' e
        split at h
        · injection h with h; injection h with _ h; injection h with _ h; injection h with _ h; subst h
          have : ((c :: s).dropWhile isDigit).length ≤ (c :: s).length := (List.dropWhile_suffix _).sublist.length_le
          rw [e] at this
          simp at this ⊢; omega
        · cases h

/-- there is always enough fuel -/
theorem start_fuel (n : Nat) : ∀ (m : Nat) (l : Str), l.length < n → l.length < m → CM.start n l = CM.start m l := by
  induction n with
  | zero => intro m l h; omega
  | succ n ih =>
    intro m l h1 h2
    cases m with
    | zero => omega
    | succ m =>
      simp only [CM.start]
      have hq : (CM.text l).head? = some '>' →
          CM.start n (CM.unindent 1 (CM.text l).tail) = CM.start m (CM.unindent 1 (CM.text l).tail) := by
        intro hh
        have : (CM.unindent 1 (CM.text l).tail).length < l.length := by
          have h3 := unindent_length 1 (CM.text l).tail
          have h4 := text_length l
          cases ht : CM.text l with
          | nil => rw [ht] at hh; cases hh
          | cons a b => rw [ht] at h3 h4; simp at h3 h4 ⊢; omega
        exact ih m _ (by omega) (by omega)
      have hm : ∀ mk k w r, CM.marker (CM.text l) = some (mk, k, w, r) →
          CM.start n (r.drop (CM.padding r)) = CM.start m (r.drop (CM.padding r)) := by
        intro mk k w r he
        have h3 := marker_length he
        have h4 := text_length l
        have h5 : (r.drop (CM.padding r)).length ≤ r.length := by simp
        exact ih m _ (by omega) (by omega)
      split
      · rfl
      · split
        · rfl
        · split
          · rename_i hh; rw [hq hh]
          · split
            · rfl
            · split
              · rfl
              · split
                · rfl
                · split
                  · rename_i hh; rw [hm _ _ _ _ hh]
                  · rfl

theorem start_opens {n : Nat} {l : Str} (h : l.length < n) : CM.start n l = CM.opens l :=
  start_fuel _ _ _ h (by omega)

/-! ## What lines open -/

theorem opens_blank {l : Str} (h : CM.blank l = true) : CM.opens l = some (⟨[], .none⟩, []) := by
  simp only [CM.opens, CM.start, h, if_true]

/-- what a line with text opens -/
def opensText (i : Nat) (t : Str) : Option (State × List Ev) :=
  if t.head? = some '>' then CM.under .quote [.quote] (CM.opens (CM.unindent 1 t.tail))
  else match CM.atx t with
  | some (k, s) => some (⟨[], .none⟩, [.heading k ((splitWs s).map .word)])
  | none => match CM.fence t with
  | some (f, k, info) => some (⟨[], .fence f k i info []⟩, [])
  | none =>
    if CM.isRule t then some (⟨[], .none⟩, [.rule])
    else match CM.marker t with
    | some (m, k, w, r) =>
      if CM.blank r then none
      else CM.under (.item m (i + w + CM.padding r) false false) [.list m k, .item] (CM.opens (r.drop (CM.padding r)))
    | none =>
      if t.head? = some '<' then none
      else CM.grow [] t

theorem opens_text {i : Nat} {c : Char} {r : Str} (hi : i < 4) (hc : c ≠ ' ') :
    CM.opens (blanks i ++ c :: r) = opensText i (c :: r) := by
  obtain ⟨e1, e2⟩ := cm_lead (i := i) (t := c :: r) (by simpa using hc)
  have hb : CM.blank (blanks i ++ c :: r) = false := cm_blank_false (c := c) (by simp) hc
  simp only [CM.opens, CM.start, hb, e1, e2, if_neg (show ¬ 4 ≤ i by omega), if_false, Bool.false_eq_true]
  unfold opensText
  have hlen : (c :: r).length ≤ (blanks i ++ c :: r).length := by simp
  split
  · rw [start_opens]
    have := unindent_length 1 (c :: r).tail
    simp at this hlen ⊢; omega
  · rcases ha : CM.atx (c :: r) with _ | ⟨k, x⟩
    · rcases hf : CM.fence (c :: r) with _ | ⟨f, k, x⟩
      · simp only []
        split
        · rfl
        · rcases hm : CM.marker (c :: r) with _ | ⟨m, k, w, x⟩
          · rfl
          · simp only []
            have := marker_length hm
            rw [start_opens (n := (blanks i ++ c :: r).length)]
            have h5 : (x.drop (CM.padding x)).length ≤ x.length := by simp
            omega
      · rfl
    · rfl

theorem opens_code {l : Str} (hb : CM.blank l = false) (hi : 4 ≤ CM.indent l) :
    CM.opens l = some (⟨[], .code [CM.unindent 4 l]⟩, []) := by
  simp only [CM.opens, CM.start, hb, if_false, Bool.false_eq_true, if_pos hi]

theorem opens_quote (r : Str) : CM.opens ('>' :: r) = CM.under .quote [.quote] (CM.opens (CM.unindent 1 r)) := by
  have := @opens_text 0 '>' r (by omega) (by decide)
  rw [show blanks 0 ++ '>' :: r = '>' :: r from rfl] at this
  rw [this]; rfl

theorem takeWhile_rep {c : Char} {k : Nat} {t : Str} (ht : t.head? ≠ some c) :
    (List.replicate k c ++ t).takeWhile (· == c) = List.replicate k c ∧ (List.replicate k c ++ t).dropWhile (· == c) = t := by
  induction k with
  | zero =>
    cases t with
    | nil => exact ⟨rfl, rfl⟩
    | cons a b =>
      have : (a == c) = false := by simpa using ht
      simp [this]
  | succ k ih => simp only [List.replicate_succ, List.cons_append, List.takeWhile_cons, List.dropWhile_cons, beq_self_eq_true,
      if_true, ih.1, ih.2, and_self]

theorem atx_of {k : Nat} {t : Str} (h1 : 1 ≤ k) (h6 : k ≤ 6) (ht : t.head? = some ' ') :
    CM.atx (List.replicate k '#' ++ t) = some (k, CM.unclose (strip t)) := by
  obtain ⟨e1, e2⟩ := @takeWhile_rep '#' k t (by rw [ht]; decide)
  simp only [CM.atx, e1, e2, List.length_replicate]
  rw [if_pos ⟨h1, h6, .inr ht⟩]

theorem opens_heading {i k : Nat} {t : Str} (hi : i < 4) (h1 : 1 ≤ k) (h6 : k ≤ 6) (ht : t.head? = some ' ') :
    CM.opens (blanks i ++ (List.replicate k '#' ++ t)) =
      some (⟨[], .none⟩, [.heading k ((splitWs (CM.unclose (strip t))).map .word)]) := by
  have ha := atx_of h1 h6 ht
  obtain ⟨k', rfl⟩ : ∃ k', k = k' + 1 := ⟨k - 1, by omega⟩
  rw [List.replicate_succ, List.cons_append] at ha ⊢
  rw [opens_text hi (by decide)]
  unfold opensText
  rw [if_neg (by simp), ha]

theorem atx_none {t : Str} (h : t.head? ≠ some '#') : CM.atx t = none := by
  have : t.takeWhile (· == '#') = [] := by
    cases t with
    | nil => rfl
    | cons a b =>
      have : (a == '#') = false := by simpa using h
      simp [this]
  simp only [CM.atx, this]
  rw [if_neg (by simp)]

theorem fence_none {t : Str} (h : t.head? ≠ some '`' ∧ t.head? ≠ some '~') : CM.fence t = none := by
  cases t with
  | nil => rfl
  | cons a b =>
    simp only [CM.fence]
    rw [if_neg]
    rintro ⟨⟨rfl, _⟩ | rfl, _⟩
    · exact h.1 rfl
    · exact h.2 rfl

theorem isRule_of {c : Char} {l : Str} (hc : c = '*' ∨ c = '_' ∨ c = '-') (hl : ∀ x ∈ l, x = ' ' ∨ x = c)
    (h3 : 3 ≤ (l.filter (· == c)).length) : CM.isRule l = true := by
  unfold CM.isRule
  rw [List.any_eq_true]
  refine ⟨c, by rcases hc with rfl | rfl | rfl <;> decide, ?_⟩
  rw [Bool.and_eq_true, List.all_eq_true]
  exact ⟨fun x hx => by rcases hl x hx with rfl | rfl <;> simp, by simpa using h3⟩

theorem opens_rule {i : Nat} {c : Char} {l : Str} (hi : i < 4) (hc : c = '*' ∨ c = '_' ∨ c = '-') (hh : l.head? = some c)
    (hl : ∀ x ∈ l, x = ' ' ∨ x = c) (h3 : 3 ≤ (l.filter (· == c)).length) :
    CM.opens (blanks i ++ l) = some (⟨[], .none⟩, [.rule]) := by
  have hr := isRule_of hc hl h3
  cases l with
  | nil => cases hh
  | cons a b =>
    injection hh with hh; subst hh
    rw [opens_text hi (by rcases hc with rfl | rfl | rfl <;> decide)]
    unfold opensText
    rw [if_neg (by rcases hc with rfl | rfl | rfl <;> simp), atx_none (by rcases hc with rfl | rfl | rfl <;> simp),
      fence_none (by rcases hc with rfl | rfl | rfl <;> simp)]
    simp only [hr, if_true]

theorem fence_of {f : Char} {k : Nat} {info : Str} (hf : f = '`' ∨ f = '~') (hk : 3 ≤ k) (hi : info.head? ≠ some f)
    (hi2 : f = '`' → '`' ∉ info) : CM.fence (List.replicate k f ++ info) = some (f, k, strip info) := by
  obtain ⟨e1, e2⟩ := @takeWhile_rep f k info hi
  obtain ⟨k', rfl⟩ : ∃ k', k = k' + 1 := ⟨k - 1, by omega⟩
  rw [List.replicate_succ, List.cons_append] at e1 e2 ⊢
  simp only [CM.fence, e1, e2, List.length_cons, List.length_replicate]
  rw [if_pos]
  refine ⟨?_, hk⟩
  rcases hf with rfl | rfl
  · exact .inl ⟨rfl, hi2 rfl⟩
  · exact .inr rfl

theorem opens_fence {f : Char} {k : Nat} {info : Str} (hf : f = '`' ∨ f = '~') (hk : 3 ≤ k) (hi : info.head? ≠ some f)
    (hi2 : f = '`' → '`' ∉ info) :
    CM.opens (List.replicate k f ++ info) = some (⟨[], .fence f k 0 (strip info) []⟩, []) := by
  have h := fence_of hf hk hi hi2
  obtain ⟨k', rfl⟩ : ∃ k', k = k' + 1 := ⟨k - 1, by omega⟩
  rw [List.replicate_succ, List.cons_append] at h ⊢
  have := @opens_text 0 f (List.replicate k' f ++ info) (by omega) (by rcases hf with rfl | rfl <;> decide)
  rw [show blanks 0 ++ f :: (List.replicate k' f ++ info) = f :: (List.replicate k' f ++ info) from rfl] at this
  rw [this]
  unfold opensText
  rw [if_neg (by rcases hf with rfl | rfl <;> simp), atx_none (by rcases hf with rfl | rfl <;> simp), h]

/-! ## Lines of paragraphs -/

/-- text that starts with a word of prose -/
structure CmText (t : Str) : Prop where
  split : ∃ w rest, t = w ++ rest ∧ CmWord w ∧ (rest = [] ∨ rest.head? = some ' ')

theorem CmText.first {t : Str} (h : CmText t) : ∃ c r, t = c :: r ∧ c ∉ c!" >#<|" := by
  obtain ⟨w, rest, rfl, hw, _⟩ := h.split
  obtain ⟨c, r, e⟩ := List.exists_cons_of_ne_nil hw.ne
  have h1 := hw.start c (by rw [e]; rfl)
  have h2 : c ≠ '<' := by rintro rfl; exact hw.noHtml (by rw [e]; rfl)
  have h3 := hw.noWs c (by rw [e]; simp)
  have h4 : c ≠ ' ' := by rintro rfl; exact absurd h3 (by decide)
  refine ⟨c, r ++ rest, by rw [e]; rfl, ?_⟩
  simp at h1 ⊢
  exact ⟨h4, h1.2.1, h1.1, h2, h1.2.2⟩

theorem CmText.head {t : Str} (h : CmText t) {x : Char} (hx : x ∈ c!" >#<|") : t.head? ≠ some x := by
  obtain ⟨c, r, rfl, hc⟩ := h.first
  intro e
  injection e with e
  subst e
  exact hc hx

theorem CmText.fence {t : Str} (h : CmText t) : CM.fence t = none := by
  obtain ⟨w, rest, rfl, hw, hr⟩ := h.split
  obtain ⟨c, r, e⟩ := List.exists_cons_of_ne_nil hw.ne
  subst e
  simp only [CM.fence, List.cons_append]
  rw [if_neg]
  rintro ⟨hc, h3⟩
  have hcx : c ∈ c!"`~" := by rcases hc with ⟨rfl, _⟩ | rfl <;> decide
  obtain ⟨x, hx, hxc⟩ := hw.fence c hcx
  have hcs : c ≠ ' ' := by rcases hc with ⟨rfl, _⟩ | rfl <;> decide
  -- the first three characters would be the same
  have htk : ∀ y ∈ (c :: (r ++ rest)).take 3, y = c := by
    intro y hy
    have hp : (c :: (r ++ rest)).takeWhile (· == c) <+: c :: (r ++ rest) := List.takeWhile_prefix _
    have : (c :: (r ++ rest)).take 3 <+: (c :: (r ++ rest)).takeWhile (· == c) :=
      List.prefix_of_prefix_length_le (List.take_prefix _ _) hp (by
        have := List.length_take_le 3 (c :: (r ++ rest)); omega)
    have hm := this.sublist.subset hy
    have := List.all_eq_true.1 (List.all_takeWhile (p := (· == c)) (l := c :: (r ++ rest))) y hm
    simpa using this
  have : x ∈ (c :: (r ++ rest)).take 3 := by
    have h2 : (c :: r).take 3 <+: ((c :: r) ++ rest).take 3 := by
      rw [List.take_append]
      exact List.prefix_append _ _
    exact h2.sublist.subset hx
  exact hxc (htk x this)

theorem CmText.rule {t : Str} (h : CmText t) : CM.isRule t = false := by
  obtain ⟨w, rest, rfl, hw, hr⟩ := h.split
  cases hx : CM.isRule (w ++ rest) with
  | false => rfl
  | true =>
    unfold CM.isRule at hx
    obtain ⟨c, hc, h2⟩ := List.any_eq_true.1 hx
    rw [Bool.and_eq_true, List.all_eq_true] at h2
    obtain ⟨y, hy, hyc⟩ := hw.rule c (by
      have : c = '*' ∨ c = '-' ∨ c = '_' := by simpa using hc
      rcases this with rfl | rfl | rfl <;> decide)
    have := h2.1 y (List.mem_append.2 (.inl hy))
    have hyw := hw.noWs y hy
    rw [Bool.or_eq_true] at this
    rcases this with e | e
    · have : y = ' ' := by simpa using e
      subst this; exact absurd hyw (by decide)
    · exact absurd (by simpa using e) hyc

theorem CmText.underline {t : Str} (h : CmText t) : CM.underline t = none := by
  obtain ⟨w, rest, rfl, hw, hr⟩ := h.split
  have key : ∀ x, x ∈ c!"=-" → ¬ ((w ++ rest).head? = some x ∧ (rstripBy (· == ' ') (w ++ rest)).all (· == x) = true) := by
    rintro x hx ⟨_, h2⟩
    obtain ⟨y, hy, hyc⟩ := hw.rule x (by
      have : x = '=' ∨ x = '-' := by simpa using hx
      rcases this with rfl | rfl <;> decide)
    have hm : y ∈ rstripBy (· == ' ') (w ++ rest) := by
      obtain ⟨t, e1, e2⟩ := rstripBy_split (· == ' ') (w ++ rest)
      have : y ∈ rstripBy (· == ' ') (w ++ rest) ++ t := by rw [← e1]; simp [hy]
      rcases List.mem_append.1 this with h | h
      · exact h
      · have := e2 y h
        have hyw := hw.noWs y hy
        have : y = ' ' := by simpa using this
        rw [this] at hyw; exact absurd hyw (by decide)
    exact hyc (by simpa using List.all_eq_true.1 h2 y hm)
  unfold CM.underline
  rw [if_neg (key '=' (by decide)), if_neg (key '-' (by decide))]

theorem word_first {w rest : Str} (hne : w ≠ []) (hw : ∀ c ∈ w, isWs c = false) (hr : rest = [] ∨ rest.head? = some ' ') :
    ∃ u, splitWs (w ++ rest) = w :: u := by
  cases rest with
  | nil => exact ⟨[], by rw [List.append_nil, splitWs_self hne hw]⟩
  | cons c r =>
    have : c = ' ' := by simpa using hr
    subst this
    rw [splitWs_append_ws _ _ _ (by decide), splitWs_self hne hw]
    exact ⟨_, rfl⟩

theorem digit_ws {c : Char} (h : isDigit c = true) : isWs c = false := by
  simp only [isDigit, Bool.and_eq_true, decide_eq_true_eq] at h
  simp only [isWs, Bool.or_eq_false_iff, Bool.and_eq_false_iff, decide_eq_false_iff_not, beq_eq_false_iff_ne]
  omega

theorem CmText.marker {t : Str} (h : CmText t) : CM.marker t = none := by
  obtain ⟨w, rest, rfl, hw, hr⟩ := h.split
  obtain ⟨c, r, e⟩ := List.exists_cons_of_ne_nil hw.ne
  subst e
  simp only [CM.marker, List.cons_append]
  rw [if_neg]
  · split
    · rfl
    · rename_i d s hd
      rw [if_neg]
      rintro ⟨h1, _, h3, h4⟩
      -- then the word would be digits and a delimiter
      have hsp : (c :: (r ++ rest)) = (c :: (r ++ rest)).takeWhile isDigit ++ d :: s := by
        rw [← hd, List.takeWhile_append_dropWhile]
      have hds : ∀ x ∈ (c :: (r ++ rest)).takeWhile isDigit, isDigit x = true :=
        fun x hx => List.all_eq_true.1 List.all_takeWhile x hx
      generalize hD : (c :: (r ++ rest)).takeWhile isDigit = ds at *
      have hdw : isWs d = false := by rcases h3 with rfl | rfl <;> decide
      have hw1 : splitWs ((c :: r) ++ rest) = splitWs ((ds ++ [d]) ++ s) := by
        rw [show (c :: r) ++ rest = c :: (r ++ rest) from rfl, hsp]; simp
      have hw2 : ∃ u, splitWs ((c :: r) ++ rest) = (c :: r) :: u := word_first hw.ne hw.noWs hr
      have hw3 : ∃ u, splitWs ((ds ++ [d]) ++ s) = (ds ++ [d]) :: u := by
        refine word_first (by simp) ?_ h4
        intro x hx
        rcases List.mem_append.1 hx with hx | hx
        · exact digit_ws (hds x hx)
        · rw [List.mem_singleton.1 hx]; exact hdw
      obtain ⟨u, hu⟩ := hw2
      obtain ⟨v, hv⟩ := hw3
      rw [hu, hv] at hw1
      have he := (List.cons.inj hw1).1
      rcases h3 with rfl | rfl
      · exact hw.number ⟨ds, he, hds⟩
      · exact hw.noParen ⟨ds, he, hds⟩
  · rintro ⟨hc, hn⟩
    -- the word would be the marker
    obtain ⟨y, hy, hyc⟩ := hw.rule c (by rcases hc with rfl | rfl | rfl <;> decide)
    cases r with
    | nil => simp at hy; exact hyc hy
    | cons a b =>
      rcases hn with hn | hn
      · simp at hn
      · simp at hn
        have := hw.noWs a (by simp)
        rw [hn] at this
        exact absurd this (by decide)

theorem grow_of {ls : List Str} {l : Str} (h : CM.defines (ls ++ [l]) = false) :
    CM.grow ls l = some (⟨[], .par (ls ++ [l])⟩, []) := by
  simp only [CM.grow, h, Bool.false_eq_true, if_false]

theorem defines_left {a b : List Str} (h : CM.defines (a ++ b) = false) : CM.defines a = false := by
  cases a with
  | nil => rfl
  | cons l a =>
    simp only [CM.defines, List.cons_append, List.headD_cons, Bool.and_eq_false_iff] at h ⊢
    refine h.imp_right fun h => ?_
    rw [← List.cons_append, List.any_append, Bool.or_eq_false_iff] at h
    exact h.1

theorem defines_start {ls : List Str} (h : ∀ l, ls.head? = some l → l.head? ≠ some '[') : CM.defines ls = false := by
  cases ls with
  | nil => rfl
  | cons l ls =>
    have := h l rfl
    simp [CM.defines, this]

theorem defines_none {ls : List Str} (h : ∀ l ∈ ls, CM.labelled l = false) : CM.defines ls = false := by
  simp only [CM.defines, Bool.and_eq_false_iff]
  right
  rw [List.any_eq_false]
  intro l hl
  rw [h l hl]
  simp

theorem defines_cases {ls : List Str} (h : CM.defines ls = false) :
    (∀ l, ls.head? = some l → l.head? ≠ some '[') ∨ ∀ l ∈ ls, CM.labelled l = false := by
  simp only [CM.defines, Bool.and_eq_false_iff] at h
  rcases h with h | h
  · left
    intro l hl
    cases ls with
    | nil => cases hl
    | cons a ls => cases hl; simpa using h
  · right
    intro l hl
    have := List.any_eq_false.1 h l hl
    simpa using this

theorem labelled_append {a b : Str} (h : a.getLast? ≠ some ']' ∨ b.head? ≠ some ':') :
    CM.labelled (a ++ b) = (CM.labelled a || CM.labelled b) := by
  induction a with
  | nil => rfl
  | cons c a ih =>
    cases a with
    | nil =>
      have : (c == ']' && b.head? == some ':') = false := by
        rcases h with h | h
        · simp at h; simp [h]
        · simp [h]
      show ((c == ']' && b.head? == some ':') || CM.labelled b) = _
      rw [this]
      simp [CM.labelled]
    | cons d a =>
      have := ih (by simpa [List.getLast?_cons] using h)
      show ((c == ']' && (d :: (a ++ b)).head? == some ':') || CM.labelled ((d :: a) ++ b)) = _
      rw [this]
      simp only [CM.labelled, List.head?_cons, Bool.or_assoc]

theorem CmText.opens {i : Nat} {t : Str} (h : CmText t) (h2 : CM.defines [t] = false) (hi : i < 4) :
    CM.opens (blanks i ++ t) = some (⟨[], .par [t]⟩, []) := by
  have hm := h.marker
  have hf := h.fence
  have hr := h.rule
  have ha := atx_none (h.head (x := '#') (by decide))
  have hq := h.head (x := '>') (by decide)
  have h1 := h.head (x := '<') (by decide)
  obtain ⟨c, r, rfl, hc⟩ := h.first
  rw [opens_text hi (by rintro rfl; exact hc (by decide))]
  unfold opensText
  rw [if_neg hq, ha, hf]
  simp only [hr, hm, Bool.false_eq_true, if_false]
  rw [if_neg h1, grow_of h2]
  rfl

theorem CmText.interrupts {t : Str} (h : CmText t) : CM.interrupts t = false := by
  have hq := h.head (x := '>') (by decide)
  unfold CM.interrupts
  rw [atx_none (h.head (x := '#') (by decide)), h.fence, h.rule, h.marker]
  simp [hq]

/-- a further line of a paragraph -/
theorem CmText.step {i : Nat} {t : Str} (h : CmText t) (hi : i < 4) {ls : List Str} (hd : CM.defines (ls ++ [t]) = false) :
    CM.leafStep (.par ls) (blanks i ++ t) = some (⟨[], .par (ls ++ [t])⟩, []) := by
  obtain ⟨e1, e2⟩ := cm_lead (i := i) (h.head (x := ' ') (by decide))
  have hb : CM.blank (blanks i ++ t) = false := by
    obtain ⟨c, r, rfl, hc⟩ := h.first
    exact cm_blank_false (c := c) (by simp) (by rintro rfl; exact hc (by decide))
  simp only [CM.leafStep, hb, e1, e2, Bool.false_eq_true, if_false, if_neg (show ¬ 4 ≤ i by omega),
    if_neg (h.head (x := '<') (by decide)), h.underline, h.interrupts, grow_of hd]

/-- the lines of a paragraph -/
structure CmLine (l t : Str) : Prop where
  eq : ∃ i, i < 4 ∧ l = blanks i ++ t
  text : CmText t
  noSlash : t.getLast? ≠ some '\\'
  noBreak : ¬ ∃ r, t = r ++ c!"  "

theorem splitWs_blanks (i : Nat) (t : Str) : splitWs (blanks i ++ t) = splitWs t := by
  induction i with
  | zero => rfl
  | succ i ih =>
    show splitWs (' ' :: (blanks i ++ t)) = _
    rw [splitWs_ws _ _ (by decide), ih]

theorem lstrip_blanks (i : Nat) (t : Str) (h : Spaced t) (ht : t.head? ≠ some ' ') : lstrip (blanks i ++ t) = t := by
  induction i with
  | zero =>
    cases t with
    | nil => rfl
    | cons a b =>
      have : isWs a = false := by
        cases ha : isWs a with
        | false => rfl
        | true => exact absurd (by rw [h a (by simp) ha]; rfl) ht
      show lstrip (a :: b) = a :: b
      simp [lstrip, this]
  | succ i ih => exact ih

theorem RText.lines {ls : List Str} {ts : List Tok} (h : RText ls ts) : ∀ l ∈ ls, CmLine l (CM.text l) := by
  intro l hl
  obtain ⟨h1, h2, ⟨w, u, hw, hcw⟩, h4, h5⟩ := h.line l hl
  obtain ⟨e1, e2⟩ := cm_split l
  have hst : Spaced (CM.text l) := fun c hc => h1 c (by rw [e1]; simp [hc])
  have hls : lstrip l = CM.text l := by
    conv => lhs; rw [e1]
    exact lstrip_blanks _ _ hst e2
  obtain ⟨rest, hr1, hr2⟩ := first_word hw
  refine ⟨⟨_, h2, e1⟩, ?_, ?_, ?_⟩
  · refine ⟨w, rest, by rw [← hls, hr1], hcw, ?_⟩
    rcases hr2 with hr2 | ⟨c, r, hr2, hc⟩
    · exact .inl hr2
    · refine .inr ?_
      rw [hr2]
      have := hst c (by rw [← hls, hr1, hr2]; simp) hc
      rw [this]; rfl
  · intro e
    apply h4
    rw [e1, List.getLast?_append, e]
    rfl
  · rintro ⟨r, hr⟩
    exact h5 ⟨blanks (CM.indent l) ++ r, by rw [List.append_assoc, ← hr]; exact e1⟩

theorem exec_append (s : State) (a b : List Str) :
    CM.exec s (a ++ b) = match CM.exec s a with
      | none => none
      | some (s', ev) => CM.after ev (CM.exec s' b) := by
  induction a generalizing s with
  | nil => simp only [List.nil_append, CM.exec, CM.after]; cases CM.exec s b <;> rfl
  | cons l a ih =>
    simp only [List.cons_append, CM.exec]
    cases h : CM.step s.leaf s.cs l with
    | none => rfl
    | some x =>
      obtain ⟨s', ev⟩ := x
      simp only [ih s', CM.after]
      cases h2 : CM.exec s' a with
      | none => rfl
      | some y =>
        obtain ⟨s2, ev2⟩ := y
        simp only [Option.map_some]
        cases CM.exec s2 b with
        | none => rfl
        | some z => obtain ⟨s3, ev3⟩ := z; simp

/-- the lines of a paragraph, one after the other -/
theorem exec_par (ts : List Str) {ls : List Str} (h : ∀ l ∈ ls, (∃ i, i < 4 ∧ l = blanks i ++ CM.text l) ∧ CmText (CM.text l))
    (hd : CM.defines (ts ++ ls.map CM.text) = false) :
    CM.exec ⟨[], .par ts⟩ ls = some (⟨[], .par (ts ++ ls.map CM.text)⟩, []) := by
  induction ls generalizing ts with
  | nil => simp [CM.exec]
  | cons l ls ih =>
    obtain ⟨i, hi, e⟩ := (h l (by simp)).1
    have hd' : CM.defines (ts ++ [CM.text l] ++ ls.map CM.text) = false := by simpa using hd
    have := (h l (by simp)).2.step hi (defines_left hd')
    rw [← e] at this
    simp only [CM.exec, CM.step, this, ih (ts ++ [CM.text l]) (fun x hx => h x (by simp [hx])) hd', CM.after]
    simp

/-- the lines of a paragraph, from the first one on -/
theorem exec_lines {ls : List Str} (hne : ls ≠ [])
    (h : ∀ l ∈ ls, (∃ i, i < 4 ∧ l = blanks i ++ CM.text l) ∧ CmText (CM.text l))
    (hs : CM.defines (ls.map CM.text) = false) :
    CM.exec ⟨[], .none⟩ ls = some (⟨[], .par (ls.map CM.text)⟩, []) := by
  obtain ⟨l, r, rfl⟩ := List.exists_cons_of_ne_nil hne
  obtain ⟨i, hi, e⟩ := (h l (by simp)).1
  have := (h l (by simp)).2.opens (defines_left (a := [CM.text l]) hs) hi
  rw [← e] at this
  have h2 := exec_par [CM.text l] (ls := r) (fun x hx => h x (by simp [hx])) hs
  simp only [CM.exec, CM.step, CM.leafStep, this, h2, CM.after]
  simp

theorem RText.texts {ls : List Str} {ts : List Tok} (h : RText ls ts) :
    ∀ l ∈ ls, (∃ i, i < 4 ∧ l = blanks i ++ CM.text l) ∧ CmText (CM.text l) :=
  fun l hl => ⟨(h.lines l hl).eq, (h.lines l hl).text⟩

theorem exec_text {ls : List Str} {ts : List Tok} (h : RText ls ts) :
    CM.exec ⟨[], .none⟩ ls = some (⟨[], .par (ls.map CM.text)⟩, []) := exec_lines h.ne h.texts h.start

/-! ## Hard line breaks -/

theorem text_blanks {l : Str} (h : CmText (CM.text l)) (n : Nat) : CM.text (l ++ blanks n) = CM.text l ++ blanks n := by
  obtain ⟨c, r, e, hc⟩ := h.first
  have hc' : c ≠ ' ' := by rintro rfl; exact hc (by decide)
  obtain ⟨e1, _⟩ := cm_split l
  rw [e] at e1 ⊢
  conv => lhs; rw [e1]
  rw [List.append_assoc]
  exact (cm_lead (i := CM.indent l) (t := c :: r ++ blanks n) (by simpa using hc')).2

theorem cmText_blanks {t : Str} (h : CmText t) (n : Nat) : CmText (t ++ blanks n) := by
  obtain ⟨w, rest, rfl, hw, hr⟩ := h.split
  refine ⟨w, rest ++ blanks n, by simp, hw, ?_⟩
  rcases hr with rfl | hr
  · cases n with
    | zero => exact .inl rfl
    | succ n => exact .inr rfl
  · refine .inr ?_
    cases rest with
    | nil => cases hr
    | cons a b => exact hr

/-- the lines of a text with spaces at its end -/
theorem hard_texts {ls : List Str} {l : Str} {ts : List Tok} (h : RText (ls ++ [l]) ts) (n : Nat) :
    (∀ x ∈ ls ++ [l ++ blanks n], (∃ i, i < 4 ∧ x = blanks i ++ CM.text x) ∧ CmText (CM.text x)) ∧
    ((∀ x, (ls ++ [l]).head? = some x → (CM.text x).head? ≠ some '[') →
      ∀ x, (ls ++ [l ++ blanks n]).head? = some x → (CM.text x).head? ≠ some '[') ∧
    (ls ++ [l ++ blanks n]).map CM.text = ls.map CM.text ++ [CM.text l ++ blanks n] := by
  obtain ⟨⟨i, hi, e⟩, ht⟩ := h.texts l (by simp)
  have e2 := text_blanks ht n
  refine ⟨fun x hx => ?_, fun hst x hx => ?_, by simp [e2]⟩
  · rcases List.mem_append.1 hx with hx | hx
    · exact h.texts x (by simp [hx])
    · rw [List.mem_singleton.1 hx, e2]
      refine ⟨⟨i, hi, ?_⟩, cmText_blanks ht n⟩
      conv => lhs; rw [e]
      rw [List.append_assoc]
  · cases ls with
    | cons a b =>
      exact hst x (by simpa using hx)
    | nil =>
      have : l ++ blanks n = x := by simpa using hx
      subst this
      rw [e2]
      have h0 := hst l rfl
      obtain ⟨c, r, e3, _⟩ := ht.first
      rw [e3] at h0 ⊢
      exact h0

theorem splitWs_end_blanks (t : Str) (n : Nat) : splitWs (t ++ blanks n) = splitWs t := by
  cases n with
  | zero => simp [blanks]
  | succ n =>
    show splitWs (t ++ ' ' :: blanks n) = _
    rw [splitWs_append_ws _ _ _ (by decide)]
    have : splitWs (blanks n) = [] := by
      have := splitWs_blanks n []
      rw [List.append_nil] at this
      rw [this]; rfl
    rw [this, List.append_nil]

theorem inlines_end_blanks (pre : List Str) (t : Str) (n : Nat) : CM.inlines (pre ++ [t ++ blanks n]) = CM.inlines (pre ++ [t]) := by
  induction pre with
  | nil => simp [CM.inlines, splitWs_end_blanks]
  | cons p pre ih =>
    cases pre with
    | nil => simp only [List.cons_append, List.nil_append, CM.inlines, splitWs_end_blanks]
    | cons q pre => simp only [List.cons_append, CM.inlines] at ih ⊢; rw [ih]

theorem lineText_hard (t : Str) (n : Nat) : CM.lineText (t ++ blanks (n + 2)) = (splitWs t).map .word ++ [.br] := by
  have e : (t ++ blanks (n + 2)).reverse = ' ' :: ' ' :: (blanks n ++ t.reverse) := by
    rw [List.reverse_append, blanks, List.reverse_replicate]
    rfl
  have hs : CM.slashed (t ++ blanks (n + 2)) = false := by
    unfold CM.slashed
    rw [e]; rfl
  unfold CM.lineText
  rw [hs, if_neg (by simp), e, if_pos (by rfl), splitWs_end_blanks]

/-- a hard line break -/
theorem inlines_hard (pre : List Str) (t : Str) (n : Nat) {ms : List Str} (h : ms ≠ []) :
    CM.inlines (pre ++ [t ++ blanks (n + 2)] ++ ms) = CM.inlines (pre ++ [t]) ++ .br :: CM.inlines ms := by
  induction pre with
  | nil =>
    obtain ⟨m, r, rfl⟩ := List.exists_cons_of_ne_nil h
    simp only [List.nil_append, List.cons_append, CM.inlines, lineText_hard, List.append_assoc]
  | cons p pre ih =>
    cases pre with
    | nil =>
      simp only [List.nil_append, List.cons_append, CM.inlines] at ih ⊢
      rw [ih]; simp
    | cons q pre =>
      simp only [List.cons_append, CM.inlines] at ih ⊢
      rw [ih]; simp

theorem finePieces_br (a b : List Piece) : finePieces (a ++ .br :: b) = finePieces a ++ .br :: finePieces b := by
  induction a with
  | nil => rfl
  | cons p a ih =>
    cases p with
    | br => simp [finePieces, ih]
    | word w =>
      simp only [List.cons_append, finePieces, ih]
      cases finePieces a with
      | nil => rfl
      | cons q r =>
        cases q with
        | br => rfl
        | word v =>
          simp only [List.cons_append, fineWord]
          split <;> rfl

/-- there are no hard line breaks in them -/
theorem inlines_text {ts : List Str} (h : ∀ t ∈ ts, t.getLast? ≠ some '\\' ∧ ¬ ∃ r, t = r ++ c!"  ") :
    CM.inlines ts = (words ts).map .word := by
  have key : ∀ t : Str, t.getLast? ≠ some '\\' → (¬ ∃ r, t = r ++ c!"  ") → CM.lineText t = (splitWs t).map .word := by
    intro t h1 h3
    have hs : CM.slashed t = false := by
      unfold CM.slashed
      cases hr : t.reverse with
      | nil => rfl
      | cons a b =>
        have : a ≠ '\\' := by
          rintro rfl
          rw [List.getLast?_eq_head?_reverse, hr] at h1
          exact h1 rfl
        simp [this]
    have hb : t.reverse.take 2 ≠ [' ', ' '] := by
      intro e
      refine h3 ⟨(t.reverse.drop 2).reverse, ?_⟩
      have h4 : t.reverse = [' ', ' '] ++ t.reverse.drop 2 := by rw [← e, List.take_append_drop]
      have := congrArg List.reverse h4
      simpa using this
    unfold CM.lineText
    rw [hs, if_neg (by simp), if_neg hb]
  induction ts with
  | nil => rfl
  | cons t ts ih =>
    have ih := ih (fun x hx => h x (by simp [hx]))
    cases ts with
    | nil => simp [CM.inlines, words]
    | cons u ts =>
      obtain ⟨h1, h3⟩ := h t (by simp)
      simp only [CM.inlines, key t h1 h3]
      rw [ih]
      simp [words]

theorem words_text (ls : List Str) : words (ls.map CM.text) = words ls := by
  unfold words
  rw [List.map_map]
  congr 1
  refine List.map_congr_left fun l _ => ?_
  show splitWs (CM.text l) = splitWs l
  conv => rhs; rw [(cm_split l).1]
  rw [splitWs_blanks]

theorem plainToks_texts (ws : List Str) : (plainToks ws).map (·.text) = ws := by
  cases ws with
  | nil => rfl
  | cons w ws => simp [plainToks, Function.comp_def]

theorem RText.inlines {ls : List Str} {ts : List Tok} (h : RText ls ts) :
    finePieces (CM.inlines (ls.map CM.text)) = finePieces (tokPieces ts) := by
  have hl := h.lines
  rw [inlines_text, words_text, h.words]
  intro t ht
  obtain ⟨l, hm, rfl⟩ := List.mem_map.1 ht
  exact ⟨(hl l hm).noSlash, (hl l hm).noBreak⟩

/-! ## First lines -/

/-- the text of the first line of a block -/
def Node.firstText : Node → Str → Prop
  | .heading .., t => t.head? = some '#' ∧ (CM.atx t).isSome = true
  | .underlined .., t => CmText t
  | .par .., t => CmText t
  | .hard .., t => CmText t
  | .rule c, t => t.head? = some c ∧ CM.isRule t = true
  | .code f .., t => t.head? = some f ∧ (CM.fence t).isSome = true
  | .quote .., t => t.head? = some '>'
  | .bullets c _, t => ∃ r, t = c :: ' ' :: r ∧ CM.marker t = some (.bullet c, 0, 1, ' ' :: r) ∧ CM.blank r = false ∧
      CM.isRule t = false
  | .numbers first _, t => ∃ d s w r, t = d :: s ∧ isDigit d = true ∧ CM.marker t = some (.number '.', first, w, ' ' :: r) ∧
      CM.blank r = false ∧ CM.isRule t = false
  | _, _ => False

theorem takeWhile_digits {ds : Str} {c : Char} {r : Str} (h : ∀ d ∈ ds, isDigit d = true) (hc : isDigit c = false) :
    (ds ++ c :: r).takeWhile isDigit = ds ∧ (ds ++ c :: r).dropWhile isDigit = c :: r := by
  induction ds with
  | nil => simp [hc]
  | cons d ds ih =>
    have hd := h d (by simp)
    have := ih (fun x hx => h x (by simp [hx]))
    simp only [List.cons_append, List.takeWhile_cons, List.dropWhile_cons, hd, if_true, this.1, this.2, and_self]

theorem marker_bullet {c : Char} (hc : c = '*' ∨ c = '+' ∨ c = '-') (r : Str) :
    CM.marker (c :: ' ' :: r) = some (.bullet c, 0, 1, ' ' :: r) := by
  simp only [CM.marker]
  rw [if_pos]
  refine ⟨?_, .inr rfl⟩
  rcases hc with rfl | rfl | rfl <;> simp

theorem digit_ne {d c : Char} (h : isDigit d = true) (hc : isDigit c = false) : d ≠ c := by
  rintro rfl; rw [h] at hc; cases hc

theorem marker_number {ds : Str} (h1 : 1 ≤ ds.length) (h9 : ds.length ≤ 9) (hd : ∀ d ∈ ds, isDigit d = true) (r : Str) :
    CM.marker (ds ++ '.' :: ' ' :: r) = some (.number '.', parseNat ds, ds.length + 1, ' ' :: r) := by
  obtain ⟨e1, e2⟩ := takeWhile_digits (c := '.') (r := ' ' :: r) hd (by decide)
  cases ds with
  | nil => simp at h1
  | cons d ds =>
    rw [List.cons_append] at e1 e2 ⊢
    have h0 := hd d (by simp)
    simp only [CM.marker, e1, e2]
    rw [if_neg]
    · rw [if_pos ⟨h1, h9, .inl trivial, .inr rfl⟩]
    · rintro ⟨h, _⟩
      rcases h with rfl | rfl | rfl <;> revert h0 <;> decide

theorem number_line {i i' : Nat} {ds ds' r r' : Str} (hd : ∀ d ∈ ds, isDigit d = true) (hd' : ∀ d ∈ ds', isDigit d = true)
    (e : blanks i ++ ((ds ++ c!".") ++ ' ' :: r) = blanks i' ++ ((ds' ++ c!".") ++ ' ' :: r')) : i = i' ∧ ds = ds' ∧ r = r' := by
  have hne : ∀ ds : Str, (∀ d ∈ ds, isDigit d = true) → ∀ r : Str, ((ds ++ c!".") ++ ' ' :: r).head? ≠ some ' ' := by
    intro ds hd r
    cases ds with
    | nil => simp
    | cons x y =>
      have := hd x (by simp)
      intro e
      injection e with e
      rw [e] at this
      exact absurd this (by decide)
  have h3 := cm_lead (i := i) (hne ds hd r)
  have h4 := cm_lead (i := i') (hne ds' hd' r')
  rw [e] at h3
  have ht' : ((ds ++ c!".") ++ ' ' :: r) = ((ds' ++ c!".") ++ ' ' :: r') := by rw [← h3.2, h4.2]
  have e5 : ds ++ '.' :: ' ' :: r = ds' ++ '.' :: ' ' :: r' := by simpa using ht'
  have h6 := takeWhile_digits (c := '.') (r := ' ' :: r) hd (by decide)
  have h7 := takeWhile_digits (c := '.') (r := ' ' :: r') hd' (by decide)
  refine ⟨by rw [← h3.1, h4.1], by rw [← h6.1, e5, h7.1], ?_⟩
  have : '.' :: ' ' :: r = '.' :: ' ' :: r' := by rw [← h6.2, e5, h7.2]
  simpa using this

theorem first_line {d : Nat} {R : List Str → List Node → Prop} {ls : List Str} {a : Node} (h : RNode R ls a) (hr : a.Reg d)
    (hb : a ≠ .blank) (hR : ∀ e x doc, R x doc → (∀ a ∈ doc, a.Reg e) → doc ≠ [] → x ≠ []) : ∃ l rest, ls = l :: rest ∧
      ((∃ body, a = .indented body ∧ CM.blank l = false ∧ 4 ≤ CM.indent l) ∨
        ∃ i t, i < 4 ∧ l = blanks i ++ t ∧ a.firstText t) := by
  cases d with
  | zero => exact hr.elim
  | succ d =>
    cases h with
    | blank h => exact absurd rfl hb
    | @heading i k t hi ht =>
      obtain ⟨h1, h6, _⟩ := hr
      refine ⟨_, _, rfl, .inr ⟨i, _, hi, rfl, ?_, ?_⟩⟩
      · obtain ⟨k', rfl⟩ : ∃ k', k = k' + 1 := ⟨k - 1, by omega⟩
        rfl
      · rw [atx_of h1 h6 ht]; rfl
    | @underlined ls ts i m j c h hi =>
      have hl := h.lines
      obtain ⟨l, r, rfl⟩ := List.exists_cons_of_ne_nil h.ne
      obtain ⟨i, hi, e⟩ := (hl l (by simp)).eq
      exact ⟨l, _, rfl, .inr ⟨i, _, hi, e, (hl l (by simp)).text⟩⟩
    | @par ls ts h =>
      have hl := h.lines
      obtain ⟨l, r, rfl⟩ := List.exists_cons_of_ne_nil h.ne
      obtain ⟨i, hi, e⟩ := (hl l (by simp)).eq
      exact ⟨l, _, rfl, .inr ⟨i, _, hi, e, (hl l (by simp)).text⟩⟩
    | @hard ls l ts j h =>
      obtain ⟨h1, _, _⟩ := hard_texts h (j + 2)
      obtain ⟨x, r, e⟩ := List.exists_cons_of_ne_nil (show ls ++ [l ++ blanks (j + 2)] ≠ [] by simp)
      rw [e] at h1 ⊢
      obtain ⟨⟨i, hi, e2⟩, h2⟩ := h1 x (by simp)
      exact ⟨x, r, rfl, .inr ⟨i, _, hi, e2, h2⟩⟩
    | @indented ls h =>
      obtain ⟨_, ⟨l, r, e, hl⟩, _⟩ := hr
      cases ls with
      | nil => cases e
      | cons x xs =>
        refine ⟨x, xs, rfl, .inl ⟨_, rfl, ?_⟩⟩
        have hx : rstrip x ≠ [] := by rw [(List.cons.inj e).1]; exact hl
        have : CM.blank x = false := by
          cases hbx : CM.blank x with
          | false => rfl
          | true =>
            exfalso
            apply hx
            have hall : ∀ c ∈ x, isWs c = true := by
              intro c hc
              have := List.all_eq_true.1 hbx c hc
              have : c = ' ' := by simpa using this
              rw [this]; decide
            exact (rstrip_eq_nil x).2 hall
        refine ⟨this, ?_⟩
        rcases h x (by simp) with h2 | h2
        · rw [this] at h2; cases h2
        · exact h2
    | @rule i l c hi hh hl h3 => exact ⟨_, _, rfl, .inr ⟨i, l, hi, rfl, hh, isRule_of hr hl h3⟩⟩
    | @code f k info close content hinfo hinfo2 hclose hc =>
      obtain ⟨hf, hk, _⟩ := hr
      refine ⟨_, _, rfl, .inr ⟨0, List.replicate k f ++ info, by omega, rfl, ?_, ?_⟩⟩
      · obtain ⟨k', rfl⟩ : ∃ k', k = k' + 1 := ⟨k - 1, by omega⟩
        rfl
      · rw [fence_of hf hk hinfo hinfo2]; rfl
    | @quote rs inner h =>
      have := hR d _ _ h hr.2.2.1 hr.2.1
      cases rs with
      | nil => exact absurd rfl this
      | cons r rs => exact ⟨_, _, rfl, .inr ⟨0, _, by omega, rfl, rfl⟩⟩
    | @bullets c es items h =>
      cases items with
      | nil => exact absurd rfl hr.2.1
      | cons it its =>
        cases es with
        | nil => exact h.elim
        | cons e es =>
          obtain ⟨i, mk, r, conts, rfl, _, hi, rfl, hbl, hin, hru, _, _, _⟩ := h
          exact ⟨_, _, rfl, .inr ⟨i, _, hi, rfl, r, rfl, marker_bullet hr.1 r, hbl, hru⟩⟩
    | @numbers i ds r conts es items h hd =>
      cases items with
      | nil => exact h.elim
      | cons it its =>
        obtain ⟨i', mk, r', conts', e, _, hi, ⟨ds', rfl, h1, h9, hd'⟩, hbl, hin, hru, _, _, _⟩ := h
        obtain ⟨hi', rfl, rfl⟩ := number_line hd hd' (List.cons.inj e).1
        subst hi'
        have e8 : (ds ++ c!".") ++ ' ' :: r = ds ++ '.' :: ' ' :: r := by simp
        rw [e8] at hru
        cases ds with
        | nil => simp at h1
        | cons x y =>
          refine ⟨_, _, rfl, .inr ⟨i, _, hi, congrArg (blanks i ++ ·) e8, x, _, _, r, rfl, hd x (by simp), marker_number h1 h9 hd r, hbl, hru⟩⟩

/-! ## Lines that end what is open -/

/-- the state after blocks -/
def Post : Prev → State → Prop
  | .free, s => s = ⟨[], .none⟩
  | .par, s => ∃ ls, s = ⟨[], .par ls⟩
  | .hard ps, s => ∃ pre t n, s = ⟨[], .par (pre ++ [t ++ blanks (n + 2)])⟩ ∧
      finePieces (CM.inlines (pre ++ [t])) = finePieces ps ∧
      ∀ x, (pre ++ [t ++ blanks (n + 2)]).head? = some x → x.head? ≠ some '['
  | .code, s => ∃ ls, s = ⟨[], .code ls⟩
  | .quote o, s => ∃ cs leaf, s = ⟨.quote :: cs, leaf⟩ ∧ leaf.isFence = false ∧ (o = false → ∀ ls, leaf ≠ .par ls)
  | .list m g lo, s => ∃ n cs leaf, s = ⟨.item m n g lo :: cs, leaf⟩ ∧ 1 ≤ n ∧ leaf.isFence = false ∧
      (g = true → ∀ ls, leaf ≠ .par ls)

theorem Post.leaf {p : Prev} {s : State} (h : Post p s) :
    s.leaf.isFence = false ∧ (p.opn = false → ∀ ls, s.leaf ≠ .par ls) := by
  cases p with
  | free => rw [show s = ⟨[], .none⟩ from h]; exact ⟨rfl, fun _ ls e => by cases e⟩
  | par => obtain ⟨ls, rfl⟩ := h; exact ⟨rfl, fun e => by cases e⟩
  | hard => obtain ⟨pre, t, n, rfl, _⟩ := h; exact ⟨rfl, fun e => by cases e⟩
  | code => obtain ⟨ls, rfl⟩ := h; exact ⟨rfl, fun _ ls e => by cases e⟩
  | quote o => obtain ⟨cs, leaf, rfl, h1, h2⟩ := h; exact ⟨h1, h2⟩
  | list m g lo =>
    obtain ⟨n, cs, leaf, rfl, _, h1, h2⟩ := h
    exact ⟨h1, fun e => h2 (by simpa [Prev.opn] using e)⟩

/-- the line closes everything that is open -/
def Ends (s : State) (l : Str) : Prop := CM.step s.leaf s.cs l = CM.after (CM.closeAll s.leaf s.cs) (CM.opens l)

theorem leave_ends {c : Ctr} {cs : List Ctr} {leaf : Leaf} {l : Str} (h : (∀ ls, leaf ≠ .par ls) ∨ CM.lazy l = false) :
    CM.leave c cs leaf l = CM.after (CM.closeAll leaf (c :: cs)) (CM.opens l) := by
  unfold CM.leave
  split
  · rename_i ls h1
    rcases h with h | h
    · exact absurd rfl (h ls)
    · rw [h] at h1; cases h1
  · rfl

/-- the first line of a block that is not text is not taken for the continuation of a paragraph -/
theorem firstText_starts {a : Node} {t : Str} (h : a.firstText t) (h1 : ∀ ts, a ≠ .par ts ∧ a ≠ .hard ts) (h2 : ∀ c ts, a ≠ .underlined c ts) :
    CM.startsBlock t = true := by
  unfold CM.startsBlock
  cases a <;> simp only [Node.firstText] at h
  case par ts => exact absurd rfl (h1 ts).1
  case hard ts => exact absurd rfl (h1 ts).2
  case underlined c ts => exact absurd rfl (h2 c ts)
  case heading => simp [h.2]
  case rule => simp [h.2]
  case code => simp [h.2]
  case quote => simp [h]
  case bullets => obtain ⟨r, _, h, _⟩ := h; simp [h]
  case numbers => obtain ⟨d, s, w, r, _, _, h, _⟩ := h; simp [h]

theorem firstText_head {d : Nat} {a : Node} {t : Str} (hr : a.Reg d) (h : a.firstText t) :
    ∃ c r, t = c :: r ∧ c ≠ ' ' ∧ ((∀ s i, a ≠ .quote s i) → c ≠ '>') := by
  cases d with
  | zero => exact hr.elim
  | succ d =>
    have key : ∀ c, t.head? = some c → c ≠ ' ' → c ≠ '>' → ∃ c r, t = c :: r ∧ c ≠ ' ' ∧ ((∀ s i, a ≠ .quote s i) → c ≠ '>') := by
      intro c h1 h2 h3
      cases t with
      | nil => cases h1
      | cons x y =>
        injection h1 with h1
        subst h1
        exact ⟨_, _, rfl, h2, fun _ => h3⟩
    cases a <;> simp only [Node.firstText] at h
    case par ts =>
      obtain ⟨c, r, rfl, hc⟩ := h.first
      exact key c rfl (by rintro rfl; exact hc (by decide)) (by rintro rfl; exact hc (by decide))
    case hard ts =>
      obtain ⟨c, r, rfl, hc⟩ := h.first
      exact key c rfl (by rintro rfl; exact hc (by decide)) (by rintro rfl; exact hc (by decide))
    case underlined c ts =>
      obtain ⟨c, r, rfl, hc⟩ := h.first
      exact key c rfl (by rintro rfl; exact hc (by decide)) (by rintro rfl; exact hc (by decide))
    case heading => exact key _ h.1 (by decide) (by decide)
    case rule c => exact key _ h.1 (by rcases hr with rfl | rfl | rfl <;> decide) (by rcases hr with rfl | rfl | rfl <;> decide)
    case code f _ _ _ => exact key _ h.1 (by rcases hr.1 with rfl | rfl <;> decide) (by rcases hr.1 with rfl | rfl <;> decide)
    case quote s i =>
      cases t with
      | nil => cases h
      | cons x y =>
        injection h with h
        subst h
        exact ⟨_, _, rfl, by decide, fun h => absurd rfl (h s i)⟩
    case bullets c _ =>
      obtain ⟨r, rfl, _⟩ := h
      exact key c rfl (by rcases hr.1 with rfl | rfl | rfl <;> decide) (by rcases hr.1 with rfl | rfl | rfl <;> decide)
    case numbers =>
      obtain ⟨d, s, w, r, rfl, h, _⟩ := h
      exact key d rfl (digit_ne h (by decide)) (digit_ne h (by decide))

/-- a paragraph is interrupted by the blocks that may follow it -/
theorem par_ends {d : Nat} {a : Node} {i : Nat} {t : Str} {ls : List Str} (hr : a.Reg d) (hp : Prev.par.allows a) (hi : i < 4)
    (h : a.firstText t) : Ends ⟨[], .par ls⟩ (blanks i ++ t) := by
  obtain ⟨c, r, rfl, hc, hq⟩ := firstText_head hr h
  clear hq
  obtain ⟨e1, e2⟩ := cm_lead (i := i) (t := c :: r) (by simpa using hc)
  have hbl : CM.blank (blanks i ++ c :: r) = false := cm_blank_false (c := c) (by simp) hc
  have hlt : c ≠ '<' ∧ CM.underline (c :: r) = none ∧ CM.interrupts (c :: r) = true := by
    have hu : c ≠ '=' → c ≠ '-' → CM.underline (c :: r) = none := by
      intro h1 h2
      unfold CM.underline
      rw [if_neg (by simp [h1]), if_neg (by simp [h2])]
    cases d with
    | zero => exact hr.elim
    | succ d =>
      unfold CM.interrupts
      cases a <;> simp only [Prev.allows] at hp <;> simp only [Node.firstText] at h
      case heading =>
        have : c = '#' := by simpa using h.1
        subst this
        exact ⟨by decide, hu (by decide) (by decide), by simp [h.2]⟩
      case rule x =>
        have : c = x := by simpa using h.1
        subst this
        refine ⟨?_, hu ?_ hp, by simp [h.2]⟩
        all_goals rcases hr with rfl | rfl | rfl <;> decide
      case code f _ _ _ =>
        have : c = f := by simpa using h.1
        subst this
        refine ⟨?_, hu ?_ ?_, by simp [h.2]⟩
        all_goals rcases hr.1 with rfl | rfl <;> decide
      case quote =>
        have : c = '>' := by simpa using h
        subst this
        exact ⟨by decide, hu (by decide) (by decide), by simp⟩
      case bullets x _ =>
        obtain ⟨s, e, hm, hbs, _⟩ := h
        have hx : c = x ∧ r = ' ' :: s := by simpa using e
        obtain ⟨rfl, rfl⟩ := hx
        refine ⟨by rcases hr.1 with rfl | rfl | rfl <;> decide, ?_, ?_⟩
        · unfold CM.underline
          have hs : ' ' ∈ rstripBy (· == ' ') (c :: ' ' :: s) := by
            obtain ⟨t, e1, e2⟩ := rstripBy_split (· == ' ') (c :: ' ' :: s)
            generalize rstripBy (· == ' ') (c :: ' ' :: s) = u at e1 ⊢
            match u, e1 with
            | [], e1 =>
              exfalso
              have := e2 c (by rw [List.nil_append] at e1; rw [← e1]; simp)
              exact hc (by simpa using this)
            | [x], e1 =>
              exfalso
              have e3 : ' ' :: s = t := by simpa using (List.cons.inj e1).2
              have : CM.blank s = true := by
                rw [CM.blank, List.all_eq_true]
                intro y hy
                exact e2 y (by rw [← e3]; simp [hy])
              rw [this] at hbs; cases hbs
            | x :: y :: u, e1 =>
              have : ' ' = y := by
                simp only [List.cons_append, List.cons.injEq] at e1
                exact e1.2.1
              rw [← this]; simp
          have hs2 : ∀ x, x ≠ ' ' → ¬ (rstripBy (· == ' ') (c :: ' ' :: s)).all (· == x) = true := by
            intro x hx hall
            have := List.all_eq_true.1 hall ' ' hs
            have e : ' ' = x := by simpa using this
            exact hx e.symm
          rw [if_neg (fun h => hs2 '=' (by decide) h.2), if_neg (fun h => hs2 '-' (by decide) h.2)]
        · rw [hm]
          have : CM.blank (' ' :: s) = false := by simpa [CM.blank] using hbs
          simp [this]
      case numbers k _ =>
        obtain ⟨x, s, w, r', e, hx, hm, hbs, _⟩ := h
        have hx' : c = x ∧ r = s := by simpa using e
        obtain ⟨rfl, rfl⟩ := hx'
        refine ⟨digit_ne hx (by decide), hu (digit_ne hx (by decide)) (digit_ne hx (by decide)), ?_⟩
        rw [hm]
        have : CM.blank (' ' :: r') = false := by simpa [CM.blank] using hbs
        simp [this, hp]
  obtain ⟨h1, h2, h3⟩ := hlt
  unfold Ends
  simp only [CM.step, CM.leafStep, hbl, e1, e2, Bool.false_eq_true, if_false, if_neg (show ¬ 4 ≤ i by omega), h2, h3, if_true]
  rw [if_neg (by simp [h1])]
  rfl

theorem lazy_false {i : Nat} {t : Str} (hi : i < 4) (ht : t.head? ≠ some ' ') (h : CM.startsBlock t = true) :
    CM.lazy (blanks i ++ t) = false := by
  obtain ⟨e1, e2⟩ := cm_lead (i := i) ht
  unfold CM.lazy
  rw [e1, e2, h]
  have : decide (4 ≤ i) = false := by simpa using hi
  rw [this]
  simp

/-- the first line of a block closes what is in front of it -/
theorem node_ends {d : Nat} {R : List Str → List Node → Prop} {p : Prev} {s : State} {l : Str} {ls : List Str} {a : Node}
    (hs : Post p s) (h : RNode R (l :: ls) a) (hr : a.Reg d) (hb : a ≠ .blank) (hp : p.allows a) (hj : p.joins a = false)
    (hR : ∀ e x doc, R x doc → (∀ a ∈ doc, a.Reg e) → doc ≠ [] → x ≠ []) (hf : p.isList = true → CM.indent l = 0) : Ends s l := by
  obtain ⟨l', rest, e, hl⟩ := first_line h hr hb hR
  obtain ⟨rfl, rfl⟩ := List.cons.inj e
  cases p with
  | free =>
    rw [show s = ⟨[], .none⟩ from hs]
    unfold Ends
    simp only [CM.step, CM.leafStep, CM.closeAll, Leaf.close, CM.after]
    cases CM.opens l <;> rfl
  | par =>
    obtain ⟨ts, rfl⟩ := hs
    rcases hl with ⟨body, rfl, _⟩ | ⟨i, t, hi, rfl, ht⟩
    · exact hp.elim
    · exact par_ends hr hp hi ht
  | hard ps =>
    obtain ⟨pre, t, n, rfl, _⟩ := hs
    have hp' : Prev.par.allows a := by
      cases a <;> simp only [Prev.joins, Bool.true_eq_false] at hj <;> exact hp
    rcases hl with ⟨body, rfl, _⟩ | ⟨i, t, hi, rfl, ht⟩
    · exact hp.elim
    · exact par_ends hr hp' hi ht
  | code =>
    obtain ⟨ts, rfl⟩ := hs
    rcases hl with ⟨body, rfl, _⟩ | ⟨i, t, hi, rfl, ht⟩
    · exact hp.elim
    · obtain ⟨c, r, rfl, hc, hq⟩ := firstText_head hr ht
      obtain ⟨e1, e2⟩ := cm_lead (i := i) (t := c :: r) (by simpa using hc)
      have hbl : CM.blank (blanks i ++ c :: r) = false := cm_blank_false (c := c) (by simp) hc
      unfold Ends
      simp only [CM.step, CM.leafStep, hbl, e1]
      have : decide (4 ≤ i) = false := by simpa using hi
      rw [this]
      rfl
  | quote o =>
    obtain ⟨cs, leaf, rfl, h1, h2⟩ := hs
    rcases hl with ⟨body, rfl, h3, h4⟩ | ⟨i, t, hi, rfl, ht⟩
    · have hq : CM.quoted l = none := by
        unfold CM.quoted
        rw [if_neg (by omega)]
      unfold Ends
      simp only [CM.step, hq]
      exact leave_ends (.inl (h2 hp))
    · obtain ⟨c, r, rfl, hc, hcq⟩ := firstText_head hr ht
      obtain ⟨e1, e2⟩ := cm_lead (i := i) (t := c :: r) (by simpa using hc)
      have hc2 : c ≠ '>' := by
        apply hcq
        rintro s i rfl
        exact hp
      have hq : CM.quoted (blanks i ++ c :: r) = none := by
        unfold CM.quoted
        rw [if_neg (by rw [e2]; simp [hc2])]
      unfold Ends
      simp only [CM.step, hq]
      apply leave_ends
      by_cases ha : (∃ ts, a = .par ts ∨ a = .hard ts) ∨ ∃ x ts, a = .underlined x ts
      · left
        rcases ha with ⟨ts, rfl | rfl⟩ | ⟨x, ts, rfl⟩
        · exact h2 hp
        · exact h2 hp
        · exact h2 hp
      · right
        exact lazy_false hi (by simpa using hc) (firstText_starts ht
          (fun ts => ⟨fun e => ha (.inl ⟨ts, .inl e⟩), fun e => ha (.inl ⟨ts, .inr e⟩)⟩) (fun x ts e => ha (.inr ⟨x, ts, e⟩)))
  | list m g lo =>
    obtain ⟨n, cs, leaf, rfl, hn, h1, h2⟩ := hs
    have hind := hf rfl
    rcases hl with ⟨body, rfl, h3, h4⟩ | ⟨i, t, hi, rfl, ht⟩
    · omega
    · obtain ⟨c, r, rfl, hc, hcq⟩ := firstText_head hr ht
      obtain ⟨e1, e2⟩ := cm_lead (i := i) (t := c :: r) (by simpa using hc)
      have hbl : CM.blank (blanks i ++ c :: r) = false := cm_blank_false (c := c) (by simp) hc
      rw [e1] at hind
      subst hind
      have hsib : CM.sibling m (blanks 0 ++ c :: r) = none := by
        unfold CM.sibling
        rw [e1, e2]
        have key : ∀ m', m ≠ m' → ∀ k w s, CM.marker (c :: r) = some (m', k, w, s) →
            (if 4 ≤ 0 ∨ CM.isRule (c :: r) = true then none
              else match CM.marker (c :: r) with
                | some (m', _, w, r) => if m = m' then some (0 + w + CM.padding r, r) else none
                | none => none) = (none : Option (Nat × Str)) := by
          intro m' hm k w s hk
          rw [hk]
          simp only [if_neg hm]
          split <;> rfl
        have key2 : CM.marker (c :: r) = none →
            (if 4 ≤ 0 ∨ CM.isRule (c :: r) = true then none
              else match CM.marker (c :: r) with
                | some (m', _, w, r) => if m = m' then some (0 + w + CM.padding r, r) else none
                | none => none) = (none : Option (Nat × Str)) := by
          intro hk
          rw [hk]
          split <;> rfl
        cases d with
        | zero => exact hr.elim
        | succ d =>
          have hmk : ∀ x : Char, c = x → x ∉ c!"-+*" → isDigit x = false → CM.marker (c :: r) = none := by
            rintro x rfl hx hd
            simp only [CM.marker]
            rw [if_neg (by rintro ⟨h, _⟩; rcases h with rfl | rfl | rfl <;> exact hx (by decide))]
            simp [hd]
          clear hcq
          cases a <;> simp only [Node.firstText] at ht
          case heading => exact key2 (hmk '#' (by simpa using ht.1) (by decide) (by decide))
          case par => exact key2 ht.marker
          case hard => exact key2 ht.marker
          case underlined => exact key2 ht.marker
          case rule x => rw [if_pos (.inr ht.2)]
          case code f _ _ _ =>
            refine key2 (hmk f (by simpa using ht.1) ?_ ?_) <;> rcases hr.1 with rfl | rfl <;> decide
          case quote => exact key2 (hmk '>' (by simpa using ht) (by decide) (by decide))
          case bullets x _ =>
            cases g with
            | false => exact hp.elim
            | true =>
              obtain ⟨s, e, hm, _⟩ := ht
              exact key _ (by simpa [Prev.joins] using hj) _ _ _ hm
          case numbers k _ =>
            cases g with
            | false => exact hp.elim
            | true =>
              obtain ⟨x, s, w, r', e, hx, hm, _⟩ := ht
              exact key _ (by simpa [Prev.joins] using hj) _ _ _ hm
      unfold Ends
      simp only [CM.step, hbl, e1, hsib, Bool.false_eq_true, if_false, if_neg (show ¬ n ≤ 0 by omega)]
      apply leave_ends
      cases g with
      | true => exact .inl (h2 rfl)
      | false =>
        right
        have hrule : ∃ x, a = .rule x := by
          cases a <;> simp only [Prev.allows] at hp
          · exact absurd rfl hb
          · exact ⟨_, rfl⟩
        obtain ⟨x, rfl⟩ := hrule
        exact lazy_false hi (by simpa using hc) (firstText_starts ht (by simp) (by simp))

/-! ## Blank lines -/

theorem unindent_blank (n : Nat) {l : Str} (h : CM.blank l = true) : CM.blank (CM.unindent n l) = true := by
  induction n generalizing l with
  | zero => exact h
  | succ n ih =>
    match l, h with
    | [], _ => rfl
    | c :: r, h =>
      have hc : c = ' ' ∧ CM.blank r = true := by simpa [CM.blank] using h
      obtain ⟨rfl, h2⟩ := hc
      exact ih h2

theorem trimBlank_append (ls : List Str) {l : Str} (h : CM.blank l = true) : CM.trimBlank (ls ++ [l]) = CM.trimBlank ls := by
  unfold CM.trimBlank
  rw [List.reverse_append]
  simp [h]

theorem blank_step {l : Str} (hl : CM.blank l = true) (leaf : Leaf) (hf : leaf.isFence = false) (cs : List Ctr) :
    ∃ s' ev, CM.step leaf cs l = some (s', ev) ∧ ev ++ CM.closeAll s'.leaf s'.cs = CM.closeAll leaf cs ∧
      s'.leaf.isFence = false ∧ ∀ ls, s'.leaf ≠ .par ls := by
  induction cs generalizing l with
  | nil =>
    cases leaf with
    | none => exact ⟨_, _, opens_blank hl, rfl, rfl, by simp⟩
    | par ls => exact ⟨⟨[], .none⟩, (Leaf.par ls).close, by simp only [CM.step, CM.leafStep, hl, if_true], by simp [CM.closeAll, Leaf.close], rfl, by simp⟩
    | code ls =>
      refine ⟨⟨[], .code (ls ++ [CM.unindent 4 l])⟩, [], by simp [CM.step, CM.leafStep, hl], ?_, rfl, by simp⟩
      simp only [CM.closeAll, Leaf.close, trimBlank_append _ (unindent_blank 4 hl), List.nil_append]
    | fence f k i info ls => cases hf
  | cons c cs ih =>
    cases c with
    | quote =>
      have hq : CM.quoted l = none := by
        unfold CM.quoted
        rw [cm_blank_text hl, if_neg (by simp)]
      have hz : CM.lazy l = false := by unfold CM.lazy; rw [hl]; rfl
      refine ⟨⟨[], .none⟩, CM.closeAll leaf (.quote :: cs), ?_, by simp [CM.closeAll, Leaf.close], rfl, by simp⟩
      simp only [CM.step, hq]
      rw [leave_ends (.inr hz), opens_blank hl]
      simp [CM.after]
    | item m n gap lo =>
      obtain ⟨s', ev, h1, h2, h3, h4⟩ := ih (unindent_blank n hl)
      refine ⟨⟨.item m n (gap || !leaf.isFence) lo :: s'.cs, s'.leaf⟩, ev, ?_, ?_, h3, h4⟩
      · simp only [CM.step, hl, if_true, h1, CM.under]; simp
      · simp only [CM.closeAll]
        rw [← List.append_assoc, h2]
        rfl

theorem blank_post {l : Str} (hl : CM.blank l = true) {p : Prev} {s : State} (h : Post p s) :
    ∃ s' ev, CM.exec s [l] = some (s', ev) ∧ ev ++ CM.closeAll s'.leaf s'.cs = CM.closeAll s.leaf s.cs ∧ Post p.blank s' := by
  obtain ⟨s', ev, h1, h2, h3, h4⟩ := blank_step hl s.leaf h.leaf.1 s.cs
  refine ⟨s', ev, by simp [CM.exec, h1, CM.after], h2, ?_⟩
  cases p with
  | free =>
    rw [show s = ⟨[], .none⟩ from h] at h1
    simp only [CM.step, CM.leafStep, opens_blank hl, Option.some.injEq, Prod.mk.injEq] at h1
    exact h1.1.symm
  | par =>
    obtain ⟨ls, rfl⟩ := h
    simp only [CM.step, CM.leafStep, hl, if_true, Option.some.injEq, Prod.mk.injEq] at h1
    exact h1.1.symm
  | hard ps =>
    obtain ⟨pre, t, n, rfl, _⟩ := h
    simp only [CM.step, CM.leafStep, hl, if_true, Option.some.injEq, Prod.mk.injEq] at h1
    exact h1.1.symm
  | code =>
    obtain ⟨ls, rfl⟩ := h
    simp only [CM.step, CM.leafStep, hl, Bool.true_or, if_true, Option.some.injEq, Prod.mk.injEq] at h1
    exact ⟨_, h1.1.symm⟩
  | quote o =>
    obtain ⟨cs, leaf, rfl, h5, _⟩ := h
    have hq : CM.quoted l = none := by
      unfold CM.quoted
      rw [cm_blank_text hl, if_neg (by simp)]
    have hz : CM.lazy l = false := by unfold CM.lazy; rw [hl]; rfl
    simp only [CM.step, hq, leave_ends (.inr hz), opens_blank hl, CM.after, Option.map_some, Option.some.injEq, Prod.mk.injEq] at h1
    exact h1.1.symm
  | list m g lo =>
    obtain ⟨n, cs, leaf, rfl, hn, h5, _⟩ := h
    simp only [CM.step, hl, if_true, CM.under] at h1
    cases hx : CM.step leaf cs (CM.unindent n l) with
    | none => rw [hx] at h1; cases h1
    | some x =>
      rw [hx] at h1
      simp only [Option.map_some, Option.some.injEq, Prod.mk.injEq] at h1
      obtain ⟨h1, _⟩ := h1
      subst h1
      exact ⟨n, x.1.cs, x.1.leaf, by rw [show leaf.isFence = false from h5]; simp, hn, h3, fun _ => h4⟩

end MF
