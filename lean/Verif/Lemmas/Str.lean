import Verif.Py.Str
/-!
# Lemmas about Python string primitives
-/

namespace MF

/-! ## Generic list helpers -/

theorem takeWhile_all {α : Type} (p : α → Bool) (l : List α) : ∀ x ∈ l.takeWhile p, p x = true := by
  induction l with
  | nil => simp
  | cons a l ih =>
    intro x hx
    rw [List.takeWhile_cons] at hx
    split at hx
    · rcases List.mem_cons.1 hx with h | h
      · subst h; assumption
      · exact ih x h
    · simp at hx

theorem dropWhile_head {α : Type} (p : α → Bool) (l : List α) :
    l.dropWhile p = [] ∨ ∃ c r, l.dropWhile p = c :: r ∧ p c = false := by
  induction l with
  | nil => simp
  | cons a l ih =>
    rw [List.dropWhile_cons]
    split
    · exact ih
    · right; exact ⟨a, l, rfl, Bool.eq_false_iff.2 ‹_›⟩

theorem dropWhile_eq_self {α : Type} (p : α → Bool) (c : α) (r : List α) (h : p c = false) :
    (c :: r).dropWhile p = c :: r := by simp [h]

theorem dropWhile_all {α : Type} (p : α → Bool) (l : List α) (h : ∀ x ∈ l, p x = true) : l.dropWhile p = [] := by
  induction l with
  | nil => rfl
  | cons a l ih =>
    rw [List.dropWhile_cons, if_pos (h a (by simp))]
    exact ih fun x hx => h x (by simp [hx])

theorem dropWhile_eq_nil {α : Type} (p : α → Bool) (l : List α) : l.dropWhile p = [] ↔ ∀ x ∈ l, p x = true := by
  constructor
  · intro h x hx
    have h2 := @List.takeWhile_append_dropWhile _ p l
    rw [h, List.append_nil] at h2
    exact takeWhile_all p l x (by rw [h2]; exact hx)
  · exact dropWhile_all p l

theorem dropWhile_append_all {α : Type} (p : α → Bool) (a b : List α) (h : ∀ x ∈ a, p x = true) :
    (a ++ b).dropWhile p = b.dropWhile p := by
  induction a with
  | nil => rfl
  | cons x a ih =>
    rw [List.cons_append, List.dropWhile_cons, if_pos (h x (by simp))]
    exact ih fun y hy => h y (by simp [hy])

theorem dropWhile_append_of_ne {α : Type} (p : α → Bool) (a b : List α) (h : a.dropWhile p ≠ []) :
    (a ++ b).dropWhile p = a.dropWhile p ++ b := by
  induction a with
  | nil => simp at h
  | cons x a ih =>
    rw [List.cons_append, List.dropWhile_cons, List.dropWhile_cons] at *
    split
    · rename_i hx; rw [if_pos hx] at h; exact ih h
    · rfl

theorem mem_of_mem_dropWhile {α : Type} {p : α → Bool} {l : List α} {x : α} (h : x ∈ l.dropWhile p) : x ∈ l :=
  (List.dropWhile_suffix p).subset h

/-! ## strip -/

theorem rstripBy_split (p : Char → Bool) (s : Str) :
    ∃ t, s = rstripBy p s ++ t ∧ ∀ x ∈ t, p x = true := by
  refine ⟨(s.reverse.takeWhile p).reverse, ?_, ?_⟩
  · unfold rstripBy
    rw [← List.reverse_append, List.takeWhile_append_dropWhile, List.reverse_reverse]
  · intro x hx
    exact takeWhile_all p s.reverse x (by simpa using hx)

theorem rstripBy_last (p : Char → Bool) (s : Str) :
    rstripBy p s = [] ∨ ∃ r c, rstripBy p s = r ++ [c] ∧ p c = false := by
  unfold rstripBy
  rcases dropWhile_head p s.reverse with h | ⟨c, r, h, hc⟩
  · left; rw [h]; rfl
  · right; exact ⟨r.reverse, c, by rw [h]; simp, hc⟩

theorem rstripBy_nil (p : Char → Bool) : rstripBy p [] = [] := rfl

theorem rstripBy_append_all (p : Char → Bool) (a b : Str) (h : ∀ x ∈ b, p x = true) :
    rstripBy p (a ++ b) = rstripBy p a := by
  unfold rstripBy
  rw [List.reverse_append, dropWhile_append_all _ _ _ (by simpa using h)]

theorem rstripBy_concat_of_not (p : Char → Bool) (a : Str) (c : Char) (h : p c = false) :
    rstripBy p (a ++ [c]) = a ++ [c] := by
  unfold rstripBy
  simp [h]

theorem rstripBy_idem (p : Char → Bool) (s : Str) : rstripBy p (rstripBy p s) = rstripBy p s := by
  rcases rstripBy_last p s with h | ⟨r, c, h, hc⟩
  · rw [h]; rfl
  · rw [h, rstripBy_concat_of_not _ _ _ hc]

theorem rstripBy_append_of_ne (p : Char → Bool) (a b : Str) (h : rstripBy p b ≠ []) :
    rstripBy p (a ++ b) = a ++ rstripBy p b := by
  unfold rstripBy at *
  rw [List.reverse_append, dropWhile_append_of_ne _ _ _ (by intro h'; apply h; simp [h'])]
  simp

theorem rstripBy_eq_nil (p : Char → Bool) (s : Str) : rstripBy p s = [] ↔ ∀ x ∈ s, p x = true := by
  unfold rstripBy
  rw [List.reverse_eq_nil_iff, dropWhile_eq_nil]
  simp

theorem mem_of_mem_rstripBy {p : Char → Bool} {s : Str} {x : Char} (h : x ∈ rstripBy p s) : x ∈ s := by
  obtain ⟨t, ht, _⟩ := rstripBy_split p s
  rw [ht]; simp [h]

theorem rstrip_last (s : Str) : rstrip s = [] ∨ ∃ r c, rstrip s = r ++ [c] ∧ isWs c = false := rstripBy_last _ s

theorem lstrip_head (s : Str) : lstrip s = [] ∨ ∃ c r, lstrip s = c :: r ∧ isWs c = false := dropWhile_head _ s

theorem lstrip_split (s : Str) : ∃ t, s = t ++ lstrip s ∧ ∀ x ∈ t, isWs x = true :=
  ⟨s.takeWhile isWs, (@List.takeWhile_append_dropWhile _ isWs s).symm, takeWhile_all _ _⟩

theorem lstrip_idem (s : Str) : lstrip (lstrip s) = lstrip s := by
  rcases lstrip_head s with h | ⟨c, r, h, hc⟩
  · rw [h]; rfl
  · rw [h]; exact dropWhile_eq_self _ _ _ hc

theorem mem_of_mem_lstrip {s : Str} {x : Char} (h : x ∈ lstrip s) : x ∈ s := mem_of_mem_dropWhile h

theorem mem_of_mem_rstrip {s : Str} {x : Char} (h : x ∈ rstrip s) : x ∈ s := mem_of_mem_rstripBy h

theorem mem_of_mem_strip {s : Str} {x : Char} (h : x ∈ strip s) : x ∈ s :=
  mem_of_mem_lstrip (mem_of_mem_rstrip h)

theorem lstrip_append_ws (a b : Str) (h : ∀ x ∈ a, isWs x = true) : lstrip (a ++ b) = lstrip b :=
  dropWhile_append_all _ _ _ h

theorem lstrip_cons_of_not (c : Char) (r : Str) (h : isWs c = false) : lstrip (c :: r) = c :: r :=
  dropWhile_eq_self _ _ _ h

theorem lstrip_eq_nil (s : Str) : lstrip s = [] ↔ ∀ x ∈ s, isWs x = true := dropWhile_eq_nil _ _

theorem rstrip_eq_nil (s : Str) : rstrip s = [] ↔ ∀ x ∈ s, isWs x = true := rstripBy_eq_nil _ _

theorem rstrip_append_ws (a b : Str) (h : ∀ x ∈ b, isWs x = true) : rstrip (a ++ b) = rstrip a :=
  rstripBy_append_all _ _ _ h

theorem rstrip_concat_of_not (a : Str) (c : Char) (h : isWs c = false) : rstrip (a ++ [c]) = a ++ [c] :=
  rstripBy_concat_of_not _ _ _ h

theorem rstrip_idem (s : Str) : rstrip (rstrip s) = rstrip s := rstripBy_idem _ _

theorem rstrip_cons_of_not (c : Char) (r : Str) (h : isWs c = false) : ∃ r', rstrip (c :: r) = c :: r' := by
  by_cases h' : rstrip r = []
  · refine ⟨[], ?_⟩
    have := rstrip_append_ws [c] r ((rstrip_eq_nil r).1 h')
    simp only [List.singleton_append] at this
    rw [this]
    exact rstrip_concat_of_not [] c h
  · exact ⟨rstrip r, rstripBy_append_of_ne isWs [c] r h'⟩

/-- stripping on the left and on the right commute -/
theorem lstrip_rstrip (s : Str) : lstrip (rstrip s) = rstrip (lstrip s) := by
  obtain ⟨t, ht, hw⟩ := lstrip_split s
  rcases lstrip_head s with h | ⟨c, r, h, hc⟩
  · rw [h]
    have : rstrip s = [] := (rstrip_eq_nil s).2 ((lstrip_eq_nil s).1 h)
    rw [this]; rfl
  · have h1 : rstrip (lstrip s) ≠ [] := by
      rw [h]; obtain ⟨r', hr'⟩ := rstrip_cons_of_not c r hc; rw [hr']; simp
    have h2 : rstrip s = t ++ rstrip (lstrip s) := by
      conv => lhs; rw [ht]
      exact rstripBy_append_of_ne isWs t _ h1
    rw [h2, lstrip_append_ws _ _ hw]
    rw [h]; obtain ⟨r', hr'⟩ := rstrip_cons_of_not c r hc
    rw [hr', lstrip_cons_of_not _ _ hc]

theorem strip_idem (s : Str) : strip (strip s) = strip s := by
  unfold strip
  rw [lstrip_rstrip (lstrip s), lstrip_idem, rstrip_idem]

theorem strip_lstrip (s : Str) : strip (lstrip s) = strip s := by unfold strip; rw [lstrip_idem]

theorem strip_rstrip (s : Str) : strip (rstrip s) = strip s := by
  unfold strip; rw [lstrip_rstrip, rstrip_idem]

theorem rstrip_strip (s : Str) : rstrip (strip s) = strip s := by unfold strip; rw [rstrip_idem]

theorem lstrip_strip (s : Str) : lstrip (strip s) = strip s := by
  unfold strip; rw [lstrip_rstrip, lstrip_idem]

theorem strip_eq_nil (s : Str) : strip s = [] ↔ ∀ x ∈ s, isWs x = true := by
  unfold strip
  rw [← lstrip_rstrip, lstrip_eq_nil]
  constructor
  · intro h
    have : rstrip s = [] := by
      rcases rstrip_last s with h' | ⟨r, c, h', hc⟩
      · exact h'
      · exfalso; have := h c (by rw [h']; simp); rw [hc] at this; cases this
    exact (rstrip_eq_nil s).1 this
  · intro h x hx
    exact h x (mem_of_mem_rstrip hx)

theorem lstrip_eq_nil_iff_strip (s : Str) : lstrip s = [] ↔ strip s = [] := by
  rw [lstrip_eq_nil, strip_eq_nil]

theorem strip_head (s : Str) : strip s = [] ∨ ∃ c r, strip s = c :: r ∧ isWs c = false := by
  rcases lstrip_head (strip s) with h | h
  · left; rw [← lstrip_strip]; exact h
  · right; rw [lstrip_strip] at h; exact h

theorem strip_last (s : Str) : strip s = [] ∨ ∃ r c, strip s = r ++ [c] ∧ isWs c = false := rstrip_last _

/-- a string without whitespace at its ends is its own strip -/
theorem strip_eq_self_of (s : Str) (h1 : ∀ c r, s = c :: r → isWs c = false)
    (h2 : ∀ r c, s = r ++ [c] → isWs c = false) : strip s = s := by
  have hl : lstrip s = s := by
    cases s with
    | nil => rfl
    | cons c r => exact lstrip_cons_of_not c r (h1 c r rfl)
  unfold strip
  rw [hl]
  rcases List.eq_nil_or_concat s with h | ⟨r, c, h⟩
  · subst h; rfl
  · subst h
    rw [List.concat_eq_append]
    exact rstrip_concat_of_not r c (h2 r c (by simp))

theorem strip_cons_head {c : Char} {r : Str} (hc : isWs c = false) : ∃ r', strip (c :: r) = c :: r' := by
  unfold strip
  rw [lstrip_cons_of_not _ _ hc]
  exact rstrip_cons_of_not c r hc

/-- `strip` of a non-blank string and its `lstrip` start with the same character -/
theorem strip_head_eq_lstrip_head (s : Str) {c : Char} {r : Str} (h : lstrip s = c :: r) :
    ∃ r', strip s = c :: r' := by
  have hc : isWs c = false := by
    rcases lstrip_head s with h' | ⟨c', r', h', hc⟩
    · rw [h'] at h; cases h
    · rw [h] at h'; cases h'; exact hc
  unfold strip
  rw [h]; exact rstrip_cons_of_not c r hc

end MF
