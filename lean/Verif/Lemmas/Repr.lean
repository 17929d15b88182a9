import Verif.Model.Repr
import Verif.Lemmas.TreeNest
/-!
# Lemmas about `repr`
-/

namespace MF

theorem hexDigit_inj : ∀ a < 16, ∀ b < 16, hexDigit a = hexDigit b → a = b := by decide

theorem hexDigit_range : ∀ a < 16, 48 ≤ (hexDigit a).toNat ∧ (hexDigit a).toNat < 127 := by decide

theorem hex_length (w : Nat) : ∀ n, (hex w n).length = w := by
  induction w with
  | zero => exact fun _ => rfl
  | succ w ih => intro n; simp [hex, ih]

theorem hex_inj (w : Nat) : ∀ n m, n < 16 ^ w → m < 16 ^ w → hex w n = hex w m → n = m := by
  induction w with
  | zero => intro n m hn hm _; simp at hn hm; omega
  | succ w ih =>
    intro n m hn hm h
    simp only [hex] at h
    obtain ⟨h1, h2⟩ := List.append_inj h (by rw [hex_length, hex_length])
    have h3 := ih (n / 16) (m / 16) (by rw [Nat.pow_succ] at hn; omega) (by rw [Nat.pow_succ] at hm; omega) h1
    have h4 := hexDigit_inj _ (Nat.mod_lt n (by decide)) _ (Nat.mod_lt m (by decide)) (List.cons.inj h2).1
    omega

theorem hex_range (w : Nat) : ∀ n, ∀ c ∈ hex w n, 48 ≤ c.toNat ∧ c.toNat < 127 := by
  induction w with
  | zero => intro n c h; cases h
  | succ w ih =>
    intro n c h
    rcases List.mem_append.1 h with h | h
    · exact ih _ c h
    · rw [List.mem_singleton.1 h]; exact hexDigit_range _ (Nat.mod_lt n (by decide))

/-- How `repr` writes one character. -/
inductive Code (printable : Char → Bool) (q : Char) : Char → Str → Prop
  | plain (c : Char) (h1 : c ≠ '\\') (h2 : c ≠ q) (h3 : 32 ≤ c.toNat ∧ c.toNat < 127 ∨ 127 < c.toNat ∧ printable c = true) :
    Code printable q c [c]
  | same (c : Char) (h : c = q ∨ c = '\\') : Code printable q c ['\\', c]
  | tab : Code printable q '\t' ['\\', 't']
  | newline : Code printable q '\n' ['\\', 'n']
  | ret : Code printable q '\r' ['\\', 'r']
  | x (c : Char) (h : c.toNat < 16 ^ 2) : Code printable q c ('\\' :: 'x' :: hex 2 c.toNat)
  | u (c : Char) (h : c.toNat < 16 ^ 4) : Code printable q c ('\\' :: 'u' :: hex 4 c.toNat)
  | U (c : Char) (h : c.toNat < 16 ^ 8) : Code printable q c ('\\' :: 'U' :: hex 8 c.toNat)

theorem char_small (c : Char) : c.toNat < 16 ^ 8 := by
  have h : c.toNat < UInt32.size := c.val.toNat_lt
  have e : UInt32.size = 16 ^ 8 := by decide
  omega

theorem reprChar_code (printable : Char → Bool) (q c : Char) : Code printable q c (reprChar printable q c) := by
  unfold reprChar
  split
  · rename_i h
    exact .same c (by simpa using h)
  rename_i h1
  simp only [Bool.or_eq_true, beq_iff_eq, not_or] at h1
  split
  · rename_i h; rw [beq_iff_eq.1 h]; exact .tab
  split
  · rename_i h; rw [beq_iff_eq.1 h]; exact .newline
  split
  · rename_i h; rw [beq_iff_eq.1 h]; exact .ret
  split
  · rename_i h
    refine .x c ?_
    simp only [Bool.or_eq_true, decide_eq_true_eq, beq_iff_eq] at h
    omega
  rename_i h5
  simp only [Bool.or_eq_true, decide_eq_true_eq, beq_iff_eq] at h5
  split
  · rename_i h
    exact .plain c h1.2 h1.1 (.inl ⟨by omega, h⟩)
  split
  · rename_i h6 h
    exact .plain c h1.2 h1.1 (.inr ⟨by omega, h⟩)
  split
  · exact .x c (by omega)
  split
  · exact .u c (by omega)
  · exact .U c (char_small c)

/-- A quotation mark. -/
def IsQuoteMark (q : Char) : Prop := q = '\'' ∨ q = '"'

theorem reprQuote_mark (s : Str) : IsQuoteMark (reprQuote s) := by
  unfold reprQuote IsQuoteMark
  split
  · exact .inr rfl
  · exact .inl rfl

theorem Code.head_ne {P : Char → Bool} {q c : Char} {a : Str} (hq : IsQuoteMark q) (h : Code P q c a) :
    ∃ x t, a = x :: t ∧ x ≠ q := by
  have hb : '\\' ≠ q := by rcases hq with rfl | rfl <;> decide
  cases h with
  | plain _ _ h2 => exact ⟨_, _, rfl, h2⟩
  | same => exact ⟨_, _, rfl, hb⟩
  | tab => exact ⟨_, _, rfl, hb⟩
  | newline => exact ⟨_, _, rfl, hb⟩
  | ret => exact ⟨_, _, rfl, hb⟩
  | x => exact ⟨_, _, rfl, hb⟩
  | u => exact ⟨_, _, rfl, hb⟩
  | U => exact ⟨_, _, rfl, hb⟩

theorem hex_append {w : Nat} {c d : Char} {r r' : Str} (hc : c.toNat < 16 ^ w) (hd : d.toNat < 16 ^ w)
    (h : hex w c.toNat ++ r = hex w d.toNat ++ r') : c = d ∧ r = r' := by
  obtain ⟨h1, h2⟩ := List.append_inj h (by rw [hex_length, hex_length])
  exact ⟨Char.ext (UInt32.toNat_inj.1 (hex_inj w _ _ hc hd h1)), h2⟩

theorem Code.unique {P : Char → Bool} {q c d : Char} {a b r r' : Str} (hq : IsQuoteMark q) (h : Code P q c a)
    (h' : Code P q d b) (e : a ++ r = b ++ r') : c = d ∧ r = r' := by
  cases h <;> cases h' <;> simp only [List.cons_append, List.nil_append, List.cons.injEq] at e
  all_goals
    first
    | exact ⟨e.1, e.2⟩
    | exact ⟨e.2.1, e.2.2⟩
    | exact ⟨rfl, e.2.2⟩
    | exact hex_append (by assumption) (by assumption) e.2.2
    | (exfalso
       have e1 := e.1
       subst e1
       contradiction)
    | (exfalso
       obtain ⟨_, e2, _⟩ := e
       subst e2
       rcases hq with rfl | rfl <;> simp_all)
    | (exfalso
       obtain ⟨_, e2, _⟩ := e
       exact absurd e2 (by decide))

/-- The text between the quotation marks ends at the first mark without a backslash. -/
theorem body_unique {P : Char → Bool} {q : Char} (hq : IsQuoteMark q) (s : Str) : ∀ (t r r' : Str),
    s.flatMap (reprChar P q) ++ q :: r = t.flatMap (reprChar P q) ++ q :: r' → s = t ∧ r = r' := by
  induction s with
  | nil =>
    intro t r r' h
    cases t with
    | nil => exact ⟨rfl, (List.cons.inj h).2⟩
    | cons d t =>
      obtain ⟨x, y, h1, h2⟩ := (reprChar_code P q d).head_ne hq
      rw [List.flatMap_cons, h1] at h
      exact absurd (List.cons.inj h).1.symm h2
  | cons c s ih =>
    intro t r r' h
    cases t with
    | nil =>
      obtain ⟨x, y, h1, h2⟩ := (reprChar_code P q c).head_ne hq
      rw [List.flatMap_cons, h1] at h
      exact absurd (List.cons.inj h).1 h2
    | cons d t =>
      rw [List.flatMap_cons, List.flatMap_cons, List.append_assoc, List.append_assoc] at h
      obtain ⟨rfl, h2⟩ := (reprChar_code P q c).unique hq (reprChar_code P q d) h
      obtain ⟨rfl, rfl⟩ := ih t r r' h2
      exact ⟨rfl, rfl⟩

theorem pyRepr_unique {P : Char → Bool} {s t r r' : Str} (h : pyRepr P s ++ r = pyRepr P t ++ r') : s = t ∧ r = r' := by
  simp only [pyRepr, List.cons_append, List.append_assoc, List.cons.injEq] at h
  obtain ⟨h1, h2⟩ := h
  rw [← h1] at h2
  exact body_unique (reprQuote_mark s) s t r r' h2

theorem Code.length {P : Char → Bool} {q c : Char} {a : Str} (h : Code P q c a) : a.length ≤ 10 := by
  cases h <;> simp [hex_length]

theorem pyRepr_length (P : Char → Bool) (s : Str) : (pyRepr P s).length ≤ 10 * s.length + 2 := by
  have : ∀ (q : Char) (s : Str), (s.flatMap (reprChar P q)).length ≤ 10 * s.length := by
    intro q s
    induction s with
    | nil => exact Nat.le_refl _
    | cons c s ih =>
      rw [List.flatMap_cons, List.length_append, List.length_cons]
      have := (reprChar_code P q c).length
      omega
  have := this (reprQuote s) s
  simp only [pyRepr, List.length_append, List.length_singleton]
  omega

end MF
