import Verif.Model.Bytes
/-!
# UTF-8

Decoding and encoding are inverse to each other.
-/

namespace MF

theorem toNat_ofNat_small {n : Nat} (h : n < 256) : (UInt8.ofNat n).toNat = n := by
  rw [UInt8.toNat_ofNat']
  exact Nat.mod_eq_of_lt h

theorem charOf_toNat (c : Char) : charOf c.toNat = some c := dif_pos c.valid

theorem charOf_some {n : Nat} {c : Char} (h : charOf n = some c) : c.toNat = n := by
  unfold charOf at h
  split at h
  · rename_i hv
    have hx := Option.some.inj h
    subst hx
    show (UInt32.ofNatLT n _).toNat = n
    simp
  · exact nomatch h

theorem char_range (c : Char) : c.toNat < 0x110000 := by
  have h := c.valid
  rcases h with h | h
  · exact Nat.lt_trans h (by decide)
  · exact h.2

/-- It is the encoding that Lean's own strings have. -/
theorem utf8Char_core (c : Char) : utf8Char c = String.utf8EncodeChar c := by
  have hr := char_range c
  have hv : c.val.toNat = c.toNat := rfl
  unfold utf8Char String.utf8EncodeChar
  simp only [hv]
  generalize c.toNat = v at hr
  by_cases h1 : v < 0x80
  · rw [if_pos h1, if_pos (show v ≤ 0x7f by omega)]
  · rw [if_neg h1, if_neg (show ¬ v ≤ 0x7f by omega)]
    by_cases h2 : v < 0x800
    · rw [if_pos h2, if_pos (show v ≤ 0x7ff by omega), show v / 64 % 0x20 + 0xc0 = 0xC0 + v / 0x40 by omega,
        Nat.add_comm (v % 0x40)]
    · rw [if_neg h2, if_neg (show ¬ v ≤ 0x7ff by omega)]
      by_cases h3 : v < 0x10000
      · rw [if_pos h3, if_pos (show v ≤ 0xffff by omega), show v / 4096 % 0x10 + 0xe0 = 0xE0 + v / 0x1000 by omega,
          Nat.add_comm (v % 0x40), Nat.add_comm (v / 64 % 0x40)]
      · rw [if_neg h3, if_neg (show ¬ v ≤ 0xffff by omega),
          show v / 262144 % 0x08 + 0xf0 = 0xF0 + v / 0x40000 by omega,
          Nat.add_comm (v % 0x40), Nat.add_comm (v / 64 % 0x40), Nat.add_comm (v / 4096 % 0x40)]

/-- The first character of an encoded text. -/
theorem utf8First_char (c : Char) (r : Bytes) : utf8First (utf8Char c ++ r) = some (c, r) := by
  have hr := char_range c
  unfold utf8Char
  simp only
  by_cases h1 : c.toNat < 0x80
  · rw [if_pos h1]
    simp only [List.singleton_append, utf8First, toNat_ofNat_small (by omega : c.toNat < 256), h1, if_true,
      charOf_toNat, Option.map_some]
  · rw [if_neg h1]
    by_cases h2 : c.toNat < 0x800
    · rw [if_pos h2]
      have ha : 0xC0 + c.toNat / 0x40 < 256 := by omega
      have hb' : 0x80 + c.toNat % 0x40 < 256 := by omega
      have e : (0xC0 + c.toNat / 0x40 - 0xC0) * 0x40 + (0x80 + c.toNat % 0x40 - 0x80) = c.toNat := by omega
      simp only [List.cons_append, List.nil_append, utf8First, contByte, toNat_ofNat_small ha, toNat_ofNat_small hb', e]
      rw [if_neg (by omega), if_pos (by simp; omega), if_pos (by simp; omega), charOf_toNat]
      rfl
    · rw [if_neg h2]
      by_cases h3 : c.toNat < 0x10000
      · rw [if_pos h3]
        have ha : 0xE0 + c.toNat / 0x1000 < 256 := by omega
        have hb' : 0x80 + c.toNat / 0x40 % 0x40 < 256 := by omega
        have hc : 0x80 + c.toNat % 0x40 < 256 := by omega
        have e : (0xE0 + c.toNat / 0x1000 - 0xE0) * 0x1000 + (0x80 + c.toNat / 0x40 % 0x40 - 0x80) * 0x40 +
          (0x80 + c.toNat % 0x40 - 0x80) = c.toNat := by omega
        simp only [List.cons_append, List.nil_append, utf8First, contByte, toNat_ofNat_small ha, toNat_ofNat_small hb',
          toNat_ofNat_small hc, e]
        rw [if_neg (by omega), if_neg (by simp), if_pos (by simp; omega), if_pos (by simp; omega), charOf_toNat]
        rfl
      · rw [if_neg h3]
        have ha : 0xF0 + c.toNat / 0x40000 < 256 := by omega
        have hb' : 0x80 + c.toNat / 0x1000 % 0x40 < 256 := by omega
        have hc : 0x80 + c.toNat / 0x40 % 0x40 < 256 := by omega
        have hd : 0x80 + c.toNat % 0x40 < 256 := by omega
        have e : (0xF0 + c.toNat / 0x40000 - 0xF0) * 0x40000 + (0x80 + c.toNat / 0x1000 % 0x40 - 0x80) * 0x1000 +
          (0x80 + c.toNat / 0x40 % 0x40 - 0x80) * 0x40 + (0x80 + c.toNat % 0x40 - 0x80) = c.toNat := by omega
        simp only [List.cons_append, List.nil_append, utf8First, contByte, toNat_ofNat_small ha, toNat_ofNat_small hb',
          toNat_ofNat_small hc, toNat_ofNat_small hd, e]
        rw [if_neg (by omega), if_neg (by simp; omega), if_neg (by simp), if_pos (by omega), if_pos (by simp; omega),
          charOf_toNat]
        rfl

theorem byte_eq {a : UInt8} {n : Nat} (h : n = a.toNat) : UInt8.ofNat n = a := by
  rw [h]
  exact UInt8.ofNat_toNat

theorem map_char {n : Nat} {r r' : Bytes} {c : Char} (h : (charOf n).map (·, r) = some (c, r')) : c.toNat = n ∧ r = r' := by
  cases hc : charOf n with
  | none => rw [hc] at h; exact nomatch h
  | some x =>
    rw [hc] at h
    have := Option.some.inj h
    simp only [Prod.mk.injEq] at this
    exact ⟨this.1 ▸ charOf_some hc, this.2⟩

/-- The first character is followed by the rest. -/
theorem utf8First_some {b r : Bytes} {c : Char} (h : utf8First b = some (c, r)) : b = utf8Char c ++ r := by
  cases b with
  | nil => exact nomatch h
  | cons x0 b =>
    have l0 := x0.toNat_lt
    simp only [utf8First] at h
    split at h
    · obtain ⟨hc, rfl⟩ := map_char h
      unfold utf8Char
      simp only [hc]
      rw [if_pos (by assumption), byte_eq rfl]
      rfl
    · rename_i h1
      split at h
      · rename_i h2
        simp at h2
        split at h
        · rename_i x1 r1
          have l1 := x1.toNat_lt
          split at h
          · rename_i h3
            simp [contByte] at h3
            obtain ⟨hc, rfl⟩ := map_char h
            unfold utf8Char
            simp only [hc]
            rw [if_neg (by omega), if_pos (by omega), byte_eq (a := x0) (by omega), byte_eq (a := x1) (by omega)]
            rfl
          · exact nomatch h
        · exact nomatch h
      · rename_i h2
        simp at h2
        split at h
        · rename_i h3
          simp at h3
          split at h
          · rename_i x1 x2 r1
            have l1 := x1.toNat_lt
            have l2 := x2.toNat_lt
            split at h
            · rename_i h4
              simp [contByte] at h4
              obtain ⟨hc, rfl⟩ := map_char h
              unfold utf8Char
              simp only [hc]
              rw [if_neg (by omega), if_neg (by omega), if_pos (by omega), byte_eq (a := x0) (by omega),
                byte_eq (a := x1) (by omega), byte_eq (a := x2) (by omega)]
              rfl
            · exact nomatch h
          · exact nomatch h
        · rename_i h3
          simp at h3
          split at h
          · rename_i h4
            split at h
            · rename_i x1 x2 x3 r1
              have l1 := x1.toNat_lt
              have l2 := x2.toNat_lt
              have l3 := x3.toNat_lt
              split at h
              · rename_i h5
                simp [contByte] at h5
                obtain ⟨hc, rfl⟩ := map_char h
                have hr := char_range c
                unfold utf8Char
                simp only [hc] at hr ⊢
                rw [if_neg (by omega), if_neg (by omega), if_neg (by omega), byte_eq (a := x0) (by omega),
                  byte_eq (a := x1) (by omega), byte_eq (a := x2) (by omega), byte_eq (a := x3) (by omega)]
                rfl
              · exact nomatch h
            · exact nomatch h
          · exact nomatch h

theorem utf8Char_ne (c : Char) : utf8Char c ≠ [] := by
  unfold utf8Char
  simp only
  repeat' split
  all_goals simp

theorem utf8Loop_encode (s : Str) : ∀ fuel, (s.flatMap utf8Char).length ≤ fuel → utf8Loop fuel (s.flatMap utf8Char) = some s := by
  induction s with
  | nil => intro fuel _; cases fuel <;> rfl
  | cons c s ih =>
    intro fuel h
    have hne := utf8Char_ne c
    rw [List.flatMap_cons] at h ⊢
    cases hb : utf8Char c ++ s.flatMap utf8Char with
    | nil => exact absurd (List.append_eq_nil_iff.1 hb).1 hne
    | cons x b =>
      cases fuel with
      | zero => rw [hb] at h; simp at h
      | succ fuel =>
        simp only [utf8Loop]
        rw [← hb, utf8First_char]
        simp only
        rw [ih fuel]
        · rfl
        · rw [List.length_append] at h
          have := List.length_pos_iff.2 hne
          omega

theorem utf8Loop_some : ∀ (fuel : Nat) (b : Bytes) (s : Str), utf8Loop fuel b = some s → b = s.flatMap utf8Char := by
  intro fuel
  induction fuel with
  | zero =>
    intro b s h
    cases b with
    | nil =>
      have hx := Option.some.inj h
      subst hx
      rfl
    | cons x b => exact nomatch h
  | succ fuel ih =>
    intro b s h
    cases b with
    | nil =>
      have hx := Option.some.inj h
      subst hx
      rfl
    | cons x b =>
      simp only [utf8Loop] at h
      split at h
      · exact nomatch h
      · rename_i c r hf
        cases hr : utf8Loop fuel r with
        | none => rw [hr] at h; exact nomatch h
        | some t =>
          rw [hr] at h
          have hx := Option.some.inj h
          subst hx
          rw [List.flatMap_cons, ← ih r t hr]
          exact utf8First_some hf

/-- The bytes that are decoded to a text are those that it is encoded to, and no others. -/
theorem utf8_inverse (b : Bytes) (s : Str) : utf8.decode b = some s ↔ utf8.encode s = some b := by
  constructor
  · intro h
    exact congrArg some (utf8Loop_some _ _ _ h).symm
  · intro h
    have hx := Option.some.inj h
    subst hx
    exact utf8Loop_encode s _ (Nat.le_refl _)

end MF
