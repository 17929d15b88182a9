import Verif.Model.Detect
import Verif.Lemmas.Str
/-!
# Lemmas about the splitters
-/

namespace MF

/-- A splitter keeps the lines: section followed by remainder is the input. -/
def Keeps (f : List Str → Split) : Prop :=
  ∀ l ls a b, f (l :: ls) = .ok (a, b) → a ++ b = l :: ls

theorem splitAtx_keeps : Keeps splitAtx := by
  intro l ls a b h
  simp only [splitAtx] at h
  split at h <;> cases h <;> rfl

theorem splitBlank_keeps : Keeps splitBlank := by
  intro l ls a b h
  simp only [splitBlank] at h
  split at h <;> cases h <;> rfl

theorem splitThematic_keeps : Keeps splitThematic := by
  intro l ls a b h
  simp only [splitThematic] at h
  split at h <;> cases h <;> rfl

/-- the list loop takes a prefix and reports where it ends -/
theorem listLoop_eq (ls : List Str) : ∀ i, ∃ k, listLoop i ls = (ls.take k, i + 1 + k) ∧ k ≤ ls.length := by
  induction ls with
  | nil => intro i; exact ⟨0, rfl, Nat.le_refl _⟩
  | cons l ls ih =>
    intro i
    unfold listLoop
    split
    · exact ⟨0, rfl, Nat.zero_le _⟩
    · obtain ⟨k, hk, hle⟩ := ih (i + 1)
      refine ⟨k + 1, ?_, ?_⟩
      · simp only [hk, List.take_succ_cons]
        congr 1
        omega
      · simp; omega

theorem splitBullet_keeps : Keeps splitBullet := by
  intro l ls a b h
  simp only [splitBullet] at h
  split at h
  · cases h; rfl
  · obtain ⟨k, hk, _⟩ := listLoop_eq ls 0
    rw [hk] at h
    cases h
    simp [Nat.add_comm 1 k]

theorem splitOrdered_keeps : Keeps splitOrdered := by
  intro l ls a b h
  simp only [splitOrdered] at h
  split at h
  · cases h; rfl
  · obtain ⟨k, hk, _⟩ := listLoop_eq ls 0
    rw [hk] at h
    cases h
    simp [Nat.add_comm 1 k]

theorem fenceLoop_eq (f : Str) (ls : List Str) :
    ∀ i, ∃ k, fenceLoop f i ls = (ls.take k, i + k) ∧ k ≤ ls.length := by
  induction ls with
  | nil => intro i; exact ⟨0, rfl, Nat.le_refl _⟩
  | cons l ls ih =>
    intro i
    unfold fenceLoop
    split
    · exact ⟨1, by simp, by simp⟩
    · obtain ⟨k, hk, hle⟩ := ih (i + 1)
      refine ⟨k + 1, ?_, ?_⟩
      · simp only [hk, List.take_succ_cons]
        congr 1
        omega
      · simp; omega

theorem splitFenced_keeps : Keeps splitFenced := by
  intro l ls a b h
  simp only [splitFenced] at h
  split at h
  · cases h; rfl
  · rename_i f _
    obtain ⟨k, hk, _⟩ := fenceLoop_eq f ls 0
    rw [hk] at h
    cases h
    simp

theorem splitIndented_keeps : Keeps splitIndented := by
  intro l ls a b h
  simp only [splitIndented] at h
  split at h
  · cases h; exact List.take_append_drop _ _
  · cases h; rfl

theorem tableLoop_eq (ls : List Str) : ∀ i, ∃ k, tableLoop i ls = (ls.take k, i + 1 + k) ∧ k ≤ ls.length := by
  induction ls with
  | nil => intro i; exact ⟨0, rfl, Nat.le_refl _⟩
  | cons l ls ih =>
    intro i
    unfold tableLoop
    split
    · exact ⟨0, rfl, Nat.zero_le _⟩
    · obtain ⟨k, hk, hle⟩ := ih (i + 1)
      refine ⟨k + 1, ?_, ?_⟩
      · simp only [hk, List.take_succ_cons]
        congr 1
        omega
      · simp; omega

theorem splitTable_keeps : Keeps splitTable := by
  intro l ls a b h
  simp only [splitTable] at h
  split at h
  · obtain ⟨k, hk, _⟩ := tableLoop_eq ls 0
    rw [hk] at h
    cases h
    simp [Nat.add_comm 1 k]
  · cases h; rfl

theorem lrdFinish_keeps (lines : List Str) (c : Bool) (i : Nat) (t : Str) (g a b : List Str)
    (h : lrdFinish lines c i t g = .ok (a, b)) : a ++ b = lines := by
  have key : ∀ r : Bool × Nat, (if r.1 then (.ok (lines.take r.2, lines.drop r.2) : Split) else .ok ([], lines)) =
      .ok (a, b) → a ++ b = lines := by
    intro r h
    split at h
    · cases h; exact List.take_append_drop _ _
    · cases h; rfl
  exact key _ h

theorem splitLrd_keeps : Keeps splitLrd := by
  intro l ls a b h
  simp only [splitLrd] at h
  split at h
  · cases h; rfl
  · split at h
    · cases h; rfl
    · split at h
      · exact lrdFinish_keeps _ _ _ _ _ _ _ h
      · split at h
        · exact lrdFinish_keeps _ _ _ _ _ _ _ h
        · exact lrdFinish_keeps _ _ _ _ _ _ _ h
      · split at h
        · cases h; rfl
        · split at h
          · split at h
            · exact lrdFinish_keeps _ _ _ _ _ _ _ h
            · cases h
          · exact lrdFinish_keeps _ _ _ _ _ _ _ h
          · cases h

theorem parLoop_keeps (sbq : List Str → Split) (ls : List Str) :
    ∀ a b, parLoop sbq ls = .ok (a, b) → a ++ b = ls := by
  induction ls with
  | nil => intro a b h; cases h; rfl
  | cons l ls ih =>
    intro a b h
    unfold parLoop at h
    cases hc : isParCont sbq (l :: ls) with
    | error e => rw [hc] at h; cases h
    | ok c =>
      rw [hc] at h
      cases c with
      | false => cases h; rfl
      | true =>
        simp only [bind, Except.bind, if_true] at h
        split at h
        · split at h
          · cases h
          · cases h; rfl
        · cases hp : parLoop sbq ls with
          | error e => rw [hp] at h; cases h
          | ok r =>
            rw [hp] at h
            cases h
            have := ih r.1 r.2 hp
            simp [this]

theorem splitParIgn_keeps (sbq : List Str → Split) : Keeps (splitParIgn sbq) := by
  intro l ls a b h
  simp only [splitParIgn] at h
  split at h
  · split at h
    · cases h; rfl
    · cases hp : parLoop sbq ls with
      | error e => rw [hp] at h; cases h
      | ok r =>
        rw [hp] at h
        cases h
        have := parLoop_keeps sbq ls r.1 r.2 hp
        simp [this]
  · cases h; rfl

theorem splitPar_keeps (sbq : List Str → Split) : Keeps (splitPar sbq) := by
  intro l ls a b h
  unfold splitPar at h
  cases hp : splitParIgn sbq (l :: ls) with
  | error e => rw [hp] at h; cases h
  | ok r =>
    rw [hp] at h
    have hk := splitParIgn_keeps sbq l ls r.1 r.2 hp
    simp only [bind, Except.bind] at h
    split at h
    · rename_i hr; cases h; rw [hr] at hk; exact hk
    · rename_i l' ls' hr
      split at h
      · cases h; rw [hr] at hk; exact hk
      · cases h; rfl

theorem splitSetext_keeps (sbq : List Str → Split) : Keeps (splitSetext sbq) := by
  intro l ls a b h
  unfold splitSetext at h
  cases hp : splitParIgn sbq (l :: ls) with
  | error e => rw [hp] at h; cases h
  | ok r =>
    rw [hp] at h
    have hk := splitParIgn_keeps sbq l ls r.1 r.2 hp
    simp only [bind, Except.bind] at h
    split at h
    · rename_i p ps l' ls' h1 h2
      split at h
      · cases h
        rw [h1, h2] at hk
        simp only [List.append_assoc, List.singleton_append]
        exact hk
      · cases h; rfl
    · cases h; rfl

theorem contLoop_keeps (sbq : List Str → Split) (ls : List Str) :
    ∀ first a b, contLoop sbq first ls = .ok (a, b) → a ++ b = ls := by
  induction ls with
  | nil => intro f a b h; cases h; rfl
  | cons l ls ih =>
    intro f a b h
    unfold contLoop at h
    cases hc : isQuoteCont sbq (l :: ls) with
    | error e => rw [hc] at h; cases h
    | ok c =>
      rw [hc] at h
      cases c with
      | false => cases h; rfl
      | true =>
        simp only [bind, Except.bind, if_true] at h
        split at h
        · cases h; rfl
        · cases hp : contLoop sbq false ls with
          | error e => rw [hp] at h; cases h
          | ok r =>
            rw [hp] at h
            cases h
            have := ih false r.1 r.2 hp
            simp [this]

theorem quoteLoop_keeps (ends : List Str → Except Err Bool) (sbq : List Str → Split) :
    ∀ fuel bq rem a b, quoteLoop ends sbq fuel bq rem = .ok (a, b) → a ++ b = bq ++ rem := by
  intro fuel
  induction fuel with
  | zero => intro bq rem a b h; cases h
  | succ fuel ih =>
    intro bq rem a b h
    cases rem with
    | nil => cases h; rfl
    | cons l ls =>
      simp only [quoteLoop] at h
      split at h
      · cases h; rfl
      · have hsplit : (l :: ls).takeWhile isQuote ++ (l :: ls).dropWhile isQuote = l :: ls :=
          List.takeWhile_append_dropWhile
        cases he : ends (bq ++ (l :: ls).takeWhile isQuote) with
        | error e => rw [he] at h; cases h
        | ok c =>
          rw [he] at h
          cases c with
          | false =>
            cases h
            rw [List.append_assoc, hsplit]
          | true =>
            simp only [bind, Except.bind, if_true] at h
            cases hc : contLoop sbq true ((l :: ls).dropWhile isQuote) with
            | error e => rw [hc] at h; cases h
            | ok r =>
              rw [hc] at h
              have h1 := ih _ _ _ _ h
              have h2 := contLoop_keeps sbq _ true r.1 r.2 hc
              rw [h1, List.append_assoc, List.append_assoc, h2, hsplit]

theorem splitQuote_keeps (n : Nat) : Keeps (splitQuote n) := by
  intro l ls a b h
  cases n with
  | zero => cases h
  | succ n => simpa using quoteLoop_keeps _ _ _ _ _ _ _ h

/-! ## When a splitter recognises nothing -/

theorem splitAtx_nil {l : Str} {ls a b : List Str} (h : splitAtx (l :: ls) = .ok (a, b)) :
    a = [] ↔ isAtx l = false := by
  simp only [splitAtx] at h; split at h <;> cases h <;> simp_all

theorem splitBlank_nil {l : Str} {ls a b : List Str} (h : splitBlank (l :: ls) = .ok (a, b)) :
    a = [] ↔ isBlankLine l = false := by
  simp only [splitBlank] at h; split at h <;> cases h <;> simp_all

theorem splitThematic_nil {l : Str} {ls a b : List Str} (h : splitThematic (l :: ls) = .ok (a, b)) :
    a = [] ↔ isThematic l = false := by
  simp only [splitThematic] at h; split at h <;> cases h <;> simp_all

theorem splitBullet_nil {l : Str} {ls a b : List Str} (h : splitBullet (l :: ls) = .ok (a, b)) :
    a = [] ↔ isBulletStart l = false := by
  simp only [splitBullet] at h; split at h <;> cases h <;> simp_all

theorem splitOrdered_nil {l : Str} {ls a b : List Str} (h : splitOrdered (l :: ls) = .ok (a, b)) :
    a = [] ↔ isOrderedStart l = false := by
  simp only [splitOrdered] at h; split at h <;> cases h <;> simp_all

theorem splitTable_nil {l : Str} {ls a b : List Str} (h : splitTable (l :: ls) = .ok (a, b)) :
    a = [] ↔ isTableStart l = false := by
  simp only [splitTable] at h; split at h <;> cases h <;> simp_all

theorem openFence_none (l : Str) : openFence l = none ↔ isFenceStart l = false := by
  unfold openFence isFenceStart
  simp only [List.findSome?, List.any]
  split <;> rename_i h <;> split at h <;> simp_all
  split at * <;> simp_all

theorem splitFenced_nil {l : Str} {ls a b : List Str} (h : splitFenced (l :: ls) = .ok (a, b)) :
    a = [] ↔ isFenceStart l = false := by
  rw [← openFence_none]
  simp only [splitFenced] at h; split at h <;> cases h <;> simp_all

/-- the indented code block keeps at least its first line -/
theorem indentLoop_pos (ls : List Str) : ∀ i c, 0 < i → 0 < c → 0 < indentLoop i c ls := by
  induction ls with
  | nil => intro i c _ hc; exact hc
  | cons l ls ih =>
    intro i c hi hc
    unfold indentLoop
    split
    · exact ih _ _ (by omega) hc
    · split
      · exact ih _ _ (by omega) hi
      · exact hc

theorem splitIndented_nil {l : Str} {ls a b : List Str} (h : splitIndented (l :: ls) = .ok (a, b)) :
    a = [] ↔ isIndentedStart l = false := by
  simp only [splitIndented] at h
  unfold isIndentedStart
  split at h
  · rename_i hc
    have := indentLoop_pos ls 1 1 (by omega) (by omega)
    cases h
    constructor
    · intro h'
      exfalso
      obtain ⟨k, hk⟩ : ∃ k, indentLoop 1 1 ls = k + 1 := ⟨indentLoop 1 1 ls - 1, by omega⟩
      rw [hk] at h'
      simp at h'
    · intro h'; rw [hc] at h'; cases h'
  · rename_i hc
    cases h
    simp only [true_iff]
    exact Bool.eq_false_iff.2 hc

theorem splitParIgn_nil {sbq : List Str → Split} {l : Str} {ls a b : List Str}
    (h : splitParIgn sbq (l :: ls) = .ok (a, b)) : a = [] ↔ isParStart l = false := by
  simp only [splitParIgn] at h
  split at h
  · rename_i hc
    rw [hc]
    split at h
    · cases h; simp
    · cases hp : parLoop sbq ls with
      | error e => rw [hp] at h; cases h
      | ok r => rw [hp] at h; cases h; simp
  · rename_i hc
    cases h
    simp [Bool.eq_false_iff.2 hc]

/-- a quote line is always taken by the block quote splitter -/
theorem quoteLoop_prefix (ends : List Str → Except Err Bool) (sbq : List Str → Split) :
    ∀ fuel bq rem a b, quoteLoop ends sbq fuel bq rem = .ok (a, b) → ∃ t, a = bq ++ t := by
  intro fuel
  induction fuel with
  | zero => intro bq rem a b h; cases h
  | succ fuel ih =>
    intro bq rem a b h
    cases rem with
    | nil => cases h; exact ⟨[], by simp⟩
    | cons l ls =>
      simp only [quoteLoop] at h
      split at h
      · cases h; exact ⟨[], by simp⟩
      · cases he : ends (bq ++ (l :: ls).takeWhile isQuote) with
        | error e => rw [he] at h; cases h
        | ok c =>
          rw [he] at h
          cases c with
          | false => cases h; exact ⟨_, rfl⟩
          | true =>
            simp only [bind, Except.bind, if_true] at h
            cases hc : contLoop sbq true ((l :: ls).dropWhile isQuote) with
            | error e => rw [hc] at h; cases h
            | ok r =>
              rw [hc] at h
              obtain ⟨t, ht⟩ := ih _ _ _ _ h
              exact ⟨(l :: ls).takeWhile isQuote ++ r.1 ++ t, by rw [ht]; simp⟩

theorem splitQuote_nil {n : Nat} {l : Str} {ls a b : List Str} (h : splitQuote n (l :: ls) = .ok (a, b)) :
    a = [] ↔ isQuote l = false := by
  cases n with
  | zero => cases h
  | succ n =>
    unfold splitQuote at h
    simp only [List.length_cons] at h
    simp only [quoteLoop] at h
    split at h
    · rename_i hq
      cases h
      simp only [true_iff]
      simpa using hq
    · rename_i hq
      have hq' : isQuote l = true := by simpa using hq
      simp only [List.nil_append] at h
      have hne : ∀ t : List Str, (l :: ls).takeWhile isQuote ++ t ≠ [] := by
        intro t; rw [List.takeWhile_cons, if_pos hq']; simp
      cases he : endsWithPar (parseWith (splitQuote n)) n ((l :: ls).takeWhile isQuote) with
      | error e => rw [he] at h; cases h
      | ok c =>
        rw [he] at h
        cases c with
        | false =>
          cases h
          rw [hq']
          constructor
          · intro h'; exact absurd h' (by simpa using hne [])
          · intro h'; cases h'
        | true =>
          simp only [bind, Except.bind, if_true] at h
          cases hc : contLoop (splitQuote n) true ((l :: ls).dropWhile isQuote) with
          | error e => rw [hc] at h; cases h
          | ok r =>
            rw [hc] at h
            obtain ⟨t, ht⟩ := quoteLoop_prefix _ _ _ _ _ _ _ h
            rw [hq', ht]
            constructor
            · intro h'; rw [List.append_assoc] at h'; exact absurd h' (hne _)
            · intro h'; cases h'

end MF
