import Verif.Lemmas.Lines
/-!
# Joining and splitting lines
-/

namespace MF

/-- no character at which `splitlines` breaks -/
def NoLB (s : Str) : Prop := ∀ c ∈ s, isLB c = false

theorem isLB_ws {c : Char} (h : isLB c = true) : isWs c = true := by
  unfold isLB at h
  unfold isWs
  simp only [Bool.or_eq_true, Bool.and_eq_true, decide_eq_true_eq, beq_iff_eq] at h ⊢
  omega

theorem NoLB.append {a b : Str} (ha : NoLB a) (hb : NoLB b) : NoLB (a ++ b) := by
  intro c hc
  rcases List.mem_append.1 hc with h | h
  · exact ha c h
  · exact hb c h

theorem NoLB.cons {c : Char} {s : Str} (hc : isLB c = false) (hs : NoLB s) : NoLB (c :: s) := by
  intro x hx
  rcases List.mem_cons.1 hx with rfl | h
  · exact hc
  · exact hs x h

theorem NoLB.of_mem {a b : Str} (hb : NoLB b) (h : ∀ c ∈ a, c ∈ b) : NoLB a := fun c hc => hb c (h c hc)

theorem consHead_mem {c : Char} {ls : List Str} {l : Str} (h : l ∈ consHead c ls) :
    (∃ l0, l = c :: l0 ∧ (l0 ∈ ls ∨ l0 = [])) ∨ l ∈ ls := by
  cases ls with
  | nil =>
    simp only [consHead, List.mem_singleton] at h
    exact .inl ⟨[], h, .inr rfl⟩
  | cons x xs =>
    simp only [consHead, List.mem_cons] at h
    rcases h with h | h
    · exact .inl ⟨x, h, .inl (by simp)⟩
    · exact .inr (by simp [h])

theorem splitlines_noLB (s : Str) : ∀ l ∈ splitlines s, NoLB l := by
  induction s with
  | nil => intro l h; cases h
  | cons c s ih =>
    intro l h
    simp only [splitlines] at h
    split at h
    · exact ih l h
    · split at h
      · rcases List.mem_cons.1 h with rfl | h
        · intro c hc; cases hc
        · exact ih l h
      · rename_i hc
        have hc' : isLB c = false := Bool.eq_false_iff.2 hc
        rcases consHead_mem h with ⟨l0, rfl, hl⟩ | hl
        · refine NoLB.cons hc' ?_
          rcases hl with hl | rfl
          · exact ih l0 hl
          · intro c hc; cases hc
        · exact ih l hl

theorem splitlines_mem (s : Str) : ∀ l ∈ splitlines s, ∀ c ∈ l, c ∈ s := by
  induction s with
  | nil => intro l h; cases h
  | cons c s ih =>
    intro l h x hx
    simp only [splitlines] at h
    split at h
    · exact List.mem_cons_of_mem _ (ih l h x hx)
    · split at h
      · rcases List.mem_cons.1 h with rfl | h
        · cases hx
        · exact List.mem_cons_of_mem _ (ih l h x hx)
      · rcases consHead_mem h with ⟨l0, rfl, hl⟩ | hl
        · rcases List.mem_cons.1 hx with rfl | hx
          · simp
          · rcases hl with hl | rfl
            · exact List.mem_cons_of_mem _ (ih l0 hl x hx)
            · cases hx
        · exact List.mem_cons_of_mem _ (ih l hl x hx)

/-- a line in front of a newline is split off -/
theorem splitlines_line (l : Str) (h : NoLB l) (s : Str) : splitlines (l ++ '\n' :: s) = l :: splitlines s := by
  induction l with
  | nil =>
    simp only [List.nil_append, splitlines]
    rfl
  | cons c l ih =>
    have hc : isLB c = false := h c (by simp)
    have hcr : (c == '\r') = false := by
      rw [beq_eq_false_iff_ne]; intro h0; subst h0; cases hc
    simp only [List.cons_append, splitlines, hcr, Bool.false_and, Bool.false_eq_true, if_false, hc]
    rw [ih (fun x hx => h x (by simp [hx]))]
    rfl

theorem splitlines_single (l : Str) (h : NoLB l) (hne : l ≠ []) : splitlines l = [l] := by
  induction l with
  | nil => exact absurd rfl hne
  | cons c l ih =>
    have hc : isLB c = false := h c (by simp)
    have hcr : (c == '\r') = false := by
      rw [beq_eq_false_iff_ne]; intro h0; subst h0; cases hc
    simp only [splitlines, hcr, Bool.false_and, Bool.false_eq_true, if_false, hc]
    cases l with
    | nil => rfl
    | cons d l =>
      rw [ih (fun x hx => h x (by simp [hx])) (by simp)]
      rfl

/-- `"\n".join(lines) + "\n"` splits back into the lines -/
theorem splitlines_join_nl (ls : List Str) (h : ∀ l ∈ ls, NoLB l) (hne : ls ≠ []) :
    splitlines (pyJoin ['\n'] ls ++ ['\n']) = ls := by
  induction ls with
  | nil => exact absurd rfl hne
  | cons l ls ih =>
    cases ls with
    | nil =>
      simp only [pyJoin]
      have := splitlines_line l (h l (by simp)) []
      simpa [splitlines] using this
    | cons m ls =>
      simp only [pyJoin, List.append_assoc, List.cons_append]
      rw [splitlines_line l (h l (by simp))]
      have := ih (fun x hx => h x (by simp [hx])) (by simp)
      simp only [List.nil_append]
      rw [this]

/-- `"\n".join(lines)` splits back into the lines when the last one is not empty -/
theorem splitlines_join (ls : List Str) (h : ∀ l ∈ ls, NoLB l) (hlast : ls.getLast? ≠ some []) :
    splitlines (pyJoin ['\n'] ls) = ls := by
  induction ls with
  | nil => rfl
  | cons l ls ih =>
    cases ls with
    | nil =>
      simp only [pyJoin]
      exact splitlines_single l (h l (by simp)) (by intro h0; subst h0; exact hlast rfl)
    | cons m ls =>
      simp only [pyJoin, List.append_assoc, List.singleton_append]
      rw [splitlines_line l (h l (by simp)), ih (fun x hx => h x (by simp [hx])) (by simpa using hlast)]

theorem splitChar_ne_nil (sep : Char) (s : Str) : splitChar sep s ≠ [] := by
  cases s with
  | nil => simp [splitChar]
  | cons c s =>
    simp only [splitChar]
    split
    · simp
    · cases splitChar sep s <;> simp [consHead]

theorem splitChar_noSep (sep : Char) (l : Str) (h : sep ∉ l) : splitChar sep l = [l] := by
  induction l with
  | nil => rfl
  | cons c l ih =>
    have hc : (c == sep) = false := by
      rw [beq_eq_false_iff_ne]; intro h0; exact h (by simp [h0])
    simp only [splitChar, hc, Bool.false_eq_true, if_false, ih (fun h0 => h (by simp [h0]))]
    rfl

theorem splitChar_line (sep : Char) (l s : Str) (h : sep ∉ l) : splitChar sep (l ++ sep :: s) = l :: splitChar sep s := by
  induction l with
  | nil => simp [splitChar]
  | cons c l ih =>
    have hc : (c == sep) = false := by
      rw [beq_eq_false_iff_ne]; intro h0; exact h (by simp [h0])
    simp only [List.cons_append, splitChar, hc, Bool.false_eq_true, if_false, ih (fun h0 => h (by simp [h0]))]
    rfl

/-- `sep.join(parts)` splits back into the parts -/
theorem splitChar_join (sep : Char) (ls : List Str) (h : ∀ l ∈ ls, sep ∉ l) (hne : ls ≠ []) :
    splitChar sep (pyJoin [sep] ls) = ls := by
  induction ls with
  | nil => exact absurd rfl hne
  | cons l ls ih =>
    cases ls with
    | nil => exact splitChar_noSep sep l (h l (by simp))
    | cons m ls =>
      simp only [pyJoin, List.append_assoc, List.singleton_append]
      rw [splitChar_line sep l _ (h l (by simp)), ih (fun x hx => h x (by simp [hx])) (by simp)]

/-- joining what `split` produced gives the string back -/
theorem pyJoin_splitChar (sep : Char) (s : Str) : pyJoin [sep] (splitChar sep s) = s := by
  induction s with
  | nil => rfl
  | cons c s ih =>
    simp only [splitChar]
    have hne := splitChar_ne_nil sep s
    split
    · rename_i hc
      have hc' : c = sep := by simpa using hc
      subst hc'
      cases hs : splitChar c s with
      | nil => exact absurd hs hne
      | cons x xs =>
        rw [hs] at ih
        simp only [pyJoin, List.nil_append, List.singleton_append, ih]
    · cases hs : splitChar sep s with
      | nil => exact absurd hs hne
      | cons x xs =>
        rw [hs] at ih
        simp only [consHead]
        cases xs with
        | nil => simp only [pyJoin] at ih ⊢; rw [ih]
        | cons y ys => simp only [pyJoin, List.cons_append] at ih ⊢; rw [ih]

theorem splitChar_mem (sep : Char) (s : Str) : ∀ l ∈ splitChar sep s, ∀ c ∈ l, c ∈ s ∧ c ≠ sep := by
  induction s with
  | nil => intro l h c hc; simp only [splitChar, List.mem_singleton] at h; subst h; cases hc
  | cons c s ih =>
    intro l h x hx
    simp only [splitChar] at h
    split at h
    · rcases List.mem_cons.1 h with rfl | h
      · cases hx
      · have := ih l h x hx; exact ⟨by simp [this.1], this.2⟩
    · rename_i hc
      have hc' : c ≠ sep := by simpa using hc
      rcases consHead_mem h with ⟨l0, rfl, hl⟩ | hl
      · rcases List.mem_cons.1 hx with rfl | hx
        · exact ⟨by simp, hc'⟩
        · rcases hl with hl | rfl
          · have := ih l0 hl x hx; exact ⟨by simp [this.1], this.2⟩
          · cases hx
      · have := ih l hl x hx; exact ⟨by simp [this.1], this.2⟩

theorem mem_pyJoin {sep : Str} {ls : List Str} {c : Char} (h : c ∈ pyJoin sep ls) : c ∈ sep ∨ ∃ l ∈ ls, c ∈ l := by
  induction ls with
  | nil => cases h
  | cons l ls ih =>
    cases ls with
    | nil => exact .inr ⟨l, by simp, h⟩
    | cons m ls =>
      simp only [pyJoin, List.mem_append] at h
      rcases h with (h | h) | h
      · exact .inr ⟨l, by simp, h⟩
      · exact .inl h
      · rcases ih h with h | ⟨x, hx, hc⟩
        · exact .inl h
        · exact .inr ⟨x, List.mem_cons_of_mem _ hx, hc⟩

theorem mem_pyJoin_of_mem {sep : Str} {ls : List Str} {l : Str} {c : Char} (hl : l ∈ ls) (hc : c ∈ l) :
    c ∈ pyJoin sep ls := by
  induction ls with
  | nil => cases hl
  | cons x ls ih =>
    cases ls with
    | nil =>
      simp only [List.mem_singleton] at hl
      subst hl; exact hc
    | cons m ls =>
      simp only [pyJoin, List.mem_append]
      rcases List.mem_cons.1 hl with rfl | hl
      · exact .inl (.inl hc)
      · exact .inr (ih hl)

theorem pyJoin_cons_ne {sep x : Str} {ls : List Str} (h : ls ≠ []) :
    pyJoin sep (x :: ls) = x ++ sep ++ pyJoin sep ls := by
  cases ls with
  | nil => exact absurd rfl h
  | cons y ys => rfl

theorem pyJoin_append {sep : Str} {a b : List Str} (ha : a ≠ []) (hb : b ≠ []) :
    pyJoin sep (a ++ b) = pyJoin sep a ++ sep ++ pyJoin sep b := by
  induction a with
  | nil => exact absurd rfl ha
  | cons x a ih =>
    cases a with
    | nil => simp only [List.singleton_append, pyJoin]; rw [pyJoin_cons_ne hb]
    | cons y a =>
      have := ih (by simp)
      simp only [List.cons_append] at this ⊢
      rw [pyJoin_cons_ne (by simp), this, pyJoin_cons_ne (ls := y :: a) (by simp)]
      simp [List.append_assoc]

end MF
