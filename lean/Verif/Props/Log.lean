import Verif.Model.Log
/-!
# C45: logging state
-/

namespace MF

/-- A body that finishes leaves the state as it was, however redirections are nested. -/
theorem Act.run_ok (a : Act) : ∀ st, (a.run st).1 = true → (a.run st).2 = st := by
  induction a with
  | skip => intro st _; rfl
  | raise => intro st h; cases h
  | redirect body ih =>
    intro st h
    simp only [Act.run] at h ⊢
    split
    · rename_i hr
      have := ih _ hr
      simp only [this]
    · rename_i hr
      simp [hr] at h
  | seq a b iha ihb =>
    intro st h
    simp only [Act.run] at h ⊢
    split
    · rename_i hr
      rw [if_pos hr] at h
      have ha := iha _ hr
      rw [ha] at h ⊢
      exact ihb _ h
    · rename_i hr
      simp [hr] at h

/-- `own` and `parent` are never touched by redirections, finished or not. -/
theorem Act.run_levels (a : Act) : ∀ st, (a.run st).2.own = st.own ∧ (a.run st).2.parent = st.parent := by
  induction a with
  | skip => intro st; exact ⟨rfl, rfl⟩
  | raise => intro st; exact ⟨rfl, rfl⟩
  | redirect body ih =>
    intro st
    simp only [Act.run]
    have := ih { st with info := DEBUG }
    split <;> exact this
  | seq a b iha ihb =>
    intro st
    simp only [Act.run]
    have h1 := iha st
    split
    · have h2 := ihb (a.run st).2
      exact ⟨h2.1.trans h1.1, h2.2.trans h1.2⟩
    · exact h1

/-- C45 for a call that runs to its end (returning, or raising only the final inconsistency error, which comes after
the levels are restored): `logging.INFO` and the effective level are as before. Missing from the full claim: calls in
which formatting raises (`C45_info_not_restored`, `C45_level_not_restored`). -/
theorem C45_restored_partial (pass1 pass2 : Act) (st : LogSt) (h : (reformatLog pass1 pass2 st).1 = true) :
    (reformatLog pass1 pass2 st).2.info = st.info ∧
    (reformatLog pass1 pass2 st).2.effective = st.effective := by
  simp only [reformatLog] at h ⊢
  by_cases h1 : (pass1.run st).1 = true
  · have e1 := Act.run_ok _ _ h1
    simp only [h1, e1, Bool.not_true, Bool.false_eq_true, if_false] at h ⊢
    generalize hst' : (if st.effective > DEBUG then { st with own := ERROR } else st) = st' at h ⊢
    have hinfo : st'.info = st.info ∧ st'.parent = st.parent := by
      rw [← hst']; split <;> exact ⟨rfl, rfl⟩
    by_cases h2 : (pass2.run st').1 = true
    · have e2 := Act.run_ok _ _ h2
      simp only [h2, e2, Bool.not_true, Bool.false_eq_true, if_false]
      refine ⟨hinfo.1, ?_⟩
      unfold LogSt.effective
      simp only [hinfo.2]
      cases hown : st.own with
      | zero =>
        simp only [beq_self_eq_true, if_true]
        split
        · rfl
        · rfl
      | succ k => simp
    · simp [h2] at h
  · simp [h1] at h

/-- non-vacuity: a call with nested redirections in both passes -/
example : (reformatLog (.redirect (.seq (.redirect .skip) .skip)) (.redirect .skip) ⟨INFO, 0, ERROR⟩) =
    (true, ⟨INFO, ERROR, ERROR⟩) := by decide

/-- C45 is false when an exception passes through a redirection: `logging.INFO` stays at the debug level. -/
theorem C45_info_not_restored : ∃ (pass1 pass2 : Act) (st : LogSt),
    (reformatLog pass1 pass2 st).2.info ≠ st.info :=
  ⟨.redirect .raise, .skip, ⟨INFO, 0, ERROR⟩, by decide⟩

/-- C45 is false when the second pass raises: the logger is left at ERROR. -/
theorem C45_level_not_restored : ∃ (pass1 pass2 : Act) (st : LogSt),
    (reformatLog pass1 pass2 st).2.effective ≠ st.effective :=
  ⟨.skip, .raise, ⟨INFO, 0, DEBUG + 5⟩, by decide⟩

/-- What an exception can do at most: `logging.INFO` is the old value or the debug level, and the effective level is
the old one or ERROR. -/
theorem C45_damage_bounded (pass1 pass2 : Act) (st : LogSt) :
    let st' := (reformatLog pass1 pass2 st).2
    (st'.info = st.info ∨ st'.info = DEBUG) ∧ (st'.effective = st.effective ∨ st'.effective = ERROR) := by
  have hinfo : ∀ (a : Act) (st : LogSt), (a.run st).2.info = st.info ∨ (a.run st).2.info = DEBUG := by
    intro a
    induction a with
    | skip => intro st; exact .inl rfl
    | raise => intro st; exact .inl rfl
    | redirect body ih =>
      intro st
      simp only [Act.run]
      split
      · exact .inl rfl
      · rcases ih { st with info := DEBUG } with h | h <;> exact .inr h
    | seq a b iha ihb =>
      intro st
      simp only [Act.run]
      split
      · rcases ihb (a.run st).2 with h | h
        · rcases iha st with h' | h'
          · exact .inl (h.trans h')
          · exact .inr (h.trans h')
        · exact .inr h
      · exact iha st
  have heff : ∀ a st, (Act.run a st).2.effective = st.effective := by
    intro a st
    have := Act.run_levels a st
    unfold LogSt.effective
    rw [this.1, this.2]
  by_cases hok : (reformatLog pass1 pass2 st).1 = true
  · have := C45_restored_partial pass1 pass2 st hok
    exact ⟨.inl this.1, .inl this.2⟩
  · simp only [reformatLog] at hok ⊢
    by_cases h1 : (pass1.run st).1 = true
    · have e1 := Act.run_ok _ _ h1
      simp only [h1, e1, Bool.not_true, Bool.false_eq_true, if_false] at hok ⊢
      generalize hst' : (if st.effective > DEBUG then { st with own := ERROR } else st) = st' at hok ⊢
      have hi : st'.info = st.info := by rw [← hst']; split <;> rfl
      have he : st'.effective = st.effective ∨ st'.effective = ERROR := by
        rw [← hst']
        split
        · right; rfl
        · left; rfl
      by_cases h2 : (pass2.run st').1 = true
      · simp [h2] at hok
      · simp only [h2]
        refine ⟨?_, ?_⟩
        · rcases hinfo pass2 st' with h | h
          · exact .inl (h.trans hi)
          · exact .inr h
        · rcases he with h | h
          · exact .inl ((heff pass2 st').trans h)
          · exact .inr ((heff pass2 st').trans h)
    · simp only [h1]
      exact ⟨hinfo pass1 st, .inl (heff pass1 st)⟩

end MF
