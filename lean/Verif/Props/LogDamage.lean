import Verif.Lemmas.Harm
import Verif.Props.MainLog
/-!
# C85: what a failed call leaves behind in the logging state
-/

namespace MF

theorem harm_reformatTextL (n : Nat) (w : Width) (text : Str) : Harm (reformatTextL n w text) := harm_reformatText n w text

/-- The state in which the second pass runs. -/
theorem second_pass_state {n : Nat} {w : Width} {text t : Str} {e : Err} (h : reformatText n w text = .ok t)
    (h' : reformatText n w t = .error e) (s : LSt) :
    ∃ s1, (reformatMarkdownTextL n w text s).2 = (reformatTextL n w t s1).2 ∧ s1.info = s.info ∧ s1.parent = s.parent ∧
      s1.own = if s.effective > DEBUG then ERROR else s.own := by
  have hr := C67_same_result n w text s
  unfold reformatMarkdownTextL
  rw [LogM.bind_eq]
  cases hm : reformatTextL n w text s with
  | mk r s1 =>
    rw [hm] at hr
    simp only at hr
    rw [h] at hr
    subst hr
    have hs1 : s1.toLogSt = s.toLogSt := (reformatTextL_adds n w text).levels hm
    simp only
    change ∃ s', ((logIf (decide (s1.effective > DEBUG)) (setLevel fun _ => ERROR) >>= fun _ => _) s1).2 = _ ∧ _
    rw [LogM.bind_eq]
    have e : logIf (decide (s1.effective > DEBUG)) (setLevel fun _ => ERROR) s1 =
        (.ok (), if s1.effective > DEBUG then { s1 with own := ERROR } else s1) := by
      simp only [logIf, decide_eq_true_eq]
      split <;> rfl
    rw [e]
    simp only
    refine ⟨if s1.effective > DEBUG then { s1 with own := ERROR } else s1, ?_, ?_, ?_, ?_⟩
    · rw [LogM.bind_eq]
      have hr2 := C67_same_result n w t (if s1.effective > DEBUG then { s1 with own := ERROR } else s1)
      rw [h'] at hr2
      generalize reformatTextL n w t (if s1.effective > DEBUG then { s1 with own := ERROR } else s1) = x at hr2
      obtain ⟨r, s2⟩ := x
      simp only at hr2
      subst hr2
      rfl
    · rw [← congrArg LogSt.info hs1]; split <;> rfl
    · rw [← congrArg LogSt.parent hs1]; split <;> rfl
    · rw [← congrArg LogSt.own hs1, ← congrArg LogSt.effective hs1]; split <;> rfl

theorem first_pass_state {n : Nat} {w : Width} {text : Str} {e : Err} (h : reformatText n w text = .error e) (s : LSt) :
    (reformatMarkdownTextL n w text s).2 = (reformatTextL n w text s).2 := by
  have hr := C67_same_result n w text s
  rw [h] at hr
  unfold reformatMarkdownTextL
  rw [LogM.bind_eq]
  generalize reformatTextL n w text s = x at hr
  obtain ⟨r, s2⟩ := x
  simp only at hr
  subst hr
  rfl

/-- C85: a call of the formatter, whatever its outcome, leaves the level of the root logger alone and `logging.INFO` either alone
or at the debug level. If the first pass raises, the level of the formatter's logger is what it was; if the second pass raises, it is
ERROR unless debug messages are shown, when it is what it was. -/
theorem C85_left_behind (n : Nat) (w : Width) (text : Str) (s : LSt) :
    let s' := (reformatMarkdownTextL n w text s).2
    (s'.info = s.info ∨ s'.info = DEBUG) ∧ s'.parent = s.parent ∧
    (∀ e, reformatText n w text = .error e → s'.own = s.own) ∧
    (∀ t e, reformatText n w text = .ok t → reformatText n w t = .error e →
      s'.own = if s.effective > DEBUG then ERROR else s.own) := by
  cases h : reformatText n w text with
  | error e =>
    simp only
    rw [first_pass_state h s]
    obtain ⟨h1, h2, h3⟩ := (harm_reformatTextL n w text).state s
    exact ⟨h1, h3, fun _ _ => h2, fun t e' h0 => by cases h0⟩
  | ok t =>
    cases h' : reformatText n w t with
    | error e =>
      obtain ⟨s1, e1, e2, e3, e4⟩ := second_pass_state h h' s
      obtain ⟨h1, h2, h3⟩ := (harm_reformatTextL n w t).state s1
      simp only
      rw [e1]
      refine ⟨e2 ▸ h1, h3.trans e3, fun _ h0 => (by cases h0), fun t' e' h0 _ => h2.trans e4⟩
    | ok t' =>
      obtain ⟨h1, h2, _⟩ := full_state h h' s
      refine ⟨.inl h1, h2, fun _ h0 => (by cases h0), fun t'' e' h0 h00 => ?_⟩
      cases h0
      rw [h'] at h00
      cases h00

/-- C85: the call after a failed one, in the same process, returns or raises what it would in a new process. -/
theorem C85_next_call (n : Nat) (w : Width) (text : Str) (s : LSt) (m : Nat) (w' : Width) (text' : Str) (level : Nat) :
    (reformatMarkdownTextL m w' text' (reformatMarkdownTextL n w text s).2).1 =
      (reformatMarkdownTextL m w' text' (start level)).1 := by
  rw [C67_same_result_full, C67_same_result_full]

/-- C85: after a document that fails inside a quote, and after one whose second pass fails, the sections of the next document are not
shown any more. -/
theorem C85_example :
    let shownAfter := fun text => (reformatMarkdownTextL 9 (.fin 5) c!"# a\n"
      { (reformatMarkdownTextL 9 (.fin 5) text (start INFO)).2 with shown := [] }).2.shown
    shownAfter c!"b\n" = [.sect INFO 1 1 .atx [c!"# a"]] ∧ shownAfter c!"> .foo\n" = [] ∧
    shownAfter c!"aaaa - .foo\n" = [] := by
  decide +kernel

end MF
