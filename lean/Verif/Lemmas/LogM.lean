import Verif.Model.LogM
/-!
# Lemmas about code that logs
-/

namespace MF

/-- The code returns or raises `x`, in whatever state it starts. -/
def Erases {α : Type} (m : LogM α) (x : Except Err α) : Prop := ∀ s, (m s).1 = x

theorem LogM.bind_eq {α β : Type} (m : LogM α) (f : α → LogM β) (s : LSt) :
    (m >>= f) s = match m s with
      | (.ok a, s') => f a s'
      | (.error e, s') => (.error e, s') := rfl

theorem LogM.pure_eq {α : Type} (a : α) (s : LSt) : (pure a : LogM α) s = (.ok a, s) := rfl

theorem erases_pure {α : Type} (a : α) : Erases (pure a) (.ok a) := fun _ => rfl

theorem erases_lift {α : Type} (x : Except Err α) : Erases (lift x) x := fun _ => rfl

theorem erases_bind {α β : Type} {m : LogM α} {x : Except Err α} {f : α → LogM β} {g : α → Except Err β}
    (h : Erases m x) (hf : ∀ a, x = .ok a → Erases (f a) (g a)) : Erases (m >>= f) (x >>= g) := by
  intro s
  rw [LogM.bind_eq]
  have := h s
  cases hm : m s with
  | mk r s' =>
    rw [hm] at this
    simp only at this
    subst this
    cases r with
    | ok a => exact hf a rfl s'
    | error e => rfl

theorem erases_then {β : Type} {m : LogM Unit} {f : Unit → LogM β} {y : Except Err β}
    (h : Erases m (.ok ())) (hf : Erases (f ()) y) : Erases (m >>= f) y :=
  erases_bind (g := fun _ => y) h fun _ _ => hf

theorem erases_own (level : LSt → Nat) (m : LSt → Msg) : Erases (logOwn level m) (.ok ()) := fun _ => rfl

theorem erases_other (level : Nat) (m : Msg) : Erases (logOther level m) (.ok ()) := fun _ => rfl

theorem erases_ite {b : Bool} {m : LogM Unit} (h : Erases m (.ok ())) : Erases (logIf b m) (.ok ()) := by
  unfold logIf
  split
  · exact h
  · exact erases_pure ()

theorem erases_redirected {α : Type} {m : LogM α} {x : Except Err α} (h : Erases m x) : Erases (redirected m) x := by
  intro s
  have := h { s with info := DEBUG }
  unfold redirected
  cases hm : m { s with info := DEBUG } with
  | mk r s' =>
    rw [hm] at this
    simp only at this
    subst this
    cases r <;> rfl

/-- The code leaves the levels alone, restores `logging.INFO` unless it raises, and shows only messages that satisfy `Q`
for the logging state it starts with. -/
def Adds {α : Type} (Q : LogSt → Msg → Prop) (m : LogM α) : Prop := ∀ s,
  (m s).2.own = s.own ∧ (m s).2.parent = s.parent ∧ (∀ a, (m s).1 = .ok a → (m s).2.info = s.info) ∧
  ∃ ms, (m s).2.shown = s.shown ++ ms ∧ ∀ x ∈ ms, Q s.toLogSt x

theorem Adds.levels {α : Type} {Q : LogSt → Msg → Prop} {m : LogM α} (h : Adds Q m) {s s' : LSt} {a : α}
    (hm : m s = (.ok a, s')) : s'.toLogSt = s.toLogSt := by
  obtain ⟨h1, h2, h3, _⟩ := h s
  rw [hm] at h1 h2 h3
  have := h3 a rfl
  obtain ⟨⟨a1, a2, a3⟩, a4⟩ := s
  obtain ⟨⟨b1, b2, b3⟩, b4⟩ := s'
  simp only at h1 h2 this
  subst h1 h2 this
  rfl

theorem adds_pure {α : Type} {Q : LogSt → Msg → Prop} (a : α) : Adds Q (pure a : LogM α) :=
  fun s => ⟨rfl, rfl, fun _ _ => rfl, [], (List.append_nil _).symm, by simp⟩

theorem adds_lift {α : Type} {Q : LogSt → Msg → Prop} (x : Except Err α) : Adds Q (lift x) :=
  fun s => ⟨rfl, rfl, fun _ _ => rfl, [], (List.append_nil _).symm, by simp⟩

theorem adds_bind {α β : Type} {Q : LogSt → Msg → Prop} {m : LogM α} {f : α → LogM β} (h : Adds Q m)
    (hf : ∀ a, (∃ s, (m s).1 = .ok a) → Adds Q (f a)) : Adds Q (m >>= f) := by
  intro s
  rw [LogM.bind_eq]
  obtain ⟨h1, h2, h3, ms, h4, h5⟩ := h s
  cases hm : m s with
  | mk r s' =>
    rw [hm] at h1 h2 h3 h4
    cases r with
    | error e => exact ⟨h1, h2, fun a ha => (by cases ha), ms, h4, h5⟩
    | ok a =>
      have hl := h.levels hm
      obtain ⟨g1, g2, g3, ms', g4, g5⟩ := hf a ⟨s, by rw [hm]⟩ s'
      refine ⟨g1.trans h1, g2.trans h2, fun b hb => (g3 b hb).trans (h3 a rfl), ms ++ ms', ?_, ?_⟩
      · simp only at h4 ⊢
        rw [g4, h4, List.append_assoc]
      · intro x hx
        rcases List.mem_append.1 hx with hx | hx
        · exact h5 x hx
        · rw [← hl]
          exact g5 x hx

theorem adds_own {Q : LogSt → Msg → Prop} {level : LSt → Nat} {m : LSt → Msg}
    (h : ∀ s : LSt, level s ≥ s.effective → Q s.toLogSt (m s)) : Adds Q (logOwn level m) := by
  intro s
  simp only [logOwn]
  by_cases hl : level s ≥ s.effective
  · rw [if_pos hl]
    exact ⟨rfl, rfl, fun _ _ => rfl, [m s], rfl, by simpa using h s hl⟩
  · rw [if_neg hl]
    exact ⟨rfl, rfl, fun _ _ => rfl, [], (List.append_nil _).symm, by simp⟩

theorem adds_other {Q : LogSt → Msg → Prop} {level : Nat} {m : Msg}
    (h : ∀ s : LSt, level ≥ s.parent → Q s.toLogSt m) : Adds Q (logOther level m) := by
  intro s
  simp only [logOther]
  by_cases hl : level ≥ s.parent
  · rw [if_pos hl]
    exact ⟨rfl, rfl, fun _ _ => rfl, [m], rfl, by simpa using h s hl⟩
  · rw [if_neg hl]
    exact ⟨rfl, rfl, fun _ _ => rfl, [], (List.append_nil _).symm, by simp⟩

theorem adds_ite {Q : LogSt → Msg → Prop} {b : Bool} {m : LogM Unit} (h : b = true → Adds Q m) : Adds Q (logIf b m) := by
  unfold logIf
  by_cases hb : b = true
  · rw [if_pos hb]; exact h hb
  · rw [if_neg hb]; exact adds_pure ()

theorem adds_redirected {α : Type} {Q Q' : LogSt → Msg → Prop} {m : LogM α} (h : Adds Q' m)
    (hQ : ∀ l x, Q' { l with info := DEBUG } x → Q l x) : Adds Q (redirected m) := by
  intro s
  obtain ⟨h1, h2, h3, ms, h4, h5⟩ := h { s with info := DEBUG }
  unfold redirected
  cases hm : m { s with info := DEBUG } with
  | mk r s' =>
    rw [hm] at h1 h2 h3 h4
    cases r with
    | error e => exact ⟨h1, h2, fun a ha => (by cases ha), ms, h4, fun x hx => hQ _ _ (h5 x hx)⟩
    | ok a => exact ⟨h1, h2, fun _ _ => rfl, ms, h4, fun x hx => hQ _ _ (h5 x hx)⟩

theorem ran_bind {α β : Type} {m : LogM α} {f : α → LogM β} {s s' : LSt} {b : β}
    (h : (m >>= f) s = (.ok b, s')) : ∃ a s1, m s = (.ok a, s1) ∧ f a s1 = (.ok b, s') := by
  rw [LogM.bind_eq] at h
  cases hm : m s with
  | mk r s1 =>
    rw [hm] at h
    cases r with
    | error e => cases h
    | ok a => exact ⟨a, s1, rfl, h⟩

theorem redirected_ran {α : Type} {m : LogM α} {s s' : LSt} {a : α} (h : redirected m s = (.ok a, s')) :
    ∃ s2, m { s with info := DEBUG } = (.ok a, s2) ∧ s2.shown = s'.shown := by
  unfold redirected at h
  cases hm : m { s with info := DEBUG } with
  | mk r s2 =>
    rw [hm] at h
    cases r with
    | ok b => cases h; exact ⟨s2, rfl, rfl⟩
    | error e => cases h

theorem ran_lift_bind {α β : Type} {x : Except Err α} {f : α → LogM β} {s s' : LSt} {b : β}
    (h : (lift x >>= f) s = (.ok b, s')) : ∃ a, x = .ok a ∧ f a s = (.ok b, s') := by
  obtain ⟨a, s1, h1, k1⟩ := ran_bind h
  have e1 : x = .ok a := congrArg Prod.fst h1
  have e2 : s = s1 := congrArg Prod.snd h1
  subst e2
  exact ⟨a, e1, k1⟩

end MF
