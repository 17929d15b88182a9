import Verif.Props.Parse
import Verif.Props.Paragraphs
import Verif.Props.Lrd
/-!
# Which exceptions a function can raise
-/

namespace MF

/-- every exception that `x` may be satisfies `S` -/
def Only {α : Type} (S : Err → Prop) (x : Except Err α) : Prop := ∀ e, x = .error e → S e

section
variable {α β : Type} {S : Err → Prop}

theorem Only.ok {x : α} : Only S (.ok x : Except Err α) := by intro e h; cases h

theorem Only.error {e : Err} (h : S e) : Only S (.error e : Except Err α) := by
  intro e' h'; cases h'; exact h

theorem Only.bind {a : Except Err α} {f : α → Except Err β} (h1 : Only S a) (h2 : ∀ x, a = .ok x → Only S (f x)) :
    Only S (a >>= f) := by
  cases a with
  | error e =>
    intro e' h
    cases h
    exact h1 _ rfl
  | ok x => exact h2 x rfl

theorem Only.ite {p : Prop} [Decidable p] {a b : Except Err α} (h1 : p → Only S a) (h2 : ¬p → Only S b) :
    Only S (if p then a else b) := by
  split
  · exact h1 ‹_›
  · exact h2 ‹_›

theorem Only.mono {T : Err → Prop} {a : Except Err α} (h : Only S a) (hST : ∀ e, S e → T e) : Only T a :=
  fun e he => hST e (h e he)

end

/-! ## Detection -/

/-- what the parser can raise -/
def ParseErr (e : Err) : Prop := e = .recursion ∨ e = .stopIteration

theorem lrdFinish_only {S : Err → Prop} (lines : List Str) (c : Bool) (i : Nat) (t : Str) (g : List Str) :
    Only S (lrdFinish lines c i t g) := by
  unfold lrdFinish
  exact .ite (fun _ => .ok) fun _ => .ok

theorem splitMax1_ne {s : Str} (h : (strip s).isEmpty = false) : splitMax1 s ≠ [] := by
  unfold splitMax1
  cases hl : lstrip s with
  | nil =>
    rw [(lstrip_eq_nil_iff_strip s).1 hl] at h
    cases h
  | cons c r =>
    simp only
    split <;> simp

theorem splitLrd_only (l : Str) (ls : List Str) : Only ParseErr (splitLrd (l :: ls)) := by
  simp only [splitLrd]
  refine .ite (fun _ => .ok) fun _ => ?_
  split
  · exact .ok
  · split
    · exact lrdFinish_only _ _ _ _ _
    · split <;> exact lrdFinish_only _ _ _ _ _
    · refine .ite (fun _ => .ok) fun hb => ?_
      split
      · split
        · exact lrdFinish_only _ _ _ _ _
        · exact .error (.inr rfl)
      · exact lrdFinish_only _ _ _ _ _
      · rename_i hnil
        exact absurd hnil (splitMax1_ne (by
          simp only [Bool.or_eq_true, not_or, Bool.not_eq_true] at hb
          exact hb.2))

theorem anySplits_only {S : Err → Prop} {lines : List Str} {fs : List (List Str → Split)}
    (h : ∀ f ∈ fs, Only S (f lines)) : Only S (anySplits lines fs) := by
  induction fs with
  | nil => exact .ok
  | cons f fs ih =>
    simp only [anySplits]
    exact (h f (by simp)).bind fun r _ => .ite (fun _ => .ok) fun _ => ih fun g hg => h g (by simp [hg])

section
variable {S : Err → Prop}

theorem simple_only {p : Bool} {x y : List Str × List Str} : Only S (if p then .ok x else .ok y : Split) := by
  cases p <;> exact .ok

theorem splitAtx_only (l : Str) (ls : List Str) : Only S (splitAtx (l :: ls)) := by
  simp only [splitAtx]; exact .ite (fun _ => .ok) fun _ => .ok
theorem splitBlank_only (l : Str) (ls : List Str) : Only S (splitBlank (l :: ls)) := by
  simp only [splitBlank]; exact .ite (fun _ => .ok) fun _ => .ok
theorem splitThematic_only (l : Str) (ls : List Str) : Only S (splitThematic (l :: ls)) := by
  simp only [splitThematic]; exact .ite (fun _ => .ok) fun _ => .ok
theorem splitBullet_only (l : Str) (ls : List Str) : Only S (splitBullet (l :: ls)) := by
  simp only [splitBullet]; exact .ite (fun _ => .ok) fun _ => .ok
theorem splitOrdered_only (l : Str) (ls : List Str) : Only S (splitOrdered (l :: ls)) := by
  simp only [splitOrdered]; exact .ite (fun _ => .ok) fun _ => .ok
theorem splitTable_only (l : Str) (ls : List Str) : Only S (splitTable (l :: ls)) := by
  simp only [splitTable]; exact .ite (fun _ => .ok) fun _ => .ok
theorem splitIndented_only (l : Str) (ls : List Str) : Only S (splitIndented (l :: ls)) := by
  simp only [splitIndented]; exact .ite (fun _ => .ok) fun _ => .ok
theorem splitFenced_only (l : Str) (ls : List Str) : Only S (splitFenced (l :: ls)) := by
  simp only [splitFenced]; split <;> exact .ok

end

/-- a splitter that raises only such exceptions on lines -/
def Raises (f : List Str → Split) : Prop := ∀ l ls, Only ParseErr (f (l :: ls))

theorem isParCont_only {s : List Str → Split} (hs : Raises s) (l : Str) (ls : List Str) :
    Only ParseErr (isParCont s (l :: ls)) := by
  unfold isParCont
  refine Only.bind (anySplits_only ?_) fun r _ => .ite (fun _ => .ok) fun _ => .ite (fun _ => .ok) fun _ => .ok
  intro f hf
  simp only [List.mem_cons, List.not_mem_nil, or_false] at hf
  rcases hf with rfl | rfl | rfl | rfl | rfl | rfl | rfl | rfl
  · exact splitAtx_only _ _
  · exact splitBlank_only _ _
  · exact hs _ _
  · exact splitBullet_only _ _
  · exact splitFenced_only _ _
  · exact splitOrdered_only _ _
  · exact splitTable_only _ _
  · exact splitThematic_only _ _

theorem parLoop_only {s : List Str → Split} (hs : Raises s) (ls : List Str) : Only ParseErr (parLoop s ls) := by
  induction ls with
  | nil => exact .ok
  | cons l ls ih =>
    simp only [parLoop]
    refine (isParCont_only hs _ _).bind fun b _ => .ite (fun _ => .ite (fun _ => ?_) fun _ => ?_) fun _ => .ok
    · cases ls with
      | nil => exact .error (.inr rfl)
      | cons l' ls => exact .ok
    · exact ih.bind fun r _ => .ok

theorem splitParIgn_only {s : List Str → Split} (hs : Raises s) : Raises (splitParIgn s) := by
  intro l ls
  simp only [splitParIgn]
  exact .ite (fun _ => .ite (fun _ => .ok) fun _ => (parLoop_only hs ls).bind fun r _ => .ok) fun _ => .ok

theorem splitPar_only {s : List Str → Split} (hs : Raises s) : Raises (splitPar s) := by
  intro l ls
  refine (splitParIgn_only hs l ls).bind fun r _ => ?_
  cases r.2 with
  | nil => exact .ok
  | cons l ls => exact .ite (fun _ => .ok) fun _ => .ok

theorem splitSetext_only {s : List Str → Split} (hs : Raises s) : Raises (splitSetext s) := by
  intro l ls
  refine (splitParIgn_only hs l ls).bind fun r _ => ?_
  obtain ⟨a, b⟩ := r
  cases a with
  | nil => exact .ok
  | cons p ps =>
    cases b with
    | nil => exact .ok
    | cons l ls => exact .ite (fun _ => .ok) fun _ => .ok

theorem splitters_only {s : List Str → Split} (hs : Raises s) : ∀ p ∈ splitters s, Raises p.2 := by
  intro p hp l ls
  simp only [splitters, List.mem_cons, List.not_mem_nil, or_false] at hp
  rcases hp with rfl | rfl | rfl | rfl | rfl | rfl | rfl | rfl | rfl | rfl | rfl | rfl
  · exact splitAtx_only _ _
  · exact splitBlank_only _ _
  · exact hs _ _
  · exact splitBullet_only _ _
  · exact splitFenced_only _ _
  · exact splitIndented_only _ _
  · exact splitLrd_only _ _
  · exact splitOrdered_only _ _
  · exact splitPar_only hs _ _
  · exact splitSetext_only hs _ _
  · exact splitTable_only _ _
  · exact splitThematic_only _ _

theorem isQuoteCont_only {s : List Str → Split} (hs : Raises s) (l : Str) (ls : List Str) :
    Only ParseErr (isQuoteCont s (l :: ls)) := by
  unfold isQuoteCont
  refine Only.bind (anySplits_only ?_) fun r _ => .ite (fun _ => .ok) fun _ => .ite (fun _ => .ok) fun _ => .ok
  intro f hf
  simp only [List.mem_cons, List.not_mem_nil, or_false] at hf
  rcases hf with rfl | rfl | rfl | rfl | rfl | rfl | rfl | rfl
  · exact splitAtx_only _ _
  · exact splitBlank_only _ _
  · exact splitBullet_only _ _
  · exact splitFenced_only _ _
  · exact splitOrdered_only _ _
  · exact splitSetext_only hs _ _
  · exact splitTable_only _ _
  · exact splitThematic_only _ _

theorem contLoop_only {s : List Str → Split} (hs : Raises s) (ls : List Str) : ∀ first,
    Only ParseErr (contLoop s first ls) := by
  induction ls with
  | nil => intro first; exact .ok
  | cons l ls ih =>
    intro first
    simp only [contLoop]
    exact (isQuoteCont_only hs _ _).bind fun b _ => .ite (fun _ => .ite (fun _ => .ok) fun _ =>
      (ih _).bind fun r _ => .ok) fun _ => .ok

/-- the parser built on `splitQuote n` raises nothing else, and finds a section in any lines -/
theorem parse_only (n : Nat) (hs : Raises (splitQuote n)) (lines : List Str) : Only ParseErr (parse n lines) := by
  intro e he
  have key : ∀ fuel lines, lines.length ≤ fuel → Only ParseErr (parseLoop (splitQuote n) fuel lines) := by
    intro fuel
    induction fuel with
    | zero =>
      intro lines hl
      cases lines with
      | nil => exact .ok
      | cons l ls => simp at hl
    | succ fuel ih =>
      intro lines hl
      cases lines with
      | nil => exact .ok
      | cons l ls =>
        simp only [parseLoop]
        refine Only.bind ?_ fun r hr => ?_
        · intro e he
          have h1 : ∀ fs : List (Sec × (List Str → Split)), (∀ p ∈ fs, Keeps p.2) → (∀ p ∈ fs, Raises p.2) →
              ∀ e, firstSection fs (l :: ls) = .error e → ParseErr e ∨ e = .runtime := by
            intro fs
            induction fs with
            | nil => intro _ _ e h; cases h; exact .inr rfl
            | cons p fs ih =>
              obtain ⟨ty, f⟩ := p
              intro hk hr e h
              simp only [firstSection, bind, Except.bind] at h
              cases hf : f (l :: ls) with
              | error e' =>
                rw [hf] at h
                cases h
                exact .inl (hr (ty, f) (by simp) _ _ _ hf)
              | ok r =>
                rw [hf] at h
                obtain ⟨a, b⟩ := r
                have hab := hk (ty, f) (by simp) _ _ _ _ hf
                simp only at h
                split at h
                · cases h
                · rename_i hne
                  have ha : a = [] := by simpa using hne
                  subst ha
                  rw [List.nil_append] at hab
                  subst hab
                  exact ih (fun p hp => hk p (by simp [hp])) (fun p hp => hr p (by simp [hp])) e h
          rcases h1 _ (splitters_keep n) (splitters_only hs) e he with h | h
          · exact h
          · rw [h] at he
            exact absurd he (firstSection_noRt n (fun l ls => splitQuote_noRt n (l :: ls)) l ls)
        · obtain ⟨ty, a, b⟩ := r
          obtain ⟨h1, h2, _⟩ := firstSection_keeps (splitters_keep n) hr
          have hlen : b.length ≤ fuel := by
            have := congrArg List.length h1
            have := List.length_pos_iff.2 h2
            simp only [List.length_append, List.length_cons] at *
            omega
          exact (ih b hlen).bind fun r _ => .ok
  exact key _ _ (Nat.le_refl _) e he

theorem endsWithPar_only (n : Nat) (hs : Raises (splitQuote n)) : ∀ k (lines : List Str), lines ≠ [] →
    Only ParseErr (endsWithPar (parse n) k lines) := by
  intro k
  induction k with
  | zero => intro lines _; exact .error (.inl rfl)
  | succ k ih =>
    intro lines hne
    simp only [endsWithPar]
    refine (parse_only n hs _).bind fun secs hsecs => ?_
    have hp := parseLoop_partition n _ _ _ hsecs
    cases hg : secs.getLast? with
    | none =>
      rw [List.getLast?_eq_none_iff.1 hg] at hp
      exact absurd (List.map_eq_nil_iff.1 hp.1.symm) hne
    | some x =>
      obtain ⟨ty, content⟩ := x
      have hc := hp.2 _ (List.mem_of_getLast? hg)
      cases ty <;> first | exact ih content hc | exact .ok

theorem quoteLoop_only {ends : List Str → Except Err Bool} {s : List Str → Split} (hs : Raises s)
    (he : ∀ lines, lines ≠ [] → Only ParseErr (ends lines)) : ∀ fuel bq rem, Only ParseErr (quoteLoop ends s fuel bq rem) := by
  intro fuel
  induction fuel with
  | zero => intro bq rem; exact .error (.inl rfl)
  | succ fuel ih =>
    intro bq rem
    cases rem with
    | nil => exact .ok
    | cons l ls =>
      simp only [quoteLoop]
      refine .ite (fun _ => .ok) fun hl => Only.bind (he _ ?_) fun b _ => .ite (fun _ => ?_) fun _ => .ok
      · have : isQuote l = true := by simpa using hl
        simp [this]
      · exact (contLoop_only hs _ _).bind fun r _ => ih _ _

theorem splitQuote_only : ∀ n, Raises (splitQuote n) := by
  intro n
  induction n with
  | zero => intro l ls; exact .error (.inl rfl)
  | succ n ih =>
    intro l ls
    exact quoteLoop_only ih (fun lines hl => endsWithPar_only n ih n lines hl) _ _ _

/-- the parser raises only RecursionError and StopIteration -/
theorem parse_errors {n : Nat} {lines : List Str} {e : Err} (h : parse n lines = .error e) :
    e = .recursion ∨ e = .stopIteration := parse_only n (splitQuote_only n) lines e h

end MF
