import Verif.Lemmas.Errors
import Verif.Props.Extents
/-!
# Lines on which detection never raises StopIteration
-/

namespace MF

/-- No line ends with a hard break or has a label with a colon in it. -/
def Calm (lines : List Str) : Prop := ∀ l ∈ lines, hardBreak l = false ∧ ¬ c!"]:" <:+: l

theorem Calm.tail {l : Str} {ls : List Str} (h : Calm (l :: ls)) : Calm ls := fun x hx => h x (by simp [hx])

theorem Calm.sub {a b : List Str} (h : Calm b) (hs : ∀ l ∈ a, l ∈ b) : Calm a := fun x hx => h x (hs x hx)

theorem unquote_suffix (l : Str) : unquote l <:+ l := by
  by_cases h : ∃ r, Marked l r
  · obtain ⟨r, hr⟩ := h
    rw [unquote_marked hr]
    obtain ⟨k, _, rfl⟩ := hr
    exact ⟨List.replicate k ' ' ++ ['>'], by simp⟩
  · rw [unquote_unmarked fun r hr => h ⟨r, hr⟩]
    exact List.suffix_refl _

theorem Calm.unquote {ls : List Str} (h : Calm ls) : Calm (ls.map unquote) := by
  intro x hx
  obtain ⟨l, hl, rfl⟩ := List.mem_map.1 hx
  obtain ⟨h1, h2⟩ := h l hl
  have hs := unquote_suffix l
  refine ⟨?_, fun hi => h2 (hi.trans hs.isInfix)⟩
  cases hb : hardBreak (MF.unquote l) with
  | false => rfl
  | true =>
    rw [hardBreak, endsWith_iff] at hb
    obtain ⟨r, hr⟩ := hb
    obtain ⟨a, ha⟩ := hs
    have : hardBreak l = true := by
      rw [hardBreak, endsWith_iff]
      exact ⟨a ++ r, by rw [← ha, hr, List.append_assoc]⟩
    rw [this] at h1
    cases h1

/-- On calm lines a splitter can only run out of depth. -/
def CalmOnly (f : List Str → Split) : Prop := ∀ l ls, Calm (l :: ls) → Only (· = .recursion) (f (l :: ls))

theorem isParCont_calm {s : List Str → Split} (hs : CalmOnly s) (l : Str) (ls : List Str) (hc : Calm (l :: ls)) :
    Only (· = .recursion) (isParCont s (l :: ls)) := by
  unfold isParCont
  refine Only.bind (anySplits_only ?_) fun r _ => .ite (fun _ => .ok) fun _ => .ite (fun _ => .ok) fun _ => .ok
  intro f hf
  simp only [List.mem_cons, List.not_mem_nil, or_false] at hf
  rcases hf with rfl | rfl | rfl | rfl | rfl | rfl | rfl | rfl
  · exact splitAtx_only _ _
  · exact splitBlank_only _ _
  · exact hs _ _ hc
  · exact splitBullet_only _ _
  · exact splitFenced_only _ _
  · exact splitOrdered_only _ _
  · exact splitTable_only _ _
  · exact splitThematic_only _ _

theorem parLoop_calm {s : List Str → Split} (hs : CalmOnly s) (ls : List Str) (hc : Calm ls) :
    Only (· = .recursion) (parLoop s ls) := by
  induction ls with
  | nil => exact .ok
  | cons l ls ih =>
    have hb : endsWith l c!"  " = false := (hc l (by simp)).1
    simp only [parLoop]
    refine (isParCont_calm hs _ _ hc).bind fun b _ => .ite (fun _ => .ite (fun h => ?_) fun _ => ?_) fun _ => .ok
    · rw [hb] at h; cases h
    · exact (ih hc.tail).bind fun r _ => .ok

theorem splitParIgn_calm {s : List Str → Split} (hs : CalmOnly s) : CalmOnly (splitParIgn s) := by
  intro l ls hc
  simp only [splitParIgn]
  exact .ite (fun _ => .ite (fun _ => .ok) fun _ => (parLoop_calm hs ls hc.tail).bind fun r _ => .ok) fun _ => .ok

theorem splitPar_calm {s : List Str → Split} (hs : CalmOnly s) : CalmOnly (splitPar s) := by
  intro l ls hc
  refine (splitParIgn_calm hs l ls hc).bind fun r _ => ?_
  cases r.2 with
  | nil => exact .ok
  | cons l ls => exact .ite (fun _ => .ok) fun _ => .ok

theorem splitSetext_calm {s : List Str → Split} (hs : CalmOnly s) : CalmOnly (splitSetext s) := by
  intro l ls hc
  refine (splitParIgn_calm hs l ls hc).bind fun r _ => ?_
  obtain ⟨a, b⟩ := r
  cases a with
  | nil => exact .ok
  | cons p ps =>
    cases b with
    | nil => exact .ok
    | cons l ls => exact .ite (fun _ => .ok) fun _ => .ok

theorem splitters_calm {s : List Str → Split} (hs : CalmOnly s) : ∀ p ∈ splitters s, CalmOnly p.2 := by
  intro p hp l ls hc
  simp only [splitters, List.mem_cons, List.not_mem_nil, or_false] at hp
  rcases hp with rfl | rfl | rfl | rfl | rfl | rfl | rfl | rfl | rfl | rfl | rfl | rfl
  · exact splitAtx_only _ _
  · exact splitBlank_only _ _
  · exact hs _ _ hc
  · exact splitBullet_only _ _
  · exact splitFenced_only _ _
  · exact splitIndented_only _ _
  · show Only _ (splitLrd (l :: ls))
    rw [splitLrd_eq_nil ls fun _ => (hc l (by simp)).2]
    exact .ok
  · exact splitOrdered_only _ _
  · exact splitPar_calm hs _ _ hc
  · exact splitSetext_calm hs _ _ hc
  · exact splitTable_only _ _
  · exact splitThematic_only _ _

theorem isQuoteCont_calm {s : List Str → Split} (hs : CalmOnly s) (l : Str) (ls : List Str) (hc : Calm (l :: ls)) :
    Only (· = .recursion) (isQuoteCont s (l :: ls)) := by
  unfold isQuoteCont
  refine Only.bind (anySplits_only ?_) fun r _ => .ite (fun _ => .ok) fun _ => .ite (fun _ => .ok) fun _ => .ok
  intro f hf
  simp only [List.mem_cons, List.not_mem_nil, or_false] at hf
  rcases hf with rfl | rfl | rfl | rfl | rfl | rfl | rfl | rfl
  · exact splitAtx_only _ _
  · exact splitBlank_only _ _
  · exact splitBullet_only _ _
  · exact splitFenced_only _ _
  · exact splitOrdered_only _ _
  · exact splitSetext_calm hs _ _ hc
  · exact splitTable_only _ _
  · exact splitThematic_only _ _

theorem contLoop_calm {s : List Str → Split} (hs : CalmOnly s) (ls : List Str) (hc : Calm ls) : ∀ first,
    Only (· = .recursion) (contLoop s first ls) := by
  induction ls with
  | nil => intro first; exact .ok
  | cons l ls ih =>
    intro first
    simp only [contLoop]
    exact (isQuoteCont_calm hs _ _ hc).bind fun b _ => .ite (fun _ => .ite (fun _ => .ok) fun _ =>
      (ih hc.tail _).bind fun r _ => .ok) fun _ => .ok

theorem parse_calm (n : Nat) (hs : CalmOnly (splitQuote n)) (lines : List Str) (hc : Calm lines) :
    Only (· = .recursion) (parse n lines) := by
  intro e he
  have key : ∀ fuel lines, lines.length ≤ fuel → Calm lines → Only (· = .recursion) (parseLoop (splitQuote n) fuel lines) := by
    intro fuel
    induction fuel with
    | zero =>
      intro lines hl _
      cases lines with
      | nil => exact .ok
      | cons l ls => simp at hl
    | succ fuel ih =>
      intro lines hl hc
      cases lines with
      | nil => exact .ok
      | cons l ls =>
        simp only [parseLoop]
        refine Only.bind ?_ fun r hr => ?_
        · intro e he
          have h1 : ∀ fs : List (Sec × (List Str → Split)), (∀ p ∈ fs, Keeps p.2) → (∀ p ∈ fs, CalmOnly p.2) →
              ∀ e, firstSection fs (l :: ls) = .error e → e = .recursion ∨ e = .runtime := by
            intro fs
            induction fs with
            | nil => intro _ _ e h; cases h; exact .inr rfl
            | cons p fs ih =>
              obtain ⟨ty, f⟩ := p
              intro hk hr e h
              simp only [firstSection, bind, Except.bind] at h
              cases hf : f (l :: ls) with
              | error e' =>
                rw [hf] at h
                cases h
                exact .inl (hr (ty, f) (by simp) _ _ hc _ hf)
              | ok r =>
                rw [hf] at h
                obtain ⟨a, b⟩ := r
                have hab := hk (ty, f) (by simp) _ _ _ _ hf
                simp only at h
                split at h
                · cases h
                · rename_i hne
                  have ha : a = [] := by simpa using hne
                  subst ha
                  rw [List.nil_append] at hab
                  subst hab
                  exact ih (fun p hp => hk p (by simp [hp])) (fun p hp => hr p (by simp [hp])) e h
          rcases h1 _ (splitters_keep n) (splitters_calm hs) e he with h | h
          · exact h
          · rw [h] at he
            exact absurd he (firstSection_noRt n (fun l ls => splitQuote_noRt n (l :: ls)) l ls)
        · obtain ⟨ty, a, b⟩ := r
          obtain ⟨h1, h2, _⟩ := firstSection_keeps (splitters_keep n) hr
          have hlen : b.length ≤ fuel := by
            have := congrArg List.length h1
            have := List.length_pos_iff.2 h2
            simp only [List.length_append, List.length_cons] at *
            omega
          exact (ih b hlen (hc.sub fun x hx => by rw [← h1]; simp [hx])).bind fun r _ => .ok
  exact key _ _ (Nat.le_refl _) hc e he

theorem endsWithPar_calm (n : Nat) (hs : CalmOnly (splitQuote n)) : ∀ k (lines : List Str), lines ≠ [] → Calm lines →
    Only (· = .recursion) (endsWithPar (parse n) k lines) := by
  intro k
  induction k with
  | zero => intro lines _ _; exact .error rfl
  | succ k ih =>
    intro lines hne hc
    simp only [endsWithPar]
    refine (parse_calm n hs _ hc.unquote).bind fun secs hsecs => ?_
    have hp := parseLoop_partition n _ _ _ hsecs
    cases hg : secs.getLast? with
    | none =>
      rw [List.getLast?_eq_none_iff.1 hg] at hp
      exact absurd (List.map_eq_nil_iff.1 hp.1.symm) hne
    | some x =>
      obtain ⟨ty, content⟩ := x
      have hm := List.mem_of_getLast? hg
      have hcc : Calm content := hc.unquote.sub fun x hx => by
        rw [← hp.1]
        exact List.mem_flatten.2 ⟨content, List.mem_map.2 ⟨_, hm, rfl⟩, hx⟩
      have hc := hp.2 _ hm
      cases ty <;> first | exact ih content hc hcc | exact .ok

theorem quoteLoop_calm {ends : List Str → Except Err Bool} {s : List Str → Split} (hs : CalmOnly s)
    (he : ∀ lines, lines ≠ [] → Calm lines → Only (· = .recursion) (ends lines)) : ∀ fuel bq rem, Calm bq → Calm rem →
      Only (· = .recursion) (quoteLoop ends s fuel bq rem) := by
  intro fuel
  induction fuel with
  | zero => intro bq rem _ _; exact .error rfl
  | succ fuel ih =>
    intro bq rem hb hr
    cases rem with
    | nil => exact .ok
    | cons l ls =>
      simp only [quoteLoop]
      have h1 : Calm (bq ++ (l :: ls).takeWhile isQuote) := by
        intro x hx
        rcases List.mem_append.1 hx with hx | hx
        · exact hb x hx
        · exact hr x (List.takeWhile_subset _ hx)
      have h2 : Calm ((l :: ls).dropWhile isQuote) := hr.sub fun x hx => List.dropWhile_subset _ hx
      refine .ite (fun _ => .ok) fun hl => Only.bind (he _ ?_ h1) fun b _ => .ite (fun _ => ?_) fun _ => .ok
      · have : isQuote l = true := by simpa using hl
        simp [this]
      · refine (contLoop_calm hs _ h2 _).bind fun r hr' => ih _ _ ?_ ?_
        · have := contLoop_keeps _ _ _ r.1 r.2 hr'
          intro x hx
          rcases List.mem_append.1 hx with hx | hx
          · exact h1 x hx
          · exact h2 x (by rw [← this]; simp [hx])
        · have := contLoop_keeps _ _ _ r.1 r.2 hr'
          intro x hx
          exact h2 x (by rw [← this]; simp [hx])

theorem splitQuote_calm : ∀ n, CalmOnly (splitQuote n) := by
  intro n
  induction n with
  | zero => intro l ls _; exact .error rfl
  | succ n ih =>
    intro l ls hc
    exact quoteLoop_calm ih (fun lines hl hc => endsWithPar_calm n ih n lines hl hc) _ _ _ (by intro x hx; cases hx) hc

/-- On calm lines the parser can only run out of depth. -/
theorem parse_calm_errors {n : Nat} {lines : List Str} {e : Err} (hc : Calm lines) (h : parse n lines = .error e) :
    e = .recursion := parse_calm n (splitQuote_calm n) lines hc e h

end MF
