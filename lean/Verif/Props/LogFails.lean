import Verif.Props.LogExact
import Verif.Lemmas.Harm
/-!
# C121: what a failing call logs and leaves behind, exactly

The messages are those of `Props/LogRef.lean`, up to where it fails. The level for information is that of debug messages
from then on if the exception came out of a document in the document, or out of looking at a quote.
-/

namespace MF

/-! ## Specification -/

/-- The text that these lines go on ends at a quoted line. -/
def meetsQuote : List Str → Bool
  | [] => false
  | l :: more => quotedLine l || (!textEnd l && !hardBreak l && meetsQuote more)

/-- Given that the section that begins with `l` cannot be found: that is because of a quote. -/
def stuckAt (l : Str) (more : List Str) : Bool :=
  kindOf l == some .quote ||
    (kindOf l == none && decide (defLines (l :: more) = .ok 0) && !hardBreak l && meetsQuote more)

/-- Given that the lines cannot be divided: that is because of a quote. -/
def stuckLoop (sq : List Str → Except Err Nat) : Nat → List Str → Bool
  | _, [] => false
  | 0, _ :: _ => false
  | fuel + 1, l :: more =>
    match firstExtentQ sq l more with
    | .error _ => stuckAt l more
    | .ok r => stuckLoop sq fuel ((l :: more).drop r.2)

def stuck (n : Nat) (lines : List Str) : Bool := stuckLoop (quoteLines n) lines.length lines

/-- The first section that cannot be formatted is a quote or a list. -/
def failsIn (sub : Width → Str → Except Err Str) (w : Width) : Nat → List (Sec × List Str) → Bool
  | _, [] => false
  | index, (kind, lines) :: more =>
    if (partRef sub w index kind lines).isOk then failsIn sub w (index + lines.length) more
    else kind == .quote || kind == .bullet || kind == .ordered

/-- Given that a document cannot be formatted: that is because of a quote or a list. -/
def failsInside : Nat → Width → Str → Bool
  | 0, _, _ => false
  | n + 1, w, text =>
    match divideQ n (splitlines text) with
    | .error _ => stuck n (splitlines text)
    | .ok secs => if secs.any fenceAlone then false else failsIn (formatRef n) w 0 secs

/-! ## Sequences -/

/-- If it fails and does not run out, the level for information is that of debug messages (`d`), or the same as before. -/
def Leaves {α : Type} (m : LogM α) (d : Bool) : Prop :=
  ∀ s e, (m s).1 = .error e → e ≠ .recursion → (m s).2.info = if d then DEBUG else s.info

theorem leaves_lift {α : Type} (x : Except Err α) : Leaves (lift x) false := fun _ _ _ _ => rfl

/-- What does not fail. -/
theorem leaves_ok {α : Type} {m : LogM α} {x : Except Err α} {a : α} (hx : Erases m x) (h : Refines x (.ok a)) (d : Bool) :
    Leaves m d := by
  intro s e h1 h2
  have := hx s
  rw [h1] at this
  have := refines_error h this.symm h2
  cases this

theorem leaves_pure {α : Type} (a : α) (d : Bool) : Leaves (pure a : LogM α) d := leaves_ok (erases_pure a) .rfl d

theorem leaves_bind {α β : Type} {m : LogM α} {x : Except Err α} {k : α → LogM β} {f : Nat → List Msg} {d : Bool}
    (hx : Erases m x) (hm : Utters m f) (h1 : Leaves m d) (h2 : ∀ a, x = .ok a → Leaves (k a) d) : Leaves (m >>= k) d := by
  intro s e h hn
  rw [LogM.bind_eq] at h ⊢
  have he := hx s
  have hu := hm s
  have hl := h1 s e
  cases hs : m s with
  | mk r s1 =>
    rw [hs] at h he hu hl
    simp only at he
    subst he
    cases r with
    | error e' => simp only at h hl ⊢; exact hl (congrArg _ (Except.error.inj h)) hn
    | ok a =>
      obtain ⟨i, h3, h4⟩ := hu (fun e => by cases e)
      have hi := h4 a rfl
      subst hi
      have h5 := h2 a rfl s1 e h hn
      simp only at h3
      rw [h3] at h5 ⊢
      exact h5

/-- What comes last does not fail. -/
theorem leaves_last {α β : Type} {m : LogM α} {k : α → LogM β} {d : Bool} (h1 : Leaves m d)
    (h2 : ∀ a s, ∃ b s', k a s = (.ok b, s')) : Leaves (m >>= k) d := by
  intro s e h hn
  rw [LogM.bind_eq] at h ⊢
  have hl := h1 s e
  cases hs : m s with
  | mk r s1 =>
    rw [hs] at h hl
    cases r with
    | error e' => simp only at h hl ⊢; exact hl (congrArg _ (Except.error.inj h)) hn
    | ok a =>
      obtain ⟨b, s', hk⟩ := h2 a s1
      simp only [hk] at h
      cases h

/-- What comes first fails, if anything does. -/
theorem leaves_fails {α β : Type} {m : LogM α} {x : Except Err α} {k : α → LogM β} {d : Bool} {e : Err}
    (hx : Erases m x) (he : x = .error e) (h1 : Leaves m d) : Leaves (m >>= k) d := by
  intro s e' h hn
  rw [LogM.bind_eq] at h ⊢
  have hr := hx s
  have hl := h1 s e'
  cases hs : m s with
  | mk r s1 =>
    rw [hs] at h hr hl
    simp only at hr
    rw [he] at hr
    subst hr
    simp only at h hl ⊢
    exact hl (congrArg _ (Except.error.inj h)) hn

theorem leaves_redirected {α : Type} {m : LogM α} (h : Harm m) : Leaves (redirected m) true := by
  intro s e h1 _
  simp only [redirected] at h1 ⊢
  have hh := (h.state { s with info := DEBUG }).1
  cases hm : m { s with info := DEBUG } with
  | mk r s1 =>
    rw [hm] at h1 hh
    cases r with
    | ok a => cases h1
    | error e' =>
      simp only [if_true]
      rcases hh with hh | hh <;> exact hh

theorem leaves_gen {α : Type} {m : LogM α} {d : Bool} (h : Leaves m d) : Leaves (throughGen m) d := by
  intro s e h1 hn
  simp only [throughGen] at h1 ⊢
  have hl := h s
  cases hm : m s with
  | mk r s1 =>
    rw [hm] at h1 hl
    cases r with
    | ok a => cases h1
    | error e' =>
      refine hl e' rfl fun h0 => hn ?_
      rw [← Except.error.inj h1, h0]; rfl

theorem leaves_bind_true {α β : Type} {m : LogM α} {k : α → LogM β} (h1 : Leaves m true) (h2 : ∀ a, Leaves (k a) true) :
    Leaves (m >>= k) true := by
  intro s e h hn
  rw [LogM.bind_eq] at h ⊢
  have hl := h1 s e
  cases hs : m s with
  | mk r s1 =>
    rw [hs] at h hl
    cases r with
    | error e' => simp only at h hl ⊢; exact hl (congrArg _ (Except.error.inj h)) hn
    | ok a => exact h2 a s1 e h hn

theorem leaves_recursion {α : Type} (d : Bool) : Leaves (lift (.error .recursion) : LogM α) d :=
  fun _ _ h1 h2 => absurd (Except.error.inj h1).symm h2

/-- What fails, if at all, runs out. -/
theorem leaves_refined {α : Type} {m : LogM α} {x : Except Err α} (hx : Erases m x) {a : α} (h : Refines x (.ok a)) (d : Bool) :
    Leaves m d := leaves_ok hx h d

/-! ## Quotes -/

theorem leaves_any_true (lines : List Str) (o : Nat) : ∀ fs : List (List Str → Nat → SplitL),
    (∀ f ∈ fs, Leaves (f lines o) true) → Leaves (anySplitsL lines o fs) true
  | [], _ => leaves_pure _ _
  | f :: fs, h => by
    unfold anySplitsL
    refine leaves_bind_true (h f List.mem_cons_self) fun r => ?_
    split
    · exact leaves_pure _ _
    · exact leaves_any_true lines o fs fun g hg => h g (List.mem_cons_of_mem _ hg)

section
variable {sL : List Str → Nat → SplitL} (hh : ∀ ls k, Harm (sL ls k))
include hh

theorem leaves_quoteCont (l : Str) (ls : List Str) (o : Nat) : Leaves (isQuoteContL sL (l :: ls) o) true := by
  unfold isQuoteContL
  refine leaves_bind_true ?_ fun b => ?_
  · refine leaves_any_true _ _ _ fun f hf => ?_
    simp only [List.map_cons, List.map_nil, List.mem_cons, List.not_mem_nil, or_false] at hf
    rcases hf with rfl | rfl | rfl | rfl | rfl | rfl | rfl | rfl <;>
      first
        | exact leaves_redirected (harm_quiet _ _ _)
        | exact leaves_redirected (harm_splitFenced _ _)
        | exact leaves_redirected (harm_splitSetext hh _ _)
  · split
    · exact leaves_pure _ _
    · dsimp only
      split <;> exact leaves_pure _ _

theorem leaves_contLoop : ∀ (ls : List Str) (first : Bool) (o : Nat), Leaves (contLoopL sL first o ls) true
  | [], _, _ => leaves_pure _ _
  | l :: ls, first, o => by
    unfold contLoopL
    refine leaves_bind_true (leaves_quoteCont hh l ls o) fun b => ?_
    split
    · split
      · exact leaves_pure _ _
      · exact leaves_bind_true (leaves_contLoop ls false (o + 1)) fun _ => leaves_pure _ _
    · exact leaves_pure _ _

end

theorem leaves_ends {pL : List Str → LogM (List (Sec × List Str))} (hp : ∀ ls, Harm (pL ls)) :
    ∀ (n : Nat) (ls : List Str), Leaves (endsWithParL pL n ls) true
  | 0, _ => leaves_recursion _
  | n + 1, ls => by
    unfold endsWithParL
    refine leaves_bind_true (leaves_redirected (harm_bind (hp _) fun secs => ?_)) fun last => ?_
    · split
      · exact harm_lift _
      · exact harm_pure _
    · split
      · exact leaves_ends hp n _
      · exact leaves_pure _ _
      · exact leaves_pure _ _

theorem leaves_quoteLoop {ends : List Str → LogM Bool} {sL : List Str → Nat → SplitL} (he : ∀ ls, Leaves (ends ls) true)
    (hh : ∀ ls k, Harm (sL ls k)) : ∀ (fuel o : Nat) (bq ls : List Str), Leaves (quoteLoopL ends sL fuel o bq ls) true
  | 0, _, _, _ => leaves_recursion _
  | _ + 1, _, _, [] => leaves_pure _ _
  | fuel + 1, o, bq, l :: ls => by
    unfold quoteLoopL
    split
    · exact leaves_pure _ _
    · refine leaves_bind_true (he _) fun b => ?_
      split
      · exact leaves_bind_true (leaves_contLoop hh _ _ _) fun r => leaves_quoteLoop he hh fuel _ _ _
      · exact leaves_pure _ _

/-- Looking at a quote fails with the level for information at that of debug messages. -/
theorem leaves_quote : ∀ (n : Nat) (lines : List Str) (o : Nat), Leaves (splitQuoteL n lines o) true
  | 0, _, _ => leaves_recursion _
  | n + 1, lines, o => by
    unfold splitQuoteL
    exact leaves_quoteLoop (leaves_ends (fun ls => harm_parseWith (harm_splitQuote n) ls) n) (harm_splitQuote n) _ _ _ _

/-! ## Text -/

theorem leaves_lrd (l : Str) (ls : List Str) (o : Nat) : Leaves (splitLrdL (l :: ls) o) false := by
  have hlog : ∀ (m : Msg) (r : List Str × List Str), Leaves (do logOther WARNING m; pure r) false := fun m r =>
    fun _ _ h _ => by cases h
  simp only [splitLrdL]
  repeat' split
  all_goals first | exact leaves_lift _ | exact leaves_pure _ _ | exact hlog _ _

section
variable {sL : List Str → Nat → SplitL} {s s' : List Str → Split} {sq : List Str → Except Err Nat}
  {qn : Nat → List Str → List Msg}
  (he : ErasesAll sL s) (hr : ∀ ls, Refines (s ls) (s' ls)) (hc : Counts s' sq)
  (hq : ∀ lines o, Utters (sL lines o) fun _ => qn (o + 1) lines) (h0 : ∀ k l ls, quotedLine l = false → qn k (l :: ls) = [])
  (ht : ∀ lines o, Leaves (sL lines o) true)

include he hr hc hq h0 ht

omit he hr hc hq h0 in
/-- Only looking at the quote can fail. -/
theorem leaves_parCont {l : Str} (ls : List Str) (o : Nat) (h : quotedLine l = true) :
    Leaves (isParContL sL (l :: ls) o) true := by
  have hfc : firstCh l = some '>' := by
    rw [quotedLine_eq] at h
    simp only [isQuote, Bool.and_eq_true] at h
    obtain ⟨r, hr⟩ := (startsWith_iff _ _).1 h.2
    simp only [firstCh, hr]
    rfl
  obtain ⟨h1, _, h3, h4, h5, h6, h7, _, h9⟩ := false_of_first hfc
  unfold isParContL
  refine leaves_bind_true (leaves_any_true _ _ _ fun f hf => ?_) fun b => ?_
  · simp only [List.mem_cons, List.not_mem_nil, or_false] at hf
    rcases hf with rfl | rfl | rfl | rfl | rfl | rfl | rfl | rfl
    · exact leaves_ok (erases_quiet _ _ _) (.inr (splitAtx_eq_nil ls (h1 (by decide)))) _
    · exact leaves_ok (erases_quiet _ _ _) (.inr (splitBlank_eq_nil ls h9)) _
    · exact ht _ _
    · exact leaves_ok (erases_quiet _ _ _) (.inr (splitBullet_eq_nil ls (h5 (by decide) (by decide) (by decide)))) _
    · exact leaves_ok (erases_fenced _ _) (.inr (splitFenced_eq_nil ls (h4 (by decide) (by decide)))) _
    · exact leaves_ok (erases_quiet _ _ _) (.inr (splitOrdered_eq_nil ls (h6 (by decide)))) _
    · exact leaves_ok (erases_quiet _ _ _) (.inr (splitTable_eq_nil ls (h3 (by decide)))) _
    · exact leaves_ok (erases_quiet _ _ _) (.inr (splitThematic_eq_nil ls (h7 (by decide) (by decide) (by decide)))) _
  · split
    · exact leaves_pure _ _
    · dsimp only
      split <;> exact leaves_pure _ _

theorem leaves_parLoop : ∀ (ls : List Str) (o : Nat), Leaves (parLoopL sL o ls) (meetsQuote ls)
  | [], _ => leaves_pure _ _
  | l :: ls, o => by
    have hcont := utters_parCont he hr hc hq h0 l ls o
    have hval := fun b (h : isParCont s (l :: ls) = .ok b) => refines_ok (isParCont_refines hr (l :: ls)) h
    have ih := leaves_parLoop ls (o + 1)
    unfold parLoopL meetsQuote
    cases hql : quotedLine l with
    | true =>
      refine leaves_bind (erases_parCont he _ _) hcont (leaves_parCont ht ls o hql) fun b hb => ?_
      have := hval b hb
      rw [isParCont_quo hc ls (by rw [← quotedLine_eq]; exact hql)] at this
      cases hsq : sq (l :: ls) with
      | error e => rw [hsq] at this; cases this
      | ok k =>
        rw [hsq] at this
        cases this
        exact leaves_pure _ _
    | false =>
      have hb := isParCont_unq hc ls (by rw [← quotedLine_eq]; exact hql)
      have hrf := isParCont_refines hr (l :: ls)
      rw [hb] at hrf
      refine leaves_bind (erases_parCont he _ _) hcont (leaves_refined (erases_parCont he _ _) hrf _) fun b h => ?_
      have := hval b h
      rw [hb] at this
      cases this
      simp only [Bool.false_or]
      cases textEnd l with
      | true => exact leaves_pure _ _
      | false =>
        simp only [Bool.not_false, if_true, Bool.true_and]
        have hh : endsWith l c!"  " = hardBreak l := rfl
        rw [hh]
        cases hardBreak l with
        | true =>
          simp only [if_true, Bool.not_true, Bool.false_and]
          cases ls with
          | nil => exact leaves_lift _
          | cons => exact leaves_pure _ _
        | false =>
          simp only [Bool.false_eq_true, if_false, Bool.not_false, Bool.true_and]
          exact leaves_last ih fun a s => ⟨_, _, rfl⟩

/-- The text cannot be found. -/
theorem leaves_par {l : Str} (ls : List Str) (o : Nat) (hk : kindOf l = none) :
    Leaves (splitParL sL (l :: ls) o) (!hardBreak l && meetsQuote ls) := by
  have hp := (isParStart_kind l).2 hk
  unfold splitParL
  refine leaves_last ?_ fun r s => ?_
  · simp only [splitParIgnL, hp, if_true]
    have hh : endsWith l c!"  " = hardBreak l := rfl
    rw [hh]
    cases hardBreak l with
    | true => exact leaves_pure _ _
    | false =>
      simp only [Bool.false_eq_true, if_false, Bool.not_false, Bool.true_and]
      exact leaves_last (leaves_parLoop he hr hc hq h0 ht ls (o + 1)) fun a s => ⟨_, _, rfl⟩
  · obtain ⟨a, b⟩ := r
    cases b with
    | nil => exact ⟨_, _, rfl⟩
    | cons u us => cases hu : isSetextUnderline u <;> simp only [hu] <;> exact ⟨_, _, rfl⟩

/-! ## The first section -/

omit he hr hc hq h0 ht in
theorem leaves_first_skip {lines : List Str} {ty : Sec} {f : List Str → Nat → SplitL} {x : Split}
    {fs : List (Sec × (List Str → Nat → SplitL))} {d : Bool} {g : Nat → List Msg} (hx : Erases (f lines 0) x)
    (hu : Utters (f lines 0) g) (hs : Refines x (.ok ([], lines))) (hd : Leaves (firstSectionL fs lines) d) :
    Leaves (firstSectionL ((ty, f) :: fs) lines) d := by
  unfold firstSectionL
  refine leaves_bind hx hu (leaves_refined hx hs d) fun r h => ?_
  have := refines_ok hs h
  cases this
  exact hd

omit he hr hc hq h0 ht in
theorem leaves_first_fails {lines : List Str} {ty : Sec} {f : List Str → Nat → SplitL} {x : Split} {e : Err}
    {fs : List (Sec × (List Str → Nat → SplitL))} {d : Bool} (hx : Erases (f lines 0) x)
    (hs : Refines x (.error e)) (hd : Leaves (f lines 0) d) :
    Leaves (firstSectionL ((ty, f) :: fs) lines) d := by
  unfold firstSectionL
  rcases hs with hs | hs <;> exact leaves_fails hx hs hd

theorem leaves_start (l : Str) (ls : List Str) :
    Leaves (firstSectionL (splittersL sL) (l :: ls)) (stuckAt l ls) := by
  have hfr := first_refines hr (l :: ls)
  rw [first_section_quotes hc] at hfr
  cases hx : firstExtentQ sq l ls with
  | ok x =>
    rw [hx] at hfr
    exact leaves_ok (erases_splitters he _) hfr _
  | error e =>
  have hkq := kindOf_eq l
  cases hk : kindOf l with
  | some k =>
    cases k <;> simp only [firstExtentQ, hk, reduceCtorEq] at hx
    have hs : stuckAt l ls = true := by simp [stuckAt, hk]
    rw [hs]
    rw [hk] at hkq
    cases hb : isBlankLine l with
    | true => rw [hb] at hkq; simp at hkq
    | false =>
    cases ha : isAtx l with
    | true =>
      rw [ha] at hkq
      exfalso
      revert hkq
      cases isBlankLine l <;> cases isFenceStart l <;> cases isIndentedStart l <;> simp
    | false =>
    refine leaves_first_skip (erases_quiet _ _ _) (utters_quiet _ _ _) (.inr (splitAtx_eq_nil ls ha)) ?_
    refine leaves_first_skip (erases_quiet _ _ _) (utters_quiet _ _ _) (.inr (splitBlank_eq_nil ls hb)) ?_
    refine leaves_first_fails (e := e) (he _ _) ?_ (ht _ _)
    have h1 := hr (l :: ls)
    rw [hc.eq] at h1
    cases hsq : sq (l :: ls) with
    | ok k => rw [hsq] at hx; cases hx
    | error e' =>
      rw [hsq] at h1 hx
      cases hx
      exact h1
  | none =>
    obtain ⟨h1, h2, h3, h4, h5⟩ := plain_of_kind hk
    rw [hk] at hkq
    have h6 : isQuote l = false ∧ isIndentedStart l = false := by
      rw [h2, h4, h1, h3, h5] at hkq
      revert hkq
      cases isIndentedStart l <;> cases isQuote l <;> simp
    refine leaves_first_skip (erases_quiet _ _ _) (utters_quiet _ _ _) (.inr (splitAtx_eq_nil ls h1)) ?_
    refine leaves_first_skip (erases_quiet _ _ _) (utters_quiet _ _ _) (.inr (splitBlank_eq_nil ls h2)) ?_
    refine leaves_first_skip (he _ _) (hq _ _) (by
      have := hr (l :: ls)
      rw [hc.skip ls h6.1] at this
      exact this) ?_
    refine leaves_first_skip (erases_quiet _ _ _) (utters_quiet _ _ _) (.inr (splitBullet_eq_nil ls h3)) ?_
    refine leaves_first_skip (erases_fenced _ _) (utters_fenced l ls 0) (.inr (splitFenced_eq_nil ls h4)) ?_
    refine leaves_first_skip (erases_quiet _ _ _) (utters_quiet _ _ _) (.inr (splitIndented_eq_nil ls h6.2)) ?_
    have hdef := C115_definition (l :: ls)
    simp only [firstExtentQ, hk, bind, Except.bind] at hx
    cases hd : defLines (l :: ls) with
    | error e' =>
      have hs : stuckAt l ls = false := by simp [stuckAt, hk, hd]
      rw [hs]
      rw [hd] at hdef
      refine leaves_first_fails (erases_lrd _ _) (.inr hdef) ?_
      exact leaves_lrd l ls 0
    | ok d =>
      rw [hd] at hx
      simp only at hx
      by_cases hd0 : d = 0
      · subst hd0
        have hs : stuckAt l ls = (!hardBreak l && meetsQuote ls) := by simp [stuckAt, hk, hd]
        rw [hs]
        rw [hd] at hdef
        refine leaves_first_skip (erases_lrd _ _) (utters_lrd l ls 0) (.inr hdef) ?_
        refine leaves_first_skip (erases_quiet _ _ _) (utters_quiet _ _ _) (.inr (splitOrdered_eq_nil ls h5)) ?_
        have hpar := splitPar_refines hr (l :: ls)
        cases htl : textLinesQ sq l ls with
        | error e2 =>
          rw [show splitPar s' (l :: ls) = .error e2 by
            simp only [splitPar, splitParIgn_count hc hk, bind, Except.bind, htl]; rfl] at hpar
          exact leaves_first_fails (erases_par he _ _) hpar (leaves_par he hr hc hq h0 ht ls 0 hk)
        | ok t =>
          rw [htl] at hx
          simp only [ne_eq, not_true, if_false] at hx
          split at hx
          · split at hx <;> cases hx
          · cases hx
      · rw [if_pos hd0] at hx
        cases hx

theorem leaves_parseLoop : ∀ (fuel k : Nat) (lines : List Str),
    Leaves (parseLoopL sL fuel k lines) (stuckLoop sq fuel lines)
  | _, _, [] => by unfold parseLoopL; exact leaves_pure _ _
  | 0, _, _ :: _ => leaves_recursion _
  | fuel + 1, k, l :: ls => by
    have hfr := first_refines hr (l :: ls)
    rw [first_section_quotes hc] at hfr
    have hst := leaves_start he hr hc hq h0 ht l ls
    unfold parseLoopL stuckLoop
    cases hx : firstExtentQ sq l ls with
    | error e =>
      rw [hx] at hfr
      rcases hfr with h | h <;> exact leaves_fails (erases_splitters he _) h hst
    | ok x =>
      rw [hx] at hfr
      obtain ⟨kind, n⟩ := x
      refine leaves_bind (erases_splitters he _) (utters_start he hr hc hq h0 l ls)
        (leaves_refined (erases_splitters he _) hfr _) fun r h => ?_
      have hre : (kind, (l :: ls).take n, (l :: ls).drop n) = r := Except.ok.inj (refines_ok hfr h)
      subst hre
      refine leaves_bind (erases_other _ _) (utters_found _ _ _) (leaves_ok (erases_other _ _) .rfl _) fun _ _ => ?_
      exact leaves_last (leaves_parseLoop fuel _ _) fun a s => ⟨_, _, rfl⟩

end

theorem leaves_parse (n : Nat) (lines : List Str) : Leaves (parseL n lines) (stuck n lines) :=
  leaves_parseLoop (erases_quote n) (splitQuote_below n) (quoteLines_counts n) (utters_quote n)
    (fun k _ ls h => quoteNotes_unquoted n k ls h) (leaves_quote n) _ _ _

/-! ## Formatting -/

theorem leaves_build : ∀ (secs : List (Sec × List Str)), (∀ s ∈ secs, SecShape s.1 s.2) → ∀ (i : Nat) (last : Option Sec),
    Leaves (buildFmtsL i last secs) false
  | [], _, _, _ => leaves_pure _ _
  | (ty, content) :: rest, hsh, i, last => by
    unfold buildFmtsL
    refine leaves_bind (erases_lift _) (utters_lift _) (leaves_lift _) fun _ _ => ?_
    refine leaves_bind (erases_own _ _) (utters_sect _ _ _ _) (leaves_ok (erases_own _ _) .rfl _) fun _ _ => ?_
    refine leaves_bind (erases_ite (erases_own _ _)) (utters_if (utters_added _))
      (leaves_ok (erases_ite (erases_own _ _)) .rfl _) fun _ _ => ?_
    refine leaves_last (leaves_build rest (fun s hs => hsh s (List.mem_cons_of_mem _ hs)) _ _) fun fs s => ?_
    split <;> exact ⟨_, _, rfl⟩

section
variable {sub : Width → Str → LogM Str} (hh : ∀ w t, Harm (sub w t))
include hh

theorem leaves_entry (w : Width) (k : Nat) (m : Str) (e : List Str) : Leaves (fmtEntryL sub w k m e) true :=
  leaves_bind_true (leaves_redirected (hh _ _)) fun _ => leaves_pure _ _

theorem leaves_bullets (w : Width) (m : Str) : ∀ es : List (List Str), Leaves (fmtBulletEntriesL sub w m es) true
  | [] => leaves_pure _ _
  | e :: es => leaves_bind_true (leaves_entry hh w 2 m e) fun _ => leaves_bind_true (leaves_bullets w m es) fun _ => leaves_pure _ _

theorem leaves_numbers (w : Width) (k : Nat) : ∀ (es : List (List Str)) (i : Nat), Leaves (fmtOrderedEntriesL sub w k i es) true
  | [], _ => leaves_pure _ _
  | e :: es, i => leaves_bind_true (leaves_entry hh w k _ e) fun _ => leaves_bind_true (leaves_numbers w k es (i + 1)) fun _ =>
    leaves_pure _ _

theorem leaves_section (w : Width) (i : Nat) {ty : Sec} {lines : List Str} (h : SecShape ty lines) :
    Leaves (fmtSectionL sub w i ty lines) (ty == .quote || ty == .bullet || ty == .ordered) := by
  obtain ⟨l, ls, e, _⟩ := h.first
  cases ty
  case atx =>
    subst e
    simp only [fmtSectionL, fmtAtxL]
    refine leaves_bind (f := fun _ => _) (erases_ite (erases_other _ _)) (utters_if (utters_warning fun _ _ => rfl))
      (leaves_ok (erases_ite (erases_other _ _)) .rfl _) fun _ _ => leaves_lift _
  case quote =>
    subst e
    simp only [fmtSectionL, fmtQuoteL]
    exact leaves_bind_true (leaves_redirected (hh _ _)) fun _ => leaves_pure _ _
  case bullet =>
    obtain ⟨l, ls, ws, m, r, rfl, hm, hb, _⟩ := h.list (.inl rfl)
    obtain ⟨c, _, rfl⟩ := hb rfl
    obtain ⟨es, h1, _, h3⟩ := entries_ref hm h.lines
    simp only [fmtSectionL, fmtBulletL, h1, hm.lstrip, List.cons_append]
    refine leaves_bind (erases_lift _) (utters_lift _) (leaves_ok (erases_lift _) .rfl _) fun x hx => ?_
    cases hx
    refine leaves_bind (erases_lift _) (utters_lift _) (leaves_ok (erases_lift _) (.inr h3) _) fun x hx => ?_
    exact leaves_bind_true (leaves_bullets hh w _ _) fun _ => leaves_pure _ _
  case ordered =>
    obtain ⟨l, ls, ws, m, r, rfl, hm, _, hb⟩ := h.list (.inr rfl)
    obtain ⟨ds, hne, hds, rfl⟩ := hb rfl
    obtain ⟨es, h1, _, h3⟩ := entries_ref hm h.lines
    simp only [fmtSectionL, fmtOrderedL, h1, firstNumber_marker hm hne hds]
    refine leaves_bind (erases_lift _) (utters_lift _) (leaves_ok (erases_lift _) .rfl _) fun x hx => ?_
    cases hx
    refine leaves_bind (erases_lift _) (utters_lift _) (leaves_ok (erases_lift _) .rfl _) fun x hx => ?_
    refine leaves_bind (erases_lift _) (utters_lift _) (leaves_ok (erases_lift _) (.inr h3) _) fun x hx => ?_
    exact leaves_bind_true (leaves_numbers hh w _ _ _) fun _ => leaves_pure _ _
  all_goals exact leaves_lift _

variable {sub' ref : Width → Str → Except Err Str} {notes : Nat → Width → Str → List Msg}
  (he : ∀ w t, Erases (sub w t) (sub' w t)) (hr : ∀ w t, Refines (sub' w t) (ref w t))
  (hs : ∀ w t, Utters (sub w t) fun level => notes level w t)
include he hr hs

theorem leaves_parts (w : Width) : ∀ (secs : List (Sec × List Str)), (∀ s ∈ secs, SecShape s.1 s.2) →
    ∀ (i : Nat) (last : Option Sec) (fs : List Fmt), buildFmts i last secs = .ok fs →
    Leaves (fmtAllL sub w fs) (failsIn ref w i secs)
  | [], _, i, last, fs, h => by
    cases h
    exact leaves_pure _ _
  | (ty, content) :: rest, hsh, i, last, fs, h => by
    simp only [buildFmts, bind, Except.bind] at h
    cases hrc : reprCheck ty content with
    | error e => rw [hrc] at h; cases h
    | ok _ =>
      rw [hrc] at h
      cases hb : buildFmts (i + content.length) (some ty) rest with
      | error e => rw [hb] at h; cases h
      | ok gs =>
        rw [hb] at h
        have ih := leaves_parts w rest (fun s hs => hsh s (List.mem_cons_of_mem _ hs)) _ _ gs hb
        have hsec := hsh _ List.mem_cons_self
        have hpart := fmtSection_refines hr w i ty content
        rw [part_ref ref w i hsec] at hpart
        have hone : Leaves (fmtAllL sub w (⟨i, ty, content⟩ :: gs)) (failsIn ref w i ((ty, content) :: rest)) := by
          have hE := erases_section he w i ty content
          have hU := utters_gen (utters_section he hr hs w i hsec)
          have hL := leaves_gen (leaves_section hh w i hsec)
          unfold fmtAllL failsIn
          cases hp : partRef ref w i ty content with
          | ok t =>
            rw [hp] at hpart
            refine leaves_bind (erases_gen hE) hU ?_ fun t ht => ?_
            · exact leaves_gen (leaves_ok hE hpart _)
            · exact leaves_last ih fun _ _ => ⟨_, _, rfl⟩
          | error e =>
            rw [hp] at hpart
            have hfail : ∃ e', fmtSection sub' w i ty content = .error e' := by
              rcases hpart with hx | hx <;> exact ⟨_, hx⟩
            obtain ⟨e', hfail⟩ := hfail
            rw [hfail] at hE
            exact leaves_fails (erases_gen hE) rfl hL
        dsimp only at h
        split at h
        · cases h
          unfold fmtAllL
          refine leaves_bind (erases_gen (erases_section he w i .blank [[]])) (utters_gen (utters_lift _))
            (leaves_gen (leaves_ok (erases_lift _) .rfl _)) fun _ _ => leaves_last hone fun _ _ => ⟨_, _, rfl⟩
        · cases h
          exact hone

end

theorem leaves_pass : ∀ (n : Nat) (w : Width) (text : Str), Leaves (reformatTextL n w text) (failsInside n w text)
  | 0, _, _ => leaves_recursion _
  | n + 1, w, text => by
    unfold reformatTextL
    simp only [failsInside]
    have hpd : Refines (parse n (splitlines text)) (divideQ n (splitlines text)) := by
      by_cases h : parse n (splitlines text) = .error .recursion
      · exact .inl h
      · exact .inr (C117_division n _ h)
    cases hq : divideQ n (splitlines text) with
    | error e =>
      rw [hq] at hpd
      rcases hpd with h | h <;> exact leaves_fails (erases_parse n _) h (leaves_parse n _)
    | ok secs =>
      rw [hq] at hpd
      refine leaves_bind (erases_parse n _) (utters_parse n _) (leaves_ok (erases_parse n _) hpd _) fun secs' hp => ?_
      have := refines_ok hpd hp
      cases this
      have hsh : ∀ s ∈ secs, SecShape s.1 s.2 := fun s hs => parse_shape hp (splitlines_noLB _) hs
      cases hany : secs.any fenceAlone with
      | true =>
        simp only [hany, if_true]
        exact leaves_fails (erases_build secs 0 none) (fmts_fail secs hsh hany 0 none) (leaves_build secs hsh 0 none)
      | false =>
        simp only [hany, Bool.false_eq_true, if_false]
        obtain ⟨fs, h3, _⟩ := fmts_ref (formatRef n) w secs hsh hany 0 none
        refine leaves_bind (erases_build secs 0 none) (utters_build secs hsh 0 none)
          (leaves_ok (erases_build secs 0 none) (.inr h3) _) fun fs' hf => ?_
        exact leaves_last (leaves_parts (harm_reformatText n) (fun w t s => C67_same_result n w t s) (format_below n)
          (utters_pass n) w secs hsh 0 none fs' hf) fun _ _ => ⟨_, _, rfl⟩

/-! ## C121 -/

/-- C121: dividing a document fails. -/
theorem C121_division {n : Nat} {lines : List Str} {e : Err} (h : parse n lines = .error e) (he : e ≠ .recursion) (s : LSt) :
    parseL n lines s = (.error e, { s with
      info := if stuck n lines then DEBUG else s.info
      shown := s.shown ++ (divideNotes n lines).filter (audible s.effective s.parent) }) := by
  obtain ⟨h1, h2⟩ := C120_division (n := n) (lines := lines) (by rw [h]; exact fun e' => he (Except.error.inj e')) s
  rw [h] at h1
  rw [leaves_parse n lines s e h1 he] at h2
  exact Prod.ext h1 h2

/-- C121: formatting a document once fails. -/
theorem C121_pass {n : Nat} {w : Width} {text : Str} {e : Err} (h : reformatText n w text = .error e) (he : e ≠ .recursion)
    (s : LSt) :
    reformatTextL n w text s = (.error e, { s with
      info := if failsInside n w text then DEBUG else s.info
      shown := s.shown ++ (passNotes n s.info w text).filter (audible s.effective s.parent) }) := by
  obtain ⟨h1, h2⟩ := C120_pass (n := n) (w := w) (text := text) (by rw [h]; exact fun e' => he (Except.error.inj e')) s
  rw [h] at h1
  rw [leaves_pass n w text s e h1 he] at h2
  exact Prod.ext h1 h2

/-- C121: a call whose first pass fails. -/
theorem C121_call_first {n : Nat} {w : Width} {text : Str} {e : Err} (h : reformatText n w text = .error e)
    (he : e ≠ .recursion) (s : LSt) :
    reformatMarkdownTextL n w text s = (.error e, { s with
      info := if failsInside n w text then DEBUG else s.info
      shown := s.shown ++ (passNotes n s.info w text).filter (audible s.effective s.parent) }) := by
  unfold reformatMarkdownTextL
  rw [LogM.bind_eq, C121_pass h he]

/-- C121: a call whose second pass fails. The messages that were silenced for it stay so. -/
theorem C121_call_second {n : Nat} {w : Width} {text t : Str} {e : Err} (h : reformatText n w text = .ok t)
    (h' : reformatText n w t = .error e) (he : e ≠ .recursion) (s : LSt) :
    reformatMarkdownTextL n w text s = (.error e, { s with
      info := if failsInside n w t then DEBUG else s.info
      own := if DEBUG < s.effective then ERROR else s.own
      shown := s.shown ++ (passNotes n s.info w text).filter (audible s.effective s.parent) ++
        (passNotes n s.info w t).filter (audible (if DEBUG < s.effective then ERROR else s.effective) s.parent) }) := by
  let s1 : LSt := { s with
    own := if DEBUG < s.effective then ERROR else s.own
    shown := s.shown ++ (passNotes n s.info w text).filter (audible s.effective s.parent) }
  unfold reformatMarkdownTextL
  rw [LogM.bind_eq, C120_succeeds h]
  change (do
    logIf (decide (s.effective > DEBUG)) (setLevel fun _ => ERROR)
    let newNewText ← reformatTextL n w t
    setLevel (fun _ => s.effective)
    if newNewText != t then lift (.error .inconsistent) else pure (rstrip t ++ ['\n']) : LogM Str)
    { s with shown := s.shown ++ (passNotes n s.info w text).filter (audible s.effective s.parent) } = _
  have hs1 : logIf (decide (s.effective > DEBUG)) (setLevel fun _ => ERROR)
      { s with shown := s.shown ++ (passNotes n s.info w text).filter (audible s.effective s.parent) } = (.ok (), s1) := by
    by_cases hd : DEBUG < s.effective
    · have hd' : decide (s.effective > DEBUG) = true := by simpa using hd
      simp only [hd', logIf, if_true, setLevel, s1, if_pos hd]
    · have hd' : decide (s.effective > DEBUG) = false := by simpa using hd
      simp only [hd', logIf, Bool.false_eq_true, if_false, LogM.pure_eq, s1, if_neg hd]
  rw [LogM.bind_eq, hs1]
  simp only
  rw [LogM.bind_eq, C121_pass h' he]
  have he1 : s1.effective = if DEBUG < s.effective then ERROR else s.effective := by
    by_cases hd : DEBUG < s.effective
    · have hown : s1.own = ERROR := if_pos hd
      rw [if_pos hd, LogSt.effective, hown]; rfl
    · have hown : s1.own = s.own := if_neg hd
      rw [if_neg hd, LogSt.effective, hown]; rfl
  rw [he1]

/-- Documents that fail: a second entry of a list that cannot be divided, so that the third is not looked at, nor the heading
behind the list; a fence alone, which is not reported; a quote that cannot be divided, found behind the line `a`, which is
not reported either. -/
theorem C121_example :
    (passNotes 6 INFO (.fin 40) c!"#a\n- #c\n- d\n  e  \n- #f\n\n##g\n").filter (audible INFO INFO) =
      [.sect INFO 1 1 .atx [c!"#a"], .sect INFO 2 5 .bullet [c!"- #c", c!"- d", c!"  e  ", c!"- #f"], .sect INFO 6 6 .blank [[]],
        .sect INFO 7 7 .atx [c!"##g"], .noSpace 1, .noSpace 1] ∧
    reformatText 6 (.fin 40) c!"#a\n- #c\n- d\n  e  \n- #f\n\n##g\n" = .error .genStop ∧
    failsInside 6 (.fin 40) c!"#a\n- #c\n- d\n  e  \n- #f\n\n##g\n" = true ∧
    (passNotes 6 INFO (.fin 40) c!"#a\n\nb\n~~~").filter (audible INFO INFO) =
      [.sect INFO 1 1 .atx [c!"#a"], .sect INFO 2 2 .blank [[]], .sect INFO 3 3 .par [c!"b"]] ∧
    reformatText 6 (.fin 40) c!"#a\n\nb\n~~~" = .error .indexError ∧
    failsInside 6 (.fin 40) c!"#a\n\nb\n~~~" = false ∧
    passNotes 6 INFO (.fin 40) c!"a\n> ~~~\n>      ~~~\n> b\n> c  \n" = [.overIndented 2, .found 1 2 .fenced] ∧
    reformatText 6 (.fin 40) c!"a\n> ~~~\n>      ~~~\n> b\n> c  \n" = .error .stopIteration ∧
    failsInside 6 (.fin 40) c!"a\n> ~~~\n>      ~~~\n> b\n> c  \n" = true := by
  decide +kernel

end MF
