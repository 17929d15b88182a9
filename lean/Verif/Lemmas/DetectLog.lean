import Verif.Model.DetectLog
import Verif.Lemmas.LogM
/-!
# Section detection does not depend on the logging state
-/

namespace MF

theorem erases_fenceLoop (F : Str) (k o : Nat) (ls : List Str) :
    ∀ i, Erases (fenceLoopL F k o i ls) (.ok (fenceLoop F i ls)) := by
  induction ls with
  | nil => exact fun _ => erases_pure _
  | cons l ls ih =>
    intro i
    unfold fenceLoopL fenceLoop
    split
    · exact erases_then (erases_ite (erases_other _ _)) (erases_pure _)
    · exact erases_bind (g := fun r => .ok (l :: r.1, r.2)) (ih _) fun _ _ => erases_pure _

theorem erases_fenced (lines : List Str) (o : Nat) : Erases (splitFencedL lines o) (splitFenced lines) := by
  cases lines with
  | nil => exact erases_lift _
  | cons l ls =>
    unfold splitFencedL splitFenced
    dsimp only
    cases openFence l with
    | none => exact erases_pure _
    | some F =>
      exact erases_bind (g := fun r => .ok (l :: r.1, (l :: ls).drop (r.2 + 1))) (erases_fenceLoop _ _ _ _ _) fun _ _ =>
        erases_pure _

theorem erases_lrd (lines : List Str) (o : Nat) : Erases (splitLrdL lines o) (splitLrd lines) := by
  cases lines with
  | nil => exact erases_lift _
  | cons l ls =>
    unfold splitLrdL splitLrd
    dsimp only
    by_cases hi : getIndent l ≥ 4
    · rw [if_pos hi, if_pos hi]; exact erases_pure _
    · rw [if_neg hi, if_neg hi]
      cases lrdFirstRx.match? (lstrip l) with
      | none => exact erases_pure _
      | some m =>
        dsimp only
        have key : Erases
            (if (startsWith (ls.headD []) c!"[" || (strip (ls.headD [])).isEmpty) = true then do
              logOther WARNING (.noLink (if ls.isEmpty then 0 else 1))
              pure ([l], ls)
            else
              match splitMax1 (ls.headD []) with
              | [_] =>
                match ls.drop 1 with
                | l2 :: tail2 => lift (lrdFinish (l :: ls) true 2 l2 tail2)
                | [] => lift (.error .stopIteration)
              | _ :: t :: _ => lift (lrdFinish (l :: ls) false 1 t (ls.drop 1))
              | [] => lift (.error .indexError))
            (if (startsWith (ls.headD []) c!"[" || (strip (ls.headD [])).isEmpty) = true then .ok ([l], ls)
            else
              match splitMax1 (ls.headD []) with
              | [_] =>
                match ls.drop 1 with
                | l2 :: tail2 => lrdFinish (l :: ls) true 2 l2 tail2
                | [] => .error .stopIteration
              | _ :: t :: _ => lrdFinish (l :: ls) false 1 t (ls.drop 1)
              | [] => .error .indexError) := by
          split
          · exact erases_then (erases_other _ _) (erases_pure _)
          · rcases splitMax1 (ls.headD []) with _ | ⟨a, _ | ⟨b, r⟩⟩
            · exact erases_lift _
            · dsimp only
              cases ls.drop 1 with
              | nil => exact erases_lift _
              | cons => exact erases_lift _
            · exact erases_lift _
        rcases splitMax1 ((lstrip l).drop m.stop) with _ | ⟨a, _ | ⟨b, _ | ⟨c, r⟩⟩⟩
        · exact key
        · cases ls with
          | nil => exact erases_lift _
          | cons => exact erases_lift _
        · exact erases_lift _
        · exact key

theorem erases_quiet (f : List Str → Split) (lines : List Str) (o : Nat) : Erases (quiet f lines o) (f lines) :=
  erases_lift _

/-- A splitter with messages and the splitter without. -/
def ErasesAll (f : List Str → Nat → SplitL) (g : List Str → Split) : Prop := ∀ lines o, Erases (f lines o) (g lines)

theorem erases_any (lines : List Str) (o : Nat) : ∀ {fs : List (List Str → Nat → SplitL)} {gs : List (List Str → Split)},
    fs.length = gs.length → (∀ x ∈ fs.zip gs, ErasesAll x.1 x.2) → Erases (anySplitsL lines o fs) (anySplits lines gs)
  | [], [], _, _ => erases_pure _
  | f :: fs, g :: gs, hl, h => by
    refine erases_bind (h (f, g) (by simp) lines o) fun r _ => ?_
    split
    · exact erases_pure _
    · exact erases_any lines o (by simpa using hl) fun x hx => h x (by simp [hx])
  | [], _ :: _, hl, _ => by cases hl
  | _ :: _, [], hl, _ => by cases hl

theorem erases_first : ∀ {fs : List (Sec × (List Str → Nat → SplitL))} {gs : List (Sec × (List Str → Split))}
    (_ : fs.map (·.1) = gs.map (·.1)) (_ : ∀ x ∈ (fs.map (·.2)).zip (gs.map (·.2)), ErasesAll x.1 x.2) (lines : List Str),
    Erases (firstSectionL fs lines) (firstSection gs lines)
  | [], [], _, _, _ => erases_lift _
  | (ty, f) :: fs, (ty', g) :: gs, he, h, lines => by
    have e : ty = ty' := by simpa using congrArg List.head? he
    subst e
    refine erases_bind (h (f, g) (by simp) lines 0) fun r _ => ?_
    split
    · exact erases_pure _
    · exact erases_first (by simpa using he) (fun x hx => h x (by simp [hx])) _
  | [], _ :: _, he, _, _ => by cases he
  | _ :: _, [], he, _, _ => by cases he

section
variable {sbqL : List Str → Nat → SplitL} {sbq : List Str → Split} (hs : ErasesAll sbqL sbq)
include hs

theorem erases_parCont (lines : List Str) (o : Nat) : Erases (isParContL sbqL lines o) (isParCont sbq lines) := by
  refine erases_bind (erases_any lines o rfl ?_) fun b _ => ?_
  · simp only [List.zip_cons_cons, List.zip_nil_right, List.mem_cons, List.not_mem_nil, or_false]
    rintro x (rfl | rfl | rfl | rfl | rfl | rfl | rfl | rfl)
    · exact erases_quiet _
    · exact erases_quiet _
    · exact hs
    · exact erases_quiet _
    · exact erases_fenced
    · exact erases_quiet _
    · exact erases_quiet _
    · exact erases_quiet _
  · cases b with
    | true => exact erases_pure _
    | false =>
      cases lines with
      | nil => exact erases_lift _
      | cons l ls =>
        dsimp only
        rw [if_neg Bool.false_ne_true, if_neg Bool.false_ne_true]
        split
        · exact erases_pure _
        · exact erases_pure _

theorem erases_parLoop (ls : List Str) : ∀ o, Erases (parLoopL sbqL o ls) (parLoop sbq ls) := by
  induction ls with
  | nil => exact fun _ => erases_pure _
  | cons l ls ih =>
    intro o
    refine erases_bind (erases_parCont hs _ _) fun b _ => ?_
    cases b with
    | false => exact erases_pure _
    | true =>
      rw [if_pos rfl, if_pos rfl]
      split
      · split
        · exact erases_lift _
        · exact erases_pure _
      · exact erases_bind (ih _) fun _ _ => erases_pure _

theorem erases_parIgn (lines : List Str) (o : Nat) : Erases (splitParIgnL sbqL lines o) (splitParIgn sbq lines) := by
  cases lines with
  | nil => exact erases_lift _
  | cons l ls =>
    unfold splitParIgnL splitParIgn
    dsimp only
    split
    · split
      · exact erases_pure _
      · exact erases_bind (erases_parLoop hs _ _) fun _ _ => erases_pure _
    · exact erases_pure _

theorem erases_par : ErasesAll (splitParL sbqL) (splitPar sbq) := by
  intro lines o
  refine erases_bind (erases_parIgn hs lines o) fun r _ => ?_
  obtain ⟨a, b⟩ := r
  cases b with
  | nil => exact erases_pure _
  | cons l ls =>
    dsimp only
    split
    · exact erases_pure _
    · exact erases_pure _

theorem erases_setext : ErasesAll (splitSetextL sbqL) (splitSetext sbq) := by
  intro lines o
  refine erases_bind (erases_parIgn hs lines o) fun r _ => ?_
  obtain ⟨a, b⟩ := r
  cases a with
  | nil => exact erases_pure _
  | cons p ps =>
    cases b with
    | nil => exact erases_pure _
    | cons l ls =>
      dsimp only
      split
      · exact erases_pure _
      · exact erases_pure _

theorem erases_splitters (lines : List Str) :
    Erases (firstSectionL (splittersL sbqL) lines) (firstSection (splitters sbq) lines) := by
  refine erases_first rfl ?_ lines
  simp only [splittersL, splitters, List.map_cons, List.map_nil, List.zip_cons_cons, List.zip_nil_right, List.mem_cons,
    List.not_mem_nil, or_false]
  rintro x (rfl | rfl | rfl | rfl | rfl | rfl | rfl | rfl | rfl | rfl | rfl | rfl)
  · exact erases_quiet _
  · exact erases_quiet _
  · exact hs
  · exact erases_quiet _
  · exact erases_fenced
  · exact erases_quiet _
  · exact erases_lrd
  · exact erases_quiet _
  · exact erases_par hs
  · exact erases_setext hs
  · exact erases_quiet _
  · exact erases_quiet _

theorem erases_parseLoop (fuel : Nat) : ∀ k lines, Erases (parseLoopL sbqL fuel k lines) (parseLoop sbq fuel lines) := by
  induction fuel with
  | zero =>
    intro k lines
    cases lines with
    | nil => exact erases_pure _
    | cons l ls => exact erases_lift _
  | succ fuel ih =>
    intro k lines
    cases lines with
    | nil => exact erases_pure _
    | cons l ls =>
      exact erases_bind (erases_splitters hs _) fun r _ => erases_then (erases_other _ _)
        (erases_bind (ih _ _) fun _ _ => erases_pure _)

theorem erases_parseWith (lines : List Str) : Erases (parseWithL sbqL lines) (parseWith sbq lines) :=
  erases_parseLoop hs _ _ _

theorem erases_quoteCont (lines : List Str) (o : Nat) : Erases (isQuoteContL sbqL lines o) (isQuoteCont sbq lines) := by
  refine erases_bind (erases_any lines o rfl ?_) fun b _ => ?_
  · simp only [List.map_cons, List.map_nil, List.zip_cons_cons, List.zip_nil_right, List.mem_cons, List.not_mem_nil, or_false]
    rintro x (rfl | rfl | rfl | rfl | rfl | rfl | rfl | rfl)
    · exact fun _ _ => erases_redirected (erases_quiet _ _ _)
    · exact fun _ _ => erases_redirected (erases_quiet _ _ _)
    · exact fun _ _ => erases_redirected (erases_quiet _ _ _)
    · exact fun _ _ => erases_redirected (erases_fenced _ _)
    · exact fun _ _ => erases_redirected (erases_quiet _ _ _)
    · exact fun _ _ => erases_redirected (erases_setext hs _ _)
    · exact fun _ _ => erases_redirected (erases_quiet _ _ _)
    · exact fun _ _ => erases_redirected (erases_quiet _ _ _)
  · cases b with
    | true => exact erases_pure _
    | false =>
      cases lines with
      | nil => exact erases_lift _
      | cons l ls =>
        dsimp only
        rw [if_neg Bool.false_ne_true, if_neg Bool.false_ne_true]
        split
        · exact erases_pure _
        · exact erases_pure _

theorem erases_contLoop (ls : List Str) : ∀ b o, Erases (contLoopL sbqL b o ls) (contLoop sbq b ls) := by
  induction ls with
  | nil => exact fun _ _ => erases_pure _
  | cons l ls ih =>
    intro b o
    refine erases_bind (erases_quoteCont hs _ _) fun c _ => ?_
    cases c with
    | false => exact erases_pure _
    | true =>
      rw [if_pos rfl, if_pos rfl]
      split
      · exact erases_pure _
      · exact erases_bind (ih _ _) fun _ _ => erases_pure _

theorem erases_quoteLoop {endsL : List Str → LogM Bool} {ends : List Str → Except Err Bool}
    (he : ∀ x, Erases (endsL x) (ends x)) (fuel : Nat) :
    ∀ o bq lines, Erases (quoteLoopL endsL sbqL fuel o bq lines) (quoteLoop ends sbq fuel bq lines) := by
  induction fuel with
  | zero => exact fun _ _ _ => erases_lift _
  | succ fuel ih =>
    intro o bq lines
    cases lines with
    | nil => exact erases_pure _
    | cons l ls =>
      unfold quoteLoopL quoteLoop
      split
      · exact erases_pure _
      · refine erases_bind (he _) fun b _ => ?_
        cases b with
        | false => exact erases_pure _
        | true => exact erases_bind (erases_contLoop hs _ _ _) fun _ _ => ih _ _ _

end

theorem erases_ends {parseL : List Str → LogM (List (Sec × List Str))} {parse : List Str → Except Err (List (Sec × List Str))}
    (hp : ∀ x, Erases (parseL x) (parse x)) (n : Nat) :
    ∀ lines, Erases (endsWithParL parseL n lines) (endsWithPar parse n lines) := by
  induction n with
  | zero => exact fun _ => erases_lift _
  | succ n ih =>
    intro lines
    have h1 : Erases (redirected do
        let secs ← parseL (lines.map unquote)
        match secs.getLast? with
        | none => lift (.error .indexError)
        | some s => pure s) ((parse (lines.map unquote)).bind fun secs =>
          match secs.getLast? with
          | none => .error .indexError
          | some s => .ok s) := by
      refine erases_redirected (erases_bind (hp _) fun secs _ => ?_)
      cases secs.getLast? with
      | none => exact erases_lift _
      | some s => exact erases_pure _
    have h2 : endsWithPar parse (n + 1) lines = (((parse (lines.map unquote)).bind fun secs =>
          match secs.getLast? with
          | none => .error .indexError
          | some s => .ok s) >>= fun last => match last with
            | (.quote, content) => endsWithPar parse n content
            | (.par, _) => .ok true
            | _ => .ok false) := by
      conv => lhs; unfold endsWithPar
      simp only [bind, Except.bind]
      cases parse (lines.map unquote) with
      | error e => rfl
      | ok secs =>
        dsimp only
        cases secs.getLast? with
        | none => rfl
        | some s =>
          obtain ⟨ty, c⟩ := s
          cases ty <;> rfl
    rw [h2]
    refine erases_bind h1 fun s _ => ?_
    obtain ⟨ty, c⟩ := s
    cases ty with
    | quote => exact ih _
    | _ => exact erases_pure _

theorem erases_quote (n : Nat) : ErasesAll (splitQuoteL n) (splitQuote n) := by
  induction n with
  | zero => exact fun _ _ => erases_lift _
  | succ n ih =>
    exact fun lines o => erases_quoteLoop ih (erases_ends (erases_parseWith ih) n) _ _ _ _

theorem erases_parse (n : Nat) (lines : List Str) : Erases (parseL n lines) (parse n lines) :=
  erases_parseWith (erases_quote n) lines

end MF
