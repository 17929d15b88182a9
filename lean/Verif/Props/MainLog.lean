import Verif.Lemmas.Steady
import Verif.Model.MainLog
import Verif.Props.DetectFound
import Verif.Props.Repr
import Verif.Props.Version
import Verif.Props.Renders
/-!
# C78, C79, C80: the log of a command; C45 and C74 for commands
-/

namespace MF

/-! ## Specification -/

/-- The log of formatting a text in a new process whose logging is set up with this level. -/
def aloneLog (F : FormatterL) (w : Width) (level : Nat) (text : Str) : List CMsg :=
  (F.full w text { info := INFO, own := 0, parent := level, shown := [] }).2.shown.map .fmt

/-- The level of a message. -/
def CMsg.level : CMsg → Nat
  | .fmt m => m.level
  | .firstRender _ | .secondRender _ | .firstPrint | .secondPrint => DEBUG
  | .interactive => WARNING
  | .failed _ _ _ => ERROR

/-! ## C78: the log does not matter -/

/-- `F` is `G` without its messages. -/
def Mutes (G : FormatterL) (F : Formatter) : Prop :=
  (∀ w t, Erases (G.full w t) (F.full w t)) ∧ ∀ w t, Erases (G.pass w t) (F.pass w t)

theorem mutes_markflow (n : Nat) : Mutes (markflowL n) (markflow n) :=
  ⟨fun w t s => C67_same_result_full n w t s, fun w t s => C67_same_result n w t s⟩

/-- Forgetting the log. -/
def ResL.mute {α : Type} (x : ResL α) : Res α := (x.1.toRun, x.2)

theorem callL_mute {m : LogM Str} {x : Except Err Str} (h : Erases m x) (r : RunL) :
    (callL m r).1.toRun = r.toRun ∧ (callL m r).2 = x := ⟨rfl, h _⟩

@[simp] theorem logMain_mute (level : Nat) (m : CMsg) (r : RunL) : (logMain level m r).toRun = r.toRun := by
  unfold logMain
  split <;> rfl

theorem doWriteL_mute (cw : Path → Bool) (r : RunL) (p : Path) (s : Str) :
    (doWriteL cw r p s).mute = doWrite cw r.toRun p s := rfl

section
variable {G : FormatterL} {F : Formatter} (hF : Mutes G F) (cw : Path → Bool)
include hF

theorem writeRendersL_mute (w : Width) (i o : Path) (r : RunL) :
    (writeRendersL G cw w i o r).mute = writeRenders F cw w i o r.toRun := by
  unfold writeRendersL writeRenders
  cases readText r.disk i with
  | error e => rfl
  | ok text =>
    simp only
    obtain ⟨h1, h2⟩ := callL_mute (hF.2 w text) r
    cases hc : callL (G.pass w text) r with
    | mk r1 x =>
      rw [hc] at h1 h2
      simp only at h1 h2
      rw [← h2]
      cases x with
      | error e => simp [ResL.mute, h1]
      | ok first =>
        simp only
        have hw := doWriteL_mute cw (logMain DEBUG (.firstRender (renderPaths o).1) r1) (renderPaths o).1 first
        cases hd : doWriteL cw (logMain DEBUG (.firstRender (renderPaths o).1) r1) (renderPaths o).1 first with
        | mk r2 y =>
          rw [hd, logMain_mute, h1] at hw
          simp only [ResL.mute] at hw
          rw [← hw]
          cases y with
          | error e => rfl
          | ok u =>
            simp only
            obtain ⟨g1, g2⟩ := callL_mute (hF.2 w first) (logMain DEBUG (.secondRender (renderPaths o).2) r2)
            cases hc2 : callL (G.pass w first) (logMain DEBUG (.secondRender (renderPaths o).2) r2) with
            | mk r3 z =>
              rw [hc2, logMain_mute] at g1
              rw [hc2] at g2
              simp only at g1 g2
              rw [← g2]
              cases z with
              | error e => simp [ResL.mute, g1]
              | ok second =>
                simp only
                rw [doWriteL_mute, g1]

theorem stepFileL_mute (args : Args) (w : Width) (r : RunL) (i o : Path) :
    (stepFileL G cw args w r i o).mute = stepFile F cw args w r.toRun i o := by
  unfold stepFileL stepFile
  cases readText r.disk i with
  | error e => rfl
  | ok old =>
    simp only
    obtain ⟨h1, h2⟩ := callL_mute (hF.1 w old) r
    cases hc : callL (G.full w old) r with
    | mk r1 x =>
      rw [hc] at h1 h2
      simp only at h1 h2
      rw [← h2, ← h1]
      cases x with
      | error e =>
        simp only
        split
        · split
          · have hw := writeRendersL_mute hF cw w i o r1
            cases hr : writeRendersL G cw w i o r1 with
            | mk r2 y =>
              rw [hr] at hw
              simp only [ResL.mute] at hw
              rw [← hw]
              cases y <;> rfl
          · rfl
        · rfl
      | ok new =>
        simp only
        have hw := doWriteL_mute cw r1 o new
        cases hd : doWriteL cw r1 o new with
        | mk r2 y =>
          rw [hd] at hw
          simp only [ResL.mute] at hw
          rw [← hw]
          split
          · split
            · cases y <;> rfl
            · rfl
          · split
            · cases y <;> rfl
            · rfl

theorem filesLoopL_mute (args : Args) (w : Width) : ∀ (ps : List (Path × Path)) (r : RunL) (a b : Nat),
    (filesLoopL G cw args w r a b ps).mute = filesLoop F cw args w r.toRun a b ps
  | [], _, _, _ => rfl
  | (i, o) :: ps, r, a, b => by
    have h := stepFileL_mute hF cw args w r i o
    unfold filesLoopL filesLoop
    cases hs : stepFileL G cw args w r i o with
    | mk r1 x =>
      rw [hs] at h
      simp only [ResL.mute] at h
      rw [← h]
      cases x with
      | error e => rfl
      | ok c => cases c <;> exact filesLoopL_mute args w ps _ _ _

theorem mainRunL_mute (args : Args) (stdin : Option Str) (d : Disk) :
    (mainRunL G cw args stdin d).mute = mainRun F cw args stdin d := by
  unfold mainRunL mainRun
  simp only
  split
  · cases stdin with
    | none => rfl
    | some text =>
      simp only
      unfold reformatStdinL reformatStdin
      simp only
      generalize hr0 : (if (args.outputDirectory.isSome || !args.outputFiles.isEmpty) = true then
        logMain WARNING .interactive (startRun args d) else startRun args d) = r0
      have e0 : r0.toRun = { disk := d, ops := [], out := [] } := by
        rw [← hr0]
        split
        · rw [logMain_mute]; rfl
        · rfl
      obtain ⟨h1, h2⟩ := callL_mute (hF.1 (mainWidth args.lineLength) text) r0
      cases hc : callL (G.full (mainWidth args.lineLength) text) r0 with
      | mk r1 x =>
        rw [hc] at h1 h2
        simp only at h1 h2
        rw [← h2, ← e0, ← h1]
        cases x with
        | error e =>
          simp only
          split
          · obtain ⟨g1, g2⟩ := callL_mute (hF.2 (mainWidth args.lineLength) text) r1
            cases hc2 : callL (G.pass (mainWidth args.lineLength) text) r1 with
            | mk r2 y =>
              rw [hc2] at g1 g2
              simp only at g1 g2
              rw [← g2, ← g1]
              cases y with
              | error e => rfl
              | ok first =>
                simp only
                obtain ⟨k1, k2⟩ := callL_mute (hF.2 (mainWidth args.lineLength) first)
                  (sayL (logMain DEBUG .firstPrint r2) (first ++ ['\n']))
                cases hc3 : callL (G.pass (mainWidth args.lineLength) first)
                    (sayL (logMain DEBUG .firstPrint r2) (first ++ ['\n'])) with
                | mk r3 z =>
                  rw [hc3] at k1 k2
                  simp only [sayL, logMain_mute] at k1 k2
                  rw [← k2]
                  cases z with
                  | error e => simp [ResL.mute, k1]
                  | ok second => simp [ResL.mute, k1, sayL]
          · rfl
        | ok new =>
          simp only
          split
          · split <;> rfl
          · rfl
  · unfold reformatFilesL reformatFiles
    have h := filesLoopL_mute hF cw args (mainWidth args.lineLength) (args.paths.zip (outputPaths args)) (startRun args d) 0 0
    cases hl : filesLoopL G cw args (mainWidth args.lineLength) (startRun args d) 0 0 (args.paths.zip (outputPaths args)) with
    | mk r1 x =>
      rw [hl] at h
      simp only [ResL.mute] at h
      have e0 : (startRun args d).toRun = { disk := d, ops := [], out := [] } := rfl
      rw [e0] at h
      simp only
      rw [← h]
      cases x <;> rfl

end

theorem reportL_mute (x : ResL Nat) : (reportL x).toRun = x.1.toRun := by
  unfold reportL
  split
  · rw [logMain_mute]
  · rfl

/-- C78: what a command does to files, what it prints and its exit status are those of the program without logging. In
particular `-v` and `-q` change nothing but the log. -/
theorem C78_program (n : Nat) (cw : Path → Bool) (i : Install) (os : Os) (raw : RawArgs) (stdin : Option Str) (d : Disk) :
    ((programL (markflowL n) cw i os raw stdin d).1, (programL (markflowL n) cw i os raw stdin d).2.1) =
      program (markflow n) cw i os raw stdin d := by
  unfold programL program
  cases getVersion i with
  | error e => rfl
  | ok v =>
    simp only
    cases parseArgs os raw with
    | error e => rfl
    | ok args =>
      simp only
      have h := mainRunL_mute (mutes_markflow n) cw args stdin d
      rw [reportL_mute, ← h]
      rfl

theorem parseArgs_verbosity (os : Os) (raw : RawArgs) (v q : Nat) : parseArgs os { raw with verbose := v, quiet := q } =
    (parseArgs os raw).map fun a => { a with logLevel := (logLevel v q).getD ERROR } := by
  simp only [parseArgs, apply_ite (Except.map _)]
  rfl

/-- Two commands that differ in `-v` and `-q` only do the same. -/
theorem C78_verbosity (n : Nat) (cw : Path → Bool) (i : Install) (os : Os) (raw : RawArgs) (v q : Nat) (stdin : Option Str)
    (d : Disk) :
    let x := programL (markflowL n) cw i os raw stdin d
    let y := programL (markflowL n) cw i os { raw with verbose := v, quiet := q } stdin d
    x.1 = y.1 ∧ x.2.1 = y.2.1 := by
  have h1 := C78_program n cw i os raw stdin d
  have h2 := C78_program n cw i os { raw with verbose := v, quiet := q } stdin d
  have h3 : program (markflow n) cw i os raw stdin d =
      program (markflow n) cw i os { raw with verbose := v, quiet := q } stdin d := by
    have hm : ∀ (a : Args) (l : Nat), mainRun (markflow n) cw { a with logLevel := l } stdin d = mainRun (markflow n) cw a stdin d := by
      intro a l
      have hs : ∀ ps r x y, filesLoop (markflow n) cw { a with logLevel := l } (mainWidth a.lineLength) r x y ps =
          filesLoop (markflow n) cw a (mainWidth a.lineLength) r x y ps := by
        intro ps
        induction ps with
        | nil => intro r x y; rfl
        | cons p ps ih =>
          intro r x y
          obtain ⟨i, o⟩ := p
          have : stepFile (markflow n) cw { a with logLevel := l } (mainWidth a.lineLength) r i o =
            stepFile (markflow n) cw a (mainWidth a.lineLength) r i o := rfl
          simp only [filesLoop, this]
          split
          · rfl
          · exact ih _ _ _
          · exact ih _ _ _
      have hf : reformatFiles (markflow n) cw { a with logLevel := l } (mainWidth a.lineLength) d =
          reformatFiles (markflow n) cw a (mainWidth a.lineLength) d := by
        have ho : outputPaths { a with logLevel := l } = outputPaths a := rfl
        unfold reformatFiles
        rw [ho, hs]
      unfold mainRun
      simp only
      rw [hf]
      rfl
    unfold program
    rw [parseArgs_verbosity os raw v q]
    cases getVersion i with
    | error e => rfl
    | ok _ =>
      simp only
      cases parseArgs os raw with
      | error e => rfl
      | ok a =>
        simp only [Except.map]
        rw [hm a ((logLevel v q).getD ERROR)]
  rw [← h1, ← h2] at h3
  exact Prod.mk.inj h3


/-! ## The levels between two files -/

/-- The levels of a new process whose logging is set up with this level. -/
def Fresh (level : Nat) (l : LogSt) : Prop := Alike l { info := INFO, own := 0, parent := level }

theorem full_state {n : Nat} {w : Width} {text t t' : Str} (h : reformatText n w text = .ok t) (h' : reformatText n w t = .ok t')
    (s : LSt) : Alike (reformatMarkdownTextL n w text s).2.toLogSt s.toLogSt := by
  obtain ⟨x1, x2, x3, _⟩ := reformatTextL_adds n w text s
  have hr := C67_same_result n w text s
  unfold reformatMarkdownTextL
  rw [LogM.bind_eq]
  cases hm : reformatTextL n w text s with
  | mk r s1 =>
    rw [hm] at x1 x2 x3 hr
    simp only at hr x1 x2 x3
    rw [h] at hr
    subst hr
    have hs1 : s1.toLogSt = s.toLogSt := (reformatTextL_adds n w text).levels hm
    simp only
    change Alike ((logIf (decide (s1.effective > DEBUG)) (setLevel fun _ => ERROR) >>= fun _ => _) s1).2.toLogSt _
    rw [LogM.bind_eq]
    have e : logIf (decide (s1.effective > DEBUG)) (setLevel fun _ => ERROR) s1 =
        (.ok (), if s1.effective > DEBUG then { s1 with own := ERROR } else s1) := by
      simp only [logIf, decide_eq_true_eq]
      split <;> rfl
    rw [e]
    simp only
    generalize hs2 : (if s1.effective > DEBUG then { s1 with own := ERROR } else s1) = s2
    have e2 : s2.info = s1.info ∧ s2.parent = s1.parent := by
      rw [← hs2]; split <;> exact ⟨rfl, rfl⟩
    have hr2 := C67_same_result n w t s2
    obtain ⟨_, y2, y3, _⟩ := reformatTextL_adds n w t s2
    rw [LogM.bind_eq]
    cases hm2 : reformatTextL n w t s2 with
    | mk r2 s3 =>
      rw [hm2] at hr2 y2 y3
      simp only at hr2 y2 y3
      rw [h'] at hr2
      subst hr2
      have y3 := y3 t' rfl
      simp only
      rw [LogM.bind_eq]
      have key : Alike ({ s3 with own := s1.effective } : LSt).toLogSt s.toLogSt := by
        rw [← hs1]
        refine ⟨y3.trans e2.1, y2.trans e2.2, ?_⟩
        have hp : s3.parent = s1.parent := y2.trans e2.2
        have he : ∀ (l : LogSt) (i p : Nat), p = l.parent → ({ info := i, own := l.effective, parent := p } : LogSt).effective = l.effective := by
          intro l i p hlp
          subst hlp
          unfold LogSt.effective
          by_cases h0 : l.own = 0
          · simp [h0]
          · simp [h0]
        exact he s1.toLogSt _ _ hp
      simp only [setLevel]
      split <;> exact key

theorem full_ok_state {n : Nat} {w : Width} {text out : Str} (h : reformatMarkdownText n w text = .ok out) (s : LSt) :
    Alike (reformatMarkdownTextL n w text s).2.toLogSt s.toLogSt := by
  simp only [reformatMarkdownText, bind, Except.bind] at h
  cases h1 : reformatText n w text with
  | error e => rw [h1] at h; cases h
  | ok t =>
    rw [h1] at h
    simp only at h
    cases h2 : reformatText n w t with
    | error e => rw [h2] at h; cases h
    | ok t' => exact full_state h1 h2 s

/-- A successful call of the formatter, and one that fails because of an inconsistency, leaves the levels as they were. -/
theorem call_fresh {n : Nat} {w : Width} {text : Str} {r : RunL} {level : Nat} (hf : Fresh level r.log)
    (h : (∃ out, reformatMarkdownText n w text = .ok out) ∨ reformatMarkdownText n w text = .error .inconsistent) :
    Fresh level (callL ((markflowL n).full w text) r).1.log := by
  have : Alike (callL ((markflowL n).full w text) r).1.log r.log := by
    rcases h with ⟨out, h⟩ | h
    · exact full_ok_state h { r.log with shown := [] }
    · obtain ⟨t, t', h1, h2, _⟩ := inconsistent_passes h
      exact full_state h1 h2 { r.log with shown := [] }
  exact this.trans hf

theorem call_pass_fresh {n : Nat} {w : Width} {text out : Str} {r : RunL} {level : Nat} (hf : Fresh level r.log)
    (h : reformatText n w text = .ok out) : Fresh level (callL ((markflowL n).pass w text) r).1.log := by
  have hr := C67_same_result n w text { r.log with shown := [] }
  rw [h] at hr
  cases hm : reformatTextL n w text { r.log with shown := [] } with
  | mk x s =>
    rw [hm] at hr
    simp only at hr
    subst hr
    have hl := (reformatTextL_adds n w text).levels hm
    have : (callL ((markflowL n).pass w text) r).1.log = r.log := by
      show (reformatTextL n w text { r.log with shown := [] }).2.toLogSt = r.log
      rw [hm]
      exact hl
    rw [this]
    exact hf

theorem call_msgs {n : Nat} {w : Width} {text : Str} {r : RunL} {level : Nat} (hf : Fresh level r.log) :
    (callL ((markflowL n).full w text) r).1.msgs = r.msgs ++ aloneLog (markflowL n) w level text := by
  obtain ⟨_, _, ms, h1, h2⟩ := steady_reformatMarkdownText n w text { r.log with shown := [] }
    { info := INFO, own := 0, parent := level, shown := [] } hf
  show r.msgs ++ (reformatMarkdownTextL n w text { r.log with shown := [] }).2.shown.map .fmt =
    r.msgs ++ (reformatMarkdownTextL n w text { info := INFO, own := 0, parent := level, shown := [] }).2.shown.map .fmt
  rw [h1, h2]

/-! ## C79: the log of a run is made of the logs of its files -/

theorem doWriteL_log (cw : Path → Bool) (r : RunL) (p : Path) (s : Str) :
    (doWriteL cw r p s).1.log = r.log ∧ (doWriteL cw r p s).1.msgs = r.msgs := ⟨rfl, rfl⟩

theorem doWriteL_disk (cw : Path → Bool) (r : RunL) (p q : Path) (s : Str) (h : q ≠ p) :
    (doWriteL cw r p s).1.disk q = r.disk q := by
  show (doWrite cw r.toRun p s).1.disk q = _
  unfold doWrite
  split
  · simp only
    rw [applyOps_writeOps]
    exact if_neg h
  · rfl

/-- What happens to the log when a file is dealt with. -/
structure StepLog (n : Nat) (args : Args) (w : Width) (level : Nat) (r : RunL) (i o : Path) (r' : RunL)
    (res : Except CliErr Bool) : Prop where
  /-- the file cannot be read, or its log is added -/
  msgs : (r'.msgs = r.msgs ∧ res = .error (.os i)) ∨ ∃ text extra, readText r.disk i = .ok text ∧
    r'.msgs = r.msgs ++ aloneLog (markflowL n) w level text ++ extra ∧
    (extra ≠ [] → args.writeRenders = true ∧ reformatMarkdownText n w text = .error .inconsistent) ∧
    (∀ e f, res = .error (.fmt e f) → reformatMarkdownText n w text = .error e)
  fresh : ∀ b, res = .ok b → Fresh level r'.log
  done : ∀ b, res = .ok b → ∃ text new, readText r.disk i = .ok text ∧ reformatMarkdownText n w text = .ok new ∧
    r'.msgs = r.msgs ++ aloneLog (markflowL n) w level text
  disk : ∀ b, res = .ok b → ∀ q, q ≠ o → r'.disk q = r.disk q

theorem writeRendersL_error {n : Nat} {cw : Path → Bool} {w : Width} {i o : Path} {r r' : RunL} {text : Str} {e : Err}
    {f : Option Path} (hread : readText r.disk i = .ok text) (hi : reformatMarkdownText n w text = .error .inconsistent)
    (h : writeRendersL (markflowL n) cw w i o r = (r', .error (.fmt e f))) : False := by
  obtain ⟨first, second, h1, h2, _⟩ := inconsistent_passes hi
  have hm := writeRendersL_mute (mutes_markflow n) cw w i o r
  rw [h] at hm
  have hm := congrArg Prod.snd hm
  simp only [ResL.mute] at hm
  unfold writeRenders at hm
  rw [hread] at hm
  simp only [markflow, h1] at hm
  unfold doWrite at hm
  by_cases c1 : cw (renderPaths o).1 = true
  · rw [if_pos c1] at hm
    simp only [h2] at hm
    split at hm <;> cases hm
  · rw [if_neg c1] at hm
    cases hm

theorem callL_disk (m : LogM Str) (r : RunL) : (callL m r).1.disk = r.disk := rfl

theorem logMain_grows (level : Nat) (m : CMsg) (r : RunL) : r.msgs <+: (logMain level m r).msgs := by
  unfold logMain
  split
  · exact List.prefix_append _ _
  · exact List.prefix_rfl

theorem callL_grows (m : LogM Str) (r : RunL) : r.msgs <+: (callL m r).1.msgs := List.prefix_append _ _

theorem writeRendersL_grows (F : FormatterL) (cw : Path → Bool) (w : Width) (i o : Path) (r : RunL) :
    r.msgs <+: (writeRendersL F cw w i o r).1.msgs := by
  unfold writeRendersL
  split
  · exact List.prefix_rfl
  · rename_i text _
    have h1 := callL_grows (F.pass w text) r
    split
    · rename_i r1 e he
      rw [he] at h1
      exact h1
    · rename_i r1 first he
      rw [he] at h1
      have h2 := logMain_grows DEBUG (.firstRender (renderPaths o).1) r1
      have h3 := (doWriteL_log cw (logMain DEBUG (.firstRender (renderPaths o).1) r1) (renderPaths o).1 first).2
      split
      · rename_i r2 e hd
        rw [hd] at h3
        simp only at h3 ⊢
        rw [h3]
        exact h1.trans h2
      · rename_i r2 hd
        rw [hd] at h3
        simp only at h3
        have h4 := logMain_grows DEBUG (.secondRender (renderPaths o).2) r2
        have h5 := callL_grows (F.pass w first) (logMain DEBUG (.secondRender (renderPaths o).2) r2)
        rw [h3] at h4
        have h6 := h1.trans (h2.trans (h4.trans h5))
        split
        · rename_i r3 e hc
          rw [hc] at h6
          exact h6
        · rename_i r3 second hc
          rw [hc] at h6
          rw [(doWriteL_log cw r3 (renderPaths o).2 second).2]
          exact h6

theorem readText_error {d : Disk} {p : Path} {e : CliErr} (h : readText d p = .error e) : e = .os p := by
  unfold readText at h
  split at h <;> cases h
  rfl

theorem doWriteL_error {cw : Path → Bool} {r r' : RunL} {p : Path} {s : Str} {e : CliErr}
    (h : doWriteL cw r p s = (r', .error e)) : e = .os p := by
  have h := congrArg Prod.snd h
  simp only [doWriteL, doWrite] at h
  split at h <;> cases h
  rfl

theorem stepFileL_log {n : Nat} {cw : Path → Bool} {args : Args} {w : Width} {level : Nat} {r r' : RunL} {i o : Path}
    {res : Except CliErr Bool} (hf : Fresh level r.log) (h : stepFileL (markflowL n) cw args w r i o = (r', res)) :
    StepLog n args w level r i o r' res := by
  unfold stepFileL at h
  cases hr : readText r.disk i with
  | error e =>
    rw [hr] at h
    cases h
    obtain rfl := readText_error hr
    exact ⟨.inl ⟨rfl, rfl⟩, fun b hb => (by cases hb), fun b hb => (by cases hb), fun b hb => (by cases hb)⟩
  | ok old =>
    rw [hr] at h
    simp only at h
    have hm := call_msgs (n := n) (w := w) (text := old) hf
    obtain ⟨_, hx⟩ := callL_mute ((mutes_markflow n).1 w old) r
    have hfresh := call_fresh (n := n) (w := w) (text := old) hf
    cases hc : callL ((markflowL n).full w old) r with
    | mk r1 x =>
      have hd := callL_disk ((markflowL n).full w old) r
      rw [hc] at h hm hx hfresh hd
      simp only at h hm hx hfresh hd
      cases x with
      | error e =>
        have hx : reformatMarkdownText n w old = .error e := hx.symm
        simp only at h
        split at h
        · split at h
          · rename_i hw
            have hwe : args.writeRenders = true ∧ e = .inconsistent := by simpa using hw
            clear hw
            obtain ⟨hw, rfl⟩ := hwe
            have hg := writeRendersL_grows (markflowL n) cw w i o r1
            cases hwr : writeRendersL (markflowL n) cw w i o r1 with
            | mk r2 y =>
              rw [hwr] at h hg
              obtain ⟨extra, hg⟩ := hg
              simp only at hg
              rw [hm] at hg
              cases y with
              | error e' =>
                cases h
                refine ⟨.inr ⟨old, extra, hr, hg.symm, fun _ => ⟨hw, hx⟩, fun e f he => ?_⟩, fun b hb => (by cases hb),
                  fun b hb => (by cases hb), fun b hb => (by cases hb)⟩
                cases he
                exact absurd hwr fun h0 => writeRendersL_error (by rw [hd]; exact hr) hx h0
              | ok u =>
                cases h
                exact ⟨.inr ⟨old, extra, hr, hg.symm, fun _ => ⟨hw, hx⟩, fun e f he => by cases he; exact hx⟩,
                  fun b hb => (by cases hb), fun b hb => (by cases hb), fun b hb => (by cases hb)⟩
          · cases h
            exact ⟨.inr ⟨old, [], hr, by rw [List.append_nil]; exact hm, by simp, fun e f he => by cases he; exact hx⟩,
              fun b hb => (by cases hb), fun b hb => (by cases hb), fun b hb => (by cases hb)⟩
        · cases h
          exact ⟨.inr ⟨old, [], hr, by rw [List.append_nil]; exact hm, by simp, fun e f he => by cases he; exact hx⟩,
            fun b hb => (by cases hb), fun b hb => (by cases hb), fun b hb => (by cases hb)⟩
      | ok new =>
        have hx : reformatMarkdownText n w old = .ok new := hx.symm
        have hfr := hfresh (.inl ⟨new, hx⟩)
        have fin : ∀ (r2 : RunL) (b : Bool), r2.log = r1.log → r2.msgs = r1.msgs → (∀ q, q ≠ o → r2.disk q = r1.disk q) →
            StepLog n args w level r i o r2 (.ok b) := by
          intro r2 b g1 g2 g3
          refine ⟨.inr ⟨old, [], hr, by rw [List.append_nil, g2]; exact hm, by simp, fun e f he => by cases he⟩,
            fun _ _ => by rw [g1]; exact hfr, fun _ _ => ⟨old, new, hr, hx, by rw [g2]; exact hm⟩, fun _ _ q hq => ?_⟩
          rw [g3 q hq, hd]
        have err : ∀ (r2 : RunL) (p : Path), r2.msgs = r1.msgs → StepLog n args w level r i o r2 (.error (.os p)) := by
          intro r2 p g2
          exact ⟨.inr ⟨old, [], hr, by rw [List.append_nil, g2]; exact hm, by simp, fun e f he => by cases he⟩,
            fun b hb => (by cases hb), fun b hb => (by cases hb), fun b hb => (by cases hb)⟩
        have hwl := doWriteL_log cw r1 o new
        have hwd := fun q hq => doWriteL_disk cw r1 o q new hq
        simp only at h
        cases hdw : doWriteL cw r1 o new with
        | mk r2 y =>
          rw [hdw] at h hwl hwd
          simp only at hwl hwd
          split at h
          · split at h
            · cases y with
              | error e => cases h; obtain rfl := doWriteL_error hdw; exact err _ _ hwl.2
              | ok u => cases h; exact fin _ _ hwl.1 hwl.2 hwd
            · cases h; exact fin _ _ rfl rfl fun _ _ => rfl
          · split at h
            · cases y with
              | error e => cases h; obtain rfl := doWriteL_error hdw; exact err _ _ hwl.2
              | ok u => cases h; exact fin _ _ hwl.1 hwl.2 hwd
            · cases h; exact fin _ _ rfl rfl fun _ _ => rfl

theorem filesLoopL_log {n : Nat} {cw : Path → Bool} {args : Args} {w : Width} {level : Nat} {d : Disk} :
    ∀ {ps : List (Path × Path)} {r r' : RunL} {a b : Nat} {res : Except CliErr (Nat × Nat)}, Fresh level r.log →
    (∀ p ∈ ps, r.disk p.1 = d p.1) → ps.Pairwise (fun x y => x.2 ≠ y.1) →
    filesLoopL (markflowL n) cw args w r a b ps = (r', res) →
    ∃ (texts : List Str) (extra : List CMsg), texts.map Except.ok <+: ps.map (fun p => readText d p.1) ∧
      r'.msgs = r.msgs ++ texts.flatMap (aloneLog (markflowL n) w level) ++ extra ∧
      (extra ≠ [] → args.writeRenders = true ∧ ∃ t, texts.getLast? = some t ∧ reformatMarkdownText n w t = .error .inconsistent) ∧
      (∀ c, res = .ok c → texts.length = ps.length ∧ extra = []) ∧
      (∀ e f, res = .error (.fmt e f) → ∃ t, texts.getLast? = some t ∧ reformatMarkdownText n w t = .error e)
  | [], r, r', a, b, res, _, _, _, h => by
    cases h
    exact ⟨[], [], List.prefix_rfl, by simp, by simp, fun _ _ => ⟨rfl, rfl⟩, fun _ _ he => by cases he⟩
  | (i, o) :: ps, r, r', a, b, res, hf, hd, hs, h => by
    have hread : readText r.disk i = readText d i := by
      unfold readText
      rw [hd (i, o) List.mem_cons_self]
    unfold filesLoopL at h
    cases hstep : stepFileL (markflowL n) cw args w r i o with
    | mk r1 x =>
      have hl := stepFileL_log hf hstep
      rw [hstep] at h
      cases x with
      | error e =>
        cases h
        rcases hl.msgs with ⟨h1, h2⟩ | ⟨text, extra, h1, h2, h3, h4⟩
        · refine ⟨[], [], List.nil_prefix, by simpa using h1, by simp, fun _ hc => (by cases hc), fun e' f he => ?_⟩
          cases h2
          cases he
        · refine ⟨[text], extra, ?_, by simpa using h2, fun hne => ⟨(h3 hne).1, text, rfl, (h3 hne).2⟩, fun _ hc => (by cases hc),
            fun e' f he => ⟨text, rfl, h4 e' f (by cases he; rfl)⟩⟩
          rw [hread] at h1
          simp only [List.map_cons, h1, List.map_nil]
          exact List.prefix_append [_] _
      | ok c =>
        obtain ⟨text, new, g1, g2, g3⟩ := hl.done c rfl
        rw [hread] at g1
        have hs' := List.pairwise_cons.1 hs
        have hd' : ∀ p ∈ ps, r1.disk p.1 = d p.1 := by
          intro p hp
          rw [hl.disk c rfl p.1 (fun h0 => hs'.1 p hp h0.symm), hd p (List.mem_cons_of_mem _ hp)]
        have hrec : ∃ a b, filesLoopL (markflowL n) cw args w r1 a b ps = (r', res) := by
          cases c
          · exact ⟨_, _, h⟩
          · exact ⟨_, _, h⟩
        obtain ⟨a', b', hrec⟩ := hrec
        obtain ⟨texts, extra, k1, k2, k3, k4, k5⟩ := filesLoopL_log (hl.fresh c rfl) hd' hs'.2 hrec
        refine ⟨text :: texts, extra, ?_, ?_, ?_, ?_, ?_⟩
        · simp only [List.map_cons, g1]
          exact (List.cons_prefix_cons).2 ⟨rfl, k1⟩
        · rw [k2, g3]
          simp [List.append_assoc]
        · intro hne
          obtain ⟨q1, t, q2, q3⟩ := k3 hne
          exact ⟨q1, t, by rw [List.getLast?_cons]; simp [q2], q3⟩
        · intro c' hc
          obtain ⟨q1, q2⟩ := k4 c' hc
          exact ⟨by simp [q1], q2⟩
        · intro e f he
          obtain ⟨t, q2, q3⟩ := k5 e f he
          exact ⟨t, by rw [List.getLast?_cons]; simp [q2], q3⟩

theorem fresh_start (args : Args) (d : Disk) : Fresh args.logLevel (startRun args d).log := Alike.refl _

/-- C79: as long as no file is written that is read later, the log of a run over files is what formatting them one by one in new
processes would log, in order, up to the file at which the run stops. That file's log is complete, and nothing follows it but,
with `--write-renders`, what writing the renders logs. -/
theorem C79_log (n : Nat) (cw : Path → Bool) (args : Args) (stdin : Option Str) (d : Disk) (r : RunL) (res : Except CliErr Nat)
    (hp : args.paths ≠ []) (hl : (outputPaths args).length = args.paths.length)
    (hs : (args.paths.zip (outputPaths args)).Pairwise fun x y => x.2 ≠ y.1)
    (h : mainRunL (markflowL n) cw args stdin d = (r, res)) :
    ∃ (texts : List Str) (extra : List CMsg), texts.map Except.ok <+: args.paths.map (readText d) ∧
      r.msgs = texts.flatMap (aloneLog (markflowL n) (mainWidth args.lineLength) args.logLevel) ++ extra ∧
      (extra ≠ [] → args.writeRenders = true ∧
        ∃ t, texts.getLast? = some t ∧ reformatMarkdownText n (mainWidth args.lineLength) t = .error .inconsistent) ∧
      (∀ c, res = .ok c → texts.length = args.paths.length ∧ extra = []) ∧
      (∀ e f, res = .error (.fmt e f) →
        ∃ t, texts.getLast? = some t ∧ reformatMarkdownText n (mainWidth args.lineLength) t = .error e) := by
  unfold mainRunL at h
  have he : args.paths.isEmpty = false := by simpa using hp
  simp only [he, Bool.false_eq_true, if_false] at h
  unfold reformatFilesL at h
  have hz : (args.paths.zip (outputPaths args)).map (fun p => readText d p.1) = args.paths.map (readText d) := by
    rw [show (fun p : Path × Path => readText d p.1) = readText d ∘ Prod.fst from rfl, ← List.map_map]
    rw [List.map_fst_zip (by omega)]
  have hzl : (args.paths.zip (outputPaths args)).length = args.paths.length := by
    rw [List.length_zip, hl, Nat.min_self]
  cases hloop : filesLoopL (markflowL n) cw args (mainWidth args.lineLength) (startRun args d) 0 0
      (args.paths.zip (outputPaths args)) with
  | mk r1 x =>
    obtain ⟨texts, extra, k1, k2, k3, k4, k5⟩ := filesLoopL_log (d := d) (fresh_start args d) (fun _ _ => rfl) hs hloop
    rw [hz] at k1
    have k2 : r1.msgs = texts.flatMap (aloneLog (markflowL n) (mainWidth args.lineLength) args.logLevel) ++ extra := by
      rw [k2]; rfl
    rw [hloop] at h
    cases x with
    | error e =>
      cases h
      exact ⟨texts, extra, k1, k2, k3, fun c hc => (by cases hc), fun e' f he => k5 e' f (by cases he; rfl)⟩
    | ok c =>
      cases h
      refine ⟨texts, extra, k1, k2, k3, fun c' _ => ?_, fun e' f he => by cases he⟩
      have := k4 c rfl
      exact ⟨this.1.trans hzl, this.2⟩

/-- C79 for files that are formatted in place, when no path is given twice. -/
theorem C79_in_place (n : Nat) (cw : Path → Bool) (args : Args) (stdin : Option Str) (d : Disk) (r : RunL) (c : Nat)
    (hp : args.paths ≠ []) (ho : outputPaths args = args.paths) (hnd : args.paths.Nodup)
    (h : mainRunL (markflowL n) cw args stdin d = (r, .ok c)) :
    ∃ texts : List Str, args.paths.map (readText d) = texts.map Except.ok ∧
      r.msgs = texts.flatMap (aloneLog (markflowL n) (mainWidth args.lineLength) args.logLevel) := by
  obtain ⟨texts, extra, h1, h2, _, h4, _⟩ := C79_log n cw args stdin d r _ hp (by rw [ho])
    (by rw [ho]; exact (zip_self_pairwise hnd).imp And.left) h
  obtain ⟨h5, rfl⟩ := h4 c rfl
  exact ⟨texts, (h1.eq_of_length (by simpa using h5)).symm, by simpa using h2⟩

theorem fresh_logMain {level k : Nat} {m : CMsg} {r : RunL} (h : Fresh level r.log) : Fresh level (logMain k m r).log := by
  unfold logMain
  split <;> exact h

/-- C79 for text from standard input: first the warning, if there are options that are not used, then the log of the text. -/
theorem C79_stdin (n : Nat) (cw : Path → Bool) (args : Args) (text : Str) (d : Disk) (hp : args.paths = []) :
    ∃ extra, (mainRunL (markflowL n) cw args (some text) d).1.msgs =
        (if (args.outputDirectory.isSome || !args.outputFiles.isEmpty) && decide (args.logLevel ≤ WARNING) then [.interactive] else []) ++
          aloneLog (markflowL n) (mainWidth args.lineLength) args.logLevel text ++ extra ∧
      (extra ≠ [] → args.writeRenders = true ∧
        reformatMarkdownText n (mainWidth args.lineLength) text = .error .inconsistent) := by
  unfold mainRunL
  simp only [hp, List.isEmpty_nil, if_true]
  unfold reformatStdinL
  generalize hr0 : (if args.outputDirectory.isSome || !args.outputFiles.isEmpty then logMain WARNING .interactive (startRun args d)
    else startRun args d) = r0
  have hf : Fresh args.logLevel r0.log := by
    rw [← hr0]
    split
    · exact fresh_logMain (fresh_start args d)
    · exact fresh_start args d
  have hm0 : r0.msgs = if (args.outputDirectory.isSome || !args.outputFiles.isEmpty) && decide (args.logLevel ≤ WARNING)
      then [.interactive] else [] := by
    rw [← hr0]
    by_cases h1 : (args.outputDirectory.isSome || !args.outputFiles.isEmpty) = true
    · rw [if_pos h1, h1, Bool.true_and]
      unfold logMain
      by_cases h2 : args.logLevel ≤ WARNING
      · rw [if_pos (show WARNING ≥ (startRun args d).log.parent from h2), if_pos (by simpa using h2)]
        rfl
      · rw [if_neg (show ¬ WARNING ≥ (startRun args d).log.parent from h2), if_neg (by simpa using h2)]
        rfl
    · rw [if_neg h1, if_neg (by simp [h1])]
      rfl
  have hm := call_msgs (n := n) (w := mainWidth args.lineLength) (text := text) hf
  obtain ⟨_, hx⟩ := callL_mute ((mutes_markflow n).1 (mainWidth args.lineLength) text) r0
  rw [hm0] at hm
  simp only
  cases hc : callL ((markflowL n).full (mainWidth args.lineLength) text) r0 with
  | mk r1 x =>
    rw [hc] at hm hx
    simp only at hm hx
    have none : ∀ r2 : RunL, r2.msgs = r1.msgs → ∃ extra, r2.msgs = (if (args.outputDirectory.isSome || !args.outputFiles.isEmpty) &&
          decide (args.logLevel ≤ WARNING) then [.interactive] else []) ++
          aloneLog (markflowL n) (mainWidth args.lineLength) args.logLevel text ++ extra ∧
        (extra ≠ [] → args.writeRenders = true ∧
          reformatMarkdownText n (mainWidth args.lineLength) text = .error .inconsistent) :=
      fun r2 h2 => ⟨[], by rw [h2, hm, List.append_nil], by simp⟩
    cases x with
    | ok new =>
      simp only
      split
      · split <;> exact none _ rfl
      · exact none _ rfl
    | error e =>
      simp only
      split
      · rename_i hw
        have hwe : (e.isRuntimeError = true ∧ args.writeRenders = true) ∧ e = .inconsistent := by simpa using hw
        clear hw
        obtain ⟨⟨_, hw⟩, rfl⟩ := hwe
        have hx : reformatMarkdownText n (mainWidth args.lineLength) text = .error .inconsistent := hx.symm
        have more : ∀ r2 : RunL, r1.msgs <+: r2.msgs → ∃ extra, r2.msgs = (if (args.outputDirectory.isSome || !args.outputFiles.isEmpty) &&
              decide (args.logLevel ≤ WARNING) then [.interactive] else []) ++
              aloneLog (markflowL n) (mainWidth args.lineLength) args.logLevel text ++ extra ∧
            (extra ≠ [] → args.writeRenders = true ∧
              reformatMarkdownText n (mainWidth args.lineLength) text = .error .inconsistent) := by
          rintro r2 ⟨extra, h2⟩
          exact ⟨extra, by rw [← h2, hm], fun _ => ⟨hw, hx⟩⟩
        have g1 := callL_grows ((markflowL n).pass (mainWidth args.lineLength) text) r1
        cases hc1 : callL ((markflowL n).pass (mainWidth args.lineLength) text) r1 with
        | mk r2 y =>
          rw [hc1] at g1
          cases y with
          | error e' => exact more _ g1
          | ok first =>
            simp only
            have g2 := logMain_grows DEBUG .firstPrint r2
            have g3 := callL_grows ((markflowL n).pass (mainWidth args.lineLength) first) (sayL (logMain DEBUG .firstPrint r2) (first ++ ['\n']))
            have g4 := g1.trans (g2.trans g3)
            cases hc2 : callL ((markflowL n).pass (mainWidth args.lineLength) first) (sayL (logMain DEBUG .firstPrint r2) (first ++ ['\n'])) with
            | mk r3 z =>
              rw [hc2] at g4
              cases z with
              | error e' => exact more _ g4
              | ok second => exact more _ (g4.trans (logMain_grows DEBUG .secondPrint r3))
      · exact none _ rfl

/-! ## All messages of a command -/

theorem full_parent (n : Nat) (w : Width) (text : Str) (s : LSt) : (reformatMarkdownTextL n w text s).2.parent = s.parent := by
  obtain ⟨_, x2, _⟩ := reformatTextL_adds n w text s
  unfold reformatMarkdownTextL
  rw [LogM.bind_eq]
  cases hm : reformatTextL n w text s with
  | mk r s1 =>
    rw [hm] at x2
    cases r with
    | error e => exact x2
    | ok t =>
      simp only at x2 ⊢
      rw [← x2]
      change ((logIf (decide (s1.effective > DEBUG)) (setLevel fun _ => ERROR) >>= fun _ => _) s1).2.parent = _
      rw [LogM.bind_eq]
      have e : logIf (decide (s1.effective > DEBUG)) (setLevel fun _ => ERROR) s1 =
          (.ok (), if s1.effective > DEBUG then { s1 with own := ERROR } else s1) := by
        simp only [logIf, decide_eq_true_eq]
        split <;> rfl
      rw [e]
      simp only
      have e2 : (if s1.effective > DEBUG then { s1 with own := ERROR } else s1).parent = s1.parent := by split <;> rfl
      obtain ⟨_, y2, _⟩ := reformatTextL_adds n w t (if s1.effective > DEBUG then { s1 with own := ERROR } else s1)
      rw [e2] at y2
      rw [LogM.bind_eq]
      cases hm2 : reformatTextL n w t (if s1.effective > DEBUG then { s1 with own := ERROR } else s1) with
      | mk r2 s3 =>
        rw [hm2] at y2
        cases r2 with
        | error e => exact y2
        | ok t' =>
          simp only
          rw [LogM.bind_eq]
          simp only [setLevel]
          split <;> exact y2

/-- `P` holds of the messages that calls of the formatter add, and of those of the command itself that are loud enough. -/
structure Common (n level : Nat) (P : CMsg → Prop) : Prop where
  full : ∀ (w : Width) (text : Str) (l : LogSt), Fresh level l →
    ∀ m ∈ (reformatMarkdownTextL n w text { l with shown := [] }).2.shown, P (.fmt m)
  pass : ∀ (w : Width) (text : Str) (l : LogSt), Fresh level l →
    ∀ m ∈ (reformatTextL n w text { l with shown := [] }).2.shown, P (.fmt m)
  own : ∀ m : CMsg, level ≤ m.level → m.level ≤ WARNING → (∀ x, m ≠ .fmt x) → P m

/-- All messages so far are good, and the root level is the given one. -/
def AllMsgs (level : Nat) (P : CMsg → Prop) (r : RunL) : Prop := r.log.parent = level ∧ ∀ m ∈ r.msgs, P m

section
variable {n level : Nat} {P : CMsg → Prop} (hP : Common n level P) (cw : Path → Bool)
include hP

theorem call_all {w : Width} {text : Str} {r : RunL} (hf : Fresh level r.log) (h : AllMsgs level P r) :
    AllMsgs level P (callL ((markflowL n).full w text) r).1 := by
  refine ⟨(full_parent n w text { r.log with shown := [] }).trans h.1, fun m hm => ?_⟩
  rcases List.mem_append.1 hm with hm | hm
  · exact h.2 m hm
  · obtain ⟨x, hx, rfl⟩ := List.mem_map.1 hm
    exact hP.full w text r.log hf x hx

theorem call_pass_all {w : Width} {text : Str} {r : RunL} (hf : Fresh level r.log) (h : AllMsgs level P r) :
    AllMsgs level P (callL ((markflowL n).pass w text) r).1 := by
  refine ⟨(reformatTextL_adds n w text { r.log with shown := [] }).2.1.trans h.1, fun m hm => ?_⟩
  rcases List.mem_append.1 hm with hm | hm
  · exact h.2 m hm
  · obtain ⟨x, hx, rfl⟩ := List.mem_map.1 hm
    exact hP.pass w text r.log hf x hx

theorem logMain_all {m : CMsg} {r : RunL} (h : AllMsgs level P r) (h1 : m.level ≤ WARNING) (h2 : ∀ x, m ≠ .fmt x) :
    AllMsgs level P (logMain m.level m r) := by
  unfold logMain
  split
  · rename_i hl
    refine ⟨h.1, fun x hx => ?_⟩
    rcases List.mem_append.1 hx with hx | hx
    · exact h.2 x hx
    · rw [List.mem_singleton.1 hx]
      exact hP.own m (h.1 ▸ hl) h1 h2
  · exact h

theorem writeRendersL_all {w : Width} {i o : Path} {r : RunL} (hf : Fresh level r.log) (h : AllMsgs level P r) :
    AllMsgs level P (writeRendersL (markflowL n) cw w i o r).1 := by
  unfold writeRendersL
  split
  · exact h
  · rename_i text _
    have h1 := call_pass_all hP (w := w) (text := text) hf h
    obtain ⟨_, hx⟩ := callL_mute ((mutes_markflow n).2 w text) r
    split
    · rename_i r1 e he
      rw [he] at h1
      exact h1
    · rename_i r1 first he
      rw [he] at h1 hx
      have f1 := call_pass_fresh (n := n) (w := w) (text := text) hf hx.symm
      rw [he] at f1
      have h2 := logMain_all hP (m := .firstRender (renderPaths o).1) h1 (by decide : DEBUG ≤ WARNING) (fun x hx => by cases hx)
      have f2 : Fresh level (logMain DEBUG (.firstRender (renderPaths o).1) r1).log := fresh_logMain f1
      have hd := doWriteL_log cw (logMain DEBUG (.firstRender (renderPaths o).1) r1) (renderPaths o).1 first
      have of : ∀ {a b : RunL}, b.log = a.log → b.msgs = a.msgs → AllMsgs level P a → AllMsgs level P b :=
        fun g1 g2 g => ⟨g1 ▸ g.1, g2 ▸ g.2⟩
      split
      · rename_i r2 e hw
        rw [hw] at hd
        exact of hd.1 hd.2 h2
      · rename_i r2 hw
        rw [hw] at hd
        have h3 := logMain_all hP (m := .secondRender (renderPaths o).2) (of hd.1 hd.2 h2) (by decide : DEBUG ≤ WARNING)
          (fun x hx => by cases hx)
        have f3 : Fresh level (logMain DEBUG (.secondRender (renderPaths o).2) r2).log := fresh_logMain (hd.1 ▸ f2)
        have h4 := call_pass_all hP (w := w) (text := first) f3 h3
        split
        · rename_i r3 e hc
          rw [hc] at h4
          exact h4
        · rename_i r3 second hc
          rw [hc] at h4
          have hd2 := doWriteL_log cw r3 (renderPaths o).2 second
          exact of hd2.1 hd2.2 h4

theorem stepFileL_all {args : Args} {w : Width} {i o : Path} {r : RunL} (hf : Fresh level r.log) (h : AllMsgs level P r) :
    AllMsgs level P (stepFileL (markflowL n) cw args w r i o).1 := by
  have of : ∀ {a b : RunL}, b.log = a.log → b.msgs = a.msgs → AllMsgs level P a → AllMsgs level P b :=
    fun g1 g2 g => ⟨g1 ▸ g.1, g2 ▸ g.2⟩
  unfold stepFileL
  split
  · exact h
  · rename_i old _
    have h1 := call_all hP (w := w) (text := old) hf h
    obtain ⟨_, hx⟩ := callL_mute ((mutes_markflow n).1 w old) r
    split
    · rename_i r1 e hc
      rw [hc] at h1 hx
      simp only at h1 hx
      split
      · split
        · rename_i hw
          have hwe : args.writeRenders = true ∧ e = .inconsistent := by simpa using hw
          clear hw
          obtain ⟨hw, rfl⟩ := hwe
          have f1 := call_fresh (n := n) (w := w) (text := old) hf (.inr hx.symm)
          rw [hc] at f1
          have h2 := writeRendersL_all hP cw (w := w) (i := i) (o := o) f1 h1
          split
          · rename_i r2 e he
            rw [he] at h2
            exact h2
          · rename_i r2 he
            rw [he] at h2
            exact h2
        · exact h1
      · exact h1
    · rename_i r1 new hc
      rw [hc] at h1
      simp only at h1
      have hd := doWriteL_log cw r1 o new
      split
      · split
        · split
          · rename_i r2 e hw
            rw [hw] at hd
            exact of hd.1 hd.2 h1
          · rename_i r2 hw
            rw [hw] at hd
            exact of hd.1 hd.2 h1
        · exact h1
      · split
        · split
          · rename_i r2 e hw
            rw [hw] at hd
            exact of hd.1 hd.2 h1
          · rename_i r2 hw
            rw [hw] at hd
            exact of hd.1 hd.2 h1
        · exact h1

theorem filesLoopL_all {args : Args} {w : Width} : ∀ {ps : List (Path × Path)} {r : RunL} {a b : Nat}, Fresh level r.log →
    AllMsgs level P r → AllMsgs level P (filesLoopL (markflowL n) cw args w r a b ps).1
  | [], _, _, _, _, h => h
  | (i, o) :: ps, r, a, b, hf, h => by
    have h1 := stepFileL_all hP cw (args := args) (w := w) (i := i) (o := o) hf h
    unfold filesLoopL
    cases hs : stepFileL (markflowL n) cw args w r i o with
    | mk r1 x =>
      rw [hs] at h1
      cases x with
      | error e => exact h1
      | ok c =>
        have f1 := (stepFileL_log hf hs).fresh c rfl
        cases c
        · exact filesLoopL_all f1 h1
        · exact filesLoopL_all f1 h1

theorem reformatStdinL_all {args : Args} {w : Width} {text : Str} {r : RunL} (hf : Fresh level r.log) (h : AllMsgs level P r) :
    AllMsgs level P (reformatStdinL (markflowL n) args w text r).1 := by
  unfold reformatStdinL
  generalize hr0 : (if args.outputDirectory.isSome || !args.outputFiles.isEmpty then logMain WARNING .interactive r else r) = r0
  have h0 : AllMsgs level P r0 := by
    rw [← hr0]
    split
    · exact logMain_all hP (m := .interactive) h (by decide : WARNING ≤ WARNING) (fun x hx => by cases hx)
    · exact h
  have f0 : Fresh level r0.log := by
    rw [← hr0]
    split
    · exact fresh_logMain hf
    · exact hf
  have h1 := call_all hP (w := w) (text := text) f0 h0
  obtain ⟨_, hx⟩ := callL_mute ((mutes_markflow n).1 w text) r0
  simp only
  split
  · rename_i r1 e hc
    rw [hc] at h1 hx
    simp only at h1 hx
    split
    · rename_i hw
      have hwe : (e.isRuntimeError = true ∧ args.writeRenders = true) ∧ e = .inconsistent := by simpa using hw
      clear hw
      obtain ⟨_, rfl⟩ := hwe
      have f1 := call_fresh (n := n) (w := w) (text := text) f0 (.inr hx.symm)
      rw [hc] at f1
      have h2 := call_pass_all hP (w := w) (text := text) f1 h1
      obtain ⟨_, hx2⟩ := callL_mute ((mutes_markflow n).2 w text) r1
      split
      · rename_i r2 e he
        rw [he] at h2
        exact h2
      · rename_i r2 first he
        rw [he] at h2 hx2
        have f2 := call_pass_fresh (n := n) (w := w) (text := text) f1 hx2.symm
        rw [he] at f2
        have h3 := logMain_all hP (m := .firstPrint) h2 (by decide : DEBUG ≤ WARNING) (fun x hx => by cases hx)
        have f3 : Fresh level (sayL (logMain DEBUG .firstPrint r2) (first ++ ['\n'])).log :=
          (fresh_logMain f2 : Fresh level (logMain DEBUG .firstPrint r2).log)
        have h4 := call_pass_all hP (w := w) (text := first) (r := sayL (logMain DEBUG .firstPrint r2) (first ++ ['\n'])) f3 h3
        split
        · rename_i r3 e he
          rw [he] at h4
          exact h4
        · rename_i r3 second he
          rw [he] at h4
          exact logMain_all hP (m := .secondPrint) h4 (by decide : DEBUG ≤ WARNING) (fun x hx => by cases hx)
    · exact h1
  · rename_i r1 new hc
    rw [hc] at h1
    simp only at h1
    split
    · split <;> exact h1
    · exact h1

end

theorem mainRunL_all {n : Nat} {args : Args} {P : CMsg → Prop} (hP : Common n args.logLevel P) (cw : Path → Bool)
    (stdin : Option Str) (d : Disk) : AllMsgs args.logLevel P (mainRunL (markflowL n) cw args stdin d).1 := by
  have h0 : AllMsgs args.logLevel P (startRun args d) := ⟨rfl, fun m hm => absurd hm List.not_mem_nil⟩
  unfold mainRunL
  simp only
  split
  · split
    · exact h0
    · exact reformatStdinL_all hP (fresh_start args d) h0
  · unfold reformatFilesL
    have h1 := filesLoopL_all hP cw (args := args) (w := mainWidth args.lineLength) (ps := args.paths.zip (outputPaths args))
      (a := 0) (b := 0) (fresh_start args d) h0
    split
    · rename_i r e he
      rw [he] at h1
      exact h1
    · rename_i r x y he
      rw [he] at h1
      exact h1

theorem common_level (n level : Nat) : Common n level fun m => level ≤ m.level ∧ m.level ≤ WARNING where
  full w text l hf m hm := by
    obtain ⟨ms, h1, h2⟩ := C73_level n w text { l with shown := [] } hf.1 (hf.2.2.trans hf.2.1.symm)
    have h1 : _ = ms := h1
    rw [h1] at hm
    have := h2 m hm
    rw [show ({ l with shown := [] } : LSt).parent = level from hf.2.1] at this
    exact this
  pass w text l hf m hm := by
    obtain ⟨_, _, _, ms, h1, h2⟩ := reformatTextL_adds n w text { l with shown := [] }
    have h1 : _ = ms := h1
    rw [h1] at hm
    exact expected_level hf.1 hf.2.1 (.inl hf.2.2) (h2 m hm)
  own _ h1 h2 _ := ⟨h1, h2⟩

/-! ## C80: verbosity of a command -/

theorem parseArgs_level {os : Os} {raw : RawArgs} {args : Args} (h : parseArgs os raw = .ok args) :
    args.logLevel = (logLevel raw.verbose raw.quiet).getD ERROR := by
  have h1 := parseArgs_verbosity os raw raw.verbose raw.quiet
  rw [h] at h1
  have h2 : args = { args with logLevel := (logLevel raw.verbose raw.quiet).getD ERROR } := Except.ok.inj h1
  exact congrArg Args.logLevel h2

/-- The exception `markflow/__main__.py` catches. -/
def formatError : Except CliErr Nat → Option (Nat × Nat × Nat)
  | .error (.fmt (.format line expected actual) _) => some (line, expected, actual)
  | _ => none

theorem reportL_msgs (x : ResL Nat) : (reportL x).msgs = x.1.msgs ++
    match formatError x.2 with
    | some (l, e, a) => if ERROR ≥ x.1.log.parent then [.failed l e a] else []
    | none => [] := by
  obtain ⟨r, x⟩ := x
  unfold reportL formatError logMain
  split
  · rename_i h
    rw [h]
    simp only
    split
    · rfl
    · exact (List.append_nil _).symm
  · simp only [List.append_nil]

/-- The log of a command: what is logged while it runs, all at most warnings and none below the level set up, and the error. -/
theorem program_log {n : Nat} {cw : Path → Bool} {i : Install} {os : Os} {raw : RawArgs} {stdin : Option Str} {d : Disk} {args : Args}
    {v : Str} (hi : getVersion i = .ok v) (ha : parseArgs os raw = .ok args) :
    ∃ ms, (programL (markflowL n) cw i os raw stdin d).2.2 = ms ++
        (match formatError (mainRun (markflow n) cw args stdin d).2 with
        | some (l, e, a) => if ERROR ≥ args.logLevel then [.failed l e a] else []
        | none => []) ∧
      ∀ m ∈ ms, args.logLevel ≤ m.level ∧ m.level ≤ WARNING := by
  have h := mainRunL_all (common_level n args.logLevel) cw stdin d
  have hm := mainRunL_mute (mutes_markflow n) cw args stdin d
  have h2 : (mainRunL (markflowL n) cw args stdin d).2 = (mainRun (markflow n) cw args stdin d).2 := congrArg Prod.snd hm
  refine ⟨_, ?_, h.2⟩
  unfold programL
  simp only [hi, ha]
  rw [reportL_msgs, h.1, h2]

theorem logLevel_quiet {v q : Nat} (h : v < q) : logLevel v q = some 50 := by
  unfold logLevel verbosity loggingLevels
  have : max 0 (min ((3 : Int) - v + q) ((5 : Nat) - 1)) = ((4 : Nat) : Int) := by omega
  simp only [List.length_cons, List.length_nil, Nat.zero_add]
  rw [this]
  rfl

/-- C80: a command logs messages while it runs, for each `-v` that no `-q` cancels those of one more level, beginning with
warnings, and by default none; and then the error, if a document has one that the command reports, unless there are more `-q`
than `-v`. -/
theorem C80_program (n : Nat) (cw : Path → Bool) (i : Install) (os : Os) (raw : RawArgs) (stdin : Option Str) (d : Disk) (args : Args)
    (v : Str) (hi : getVersion i = .ok v) (ha : parseArgs os raw = .ok args) :
    ∃ ms, (programL (markflowL n) cw i os raw stdin d).2.2 = ms ++
        (match formatError (mainRun (markflow n) cw args stdin d).2 with
        | some (l, e, a) => if raw.quiet ≤ raw.verbose then [.failed l e a] else []
        | none => []) ∧
      (∀ m ∈ ms, ERROR - 10 * (raw.verbose - raw.quiet) ≤ m.level ∧ m.level ≤ WARNING) ∧ (raw.verbose ≤ raw.quiet → ms = []) := by
  obtain ⟨ms, h1, h2⟩ := program_log (n := n) (cw := cw) (stdin := stdin) (d := d) hi ha
  obtain ⟨p, hp, hp1, hp2⟩ := logLevel_eq raw.verbose raw.quiet
  have hl := parseArgs_level ha
  rw [hp] at hl
  simp only [Option.getD_some] at hl
  have c1 : WARNING = 30 := rfl
  have c2 : ERROR = 40 := rfl
  have hq : ERROR ≥ args.logLevel ↔ raw.quiet ≤ raw.verbose := by
    rw [hl]
    by_cases hv : raw.verbose < raw.quiet
    · rw [logLevel_quiet hv] at hp
      cases hp
      omega
    · by_cases hv3 : raw.verbose ≤ raw.quiet + 3
      · have := hp2 hv3
        omega
      · have : p = 10 := by
          have h3 : logLevel raw.verbose raw.quiet = some 10 := by
            unfold logLevel verbosity loggingLevels
            have : max 0 (min ((3 : Int) - raw.verbose + raw.quiet) ((5 : Nat) - 1)) = ((0 : Nat) : Int) := by omega
            simp only [List.length_cons, List.length_nil, Nat.zero_add]
            rw [this]
            rfl
          rw [hp] at h3
          exact Option.some.inj h3
        omega
  have key : ∀ m ∈ ms, ERROR - 10 * (raw.verbose - raw.quiet) ≤ m.level ∧ m.level ≤ WARNING := by
    intro m hm
    have := h2 m hm
    omega
  refine ⟨ms, ?_, key, fun hv => ?_⟩
  · rw [h1]
    simp only [hq]
  · cases ms with
    | nil => rfl
    | cons m ms =>
      have := key m List.mem_cons_self
      omega

/-- C80: a command that does not get to its work logs nothing. -/
theorem C80_refused (n : Nat) (cw : Path → Bool) (i : Install) (os : Os) (raw : RawArgs) (stdin : Option Str) (d : Disk)
    (h : (∃ e, getVersion i = .error e) ∨ ∃ e, parseArgs os raw = .error e) :
    (programL (markflowL n) cw i os raw stdin d).2.2 = [] := by
  unfold programL
  rcases h with ⟨e, h⟩ | ⟨e, h⟩
  · rw [h]
  · cases getVersion i with
    | error e => rfl
    | ok v => simp only [h]

theorem status_255 {F : Formatter} {cw : Path → Bool} {args : Args} {stdin : Option Str} {d : Disk} :
    exitStatus (mainRun F cw args stdin d).2 = 255 ↔ (formatError (mainRun F cw args stdin d).2).isSome := by
  have hv := fun n => mainRun_value (F := F) (cw := cw) (args := args) (stdin := stdin) (d := d) (n := n)
  revert hv
  generalize (mainRun F cw args stdin d).2 = x
  intro hv
  cases x with
  | ok n =>
    have := hv n rfl
    simp only [exitStatus, formatError, Option.isSome_none, Bool.false_eq_true, iff_false]
    omega
  | error e =>
    cases e with
    | os p => simp [exitStatus, formatError]
    | fmt e f => cases e <;> simp [exitStatus, formatError]

/-- C80: unless there are more `-q` than `-v`, accepted arguments lead to exit status 255 exactly when the log has an error. It
is the last message, and the only error. -/
theorem C80_failed (n : Nat) (cw : Path → Bool) (i : Install) (os : Os) (raw : RawArgs) (stdin : Option Str) (d : Disk) (args : Args)
    (v : Str) (hi : getVersion i = .ok v) (ha : parseArgs os raw = .ok args) (hq : raw.quiet ≤ raw.verbose) :
    let x := programL (markflowL n) cw i os raw stdin d
    (x.2.1 = 255 ↔ ∃ m ∈ x.2.2, m.level ≥ ERROR) ∧
    (x.2.1 = 255 → ∃ ms l e a, x.2.2 = ms ++ [.failed l e a] ∧ ∀ m ∈ ms, m.level ≤ WARNING) := by
  intro x
  obtain ⟨ms, h1, h2, _⟩ := C80_program n cw i os raw stdin d args v hi ha
  have h1 : x.2.2 = _ := h1
  have hst : x.2.1 = 255 ↔ (formatError (mainRun (markflow n) cw args stdin d).2).isSome := by
    rw [← status_255]
    have h := congrArg Prod.snd (C78_program n cw i os raw stdin d)
    simp only at h
    show (programL (markflowL n) cw i os raw stdin d).2.1 = 255 ↔ _
    rw [h]
    unfold program
    simp only [hi, ha]
  have c1 : WARNING = 30 := rfl
  have c2 : ERROR = 40 := rfl
  rw [hst, h1]
  cases hf : formatError (mainRun (markflow n) cw args stdin d).2 with
  | none =>
    simp only [List.append_nil, Option.isSome_none, Bool.false_eq_true, false_iff, false_implies, and_true]
    rintro ⟨m, hm, hl⟩
    have := h2 m hm
    omega
  | some y =>
    obtain ⟨l, e, a⟩ := y
    simp only [if_pos hq, Option.isSome_some, true_iff, true_implies]
    exact ⟨⟨.failed l e a, List.mem_append_right _ List.mem_cons_self, Nat.le_refl _⟩, ms, l, e, a, rfl, fun m hm => (h2 m hm).2⟩

/-! ## C74 for commands -/

theorem common_text (P : Char → Bool) (n level : Nat) : Common n level fun m => ∀ x, m = .fmt x → HasText P x where
  full w text l _ m hm := by
    obtain ⟨ms, h1, h2⟩ := hasText_run P n w text { l with shown := [] }
    have h1 : _ = ms := h1
    rw [h1] at hm
    rintro x ⟨⟩
    exact h2 _ hm
  pass w text l _ m hm := by
    obtain ⟨_, _, _, ms, h1, h2⟩ := hasText_pass P n w text { l with shown := [] }
    have h1 : _ = ms := h1
    rw [h1] at hm
    rintro x ⟨⟩
    exact h2 _ hm
  own m _ _ h x hx := absurd hx (h x)

/-- C74: every message of a command has a text, which consists of visible characters if the path it names, if it names one,
does; it is one line if line breaks are not printable. -/
theorem C74_command (P : Char → Bool) (n : Nat) (cw : Path → Bool) (i : Install) (os : Os) (raw : RawArgs) (stdin : Option Str)
    (d : Disk) : ∀ m ∈ (programL (markflowL n) cw i os raw stdin d).2.2, ∃ t, m.text P = .ok t ∧ t ≠ [] ∧
      ((∀ p, m = .firstRender p ∨ m = .secondRender p → Clear P (pathStr p)) →
        Clear P t ∧ ((∀ c, P c = true → isLB c = false) → splitlines t = [t])) := by
  have lit : ∀ {s : Str}, (s.all fun c => decide (32 ≤ c.toNat ∧ c.toNat < 127)) = true → Clear P s := clear_of_all
  have fin : ∀ {t : Str}, Clear P t → t ≠ [] → Clear P t ∧ ((∀ c, P c = true → isLB c = false) → splitlines t = [t]) :=
    fun h hne => ⟨h, clear_single h hne⟩
  have own : ∀ m : CMsg, (∀ x, m = .fmt x → HasText P x) → ∃ t, m.text P = .ok t ∧ t ≠ [] ∧
      ((∀ p, m = .firstRender p ∨ m = .secondRender p → Clear P (pathStr p)) →
        Clear P t ∧ ((∀ c, P c = true → isLB c = false) → splitlines t = [t])) := by
    intro m hm
    cases m with
    | fmt x =>
      obtain ⟨t, h1, h2, h3, h4⟩ := (hm x rfl).clear
      exact ⟨t, h1, h2, fun _ => ⟨h3, h4⟩⟩
    | firstRender p => exact ⟨_, rfl, by simp, fun h => fin ((lit (by decide)).append (h p (.inl rfl))) (by simp)⟩
    | secondRender p => exact ⟨_, rfl, by simp, fun h => fin ((lit (by decide)).append (h p (.inr rfl))) (by simp)⟩
    | firstPrint => exact ⟨_, rfl, by simp, fun _ => fin (lit (by decide)) (by simp)⟩
    | secondPrint => exact ⟨_, rfl, by simp, fun _ => fin (lit (by decide)) (by simp)⟩
    | interactive => exact ⟨_, rfl, by simp, fun _ => fin (lit (by decide)) (by simp)⟩
    | failed l e a =>
      exact ⟨_, rfl, by simp, fun _ => fin ((((((lit (by decide)).append (clear_digits _)).append (lit (by decide))).append
        (clear_digits _)).append (lit (by decide))).append (clear_digits _) |>.append (lit (by decide))) (by simp)⟩
  intro m hm
  refine own m ?_
  unfold programL at hm
  cases hi : getVersion i with
  | error e => rw [hi] at hm; cases hm
  | ok v =>
    cases ha : parseArgs os raw with
    | error e => rw [hi] at hm; simp only [ha] at hm; cases hm
    | ok args =>
      rw [hi] at hm
      simp only [ha] at hm
      rw [reportL_msgs] at hm
      rcases List.mem_append.1 hm with hm | hm
      · exact (mainRunL_all (common_text P n args.logLevel) cw stdin d).2 m hm
      · intro x hx
        split at hm
        · split at hm
          · rw [List.mem_singleton.1 hm] at hx
            cases hx
          · cases hm
        · cases hm

/-! ## C45 for the formatter itself -/

/-- C45: after a call of the formatter that returns or reports an inconsistency, the levels are what they were. -/
theorem C45_formatter_partial (n : Nat) (w : Width) (text : Str) (s : LSt)
    (h : (∃ out, reformatMarkdownText n w text = .ok out) ∨ reformatMarkdownText n w text = .error .inconsistent) :
    let s' := (reformatMarkdownTextL n w text s).2
    s'.info = s.info ∧ s'.parent = s.parent ∧ s'.effective = s.effective := by
  rcases h with ⟨out, h⟩ | h
  · exact full_ok_state h s
  · obtain ⟨t, t', h1, h2, _⟩ := inconsistent_passes h
    exact full_state h1 h2 s

/-- C45 is false of documents that make the formatter raise inside a block quote: `logging.INFO` stays at the debug level. -/
theorem C45_formatter_info : (reformatMarkdownTextL 9 (.fin 5) c!"> .foo\n" (start INFO)).2.info = DEBUG := by decide +kernel

/-- C45 is false of documents that make the second pass raise: the logger stays muted. -/
theorem C45_formatter_own : (reformatMarkdownTextL 9 (.fin 5) c!"aaaa - .foo\n" (start INFO)).2.effective = ERROR := by
  decide +kernel

/-! ## Examples -/

def C79_disk : Disk := fun p =>
  if p = [c!"a.md"] then some c!"> a\n> b\n" else if p = [c!"b.md"] then some c!"[x]:\n\nc\n" else
  if p = [c!"c.md"] then some c!"|a|b|\n|-|-|\n|c|\n" else if p = [c!"d.md"] then some c!"aaaa - .foo\n" else none

def C79_args (paths : List Path) (level : Nat) : Args :=
  { lineLength := 80, paths := paths, check := false, outputDirectory := none, outputFiles := [], writeRenders := false, logLevel := level }

/-- With `-v -v`. The first file is a quote, inside which `logging.INFO` is redirected; the second file's sections are shown all
the same. -/
theorem C79_example : (mainRunL (markflowL 9) (fun _ => true) (C79_args [[c!"a.md"], [c!"b.md"]] INFO) none C79_disk).1.msgs =
    [.fmt (.sect INFO 1 2 .quote [c!"> a", c!"> b"]), .fmt (.noLink 1), .fmt (.sect INFO 1 1 .lrd [c!"[x]:"]),
     .fmt (.sect INFO 2 2 .blank [c!""]), .fmt (.sect INFO 3 3 .par [c!"c"]), .fmt (.noLink 1)] := by
  decide +kernel

/-- By default only the error is shown. It does not say which file it is about. -/
theorem C80_example :
    let i : Install := ⟨none, c!"markflow", [c!"markflow-0.2.1.dist-info"]⟩
    let os : Os := ⟨fun p => p == [c!"b.md"] || p == [c!"c.md"], fun p => p == [], fun _ => false, fun _ _ => true, fun _ => []⟩
    let run := fun (v q : Nat) =>
      ((programL (markflowL 9) (fun _ => true) i os { paths := [[c!"b.md"], [c!"c.md"]], verbose := v, quiet := q } none C79_disk).2)
    (run 0 0 = (255, [.failed 3 2 1])) ∧ (run 0 1 = (255, [])) ∧
    (run 1 0 = (255, [.fmt (.noLink 1), .fmt (.noLink 1), .failed 3 2 1])) ∧
    (CMsg.failed 3 2 1).text (fun _ => true) = .ok c!"Line 3 has unexpected number of columns (expected: 2, actual: 1)" := by
  decide +kernel

/-- C80: what the program itself says. The two messages about renders differ for all files, on standard output as well. -/
theorem C80_texts (printable : Char → Bool) (p q : Path) :
    (CMsg.firstRender p).text printable = .ok (c!"Writing first render to " ++ pathStr p) ∧
    (CMsg.secondRender p).text printable = .ok (c!"Writing second render to " ++ pathStr p) ∧
    CMsg.firstPrint.text printable = .ok c!"Writing first render to STDOUT" ∧
    CMsg.secondPrint.text printable = .ok c!"Writing second render to STDOUT" ∧
    CMsg.interactive.text printable = .ok c!"MarkFlow is being run in interactive mode. Results will be written to STDOUT." ∧
    (CMsg.firstRender p).text printable ≠ (CMsg.secondRender q).text printable ∧
    (pathStr p ≠ pathStr q → (CMsg.firstRender p).text printable ≠ (CMsg.firstRender q).text printable ∧
      (CMsg.secondRender p).text printable ≠ (CMsg.secondRender q).text printable) := by
  refine ⟨rfl, rfl, rfl, rfl, rfl, ?_, fun h => ⟨?_, ?_⟩⟩
  · intro h
    have := congrArg (·.toOption.bind fun s => s[8]?) h
    exact absurd this (by simp [CMsg.text, Except.toOption])
  · intro e
    exact h (List.append_cancel_left (Except.ok.inj e))
  · intro e
    exact h (List.append_cancel_left (Except.ok.inj e))

end MF
