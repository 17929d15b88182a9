import Verif.Props.LogFails
import Verif.Props.MainLog
import Verif.Props.Bytes
import Verif.Props.Argv
/-!
# C124: the whole command

Everything a run of the command does is specified here without state: the texts that are written to files, what is printed,
the log, and how it ends. The specification uses C119's for formatting a text and C120's for what that logs.
-/

namespace MF

/-! ## Specification -/

/-- What a run has done: texts written to files, texts printed, log messages, each in order. -/
structure Story where
  writes : List (Path × Str) := []
  out : List Str := []
  msgs : List CMsg := []
  deriving DecidableEq, Repr

instance : Append Story := ⟨fun a b => ⟨a.writes ++ b.writes, a.out ++ b.out, a.msgs ++ b.msgs⟩⟩

/-- What is done, and the result or the exception that ends it. -/
def Tale (α : Type) : Type := Story × Except CliErr α

instance : Monad Tale where
  pure a := ({}, .ok a)
  bind x f := match x with
    | (s, .ok a) => (s ++ (f a).1, (f a).2)
    | (s, .error e) => (s, .error e)

def says (ms : List CMsg) : Tale Unit := ({ msgs := ms }, .ok ())

def prints (s : Str) : Tale Unit := ({ out := [s] }, .ok ())

def stores (canWrite : Path → Bool) (p : Path) (t : Str) : Tale Unit :=
  if canWrite p then ({ writes := [(p, t)] }, .ok ()) else ({}, .error (.os p))

def ends {α : Type} (e : CliErr) : Tale α := ({}, .error e)

def whenever (p : Prop) [Decidable p] (t : Tale Unit) : Tale Unit := if p then t else pure ()

/-- The files after texts have been written to some. -/
def stored (d : Disk) (ws : List (Path × Str)) : Disk := ws.foldl (fun d x q => if q = x.1 then some x.2 else d q) d

section
variable (n : Nat) (w : Width) (level : Nat)

/-- What formatting a text once logs. -/
def passSays (text : Str) : List CMsg := ((passNotes n INFO w text).filter (audible level level)).map .fmt

/-- What formatting a text and checking that logs. The check is silent unless debug messages are shown. -/
def callSays (text : Str) : List CMsg :=
  passSays n w level text ++
    match formatRef n w text with
    | .ok t => ((passNotes n INFO w t).filter (audible (if DEBUG < level then ERROR else level) level)).map .fmt
    | .error _ => []

def noteAt (l : Nat) (m : CMsg) : List CMsg := if level ≤ l then [m] else []

/-- The text of one pass. -/
def passText (text : Str) : Str :=
  match formatRef n w text with
  | .ok t => t
  | .error _ => []

/-- The two files for a text whose formatting is not consistent. -/
def rendersTale (canWrite : Path → Bool) (output : Path) (text : Str) : Tale Unit := do
  let first := passText n w text
  says (passSays n w level text ++ noteAt level DEBUG (.firstRender (renderPaths output).1))
  stores canWrite (renderPaths output).1 first
  says (noteAt level DEBUG (.secondRender (renderPaths output).2) ++ passSays n w level first)
  stores canWrite (renderPaths output).2 (passText n w first)

/-- One file, on the disk `d`: whether it is not formatted. -/
def fileTale (canWrite : Path → Bool) (args : Args) (d : Disk) (input output : Path) : Tale Bool :=
  match d input with
  | none => ends (.os input)
  | some raw => do
    let text := univNewlines raw
    says (callSays n w level text)
    match callRef n w text with
    | .ok new =>
      if new = text then do
        whenever (output ≠ input) (stores canWrite output new)
        pure false
      else if args.check then do
        prints (c!"would reformat " ++ pathStr input)
        pure true
      else do
        stores canWrite output new
        prints (c!"**reformatted " ++ pathStr input ++ c!"**")
        pure true
    | .error e => do
      whenever (args.writeRenders = true ∧ e = .inconsistent) (rendersTale n w level canWrite output text)
      ends (.fmt e (if e.isRuntimeError then some input else none))

/-- Files, one after the other, each as it is when its turn comes. -/
def filesTale (canWrite : Path → Bool) (args : Args) : Disk → List (Path × Path) → Tale (List Bool)
  | _, [] => pure []
  | d, (input, output) :: rest =>
    let x := fileTale n w level canWrite args d input output
    x >>= fun b => filesTale canWrite args (stored d x.1.writes) rest >>= fun bs => pure (b :: bs)

/-- The two texts of a text whose formatting is not consistent. -/
def printsTale (text : Str) : Tale Unit := do
  let first := passText n w text
  says (passSays n w level text ++ noteAt level DEBUG .firstPrint)
  prints (first ++ ['\n'])
  says (passSays n w level first ++ noteAt level DEBUG .secondPrint)
  prints (passText n w first ++ ['\n'])

/-- Standard input. -/
def stdinTale (args : Args) (text : Str) : Tale Nat := do
  whenever (args.outputDirectory.isSome ∨ args.outputFiles ≠ []) (says (noteAt level WARNING .interactive))
  says (callSays n w level text)
  match callRef n w text with
  | .ok new =>
    if args.check = false then do
      prints new
      pure 0
    else if new = text then do
      prints c!"STDIN would be unchanged."
      pure 0
    else do
      prints c!"STDIN would be reformatted."
      pure 1
  | .error e => do
    whenever (args.writeRenders = true ∧ e = .inconsistent) (printsTale n w level text)
    ends (.fmt e none)

end

/-- The command. -/
def commandTale (n : Nat) (canWrite : Path → Bool) (args : Args) (stdin : Option Str) (d : Disk) : Tale Nat :=
  let w := mainWidth args.lineLength
  if args.paths = [] then
    match stdin with
    | none => do
      prints c!"**No path provided. Nothing to do.**"
      pure 0
    | some text => stdinTale n w args.logLevel args text
  else do
    let changed ← filesTale n w args.logLevel canWrite args d (args.paths.zip (outputPaths args))
    prints c!"All done!"
    prints (summary args.check (changed.count true) (changed.count false))
    pure (if args.check = true ∧ true ∈ changed then 1 else 0)

/-! ## Proofs -/

/-- From `r` to `r'` what `s` tells is done. -/
structure Enacts (r : RunL) (s : Story) (r' : RunL) : Prop where
  disk : r'.disk = stored r.disk s.writes
  ops : r'.ops = r.ops ++ writesOps s.writes
  out : r'.out = r.out ++ s.out
  msgs : r'.msgs = r.msgs ++ s.msgs

theorem Story.append_eq (a b : Story) : a ++ b = ⟨a.writes ++ b.writes, a.out ++ b.out, a.msgs ++ b.msgs⟩ := rfl

theorem Enacts.refl (r : RunL) : Enacts r {} r := ⟨rfl, by simp [writesOps], by simp, by simp⟩

theorem Enacts.trans {r r1 r2 : RunL} {a b : Story} (h : Enacts r a r1) (g : Enacts r1 b r2) : Enacts r (a ++ b) r2 := by
  refine ⟨?_, ?_, ?_, ?_⟩
  · rw [g.disk, h.disk]; simp [Story.append_eq, stored]
  · rw [g.ops, h.ops]; simp [Story.append_eq, writesOps]
  · rw [g.out, h.out]; simp [Story.append_eq]
  · rw [g.msgs, h.msgs]; simp [Story.append_eq]

/-- A piece of the program does what is told, with that result; if it does not fail, the levels of the loggers are those of
the start. -/
structure Told {α : Type} (level : Nat) (r : RunL) (x : ResL α) (t : Tale α) : Prop where
  does : Enacts r t.1 x.1
  res : x.2 = t.2
  fresh : ∀ a, x.2 = .ok a → Fresh level x.1.log

theorem tale_pure {α : Type} (a : α) : (pure a : Tale α) = ({}, .ok a) := rfl

theorem tale_bind {α β : Type} (x : Tale α) (f : α → Tale β) :
    x >>= f = match x with
      | (s, .ok a) => (s ++ (f a).1, (f a).2)
      | (s, .error e) => (s, .error e) := rfl

/-- Doing one thing and then, if it has not failed, another. -/
theorem Told.bind {α β : Type} {level : Nat} {r r1 : RunL} {e : Except CliErr α} {t : Tale α} {x : ResL β} {f : α → Tale β}
    (h : Told level r (r1, e) t) (ok : ∀ a, e = .ok a → Told level r1 x (f a))
    (err : ∀ c, e = .error c → x = (r1, .error c)) : Told level r x (t >>= f) := by
  obtain ⟨s, y⟩ := t
  have hr : e = y := h.res
  subst hr
  cases e with
  | ok a =>
    obtain ⟨g1, g2, g3⟩ := ok a rfl
    exact ⟨h.does.trans g1, g2, g3⟩
  | error c =>
    rw [err c rfl]
    exact ⟨h.does, rfl, fun _ h => nomatch h⟩

theorem told_pure {α : Type} {level : Nat} {r : RunL} (hf : Fresh level r.log) (a : α) : Told level r (r, .ok a) (pure a) :=
  ⟨.refl r, rfl, fun _ _ => hf⟩

theorem told_ends {α : Type} {level : Nat} {r : RunL} (e : CliErr) : Told (α := α) level r (r, .error e) (ends e) :=
  ⟨.refl r, rfl, fun _ h => nomatch h⟩

theorem told_prints {level : Nat} {r : RunL} (hf : Fresh level r.log) (s : Str) :
    Told level r (sayL r s, .ok ()) (prints s) :=
  ⟨⟨rfl, by simp [prints, writesOps, sayL, say], rfl, by simp [prints, sayL]⟩, rfl, fun _ _ => hf⟩

theorem told_stores {level : Nat} {r : RunL} (hf : Fresh level r.log) (cw : Path → Bool) (p : Path) (t : Str) :
    Told level r (doWriteL cw r p t) (stores cw p t) := by
  unfold doWriteL doWrite stores
  by_cases h : cw p = true
  · simp only [h, if_true]
    refine ⟨⟨?_, by simp [writesOps], by simp, by simp⟩, rfl, fun _ _ => hf⟩
    simp only [applyOps_writeOps]
    rfl
  · simp only [h, if_false, Bool.false_eq_true]
    exact told_ends _

theorem fresh_level {level : Nat} {l : LogSt} (h : Fresh level l) : l.parent = level := h.2.1

theorem told_note {level : Nat} {r : RunL} (hf : Fresh level r.log) (l : Nat) (m : CMsg) :
    Told level r (logMain l m r, .ok ()) (says (noteAt level l m)) := by
  have hp := fresh_level hf
  unfold logMain noteAt
  by_cases h : level ≤ l
  · rw [if_pos (by rw [hp]; exact h), if_pos h]
    exact ⟨⟨rfl, by simp [says, writesOps], by simp [says], rfl⟩, rfl, fun _ _ => hf⟩
  · rw [if_neg (by rw [hp]; exact h), if_neg h]
    exact ⟨⟨rfl, by simp [says, writesOps], by simp [says], by simp [says]⟩, rfl, fun _ _ => hf⟩

theorem fresh_effective {level : Nat} {l : LogSt} (h : Fresh level l) : l.effective = level := h.2.2

/-- Formatting a text once. -/
theorem call_pass {n level : Nat} {w : Width} {text : Str} {r : RunL} (hf : Fresh level r.log)
    (h : reformatText n w text ≠ .error .recursion) :
    Enacts r { msgs := passSays n w level text } (callL ((markflowL n).pass w text) r).1 ∧
    (callL ((markflowL n).pass w text) r).2 = formatRef n w text := by
  obtain ⟨h1, h2⟩ := C120_pass h { r.log with shown := [] }
  have hs : (reformatTextL n w text { r.log with shown := [] }).2.shown =
      (passNotes n INFO w text).filter (audible level level) := by
    rw [h2]
    show [] ++ (passNotes n r.log.info w text).filter (audible r.log.effective r.log.parent) = _
    rw [hf.1, fresh_effective hf, fresh_level hf]
    rfl
  refine ⟨⟨rfl, by simp [callL, writesOps], by simp [callL], ?_⟩, ?_⟩
  · show r.msgs ++ (reformatTextL n w text { r.log with shown := [] }).2.shown.map .fmt = _
    rw [hs]
    rfl
  · rw [← C119_format n w text h]
    exact h1

/-- Formatting a text and checking that. -/
theorem call_full {n level : Nat} {w : Width} {text : Str} {r : RunL} (hf : Fresh level r.log)
    (h : reformatMarkdownText n w text ≠ .error .recursion) :
    Enacts r { msgs := callSays n w level text } (callL ((markflowL n).full w text) r).1 ∧
    (callL ((markflowL n).full w text) r).2 = callRef n w text := by
  have hm : (reformatMarkdownTextL n w text { r.log with shown := [] }).2.shown.map CMsg.fmt = callSays n w level text := by
    have he : ({ r.log with shown := [] } : LSt).effective = level := fresh_effective hf
    have hp : r.log.parent = level := fresh_level hf
    have hi : r.log.info = INFO := hf.1
    have h1 : reformatText n w text ≠ .error .recursion := by
      intro h1
      apply h
      unfold reformatMarkdownText
      rw [h1]
      rfl
    unfold callSays passSays
    rw [← C119_format n w text h1]
    cases hx : reformatText n w text with
    | error e =>
      rw [C121_call_first hx (fun h0 => h1 (by rw [hx, h0]))]
      simp [hi, he, hp]
    | ok t =>
      have h2 : reformatText n w t ≠ .error .recursion := by
        intro h2
        apply h
        unfold reformatMarkdownText
        rw [hx]
        simp only [bind, Except.bind]
        rw [h2]
      cases hy : reformatText n w t with
      | error e =>
        rw [C121_call_second hx hy (fun h0 => h2 (by rw [hy, h0]))]
        simp [hi, he, hp]
      | ok t' =>
        rw [C120_call hx hy]
        simp [hi, he, hp]
  refine ⟨⟨rfl, by simp [callL, writesOps], by simp [callL], ?_⟩, ?_⟩
  · show r.msgs ++ (reformatMarkdownTextL n w text { r.log with shown := [] }).2.shown.map .fmt = _
    rw [hm]
  · rw [← C119_call n w text h]
    exact C67_same_result_full n w text _

theorem call_full_told {n level : Nat} {w : Width} {text : Str} {r : RunL} (hf : Fresh level r.log)
    (h : reformatMarkdownText n w text ≠ .error .recursion)
    (hok : (∃ out, reformatMarkdownText n w text = .ok out) ∨ reformatMarkdownText n w text = .error .inconsistent) :
    Told level r ((callL ((markflowL n).full w text) r).1, .ok ()) (says (callSays n w level text)) :=
  ⟨(call_full hf h).1, rfl, fun _ _ => call_fresh hf hok⟩

/-- Saying two things one after the other. -/
theorem says_append {α : Type} (a b : List CMsg) (f : Unit → Tale α) : says (a ++ b) >>= f = says a >>= fun _ => says b >>= f := by
  show ((({ msgs := a ++ b } : Story) ++ (f ()).1, (f ()).2) : Tale α) =
    (({ msgs := a } : Story) ++ (({ msgs := b } : Story) ++ (f ()).1), (f ()).2)
  simp [Story.append_eq]

theorem renders_told {n level : Nat} {w : Width} {text first second : Str} {r : RunL} (hf : Fresh level r.log)
    (cw : Path → Bool) (i o : Path) (hread : readText r.disk i = .ok text) (h1 : reformatText n w text = .ok first)
    (h2 : reformatText n w first = .ok second) :
    Told level r (writeRendersL (markflowL n) cw w i o r) (rendersTale n w level cw o text) := by
  have n1 : reformatText n w text ≠ .error .recursion := by rw [h1]; exact fun h => nomatch h
  have n2 : reformatText n w first ≠ .error .recursion := by rw [h2]; exact fun h => nomatch h
  have e1 := (C119_format n w text n1).symm.trans h1
  have e2 := (C119_format n w first n2).symm.trans h2
  unfold writeRendersL rendersTale
  simp only [passText, e1, e2, hread, says_append]
  have c1 := call_pass (w := w) (text := text) hf n1
  have f1 := call_pass_fresh hf h1
  cases hc : callL ((markflowL n).pass w text) r with
  | mk r1 x =>
    rw [hc] at c1 f1
    obtain ⟨c1, cx⟩ := c1
    simp only at cx c1 f1
    rw [e1] at cx
    subst cx
    simp only
    refine Told.bind (r1 := r1) (e := .ok ()) ⟨c1, rfl, fun _ _ => f1⟩ (fun _ _ => ?_) (fun _ h => nomatch h)
    have t1 := told_note f1 DEBUG (.firstRender (renderPaths o).1)
    refine Told.bind t1 (fun _ _ => ?_) (fun _ h => nomatch h)
    have f2 := t1.fresh () rfl
    simp only at f2
    have t2 := told_stores f2 cw (renderPaths o).1 first
    cases hw : doWriteL cw (logMain DEBUG (.firstRender (renderPaths o).1) r1) (renderPaths o).1 first with
    | mk r2 y =>
      rw [hw] at t2
      refine Told.bind t2 (fun _ hy => ?_) (fun c hy => by subst hy; rfl)
      subst hy
      have f3 := t2.fresh () rfl
      have t3 := told_note f3 DEBUG (.secondRender (renderPaths o).2)
      have f4 := t3.fresh () rfl
      refine Told.bind t3 (fun _ _ => ?_) (fun _ h => nomatch h)
      have c2 := call_pass (w := w) (text := first) f4 n2
      have f5 := call_pass_fresh f4 h2
      simp only
      cases hc2 : callL ((markflowL n).pass w first) (logMain DEBUG (.secondRender (renderPaths o).2) r2) with
      | mk r3 x =>
        simp only at c2 f5
        rw [hc2] at c2 f5
        obtain ⟨c2, cx⟩ := c2
        simp only at cx c2 f5
        rw [e2] at cx
        subst cx
        refine Told.bind (r1 := r3) (e := .ok ()) ⟨c2, rfl, fun _ _ => f5⟩ (fun _ _ => ?_) (fun _ h => nomatch h)
        exact told_stores f5 cw _ second

theorem readText_some {d : Disk} {p : Path} : readText d p = match d p with
    | none => .error (.os p)
    | some raw => .ok (univNewlines raw) := rfl

theorem file_told {n level : Nat} {w : Width} {cw : Path → Bool} {args : Args} {r : RunL} (hf : Fresh level r.log) (i o : Path)
    (h : ∀ f, (stepFileL (markflowL n) cw args w r i o).2 ≠ .error (.fmt .recursion f)) :
    Told level r (stepFileL (markflowL n) cw args w r i o) (fileTale n w level cw args r.disk i o) := by
  unfold stepFileL at h ⊢
  unfold fileTale
  rw [readText_some] at h ⊢
  cases hd : r.disk i with
  | none => exact told_ends _
  | some raw =>
    simp only [hd] at h ⊢
    have hrec : reformatMarkdownText n w (univNewlines raw) ≠ .error .recursion := by
      intro h0
      have hx : (callL ((markflowL n).full w (univNewlines raw)) r).2 = reformatMarkdownText n w (univNewlines raw) :=
        C67_same_result_full n w _ _
      cases hc : callL ((markflowL n).full w (univNewlines raw)) r with
      | mk r1 x =>
        rw [hc, h0] at hx
        simp only at hx
        subst hx
        rw [hc] at h
        simp [Err.isRuntimeError] at h
    have hcall := call_full hf hrec
    have hfr := call_fresh (n := n) (w := w) (text := univNewlines raw) hf
    have hcr := C119_call n w _ hrec
    cases hc : callL ((markflowL n).full w (univNewlines raw)) r with
    | mk r1 x =>
      rw [hc] at hcall hfr h
      obtain ⟨c1, cx⟩ := hcall
      simp only at cx c1 hfr h
      rw [← cx] at hcr
      rw [← cx]
      cases x with
      | ok new =>
        have f1 := hfr (.inl ⟨new, hcr⟩)
        refine Told.bind (r1 := r1) (e := .ok ()) ⟨c1, rfl, fun _ _ => f1⟩ (fun _ _ => ?_) (fun _ h => nomatch h)
        have hwr := told_stores f1 cw o new
        simp only
        by_cases hn : new = univNewlines raw
        · rw [if_neg (by simpa using hn), if_pos hn]
          by_cases ho : o = i
          · rw [whenever, if_neg (by simpa using ho), if_neg (by simpa using ho)]
            exact Told.bind (told_pure f1 ()) (fun _ _ => told_pure f1 false) (fun _ h => nomatch h)
          · rw [whenever, if_pos (by simpa using ho), if_pos ho]
            cases hw : doWriteL cw r1 o new with
            | mk r2 y =>
              rw [hw] at hwr
              refine Told.bind hwr (fun _ hy => ?_) (fun c hy => by subst hy; rfl)
              subst hy
              exact told_pure (hwr.fresh () rfl) _
        · rw [if_pos (by simpa using hn), if_neg hn]
          by_cases hk : args.check = true
          · rw [if_neg (by simp [hk]), if_pos hk]
            have t := told_prints f1 (c!"would reformat " ++ pathStr i)
            exact Told.bind t (fun _ _ => told_pure (t.fresh () rfl) true) (fun _ h => nomatch h)
          · rw [if_pos (by simp [hk]), if_neg hk]
            cases hw : doWriteL cw r1 o new with
            | mk r2 y =>
              rw [hw] at hwr
              refine Told.bind hwr (fun _ hy => ?_) (fun c hy => by subst hy; rfl)
              subst hy
              have f2 := hwr.fresh () rfl
              have t := told_prints f2 (c!"**reformatted " ++ pathStr i ++ c!"**")
              exact Told.bind t (fun _ _ => told_pure (t.fresh () rfl) true) (fun _ h => nomatch h)
      | error e =>
        by_cases hi : args.writeRenders = true ∧ e = .inconsistent
        · obtain ⟨hi1, rfl⟩ := hi
          have f1 := hfr (.inr hcr)
          refine Told.bind (r1 := r1) (e := .ok ()) ⟨c1, rfl, fun _ _ => f1⟩ (fun _ _ => ?_) (fun _ h => nomatch h)
          obtain ⟨first, second, p1, p2, _⟩ := inconsistent_passes hcr
          have hread : readText r1.disk i = .ok (univNewlines raw) := by
            have : r1.disk = r.disk := c1.disk
            rw [this, readText_some, hd]
          have t := renders_told f1 cw i o hread p1 p2
          simp only [whenever, hi1, Err.isRuntimeError, if_true, Bool.true_and, beq_self_eq_true, and_self]
          cases hw : writeRendersL (markflowL n) cw w i o r1 with
          | mk r2 y =>
            rw [hw] at t
            refine Told.bind t (fun _ hy => ?_) (fun c hy => by subst hy; rfl)
            subst hy
            exact told_ends _
        · have hx : (args.writeRenders && e == .inconsistent) = false := by
            rw [← Bool.not_eq_true]; simpa using hi
          simp only [whenever, hx, if_neg hi, Bool.false_eq_true, if_false]
          have : Told level r (r1, (.error (.fmt e (if e.isRuntimeError then some i else none)) : Except CliErr Bool))
              (says (callSays n w level (univNewlines raw)) >>= fun _ => pure PUnit.unit >>= fun _ =>
                ends (.fmt e (if e.isRuntimeError then some i else none))) :=
            ⟨c1.trans ((Enacts.refl r1).trans (.refl r1)), rfl, fun _ h => nomatch h⟩
          by_cases hr : e.isRuntimeError = true
          · simp only [hr, if_true] at this ⊢; exact this
          · simp only [hr, if_false, Bool.false_eq_true] at this ⊢; exact this

theorem files_told {n level : Nat} {w : Width} {cw : Path → Bool} {args : Args} : ∀ (ps : List (Path × Path)) (r : RunL) (a b : Nat),
    Fresh level r.log → (∀ f, (filesLoopL (markflowL n) cw args w r a b ps).2 ≠ .error (.fmt .recursion f)) →
    Enacts r (filesTale n w level cw args r.disk ps).1 (filesLoopL (markflowL n) cw args w r a b ps).1 ∧
    (filesLoopL (markflowL n) cw args w r a b ps).2 =
      (filesTale n w level cw args r.disk ps).2.map (fun bs => (a + bs.count true, b + bs.count false)) ∧
    (∀ c, (filesLoopL (markflowL n) cw args w r a b ps).2 = .ok c →
      Fresh level (filesLoopL (markflowL n) cw args w r a b ps).1.log)
  | [], r, a, b, hf, _ => ⟨.refl r, rfl, fun _ _ => hf⟩
  | (i, o) :: ps, r, a, b, hf, h => by
    simp only [filesLoopL] at h ⊢
    simp only [filesTale]
    have t := file_told (n := n) (w := w) (cw := cw) (args := args) hf i o (fun f hs => by
      cases hx : stepFileL (markflowL n) cw args w r i o with
      | mk r1 x =>
        rw [hx] at hs
        simp only at hs
        subst hs
        rw [hx] at h
        exact h f rfl)
    cases hx : stepFileL (markflowL n) cw args w r i o with
    | mk r1 x =>
      rw [hx] at h t
      obtain ⟨t1, t2, t3⟩ := t
      cases hy : fileTale n w level cw args r.disk i o with
      | mk st y =>
        rw [hy] at t1 t2
        simp only at t1 t2 t3 h
        subst t2
        have hdisk : stored r.disk st.writes = r1.disk := t1.disk.symm
        cases x with
        | error e => exact ⟨t1, rfl, fun _ h => nomatch h⟩
        | ok c =>
          have f1 := t3 c rfl
          simp only [hdisk]
          cases c with
          | true =>
            obtain ⟨g1, g2, g3⟩ := files_told ps r1 (a + 1) b f1 h
            cases hz : filesTale n w level cw args r1.disk ps with
            | mk st2 z =>
              rw [hz] at g1 g2
              refine ⟨?_, ?_, g3⟩
              · cases z with
                | error e => exact t1.trans g1
                | ok bs => exact t1.trans (g1.trans (.refl _))
              · simp only at g2 ⊢
                rw [g2]
                cases z with
                | error e => rfl
                | ok bs =>
                  show Except.ok _ = Except.ok _
                  simp [Nat.add_assoc, Nat.add_comm 1]
          | false =>
            obtain ⟨g1, g2, g3⟩ := files_told ps r1 a (b + 1) f1 h
            cases hz : filesTale n w level cw args r1.disk ps with
            | mk st2 z =>
              rw [hz] at g1 g2
              refine ⟨?_, ?_, g3⟩
              · cases z with
                | error e => exact t1.trans g1
                | ok bs => exact t1.trans (g1.trans (.refl _))
              · simp only at g2 ⊢
                rw [g2]
                cases z with
                | error e => rfl
                | ok bs =>
                  show Except.ok _ = Except.ok _
                  simp [Nat.add_assoc, Nat.add_comm 1]

theorem stdin_told {n level : Nat} {w : Width} {args : Args} {r : RunL} (hf : Fresh level r.log) (text : Str)
    (h : ∀ f, (reformatStdinL (markflowL n) args w text r).2 ≠ .error (.fmt .recursion f)) :
    Told level r (reformatStdinL (markflowL n) args w text r) (stdinTale n w level args text) := by
  unfold stdinTale
  -- the warning
  have hw : ∃ r0, Told level r (r0, .ok ()) (whenever (args.outputDirectory.isSome ∨ args.outputFiles ≠ [])
        (says (noteAt level WARNING .interactive))) ∧
      (if args.outputDirectory.isSome || !args.outputFiles.isEmpty then logMain WARNING .interactive r else r) = r0 := by
    by_cases hc : args.outputDirectory.isSome = true ∨ args.outputFiles ≠ []
    · rw [whenever, if_pos hc, if_pos (by simpa using hc)]
      exact ⟨_, told_note hf _ _, rfl⟩
    · rw [whenever, if_neg hc, if_neg (by simpa using hc)]
      exact ⟨_, told_pure hf (), rfl⟩
  obtain ⟨r0, t0, e0⟩ := hw
  unfold reformatStdinL at h ⊢
  rw [e0] at h ⊢
  simp only at h ⊢
  refine Told.bind t0 (fun _ _ => ?_) (fun _ h => nomatch h)
  have f0 := t0.fresh () rfl
  simp only at f0
  have hrec : reformatMarkdownText n w text ≠ .error .recursion := by
    intro h0
    have hx : (callL ((markflowL n).full w text) r0).2 = reformatMarkdownText n w text := C67_same_result_full n w _ _
    cases hc : callL ((markflowL n).full w text) r0 with
    | mk r1 x =>
      rw [hc, h0] at hx
      simp only at hx
      subst hx
      rw [hc] at h
      simp [Err.isRuntimeError] at h
  have hcall := call_full f0 hrec
  have hfr := call_fresh (n := n) (w := w) (text := text) f0
  have hcr := C119_call n w _ hrec
  cases hc : callL ((markflowL n).full w text) r0 with
  | mk r1 x =>
    rw [hc] at hcall hfr h
    obtain ⟨c1, cx⟩ := hcall
    simp only at cx c1 hfr h
    rw [← cx] at hcr
    rw [← cx]
    cases x with
    | ok new =>
      have f1 := hfr (.inl ⟨new, hcr⟩)
      refine Told.bind (r1 := r1) (e := .ok ()) ⟨c1, rfl, fun _ _ => f1⟩ (fun _ _ => ?_) (fun _ h => nomatch h)
      have fin : ∀ (s : Str) (k : Nat), Told level r1 (sayL r1 s, .ok k) (prints s >>= fun _ => pure k) := by
        intro s k
        have t := told_prints f1 s
        exact Told.bind t (fun _ _ => told_pure (t.fresh () rfl) k) (fun _ h => nomatch h)
      simp only
      by_cases hk : args.check = true
      · by_cases hn : new = text
        · simp only [hk, hn, if_true, bne_self_eq_false, Bool.false_eq_true, Bool.true_eq_false, if_false]
          exact fin _ _
        · have hb : (new != text) = true := by simpa using hn
          simp only [hk, hb, hn, if_true, Bool.true_eq_false, if_false]
          exact fin _ _
      · rw [if_neg hk, if_pos (by simpa using hk)]
        exact fin _ _
    | error e =>
      by_cases hi : args.writeRenders = true ∧ e = .inconsistent
      · obtain ⟨hi1, rfl⟩ := hi
        have f1 := hfr (.inr hcr)
        refine Told.bind (r1 := r1) (e := .ok ()) ⟨c1, rfl, fun _ _ => f1⟩ (fun _ _ => ?_) (fun _ h => nomatch h)
        obtain ⟨first, second, h1, h2, _⟩ := inconsistent_passes hcr
        have n1 : reformatText n w text ≠ .error .recursion := by rw [h1]; exact fun h => nomatch h
        have n2 : reformatText n w first ≠ .error .recursion := by rw [h2]; exact fun h => nomatch h
        have e1 := (C119_format n w text n1).symm.trans h1
        have e2 := (C119_format n w first n2).symm.trans h2
        simp only [whenever, hi1, Err.isRuntimeError, if_true, Bool.true_and, beq_self_eq_true, and_self, printsTale, passText, e1, e2, says_append]
        have c2 := call_pass (w := w) (text := text) f1 n1
        have f2 := call_pass_fresh f1 h1
        cases hc2 : callL ((markflowL n).pass w text) r1 with
        | mk r2 x =>
          rw [hc2] at c2 f2
          obtain ⟨c2, cx⟩ := c2
          simp only at cx c2 f2
          rw [e1] at cx
          subst cx
          simp only
          have t1 := told_note f2 DEBUG .firstPrint
          have f3 := t1.fresh () rfl
          have t2 := told_prints f3 (first ++ ['\n'])
          have f4 := t2.fresh () rfl
          have c3 := call_pass (w := w) (text := first) f4 n2
          have f5 := call_pass_fresh f4 h2
          simp only at c3 f5
          cases hc3 : callL ((markflowL n).pass w first) (sayL (logMain DEBUG .firstPrint r2) (first ++ ['\n'])) with
          | mk r3 x =>
            rw [hc3] at c3 f5
            obtain ⟨c3, cx⟩ := c3
            simp only at cx c3 f5
            rw [e2] at cx
            subst cx
            simp only
            have t3 := told_note f5 DEBUG .secondPrint
            have f6 := t3.fresh () rfl
            have t4 := told_prints f6 (second ++ ['\n'])
            have all : Told level r1 (sayL (logMain DEBUG .secondPrint r3) (second ++ ['\n']), .ok ()) (do
                says (passSays n w level text)
                says (noteAt level DEBUG .firstPrint)
                prints (first ++ ['\n'])
                says (passSays n w level first)
                says (noteAt level DEBUG .secondPrint)
                prints (second ++ ['\n'])) := by
              refine Told.bind (r1 := r2) (e := .ok ()) ⟨c2, rfl, fun _ _ => f2⟩ (fun _ _ => ?_) (fun _ h => nomatch h)
              refine Told.bind t1 (fun _ _ => ?_) (fun _ h => nomatch h)
              refine Told.bind t2 (fun _ _ => ?_) (fun _ h => nomatch h)
              refine Told.bind (r1 := r3) (e := .ok ()) ⟨c3, rfl, fun _ _ => f5⟩ (fun _ _ => ?_) (fun _ h => nomatch h)
              refine Told.bind t3 (fun _ _ => ?_) (fun _ h => nomatch h)
              exact t4
            exact Told.bind all (fun _ _ => told_ends _) (fun _ h => nomatch h)
      · have hx : (e.isRuntimeError && args.writeRenders && e == .inconsistent) = false := by
          rw [← Bool.not_eq_true]
          simp only [Bool.and_eq_true, beq_iff_eq]
          exact fun h => hi ⟨h.1.2, h.2⟩
        simp only [whenever, hx, if_neg hi, Bool.false_eq_true, if_false]
        exact ⟨c1.trans ((Enacts.refl r1).trans (.refl r1)), rfl, fun _ h => nomatch h⟩

/-- What `main` does is what the specification tells. -/
theorem command_told (n : Nat) (cw : Path → Bool) (args : Args) (stdin : Option Str) (d : Disk)
    (h : ∀ f, (mainRunL (markflowL n) cw args stdin d).2 ≠ .error (.fmt .recursion f)) :
    Told args.logLevel (startRun args d) (mainRunL (markflowL n) cw args stdin d) (commandTale n cw args stdin d) := by
  have hf := fresh_start args d
  unfold mainRunL at h ⊢
  unfold commandTale
  simp only at h ⊢
  by_cases hp : args.paths = []
  · rw [if_pos hp]
    simp only [hp, List.isEmpty_nil, if_true] at h ⊢
    cases stdin with
    | none =>
      have t := told_prints hf c!"**No path provided. Nothing to do.**"
      exact Told.bind t (fun _ _ => told_pure (t.fresh () rfl) 0) (fun _ h => nomatch h)
    | some text => exact stdin_told hf text h
  · rw [if_neg hp]
    have he : args.paths.isEmpty = false := by simpa using hp
    simp only [he, Bool.false_eq_true, if_false] at h ⊢
    unfold reformatFilesL at h ⊢
    have t := files_told (n := n) (w := mainWidth args.lineLength) (cw := cw) (args := args)
      (args.paths.zip (outputPaths args)) (startRun args d) 0 0 hf
    cases hl : filesLoopL (markflowL n) cw args (mainWidth args.lineLength) (startRun args d) 0 0
        (args.paths.zip (outputPaths args)) with
    | mk r1 x =>
      rw [hl] at h t
      obtain ⟨t1, t2, t3⟩ := t (fun f hx => by
        simp only at hx
        subst hx
        exact h f rfl)
      have hd : (startRun args d).disk = d := rfl
      rw [hd] at t1 t2
      cases hy : filesTale n (mainWidth args.lineLength) args.logLevel cw args d (args.paths.zip (outputPaths args)) with
      | mk st y =>
        rw [hy] at t1 t2
        simp only at t1 t2 t3
        cases y with
        | error e =>
          obtain rfl : x = .error e := t2
          exact ⟨t1, rfl, fun _ h => nomatch h⟩
        | ok bs =>
          obtain rfl : x = .ok (0 + bs.count true, 0 + bs.count false) := t2
          have f1 := t3 _ rfl
          have hs : (if (args.check && (bs.count true != 0)) = true then 1 else 0) =
              if args.check = true ∧ true ∈ bs then 1 else 0 := by
            have : (args.check && (bs.count true != 0)) = true ↔ args.check = true ∧ true ∈ bs := by
              rw [Bool.and_eq_true, bne_iff_ne, ne_eq, List.count_eq_zero, Decidable.not_not]
            by_cases hb : args.check = true ∧ true ∈ bs
            · rw [if_pos hb, if_pos (this.2 hb)]
            · rw [if_neg hb, if_neg (fun h => hb (this.1 h))]
          simp only [Nat.zero_add, hs]
          refine Told.bind (r1 := r1) (e := .ok bs) ⟨t1, rfl, fun _ _ => f1⟩ (fun a ha => ?_) (fun _ h => nomatch h)
          obtain rfl := Except.ok.inj ha
          have p1 := told_prints f1 c!"All done!"
          have f2 := p1.fresh () rfl
          refine Told.bind p1 (fun _ _ => ?_) (fun _ h => nomatch h)
          have p2 := told_prints f2 (summary args.check (bs.count true) (bs.count false))
          exact Told.bind p2 (fun _ _ => told_pure (p2.fresh () rfl) _) (fun _ h => nomatch h)

/-- C124: `main` writes, prints, logs and returns or raises what the specification tells, and every file has afterwards what it
tells. -/
theorem C124_command (n : Nat) (cw : Path → Bool) (args : Args) (stdin : Option Str) (d : Disk)
    (h : ∀ f, (mainRunL (markflowL n) cw args stdin d).2 ≠ .error (.fmt .recursion f)) :
    let x := mainRunL (markflowL n) cw args stdin d
    let t := commandTale n cw args stdin d
    x.1.disk = stored d t.1.writes ∧ x.1.ops = writesOps t.1.writes ∧ x.1.out = t.1.out ∧ x.1.msgs = t.1.msgs ∧ x.2 = t.2 := by
  obtain ⟨⟨h1, h2, h3, h4⟩, h5, _⟩ := command_told n cw args stdin d h
  exact ⟨h1, h2, h3, h4, h5⟩

/-- The message that ends the log: a table that cannot be formatted. -/
def tableSays (level : Nat) : Except CliErr Nat → List CMsg
  | .error (.fmt (.format line expected actual) _) => noteAt level ERROR (.failed line expected actual)
  | _ => []

/-- C124: the same of the whole process: files, printed texts, exit status, log. -/
theorem C124_program (n : Nat) (cw : Path → Bool) (i : Install) (os : Os) (raw : RawArgs) (stdin : Option Str) (d : Disk)
    (args : Args) (v : Str) (hi : getVersion i = .ok v) (ha : parseArgs os raw = .ok args)
    (h : ∀ f, (mainRunL (markflowL n) cw args stdin d).2 ≠ .error (.fmt .recursion f)) :
    let t := commandTale n cw args stdin d
    programL (markflowL n) cw i os raw stdin d =
      ({ disk := stored d t.1.writes, ops := writesOps t.1.writes, out := t.1.out }, exitStatus t.2,
        t.1.msgs ++ tableSays args.logLevel t.2) := by
  intro t
  have hp := (mainRunL_all (common_level n args.logLevel) cw stdin d).1
  obtain ⟨h1, h2, h3, h4, h5⟩ := C124_command n cw args stdin d h
  unfold programL
  simp only [hi, ha]
  cases hx : mainRunL (markflowL n) cw args stdin d with
  | mk r res =>
    rw [hx] at h1 h2 h3 h4 h5 hp
    simp only at h1 h2 h3 h4 h5 hp
    have hr : r.toRun = { disk := stored d t.1.writes, ops := writesOps t.1.writes, out := t.1.out } := by
      have e : ∀ (x : Run) (a : Disk) (b : List Op) (c : List Str), x.disk = a → x.ops = b → x.out = c →
          x = { disk := a, ops := b, out := c } := by
        intro x a b c h1 h2 h3
        subst h1 h2 h3
        rfl
      exact e _ _ _ _ h1 h2 h3
    have hm : (reportL (r, res)).toRun = r.toRun ∧ (reportL (r, res)).msgs = r.msgs ++ tableSays args.logLevel res := by
      cases res with
      | ok k => exact ⟨rfl, (List.append_nil _).symm⟩
      | error e =>
        cases e with
        | os p => exact ⟨rfl, (List.append_nil _).symm⟩
        | fmt e f =>
          cases e
          case format l x a =>
            show (logMain ERROR (.failed l x a) r).toRun = _ ∧ (logMain ERROR (.failed l x a) r).msgs = r.msgs ++ noteAt _ _ _
            refine ⟨logMain_mute _ _ _, ?_⟩
            unfold logMain noteAt
            rw [hp]
            by_cases hl : args.logLevel ≤ ERROR
            · rw [if_pos hl, if_pos hl]
            · rw [if_neg hl, if_neg hl]; simp
          all_goals exact ⟨rfl, (List.append_nil _).symm⟩
    have h5 : res = t.2 := h5
    have h4 : r.msgs = t.1.msgs := h4
    rw [hm.1, hm.2, hr, h4, h5]

/-- C124: from the words of the command line on: with options and paths as C86 specifies them. -/
theorem C124_line (n : Nat) (cw : Path → Bool) (i : Install) (py : PyFns) (os : Os) (argv : List Str) (stdin : Option Str)
    (d : Disk) (items : List (Opt × Str)) (ps : List Str) (args : Args) (v : Str) (hi : getVersion i = .ok v)
    (hl : Line py argv items ps) (hv : Valid py os items ps) (ha : parseArgs os (collected py items ps) = .ok args)
    (h : ∀ f, (mainRunL (markflowL n) cw args stdin d).2 ≠ .error (.fmt .recursion f)) :
    let t := commandTale n cw args stdin d
    commandLine (markflow n) cw i py os argv stdin d =
      ({ disk := stored d t.1.writes, ops := writesOps t.1.writes, out := t.1.out }, exitStatus t.2) := by
  intro t
  have hp := (C86_accepted py os argv _).2 ⟨items, ps, hl, hv, rfl⟩
  have hc := C124_program n cw i os (collected py items ps) stdin d args v hi ha h
  unfold commandLine
  simp only [hi, hp]
  rw [← C78_program, hc]

/-- C124: the same of files of bytes, in every encoding that suits: what is told of their texts is what is done, encoded. -/
theorem C124_bytes {K : Codec} {n : Nat} {T : Str → Prop} (hK : Suits K (markflow n) T) (cw : Path → Bool) (args : Args)
    (stdin : Option Str) (d : ByteDisk)
    (h : ∀ f, (mainRunB K (markflow n) cw args stdin d).2 ≠ .error (.cli (.fmt .recursion f))) :
    let x := mainRunB K (markflow n) cw args stdin d
    let t := commandTale n cw args stdin (textsOf K d)
    x.1.disk = applyBytes d (writesBytes K t.1.writes) ∧ x.1.ops = writesBytes K t.1.writes ∧
    textsOf K x.1.disk = stored (textsOf K d) t.1.writes ∧ x.1.out = t.1.out ∧ plainErr x.2 = t.2 := by
  intro x t
  obtain ⟨r1, r2, r3, _⟩ := C123_run hK cw args stdin d
  have hm := mainRunL_mute (mutes_markflow n) cw args stdin (textsOf K d)
  have m1 : (mainRunL (markflowL n) cw args stdin (textsOf K d)).1.toRun = (mainRun (markflow n) cw args stdin (textsOf K d)).1 :=
    congrArg Prod.fst hm
  have m2 : (mainRunL (markflowL n) cw args stdin (textsOf K d)).2 = (mainRun (markflow n) cw args stdin (textsOf K d)).2 :=
    congrArg Prod.snd hm
  obtain ⟨c1, c2, c3, _, c5⟩ := C124_command n cw args stdin (textsOf K d) (fun f hf => by
    rw [m2, ← r3] at hf
    cases hx : (mainRunB K (markflow n) cw args stdin d).2 with
    | ok k => rw [hx] at hf; cases hf
    | error e =>
      rw [hx] at hf
      cases e with
      | cli e =>
        obtain rfl : e = .fmt .recursion f := Except.error.inj hf
        exact h f hx
      | undecodable p => cases Except.error.inj hf
      | unencodable p => cases Except.error.inj hf)
  rw [m1] at c1 c2 c3
  rw [m2] at c5
  obtain ⟨s1, s2, _⟩ := C123_steps hK cw args stdin d _ c2
  exact ⟨s2, s1, r1.trans c1, r2.trans c3, r3.trans c5⟩

/-- Three runs. In the first a heading is formatted, a text whose formatting is not consistent has its two renders written,
and the third file is not looked at. In the second a file comes twice; a table ends the run. The third is a check of
standard input with options that have no effect. -/
theorem C124_example :
    let args : Args := { lineLength := 20, paths := [[c!"f"], [c!"g.md"], [c!"h"]], check := false, outputDirectory := none,
                         outputFiles := [], writeRenders := true, logLevel := WARNING }
    let d : Disk := fun p => if p = [c!"f"] then some c!"#a\r\n\r\n" else if p = [c!"t"] then some c!"|a|b|\n|-|-|\n|c|\n"
      else some c!" > a *b* c d e f g h i j k l m n o"
    let first := commandTale 5 (fun _ => true) args none d
    let second := commandTale 5 (fun _ => true) { args with paths := [[c!"f"], [c!"f"], [c!"t"]], logLevel := INFO } none d
    let third := commandTale 5 (fun _ => true) { args with paths := [], outputDirectory := some [c!"o"], check := true }
      (some c!"a  b\n") d
    first.1 = { writes := [([c!"f"], c!"# a\n"), ([c!"g.1.md"], c!"> a *b* c d e f g h i\n> j k l m n o\n"),
                           ([c!"g.2.md"], c!"> a *b* c d e f g h\n> i j k l m n o\n")],
                out := [c!"**reformatted f**"], msgs := [.fmt (.noSpace 1)] } ∧
    first.2 = .error (.fmt .inconsistent (some [c!"g.md"])) ∧
    second.1 = { writes := [([c!"f"], c!"# a\n")], out := [c!"**reformatted f**"],
                 msgs := [.fmt (.sect INFO 1 1 .atx [c!"#a"]), .fmt (.sect INFO 2 2 .blank [[]]), .fmt (.noSpace 1),
                          .fmt (.sect INFO 1 1 .atx [c!"# a"]), .fmt (.sect INFO 1 3 .table [c!"|a|b|", c!"|-|-|", c!"|c|"])] } ∧
    second.2 = .error (.fmt (.format 3 2 1) none) ∧ exitStatus second.2 = 255 ∧
    tableSays INFO second.2 = [.failed 3 2 1] ∧
    third.1 = { out := [c!"STDIN would be reformatted."], msgs := [.interactive] } ∧ third.2 = .ok 1 := by
  decide +kernel

end MF
