import Verif.Model.Repr
import Verif.Model.Version
/-!
# The command with its log

`Model/Cli.lean` and the process of `Model/Version.lean` once more, with all log messages, those of `markflow/__main__.py` included.
The state of the `logging` module lasts from one file to the next. `Props/MainLog.lean` proves that leaving out the log gives
those definitions back.
-/

namespace MF

/-- Log messages of a run. -/
inductive CMsg where
  /-- of the formatter -/
  | fmt (m : Msg)
  /-- /repo/markflow/__main__.py:250 and 254, debug messages -/
  | firstRender (p : Path)
  | secondRender (p : Path)
  /-- /repo/markflow/__main__.py:261 and 265, debug messages -/
  | firstPrint
  | secondPrint
  /-- /repo/markflow/__main__.py:336-340, a warning -/
  | interactive
  /-- /repo/markflow/__main__.py:384, a MarkdownFormatException (of a table) as an error -/
  | failed (line expected actual : Nat)
  deriving DecidableEq, Repr

/-- The formatter with its messages. -/
structure FormatterL where
  full : Width → Str → LogM Str
  pass : Width → Str → LogM Str

/-- The modelled formatter with recursion budget `n`. -/
def markflowL (n : Nat) : FormatterL := { full := reformatMarkdownTextL n, pass := reformatTextL n }

/-- State of a run: disk, file system steps, printed messages, logging state, log messages shown. -/
structure RunL extends Run where
  log : LogSt
  msgs : List CMsg

/-- Outcome of a piece of the program. -/
abbrev ResL (α : Type) := RunL × Except CliErr α

/-- A call of the formatter. -/
def callL (m : LogM Str) (r : RunL) : RunL × Except Err Str :=
  let x := m { r.log with shown := [] }
  ({ r with log := x.2.toLogSt, msgs := r.msgs ++ x.2.shown.map .fmt }, x.1)

/-- `Logger.debug`, `warning`, `error` on the logger of `markflow.__main__`, whose level the program never sets. -/
def logMain (level : Nat) (m : CMsg) (r : RunL) : RunL :=
  if level ≥ r.log.parent then { r with msgs := r.msgs ++ [m] } else r

/-- `print_markdown(s)`. -/
def sayL (r : RunL) (s : Str) : RunL := { r with toRun := say r.toRun s }

/-- `path.write_text(s)`. -/
def doWriteL (canWrite : Path → Bool) (r : RunL) (p : Path) (s : Str) : ResL Unit :=
  let x := doWrite canWrite r.toRun p s
  ({ r with toRun := x.1 }, x.2)

/-- `writeRenders`: /repo/markflow/__main__.py:238-256. -/
def writeRendersL (F : FormatterL) (canWrite : Path → Bool) (width : Width) (input output : Path) (r : RunL) :
    ResL Unit :=
  match readText r.disk input with
  | .error e => (r, .error e)
  | .ok text =>
    match callL (F.pass width text) r with
    | (r, .error e) => (r, .error (.fmt e none))
    | (r, .ok first) =>
      match doWriteL canWrite (logMain DEBUG (.firstRender (renderPaths output).1) r) (renderPaths output).1 first with
      | (r, .error e) => (r, .error e)
      | (r, .ok ()) =>
        match callL (F.pass width first) (logMain DEBUG (.secondRender (renderPaths output).2) r) with
        | (r, .error e) => (r, .error (.fmt e none))
        | (r, .ok second) => doWriteL canWrite r (renderPaths output).2 second

/-- `stepFile`: /repo/markflow/__main__.py:279-305. -/
def stepFileL (F : FormatterL) (canWrite : Path → Bool) (args : Args) (width : Width) (r : RunL)
    (input output : Path) : ResL Bool :=
  match readText r.disk input with
  | .error e => (r, .error e)
  | .ok old =>
    match callL (F.full width old) r with
    | (r, .error e) =>
      if e.isRuntimeError then
        if args.writeRenders && e == .inconsistent then
          match writeRendersL F canWrite width input output r with
          | (r, .error e') => (r, .error e')
          | (r, .ok ()) => (r, .error (.fmt e (some input)))
        else (r, .error (.fmt e (some input)))
      else (r, .error (.fmt e none))
    | (r, .ok new) =>
      if new != old then
        if !args.check then
          match doWriteL canWrite r output new with
          | (r, .error e) => (r, .error e)
          | (r, .ok ()) => (sayL r (c!"**reformatted " ++ pathStr input ++ c!"**"), .ok true)
        else (sayL r (c!"would reformat " ++ pathStr input), .ok true)
      else if output != input then
        match doWriteL canWrite r output new with
        | (r, .error e) => (r, .error e)
        | (r, .ok ()) => (r, .ok false)
      else (r, .ok false)

/-- `filesLoop`: /repo/markflow/__main__.py:279-305. -/
def filesLoopL (F : FormatterL) (canWrite : Path → Bool) (args : Args) (width : Width) :
    RunL → Nat → Nat → List (Path × Path) → ResL (Nat × Nat)
  | r, changed, unchanged, [] => (r, .ok (changed, unchanged))
  | r, changed, unchanged, (input, output) :: rest =>
    match stepFileL F canWrite args width r input output with
    | (r, .error e) => (r, .error e)
    | (r, .ok true) => filesLoopL F canWrite args width r (changed + 1) unchanged rest
    | (r, .ok false) => filesLoopL F canWrite args width r changed (unchanged + 1) rest

/-- `reformatFiles`: /repo/markflow/__main__.py:269-332. -/
def reformatFilesL (F : FormatterL) (canWrite : Path → Bool) (args : Args) (width : Width) (r : RunL) : ResL Nat :=
  match filesLoopL F canWrite args width r 0 0 (args.paths.zip (outputPaths args)) with
  | (r, .error e) => (r, .error e)
  | (r, .ok (changed, unchanged)) =>
    let r := sayL r c!"All done!"
    let r := sayL r (summary args.check changed unchanged)
    (r, .ok (if args.check && changed != 0 then 1 else 0))

/-- `reformatStdin`: /repo/markflow/__main__.py:335-361 and 259-266. -/
def reformatStdinL (F : FormatterL) (args : Args) (width : Width) (text : Str) (r : RunL) : ResL Nat :=
  let r := if args.outputDirectory.isSome || !args.outputFiles.isEmpty then logMain WARNING .interactive r else r
  match callL (F.full width text) r with
  | (r, .error e) =>
    if e.isRuntimeError && args.writeRenders && e == .inconsistent then
      match callL (F.pass width text) r with
      | (r, .error e') => (r, .error (.fmt e' none))
      | (r, .ok first) =>
        let r := sayL (logMain DEBUG .firstPrint r) (first ++ ['\n'])
        match callL (F.pass width first) r with
        | (r, .error e') => (r, .error (.fmt e' none))
        | (r, .ok second) => (sayL (logMain DEBUG .secondPrint r) (second ++ ['\n']), .error (.fmt e none))
    else (r, .error (.fmt e none))
  | (r, .ok new) =>
    if args.check then
      if new != text then (sayL r c!"STDIN would be reformatted.", .ok 1)
      else (sayL r c!"STDIN would be unchanged.", .ok 0)
    else (sayL r new, .ok 0)

/-- The state when `main` starts: `logging.basicConfig(level=...)`, /repo/markflow/__main__.py:202, has set the root level. -/
def startRun (args : Args) (d : Disk) : RunL :=
  { disk := d, ops := [], out := [], log := { info := INFO, own := 0, parent := args.logLevel }, msgs := [] }

/-- `mainRun`: /repo/markflow/__main__.py:364-377. -/
def mainRunL (F : FormatterL) (canWrite : Path → Bool) (args : Args) (stdin : Option Str) (d : Disk) : ResL Nat :=
  let width := mainWidth args.lineLength
  let r := startRun args d
  if args.paths.isEmpty then
    match stdin with
    | none => (sayL r c!"**No path provided. Nothing to do.**", .ok 0)
    | some text => reformatStdinL F args width text r
  else reformatFilesL F canWrite args width r

/-- /repo/markflow/__main__.py:380-385 `__main__`: a MarkdownFormatException is logged. -/
def reportL (x : ResL Nat) : RunL :=
  match x.2 with
  | .error (.fmt (.format line expected actual) _) => logMain ERROR (.failed line expected actual) x.1
  | _ => x.1

/-- `program`: /repo/markflow/__main__.py:66, 129-134, 364-385. Before `parse_args` succeeds nothing is logged. -/
def programL (F : FormatterL) (canWrite : Path → Bool) (i : Install) (os : Os) (raw : RawArgs) (stdin : Option Str)
    (d : Disk) : Run × Nat × List CMsg :=
  match getVersion i with
  | .error _ => ({ disk := d, ops := [], out := [] }, 1, [])
  | .ok _ =>
    match parseArgs os raw with
    | .error n => ({ disk := d, ops := [], out := [] }, osStatus n, [])
    | .ok args =>
      let x := mainRunL F canWrite args stdin d
      ((reportL x).toRun, exitStatus x.2, (reportL x).msgs)

/-- The text of a message. -/
def CMsg.text (printable : Char → Bool) : CMsg → Except Err Str
  | .fmt m => m.text printable
  | .firstRender p => .ok (c!"Writing first render to " ++ pathStr p)
  | .secondRender p => .ok (c!"Writing second render to " ++ pathStr p)
  | .firstPrint => .ok c!"Writing first render to STDOUT"
  | .secondPrint => .ok c!"Writing second render to STDOUT"
  | .interactive => .ok c!"MarkFlow is being run in interactive mode. Results will be written to STDOUT."
  | .failed line expected actual => .ok (c!"Line " ++ natStr line ++ c!" has unexpected number of columns (expected: " ++
      natStr expected ++ c!", actual: " ++ natStr actual ++ c!")")

end MF
