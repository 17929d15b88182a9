import Verif.Model.Argparse
/-!
# The command line: `markflow/__main__.py`

The formatter is a parameter (`Formatter`), so command line theorems hold for every formatter and in particular for
the modelled one (`markflow`).
-/

namespace MF

/-- Contents of files as stored; `none` for a path that cannot be read. -/
abbrev Disk := Path → Option Str

/-- Decoding by text mode: universal newlines translate `\r\n` and `\r` to `\n`. Character encoding is not
modelled. -/
def univNewlines : Str → Str
  | [] => []
  | c :: rest =>
    if c == '\r' then (if rest.head? == some '\n' then univNewlines rest else '\n' :: univNewlines rest)
    else c :: univNewlines rest

/-- A primitive file system step. `write_text` (standard library: `open(mode="w")`, `write`, `close`) truncates the
file and then appends; appending one character at a time covers every place where a buffer may be flushed. -/
inductive Op where
  | trunc (p : Path)
  | append (p : Path) (c : Char)
  deriving DecidableEq, Repr

/-- Effect of one step. -/
def Op.apply : Op → Disk → Disk
  | .trunc p, d => fun q => if q = p then some [] else d q
  | .append p c, d => fun q => if q = p then (d q).map (· ++ [c]) else d q

/-- Effect of several steps. -/
def applyOps (d : Disk) (ops : List Op) : Disk := ops.foldl (fun d op => op.apply d) d

/-- `path.write_text(s)`. -/
def writeOps (p : Path) (s : Str) : List Op := .trunc p :: s.map (.append p)

/-- Exceptions of the command line: one of the formatter's, with the file whose name was added to its message, or an
OSError from reading or writing a path. -/
inductive CliErr where
  | fmt (e : Err) (file : Option Path)
  | os (p : Path)
  deriving DecidableEq, Repr

/-- What a run needs from outside: the formatter (`reformat_markdown_text`), one pass of it
(`_reformat_markdown_text`), and which paths can be opened for writing. -/
structure Formatter where
  full : Width → Str → Except Err Str
  pass : Width → Str → Except Err Str

/-- The modelled formatter with recursion budget `n`. -/
def markflow (n : Nat) : Formatter := { full := reformatMarkdownText n, pass := reformatText n }

/-- State of a run: disk, file system steps so far, printed messages. -/
structure Run where
  disk : Disk
  ops : List Op
  out : List Str

/-- Outcome of a piece of the program: final state, and a value or an exception. -/
abbrev Res (α : Type) := Run × Except CliErr α

/-- `path.read_text()`. -/
def readText (d : Disk) (p : Path) : Except CliErr Str :=
  match d p with
  | none => .error (.os p)
  | some s => .ok (univNewlines s)

/-- `path.write_text(s)` in a run; OSError without any effect when the path cannot be opened. -/
def doWrite (canWrite : Path → Bool) (r : Run) (p : Path) (s : Str) : Res Unit :=
  if canWrite p then
    ({ r with disk := applyOps r.disk (writeOps p s), ops := r.ops ++ writeOps p s }, .ok ())
  else (r, .error (.os p))

/-- `print_markdown(s)`, /repo/markflow/__main__.py:61-63; `rich`'s rendering is not modelled. -/
def say (r : Run) (s : Str) : Run := { r with out := r.out ++ [s] }

/-- Names of the render files, /repo/markflow/__main__.py:241-248, 253. -/
def renderPaths (output : Path) : Path × Path :=
  let name := pathName output
  if endsWith name c!".md" then
    let stem := name.take (name.length - 3)
    (pathJoin (pathParent output) (stem ++ c!".1.md"), pathJoin (pathParent output) (stem ++ c!".2.md"))
  else
    (pathJoin (pathParent output) (name ++ c!".1"), pathJoin (pathParent output) (name ++ c!".2"))

/-- /repo/markflow/__main__.py:238-256 `_write_renders`. -/
def writeRenders (F : Formatter) (canWrite : Path → Bool) (width : Width) (input output : Path) (r : Run) :
    Res Unit :=
  match readText r.disk input with
  | .error e => (r, .error e)
  | .ok text =>
    match F.pass width text with
    | .error e => (r, .error (.fmt e none))
    | .ok first =>
      match doWrite canWrite r (renderPaths output).1 first with
      | (r, .error e) => (r, .error e)
      | (r, .ok ()) =>
        match F.pass width first with
        | .error e => (r, .error (.fmt e none))
        | .ok second => doWrite canWrite r (renderPaths output).2 second

/-- `output_paths`, /repo/markflow/__main__.py:270-275. -/
def outputPaths (args : Args) : List Path :=
  match args.outputDirectory with
  | some d => args.paths.map fun p => pathJoin d (pathName p)
  | none => if args.outputFiles.isEmpty then args.paths else args.outputFiles

/-- Text of a path, for messages. -/
def pathStr (p : Path) : Str := pyJoin ['/'] p

/-- Loop body of `_reformat_files`, /repo/markflow/__main__.py:279-305. The value says whether the file changed. -/
def stepFile (F : Formatter) (canWrite : Path → Bool) (args : Args) (width : Width) (r : Run)
    (input output : Path) : Res Bool :=
  match readText r.disk input with
  | .error e => (r, .error e)
  | .ok old =>
    match F.full width old with
    | .error e =>
      if e.isRuntimeError then
        if args.writeRenders && e == .inconsistent then
          match writeRenders F canWrite width input output r with
          | (r, .error e') => (r, .error e')
          | (r, .ok ()) => (r, .error (.fmt e (some input)))
        else (r, .error (.fmt e (some input)))
      else (r, .error (.fmt e none))
    | .ok new =>
      if new != old then
        if !args.check then
          match doWrite canWrite r output new with
          | (r, .error e) => (r, .error e)
          | (r, .ok ()) => (say r (c!"**reformatted " ++ pathStr input ++ c!"**"), .ok true)
        else (say r (c!"would reformat " ++ pathStr input), .ok true)
      else if output != input then
        match doWrite canWrite r output new with
        | (r, .error e) => (r, .error e)
        | (r, .ok ()) => (r, .ok false)
      else (r, .ok false)

/-- Loop of `_reformat_files`, /repo/markflow/__main__.py:279-305; the value is (`files_changed`,
`files_left_unchanged`). -/
def filesLoop (F : Formatter) (canWrite : Path → Bool) (args : Args) (width : Width) :
    Run → Nat → Nat → List (Path × Path) → Res (Nat × Nat)
  | r, changed, unchanged, [] => (r, .ok (changed, unchanged))
  | r, changed, unchanged, (input, output) :: rest =>
    match stepFile F canWrite args width r input output with
    | (r, .error e) => (r, .error e)
    | (r, .ok true) => filesLoop F canWrite args width r (changed + 1) unchanged rest
    | (r, .ok false) => filesLoop F canWrite args width r changed (unchanged + 1) rest

/-- `"file" if n == 1 else "files"`. -/
def fileWord (n : Nat) : Str := if n == 1 then c!"file" else c!"files"

/-- `"was" if n == 1 else "were"`. -/
def fileVerb (n : Nat) : Str := if n == 1 then c!"was" else c!"were"

/-- The closing message, /repo/markflow/__main__.py:308-331. -/
def summary (check : Bool) (changed unchanged : Nat) : Str :=
  pyJoin [' '] <|
    if check then
      (if changed != 0 then
        [c!"**" ++ natStr changed ++ [' '] ++ fileWord changed ++ c!" would be reformatted.**"] else []) ++
      (if unchanged != 0 then
        [natStr unchanged ++ [' '] ++ fileWord unchanged ++ c!" would be left unchanged."] else [])
    else
      (if changed != 0 then
        [c!"**" ++ natStr changed ++ [' '] ++ fileWord changed ++ [' '] ++ fileVerb changed ++ c!" reformatted.**"]
       else []) ++
      (if unchanged != 0 then
        [natStr unchanged ++ [' '] ++ fileWord unchanged ++ [' '] ++ fileVerb unchanged ++ c!" left unchanged."]
       else [])

/-- /repo/markflow/__main__.py:269-332 `_reformat_files`; the value is the return value. -/
def reformatFiles (F : Formatter) (canWrite : Path → Bool) (args : Args) (width : Width) (d : Disk) : Res Nat :=
  match filesLoop F canWrite args width { disk := d, ops := [], out := [] } 0 0
      (args.paths.zip (outputPaths args)) with
  | (r, .error e) => (r, .error e)
  | (r, .ok (changed, unchanged)) =>
    let r := say r c!"All done!"
    let r := say r (summary args.check changed unchanged)
    (r, .ok (if args.check && changed != 0 then 1 else 0))

/-- /repo/markflow/__main__.py:335-361 `_reformat_stdin` with `_print_renders` (259-266). `text` is what
`stdin.read()` returns. The warning for output options goes to the log. -/
def reformatStdin (F : Formatter) (args : Args) (width : Width) (text : Str) (r : Run) : Res Nat :=
  match F.full width text with
  | .error e =>
    if e.isRuntimeError && args.writeRenders && e == .inconsistent then
      match F.pass width text with
      | .error e' => (r, .error (.fmt e' none))
      | .ok first =>
        let r := say r (first ++ ['\n'])
        match F.pass width first with
        | .error e' => (r, .error (.fmt e' none))
        | .ok second => (say r (second ++ ['\n']), .error (.fmt e none))
    else (r, .error (.fmt e none))
  | .ok new =>
    if args.check then
      if new != text then (say r c!"STDIN would be reformatted.", .ok 1)
      else (say r c!"STDIN would be unchanged.", .ok 0)
    else (say r new, .ok 0)

/-- Line length as a width, /repo/markflow/__main__.py:367-368. -/
def mainWidth (lineLength : Int) : Width := if lineLength < 1 then .inf else .fin lineLength

/-- /repo/markflow/__main__.py:364-377 `main` after argument parsing. `stdin` is `none` when standard input is a
terminal. -/
def mainRun (F : Formatter) (canWrite : Path → Bool) (args : Args) (stdin : Option Str) (d : Disk) : Res Nat :=
  let width := mainWidth args.lineLength
  if args.paths.isEmpty then
    match stdin with
    | none => (say { disk := d, ops := [], out := [] } c!"**No path provided. Nothing to do.**", .ok 0)
    | some text => reformatStdin F args width text { disk := d, ops := [], out := [] }
  else reformatFiles F canWrite args width d

/-- Exit status of the process, /repo/markflow/__main__.py:380-385: the returned value, -1 (255) for a
MarkdownFormatException, 1 for any other uncaught exception (Python's default). -/
def exitStatus : Except CliErr Nat → Nat
  | .ok n => n
  | .error (.fmt (.format _ _ _) _) => 255
  | .error _ => 1

end MF
