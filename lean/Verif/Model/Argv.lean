import Verif.Model.Version
/-!
# From the command line to option values: `argparse` for the options of `parse_args`

The options are those of /repo/markflow/__main__.py:67-186. The algorithm is the one of the standard library's
`argparse.ArgumentParser` in CPython 3.11.10 (`parse_args`, `_parse_known_args`, `_parse_optional`, `_get_option_tuples`,
`_get_values`), written for this set of options: one positional argument with `nargs="*"`, options without or with exactly
one argument, one mutually exclusive group. The texts of messages are not modelled.
-/

namespace MF

/-- What is taken from Python as it is: the regex class `\d`, `int(s)` (`none` is ValueError), and `pathlib.Path(s)`. -/
structure PyFns where
  digit : Char → Bool
  int : Str → Option Int
  path : Str → Path

/-- The options, /repo/markflow/__main__.py:82-186. -/
inductive Opt where
  | help | lineLength | check | verbose | quiet | version | developerHelp | outputDirectory | outputFile | writeRenders
  deriving DecidableEq, Repr

/-- `_option_string_actions`, in the order of /repo/markflow/__main__.py:82-186. -/
def optStrings : List (Str × Opt) :=
  [(c!"-h", .help), (c!"--help", .help), (c!"--line-length", .lineLength), (c!"--check", .check), (c!"-v", .verbose),
   (c!"--verbose", .verbose), (c!"-q", .quiet), (c!"--quiet", .quiet), (c!"--version", .version),
   (c!"--dev-help", .developerHelp), (c!"--developer-help", .developerHelp), (c!"--output-dir", .outputDirectory),
   (c!"--output-directory", .outputDirectory), (c!"--output-file", .outputFile), (c!"--write-renders", .writeRenders)]

/-- Whether the option takes an argument; it takes exactly one then. -/
def Opt.hasArg : Opt → Bool
  | .lineLength | .outputDirectory | .outputFile => true
  | _ => false

/-- `self._option_string_actions.get(s)`. -/
def findOpt (s : Str) : Option Opt := (optStrings.find? (·.1 == s)).map (·.2)

/-- `s.partition("=")`: the text before the first `=`, and the text behind it if there is one. -/
def partitionEq (s : Str) : Str × Option Str :=
  (s.takeWhile (· != '='), match s.dropWhile (· != '=') with
    | [] => none
    | _ :: rest => some rest)

/-- An option as `_parse_optional` finds it: the option (`none` for an unknown one), whether its text has a single dash,
whether the argument is behind `=`, and that argument. -/
structure OptTuple where
  opt : Option Opt
  short : Bool
  sep : Bool
  arg : Option Str
  deriving DecidableEq, Repr

/-- `_negative_number_matcher`: `^-\d+$|^-\d*\.\d+$`. -/
def negativeRx (digit : Char → Bool) : Rx :=
  .alt (.seqs [.bol, .chr (· == '-'), .plus (.chr digit), .eol])
    (.seqs [.bol, .chr (· == '-'), .star (.chr digit), .chr (· == '.'), .plus (.chr digit), .eol])

/-- Whether an option string has a single dash: `option_string[1] not in "-"`. -/
def isShort (s : Str) : Bool := s.drop 1 |>.head? |>.any (· != '-')

/-- `_get_option_tuples`: the options that a text, which is at least two characters long and begins with a dash, may mean. -/
def optionTuples (s : Str) : List OptTuple :=
  if !isShort s then
    let p := partitionEq s
    (optStrings.filter fun x => startsWith x.1 p.1).map fun x => ⟨some x.2, isShort x.1, p.2.isSome, p.2⟩
  else
    optStrings.filterMap fun x =>
      if x.1 == s.take 2 then some ⟨some x.2, isShort x.1, false, some (s.drop 2)⟩
      else if startsWith x.1 s then some ⟨some x.2, isShort x.1, false, none⟩
      else none

/-- `_parse_optional`: `none` for a text that is an argument; the error is the exit status for an ambiguous option. -/
def parseOptional (py : PyFns) (s : Str) : Except Int (Option OptTuple) :=
  if !startsWith s ['-'] then .ok none
  else
    match findOpt s with
    | some o => .ok (some ⟨some o, isShort s, false, none⟩)
    | none =>
      if s.length == 1 then .ok none
      else
        let p := partitionEq s
        match p.2, findOpt p.1 with
        | some arg, some o => .ok (some ⟨some o, isShort p.1, true, some arg⟩)
        | _, _ =>
          match optionTuples s with
          | _ :: _ :: _ => .error 2
          | [t] => .ok (some t)
          | [] =>
            if ((negativeRx py.digit).match? s).isSome then .ok none
            else if s.contains ' ' then .ok none
            else .ok (some ⟨none, isShort s, false, none⟩)

/-- An entry of the command line: an argument, `--`, or an option; `A`, `-` and `O` of `arg_strings_pattern`. -/
inductive ArgTok where
  | arg (s : Str)
  | dashes
  | opt (t : OptTuple)
  deriving DecidableEq, Repr

/-- The first loop of `_parse_known_args`: everything behind `--` is an argument. -/
def classify (py : PyFns) : List Str → Except Int (List ArgTok)
  | [] => .ok []
  | s :: rest =>
    if s == c!"--" then .ok (.dashes :: rest.map .arg)
    else do
      let t ← parseOptional py s
      let ts ← classify py rest
      .ok ((match t with
        | none => .arg s
        | some t => .opt t) :: ts)

/-- How the options of one entry end, see `cluster`. -/
inductive Last where
  /-- an option with its argument, given in the same entry -/
  | arg (o : Opt) (s : Str)
  /-- an option that has no argument in the same entry -/
  | next (o : Opt)
  /-- text that is no option: goes to `extras` -/
  | unknown
  deriving DecidableEq, Repr

/-- The loop of `consume_optional` for an option `o` with an explicit argument: options of one dash without arguments may be
written together. The result is the options before the last one, and the last one. -/
def cluster (short : Bool) : Opt → Bool → Str → Except Int (List Opt × Last)
  | o, _, [] => if o.hasArg then .ok ([], .arg o []) else .error 2
  | o, sep, c :: cs =>
    if o.hasArg then .ok ([], .arg o (c :: cs))
    else if !short then .error 2
    else if sep || c == '-' then .error 2
    else
      match findOpt ['-', c] with
      | none => .ok ([o], .unknown)
      | some o' =>
        match cs with
        | [] => .ok ([o], .next o')
        | d :: ds => do
          let r ← if d == '=' then cluster short o' true ds else cluster short o' false (d :: ds)
          .ok (o :: r.1, r.2)

/-- State of the parser: the values so far, whether `paths` has got its arguments, whether there are `extras`. -/
structure ArgSt where
  raw : RawArgs := {}
  taken : Bool := false
  extras : Bool := false

/-- `take_action` for an option. The error is the exit status: 0 for `--help` and `--version`, 2 for a refused argument. -/
def takeOpt (py : PyFns) (os : Os) (st : ArgSt) (o : Opt) (arg : Str) : Except Int ArgSt :=
  match o with
  | .help | .version => .error 0
  | .check => .ok { st with raw.check := true }
  | .verbose => .ok { st with raw.verbose := st.raw.verbose + 1 }
  | .quiet => .ok { st with raw.quiet := st.raw.quiet + 1 }
  | .developerHelp => .ok { st with raw.developerHelp := true }
  | .writeRenders => .ok { st with raw.writeRenders := true }
  | .lineLength =>
    match py.int arg with
    | none => .error 2
    | some n => .ok { st with raw.lineLength := n }
  | .outputDirectory =>
    if (directoryArg os [.write] true (py.path arg)).isNone then .error 2
    else if !st.raw.outputFiles.isEmpty then .error 2
    else .ok { st with raw.outputDirectory := some (py.path arg) }
  | .outputFile =>
    if (fileArg os [.write] false (py.path arg)).isNone then .error 2
    else if st.raw.outputDirectory.isSome then .error 2
    else .ok { st with raw.outputFiles := st.raw.outputFiles ++ [py.path arg] }

/-- `take_action` for several options without arguments. -/
def takeOpts (py : PyFns) (os : Os) (st : ArgSt) : List Opt → Except Int ArgSt
  | [] => .ok st
  | o :: rest => do
    let st ← takeOpt py os st o []
    takeOpts py os st rest

/-- The arguments among some entries. -/
def argsOf (toks : List ArgTok) : List Str := toks.filterMap fun t => match t with
  | .arg s => some s
  | _ => none

/-- `take_action` for the positional argument; the first `--` is left out (`_get_values`). -/
def takePaths (py : PyFns) (os : Os) (st : ArgSt) (toks : List ArgTok) : Except Int ArgSt :=
  let paths := (argsOf toks).map py.path
  if paths.any fun p => (existingPath os [.read] p).isNone then .error 2
  else .ok { st with raw.paths := paths, taken := true }

/-- The end of `consume_optional` for an option without an argument in its entry: the argument is the next entry. -/
def takeNext (py : PyFns) (os : Os) (before : List Opt) (o : Opt) (st : ArgSt) (rest : List ArgTok) :
    Except Int (ArgSt × List ArgTok) :=
  if o.hasArg then
    match rest with
    | .arg s :: rest => do
      let st ← takeOpts py os st before
      let st ← takeOpt py os st o s
      .ok (st, rest)
    | _ => .error 2
  else do
    let st ← takeOpts py os st (before ++ [o])
    .ok (st, rest)

/-- `consume_optional`. -/
def consumeOptional (py : PyFns) (os : Os) (st : ArgSt) (t : OptTuple) (rest : List ArgTok) : Except Int (ArgSt × List ArgTok) :=
  match t.opt with
  | none => .ok ({ st with extras := true }, rest)
  | some o =>
    match t.arg with
    | none => takeNext py os [] o st rest
    | some arg => do
      let r ← cluster t.short o t.sep arg
      match r.2 with
      | .arg o s => do
        let st ← takeOpts py os st r.1
        let st ← takeOpt py os st o s
        .ok (st, rest)
      | .next o => takeNext py os r.1 o st rest
      | .unknown => do
        let st ← takeOpts py os st r.1
        .ok ({ st with extras := true }, rest)

def ArgTok.isOpt : ArgTok → Bool
  | .opt _ => true
  | _ => false

/-- The `while` loop of `_parse_known_args` and the call of `consume_positionals` behind it. The first run of arguments goes to
`paths`, later ones to `extras`. `fuel` bounds the number of iterations; `parseArgv` passes the number of entries. -/
def argLoop (py : PyFns) (os : Os) : Nat → ArgSt → List ArgTok → Except Int ArgSt
  | _, st, [] => if st.taken then .ok st else takePaths py os st []
  | 0, _, _ :: _ => .error 2
  | fuel + 1, st, .opt t :: rest => do
    let r ← consumeOptional py os st t rest
    argLoop py os fuel r.1 r.2
  | fuel + 1, st, t :: rest =>
    let toks := (t :: rest).takeWhile fun x => !x.isOpt
    let rest := (t :: rest).dropWhile fun x => !x.isOpt
    if st.taken then argLoop py os fuel { st with extras := true } rest
    else do
      let st ← takePaths py os st toks
      argLoop py os fuel st rest

/-- `parser.parse_args(argv)`, /repo/markflow/__main__.py:188. The error is the exit status. -/
def parseArgv (py : PyFns) (os : Os) (argv : List Str) : Except Int RawArgs := do
  let toks ← classify py argv
  let st ← argLoop py os toks.length {} toks
  if st.extras then .error 2 else .ok st.raw

/-- The process with its command line, /repo/markflow/__main__.py:380-385. The texts that `argparse` prints are not modelled. -/
def commandLine (F : Formatter) (canWrite : Path → Bool) (i : Install) (py : PyFns) (os : Os) (argv : List Str)
    (stdin : Option Str) (d : Disk) : Run × Nat :=
  match getVersion i with
  | .error _ => ({ disk := d, ops := [], out := [] }, 1)
  | .ok _ =>
    match parseArgv py os argv with
    | .error n => ({ disk := d, ops := [], out := [] }, osStatus n)
    | .ok raw => program F canWrite i os raw stdin d

end MF
