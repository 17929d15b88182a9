import Verif.Model.Cli
/-!
# The command line on files of bytes

`Model/Cli.lean` has the contents of files as texts. Here they are bytes, and `read_text` and `write_text` decode and encode
them. The encoding is a parameter (`Codec`); `utf8` is the usual one. The functions are those of `Model/Cli.lean`, line by
line, with other ways to read and to write. Standard input is what `stdin.read()` returns, and what is printed is a list of
texts, as there.
-/

namespace MF

abbrev Bytes := List UInt8

/-- An encoding with Python's error handling "strict": what cannot be decoded or encoded raises UnicodeDecodeError or
UnicodeEncodeError, here `none`. -/
structure Codec where
  decode : Bytes → Option Str
  encode : Str → Option Bytes

/-- Contents of files as stored; `none` for a path that cannot be read. -/
abbrev ByteDisk := Path → Option Bytes

/-- As `Op`, with bytes. -/
inductive ByteOp where
  | trunc (p : Path)
  | append (p : Path) (b : UInt8)
  deriving DecidableEq, Repr

def ByteOp.apply : ByteOp → ByteDisk → ByteDisk
  | .trunc p, d => fun q => if q = p then some [] else d q
  | .append p b, d => fun q => if q = p then (d q).map (· ++ [b]) else d q

def applyBytes (d : ByteDisk) (ops : List ByteOp) : ByteDisk := ops.foldl (fun d op => op.apply d) d

/-- Writing bytes to a file that has been opened with mode "w". -/
def writeBytes (p : Path) (b : Bytes) : List ByteOp := .trunc p :: b.map (.append p)

/-- Exceptions: those of `CliErr`, UnicodeDecodeError when reading a file and UnicodeEncodeError when writing one. Both are
ValueErrors, which nothing catches. -/
inductive ByteErr where
  | cli (e : CliErr)
  | undecodable (p : Path)
  | unencodable (p : Path)
  deriving DecidableEq, Repr

structure ByteRun where
  disk : ByteDisk
  ops : List ByteOp
  out : List Str

abbrev ByteRes (α : Type) := ByteRun × Except ByteErr α

/-- `path.read_text()`: the whole file is decoded, then line ends are translated. -/
def readTextB (K : Codec) (d : ByteDisk) (p : Path) : Except ByteErr Str :=
  match d p with
  | none => .error (.cli (.os p))
  | some b =>
    match K.decode b with
    | none => .error (.undecodable p)
    | some s => .ok (univNewlines s)

/-- `path.write_text(s)`: the file is opened, and thereby emptied, before the text is encoded. -/
def doWriteB (K : Codec) (canWrite : Path → Bool) (r : ByteRun) (p : Path) (s : Str) : ByteRes Unit :=
  if canWrite p then
    match K.encode s with
    | some b => ({ r with disk := applyBytes r.disk (writeBytes p b), ops := r.ops ++ writeBytes p b }, .ok ())
    | none => ({ r with disk := applyBytes r.disk [.trunc p], ops := r.ops ++ [.trunc p] }, .error (.unencodable p))
  else (r, .error (.cli (.os p)))

def sayB (r : ByteRun) (s : Str) : ByteRun := { r with out := r.out ++ [s] }

/-- /repo/markflow/__main__.py:238-256 `_write_renders`. -/
def writeRendersB (K : Codec) (F : Formatter) (canWrite : Path → Bool) (width : Width) (input output : Path)
    (r : ByteRun) : ByteRes Unit :=
  match readTextB K r.disk input with
  | .error e => (r, .error e)
  | .ok text =>
    match F.pass width text with
    | .error e => (r, .error (.cli (.fmt e none)))
    | .ok first =>
      match doWriteB K canWrite r (renderPaths output).1 first with
      | (r, .error e) => (r, .error e)
      | (r, .ok ()) =>
        match F.pass width first with
        | .error e => (r, .error (.cli (.fmt e none)))
        | .ok second => doWriteB K canWrite r (renderPaths output).2 second

/-- Loop body of `_reformat_files`, /repo/markflow/__main__.py:279-305. -/
def stepFileB (K : Codec) (F : Formatter) (canWrite : Path → Bool) (args : Args) (width : Width) (r : ByteRun)
    (input output : Path) : ByteRes Bool :=
  match readTextB K r.disk input with
  | .error e => (r, .error e)
  | .ok old =>
    match F.full width old with
    | .error e =>
      if e.isRuntimeError then
        if args.writeRenders && e == .inconsistent then
          match writeRendersB K F canWrite width input output r with
          | (r, .error e') => (r, .error e')
          | (r, .ok ()) => (r, .error (.cli (.fmt e (some input))))
        else (r, .error (.cli (.fmt e (some input))))
      else (r, .error (.cli (.fmt e none)))
    | .ok new =>
      if new != old then
        if !args.check then
          match doWriteB K canWrite r output new with
          | (r, .error e) => (r, .error e)
          | (r, .ok ()) => (sayB r (c!"**reformatted " ++ pathStr input ++ c!"**"), .ok true)
        else (sayB r (c!"would reformat " ++ pathStr input), .ok true)
      else if output != input then
        match doWriteB K canWrite r output new with
        | (r, .error e) => (r, .error e)
        | (r, .ok ()) => (r, .ok false)
      else (r, .ok false)

/-- Loop of `_reformat_files`, /repo/markflow/__main__.py:279-305. -/
def filesLoopB (K : Codec) (F : Formatter) (canWrite : Path → Bool) (args : Args) (width : Width) :
    ByteRun → Nat → Nat → List (Path × Path) → ByteRes (Nat × Nat)
  | r, changed, unchanged, [] => (r, .ok (changed, unchanged))
  | r, changed, unchanged, (input, output) :: rest =>
    match stepFileB K F canWrite args width r input output with
    | (r, .error e) => (r, .error e)
    | (r, .ok true) => filesLoopB K F canWrite args width r (changed + 1) unchanged rest
    | (r, .ok false) => filesLoopB K F canWrite args width r changed (unchanged + 1) rest

/-- /repo/markflow/__main__.py:269-332 `_reformat_files`. -/
def reformatFilesB (K : Codec) (F : Formatter) (canWrite : Path → Bool) (args : Args) (width : Width) (d : ByteDisk) :
    ByteRes Nat :=
  match filesLoopB K F canWrite args width { disk := d, ops := [], out := [] } 0 0
      (args.paths.zip (outputPaths args)) with
  | (r, .error e) => (r, .error e)
  | (r, .ok (changed, unchanged)) =>
    let r := sayB r c!"All done!"
    let r := sayB r (summary args.check changed unchanged)
    (r, .ok (if args.check && changed != 0 then 1 else 0))

/-- /repo/markflow/__main__.py:335-361 `_reformat_stdin` with `_print_renders` (259-266). -/
def reformatStdinB (F : Formatter) (args : Args) (width : Width) (text : Str) (r : ByteRun) : ByteRes Nat :=
  match F.full width text with
  | .error e =>
    if e.isRuntimeError && args.writeRenders && e == .inconsistent then
      match F.pass width text with
      | .error e' => (r, .error (.cli (.fmt e' none)))
      | .ok first =>
        let r := sayB r (first ++ ['\n'])
        match F.pass width first with
        | .error e' => (r, .error (.cli (.fmt e' none)))
        | .ok second => (sayB r (second ++ ['\n']), .error (.cli (.fmt e none)))
    else (r, .error (.cli (.fmt e none)))
  | .ok new =>
    if args.check then
      if new != text then (sayB r c!"STDIN would be reformatted.", .ok 1)
      else (sayB r c!"STDIN would be unchanged.", .ok 0)
    else (sayB r new, .ok 0)

/-- /repo/markflow/__main__.py:364-377 `main` after argument parsing. -/
def mainRunB (K : Codec) (F : Formatter) (canWrite : Path → Bool) (args : Args) (stdin : Option Str) (d : ByteDisk) :
    ByteRes Nat :=
  let width := mainWidth args.lineLength
  if args.paths.isEmpty then
    match stdin with
    | none => (sayB { disk := d, ops := [], out := [] } c!"**No path provided. Nothing to do.**", .ok 0)
    | some text => reformatStdinB F args width text { disk := d, ops := [], out := [] }
  else reformatFilesB K F canWrite args width d

/-- /repo/markflow/__main__.py:380-385, as `exitStatus`. -/
def exitStatusB : Except ByteErr Nat → Nat
  | .ok n => n
  | .error (.cli (.fmt (.format _ _ _) _)) => 255
  | .error _ => 1

/-! ## UTF-8 -/

/-- A character from its number, if there is one: not a surrogate, and in the range of Unicode. -/
def charOf (n : Nat) : Option Char := if h : n.isValidChar then some (Char.ofNatAux n h) else none

/-- A byte in the middle of a character. -/
def contByte (b : UInt8) : Bool := 0x80 ≤ b.toNat && b.toNat < 0xC0

/-- The first character and what follows it. There are no overlong forms and no surrogates. -/
def utf8First : Bytes → Option (Char × Bytes)
  | [] => none
  | a :: r =>
    let a := a.toNat
    if a < 0x80 then (charOf a).map (·, r)
    else if 0xC2 ≤ a && a < 0xE0 then
      match r with
      | b :: r => if contByte b then (charOf ((a - 0xC0) * 0x40 + (b.toNat - 0x80))).map (·, r) else none
      | _ => none
    else if 0xE0 ≤ a && a < 0xF0 then
      match r with
      | b :: c :: r =>
        let n := (a - 0xE0) * 0x1000 + (b.toNat - 0x80) * 0x40 + (c.toNat - 0x80)
        if contByte b && contByte c && 0x800 ≤ n then (charOf n).map (·, r) else none
      | _ => none
    else if 0xF0 ≤ a then
      match r with
      | b :: c :: d :: r =>
        let n := (a - 0xF0) * 0x40000 + (b.toNat - 0x80) * 0x1000 + (c.toNat - 0x80) * 0x40 + (d.toNat - 0x80)
        if contByte b && contByte c && contByte d && 0x10000 ≤ n then (charOf n).map (·, r) else none
      | _ => none
    else none

/-- Character after character; `fuel` is the number of bytes. -/
def utf8Loop : Nat → Bytes → Option Str
  | _, [] => some []
  | 0, _ => none
  | fuel + 1, b =>
    match utf8First b with
    | none => none
    | some (c, r) => (utf8Loop fuel r).map (c :: ·)

/-- The codec "utf-8" of the standard library. -/
def utf8Decode (b : Bytes) : Option Str := utf8Loop b.length b

/-- The bytes of a character. -/
def utf8Char (c : Char) : Bytes :=
  let v := c.toNat
  let byte (n : Nat) : UInt8 := UInt8.ofNat n
  if v < 0x80 then [byte v]
  else if v < 0x800 then [byte (0xC0 + v / 0x40), byte (0x80 + v % 0x40)]
  else if v < 0x10000 then [byte (0xE0 + v / 0x1000), byte (0x80 + v / 0x40 % 0x40), byte (0x80 + v % 0x40)]
  else [byte (0xF0 + v / 0x40000), byte (0x80 + v / 0x1000 % 0x40), byte (0x80 + v / 0x40 % 0x40), byte (0x80 + v % 0x40)]

def utf8 : Codec := { decode := utf8Decode, encode := fun s => some (s.flatMap utf8Char) }

end MF
