import Verif.Model.Bytes
/-!
# The command line between pipes of bytes

`Model/Bytes.lean` has standard input as a text and what is printed as a list of texts. Here both are bytes: `sys.stdin.read()`
decodes and translates line ends as `read_text` does, and `print` encodes. Both streams have the encoding of the locale, with
the error handling "strict". What `rich` makes of a message is a parameter.
-/

namespace MF

/-- Exceptions: those of the formatter, UnicodeDecodeError and UnicodeEncodeError. -/
inductive PipeErr where
  | fmt (e : Err)
  | undecodable
  | unencodable
  deriving DecidableEq, Repr

/-- What has been printed, and a value or an exception. -/
abbrev PipeRes (α : Type) := Bytes × Except PipeErr α

/-- `print(s, end="")`: one write, which is encoded as a whole. -/
def printB (K : Codec) (out : Bytes) (s : Str) : PipeRes Unit :=
  match K.encode s with
  | some b => (out ++ b, .ok ())
  | none => (out, .error .unencodable)

/-- `print(s)`: the text and the line end are two writes. -/
def printlnB (K : Codec) (out : Bytes) (s : Str) : PipeRes Unit :=
  match printB K out s with
  | (out, .error e) => (out, .error e)
  | (out, .ok ()) => printB K out ['\n']

/-- /repo/markflow/__main__.py:259-266 `_print_renders`. -/
def printRendersB (K : Codec) (F : Formatter) (width : Width) (text : Str) : PipeRes Unit :=
  match F.pass width text with
  | .error e => ([], .error (.fmt e))
  | .ok first =>
    match printlnB K [] first with
    | (out, .error e) => (out, .error e)
    | (out, .ok ()) =>
      match F.pass width first with
      | .error e => (out, .error (.fmt e))
      | .ok second => printlnB K out second

/-- /repo/markflow/__main__.py:335-361 `_reformat_stdin`; `check`, `writeRenders` are the options of these names. -/
def pipeStdin (K : Codec) (F : Formatter) (render : Str → Str) (check writeRenders : Bool) (width : Width) (b : Bytes) :
    PipeRes Nat :=
  match K.decode b with
  | none => ([], .error .undecodable)
  | some s =>
    let old := univNewlines s
    match F.full width old with
    | .error e =>
      if e.isRuntimeError && writeRenders && e == .inconsistent then
        match printRendersB K F width old with
        | (out, .error e') => (out, .error e')
        | (out, .ok ()) => (out, .error (.fmt e))
      else ([], .error (.fmt e))
    | .ok new =>
      if check then
        if new != old then
          match printB K [] (render c!"STDIN would be reformatted.") with
          | (out, .error e) => (out, .error e)
          | (out, .ok ()) => (out, .ok 1)
        else
          match printB K [] (render c!"STDIN would be unchanged.") with
          | (out, .error e) => (out, .error e)
          | (out, .ok ()) => (out, .ok 0)
      else
        match printB K [] new with
        | (out, .error e) => (out, .error e)
        | (out, .ok ()) => (out, .ok 0)

/-- /repo/markflow/__main__.py:364-385 `main` without paths and with standard input that is no terminal. -/
def pipeRun (K : Codec) (F : Formatter) (render : Str → Str) (args : Args) (b : Bytes) : PipeRes Nat :=
  pipeStdin K F render args.check args.writeRenders (mainWidth args.lineLength) b

/-- /repo/markflow/__main__.py:380-385, as `exitStatus`. -/
def pipeStatus : Except PipeErr Nat → Nat
  | .ok n => n
  | .error (.fmt (.format _ _ _)) => 255
  | .error _ => 1

end MF
