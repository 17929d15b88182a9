import Verif.Model.Cli
/-!
# The version and the whole program: `get_version` and `__main__` of `markflow/__main__.py`
-/

namespace MF

/-- What `get_version` looks at: the text of `pyproject.toml` beside the package directory (`none` if there is no such
file), the name of the package directory, and the names beside it in the order of `iterdir()`. -/
structure Install where
  pyproject : Option Str
  name : Str
  siblings : List Str

/-- `[0-9.]` -/
def isVersionChar (c : Char) : Bool := isDigit c || c == '.'

/-- `PYPROJECT_VERSION_REGEX_STR`, /repo/markflow/__main__.py:28: `\s*version\s*=\s*\"(?P<version>[0-9.]+)\"\s*`. -/
def pyprojectVersionRx : Rx :=
  .seqs [.star (.chr isWs), .lit c!"version", .star (.chr isWs), .lit c!"=", .star (.chr isWs), .lit c!"\"",
    .grp 1 (.plus (.chr isVersionChar)), .lit c!"\"", .star (.chr isWs)]

/-- `SITE_PACKAGES_VERSION_REGEX_FORMAT_STR`, /repo/markflow/__main__.py:29-31:
`{install_name}-(?P<version>[0-9.]+)\.dist-info`. The name is that of a package directory, an identifier, so that no
character of it is special in a pattern. -/
def distInfoRx (name : Str) : Rx :=
  .seqs [.lit name, .lit c!"-", .grp 1 (.plus (.chr isVersionChar)), .lit c!".dist-info"]

/-- `for x in xs: match = regex.match(x); if match: return match.group("version")`,
/repo/markflow/__main__.py:40-43, 53-56. -/
def firstVersion (r : Rx) : List Str → Option Str
  | [] => none
  | x :: xs =>
    match r.match? x with
    | some m => m.group 1
    | none => firstVersion r xs

/-- /repo/markflow/__main__.py:34-58 `get_version`. -/
def getVersion (i : Install) : Except Err Str :=
  match i.pyproject with
  | some text =>
    match firstVersion pyprojectVersionRx (splitlines text) with
    | some v => .ok (v ++ c!" (development)")
    | none => .error .runtime
  | none =>
    match firstVersion (distInfoRx i.name) i.siblings with
    | some v => .ok v
    | none => .error .runtime

/-- `sys.exit(n)` as the status the parent process sees. -/
def osStatus (n : Int) : Nat := (n % 256).toNat

/-- The process, /repo/markflow/__main__.py:66, 129-134, 364-385: `parse_args` computes the version before anything
else (the text of `--version` is made when the option is declared), then the arguments are checked, then the files are
formatted. The value is the exit status. -/
def program (F : Formatter) (canWrite : Path → Bool) (i : Install) (os : Os) (raw : RawArgs) (stdin : Option Str)
    (d : Disk) : Run × Nat :=
  match getVersion i with
  | .error _ => ({ disk := d, ops := [], out := [] }, 1)
  | .ok _ =>
    match parseArgs os raw with
    | .error n => ({ disk := d, ops := [], out := [] }, osStatus n)
    | .ok args => ((mainRun F canWrite args stdin d).1, exitStatus (mainRun F canWrite args stdin d).2)

end MF
