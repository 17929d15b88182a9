import Verif.Model.Reformat
import Verif.Model.Log
/-!
# Argument checking: `markflow/_argparse.py` and `parse_args`

The model in this file starts from the option values that the standard library's `argparse` collects; how it collects them
is modelled in `Model/Argv.lean`.
-/

namespace MF

/-- A path as its list of components. `p.name` is the last one, `p.parent` drops it, `d / n` appends one. Two paths
denote the same file exactly when they are equal: links, `..`, relative spellings and case folding are not modelled. -/
abbrev Path := List Str

def pathName (p : Path) : Str := p.getLastD []
def pathParent (p : Path) : Path := p.dropLast
def pathJoin (d : Path) (name : Str) : Path := d ++ [name]

/-- `Permission`, /repo/markflow/_argparse.py:9-17. -/
inductive Perm where
  | execute | read | write
  deriving DecidableEq, Repr

/-- What the operating system says about paths: `path.is_file()`, `path.is_dir()`, other existing objects,
`os.access`, and the result of `glob.glob(str(path / "**" / "*.md"), recursive=True)`. -/
structure Os where
  isFile : Path → Bool
  isDir : Path → Bool
  isOther : Path → Bool
  access : Path → Perm → Bool
  glob : Path → List Path

/-- `path.exists()`. -/
def Os.exists (os : Os) (p : Path) : Bool := os.isFile p || os.isDir p || os.isOther p

/-- /repo/markflow/_argparse.py:20-30 `ExistingPath`; the permissions are stored and never looked at. `none` is
ArgumentTypeError. -/
def existingPath (os : Os) (_perms : List Perm) (p : Path) : Option Path :=
  if !os.exists p then none else some p

/-- /repo/markflow/_argparse.py:33-56 `Directory`. -/
def directoryArg (os : Os) (perms : List Perm) (mustExist : Bool) (p : Path) : Option Path :=
  if os.exists p then
    if !os.isDir p then none
    else if perms.any fun perm => !os.access p perm then none
    else some p
  else if mustExist then none
  else some p

/-- /repo/markflow/_argparse.py:59-94 `File`. -/
def fileArg (os : Os) (perms : List Perm) (mustExist : Bool) (p : Path) : Option Path :=
  if os.exists p then
    if os.isDir p then none
    else if perms.any fun perm => !os.access p perm then none
    else some p
  else if mustExist then none
  else if !os.isDir (pathParent p) then none
  else if perms.any fun perm => !os.access (pathParent p) perm then none
  else some p

/-- /repo/markflow/_argparse.py:110-127 `AddMarkdownFilesInDirOrPathsAction.__call__`. -/
def expandPaths (os : Os) (values : List Path) : List Path :=
  values.flatMap fun v => if os.isFile v then [v] else os.glob v

/-- Option values as `argparse` collects them, before type conversion of paths. -/
structure RawArgs where
  lineLength : Int := 88
  paths : List Path := []
  check : Bool := false
  verbose : Nat := 0
  quiet : Nat := 0
  developerHelp : Bool := false
  outputDirectory : Option Path := none
  outputFiles : List Path := []
  writeRenders : Bool := false

/-- The namespace `parse_args` returns. -/
structure Args where
  lineLength : Int
  paths : List Path
  check : Bool
  outputDirectory : Option Path
  outputFiles : List Path
  writeRenders : Bool
  /-- level given to `logging.basicConfig` -/
  logLevel : Nat
  deriving DecidableEq, Repr

/-- `logging_levels`, /repo/markflow/__main__.py:190-196. -/
def loggingLevels : List Nat := [DEBUG, INFO, WARNING, ERROR, CRITICAL]

/-- /repo/markflow/__main__.py:198-199 `verbosity`. `logging_levels.index(logging.ERROR)` is 3. -/
def verbosity (verbose quiet : Nat) : Int := max 0 (min ((3 : Int) - verbose + quiet) (loggingLevels.length - 1))

/-- `logging_levels[verbosity]`, /repo/markflow/__main__.py:202. -/
def logLevel (verbose quiet : Nat) : Option Nat := loggingLevels[(verbosity verbose quiet).toNat]?

/-- /repo/markflow/__main__.py:66-235 `parse_args`. The error is the exit status: 2 when `argparse` rejects an
argument (standard library), -1 for `sys.exit(-1)`. -/
def parseArgs (os : Os) (raw : RawArgs) : Except Int Args :=
  if raw.paths.any fun p => (existingPath os [.read] p).isNone then .error 2
  else if raw.outputDirectory.any fun p => (directoryArg os [.write] true p).isNone then .error 2
  else if raw.outputFiles.any fun p => (fileArg os [.write] false p).isNone then .error 2
  -- mutually exclusive group
  else if raw.outputDirectory.isSome && !raw.outputFiles.isEmpty then .error 2
  else
    let paths := expandPaths os raw.paths
    if raw.developerHelp then .error (-1)
    else if !raw.outputFiles.isEmpty && paths.length != raw.outputFiles.length then .error (-1)
    else if raw.outputFiles.isEmpty && raw.outputDirectory.isNone && !raw.check &&
        paths.any fun p => (fileArg os [.write] false p).isNone then .error (-1)
    else
      .ok { lineLength := raw.lineLength, paths := paths, check := raw.check,
            outputDirectory := raw.outputDirectory, outputFiles := raw.outputFiles,
            writeRenders := raw.writeRenders, logLevel := (logLevel raw.verbose raw.quiet).getD ERROR }

end MF
