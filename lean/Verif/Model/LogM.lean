import Verif.Model.Log
import Verif.Model.Detect
/-!
# Code that logs

The monad of the models with log messages. A message is shown if its level is at least the level of its logger. The loggers of
`markflow.parser`, `markflow.detectors.*` and `markflow.formatters.*` have no level of their own.
-/

namespace MF

/-- Log messages. -/
inductive Msg where
  /-- /repo/markflow/reformat_markdown.py:53-57, `Line(s) first-last: repr`, and the level it is logged at -/
  | sect (level first last : Nat) (ty : Sec) (lines : List Str)
  /-- /repo/markflow/reformat_markdown.py:62-64, a warning -/
  | added (line : Nat)
  /-- /repo/markflow/formatters/atx_heading.py:62-66, a warning -/
  | noSpace (line : Nat)
  /-- /repo/markflow/parser.py:65-74, `Line(s) first-last: kind`, a debug message -/
  | found (first last : Nat) (ty : Sec)
  /-- /repo/markflow/detectors/fenced_code_block.py:133-137, a warning -/
  | overIndented (line : Nat)
  /-- /repo/markflow/detectors/link_reference_definition.py:103-107, a warning -/
  | noLink (line : Nat)
  deriving DecidableEq, Repr

/-- Logging state, and the messages shown so far. -/
structure LSt extends LogSt where
  shown : List Msg
  deriving DecidableEq, Repr

/-- Code that logs and may raise. -/
def LogM (α : Type) : Type := LSt → Except Err α × LSt

instance : Monad LogM where
  pure a := fun s => (.ok a, s)
  bind m f := fun s => match m s with
    | (.ok a, s') => f a s'
    | (.error e, s') => (.error e, s')

/-- Code without messages. -/
def lift {α : Type} (x : Except Err α) : LogM α := fun s => (x, s)

/-- `Logger.info`, `Logger.warning` of the standard library on the logger of `markflow.reformat_markdown`: the message is
shown if its level is at least the effective level. -/
def logOwn (level : LSt → Nat) (m : LSt → Msg) : LogM Unit := fun s =>
  (.ok (), if level s ≥ s.effective then { s with shown := s.shown ++ [m s] } else s)

/-- The same on a logger whose level the program never sets, so that it has the parent's level. -/
def logOther (level : Nat) (m : Msg) : LogM Unit := fun s =>
  (.ok (), if level ≥ s.parent then { s with shown := s.shown ++ [m] } else s)

/-- `with redirect_info_logs_to_debug():`, /repo/markflow/_utils/_utils.py:29-34. -/
def redirected {α : Type} (m : LogM α) : LogM α := fun s =>
  match m { s with info := DEBUG } with
  | (.ok a, s') => (.ok a, { s' with info := s.info })
  | (.error e, s') => (.error e, s')

/-- `if b: m`. -/
def logIf (b : Bool) (m : LogM Unit) : LogM Unit := if b then m else pure ()

end MF
