import Verif.Model.Basic
/-!
# Logging state: `redirect_info_logs_to_debug` and the level juggling of `reformat_markdown_text`

What the formatter does between the two ends of a redirection is abstracted to a tree of nested redirections and
possible exceptions, so theorems hold whatever the formatter does.
-/

namespace MF

/-- The logging state markflow touches: the global `logging.INFO`, the level set on the logger of
`markflow.reformat_markdown` (0 is NOTSET) and the effective level of its parent. -/
structure LogSt where
  info : Nat
  own : Nat
  parent : Nat
  deriving DecidableEq, Repr

/-- `logging.DEBUG`, `logging.INFO`, `logging.WARNING`, `logging.ERROR`, `logging.CRITICAL` of the standard library. -/
def DEBUG : Nat := 10
def INFO : Nat := 20
def WARNING : Nat := 30
def ERROR : Nat := 40
def CRITICAL : Nat := 50

/-- `logger.getEffectiveLevel()` of the standard library: the own level if set, else the parent's. -/
def LogSt.effective (st : LogSt) : Nat := if st.own == 0 then st.parent else st.own

/-- What code does, as far as logging state is concerned: nothing, raise an exception, run a body inside
`with redirect_info_logs_to_debug():`, or run two pieces one after the other. -/
inductive Act where
  | skip
  | raise
  | redirect (body : Act)
  | seq (a b : Act)
  deriving DecidableEq, Repr

/-- Runs an action; the Boolean says whether it finished without an exception. `redirect` is
/repo/markflow/_utils/_utils.py:29-34: there is no `try`/`finally`, so the restoring assignment after `yield` is
skipped when the body raises. -/
def Act.run : Act → LogSt → Bool × LogSt
  | .skip, st => (true, st)
  | .raise, st => (false, st)
  | .redirect body, st =>
    let old := st.info
    let r := body.run { st with info := DEBUG }
    if r.1 then (true, { r.2 with info := old }) else (false, r.2)
  | .seq a b, st =>
    let r := a.run st
    if r.1 then b.run r.2 else (false, r.2)

/-- Logging side of `reformat_markdown_text`, /repo/markflow/reformat_markdown.py:89-95, for arbitrary first and second
passes. -/
def reformatLog (pass1 pass2 : Act) (st : LogSt) : Bool × LogSt :=
  let r1 := pass1.run st
  if !r1.1 then (false, r1.2)
  else
    let st := r1.2
    let level := st.effective
    let st := if level > DEBUG then { st with own := ERROR } else st
    let r2 := pass2.run st
    if !r2.1 then (false, r2.2)
    else (true, { r2.2 with own := level })

end MF
