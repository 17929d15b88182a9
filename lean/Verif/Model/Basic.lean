import Verif.Py.Rx
/-!
# Errors, widths, small helpers

Models `markflow/exceptions.py`, `markflow/typing.py` and `markflow/_utils/_utils.py`.
-/

namespace MF

/-- Python exceptions that can leave the modelled code. `recursion` is RecursionError (a RuntimeError), raised by the
interpreter when the call stack gets too deep; the model raises it when its recursion budget is used up.
`inconsistent` and `format` are the classes of /repo/markflow/exceptions.py:1-9. -/
inductive Err where
  | recursion
  | stopIteration
  /-- RuntimeError("generator raised StopIteration"), PEP 479 -/
  | genStop
  | indexError
  | valueError
  /-- RuntimeError raised by markflow itself, other than the classes below -/
  | runtime
  /-- ReformatInconsistentException, a RuntimeError -/
  | inconsistent
  /-- MarkdownFormatException of a table: reported line, expected and actual number of columns -/
  | format (line expected actual : Nat)
  deriving DecidableEq, Repr

deriving instance DecidableEq for Except

/-- `isinstance(e, RuntimeError)`: what `except RuntimeError` catches (/repo/markflow/__main__.py:283, 345). -/
def Err.isRuntimeError : Err → Bool
  | .recursion | .genStop | .runtime | .inconsistent => true
  | _ => false

/-- `Number` of /repo/markflow/typing.py:9, restricted to what the program passes: an `int` or `math.inf`
(/repo/markflow/__main__.py:93, 368). Finite floats are not modelled. -/
inductive Width where
  | fin (n : Int)
  | inf
  deriving DecidableEq, Repr

/-- `width - k`. -/
def Width.sub : Width → Int → Width
  | .fin n, k => .fin (n - k)
  | .inf, _ => .inf

/-- `k <= width`. -/
def Width.ge : Width → Nat → Bool
  | .fin n, k => (k : Int) ≤ n
  | .inf, _ => true

/-- `width <= 0`. -/
def Width.nonpos : Width → Bool
  | .fin n => n ≤ 0
  | .inf => false

/-- /repo/markflow/_utils/_utils.py:14-15 `get_indent`. -/
def getIndent (line : Str) : Nat := line.length - (lstrip line).length

/-- /repo/markflow/_utils/_utils.py:11 `ELLIPSIS`. -/
def ellipsis : Str := c!"..."

/-- /repo/markflow/_utils/_utils.py:18-26 `truncate_str`, for a non-negative `length`
(all callers pass the constant 20). -/
def truncateStr (s : Str) (length : Nat) : Str :=
  if s.length ≤ length then s
  else if ellipsis.length ≥ length then List.replicate length '.'
  else
    let truncation := max 0 (length - ellipsis.length)
    s.take truncation ++ ellipsis

end MF
