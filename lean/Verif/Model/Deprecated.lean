import Verif.Model.Detect
/-!
# The two deprecated functions of the fenced code block detector

/repo/markflow/detectors/fenced_code_block.py:34-94. They share two module variables, which are a parameter and a result here.
-/

namespace MF

/-- `__LAST_FENCE` and `__LAST_FENCE_INDEX`, lines 35-36. -/
structure FenceMem where
  fence : Str
  index : Int
  deriving DecidableEq, Repr

/-- Their values at the start, lines 35-36, and after the end of a block, lines 91-92. -/
def FenceMem.none : FenceMem := ⟨[], -1⟩

/-- `lines[i]` of Python, where negative indices count from the end. -/
def pyGet (lines : List Str) (i : Int) : Except Err Str :=
  match lines[(if i < 0 then lines.length + i else i).toNat]? with
  | some l => if (if i < 0 then lines.length + i else i) < 0 then .error .indexError else .ok l
  | Option.none => .error .indexError

/-- `fenced_code_block_started`, lines 39-50. -/
def fencedStarted (m : FenceMem) (line : Str) (index : Int) : Bool × FenceMem :=
  match ['`', '~'].find? fun fence => startsWith (strip line) (List.replicate 3 fence) with
  | some fence =>
    (true, ⟨List.replicate ((strip line).length - (lstripBy (· == fence) (strip line)).length) fence, index⟩)
  | Option.none => (false, m)

/-- The line numbers of the warning in lines 65-77 and 84-90: `line` starts with the fence and is indented more than three columns deeper than
the line that opened it. -/
def fenceWarning (m : FenceMem) (opening line : Str) (index : Int) : List Int :=
  if startsWith (strip line) m.fence && decide (getIndent line > 3 + getIndent opening) then [index + 1] else []

/-- `fenced_code_block_ended`, lines 53-94: the outcome, the module variables afterwards, and the line numbers in its warnings. -/
def fencedEnded (m : FenceMem) (line : Str) (index : Int) (lines : List Str) : Except Err Bool × FenceMem × List Int :=
  if m.fence.isEmpty then (.error .runtime, m, [])
  else
    match (if index + 1 = lines.length then (pyGet lines m.index).map (fenceWarning m · line index) else .ok []) with
    | .error e => (.error e, m, [])
    | .ok warned =>
      if index - 1 = m.index then (.ok false, m, warned)
      else
        match pyGet lines (index - 1) with
        | .error e => (.error e, m, warned)
        | .ok lastLine =>
          if startsWith (strip lastLine) m.fence then
            match pyGet lines m.index with
            | .error e => (.error e, m, warned)
            | .ok opening => (.ok true, .none, warned ++ fenceWarning m opening lastLine index)
          else (.ok false, m, warned)

end MF
