import Verif.Model.Basic
/-!
# Line predicates: `markflow/detectors/_lines.py`
-/

namespace MF

/-- `BULLET_LIST_START_REGEX`, /repo/markflow/detectors/_lines.py:13-20: `^\s*[*+-] `. -/
def bulletStartRx : Rx :=
  .seqs [.bol, .star (.chr isWs), .chr (fun c => c == '*' || c == '+' || c == '-'), .chr (· == ' ')]

/-- `ORDERED_LIST_START_REGEX`, /repo/markflow/detectors/_lines.py:21-26: `^\s*([0-9]+\.) `. -/
def orderedStartRx : Rx :=
  .seqs [.bol, .star (.chr isWs), .grp 1 (.seqs [.plus (.chr isDigit), .chr (· == '.')]), .chr (· == ' ')]

/-- /repo/markflow/detectors/_lines.py:109-123. -/
def isIndentedStart (line : Str) : Bool := !(strip line).isEmpty && getIndent line ≥ 4

/-- /repo/markflow/detectors/_lines.py:30-48. -/
def isAtx (line : Str) : Bool := !isIndentedStart line && startsWith (lstrip line) c!"#"

/-- /repo/markflow/detectors/_lines.py:51-65. -/
def isBlankLine (line : Str) : Bool := (strip line).isEmpty

/-- /repo/markflow/detectors/_lines.py:68-85. -/
def isQuote (line : Str) : Bool := !isIndentedStart line && startsWith (lstrip line) c!">"

/-- /repo/markflow/detectors/_lines.py:88-106, with `FENCED_CODE_BLOCK_FENCE_CHARACTERS` (line 12). -/
def isFenceStart (line : Str) : Bool :=
  ['`', '~'].any fun fence => startsWith (strip line) (List.replicate 3 fence)

/-- /repo/markflow/detectors/_lines.py:126-142. -/
def isOrderedStart (line : Str) : Bool := !isIndentedStart line && (orderedStartRx.search line).isSome

/-- /repo/markflow/detectors/_lines.py:145-163. -/
def isBulletStart (line : Str) : Bool := !isIndentedStart line && (bulletStartRx.search line).isSome

/-- /repo/markflow/detectors/_lines.py:198-220. -/
def isSetextUnderline (line : Str) : Bool :=
  !isIndentedStart line && !(strip line).isEmpty &&
    ((strip line).all (· == '=') || (strip line).all (· == '-'))

/-- /repo/markflow/detectors/_lines.py:223-239; also `table_started`, detectors/table.py:4-6. -/
def isTableStart (line : Str) : Bool := startsWith (lstrip line) c!"|"

/-- `"".join(line.split())`. -/
def spaceless (line : Str) : Str := (splitWs line).flatten

/-- /repo/markflow/detectors/_lines.py:242-255, with `THEMATIC_BREAK_CHARACTERS` (line 27). -/
def isThematic (line : Str) : Bool :=
  if isIndentedStart line then false
  else
    let s := spaceless line
    if s.length < 3 then false
    else ['*', '_', '-'].any fun symbol => (strip s).all (· == symbol)

/-- /repo/markflow/detectors/_lines.py:166-195. -/
def isParStart (line : Str) : Bool :=
  ![isIndentedStart, isAtx, isBlankLine, isBulletStart, isQuote, isFenceStart, isOrderedStart, isTableStart,
    isThematic].any fun checker => checker line

end MF
