import Verif.Model.Detect
/-!
# The `append` methods and the default constructor of the formatters
-/

namespace MF

/-- The lines of a formatter made without lines, /repo/markflow/formatters/base.py:10-14. -/
def newLines : List Str := []

/-- RuntimeError, and AttributeError for a missing method. -/
inductive AppendErr where
  | runtime
  | attribute
  deriving DecidableEq, Repr

/-- `append` of the formatter classes: the lines after adding one. /repo/markflow/formatters/atx_heading.py:49-55,
blank_line.py:19-31, thematic_break.py:32-35; `MarkdownOrderedList` (lists.py:150-193) and its base class
have no such method; the other classes add the line unconditionally: block_quote.py:35-36, fenced_code_block.py:68-69,
indented_code_block.py:37-38, link_reference_definition.py:80-81, lists.py:115-116, paragraph.py:17-18,
setext_heading.py:54-55, table.py:39-40. -/
def appendLine (ty : Sec) (lines : List Str) (line : Str) : Except AppendErr (List Str) :=
  match ty with
  | .atx | .thematic => if !lines.isEmpty then .error .runtime else .ok (lines ++ [line])
  | .blank =>
    if !(strip line).isEmpty then .error .runtime
    else if !lines.isEmpty then .error .runtime
    else .ok (lines ++ [line])
  | .ordered => .error .attribute
  | _ => .ok (lines ++ [line])

/-- `for line in more: formatter.append(line)`. -/
def appendLines (ty : Sec) (lines : List Str) : List Str → Except AppendErr (List Str)
  | [] => .ok lines
  | l :: ls => do
    let lines ← appendLine ty lines l
    appendLines ty lines ls

end MF
