import Verif.Model.Format
/-!
# `markflow/reformat_markdown.py`
-/

namespace MF

/-- A formatter object: line index, section type and lines. -/
structure Fmt where
  lineIndex : Nat
  ty : Sec
  lines : List Str
  deriving DecidableEq, Repr

/-- Loop of `_reformat_markdown_text`, /repo/markflow/reformat_markdown.py:50-71: the `formatters` list. -/
def buildFmts (lineIndex : Nat) (last : Option Sec) : List (Sec × List Str) → Except Err (List Fmt)
  | [] => .ok []
  | (ty, content) :: rest => do
    reprCheck ty content
    let fs ← buildFmts (lineIndex + content.length) (some ty) rest
    let f : Fmt := { lineIndex := lineIndex, ty := ty, lines := content }
    if ty == .setext && last == some .quote then
      .ok ({ lineIndex := lineIndex, ty := .blank, lines := [[]] } :: f :: fs)
    else .ok (f :: fs)

/-- An exception leaving a generator expression: StopIteration becomes RuntimeError (PEP 479). -/
def genError : Err → Err
  | .stopIteration => .genStop
  | e => e

/-- `[f.reformatted(width) for f in formatters]` as consumed by the `join` of
/repo/markflow/reformat_markdown.py:73. -/
def fmtAll (sub : Width → Str → Except Err Str) (width : Width) : List Fmt → Except Err (List Str)
  | [] => .ok []
  | f :: fs => do
    let t ← (fmtSection sub width f.lineIndex f.ty f.lines).mapError genError
    let ts ← fmtAll sub width fs
    .ok (t :: ts)

/-- Body of `_reformat_markdown_text`, /repo/markflow/reformat_markdown.py:44-73. Nested calls always use
`line_index=0`, as does the program's outermost call, so the argument is left out. -/
def reformatBody (prs : List Str → Except Err (List (Sec × List Str))) (sub : Width → Str → Except Err Str)
    (width : Width) (text : Str) : Except Err Str := do
  let sections ← prs (splitlines text)
  let fmts ← buildFmts 0 none sections
  let parts ← fmtAll sub width fmts
  .ok (pyJoin ['\n'] parts ++ ['\n'])

/-- /repo/markflow/reformat_markdown.py:44-73 `_reformat_markdown_text` with a recursion budget; it re-enters itself
through the list and block quote formatters. -/
def reformatText : Nat → Width → Str → Except Err Str
  | 0, _, _ => .error .recursion
  | n + 1, width, text => reformatBody (parse n) (reformatText n) width text

/-- /repo/markflow/reformat_markdown.py:76-102 `reformat_markdown_text` (logging is in `Model/Log.lean`). -/
def reformatMarkdownText (n : Nat) (width : Width) (text : Str) : Except Err Str := do
  let newText ← reformatText n width text
  let newNewText ← reformatText n width newText
  if newNewText != newText then .error .inconsistent
  else .ok (rstrip newText ++ ['\n'])

end MF
