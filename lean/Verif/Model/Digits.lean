import Verif.Model.Reformat
/-!
# CPython's limit on the digits of a number

Since 3.11, CPython's `int(s)` and `str(k)` raise ValueError for more than `sys.get_int_max_str_digits()` digits, 4300 by default. The
only numbers of a document are those of ordered lists. These definitions are the ones of `Model/Format.lean` and `Model/Reformat.lean`
with the limit `lim` in its three places: `int` in `first_number`, which `__repr__` and `reformatted` use, `str` of the last number, and
`str` of the number of each entry.
-/

namespace MF

/-- `str(k)`. -/
def strLim (lim k : Nat) : Except Err Str := if lim < (natStr k).length then .error .valueError else .ok (natStr k)

/-- /repo/markflow/formatters/lists.py:151-158 `first_number`. -/
def firstNumberLim (lim : Nat) (line : Str) : Except Err Nat :=
  let s := lstrip line
  let digits := s.take (s.length - (lstripBy isDigit s).length)
  if digits.isEmpty then .error .valueError
  else if lim < digits.length then .error .valueError else .ok (parseNat digits)

/-- Loop of /repo/markflow/formatters/lists.py:170-181: the entry is formatted before its number is written. -/
def fmtOrderedEntriesLim (lim : Nat) (sub : Width → Str → Except Err Str) (width : Width) (indent : Nat) :
    Nat → List (List Str) → Except Err (List Str)
  | _, [] => .ok []
  | number, e :: es => do
    let t ← fmtEntry sub width indent (natStr number ++ ['.']) e
    let _ ← strLim lim number
    let ts ← fmtOrderedEntriesLim lim sub width indent (number + 1) es
    .ok (t :: ts)

/-- /repo/markflow/formatters/lists.py:164-183. -/
def fmtOrderedLim (lim : Nat) (sub : Width → Str → Except Err Str) (width : Width) (lines : List Str) : Except Err Str :=
  match lines with
  | [] => .error .indexError
  | l :: _ => do
    let entries ← splitList lines
    let first ← firstNumberLim lim l
    let last ← strLim lim (first + entries.length - 1)
    let indent := last.length + 2
    let entries ← dedentEntries entries
    let texts ← fmtOrderedEntriesLim lim sub width indent first entries
    .ok (pyJoin ['\n'] texts)

/-- `reprCheck`, with /repo/markflow/formatters/lists.py:185-193. The representation shows the number that `first_number` has just read,
so `str` of it does not fail. -/
def reprCheckLim (lim : Nat) (ty : Sec) (lines : List Str) : Except Err Unit :=
  match ty, lines with
  | .ordered, l :: _ => do
    let _ ← firstNumberLim lim l
    .ok ()
  | ty, lines => reprCheck ty lines

/-- /repo/markflow/reformat_markdown.py:50-71. -/
def buildFmtsLim (lim lineIndex : Nat) (last : Option Sec) : List (Sec × List Str) → Except Err (List Fmt)
  | [] => .ok []
  | (ty, content) :: rest => do
    reprCheckLim lim ty content
    let fs ← buildFmtsLim lim (lineIndex + content.length) (some ty) rest
    let f : Fmt := { lineIndex := lineIndex, ty := ty, lines := content }
    if ty == .setext && last == some .quote then
      .ok ({ lineIndex := lineIndex, ty := .blank, lines := [[]] } :: f :: fs)
    else .ok (f :: fs)

/-- `FORMATTERS[section_type](line_index, section_content).reformatted(width)`. -/
def fmtSectionLim (lim : Nat) (sub : Width → Str → Except Err Str) (width : Width) (lineIndex : Nat) (ty : Sec)
    (lines : List Str) : Except Err Str :=
  match ty with
  | .ordered => fmtOrderedLim lim sub width lines
  | ty => fmtSection sub width lineIndex ty lines

/-- /repo/markflow/reformat_markdown.py:73. -/
def fmtAllLim (lim : Nat) (sub : Width → Str → Except Err Str) (width : Width) : List Fmt → Except Err (List Str)
  | [] => .ok []
  | f :: fs => do
    let t ← (fmtSectionLim lim sub width f.lineIndex f.ty f.lines).mapError genError
    let ts ← fmtAllLim lim sub width fs
    .ok (t :: ts)

/-- /repo/markflow/reformat_markdown.py:44-73. -/
def reformatTextLim (lim : Nat) : Nat → Width → Str → Except Err Str
  | 0, _, _ => .error .recursion
  | n + 1, width, text => do
    let sections ← parse n (splitlines text)
    let fmts ← buildFmtsLim lim 0 none sections
    let parts ← fmtAllLim lim (reformatTextLim lim n) width fmts
    .ok (pyJoin ['\n'] parts ++ ['\n'])

/-- /repo/markflow/reformat_markdown.py:76-102. -/
def reformatMarkdownTextLim (lim n : Nat) (width : Width) (text : Str) : Except Err Str := do
  let newText ← reformatTextLim lim n width text
  let newNewText ← reformatTextLim lim n width newText
  if newNewText != newText then .error .inconsistent
  else .ok (rstrip newText ++ ['\n'])

end MF
