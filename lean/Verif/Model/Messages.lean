import Verif.Model.DetectLog
import Verif.Model.Reformat
/-!
# The formatter with its log messages

The formatter of `Model/Format.lean` and `Model/Reformat.lean` once more, with the messages of
`markflow/reformat_markdown.py`, `markflow/formatters/atx_heading.py` and those of section detection
(`Model/DetectLog.lean`). `Props/Messages.lean` proves that leaving out the messages gives those definitions back. A message carries
the kind and the lines of the section; its text is in `Model/Repr.lean`.
-/

namespace MF

/-- An exception passing through a generator expression. -/
def throughGen {α : Type} (m : LogM α) : LogM α := fun s => ((m s).1.mapError genError, (m s).2)

/-- `reformatLines`: /repo/markflow/formatters/block_quote.py:19-27 and formatters/lists.py:28-36. -/
def reformatLinesL (sub : Width → Str → LogM Str) (lines : List Str) (width : Width) : LogM Str :=
  redirected (sub width (pyJoin ['\n'] lines ++ ['\n']))

/-- `fmtAtx`: /repo/markflow/formatters/atx_heading.py:57-67. -/
def fmtAtxL (lineIndex : Nat) : List Str → LogM Str
  | [] => lift (.error .indexError)
  | l :: ls => do
    logIf (!startsWith (lstripBy (· == '#') (strip l)) c!" ") (logOther WARNING (.noSpace (lineIndex + 1)))
    lift (fmtAtx (l :: ls))

/-- `fmtQuote`: /repo/markflow/formatters/block_quote.py:38-84. -/
def fmtQuoteL (sub : Width → Str → LogM Str) (width : Width) (lines : List Str) : LogM Str :=
  match lines with
  | [] => lift (.error .indexError)
  | l :: _ => do
    let indent : Int := (lstrip l).length - l.length
    let q := quoteInner lines
    let subWidth := (width.sub indent).sub 1
    let prefix' := mul ' ' indent ++ ['>']
    let (subWidth, prefix') := if q.2 then (subWidth.sub 1, prefix' ++ [' ']) else (subWidth, prefix')
    let text ← reformatLinesL sub q.1 subWidth
    pure (pyJoin ['\n'] ((splitlines text).map fun line => strip (prefix' ++ line)))

/-- `fmtEntry`: /repo/markflow/formatters/lists.py:126-134 and 172-180. -/
def fmtEntryL (sub : Width → Str → LogM Str) (width : Width) (indent : Nat) (marker : Str)
    (entry : List Str) : LogM Str := do
  let text ← reformatLinesL sub entry (width.sub indent)
  let text := rstripBy (· == '\n') text
  pure (marker ++ [' '] ++ pyJoin (['\n'] ++ List.replicate indent ' ') (splitChar '\n' text))

/-- `fmtBulletEntries`: /repo/markflow/formatters/lists.py:124-135. -/
def fmtBulletEntriesL (sub : Width → Str → LogM Str) (width : Width) (marker : Str) :
    List (List Str) → LogM (List Str)
  | [] => pure []
  | e :: es => do
    let t ← fmtEntryL sub width 2 marker e
    let ts ← fmtBulletEntriesL sub width marker es
    pure (t :: ts)

/-- `fmtBullet`: /repo/markflow/formatters/lists.py:106-137. -/
def fmtBulletL (sub : Width → Str → LogM Str) (width : Width) (lines : List Str) : LogM Str :=
  match lines with
  | [] => lift (.error .indexError)
  | l :: _ => do
    let entries ← lift (splitList lines)
    let entries ← lift (dedentEntries entries)
    match lstrip l with
    | [] => lift (.error .indexError)
    | marker :: _ => do
      let texts ← fmtBulletEntriesL sub width [marker] entries
      pure (pyJoin ['\n'] texts)

/-- `fmtOrderedEntries`: /repo/markflow/formatters/lists.py:170-181. -/
def fmtOrderedEntriesL (sub : Width → Str → LogM Str) (width : Width) (indent : Nat) :
    Nat → List (List Str) → LogM (List Str)
  | _, [] => pure []
  | number, e :: es => do
    let t ← fmtEntryL sub width indent (natStr number ++ ['.']) e
    let ts ← fmtOrderedEntriesL sub width indent (number + 1) es
    pure (t :: ts)

/-- `fmtOrdered`: /repo/markflow/formatters/lists.py:150-183. -/
def fmtOrderedL (sub : Width → Str → LogM Str) (width : Width) (lines : List Str) : LogM Str :=
  match lines with
  | [] => lift (.error .indexError)
  | l :: _ => do
    let entries ← lift (splitList lines)
    let first ← lift (firstNumber l)
    let indent := (natStr (first + entries.length - 1)).length + 2
    let entries ← lift (dedentEntries entries)
    let texts ← fmtOrderedEntriesL sub width indent first entries
    pure (pyJoin ['\n'] texts)

/-- `fmtSection`. -/
def fmtSectionL (sub : Width → Str → LogM Str) (width : Width) (lineIndex : Nat) (ty : Sec)
    (lines : List Str) : LogM Str :=
  match ty with
  | .atx => fmtAtxL lineIndex lines
  | .quote => fmtQuoteL sub width lines
  | .bullet => fmtBulletL sub width lines
  | .ordered => fmtOrderedL sub width lines
  | ty => lift (fmtSection (fun _ _ => .error .recursion) width lineIndex ty lines)

/-- Loop of `_reformat_markdown_text`, /repo/markflow/reformat_markdown.py:50-71. -/
def buildFmtsL (lineIndex : Nat) (last : Option Sec) : List (Sec × List Str) → LogM (List Fmt)
  | [] => pure []
  | (ty, content) :: rest => do
    lift (reprCheck ty content)
    logOwn (·.info) fun s => .sect s.info (lineIndex + 1) (lineIndex + content.length) ty content
    logIf (ty == .setext && last == some .quote) (logOwn (fun _ => WARNING) fun _ => .added (lineIndex + 1))
    let fs ← buildFmtsL (lineIndex + content.length) (some ty) rest
    let f : Fmt := { lineIndex := lineIndex, ty := ty, lines := content }
    if ty == .setext && last == some .quote then
      pure ({ lineIndex := lineIndex, ty := .blank, lines := [[]] } :: f :: fs)
    else pure (f :: fs)

/-- `fmtAll`: /repo/markflow/reformat_markdown.py:73. -/
def fmtAllL (sub : Width → Str → LogM Str) (width : Width) : List Fmt → LogM (List Str)
  | [] => pure []
  | f :: fs => do
    let t ← throughGen (fmtSectionL sub width f.lineIndex f.ty f.lines)
    let ts ← fmtAllL sub width fs
    pure (t :: ts)

/-- `reformatText`: /repo/markflow/reformat_markdown.py:44-73. -/
def reformatTextL : Nat → Width → Str → LogM Str
  | 0, _, _ => lift (.error .recursion)
  | n + 1, width, text => do
    let sections ← parseL n (splitlines text)
    let fmts ← buildFmtsL 0 none sections
    let parts ← fmtAllL (reformatTextL n) width fmts
    pure (pyJoin ['\n'] parts ++ ['\n'])

/-- `logger.setLevel(level)`. -/
def setLevel (level : LSt → Nat) : LogM Unit := fun s => (.ok (), { s with own := level s })

/-- `reformatMarkdownText`: /repo/markflow/reformat_markdown.py:76-102. -/
def reformatMarkdownTextL (n : Nat) (width : Width) (text : Str) : LogM Str := do
  let newText ← reformatTextL n width text
  let level ← (fun s => (.ok s.effective, s) : LogM Nat)
  logIf (decide (level > DEBUG)) (setLevel fun _ => ERROR)
  let newNewText ← reformatTextL n width newText
  setLevel (fun _ => level)
  if newNewText != newText then lift (.error .inconsistent)
  else pure (rstrip newText ++ ['\n'])

end MF
