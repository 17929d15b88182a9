import Verif.Props.WrapRef
import Verif.Props.DivideQuotes
import Verif.Lemmas.Tables
/-!
# A reference for formatting

What formatting does to any document, without regular expressions: the document is divided (`divideQ`), each part is
written by the rules of its kind, and parts that hold documents, quotes and lists, have those formatted in turn.
-/

namespace MF

/-- Lines as a text. -/
def unlines (lines : List Str) : Str := pyJoin ['\n'] lines ++ ['\n']

/-- How many characters of white space a line begins with. -/
def margin (l : Str) : Nat := (l.takeWhile isWs).length

/-- The first character that is not white space. -/
def firstMark (l : Str) : Char := (l.dropWhile isWs).headD ' '

/-! ## Parts without documents inside -/

/-- A heading: its `#`, a space, its text. -/
def headingRef (l : Str) : Str :=
  (strip l).takeWhile (· == '#') ++ ' ' :: strip ((strip l).dropWhile (· == '#'))

/-- A thematic break: its character over the whole width, three times if that is not limited. -/
def ruleRef (w : Width) (l : Str) : Str :=
  match w with
  | .inf => List.replicate 3 (firstMark l)
  | .fin n => List.replicate n.toNat (firstMark l)

/-- A fenced block: the fence with what follows it, the lines without white space at their ends, the fence. -/
def fenceRef (lines : List Str) : Str :=
  let first := lines.headD []
  let fence := fenceRun first
  pyJoin ['\n'] ((fence ++ strip ((strip first).drop fence.length)) :: ((lines.drop 1).dropLast.map rstrip ++ [fence]))

/-- A paragraph: its text wrapped, and the hard line break at its end. -/
def parRef (w : Width) (lines : List Str) : Except Err Str := do
  let t ← wrapRef (pyJoin [' '] (lines.map strip)) w
  .ok (t ++ if endsWith (lines.getLastD []) c!"  " then c!"  " else [])

/-- An underlined heading: its text wrapped, and a line as long as the longest of these. -/
def underlinedRef (w : Width) (lines : List Str) : Except Err Str := do
  let t ← wrapRef (pyJoin [' '] (lines.dropLast.map strip)) w
  let longest := ((splitlines t).map List.length).foldl max 0
  .ok (t ++ '\n' :: List.replicate longest (firstMark (lines.getLastD [])))

/-- A link definition. The link goes on the first line if it was found there, and on the next otherwise. A title that
begins on the line where the link is found goes behind the link; if its first word does not fit, only the title is left.
Any other title gets lines of its own. -/
def definitionRef (w : Width) (lines : List Str) : Except Err Str :=
  let text := (pyJoin [' '] lines).dropWhile isWs
  let name := (text.drop 1).takeWhile (· != ']')
  let body := (text.drop (name.length + 3)).dropWhile isWs
  let link := body.takeWhile (!isWs ·)
  let words := splitWs (body.drop link.length)
  let label := '[' :: (name ++ c!"]:")
  let here := isIn link (lines.headD [])
  let line := if here then lines.headD [] else (lines.drop 1).headD []
  let before := if here then [] else label ++ ['\n']
  let last := if here then label ++ ' ' :: link else link
  if link = [] then .ok label
  else
    match words with
    | [] => .ok (before ++ last)
    | word :: _ =>
      if isIn word line then
        if w.ge (word.length + last.length) then do
          let t ← wrapRef (last ++ ' ' :: pyJoin [' '] words) w
          .ok (before ++ t)
        else do
          let t ← wrapRef (pyJoin [' '] words) w
          .ok ('\n' :: t)
      else do
        let t ← wrapRef (pyJoin [' '] words) w
        .ok (before ++ last ++ '\n' :: t)

/-! ## Tables -/

/-- Spaces on the left and on the right; if their number is odd, there is one more on the right of a centred text. -/
def padRef (a : Align) (s : Str) (n : Nat) : Str :=
  let free := n - s.length
  let left := match a with | .left | .none => 0 | .right => free | .center => free / 2
  ' ' :: (List.replicate left ' ' ++ s ++ List.replicate (free - left) ' ' ++ [' '])

/-- All but the first and the last. The cells of a row are between its bars, without what is before and behind them. -/
def between {α : Type} (xs : List α) : List α := (xs.drop 1).dropLast

def alignRef (s : Str) : Align :=
  match (strip s).head? == some ':', (strip s).getLast? == some ':' with
  | true, true => .center
  | true, false => .left
  | false, true => .right
  | false, false => .none

def dividerRef (a : Align) (n : Nat) : Str :=
  (if a = .center ∨ a = .left then ':' else '-') ::
    (List.replicate n '-' ++ [if a = .center ∨ a = .right then ':' else '-'])

def rowRef (cells : List Str) : Str := '|' :: (pyJoin ['|'] cells ++ ['|'])

/-- A table. In its head, texts are centred by default. Cells are counted and measured with bars behind a backslash
belonging to them, but in the rows below they are divided at those bars, too. -/
def tableRef (index : Nat) : List Str → Except Err Str
  | head :: rule :: rows =>
    let cells (l : Str) := (between (splitBars none l)).map strip
    let count := (cells head).length
    match (List.range rows.length).find? fun i => (cells (rows.getD i [])).length != count with
    | some i => .error (.format (index + i + 3) count (cells (rows.getD i [])).length)
    | none =>
      let widths := (List.range count).map fun j => ((head :: rows).map fun l => ((cells l).getD j []).length).foldl max 0
      let aligns := (splitChar '|' (between (strip rule))).map alignRef
      let line (f : Align → Align) (cs : List Str) :=
        rowRef (((cs.zip widths).zip aligns).map fun c => padRef (f c.2) (strip c.1.1) c.1.2)
      .ok (pyJoin ['\n'] (line (fun a => if a = .none then .center else a) (between (splitBars none head)) ::
        rowRef ((widths.zip aligns).map fun c => dividerRef c.2 c.1) ::
        rows.map fun l => line id (between (splitChar '|' l))))
  | _ => .error .indexError

/-! ## Lists -/

/-- How many characters a text begins with that may be the marker of a list entry. -/
def markerLen (s : Str) : Nat :=
  let digits := (s.takeWhile isDigit).length
  if s.head? = some '*' ∨ s.head? = some '-' ∨ s.head? = some '+' then 1
  else if digits ≠ 0 ∧ (s.drop digits).head? = some '.' then digits + 1 else 0

/-- Where the marker of a list entry ends, if the line begins with one. A space or nothing follows it. -/
def markLen (l : Str) : Option Nat :=
  let s := l.drop (margin l)
  if markerLen s ≠ 0 ∧ ((s.drop (markerLen s)).head?.getD ' ' = ' ') then some (margin l + markerLen s) else none

/-- The fence that is open behind a line, if one is. The fence of an indented line counts as empty. -/
def fenceAfter (fence : Option Str) (l : Str) : Option Str :=
  if 3 ≤ (fenceRun l).length ∧ (firstMark l = '`' ∨ firstMark l = '~') then
    let run := if margin l = 0 then fenceRun l else []
    match fence with
    | none => some run
    | some f => if f = run then none else some f
  else fence

/-- The lines that go on an entry, and the further entries. A line with a marker begins an entry, unless it is in a
fenced block or indented more than `limit`, where the last marker ended. -/
def entriesRef (fence : Option Str) (limit : Nat) : List Str → List Str × List (List Str)
  | [] => ([], [])
  | l :: more =>
    let fence := fenceAfter fence l
    match markLen l with
    | some n =>
      if fence = none ∧ margin l ≤ limit then
        let r := entriesRef fence n more
        ([], (l :: r.1) :: r.2)
      else
        let r := entriesRef fence limit more
        (l :: r.1, r.2)
    | none =>
      let r := entriesRef fence limit more
      (l :: r.1, r.2)

/-- The document in an entry: the marker and one character are left out, and as much white space in the other lines if
there is that much. -/
def contentsRef : List Str → List Str
  | [] => []
  | l :: more =>
    let n := (markLen l).getD 0 + 1
    l.drop n :: more.map fun x => x.drop (min n (margin x))

def entriesIn : List Str → List (List Str)
  | [] => []
  | l :: more =>
    let r := entriesRef none ((markLen l).getD 0) more
    ((l :: r.1) :: r.2).map contentsRef

/-- An entry: its marker, a space, and its document formatted, indented. -/
def entryRef (sub : Width → Str → Except Err Str) (w : Width) (indent : Nat) (marker : Str) (lines : List Str) :
    Except Err Str := do
  let t ← sub (w.sub indent) (unlines lines)
  .ok (marker ++ ' ' :: pyJoin ('\n' :: List.replicate indent ' ') (splitChar '\n' (rstripBy (· == '\n') t)))

/-- The first entries that fail fail. -/
def allRef {α : Type} (f : α → Except Err Str) : List α → Except Err (List Str)
  | [] => .ok []
  | x :: xs => do
    let t ← f x
    let ts ← allRef f xs
    .ok (t :: ts)

/-- A list with bullets: all entries have the bullet of the first. -/
def bulletRef (sub : Width → Str → Except Err Str) (w : Width) (lines : List Str) : Except Err Str := do
  let ts ← allRef (entryRef sub w 2 [firstMark (lines.headD [])]) (entriesIn lines)
  .ok (pyJoin ['\n'] ts)

/-- A list with numbers, counted from the first. The entries are indented for the longest of them. -/
def numberedRef (sub : Width → Str → Except Err Str) (w : Width) (lines : List Str) : Except Err Str := do
  let first := parseNat (((lines.headD []).dropWhile isWs).takeWhile isDigit)
  let es := entriesIn lines
  let indent := (natStr (first + es.length - 1)).length + 2
  let ts ← allRef (fun e => entryRef sub w indent (natStr (first + e.2) ++ ['.']) e.1) es.zipIdx
  .ok (pyJoin ['\n'] ts)

/-! ## Quotes -/

/-- Lines that go on a quote without a mark get as many marks as the last line with marks begins with, whatever white
space there is between them. -/
def remark (depth : Nat) : List Str → List Str
  | [] => []
  | l :: more =>
    if quotedLine l then l :: remark ((l.filter fun c => !isWs c).takeWhile (· == '>')).length more
    else (List.replicate depth '>' ++ l) :: remark depth more

/-- Whether the text in a quote is apart from the marks: its first line that is not empty nor indented by two or more
tells. -/
def spacedQuote (lines : List Str) : Bool :=
  match lines.find? fun l => strip l ≠ [] ∧ margin l ≤ 1 with
  | some l => margin l = 1
  | none => false

/-- A quote: what is in it is formatted and marked again. It may take a character for every one that the quote was
indented by. -/
def quoteRef (sub : Width → Str → Except Err Str) (w : Width) (lines : List Str) : Except Err Str := do
  let inside := (remark 0 lines).map unmark
  let spaced := spacedQuote inside
  let inside := if spaced then inside.map fun l => if l.head? = some ' ' then l.drop 1 else l else inside
  let mark := if spaced then c!"> " else c!">"
  let t ← sub (w.sub ((mark.length : Int) - margin (lines.headD []))) (unlines inside)
  .ok (pyJoin ['\n'] ((splitlines t).map fun l => strip (mark ++ l)))

/-! ## Documents -/

/-- A part of a document that begins at the line `index`. -/
def partRef (sub : Width → Str → Except Err Str) (w : Width) (index : Nat) (kind : Sec) (lines : List Str) :
    Except Err Str :=
  match kind with
  | .blank => .ok []
  | .atx => .ok (headingRef (lines.headD []))
  | .thematic => .ok (ruleRef w (lines.headD []))
  | .fenced => .ok (fenceRef lines)
  | .indented => .ok (pyJoin ['\n'] (lines.map rstrip))
  | .par => parRef w lines
  | .setext => underlinedRef w lines
  | .lrd => definitionRef w lines
  | .table => tableRef index lines
  | .bullet => bulletRef sub w lines
  | .ordered => numberedRef sub w lines
  | .quote => quoteRef sub w lines

/-- The parts of a document. An underlined heading behind a quote gets an empty line in front. If the document of a
quote or an entry cannot be divided, that is another exception than if the whole cannot. -/
def partsRef (sub : Width → Str → Except Err Str) (w : Width) : Nat → Bool → List (Sec × List Str) → Except Err (List Str)
  | _, _, [] => .ok []
  | index, quote, (kind, lines) :: more => do
    let t ← match partRef sub w index kind lines with
      | .error .stopIteration => .error .genStop
      | r => r
    let ts ← partsRef sub w (index + lines.length) (kind = .quote) more
    .ok (if quote ∧ kind = .setext then [] :: t :: ts else t :: ts)

/-- A document formatted. A fence alone, at the end, is an error before all others. -/
def formatRef : Nat → Width → Str → Except Err Str
  | 0, _, _ => .error .recursion
  | n + 1, w, text => do
    let secs ← divideQ n (splitlines text)
    if secs.any fun s => s.1 == .fenced && s.2.length == 1 then .error .indexError
    else do
      let ts ← partsRef (formatRef n) w 0 false secs
      .ok (unlines ts)

/-- A document formatted, if formatting again changes nothing, with one line break at its end. -/
def callRef (n : Nat) (w : Width) (text : Str) : Except Err Str := do
  let t ← formatRef n w text
  let t' ← formatRef n w t
  if t' = t then .ok (rstrip t ++ ['\n']) else .error .inconsistent

end MF
