import Verif.Props.FormatRef
import Verif.Props.DetectFound
/-!
# C120: what is logged about a document, completely: specification

The messages about a document in their order, with those about text that is only looked at: the lines behind a paragraph,
the text in a quote before it is known how far the quote goes, and the lines that might go on a quote. Which of the
messages are shown depends on the levels of the loggers alone.
-/

namespace MF

/-! ## Looking for sections -/

/-- The line that closes a fence is indented too deeply. `k` is the number of the first of the lines. -/
def closeNote (F : Str) (indent : Nat) : Nat → List Str → List Msg
  | _, [] => []
  | k, l :: more =>
    if strip l = F then (if 3 + indent < getIndent l then [.overIndented k] else [])
    else closeNote F indent (k + 1) more

/-- About a fenced block whose first line `l`, if it is one, has the number `k`. -/
def fenceNote (k : Nat) (l : Str) (more : List Str) : List Msg :=
  if fenceLine l then closeNote (fenceRun l) (getIndent l) (k + 1) more else []

/-- About a link definition with a label and nothing else. The number in the message is no line number. -/
def defNote (l : Str) (more : List Str) : List Msg :=
  match labelRest l with
  | none => []
  | some r =>
    if behindWord r = none then
      match more with
      | [] => [.noLink 0]
      | next :: _ => if next.head? = some '[' ∨ behindWord next = none then [.noLink 1] else []
    else []

section
/- `sq` counts the lines of the quote that begins with the first of the given lines; `qn` has the messages about it if its
first line has the given number. -/
variable (sq : List Str → Except Err Nat) (qn : Nat → List Str → List Msg)

/-- About the lines that follow a line of text, up to the one where the text ends: if a quote or a fenced block begins
there, what is said about it. -/
def textRunNotes : Nat → List Str → List Msg
  | _, [] => []
  | k, l :: more =>
    if quotedLine l then qn k (l :: more)
    else if textEnd l then fenceNote k l more
    else if hardBreak l then []
    else textRunNotes (k + 1) more

/-- About a block of text whose first line `l` has the number `k`. -/
def textNotes (k : Nat) (l : Str) (more : List Str) : List Msg :=
  if hardBreak l then [] else textRunNotes qn (k + 1) more

/-- About the section that begins with `l`; lines are counted from there. -/
def startNotes (l : Str) (more : List Str) : List Msg :=
  match kindOf l with
  | some .quote => qn 1 (l :: more)
  | some .fenced => fenceNote 1 l more
  | some _ => []
  | none => if defLines (l :: more) = .ok 0 then textNotes qn 1 l more else defNote l more

/-- Section after section: what is said while looking for it, and what was found. `k` is the number of the line. -/
def divideNotesLoop : Nat → Nat → List Str → List Msg
  | _, _, [] => []
  | 0, _, _ :: _ => []
  | fuel + 1, k, l :: more =>
    startNotes qn l more ++
      match firstExtentQ sq l more with
      | .error _ => []
      | .ok (kind, n) =>
        let length := ((l :: more).take n).length
        .found k (k + length - 1) kind :: divideNotesLoop fuel (k + length) ((l :: more).drop n)

def divideNotesWith (lines : List Str) : List Msg := divideNotesLoop sq qn lines.length 1 lines

/-- About lines that might go on a quote, up to the first that does not. -/
def lazyNotes : Nat → List Str → List Msg
  | _, [] => []
  | k, l :: more =>
    (if quotedLine l then [] else if kindOf l = none then textNotes qn k l more else fenceNote k l more) ++
      (if lazyStop sq l more = .ok false then lazyNotes (k + 1) more else [])

end

/-- About what the quoted lines hold, to see if it ends in a paragraph, and about the quote it ends in. -/
def endsNotes (divide : List Str → Except Err (List (Sec × List Str))) (notes : List Str → List Msg) :
    Nat → List Str → List Msg
  | 0, _ => []
  | depth + 1, quoted =>
    notes (quoted.map unmark) ++
      match (divide (quoted.map unmark)).toOption.bind (·.getLast?) with
      | some (.quote, lines) => endsNotes divide notes depth lines
      | _ => []

/-- About a quote whose first line has the number `k`. The lines that might go on it are counted as if they were its
first ones. -/
def quoteNotes : Nat → Nat → List Str → List Msg
  | _, _, [] => []
  | 0, _, _ :: _ => []
  | depth + 1, k, l :: more =>
    if quotedLine l then
      let quoted := (l :: more).takeWhile quotedLine
      endsNotes (divideWith (quoteLines depth)) (divideNotesWith (quoteLines depth) (quoteNotes depth)) depth quoted ++
        (if endsPar (divideWith (quoteLines depth)) depth quoted = .ok true then
          lazyNotes (quoteLines depth) (quoteNotes depth) k ((l :: more).dropWhile quotedLine)
        else [])
    else []

/-- About the division of a document. -/
def divideNotes (depth : Nat) (lines : List Str) : List Msg := divideNotesWith (quoteLines depth) (quoteNotes depth) lines

/-! ## Formatting -/

/-- Every section, and the empty line that an underlined heading behind a quote gets. -/
def sectionNotes (level : Nat) : Nat → Bool → List (Sec × List Str) → List Msg
  | _, _, [] => []
  | index, quote, (kind, lines) :: more =>
    .sect level (index + 1) (index + lines.length) kind lines ::
      ((if quote ∧ kind = .setext then [.added (index + 1)] else []) ++
        sectionNotes level (index + lines.length) (kind = .quote) more)

/-- The documents in a quote or a list, and their widths in a document of the width `w`. -/
def documentsIn (w : Width) (kind : Sec) (lines : List Str) : List (Width × Str) :=
  match kind with
  | .quote =>
    let inside := (remark 0 lines).map unmark
    if spacedQuote inside then
      [(w.sub (2 - (margin (lines.headD []) : Int)), unlines (inside.map fun l => if l.head? = some ' ' then l.drop 1 else l))]
    else [(w.sub (1 - (margin (lines.headD []) : Int)), unlines inside)]
  | .bullet => (entriesIn lines).map fun e => (w.sub 2, unlines e)
  | .ordered =>
    let first := parseNat (((lines.headD []).dropWhile isWs).takeWhile isDigit)
    let es := entriesIn lines
    es.map fun e => (w.sub ((natStr (first + es.length - 1)).length + 2 : Nat), unlines e)
  | _ => []

/-- A heading is marked with `#` characters that are not followed by a space. -/
def unspaced (l : Str) : Bool := ((strip l).dropWhile (· == '#')).head? != some ' '

section
/- `sub` formats documents, `notes` are the messages about that. -/
variable (sub : Width → Str → Except Err Str) (notes : Width → Str → List Msg)

/-- One after the other, up to the first that fails. -/
def documentsNotes : List (Width × Str) → List Msg
  | [] => []
  | (w, t) :: more => notes w t ++ if (sub w t).isOk then documentsNotes more else []

/-- About the formatting of the sections. -/
def partsNotes (w : Width) : Nat → List (Sec × List Str) → List Msg
  | _, [] => []
  | index, (kind, lines) :: more =>
    (if kind = .atx ∧ unspaced (lines.headD []) then [.noSpace (index + 1)] else []) ++
      documentsNotes sub notes (documentsIn w kind lines) ++
      if (partRef sub w index kind lines).isOk then partsNotes w (index + lines.length) more else []

end

/-- A fence alone. -/
def fenceAlone (s : Sec × List Str) : Bool := s.1 == .fenced && s.2.length == 1

/-- About one pass over a document: looking for sections, reporting them at the level `level` up to a fence alone,
formatting them. Sections of documents in other documents are reported at the level of debug messages. -/
def passNotes : Nat → Nat → Width → Str → List Msg
  | 0, _, _, _ => []
  | n + 1, level, w, text =>
    divideNotes n (splitlines text) ++
      match divideQ n (splitlines text) with
      | .error _ => []
      | .ok secs =>
        sectionNotes level 0 false (secs.takeWhile fun s => !fenceAlone s) ++
          if secs.any fenceAlone then [] else partsNotes (formatRef n) (passNotes n DEBUG) w 0 secs

/-- Whether a message is shown: the formatter itself has a logger of its own, the others have that of the program. -/
def audible (own program : Nat) (m : Msg) : Bool :=
  match m with
  | .sect level .. => own ≤ level
  | .added _ => own ≤ WARNING
  | .found .. => program ≤ DEBUG
  | _ => program ≤ WARNING

end MF
