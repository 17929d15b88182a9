import Verif.Model.Detect
import Verif.Model.Wrap
/-!
# Section formatters: `markflow/formatters/*.py`

Each definition models `reformatted` of a formatter class for a section with the given lines. `__repr__` builds a log
message; `reprCheck` models its possible exceptions, `Model/Repr.lean` its text. The `append` methods and the
`lines=None` constructor default are not used by the program; they are in `Model/Append.lean`.
-/

namespace MF

/-- `_reformat_markdown` of /repo/markflow/formatters/block_quote.py:19-27 and formatters/lists.py:28-36, given
`_reformat_markdown_text`. -/
def reformatLines (sub : Width → Str → Except Err Str) (lines : List Str) (width : Width) : Except Err Str :=
  sub width (pyJoin ['\n'] lines ++ ['\n'])

/-- /repo/markflow/formatters/atx_heading.py:33-39 `content`. -/
def atxContent (line : Str) : Str := strip (lstripBy (· == '#') (strip line))

/-- /repo/markflow/formatters/atx_heading.py:41-47 `depth`. -/
def atxDepth (line : Str) : Nat := (strip line).length - (lstripBy (· == '#') (strip line)).length

/-- /repo/markflow/formatters/atx_heading.py:57-67. -/
def fmtAtx : List Str → Except Err Str
  | [] => .error .indexError
  | l :: _ => .ok (List.replicate (atxDepth l) '#' ++ [' '] ++ atxContent l)

/-- /repo/markflow/formatters/blank_line.py:33-35. -/
def fmtBlank (_ : List Str) : Except Err Str := .ok []

/-- Loop of /repo/markflow/formatters/block_quote.py:41-49: `fully_quoted_lines`. -/
def fullyQuote : Nat → List Str → List Str
  | _, [] => []
  | depth, l :: ls =>
    if isQuote l then
      let s := spaceless l
      let depth' := s.length - (lstripBy (· == '>') s).length
      l :: fullyQuote depth' ls
    else (List.replicate depth '>' ++ l) :: fullyQuote depth ls

/-- Loop of /repo/markflow/formatters/block_quote.py:55-65: `has_space`. -/
def hasSpace : List Str → Bool
  | [] => false
  | l :: ls =>
    if (strip l).isEmpty then hasSpace ls
    else if getIndent l == 1 then true
    else if getIndent l == 0 then false
    else hasSpace ls

/-- /repo/markflow/formatters/block_quote.py:70: `line[1:] if line and line[0] == " " else line`. -/
def dropSpace : Str → Str
  | [] => []
  | c :: cs => if c == ' ' then cs else c :: cs

/-- The lines inside a quote, /repo/markflow/formatters/block_quote.py:41-71, and `has_space`. -/
def quoteInner (lines : List Str) : List Str × Bool :=
  let stripped := (fullyQuote 0 lines).map unquote
  if hasSpace stripped then (stripped.map dropSpace, true) else (stripped, false)

/-- /repo/markflow/formatters/block_quote.py:38-84. -/
def fmtQuote (sub : Width → Str → Except Err Str) (width : Width) (lines : List Str) : Except Err Str :=
  match lines with
  | [] => .error .indexError
  | l :: _ => do
    let indent : Int := (lstrip l).length - l.length
    let q := quoteInner lines
    let subWidth := (width.sub indent).sub 1
    let prefix' := mul ' ' indent ++ ['>']
    let (subWidth, prefix') := if q.2 then (subWidth.sub 1, prefix' ++ [' ']) else (subWidth, prefix')
    let text ← reformatLines sub q.1 subWidth
    .ok (pyJoin ['\n'] ((splitlines text).map fun line => strip (prefix' ++ line)))

/-- /repo/markflow/formatters/fenced_code_block.py:46-74, with `fence_char`, `fence_count` and `language`. -/
def fmtFenced : List Str → Except Err Str
  | [] => .error .indexError
  | l :: ls =>
    match strip l with
    | [] => .error .indexError
    | fenceChar :: r =>
      let rest := lstripBy (· == fenceChar) (fenceChar :: r)
      let fence := List.replicate ((fenceChar :: r).length - rest.length) fenceChar
      let newLines := [fence ++ strip rest] ++ inner (l :: ls) ++ [fence]
      .ok (pyJoin ['\n'] (newLines.map rstrip))

/-- /repo/markflow/formatters/indented_code_block.py:40-41. -/
def fmtIndented (lines : List Str) : Except Err Str := .ok (pyJoin ['\n'] (lines.map rstrip))

/-- `LINK_REFERENCE_DEFINITION_REGEX`, /repo/markflow/formatters/link_reference_definition.py:37-45; group 1 is
`name`, group 2 `link`, group 3 `title`. -/
def lrdRx : Rx :=
  .seqs [.chr (· == '['), .grp 1 (.rep (.chr (· != ']')) 1 (some 999)), .chr (· == ']'), .chr (· == ':'),
    .star (.chr isWs), .grp 2 (.star (.chr fun c => !isWs c)), .star (.chr isWs), .grp 3 (.star (.chr (· != '\n')))]

/-- `name`, `link` and `title`, /repo/markflow/formatters/link_reference_definition.py:49-78. -/
def lrdParts (lines : List Str) : Except Err (Str × Str × Str) :=
  match lrdRx.search (pyJoin [' '] lines) with
  | none => .error .runtime
  | some m =>
    .ok ((m.group 1).getD [], (m.group 2).getD [], pyJoin [' '] (splitWs ((m.group 3).getD [])))

/-- /repo/markflow/formatters/link_reference_definition.py:83-112. -/
def fmtLrd (width : Width) (lines : List Str) : Except Err Str := do
  let (name, link, title) ← lrdParts lines
  let str := ['['] ++ name ++ c!"]:"
  if link.isEmpty then .ok str
  else
    match lines with
    | [] => .error .indexError
    | l0 :: rest =>
      let onFirst := isIn link l0
      let str := if onFirst then str ++ [' '] ++ link else str ++ ['\n'] ++ link
      if title.isEmpty then .ok str
      else
        match (if onFirst then some l0 else rest.head?), splitWs title with
        | some lastLine, word :: _ =>
          if isIn word lastLine then
            let strLines := splitlines str
            if width.ge (word.length + (strLines.getLastD []).length) then do
              let w ← wrap (strLines.getLastD [] ++ [' '] ++ title) width
              .ok (pyJoin ['\n'] (strLines.dropLast ++ [w]))
            else do
              let w ← wrap title width
              .ok (['\n'] ++ w)
          else do
            let w ← wrap title width
            .ok (str ++ ['\n'] ++ w)
        | _, _ => .error .indexError

/-- `MARKER_REGEX`, /repo/markflow/formatters/lists.py:14-23: `^\s*(\*|-|\+|[0-9]+\.)($| )`. -/
def markerRx : Rx :=
  .seqs [.bol, .star (.chr isWs),
    .grp 1 (.alt (.chr (· == '*')) (.alt (.chr (· == '-')) (.alt (.chr (· == '+'))
      (.seqs [.plus (.chr isDigit), .chr (· == '.')])))),
    .grp 2 (.alt .eol (.chr (· == ' ')))]

/-- `MARKER_REGEX.match(line)` and `match.end(1)`. -/
def markerEnd? (line : Str) : Option Nat := (markerRx.match? line).map fun m => (m.groupEnd 1).getD 0

/-- /repo/markflow/formatters/lists.py:39-57 `_list_marker_end_pos`. -/
def listMarkerEndPos (line : Str) : Except Err Nat :=
  match markerEnd? line with
  | none => .error .runtime
  | some n => .ok n

/-- State of the loop of `_split_list`. -/
structure SplitListSt where
  inCode : Bool
  codeEnd : Str
  maxIndent : Nat
  /-- finished entries, and the entry being built -/
  entries : List (List Str)

/-- `xs[-1].append(x)`. -/
def appendToLast (xs : List (List Str)) (x : Str) : Except Err (List (List Str)) :=
  match xs.getLast? with
  | none => .error .indexError
  | some e => .ok (xs.dropLast ++ [e ++ [x]])

/-- /repo/markflow/formatters/lists.py:67-78: fence tracking for one line. The marker length is the length of the
line without indentation minus the length of the line without leading fence characters, and may be negative. -/
def fenceTrack (inCode : Bool) (codeEnd line : Str) : Bool × Str :=
  if ['`', '~'].any fun f => startsWith (lstrip line) (List.replicate 3 f) then
    match lstrip line with
    | [] => (inCode, codeEnd)
    | symbol :: _ =>
      let len : Int := (lstrip line).length - (lstripBy (· == symbol) line).length
      let marker := mul symbol len
      if inCode then (if codeEnd == marker then (false, codeEnd) else (inCode, codeEnd))
      else (true, marker)
  else (inCode, codeEnd)

/-- Loop body of `_split_list`, /repo/markflow/formatters/lists.py:66-89. -/
def splitListStep (st : SplitListSt) (line : Str) : Except Err SplitListSt := do
  let f := fenceTrack st.inCode st.codeEnd line
  let st := { st with inCode := f.1, codeEnd := f.2 }
  match markerEnd? line with
  | some listIndent =>
    if !st.inCode && getIndent line ≤ st.maxIndent then
      .ok { st with maxIndent := listIndent, entries := st.entries ++ [[line]] }
    else do
      let es ← appendToLast st.entries line
      .ok { st with entries := es }
  | none => do
    let es ← appendToLast st.entries line
    .ok { st with entries := es }

/-- /repo/markflow/formatters/lists.py:60-90 `_split_list`. -/
def splitList (lines : List Str) : Except Err (List (List Str)) :=
  match lines with
  | [] => .error .indexError
  | l :: _ => do
    let maxIndent ← listMarkerEndPos l
    let st ← lines.foldlM splitListStep { inCode := false, codeEnd := [], maxIndent := maxIndent, entries := [] }
    .ok st.entries

/-- One entry of `_dedent_entries`, /repo/markflow/formatters/lists.py:97-102. -/
def dedentEntry : List Str → Except Err (List Str)
  | [] => .error .indexError
  | l :: ls => do
    let pos ← listMarkerEndPos l
    let indent := pos + 1
    .ok (l.drop indent :: ls.map fun line => lstrip (line.take indent) ++ line.drop indent)

/-- /repo/markflow/formatters/lists.py:93-103 `_dedent_entries`. -/
def dedentEntries (entries : List (List Str)) : Except Err (List (List Str)) := entries.mapM dedentEntry

/-- Text of one reformatted entry, /repo/markflow/formatters/lists.py:126-134 and 172-180. -/
def fmtEntry (sub : Width → Str → Except Err Str) (width : Width) (indent : Nat) (marker : Str)
    (entry : List Str) : Except Err Str := do
  let text ← reformatLines sub entry (width.sub indent)
  let text := rstripBy (· == '\n') text
  .ok (marker ++ [' '] ++ pyJoin (['\n'] ++ List.replicate indent ' ') (splitChar '\n' text))

/-- Loop of /repo/markflow/formatters/lists.py:124-135. -/
def fmtBulletEntries (sub : Width → Str → Except Err Str) (width : Width) (marker : Str) :
    List (List Str) → Except Err (List Str)
  | [] => .ok []
  | e :: es => do
    let t ← fmtEntry sub width 2 marker e
    let ts ← fmtBulletEntries sub width marker es
    .ok (t :: ts)

/-- /repo/markflow/formatters/lists.py:106-137. -/
def fmtBullet (sub : Width → Str → Except Err Str) (width : Width) (lines : List Str) : Except Err Str :=
  match lines with
  | [] => .error .indexError
  | l :: _ => do
    let entries ← splitList lines
    let entries ← dedentEntries entries
    match lstrip l with
    | [] => .error .indexError
    | marker :: _ =>
      let texts ← fmtBulletEntries sub width [marker] entries
      .ok (pyJoin ['\n'] texts)

/-- /repo/markflow/formatters/lists.py:151-158 `first_number`. `int("")` raises ValueError. CPython's limit on the
number of digits `int` accepts is in `Model/Digits.lean`. -/
def firstNumber (line : Str) : Except Err Nat :=
  let s := lstrip line
  let digits := s.take (s.length - (lstripBy isDigit s).length)
  if digits.isEmpty then .error .valueError else .ok (parseNat digits)

/-- Loop of /repo/markflow/formatters/lists.py:170-181. -/
def fmtOrderedEntries (sub : Width → Str → Except Err Str) (width : Width) (indent : Nat) :
    Nat → List (List Str) → Except Err (List Str)
  | _, [] => .ok []
  | number, e :: es => do
    let t ← fmtEntry sub width indent (natStr number ++ ['.']) e
    let ts ← fmtOrderedEntries sub width indent (number + 1) es
    .ok (t :: ts)

/-- /repo/markflow/formatters/lists.py:150-183. -/
def fmtOrdered (sub : Width → Str → Except Err Str) (width : Width) (lines : List Str) : Except Err Str :=
  match lines with
  | [] => .error .indexError
  | l :: _ => do
    let entries ← splitList lines
    let first ← firstNumber l
    -- there is at least one entry, so the subtraction does not go below zero
    let indent := (natStr (first + entries.length - 1)).length + 2
    let entries ← dedentEntries entries
    let texts ← fmtOrderedEntries sub width indent first entries
    .ok (pyJoin ['\n'] texts)

/-- /repo/markflow/formatters/paragraph.py:12-15 `content`. -/
def parContent (lines : List Str) : Str := pyJoin [' '] (lines.map strip)

/-- /repo/markflow/formatters/paragraph.py:20-24. -/
def fmtPar (width : Width) (lines : List Str) : Except Err Str := do
  let text ← wrap (parContent lines) width
  match lines.getLast? with
  | none => .error .indexError
  | some l => .ok (if endsWith l c!"  " then text ++ c!"  " else text)

/-- `max(...)`; ValueError for an empty sequence. -/
def maxLen : List Str → Except Err Nat
  | [] => .error .valueError
  | l :: ls => .ok (ls.foldl (fun n s => max n s.length) l.length)

/-- /repo/markflow/formatters/setext_heading.py:37-60, with `char` and `content`. -/
def fmtSetext (width : Width) (lines : List Str) : Except Err Str :=
  if lines.length < 2 then .error .runtime
  else do
    let heading ← wrap (parContent lines.dropLast) width
    let len ← maxLen (splitlines heading)
    match strip (lines.getLastD []) with
    | [] => .error .indexError
    | char :: _ => .ok (heading ++ ['\n'] ++ List.replicate len char)

/-- `COLUMN_DIVIDER_REGEX`, /repo/markflow/formatters/table.py:11: `(?<!\\)\|`. -/
def columnRx : Rx := .seqs [.notBehind (· == '\\'), .chr (· == '|')]

/-- `Alignment`, /repo/markflow/formatters/table.py:14-18. -/
inductive Align where
  | none | center | left | right
  deriving DecidableEq, Repr

/-- /repo/markflow/formatters/table.py:21-25. -/
def centerAlign (text : Str) (width : Nat) : Str :=
  let padding : Int := width - text.length
  mul ' ' (padding / 2) ++ text ++ mul ' ' (-((-padding) / 2))

/-- /repo/markflow/formatters/table.py:28-30. -/
def leftAlign (text : Str) (width : Nat) : Str := text ++ mul ' ' ((width : Int) - text.length)

/-- /repo/markflow/formatters/table.py:33-35. -/
def rightAlign (text : Str) (width : Nat) : Str := mul ' ' ((width : Int) - text.length) ++ text

/-- /repo/markflow/formatters/table.py:48-49: stripped columns of a row, escaped `|` respected. -/
def rowCols (line : Str) : List Str := (inner (columnRx.split line)).map strip

/-- /repo/markflow/formatters/table.py:53-62 for one divider. -/
def dividerAlign (divider : Str) : Align :=
  let d := strip divider
  if startsWith d c!":" && endsWith d c!":" then .center
  else if startsWith d c!":" then .left
  else if endsWith d c!":" then .right
  else .none

/-- /repo/markflow/formatters/table.py:52-62 `column_alignments`. -/
def tableAligns (divider : Str) : List Align := (splitChar '|' (inner (strip divider))).map dividerAlign

/-- /repo/markflow/formatters/table.py:65-70: the check for ragged rows; `rows` are the columns of the rows after the
header, `i` the loop variable. -/
def checkRows (lineIndex headerCount : Nat) : Nat → List (List Str) → Except Err Unit
  | _, [] => .ok ()
  | i, r :: rs =>
    if r.length != headerCount then .error (.format (lineIndex + i + 1) headerCount r.length)
    else checkRows lineIndex headerCount (i + 1) rs

/-- /repo/markflow/formatters/table.py:72-76 `new_column_widths`. All rows have the same length here. -/
def columnWidths (header : List Str) (rows : List (List Str)) : List Nat :=
  (header :: rows).foldl (fun ws r => ws.zipWith (fun w c => if c.length > w then c.length else w) r)
    (header.map fun _ => 0)

/-- One header cell, /repo/markflow/formatters/table.py:85-93. -/
def headerCell (cell : Str) (width : Nat) : Align → Str
  | .center => [' '] ++ centerAlign (strip cell) width ++ [' ']
  | .left => [' '] ++ leftAlign (strip cell) width ++ [' ']
  | .right => [' '] ++ rightAlign (strip cell) width ++ [' ']
  | .none => [' '] ++ centerAlign (strip cell) width ++ [' ']

/-- One divider cell, /repo/markflow/formatters/table.py:99-107. -/
def dividerCell (width : Nat) : Align → Str
  | .center => [':'] ++ List.replicate width '-' ++ [':']
  | .left => [':'] ++ List.replicate width '-' ++ ['-']
  | .right => ['-'] ++ List.replicate width '-' ++ [':']
  | .none => ['-'] ++ List.replicate width '-' ++ ['-']

/-- One body cell, /repo/markflow/formatters/table.py:116-124. -/
def bodyCell (cell : Str) (width : Nat) : Align → Str
  | .center => [' '] ++ centerAlign (strip cell) width ++ [' ']
  | .left => [' '] ++ leftAlign (strip cell) width ++ [' ']
  | .right => [' '] ++ rightAlign (strip cell) width ++ [' ']
  | .none => [' '] ++ leftAlign (strip cell) width ++ [' ']

/-- `zip` of cells, widths and alignments followed by formatting each cell. -/
def zipCells (f : Str → Nat → Align → Str) : List Str → List Nat → List Align → List Str
  | c :: cs, w :: ws, a :: as => f c w a :: zipCells f cs ws as
  | _, _, _ => []

/-- `"|" + "|".join(cells) + "|"`. -/
def tableRow (cells : List Str) : Str := ['|'] ++ pyJoin ['|'] cells ++ ['|']

/-- /repo/markflow/formatters/table.py:42-127 for a section that starts at line index `lineIndex`. -/
def fmtTable (lineIndex : Nat) : List Str → Except Err Str
  | header :: divider :: body => do
    let headerCols := rowCols header
    let rows := body.map rowCols
    let aligns := tableAligns divider
    checkRows lineIndex headerCols.length 2 rows
    let widths := columnWidths headerCols rows
    let headerLine := tableRow (zipCells headerCell (inner (columnRx.split header)) widths aligns)
    let dividerLine := tableRow ((widths.zip aligns).map fun p => dividerCell p.1 p.2)
    let bodyLines := body.map fun line => tableRow (zipCells bodyCell (inner (splitChar '|' line)) widths aligns)
    .ok (pyJoin ['\n'] (headerLine :: dividerLine :: bodyLines))
  | _ => .error .indexError

/-- /repo/markflow/formatters/thematic_break.py:26-46. -/
def fmtThematic (width : Width) : List Str → Except Err Str
  | [] => .error .indexError
  | l :: _ =>
    match strip l with
    | [] => .error .indexError
    | char :: _ =>
      match width with
      | .inf => .ok (List.replicate 3 char)
      | .fin n => .ok (mul char n)

/-- Exceptions of `repr(formatter)`, evaluated for every section in /repo/markflow/reformat_markdown.py:57, also when
the message is not logged: formatters/atx_heading.py:69-76, blank_line.py:37-38, block_quote.py:86-90,
fenced_code_block.py:76-88, indented_code_block.py:43-49, link_reference_definition.py:114-122, lists.py:139-147 and
185-193, paragraph.py:26-32, setext_heading.py:62-69, table.py:129-130, thematic_break.py:48-49. -/
def reprCheck (ty : Sec) (lines : List Str) : Except Err Unit :=
  match ty, lines with
  | .blank, _ | .table, _ | .par, _ => .ok ()
  | .atx, [] => .error .runtime
  | .atx, _ :: _ => .ok ()
  | .quote, l :: _ | .indented, l :: _ => let _ := l; .ok ()
  | .fenced, l :: ls =>
    -- `first_line` is `self.lines[1]` unless there are exactly two lines
    if ls.isEmpty then .error .indexError
    else if (strip l).isEmpty then .error .indexError else .ok ()
  | .lrd, _ => do
    let _ ← lrdParts lines
    .ok ()
  | .bullet, l :: _ => if (lstrip l).isEmpty then .error .indexError else .ok ()
  | .ordered, l :: _ => do
    let _ ← firstNumber l
    .ok ()
  | .setext, _ =>
    if lines.length < 2 then .error .runtime
    else if (strip (lines.getLastD [])).isEmpty then .error .indexError else .ok ()
  | .thematic, l :: _ => if (strip l).isEmpty then .error .indexError else .ok ()
  | _, [] => .error .indexError

/-- `FORMATTERS[section_type](line_index, section_content).reformatted(width)`,
/repo/markflow/reformat_markdown.py:28-41. -/
def fmtSection (sub : Width → Str → Except Err Str) (width : Width) (lineIndex : Nat) (ty : Sec)
    (lines : List Str) : Except Err Str :=
  match ty with
  | .atx => fmtAtx lines
  | .blank => fmtBlank lines
  | .quote => fmtQuote sub width lines
  | .bullet => fmtBullet sub width lines
  | .fenced => fmtFenced lines
  | .indented => fmtIndented lines
  | .lrd => fmtLrd width lines
  | .ordered => fmtOrdered sub width lines
  | .par => fmtPar width lines
  | .setext => fmtSetext width lines
  | .table => fmtTable lineIndex lines
  | .thematic => fmtThematic width lines

end MF
