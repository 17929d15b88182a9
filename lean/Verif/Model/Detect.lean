import Verif.Model.Lines
/-!
# Section detection: `markflow/detectors/*.py` and `markflow/parser.py`

Every `split_*` function takes the remaining lines and returns the section's lines and the lines after it.
`line_offset` is used by the code only in log messages and is left out. Log messages are left out.
-/

namespace MF

/-- Result of a `split_*` function (`SplitFunc`, /repo/markflow/typing.py:13-17). -/
abbrev Split := Except Err (List Str × List Str)

/-- /repo/markflow/detectors/atx_heading.py:25-47. -/
def splitAtx : List Str → Split
  | [] => .error .indexError
  | l :: ls => if isAtx l then .ok ([l], ls) else .ok ([], l :: ls)

/-- /repo/markflow/detectors/blank_line.py:18-37. -/
def splitBlank : List Str → Split
  | [] => .error .indexError
  | l :: ls => if isBlankLine l then .ok ([l], ls) else .ok ([], l :: ls)

/-- /repo/markflow/detectors/thematic_break.py:25-43. -/
def splitThematic : List Str → Split
  | [] => .error .indexError
  | l :: ls => if isThematic l then .ok ([l], ls) else .ok ([], l :: ls)

/-- Loop of the list splitters, /repo/markflow/detectors/bullet_list.py:23-34 (and ordered_list.py:23-34).
`index` is the index of the line consumed last; the result is the lines appended and the index to cut at. -/
def listLoop (index : Nat) : List Str → List Str × Nat
  | [] => ([], index + 1)
  | l :: ls =>
    if isBlankLine l || isTableStart l || isThematic l then ([], index + 1)
    else
      let r := listLoop (index + 1) ls
      (l :: r.1, r.2)

/-- /repo/markflow/detectors/bullet_list.py:11-37. -/
def splitBullet : List Str → Split
  | [] => .error .stopIteration
  | l :: ls =>
    if !isBulletStart l then .ok ([], l :: ls)
    else
      let r := listLoop 0 ls
      .ok (l :: r.1, (l :: ls).drop r.2)

/-- /repo/markflow/detectors/ordered_list.py:11-37. -/
def splitOrdered : List Str → Split
  | [] => .error .stopIteration
  | l :: ls =>
    if !isOrderedStart l then .ok ([], l :: ls)
    else
      let r := listLoop 0 ls
      .ok (l :: r.1, (l :: ls).drop r.2)

/-- The opening fence of a line, /repo/markflow/detectors/fenced_code_block.py:118-125, with `FENCES` (line 34):
`fence * count`, or `none` when the line opens no fence. -/
def openFence (line : Str) : Option Str :=
  ['`', '~'].findSome? fun fence =>
    if startsWith (strip line) (List.replicate 3 fence) then
      some (List.replicate ((lstrip line).length - (lstripBy (· == fence) (lstrip line)).length) fence)
    else none

/-- Loop of /repo/markflow/detectors/fenced_code_block.py:129-138: the lines appended and the last index. -/
def fenceLoop (fullFence : Str) (index : Nat) : List Str → List Str × Nat
  | [] => ([], index)
  | l :: ls =>
    if strip l == fullFence then ([l], index + 1)
    else
      let r := fenceLoop fullFence (index + 1) ls
      (l :: r.1, r.2)

/-- /repo/markflow/detectors/fenced_code_block.py:97-141. -/
def splitFenced : List Str → Split
  | [] => .error .stopIteration
  | l :: ls =>
    match openFence l with
    | none => .ok ([], l :: ls)
    | some fullFence =>
      let r := fenceLoop fullFence 0 ls
      .ok (l :: r.1, (l :: ls).drop (r.2 + 1))

/-- Loop of /repo/markflow/detectors/indented_code_block.py:43-49: the final `close_index`. `index` is the index of
the next line. -/
def indentLoop (index closeIndex : Nat) : List Str → Nat
  | [] => closeIndex
  | l :: ls =>
    if (strip l).isEmpty then indentLoop (index + 1) closeIndex ls
    else if getIndent l ≥ 4 then indentLoop (index + 1) index ls
    else closeIndex

/-- /repo/markflow/detectors/indented_code_block.py:18-54. -/
def splitIndented : List Str → Split
  | [] => .error .stopIteration
  | l :: ls =>
    if !(strip l).isEmpty && getIndent l ≥ 4 then
      let closeIndex := indentLoop 1 1 ls
      .ok ((l :: ls).take closeIndex, (l :: ls).drop closeIndex)
    else .ok ([], l :: ls)

/-- Loop of /repo/markflow/detectors/table.py:21-26: the rows appended and the index to cut at. -/
def tableLoop (index : Nat) : List Str → List Str × Nat
  | [] => ([], index + 1)
  | l :: ls =>
    if !isTableStart l then ([], index + 1)
    else
      let r := tableLoop (index + 1) ls
      (l :: r.1, r.2)

/-- /repo/markflow/detectors/table.py:14-29. -/
def splitTable : List Str → Split
  | [] => .error .indexError
  | l :: ls =>
    if isTableStart l then
      let r := tableLoop 0 ls
      .ok (l :: r.1, (l :: ls).drop r.2)
    else .ok ([], (l :: ls).drop 0)

/-- `LINK_REFERENCE_DEFINITION_FIRST_ELEMENT_REGEX`, /repo/markflow/detectors/link_reference_definition.py:34-38:
`\[[^\]]{1,999}\]:`. -/
def lrdFirstRx : Rx :=
  .seqs [.chr (· == '['), .rep (.chr (· != ']')) 1 (some 999), .chr (· == ']'), .chr (· == ':')]

/-- `closing_regex`, /repo/markflow/detectors/link_reference_definition.py:126: `(?<!\\)(\\\\)*{quote}`. -/
def closingRx (q : Char) : Rx :=
  .seqs [.notBehind (· == '\\'), .star (.grp 1 (.seqs [.chr (· == '\\'), .chr (· == '\\')])), .chr (· == q)]

/-- Loop of /repo/markflow/detectors/link_reference_definition.py:127-135 over the rest of the title line and the
lines after it: final `is_complete` and `index`. -/
def titleLoop (q : Char) (isComplete : Bool) (index : Nat) (line : Str) : List Str → Bool × Nat
  | [] =>
    match (closingRx q).search (rstrip line) with
    | some m => if m.stop == (rstrip line).length then (true, index + 1) else (isComplete, index)
    | none => (isComplete, index)
  | next :: ls =>
    match (closingRx q).search (rstrip line) with
    | some m => if m.stop == (rstrip line).length then (true, index + 1) else (isComplete, index)
    | none => titleLoop q isComplete (index + 1) next ls

/-- /repo/markflow/detectors/link_reference_definition.py:120-141, from the point where `title_text` is known.
`gen` holds the lines not yet taken from `indexed_line_generator`. -/
def lrdFinish (lines : List Str) (isComplete : Bool) (index : Nat) (titleText : Str) (gen : List Str) : Split :=
  let r :=
    match titleText with
    | q :: rest =>
      -- the quotation character is "NO QUOTE" for a blank title
      if !(strip titleText).isEmpty && (q == '\'' || q == '"') then titleLoop q isComplete index rest gen
      else (isComplete, index)
    | [] => (isComplete, index)
  if r.1 then .ok (lines.take r.2, lines.drop r.2) else .ok ([], lines)

/-- /repo/markflow/detectors/link_reference_definition.py:42-141. -/
def splitLrd : List Str → Split
  | [] => .error .stopIteration
  | l0 :: tail0 =>
    let lines := l0 :: tail0
    if getIndent l0 ≥ 4 then .ok ([], lines)
    else
      let restOfLine := lstrip l0
      match lrdFirstRx.match? restOfLine with
      | none => .ok ([], lines)
      | some m =>
        match splitMax1 (restOfLine.drop m.stop) with
        | [_, title] => lrdFinish lines false 0 title tail0
        | [_] =>
          match tail0 with
          | l1 :: tail1 => lrdFinish lines true 1 l1 tail1
          | [] => lrdFinish lines true 0 [] []
        | _ =>
          let line := tail0.headD []
          if startsWith line c!"[" || (strip line).isEmpty then .ok ([l0], tail0)
          else
            match splitMax1 line with
            | [_] =>
              match tail0.drop 1 with
              | l2 :: tail2 => lrdFinish lines true 2 l2 tail2
              | [] => .error .stopIteration
            | _ :: t :: _ => lrdFinish lines false 1 t (tail0.drop 1)
            | [] => .error .indexError

/-- Runs splitters in turn and says whether one of them recognised a section. -/
def anySplits (lines : List Str) : List (List Str → Split) → Except Err Bool
  | [] => .ok false
  | f :: fs => do
    let r ← f lines
    if !r.1.isEmpty then .ok true else anySplits lines fs

/-- `_is_paragraph_continuation_text` of /repo/markflow/detectors/paragraph.py:14-46. `sbq` is
`split_block_quote`. -/
def isParCont (sbq : List Str → Split) (lines : List Str) : Except Err Bool := do
  if ← anySplits lines
      [splitAtx, splitBlank, sbq, splitBullet, splitFenced, splitOrdered, splitTable, splitThematic] then
    .ok false
  else
    match lines with
    | [] => .error .indexError
    | l :: _ => if isSetextUnderline l then .ok false else .ok true

/-- Loop of /repo/markflow/detectors/paragraph.py:100-115 over the tails of the lines after the first
(`list_tail_generator`, lines 49-70): further paragraph lines and remaining lines. -/
def parLoop (sbq : List Str → Split) : List Str → Split
  | [] => .ok ([], [])
  | l :: ls => do
    if ← isParCont sbq (l :: ls) then
      if endsWith l c!"  " then
        match ls with
        | [] => .error .stopIteration
        | _ :: _ => .ok ([l], ls)
      else
        let r ← parLoop sbq ls
        .ok (l :: r.1, r.2)
    else .ok ([], l :: ls)

/-- /repo/markflow/detectors/paragraph.py:73-117 `split_paragraph_ignoring_setext`. -/
def splitParIgn (sbq : List Str → Split) : List Str → Split
  | [] => .error .indexError
  | l :: ls =>
    if isParStart l then
      if endsWith l c!"  " then .ok ([l], ls)
      else do
        let r ← parLoop sbq ls
        .ok (l :: r.1, r.2)
    else .ok ([], l :: ls)

/-- /repo/markflow/detectors/paragraph.py:120-141 `split_paragraph`. -/
def splitPar (sbq : List Str → Split) (lines : List Str) : Split := do
  let r ← splitParIgn sbq lines
  match r.2 with
  | [] => .ok (r.1, [])
  | l :: ls => if !isSetextUnderline l then .ok (r.1, l :: ls) else .ok ([], lines)

/-- /repo/markflow/detectors/setext_heading.py:26-44. -/
def splitSetext (sbq : List Str → Split) (lines : List Str) : Split := do
  let r ← splitParIgn sbq lines
  match r.1, r.2 with
  | p :: ps, l :: ls => if isSetextUnderline l then .ok (p :: ps ++ [l], ls) else .ok ([], lines)
  | _, _ => .ok ([], lines)

/-- `MarkdownSectionEnum`, /repo/markflow/parser.py:24-37, without the unused INVALID member. -/
inductive Sec where
  | atx | blank | quote | bullet | fenced | indented | lrd | ordered | par | setext | table | thematic
  deriving DecidableEq, Repr

/-- `SPLITTERS`, /repo/markflow/parser.py:40-53. -/
def splitters (sbq : List Str → Split) : List (Sec × (List Str → Split)) :=
  [(.atx, splitAtx), (.blank, splitBlank), (.quote, sbq), (.bullet, splitBullet), (.fenced, splitFenced),
   (.indented, splitIndented), (.lrd, splitLrd), (.ordered, splitOrdered), (.par, splitPar sbq),
   (.setext, splitSetext sbq), (.table, splitTable), (.thematic, splitThematic)]

/-- The `for ... else` of /repo/markflow/parser.py:62-81: the first splitter that recognises a section.
`remaining_lines` is threaded through the calls as in the code. -/
def firstSection : List (Sec × (List Str → Split)) → List Str → Except Err (Sec × List Str × List Str)
  | [], _ => .error .runtime
  | (ty, f) :: fs, remaining => do
    let r ← f remaining
    if !r.1.isEmpty then .ok (ty, r.1, r.2) else firstSection fs r.2

/-- The `while` loop of /repo/markflow/parser.py:61-83. `fuel` bounds the number of sections; `parseWith` passes the
number of lines, which is enough because every section has a line. -/
def parseLoop (sbq : List Str → Split) : Nat → List Str → Except Err (List (Sec × List Str))
  | _, [] => .ok []
  | 0, _ :: _ => .error .recursion
  | fuel + 1, l :: ls => do
    let r ← firstSection (splitters sbq) (l :: ls)
    let rest ← parseLoop sbq fuel r.2.2
    .ok ((r.1, r.2.1) :: rest)

/-- /repo/markflow/parser.py:56-83 `parse_markdown`, given `split_block_quote`. -/
def parseWith (sbq : List Str → Split) (lines : List Str) : Except Err (List (Sec × List Str)) :=
  parseLoop sbq lines.length lines

/-- `LEADING_QUOTE_MARKER`, /repo/markflow/detectors/block_quote.py:18 and formatters/block_quote.py:14:
`^ {0,3}>`. -/
def leadingQuoteRx : Rx := .seqs [.bol, .rep (.chr (· == ' ')) 0 (some 3), .chr (· == '>')]

/-- `LEADING_QUOTE_MARKER.sub("", line)`. -/
def unquote (line : Str) : Str := leadingQuoteRx.subEmpty line

/-- /repo/markflow/detectors/block_quote.py:84-100 `_block_quote_ends_with_paragraph`; the first argument is the
recursion budget. -/
def endsWithPar (parse : List Str → Except Err (List (Sec × List Str))) : Nat → List Str → Except Err Bool
  | 0, _ => .error .recursion
  | n + 1, lines => do
    let secs ← parse (lines.map unquote)
    match secs.getLast? with
    | none => .error .indexError
    | some (.quote, content) => endsWithPar parse n content
    | some (.par, _) => .ok true
    | some _ => .ok false

/-- `_is_paragraph_continuation_text` of /repo/markflow/detectors/block_quote.py:21-81. -/
def isQuoteCont (sbq : List Str → Split) (lines : List Str) : Except Err Bool := do
  if ← anySplits lines
      [splitAtx, splitBlank, splitBullet, splitFenced, splitOrdered, splitSetext sbq, splitTable, splitThematic] then
    .ok false
  else
    match lines with
    | [] => .error .indexError
    | l :: _ => if isSetextUnderline l then .ok false else .ok true

/-- Inner loop of /repo/markflow/detectors/block_quote.py:141-153: continuation lines and remaining lines.
`first` is `first_line`. -/
def contLoop (sbq : List Str → Split) (first : Bool) : List Str → Split
  | [] => .ok ([], [])
  | l :: ls => do
    if ← isQuoteCont sbq (l :: ls) then
      if first && (isSetextUnderline l && !isThematic l) then .ok ([], l :: ls)
      else
        let r ← contLoop sbq false ls
        .ok (l :: r.1, r.2)
    else .ok ([], l :: ls)

/-- Outer loop of /repo/markflow/detectors/block_quote.py:130-157. `fuel` bounds the number of iterations; the caller
passes the number of lines plus one, which is enough because every iteration takes a line. -/
def quoteLoop (ends : List Str → Except Err Bool) (sbq : List Str → Split) : Nat → List Str → List Str → Split
  | 0, _, _ => .error .recursion
  | _ + 1, bq, [] => .ok (bq, [])
  | fuel + 1, bq, l :: ls =>
    if !isQuote l then .ok (bq, l :: ls)
    else do
      let bq' := bq ++ (l :: ls).takeWhile isQuote
      let rem := (l :: ls).dropWhile isQuote
      if ← ends bq' then
        let r ← contLoop sbq true rem
        quoteLoop ends sbq fuel (bq' ++ r.1) r.2
      else .ok (bq', rem)

/-- /repo/markflow/detectors/block_quote.py:103-157 `split_block_quote` with a recursion budget: the function
re-enters itself through `parse_markdown` and through paragraph detection. -/
def splitQuote : Nat → List Str → Split
  | 0, _ => .error .recursion
  | n + 1, lines =>
    quoteLoop (endsWithPar (parseWith (splitQuote n)) n) (splitQuote n) (lines.length + 1) [] lines

/-- /repo/markflow/parser.py:56-83 `parse_markdown` with a recursion budget. -/
def parse (n : Nat) (lines : List Str) : Except Err (List (Sec × List Str)) := parseWith (splitQuote n) lines

end MF
