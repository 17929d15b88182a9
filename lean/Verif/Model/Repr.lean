import Verif.Model.Messages
/-!
# The text of log messages

`repr` of a string (standard library), `__repr__` of the formatters, and the text of every message of `Model/LogM.lean`. What the
handler of the `logging` module makes of the text is not modelled.
-/

namespace MF

/-- A hexadecimal digit. -/
def hexDigit (n : Nat) : Char := if n < 10 then Char.ofNat (48 + n) else Char.ofNat (87 + n)

/-- The last `w` hexadecimal digits of `n`. -/
def hex : Nat → Nat → Str
  | 0, _ => []
  | w + 1, n => hex w (n / 16) ++ [hexDigit (n % 16)]

/-- One character inside `repr(s)`. `printable` is `str.isprintable` of the standard library, which is only asked about
characters above 126. -/
def reprChar (printable : Char → Bool) (quote c : Char) : Str :=
  if c == quote || c == '\\' then ['\\', c]
  else if c == '\t' then c!"\\t"
  else if c == '\n' then c!"\\n"
  else if c == '\r' then c!"\\r"
  else if c.toNat < 32 || c.toNat == 127 then c!"\\x" ++ hex 2 c.toNat
  else if c.toNat < 127 then [c]
  else if printable c then [c]
  else if c.toNat ≤ 0xff then c!"\\x" ++ hex 2 c.toNat
  else if c.toNat ≤ 0xffff then c!"\\u" ++ hex 4 c.toNat
  else c!"\\U" ++ hex 8 c.toNat

/-- The quotation mark `repr(s)` uses. -/
def reprQuote (s : Str) : Char := if s.contains '\'' && !s.contains '"' then '"' else '\''

/-- `repr(s)` for a string. -/
def pyRepr (printable : Char → Bool) (s : Str) : Str :=
  [reprQuote s] ++ s.flatMap (reprChar printable (reprQuote s)) ++ [reprQuote s]

/-- `REPR_CONTENT_LEN`, defined in every module of /repo/markflow/formatters that uses it (atx_heading.py:29,
block_quote.py:12, fenced_code_block.py:43, indented_code_block.py:29, link_reference_definition.py:36, lists.py:25,
paragraph.py:8, setext_heading.py:34). -/
def reprContentLen : Nat := 20

/-- `repr(truncate_str(s, REPR_CONTENT_LEN))`. -/
def reprShort (printable : Char → Bool) (s : Str) : Str := pyRepr printable (truncateStr s reprContentLen)

/-- The names of the formatter classes, /repo/markflow/reformat_markdown.py:28-41. -/
def className : Sec → Str
  | .atx => c!"MarkdownATXHeading"
  | .blank => c!"MarkdownBlankLine"
  | .quote => c!"MarkdownBlockQuote"
  | .bullet => c!"MarkdownBulletList"
  | .fenced => c!"MarkdownFencedCodeBlock"
  | .indented => c!"MarkdownIndentedCodeBlock"
  | .lrd => c!"MarkdownLinkReferenceDefinition"
  | .ordered => c!"MarkdownOrderedList"
  | .par => c!"MarkdownParagraph"
  | .setext => c!"MarkdownSetextHeading"
  | .table => c!"MarkdownTable"
  | .thematic => c!"MarkdownThematicBreak"

/-- `line.strip()[0]`. -/
def firstChar (line : Str) : Except Err Char :=
  match strip line with
  | [] => .error .indexError
  | c :: _ => .ok c

/-- `__repr__` of the formatters: formatters/atx_heading.py:69-76, blank_line.py:37-38, block_quote.py:86-90,
fenced_code_block.py:76-88, indented_code_block.py:43-49, link_reference_definition.py:114-122, lists.py:139-147 and
185-193, paragraph.py:26-32, setext_heading.py:62-69, table.py:129-130, thematic_break.py:48-49, with the properties they
use. -/
def sectionRepr (printable : Char → Bool) (ty : Sec) (lines : List Str) : Except Err Str :=
  let name := className ty
  match ty, lines with
  | .blank, _ => .ok (c!"<" ++ name ++ c!">")
  | .table, _ => .ok (c!"<" ++ name ++ c!": ToDo>")
  | .par, _ => .ok (c!"<" ++ name ++ c!": content=" ++ reprShort printable (parContent lines) ++ c!">")
  | .atx, [] => .error .runtime
  | .atx, l :: _ =>
    .ok (c!"<" ++ name ++ c!": depth=" ++ natStr (atxDepth l) ++ c!"; content=" ++
      reprShort printable (atxContent l) ++ c!">")
  | .quote, l :: _ => .ok (name ++ c!": first_line=" ++ reprShort printable l ++ c!">")
  | .indented, l :: _ => .ok (c!"<" ++ name ++ c!": first_line=" ++ reprShort printable (strip l) ++ c!">")
  | .fenced, l :: ls =>
    -- `first_line`
    match ls with
    | [] => .error .indexError
    | l1 :: more => do
      let first := if more.isEmpty then c!"None" else reprShort printable (strip l1)
      let char ← firstChar l
      let after := lstripBy (· == char) (strip l)
      .ok (c!"<" ++ name ++ c!": fence_char=" ++ pyRepr printable [char] ++ c!"; fence_count=" ++
        natStr ((strip l).length - after.length) ++ c!"; language=" ++ pyRepr printable (strip after) ++
        c!"; first_line=" ++ first ++ c!">")
  | .lrd, _ => do
    let (label, link, title) ← lrdParts lines
    .ok (c!"<" ++ name ++ c!": name=" ++ reprShort printable label ++ c!" link=" ++ reprShort printable link ++
      c!" title=" ++ reprShort printable title ++ c!">")
  | .bullet, l :: _ =>
    match lstrip l with
    | [] => .error .indexError
    | c :: _ =>
      .ok (name ++ c!": marker=" ++ pyRepr printable [c] ++ c!"; first_line=" ++ reprShort printable l ++ c!">")
  | .ordered, l :: _ => do
    let n ← firstNumber l
    .ok (name ++ c!": first_number=" ++ natStr n ++ c!"; first_line=" ++ reprShort printable l ++ c!">")
  | .setext, _ =>
    if lines.length < 2 then .error .runtime
    else do
      let char ← firstChar (lines.getLastD [])
      .ok (c!"<" ++ name ++ c!": char=" ++ pyRepr printable [char] ++ c!"; content=" ++
        reprShort printable (parContent lines.dropLast) ++ c!">")
  | .thematic, l :: _ => do
    let char ← firstChar l
    .ok (c!"<" ++ name ++ c!": char=" ++ pyRepr printable [char] ++ c!">")
  | _, [] => .error .indexError

/-- `MarkdownSectionEnum`, /repo/markflow/parser.py:24-37. -/
def secName : Sec → Str
  | .atx => c!"ATX Heading"
  | .blank => c!"Blank Line"
  | .quote => c!"Block Quote"
  | .bullet => c!"Bullet List"
  | .fenced => c!"Fenced Code Block"
  | .indented => c!"Indented Code Block"
  | .lrd => c!"Link Reference Definition"
  | .ordered => c!"Ordered List"
  | .par => c!"Paragraph"
  | .setext => c!"Setext Heading"
  | .table => c!"Table"
  | .thematic => c!"Thematic Break"

/-- `log_text`, /repo/markflow/reformat_markdown.py:53-56 and parser.py:66-71. -/
def linesText (first last : Nat) : Str :=
  if last > first then c!"Lines " ++ natStr first ++ c!"-" ++ natStr last else c!"Line " ++ natStr first

/-- The text of a message: the places given at `Msg`. -/
def Msg.text (printable : Char → Bool) : Msg → Except Err Str
  | .sect _ first last ty lines => do
    let r ← sectionRepr printable ty lines
    .ok (linesText first last ++ c!": " ++ r)
  | .added line => .ok (c!"Adding a new line before setext heading on line " ++ natStr line)
  | .noSpace line =>
    .ok (c!"Line " ++ natStr line ++ c!" is an ATX Header without a space after #'s. This has been corrected.")
  | .found first last ty => .ok (linesText first last ++ c!": " ++ secName ty)
  | .overIndented line =>
    .ok (c!"Detected that the fence on line " ++ natStr line ++
      c!" is over indented per the standard. If this is intentional, please file a bug report.")
  | .noLink line =>
    .ok (c!"The text on line " ++ natStr line ++ c!" seems to be a link reference definition, but it does not contain a link. We will be treating it as if it were.")

end MF
