import Verif.Py.Str
/-!
# What CommonMark makes of a document

A specification of the block structure of CommonMark 0.29 (https://spec.commonmark.org/0.29/), the standard that the
README refers to. It does not mention the program. It follows the parsing strategy of the standard (appendix): line by
line, with a list of open containers and one open leaf. The result is the sequence of the tags of the rendered document
(`Ev`), with the words of paragraphs and headings and the lines of code.

The result is `none` for documents with something that is not covered: white space other than spaces, HTML blocks,
paragraphs that start with a bracket (they may be link definitions), and empty list items. Inside paragraphs,
markup is not interpreted apart from hard line breaks: their words stand for it.
-/

namespace MF.CM

/-- A list: bullets with this character, or numbers with this delimiter. -/
inductive Mark where
  | bullet (c : Char)
  | number (c : Char)
  deriving DecidableEq, Repr

/-- The text of paragraphs and headings: words and hard line breaks. -/
inductive Piece where
  | word (w : Str)
  | br
  deriving DecidableEq, Repr

/-- The rendered document: opening and closing tags of containers, and leaves. In loose lists paragraphs have tags. -/
inductive Ev where
  | quote
  | endQuote
  | list (m : Mark) (first : Nat)
  | item
  | endItem
  | endList (loose : Bool)
  | heading (level : Nat) (text : List Piece)
  | par (text : List Piece)
  | rule
  | code (info : Str) (body : List Str)
  deriving DecidableEq, Repr

/-- An open container. An item takes lines that are indented by `n`; `gap` says that its last line was blank. Whether
the list is known to be loose. -/
inductive Ctr where
  | quote
  | item (m : Mark) (n : Nat) (gap loose : Bool)
  deriving DecidableEq, Repr

/-- The open leaf. Code between fences: the fence, its indentation, the info string. -/
inductive Leaf where
  | none
  | par (ls : List Str)
  | code (ls : List Str)
  | fence (f : Char) (k ind : Nat) (info : Str) (ls : List Str)
  deriving DecidableEq, Repr

/-! ## Lines -/

/-- The number of spaces in front. -/
def indent (l : Str) : Nat := (l.takeWhile (· == ' ')).length

/-- The line without them. -/
def text (l : Str) : Str := l.dropWhile (· == ' ')

/-- 4.9 Blank lines. -/
def blank (l : Str) : Bool := l.all (· == ' ')

/-- Removes up to `n` spaces. -/
def unindent : Nat → Str → Str
  | n + 1, ' ' :: r => unindent n r
  | _, l => l

/-- The content of a heading without a closing sequence of number signs. -/
def unclose (s : Str) : Str :=
  match s.reverse.dropWhile (· == '#') with
  | [] => []
  | ' ' :: r => rstrip r.reverse
  | _ => s

/-- 4.2 ATX headings: level and content. -/
def atx (t : Str) : Option (Nat × Str) :=
  let k := (t.takeWhile (· == '#')).length
  let r := t.dropWhile (· == '#')
  if 1 ≤ k ∧ k ≤ 6 ∧ (r = [] ∨ r.head? = some ' ') then some (k, unclose (strip r)) else none

/-- 4.3 Setext headings: the level that an underline stands for. -/
def underline (t : Str) : Option Nat :=
  let r := rstripBy (· == ' ') t
  if t.head? = some '=' ∧ r.all (· == '=') then some 1
  else if t.head? = some '-' ∧ r.all (· == '-') then some 2
  else none

/-- 4.1 Thematic breaks. -/
def isRule (t : Str) : Bool :=
  ['*', '-', '_'].any fun c => t.all (fun x => x == ' ' || x == c) && decide (3 ≤ (t.filter (· == c)).length)

/-- 4.5 Fenced code blocks: the opening fence. -/
def fence (t : Str) : Option (Char × Nat × Str) :=
  match t with
  | [] => none
  | f :: _ =>
    let k := (t.takeWhile (· == f)).length
    let r := t.dropWhile (· == f)
    if (f = '`' ∧ '`' ∉ r ∨ f = '~') ∧ 3 ≤ k then some (f, k, strip r) else none

/-- The closing fence. -/
def closes (f : Char) (k : Nat) (l : Str) : Bool :=
  decide (indent l < 4) && decide (k ≤ ((text l).takeWhile (· == f)).length) && blank ((text l).dropWhile (· == f))

/-- 5.2 List items: the list, the number, the width of the marker and the text behind it. -/
def marker (t : Str) : Option (Mark × Nat × Nat × Str) :=
  match t with
  | [] => none
  | c :: r =>
    if (c = '-' ∨ c = '+' ∨ c = '*') ∧ (r = [] ∨ r.head? = some ' ') then some (.bullet c, 0, 1, r)
    else
      let ds := t.takeWhile isDigit
      match t.dropWhile isDigit with
      | [] => none
      | d :: s =>
        if 1 ≤ ds.length ∧ ds.length ≤ 9 ∧ (d = '.' ∨ d = ')') ∧ (s = [] ∨ s.head? = some ' ') then
          some (.number d, parseNat ds, ds.length + 1, s)
        else none

/-- The spaces behind a list marker that belong to it. -/
def padding (r : Str) : Nat := if 5 ≤ indent r then 1 else indent r

/-- A line that may interrupt a paragraph (of which `t` is the text): quotes, headings, code, breaks and lists. A list
has to start with 1. -/
def interrupts (t : Str) : Bool :=
  t.head? == some '>' || (atx t).isSome || (fence t).isSome || isRule t ||
    match marker t with
    | some (m, k, _, r) => !blank r && (match m with | .bullet _ => true | .number _ => k == 1)
    | none => false

/-- The same where the paragraph is inside of a container that the line does not belong to: lists may start with any
number. -/
def startsBlock (t : Str) : Bool :=
  t.head? == some '>' || (atx t).isSome || (fence t).isSome || isRule t || (marker t).isSome

/-! ## Closing blocks -/

/-- Whether a line of a paragraph ends with an odd number of backslashes. -/
def slashed (l : Str) : Bool := (l.reverse.takeWhile (· == '\\')).length % 2 == 1

/-- The words of a line that is not the last one, and the hard line break at its end. -/
def lineText (l : Str) : List Piece :=
  if slashed l then (splitWs l.dropLast).map .word ++ [.br]
  else if l.reverse.take 2 = [' ', ' '] then (splitWs l).map .word ++ [.br]
  else (splitWs l).map .word

/-- The text of a paragraph. -/
def inlines : List Str → List Piece
  | [] => []
  | [l] => (splitWs l).map .word
  | l :: m :: r => lineText l ++ inlines (m :: r)

/-- Indented code ends with its last line that is not blank. -/
def trimBlank (ls : List Str) : List Str := (ls.reverse.dropWhile blank).reverse

/-- What an open leaf becomes. -/
def Leaf.close : Leaf → List Ev
  | .none => []
  | .par ls => [.par (inlines ls)]
  | .code ls => [.code [] (trimBlank ls)]
  | .fence _ _ _ info ls => [.code info ls]

/-- The end of a container. -/
def Ctr.close : Ctr → List Ev
  | .quote => [.endQuote]
  | .item _ _ _ loose => [.endItem, .endList loose]

/-- Open containers, the outermost first, and the open leaf. -/
structure State where
  cs : List Ctr
  leaf : Leaf
  deriving DecidableEq, Repr

/-- Closing everything. -/
def closeAll (leaf : Leaf) : List Ctr → List Ev
  | [] => leaf.close
  | c :: cs => closeAll leaf cs ++ c.close

/-- The end of the label of a link definition (4.7). -/
def labelled : Str → Bool
  | [] => false
  | c :: r => (c == ']' && r.head? == some ':') || labelled r

/-- A paragraph that may start with link definitions, which are not covered. -/
def defines (ls : List Str) : Bool := (ls.headD []).head? == some '[' && ls.any labelled

/-- A paragraph with one more line. -/
def grow (ls : List Str) (l : Str) : Option (State × List Ev) :=
  if defines (ls ++ [l]) then none else some (⟨[], .par (ls ++ [l])⟩, [])

/-! ## Opening blocks -/

/-- The state and output, with something in front. -/
def under (c : Ctr) (ev : List Ev) (x : Option (State × List Ev)) : Option (State × List Ev) :=
  x.map fun (s, e) => (⟨c :: s.cs, s.leaf⟩, ev ++ e)

/-- The blocks that a line opens where no leaf is open. -/
def start : Nat → Str → Option (State × List Ev)
  | 0, _ => none
  | n + 1, l =>
    if blank l then some (⟨[], .none⟩, [])
    else if 4 ≤ indent l then some (⟨[], .code [unindent 4 l]⟩, [])
    else if (text l).head? = some '>' then under .quote [.quote] (start n (unindent 1 (text l).tail))
    else match atx (text l) with
    | some (k, s) => some (⟨[], .none⟩, [.heading k ((splitWs s).map .word)])
    | none => match fence (text l) with
    | some (f, k, info) => some (⟨[], .fence f k (indent l) info []⟩, [])
    | none =>
      if isRule (text l) then some (⟨[], .none⟩, [.rule])
      else match marker (text l) with
      | some (m, k, w, r) =>
        if blank r then none
        else under (.item m (indent l + w + padding r) false false) [.list m k, .item] (start n (r.drop (padding r)))
      | none =>
        if (text l).head? = some '<' then none
        else grow [] (text l)

/-- A line opens the blocks it starts. -/
def opens (l : Str) : Option (State × List Ev) := start (l.length + 1) l

/-- Output that comes first. -/
def after (ev : List Ev) (x : Option (State × List Ev)) : Option (State × List Ev) := x.map fun (s, e) => (s, ev ++ e)

/-! ## Lines one after the other -/

/-- The next line, where only a leaf is open. -/
def leafStep : Leaf → Str → Option (State × List Ev)
  | .none, l => opens l
  | .par ls, l =>
    if blank l then some (⟨[], .none⟩, Leaf.close (.par ls))
    else if 4 ≤ indent l then grow ls (text l)
    else if (text l).head? = some '<' then none
    else match underline (text l) with
    | some k => some (⟨[], .none⟩, [.heading k (inlines ls)])
    | none =>
      if interrupts (text l) then after (Leaf.close (.par ls)) (opens l)
      else grow ls (text l)
  | .code ls, l =>
    if blank l || decide (4 ≤ indent l) then some (⟨[], .code (ls ++ [unindent 4 l])⟩, [])
    else after (Leaf.close (.code ls)) (opens l)
  | .fence f k i info ls, l =>
    if closes f k l then some (⟨[], .none⟩, [.code info ls])
    else some (⟨[], .fence f k i info (ls ++ [unindent i l])⟩, [])

/-- A line that does not belong to the open containers but continues a paragraph in them. -/
def lazy (l : Str) : Bool := !blank l && (decide (4 ≤ indent l) || !startsBlock (text l))

/-- A line that does not belong to the containers `c :: cs`. -/
def leave (c : Ctr) (cs : List Ctr) (leaf : Leaf) (l : Str) : Option (State × List Ev) :=
  match leaf, lazy l with
  | .par ls, true =>
    if (text l).head? = some '<' ∨ defines (ls ++ [text l]) = true then none
    else some (⟨c :: cs, .par (ls ++ [text l])⟩, [])
  | _, _ => after (closeAll leaf (c :: cs)) (opens l)

/-- A line that is marked as part of a quote. -/
def quoted (l : Str) : Option Str :=
  if indent l < 4 ∧ (text l).head? = some '>' then some (unindent 1 (text l).tail) else none

/-- A line that starts the next item of a list: its marker and so on. -/
def sibling (m : Mark) (l : Str) : Option (Nat × Str) :=
  if 4 ≤ indent l ∨ isRule (text l) = true then none
  else match marker (text l) with
  | some (m', _, w, r) => if m = m' then some (indent l + w + padding r, r) else none
  | none => none

/-- Whether the open leaf is code between fences. -/
def Leaf.isFence : Leaf → Bool
  | .fence .. => true
  | _ => false

/-- Whether a line after a blank line is the start of a new block, not a further line of code or part of the open list. -/
def fresh (leaf : Leaf) : List Ctr → Str → Bool
  | .item m n _ _ :: _, l => !decide (n ≤ indent l) && (sibling m l).isNone
  | _, l => match leaf with
    | .code _ => !decide (4 ≤ indent l)
    | _ => true

/-- The next line. 5.3: a list is loose if there are blank lines between its items or between the blocks of an item. -/
def step (leaf : Leaf) : List Ctr → Str → Option (State × List Ev)
  | [], l => leafStep leaf l
  | .quote :: cs, l =>
    match quoted l with
    | some r => under .quote [] (step leaf cs r)
    | none => leave .quote cs leaf l
  | .item m n gap loose :: cs, l =>
    if blank l then under (.item m n (gap || !leaf.isFence) loose) [] (step leaf cs (unindent n l))
    else if n ≤ indent l then
      under (.item m n false (loose || gap && fresh leaf cs (unindent n l))) [] (step leaf cs (unindent n l))
    else match sibling m l with
    | some (n', r) =>
      if blank r then none
      else after (closeAll leaf cs) (under (.item m n' false (loose || gap)) [.endItem, .item] (opens (r.drop (padding r))))
    | none => leave (.item m n gap loose) cs leaf l

/-- The lines one after the other. -/
def exec (s : State) : List Str → Option (State × List Ev)
  | [] => some (s, [])
  | l :: ls => match step s.leaf s.cs l with
    | none => none
    | some (s', ev) => after ev (exec s' ls)

/-- The rendered document. -/
def render (ls : List Str) : Option (List Ev) :=
  if ls.all (fun l => l.all fun c => !isWs c || c == ' ') then
    (exec ⟨[], .none⟩ ls).map fun (s, ev) => ev ++ closeAll s.leaf s.cs
  else none

/-- Lines end with a line feed, a carriage return or both (2.1). -/
def lines : Str → List Str
  | [] => []
  | c :: r =>
    if c == '\r' && r.head? == some '\n' then lines r
    else if c == '\n' || c == '\r' then [] :: lines r
    else consHead c (lines r)

/-- The rendered text. -/
def html (s : Str) : Option (List Ev) := render (lines s)

end MF.CM
