import Verif.Lemmas.Sections
import Verif.Props.Tables
import Verif.Props.RefSpec
/-!
# Documents as trees

A specification of documents that does not mention the program: trees of blocks (`Node`), how a tree is written down
(`printDoc`), and which lines of text stand for which tree (`Reads`). `Props/Tree.lean` proves that the program formats
every text that stands for a tree by writing that tree down.
-/

namespace MF

/-- A block of a document. -/
inductive Node where
  /-- an empty line -/
  | blank
  /-- a heading with `depth` number signs -/
  | heading (depth : Nat) (text : Str)
  /-- a heading underlined with `c`: its words, code spans and line breaks -/
  | underlined (c : Char) (ts : List Tok)
  /-- a paragraph: its words, code spans and line breaks -/
  | par (ts : List Tok)
  /-- a paragraph with a hard line break at its end -/
  | hard (ts : List Tok)
  /-- an indented code block -/
  | indented (body : List Str)
  /-- a link definition -/
  | ref (label link title : Str)
  /-- a link definition without a title on the very last line -/
  | tail (label link : Str)
  /-- a thematic break -/
  | rule (c : Char)
  /-- a code block between fences of `k` characters `f` -/
  | code (f : Char) (k : Nat) (info : Str) (body : List Str)
  /-- a table -/
  | table (aligns : List Align) (head : List Str) (rows : List (List Str))
  /-- a block quote; `space` says whether a space follows the markers -/
  | quote (space : Bool) (inner : List Node)
  /-- a bullet list -/
  | bullets (c : Char) (items : List (List Node))
  /-- an ordered list -/
  | numbers (first : Nat) (items : List (List Node))

/-! ## Writing trees down -/

/-- The length of the longest line. -/
def longestLine (ls : List Str) : Nat := ls.foldl (fun n l => max n l.length) 0

/-- One prefix for the first line and another one for all others. -/
def hang (first cont : Str) : List Str → List Str
  | [] => []
  | l :: ls => (first ++ l) :: ls.map (cont ++ ·)

/-- A cell in a column of width `n`. -/
def padCell (a : Align) (n : Nat) (s : Str) : Str :=
  let room := n - s.length
  match a with
  | .left => s ++ List.replicate room ' '
  | .right => List.replicate room ' ' ++ s
  | _ => List.replicate (room / 2) ' ' ++ s ++ List.replicate (room - room / 2) ' '

/-- Text columns without an alignment are left-aligned. -/
def bodyAlign : Align → Align
  | .none => .left
  | a => a

/-- One cell per column. -/
def zip3 (f : Align → Nat → Str → Str) : List Align → List Nat → List Str → List Str
  | a :: as, n :: ns, s :: ss => f a n s :: zip3 f as ns ss
  | _, _, _ => []

/-- A row: bars around and between the cells. -/
def barred (cells : List Str) : Str := '|' :: (cells.map (· ++ ['|'])).flatten

/-- The divider of a column. -/
def ruleCell (a : Align) (n : Nat) : Str :=
  (if a = .center ∨ a = .left then [':'] else ['-']) ++ List.replicate n '-' ++
    (if a = .center ∨ a = .right then [':'] else ['-'])

/-- The widths of the columns. -/
def colWidths (head : List Str) (rows : List (List Str)) : List Nat :=
  rows.foldl (fun ws r => ws.zipWith (fun w c => max w c.length) r) (head.map List.length)

/-- The lines of a table. -/
def tableLines (aligns : List Align) (head : List Str) (rows : List (List Str)) : List Str :=
  let ns := colWidths head rows
  let cell (a : Align) (n : Nat) (s : Str) : Str := ' ' :: padCell a n s ++ [' ']
  barred (zip3 cell aligns ns head) :: barred (zip3 (fun a n _ => ruleCell a n) aligns ns head) ::
    rows.map fun r => barred (zip3 (fun a => cell (bodyAlign a)) aligns ns r)

/-- One more space in front, except for empty lines. -/
def spaced (l : Str) : Str := if l.isEmpty then [] else ' ' :: l

/-- Two spaces after the last line. -/
def hardLast : List Str → List Str
  | [] => []
  | [l] => [l ++ c!"  "]
  | l :: m :: r => l :: hardLast (m :: r)

mutual
/-- The lines of a block in normal form. -/
def Node.print (w : Width) : Node → List Str
  | .blank => [[]]
  | .heading k t => [List.replicate k '#' ++ ' ' :: t]
  | .underlined c ts => layLines w ts ++ [List.replicate (longestLine (layLines w ts)) c]
  | .par ts => layLines w ts
  | .hard ts => hardLast (layLines w ts)
  | .indented body => body
  | .ref label link title => [refLine label link title]
  | .tail label link => [refLine label link []]
  | .rule c => [MF.rule c w]
  | .code f k info body => (List.replicate k f ++ info) :: body ++ [List.replicate k f]
  | .table as head rows => tableLines as head rows
  | .quote sp inner =>
    (printDoc (w.sub (if sp then 2 else 1)) inner).map fun l => '>' :: (if sp then spaced l else l)
  | .bullets c items => printItems (w.sub 2) (fun _ => [c, ' ']) c!"  " 0 items
  | .numbers first items =>
    let indent := (natStr (first + items.length - 1)).length + 2
    printItems (w.sub indent) (fun k => natStr (first + k) ++ c!". ") (List.replicate indent ' ') 0 items
/-- The lines of a document. -/
def printDoc (w : Width) : List Node → List Str
  | [] => []
  | a :: r => a.print w ++ printDoc w r
/-- The lines of list entries, counted from `k`. -/
def printItems (w : Width) (mark : Nat → Str) (cont : Str) (k : Nat) : List (List Node) → List Str
  | [] => []
  | it :: r => hang (mark k) cont (printDoc w it) ++ printItems w mark cont (k + 1) r
end

mutual
/-- A block as it is after it was written down: text that follows a code span without a space gets a space if it was moved
to another line. -/
def Node.settle (w : Width) : Node → Node
  | .underlined c ts => .underlined c (MF.settle w ts)
  | .par ts => .par (MF.settle w ts)
  | .hard ts => .hard (MF.settle w ts)
  | .quote sp inner => .quote sp (settleDoc (w.sub (if sp then 2 else 1)) inner)
  | .bullets c items => .bullets c (settleItems (w.sub 2) items)
  | .numbers first items =>
    .numbers first (settleItems (w.sub ((natStr (first + items.length - 1)).length + 2 : Nat)) items)
  | a => a
/-- The same for the blocks of a document. -/
def settleDoc (w : Width) : List Node → List Node
  | [] => []
  | a :: r => a.settle w :: settleDoc w r
/-- The same for list entries. -/
def settleItems (w : Width) : List (List Node) → List (List Node)
  | [] => []
  | it :: r => settleDoc w it :: settleItems w r
end

mutual
/-- No token is glued to the one in front of it. White space in front of the target of a link does not count. -/
def Node.loose : Node → Prop
  | .underlined _ ts => ∀ t ∈ ts.tail, t.gap ≠ .glue
  | .par ts => ∀ t ∈ ts.tail, t.gap ≠ .glue
  | .hard ts => ∀ t ∈ ts.tail, t.gap ≠ .glue
  | .quote _ inner => looseDoc inner
  | .bullets _ items => looseItems items
  | .numbers _ items => looseItems items
  | _ => True
/-- The same for the blocks of a document. -/
def looseDoc : List Node → Prop
  | [] => True
  | a :: r => a.loose ∧ looseDoc r
/-- The same for list entries. -/
def looseItems : List (List Node) → Prop
  | [] => True
  | it :: r => looseDoc it ∧ looseItems r
end

/-! ## Trees that can be written down -/

mutual
/-- There are no hard line breaks. -/
def Node.soft : Node → Bool
  | .hard _ => false
  | .quote _ inner => softDoc inner
  | .bullets _ items => softItems items
  | .numbers _ items => softItems items
  | _ => true
/-- The same for the blocks of a document. -/
def softDoc : List Node → Bool
  | [] => true
  | a :: r => a.soft && softDoc r
/-- The same for list entries. -/
def softItems : List (List Node) → Bool
  | [] => true
  | it :: r => softDoc it && softItems r
end

mutual
/-- The block ends with a paragraph that a further line of text would continue. -/
def Node.opn : Node → Bool
  | .par _ => true
  | .hard _ => true
  | .tail _ _ => true
  | .quote _ inner => opnDoc inner
  | _ => false
/-- The same for the last block of a document. -/
def opnDoc : List Node → Bool
  | [] => false
  | [a] => a.opn
  | _ :: b :: r => opnDoc (b :: r)
end

mutual
/-- There is room for thematic breaks, and for link definitions with a title and for those at the end. -/
def Node.wide (w : Width) : Node → Bool
  | .rule _ => w.ge 3
  | .ref label link title => title.isEmpty || w.ge (refLine label link title).length
  | .tail label link => w.ge (refLine label link []).length
  | .quote sp inner => wideDoc (w.sub (if sp then 2 else 1)) inner
  | .bullets _ items => wideItems (w.sub 2) items
  | .numbers first items => wideItems (w.sub ((natStr (first + items.length - 1)).length + 2)) items
  | _ => true
def wideDoc (w : Width) : List Node → Bool
  | [] => true
  | a :: r => a.wide w && wideDoc w r
def wideItems (w : Width) : List (List Node) → Bool
  | [] => true
  | it :: r => wideDoc w it && wideItems w r
end

/-- The kind of section a block is. -/
def Node.kind : Node → Sec
  | .blank => .blank
  | .heading .. => .atx
  | .underlined .. => .setext
  | .par .. => .par
  | .hard .. => .par
  | .indented .. => .indented
  | .ref .. => .lrd
  | .tail .. => .par
  | .rule .. => .thematic
  | .code .. => .fenced
  | .table .. => .table
  | .quote .. => .quote
  | .bullets .. => .bullet
  | .numbers .. => .ordered

/-- What may follow a block without a blank line in between. -/
structure Node.Before (a b : Node) : Prop where
  par : a.kind = .par → b ≠ .rule '-' ∧ ((∃ ts, a = .hard ts) ∨
    b.kind ≠ .par ∧ b.kind ≠ .setext ∧ b.kind ≠ .indented ∧ b.kind ≠ .lrd)
  tail : ∀ label link, a ≠ .tail label link
  lrd : a.kind = .lrd → b.kind ≠ .setext ∧ (b.kind = .par → ∃ label link, b = .tail label link)
  quote : a.kind = .quote → b.kind ≠ .quote ∧ b.kind ≠ .setext ∧
    (a.opn = true → b.kind ≠ .par ∧ b.kind ≠ .indented ∧ b.kind ≠ .lrd)
  list : a.kind = .bullet ∨ a.kind = .ordered → b.kind = .blank ∨ b.kind = .thematic ∨ b.kind = .table
  table : a.kind = .table → b.kind ≠ .table ∧ b.kind ≠ .indented

/-- Two indented code blocks have more than blank lines between them. `after` says whether there was one in front. -/
def apart (after : Bool) : List Node → Bool
  | [] => true
  | .blank :: r => apart after r
  | .indented _ :: r => !after && apart true r
  | _ :: r => apart false r

/-- A document without the empty lines at its end. -/
def trimEnd : List Node → List Node
  | [] => []
  | a :: r => match a, trimEnd r with
    | .blank, [] => []
    | a, r => a :: r

/-- Blocks that need something after them: paragraphs with a hard line break at the end, and link definitions without a
title. -/
def Node.ahead : Node → Bool
  | .hard _ => true
  | .ref _ _ title => title.isEmpty
  | _ => false

/-- Blocks that may be written one after the other. -/
structure Flow (doc : List Node) : Prop where
  adj : Adj Node.Before doc
  apart : apart false doc = true
  last : ∀ r a, trimEnd doc = r ++ [a] → a.ahead = false

/-- A line of code that may be part of a list entry: it is no blank line, no thematic break, no row of a table, no
fence. -/
def plainCode (l : Str) : Bool :=
  (c!"*_-").all (fun x => l.any fun c => !isWs c && c != x) && (lstrip l).head? != some '|' &&
    (lstrip l).take 3 != c!"```" && (lstrip l).take 3 != c!"~~~"

/-- Blocks that list entries may have: the others would end the list or disturb its entries. -/
def Node.inside : Node → Bool
  | .heading .. | .par .. | .hard .. | .ref .. | .tail .. | .quote .. | .bullets .. | .numbers .. => true
  | .underlined c _ => c == '='
  | .indented body => body.all plainCode
  | _ => false

/-- Blocks of text. -/
def Node.isText : Node → Bool
  | .heading .. | .underlined .. | .par .. | .hard .. => true
  | _ => false

/-- Text and lists: they stay the same if all lines are indented by up to three spaces. -/
def Node.slides : Node → Bool
  | .bullets .. | .numbers .. => true
  | a => a.isText

/-- Entries that stay the same if all lines but the first are indented by up to three spaces. -/
def slidesDoc : List Node → Bool
  | [] => true
  | a :: r => a.isText && r.all Node.slides

/-- The entries of a list are indented for a number with `n` digits. Entries with shorter numbers have to put up with it. -/
def fitsItems (n : Nat) : Nat → List (List Node) → Bool
  | _, [] => true
  | k, it :: r => ((natStr k).length == n || decide (n ≤ (natStr k).length + 3) && slidesDoc it) && fitsItems n (k + 1) r

/-- A cell of a table: no space around it, no bar in it. -/
structure Cell (c : Str) : Prop where
  trimmed : strip c = c
  noBar : '|' ∉ c
  noLB : NoLB c

/-- A tree that can be written down, nested at most `d` deep. -/
def Node.WF : Nat → Node → Prop
  | 0, _ => False
  | _ + 1, .blank => True
  | _ + 1, .heading k t => 1 ≤ k ∧ t ≠ [] ∧ strip t = t ∧ NoLB t
  | _ + 1, .underlined c ts => (c = '=' ∨ c = '-') ∧ Layable ts
  | _ + 1, .par ts => Layable ts
  | _ + 1, .hard ts => Layable ts
  | _ + 1, .indented body => (∀ l ∈ body, rstrip l = l ∧ NoLB l ∧ (l = [] ∨ 4 ≤ getIndent l)) ∧
      (∃ l r, body = l :: r ∧ l ≠ [] ∧ ¬ FenceLine l) ∧ ∃ r l, body = r ++ [l] ∧ l ≠ [] ∧ ¬ FenceLine l
  | _ + 1, .ref label link title => Ref label link title ∧ (title ≠ [] → PlainLine (refLine label link title))
  | _ + 1, .tail label link => Ref label link [] ∧ PlainLine (refLine label link [])
  | _ + 1, .rule c => c = '*' ∨ c = '_' ∨ c = '-'
  | _ + 1, .code f k info body => (f = '`' ∨ f = '~') ∧ 3 ≤ k ∧ strip info = info ∧ info.head? ≠ some f ∧ NoLB info ∧
      ∀ l ∈ body, rstrip l = l ∧ NoLB l ∧ strip l ≠ List.replicate k f
  | _ + 1, .table as head rows => head ≠ [] ∧ as.length = head.length ∧ (∀ r ∈ rows, r.length = head.length) ∧
      (∀ c ∈ head, Cell c) ∧ ∀ r ∈ rows, ∀ c ∈ r, Cell c
  | d + 1, .quote sp inner => inner ≠ [] ∧ (∀ a ∈ inner, a.WF d) ∧ Flow inner ∧ softDoc inner = true ∧
      (sp = true → ∃ a ∈ inner, a.kind ≠ .blank ∧ a.kind ≠ .indented)
  | d + 1, .bullets c items => (c = '*' ∨ c = '+' ∨ c = '-') ∧ items ≠ [] ∧
      ∀ it ∈ items, it ≠ [] ∧ (∀ a ∈ it, a.WF d ∧ a.inside = true) ∧ Flow it
  | d + 1, .numbers first items => fitsItems (natStr (first + items.length - 1)).length first items = true ∧ items ≠ [] ∧
      ∀ it ∈ items, it ≠ [] ∧ (∀ a ∈ it, a.WF d ∧ a.inside = true) ∧ Flow it

/-- A document that can be written down. -/
def WFDoc (d : Nat) (doc : List Node) : Prop := (∀ a ∈ doc, a.WF d) ∧ Flow doc

/-! ## Text that stands for a tree -/

/-- Two lists agree element by element. -/
inductive Each {α β : Type} (R : α → β → Prop) : List α → List β → Prop
  | nil : Each R [] []
  | cons {x : α} {y : β} {xs : List α} {ys : List β} (h : R x y) (hs : Each R xs ys) : Each R (x :: xs) (y :: ys)

/-- Removes whitespace from the first `n` columns of a line. -/
def unindent : Nat → Str → Str
  | 0, l => l
  | _, [] => []
  | n + 1, c :: r => if isWs c then unindent n r else c :: r

/-- The lines of a list entry, and the document they stand for without the marker and the indentation. -/
def EntryReads (R : List Str → List Node → Prop) (e : List Str) (item : List Node) : Prop :=
  ∃ head conts ws m r, e = head :: conts ∧ MarkerAt head ws m (' ' :: r) ∧
    R (r :: conts.map (unindent (ws.length + m.length + 1))) item

/-- The lines of a list start with a line that has this marker; no further line ends the list or is a fence; and the
entries are the documents. -/
structure ListReads (R : List Str → List Node → Prop) (marker : Str) (ls : List Str) (items : List (List Node)) : Prop where
  split : ∃ (ws r : Str) (rest : List Str) (es : List (List Str)), ls = (ws ++ (marker ++ ' ' :: r)) :: rest ∧ es.flatten = ls ∧
    (∀ c ∈ ws, isWs c = true) ∧ ws.length < 4 ∧ strip r ≠ [] ∧ EntriesFrom ws.length es ∧
    (∀ l ∈ rest, listEnd l = false ∧ ¬ FenceLine l) ∧ Each (EntryReads R) es items
  noLB : ∀ l ∈ ls, NoLB l

/-- Whether there is a space behind the markers: the first line with text and at most one space decides. -/
inductive Space : Bool → List Str → Prop
  | nil : Space false []
  | blank {sp : Bool} {l : Str} {ls : List Str} (h : strip l = []) (hs : Space sp ls) : Space sp (l :: ls)
  | more {sp : Bool} {l : Str} {ls : List Str} (h : 2 ≤ getIndent l) (hs : Space sp ls) : Space sp (l :: ls)
  | yes {l : Str} {ls : List Str} (h : strip l ≠ []) (hi : getIndent l = 1) : Space true (l :: ls)
  | no {l : Str} {ls : List Str} (h : strip l ≠ []) (hi : getIndent l = 0) : Space false (l :: ls)

/-- Lines that stand for a block. `R` says which lines stand for nested documents. `S` says how lines behind quote
markers divide into sections, with the space after the marker still in place: the program looks at them in this form to
find the end of the quote. -/
inductive ReadsNode (R : List Str → List Node → Prop) (S : List Str → Bool → Prop) : List Str → Node → Prop
  | blank {l : Str} (h : ∀ c ∈ l, isWs c = true) (hl : NoLB l) : ReadsNode R S [l] .blank
  | heading {ws text : Str} {k : Nat} (hws : ∀ c ∈ ws, isWs c = true) (hi : ws.length < 4) (ht : text.head? ≠ some '#')
      (hl : NoLB ws ∧ NoLB text) : ReadsNode R S [ws ++ List.replicate k '#' ++ text] (.heading k (strip text))
  | underlined {ls : List Str} {ts : List Tok} {u : Str} {c : Char} {m : Nat} (h : Text ls ts) (hi : getIndent u < 4)
      (hu : strip u = List.replicate (m + 1) c) (hl : NoLB u) : ReadsNode R S (ls ++ [u]) (.underlined c ts)
  | par {ls : List Str} {ts : List Tok} (h : Text ls ts) : ReadsNode R S ls (.par ts)
  | hard {ls : List Str} {l ws : Str} {ts : List Tok} (h : Text (ls ++ [l]) ts) (hws : ∀ c ∈ ws, c = ' ')
      (h2 : 2 ≤ ws.length) : ReadsNode R S (ls ++ [l ++ ws]) (.hard ts)
  | indented {ls : List Str} (h : ∀ l ∈ ls, strip l = [] ∨ 4 ≤ getIndent l) (hl : ∀ l ∈ ls, NoLB l) :
      ReadsNode R S ls (.indented (ls.map rstrip))
  | ref {l label link title : Str} (h : RefAt l label link title) : ReadsNode R S [l] (.ref label link title)
  | tail {l label link : Str} (h : TailAt l label link) : ReadsNode R S [l] (.tail label link)
  | rule {l : Str} {c : Char} (hi : getIndent l < 4) (hc : ∀ x ∈ l, isWs x = true ∨ x = c)
      (h3 : 3 ≤ (l.filter fun x => !isWs x).length) (hb : bulletLine l = false) (hl : NoLB l) : ReadsNode R S [l] (.rule c)
  | code {f : Char} {k : Nat} {ws info close : Str} {content : List Str} (hws : ∀ c ∈ ws, isWs c = true)
      (hi : ws.length < 4) (hinfo : info.head? ≠ some f) (hclose : strip close = List.replicate k f)
      (hl : NoLB ws ∧ NoLB info ∧ NoLB close ∧ ∀ c ∈ content, NoLB c) :
      ReadsNode R S ((ws ++ List.replicate k f ++ info) :: content ++ [close]) (.code f k (strip info) (content.map rstrip))
  | table {header divider : Str} {body hc dc : List Str} {rows : List (List Str)} (hi : getIndent header < 4)
      (hh : Row header hc) (hd : Row divider dc) (hb : Rows body rows) (hdc : ∀ c ∈ dc, DelimCell c)
      (hesc : ∀ l ∈ body, ¬ HasEscapedBar l) (hl : ∀ l ∈ header :: divider :: body, NoLB l) :
      ReadsNode R S (header :: divider :: body) (.table (dc.map dividerAlign) hc rows)
  | quote {sp : Bool} {ls rs : List Str} {inner : List Node} (h0 : ∃ r, ls.head? = some ('>' :: r)) (hq : Quoted ls rs)
      (hsp : Space sp rs) (hR : R (if sp then rs.map dropSpace else rs) inner) (hS : S rs (opnDoc inner))
      (hl : ∀ l ∈ ls, NoLB l) : ReadsNode R S ls (.quote sp inner)
  | bullets {c : Char} {ls : List Str} {items : List (List Node)} (h : ListReads R [c] ls items) :
      ReadsNode R S ls (.bullets c items)
  | numbers {ds : Str} {ls : List Str} {items : List (List Node)} (hds : ds ≠ []) (hd : ∀ d ∈ ds, isDigit d = true)
      (h : ListReads R (ds ++ ['.']) ls items) : ReadsNode R S ls (.numbers (parseNat ds) items)

/-- Lines that divide into sections; the flag says whether the last one ends with an open paragraph. -/
def Divides (d : Nat) (ls : List Str) (o : Bool) : Prop :=
  ∃ doc b, Sections d (doc ++ [b]) ∧ blkLines (doc ++ [b]) = ls ∧ b.opn = o

/-- Lines that stand for a document, nested at most `d` deep. -/
def Reads : Nat → List Str → List Node → Prop
  | 0, _, _ => False
  | d + 1, ls, doc => ∃ parts : List (List Str), parts.flatten = ls ∧ Each (ReadsNode (Reads d) (Divides d)) parts doc

end MF
