import Verif.Props.CommonSpec
import Verif.Props.Prose
import Verif.Props.TreeSpec
/-!
# Trees that CommonMark reads the same way

The trees of `Props/TreeSpec.lean` for which the rules of CommonMark (`Props/CommonSpec.lean`) say the same (`Node.Reg`,
`CmFlow`), what they are rendered as (`Node.ev`), and which lines CommonMark reads as such a tree (`RDoc`).
-/

namespace MF

open CM (Piece Ev)

/-! ## What trees are rendered as -/

/-- The words of tokens. -/
def tokWords (ts : List Tok) : List Str := words (ts.map (·.text))

/-- The words of a paragraph. -/
def tokPieces (ts : List Tok) : List Piece := (tokWords ts).map .word

/-- The target of a link may follow. -/
def targetNext (w : Str) : Bool := endsWith w c!"](" || endsWith w c!"]["

/-- One more word in front. -/
def fineWord (w : Str) : List Piece → List Piece
  | .word v :: r => if targetNext w then .word (w ++ v) :: r else .word w :: .word v :: r
  | r => .word w :: r

/-- White space in front of the target of a link does not count. -/
def finePieces : List Piece → List Piece
  | [] => []
  | .word w :: r => fineWord w (finePieces r)
  | .br :: r => .br :: finePieces r

/-- That white space and trailing spaces in code do not count. -/
def fineEv : Ev → Ev
  | .code info body => .code info (body.map rstrip)
  | .par ps => .par (finePieces ps)
  | .heading k ps => .heading k (finePieces ps)
  | e => e

/-! ## Trees -/

/-- There are no spaces but the usual ones. -/
def Spaced (l : Str) : Prop := ∀ c ∈ l, isWs c = true → c = ' '

/-- A word that opens a line of text for CommonMark, too. -/
structure CmWord (w : Str) : Prop extends Opener w where
  noParen : ¬ ∃ ds, w = ds ++ c!")" ∧ ∀ d ∈ ds, isDigit d = true
  noHtml : w.head? ≠ some '<'

/-- The text starts with such a word. -/
def CmOpens (s : Str) : Prop := ∃ w ws, splitWs s = w :: ws ∧ CmWord w

/-- A token that can be a line of text. -/
structure CmTok (t : Tok) : Prop where
  spaced : Spaced t.text
  opens : CmOpens t.text
  stripped : strip t.text = t.text
  noSlash : t.text.getLast? ≠ some '\\'

/-- Tokens that can be lines of text. None is glued to another, apart from the targets of links. -/
structure CmToks (ts : List Tok) : Prop where
  ne : ts ≠ []
  tok : ∀ t ∈ ts, CmTok t
  gaps : Adj (fun a b => b.gap = .space ∨ b.gap = .link ∧ targetNext a.text = true) ts
  start : CM.defines (ts.map (·.text)) = false

/-- The line cannot be taken for a part of a thematic break. -/
def Busy (l : Str) : Prop := ∀ x ∈ c!"*-_", ∃ c ∈ l, c ≠ ' ' ∧ c ≠ x

/-- What was in front of a block: something that is closed, a paragraph, a part of a paragraph that ends with a hard line
break, indented code, a quote (that may end with an open paragraph) or a list (maybe with blank lines after it, or between
its entries). -/
inductive Prev where
  | free
  | par
  | hard (ps : List Piece)
  | code
  | quote (o : Bool)
  | list (m : CM.Mark) (gap loose : Bool)

/-- There may be an open paragraph. -/
def Prev.opn : Prev → Bool
  | .par => true
  | .hard _ => true
  | .quote o => o
  | .list _ g _ => !g
  | _ => false

/-- What is in front of what comes after a blank line. -/
def Prev.blank : Prev → Prev
  | .code => .code
  | .list m _ loose => .list m true loose
  | _ => .free

/-- Whether it is a list. -/
def Prev.isList : Prev → Bool
  | .list .. => true
  | _ => false

/-- The block is rendered as a part of what is in front of it: lists go on after blank lines, paragraphs go on after hard
line breaks. -/
def Prev.joins : Prev → Node → Bool
  | .list .., .blank => true
  | .list m _ _, .bullets c _ => m == .bullet c
  | .list m _ _, .numbers .. => m == .number '.'
  | .hard _, .par _ => true
  | .hard _, .hard _ => true
  | _, _ => false

/-- The text that a paragraph starts with. -/
def Prev.lead : Prev → List Piece
  | .hard ps => ps ++ [.br]
  | _ => []

mutual
/-- What is in front of the block after this one. -/
def Node.post (p : Prev) : Node → Prev
  | .blank => p.blank
  | .par _ => .par
  | .hard ts => .hard (p.lead ++ tokPieces ts)
  | .indented _ => .code
  | .quote _ inner => .quote (docPost .free inner).opn
  | .bullets c items => .list (.bullet c) false (p.joins (.bullets c items))
  | .numbers first items => .list (.number '.') false (p.joins (.numbers first items))
  | _ => .free
/-- The same after several blocks. -/
def docPost (p : Prev) : List Node → Prev
  | [] => p
  | a :: r => docPost (a.post p) r
end

/-- The end of what is in front. -/
def Prev.fin : Prev → List Ev
  | .list _ _ loose => [.endList loose]
  | .hard ps => [.par ps]
  | _ => []

mutual
/-- What a block is rendered as, after the end of what is in front of it. -/
def Node.own (p : Prev) : Node → List Ev
  | .heading k t => [.heading k ((splitWs (CM.unclose t)).map .word)]
  | .underlined c ts => [.heading (if c = '=' then 1 else 2) (tokPieces ts)]
  | .par ts => [.par (p.lead ++ tokPieces ts)]
  | .indented body => [.code [] (body.map (CM.unindent 4))]
  | .rule _ => [.rule]
  | .code _ _ info body => [.code info body]
  | .quote _ inner => .quote :: (docEvs .free inner ++ (docPost .free inner).fin ++ [.endQuote])
  | .bullets c items => (if p.joins (.bullets c items) then [] else [.list (.bullet c) 0]) ++ itemsEv items
  | .numbers first items => (if p.joins (.numbers first items) then [] else [.list (.number '.') first]) ++ itemsEv items
  | _ => []
/-- What blocks are rendered as. The last list or paragraph may go on. -/
def docEvs (p : Prev) : List Node → List Ev
  | [] => []
  | a :: r => (if p.joins a then [] else p.fin) ++ a.own p ++ docEvs (a.post p) r
/-- What list entries are rendered as. -/
def itemsEv : List (List Node) → List Ev
  | [] => []
  | it :: r => .item :: (docEvs .free it ++ (docPost .free it).fin ++ .endItem :: itemsEv r)
end

/-- What a block is rendered as. -/
def Node.ev (p : Prev) (a : Node) : List Ev := (if p.joins a then [] else p.fin) ++ a.own p

/-- What a document is rendered as. -/
def docEv (doc : List Node) : List Ev := docEvs .free doc ++ (docPost .free doc).fin

/-- A block may follow. -/
def Prev.allows : Prev → Node → Prop
  | _, .blank => True
  | .free, _ => True
  | .hard _, .par _ => True
  | .hard _, .hard _ => True
  | .hard _, .heading .. => True
  | .hard _, .rule c => c ≠ '-'
  | .hard _, .code .. => True
  | .hard _, .quote .. => True
  | .hard _, .bullets .. => True
  | .hard _, .numbers first _ => first = 1
  | .hard _, _ => False
  | .par, .heading .. => True
  | .par, .rule c => c ≠ '-'
  | .par, .code .. => True
  | .par, .quote .. => True
  | .par, .bullets .. => True
  | .par, .numbers first _ => first = 1
  | .par, _ => False
  | .code, .indented _ => False
  | .code, _ => True
  | .quote _, .quote .. => False
  | .quote o, .par _ => o = false
  | .quote o, .hard _ => o = false
  | .quote o, .underlined .. => o = false
  | .quote o, .indented _ => o = false
  | .quote _, _ => True
  | .list _ false _, .rule _ => True
  | .list _ false _, _ => False
  | .list _ true _, .indented _ => False
  | .list _ true _, _ => True

/-- Each block may follow the one in front of it. -/
def CmFlow : Prev → List Node → Prop
  | _, [] => True
  | p, a :: r => p.allows a ∧ CmFlow (a.post p) r

/-- Blocks of list entries: none has blank lines or is a thematic break. -/
def Node.solid : Node → Prop
  | .blank => False
  | .code .. => False
  | .rule _ => False
  | .indented body => ∀ l ∈ body, Busy l
  | _ => True

/-- A tree for CommonMark, nested at most `d` deep. -/
def Node.Reg : Nat → Node → Prop
  | 0, _ => False
  | _ + 1, .blank => True
  | _ + 1, .heading k t => 1 ≤ k ∧ k ≤ 6 ∧ t ≠ [] ∧ strip t = t ∧ Spaced t
  | _ + 1, .underlined c ts => (c = '=' ∨ c = '-') ∧ CmToks ts
  | _ + 1, .par ts => CmToks ts
  | _ + 1, .hard ts => CmToks ts ∧ ∀ t, ts.head? = some t → t.text.head? ≠ some '['
  | _ + 1, .indented body => (∀ l ∈ body, rstrip l = l ∧ Spaced l ∧ (l = [] ∨ 4 ≤ CM.indent l)) ∧
      (∃ l r, body = l :: r ∧ l ≠ []) ∧ ∃ r l, body = r ++ [l] ∧ l ≠ []
  | _ + 1, .rule c => c = '*' ∨ c = '_' ∨ c = '-'
  | _ + 1, .code f k info body => (f = '`' ∨ f = '~') ∧ 3 ≤ k ∧ strip info = info ∧ info.head? ≠ some f ∧
      (f = '`' → '`' ∉ info) ∧ Spaced info ∧ ∀ l ∈ body, rstrip l = l ∧ Spaced l ∧ CM.closes f k l = false
  | d + 1, .quote sp inner => sp = true ∧ inner ≠ [] ∧ (∀ a ∈ inner, a.Reg d) ∧ CmFlow .free inner
  | d + 1, .bullets c items => (c = '*' ∨ c = '+' ∨ c = '-') ∧ items ≠ [] ∧
      ∀ it ∈ items, it ≠ [] ∧ (∀ a ∈ it, a.Reg d ∧ a.solid) ∧ CmFlow .free it
  | d + 1, .numbers first items => (natStr (first + items.length - 1)).length ≤ 9 ∧
      fitsItems (natStr (first + items.length - 1)).length first items = true ∧ items ≠ [] ∧
      ∀ it ∈ items, it ≠ [] ∧ (∀ a ∈ it, a.Reg d ∧ a.solid) ∧ CmFlow .free it
  | _ + 1, _ => False

/-- A document for CommonMark. -/
def RegDoc (d : Nat) (doc : List Node) : Prop := (∀ a ∈ doc, a.Reg d) ∧ CmFlow .free doc

/-! ## Lines -/

/-- `n` spaces. -/
def blanks (n : Nat) : Str := List.replicate n ' '

/-- Lines of text. -/
structure RText (ls : List Str) (ts : List Tok) : Prop where
  ne : ls ≠ []
  words : finePieces ((words ls).map .word) = finePieces (tokPieces ts)
  line : ∀ l ∈ ls, Spaced l ∧ CM.indent l < 4 ∧ CmOpens l ∧ l.getLast? ≠ some '\\' ∧ ¬ ∃ r, l = r ++ c!"  "
  start : CM.defines (ls.map CM.text) = false

/-- The lines of list entries. The marker of each is indented by less than `k`. The other lines of each are indented as
the text behind the marker. -/
def RItems (R : List Str → List Node → Prop) (mark : Str → Prop) : Nat → List (List Str) → List (List Node) → Prop
  | _, [], [] => True
  | k, e :: es, it :: its => ∃ i mk r conts, e = (blanks i ++ (mk ++ ' ' :: r)) :: conts ∧ i < k ∧ i < 4 ∧ mark mk ∧
      CM.blank r = false ∧ (CM.indent r = 0 ∨ 4 ≤ CM.indent r) ∧ CM.isRule (mk ++ ' ' :: r) = false ∧
      (∀ l ∈ conts, CM.blank l = false ∧ i + mk.length + 1 ≤ CM.indent l) ∧
      R (r :: conts.map (CM.unindent (i + mk.length + 1))) it ∧ RItems R mark (i + mk.length + 1) es its
  | _, _, _ => False

/-- The marker of a numbered entry. -/
def NumberMark (mk : Str) : Prop := ∃ ds, mk = ds ++ c!"." ∧ 1 ≤ ds.length ∧ ds.length ≤ 9 ∧ ∀ d ∈ ds, isDigit d = true

/-- Lines that CommonMark reads as a block. -/
inductive RNode (R : List Str → List Node → Prop) : List Str → Node → Prop
  | blank {l : Str} (h : CM.blank l = true) : RNode R [l] .blank
  | heading {i k : Nat} {t : Str} (hi : i < 4) (ht : t.head? = some ' ') :
      RNode R [blanks i ++ (List.replicate k '#' ++ t)] (.heading k (strip t))
  | underlined {ls : List Str} {ts : List Tok} {i m j : Nat} {c : Char} (h : RText ls ts) (hi : i < 4) :
      RNode R (ls ++ [blanks i ++ (List.replicate (m + 1) c ++ blanks j)]) (.underlined c ts)
  | par {ls : List Str} {ts : List Tok} (h : RText ls ts) : RNode R ls (.par ts)
  | hard {ls : List Str} {l : Str} {ts : List Tok} {j : Nat} (h : RText (ls ++ [l]) ts)
      (hs : ∀ x, (ls ++ [l]).head? = some x → (CM.text x).head? ≠ some '[') :
      RNode R (ls ++ [l ++ blanks (j + 2)]) (.hard ts)
  | indented {ls : List Str} (h : ∀ l ∈ ls, CM.blank l = true ∨ 4 ≤ CM.indent l) : RNode R ls (.indented (ls.map rstrip))
  | rule {i : Nat} {l : Str} {c : Char} (hi : i < 4) (hh : l.head? = some c) (hl : ∀ x ∈ l, x = ' ' ∨ x = c)
      (h3 : 3 ≤ (l.filter (· == c)).length) : RNode R [blanks i ++ l] (.rule c)
  | code {f : Char} {k : Nat} {info close : Str} {content : List Str} (hinfo : info.head? ≠ some f)
      (hinfo2 : f = '`' → '`' ∉ info) (hclose : CM.closes f k close = true)
      (hc : ∀ l ∈ content, CM.closes f k l = false) :
      RNode R ((List.replicate k f ++ info) :: (content ++ [close])) (.code f k (strip info) (content.map rstrip))
  | quote {rs : List Str} {inner : List Node} (hR : R (rs.map (CM.unindent 1)) inner) :
      RNode R (rs.map ('>' :: ·)) (.quote true inner)
  | bullets {c : Char} {es : List (List Str)} {items : List (List Node)} (h : RItems R (· = [c]) 4 es items) :
      RNode R es.flatten (.bullets c items)
  | numbers {i : Nat} {ds r : Str} {conts : List Str} {es : List (List Str)} {items : List (List Node)}
      (h : RItems R NumberMark 4 (((blanks i ++ ((ds ++ c!".") ++ ' ' :: r)) :: conts) :: es) items)
      (hd : ∀ d ∈ ds, isDigit d = true) :
      RNode R (((blanks i ++ ((ds ++ c!".") ++ ' ' :: r)) :: conts) ++ es.flatten) (.numbers (parseNat ds) items)

/-- A block that comes after a list is not indented. -/
def CmFlush : Prev → List (List Str) → List Node → Prop
  | p, b :: bs, a :: as =>
    (p.isList = true → a ≠ .blank → CM.indent (b.headD []) = 0) ∧ CmFlush (a.post p) bs as
  | _, _, _ => True

/-- Lines that CommonMark reads as a document, nested at most `d` deep. -/
def RDoc : Nat → List Str → List Node → Prop
  | 0, _, _ => False
  | d + 1, ls, doc => ∃ parts : List (List Str), parts.flatten = ls ∧ Each (RNode (RDoc d)) parts doc ∧ CmFlush .free parts doc

end MF
