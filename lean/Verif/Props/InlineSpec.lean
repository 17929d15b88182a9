import Verif.Lemmas.CodeSpans
/-!
# Text as a sequence of tokens

A specification of running text that does not mention the program: the tokens of a text (`Inline`), and how tokens are
laid out in lines (`layLines`).
-/

namespace MF

/-- What is between a token and the one before it. -/
inductive Gap where
  /-- white space -/
  | space
  /-- nothing -/
  | glue
  /-- nothing, and white space there does not count -/
  | link
  deriving DecidableEq, Repr

/-- A token: a piece of text that is kept on one line, and what is in front of it. -/
structure Tok where
  gap : Gap
  text : Str
  deriving DecidableEq, Repr

/-- A word: no white space, no code, link or line break in it. -/
structure PlainWord (w : Str) : Prop where
  ne : w ≠ []
  noWs : ∀ c ∈ w, isWs c = false
  noTick : '`' ∉ w
  noLink : ¬ c!"](" <:+: w ∧ ¬ c!"][" <:+: w
  noBr : ¬ c!"<br" <:+: w

/-- A code span between two runs of `k` backticks: there is no other run of that length in between. -/
structure Span (k : Nat) (body : Str) : Prop where
  pos : 0 < k
  ne : body ≠ []
  head : body.head? ≠ some '`'
  last : body.getLast? ≠ some '`'
  noRun : ¬ HasRun k body

/-- What is between two tokens with this white space between them. -/
def gapOf (g : Str) : Gap := if g = [] then .glue else .space

/-- The end of a word: the end of the text, white space, a code span or a line break. -/
def WordEnd (rest : Str) : Prop :=
  rest = [] ∨ (∃ c r, rest = c :: r ∧ (isWs c = true ∨ c = '`')) ∨ ∃ b r, rest = b ++ r ∧ IsBr b

/-- The text after a code span. A period right behind a code span belongs to it, unless it is one of several. What comes
next must not start with a single period (the program stops with an error there). -/
structure AfterCode (dot rest : Str) : Prop where
  dot : (dot = [] ∧ rest.head? ≠ some '`') ∨ (dot = c!"." ∧ rest.head? ≠ some '.')
  next : startsSingleDot (lstrip rest) = false

/-- The text of a link: `[name](target)` or `[name][target]`, and what is glued to it in front and behind. -/
def linkText (o c : Char) (pre name target tail : Str) : Str :=
  pre ++ '[' :: (name ++ ']' :: o :: (target ++ c :: tail))

/-- A link. The target is kept on one line, the name is not. -/
structure Link (o c : Char) (pre name target tail : Str) : Prop where
  kind : (o = '(' ∧ c = ')') ∨ (o = '[' ∧ c = ']')
  preOk : ∀ x ∈ pre, isWs x = false ∧ x ≠ ']' ∧ x ≠ ')'
  nameOk : name ≠ [] ∧ '[' ∉ name ∧ ¬ c!"](" <:+: name
  nameEnd : ∀ x, name.getLast? = some x → isWs x = false
  targetOk : target ≠ [] ∧ c ∉ target ∧ '[' ∉ target ∧ ¬ c!"](" <:+: target
  targetStart : ∀ x, target.head? = some x → isWs x = false
  tailOk : ∀ x ∈ tail, isWs x = false ∧ x ≠ '[' ∧ x ≠ '('
  noBr : ¬ c!"<br" <:+: pre ++ '[' :: name ∧ ¬ c!"<br" <+: target
  noTick : '`' ∉ linkText o c pre name target tail

/-- What is in front of a piece of text. -/
inductive Ctx where
  /-- the start, a word or a code span -/
  | start
  /-- a line break -/
  | br
  /-- a link with this bracket around its target and this text behind it -/
  | link (o : Char) (tail : Str)

/-- A word or line break may come here, after this white space. -/
def Ctx.word : Ctx → Str → Prop
  | .link _ _, g => g ≠ []
  | _, _ => True

/-- A link may come here, after this white space. White space between two links does not count, so they have to be told
apart without it. -/
def Ctx.toLink : Ctx → Str → Str → Char → Prop
  | .start, _, _, _ => True
  | .br, g, _, _ => g ≠ []
  | .link o' tail, _, pre, o =>
    pre = [] ∧ (o' = o ∨ tail = [] ∨ tail.getLast? = some ')') ∧ (o' = '(' → tail.getLast? ≠ some ']')

/-- What is between a link and the token in front of it. -/
def Ctx.gap : Ctx → Str → Gap
  | .link _ _, _ => .link
  | _, g => gapOf g

/-- The tokens of words, the first of them with this gap. -/
def wordToks (g : Gap) : List Str → List Tok
  | [] => []
  | w :: ws => ⟨g, w⟩ :: ws.map fun v => ⟨.space, v⟩

/-- The tokens of a text. -/
inductive Runs : Ctx → Str → List Tok → Prop
  | nil {k : Ctx} {s : Str} (h : ∀ c ∈ s, isWs c = true) : Runs k s []
  | word {k : Ctx} {g w rest : Str} {ts : List Tok} (hg : ∀ c ∈ g, isWs c = true) (hk : k.word g) (hw : PlainWord w)
      (hr : WordEnd rest) (h : Runs .start rest ts) : Runs k (g ++ (w ++ rest)) (⟨gapOf g, w⟩ :: ts)
  | br {k : Ctx} {g b rest : Str} {ts : List Tok} (hg : ∀ c ∈ g, isWs c = true) (hk : k.word g) (hb : IsBr b)
      (h : Runs .br rest ts) : Runs k (g ++ (b ++ rest)) (⟨gapOf g, b⟩ :: ts)
  | code {k : Ctx} {g body dot rest : Str} {n : Nat} {ts : List Tok} (hg : ∀ c ∈ g, isWs c = true) (hs : Span n body)
      (hd : AfterCode dot rest) (h : Runs .start rest ts) :
      Runs k (g ++ (ticks n ++ (body ++ (ticks n ++ (dot ++ rest))))) (⟨gapOf g, ticks n ++ (body ++ (ticks n ++ dot))⟩ :: ts)
  | link {k : Ctx} {g pre name v target tail rest : Str} {o c : Char} {ts : List Tok} (hg : ∀ x ∈ g, isWs x = true)
      (hk : k.toLink g pre o) (hl : Link o c pre name target tail) (hv : ∀ x ∈ v, isWs x = true)
      (h : Runs (.link o tail) rest ts) :
      Runs k (g ++ (linkText o c pre name (v ++ target) tail ++ rest))
        (wordToks (k.gap g) (splitWs (pre ++ '[' :: (name ++ [']', o]))) ++ ⟨.link, target ++ c :: tail⟩ :: ts)

/-- The tokens of a text that can be wrapped: it has no white space at its ends and none but spaces, and does not start
with a single period. -/
structure Inline (s : Str) (ts : List Tok) : Prop where
  runs : Runs .start s ts
  stripped : strip s = s
  spaces : ∀ c ∈ s, isWs c = true → c = ' '
  noDot : startsSingleDot s = false

/-! ## Layout -/

/-- The token is a line break. -/
def Tok.isBr (t : Tok) : Bool := [c!"<br>", c!"<br/>", c!"<br >", c!"<br />"].contains t.text

/-- A token with the space in front of it. -/
def Tok.spaced (t : Tok) : Str := if t.gap = .space then ' ' :: t.text else t.text

/-- The text of a line. -/
def lineText : List Tok → Str
  | [] => []
  | t :: ts => t.text ++ (ts.map Tok.spaced).flatten

/-- A line of this length is short enough. A width that is not positive counts as unlimited. -/
def fitsIn (w : Width) (n : Nat) : Bool := w.nonpos || w.ge n

/-- Puts tokens into lines as long as they fit: `cur` is the line that is being filled. A line break ends the line. -/
def lay (w : Width) : List Tok → List Tok → List (List Tok)
  | cur, [] => if cur.isEmpty then [] else [cur]
  | cur, t :: ts =>
    if cur.isEmpty || fitsIn w (lineText (cur ++ [t])).length then
      if t.isBr then (cur ++ [t]) :: lay w [] ts else lay w (cur ++ [t]) ts
    else cur :: (if t.isBr then [t] :: lay w [] ts else lay w [t] ts)

/-- The lines that tokens fill. -/
def layLines (w : Width) (ts : List Tok) : List Str := (lay w [] ts).map lineText

/-- The token at the start of a line that is not the first one: the line break takes the place of a space. -/
def Tok.broken (t : Tok) : Tok := ⟨if t.gap = .glue then .space else t.gap, t.text⟩

/-- The tokens of a line that is not the first one. -/
def brokenLine : List Tok → List Tok
  | [] => []
  | t :: ts => t.broken :: ts

/-- The tokens once they are laid out: tokens that were glued to the one before and start a line are not any more. -/
def settle (w : Width) (ts : List Tok) : List Tok :=
  match lay w [] ts with
  | [] => []
  | l :: ls => l ++ (ls.map brokenLine).flatten

end MF
