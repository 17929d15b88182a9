import Verif.Props.InlineSpec
import Verif.Model.Format
/-!
# Lines of running text

A specification of the lines of paragraphs that does not mention the program: which lines start no other block
(`TextLine`), and which lines stand for which tokens (`Text`).
-/

namespace MF

/-- A line that starts with this word is no heading, quote, table row, fence, list entry, thematic break or underline. -/
structure Opener (w : Str) : Prop where
  ne : w ≠ []
  noWs : ∀ c ∈ w, isWs c = false
  start : ∀ c, w.head? = some c → c ∉ c!"#>|"
  fence : ∀ x ∈ c!"`~", ∃ c ∈ w.take 3, c ≠ x
  rule : ∀ x ∈ c!"*+-_=", ∃ c ∈ w, c ≠ x
  number : ¬ ∃ ds, w = ds ++ c!"." ∧ ∀ d ∈ ds, isDigit d = true

/-- The text starts with such a word. -/
def Opens (s : Str) : Prop := ∃ w ws, splitWs s = w :: ws ∧ Opener w

/-- A line of text: indented by less than four, it starts no other block, is no link definition, and has no hard break at
the end. -/
structure TextLine (l : Str) : Prop where
  spaces : ∀ c ∈ l, isWs c = true → c = ' '
  indent : getIndent l < 4
  opens : Opens l
  label : firstCh l = some '[' → ¬ c!"]:" <:+: l
  noBreak : ¬ ∃ r, l = r ++ c!"  "

/-- Tokens that can be laid out in lines of text, at any width: each of them may start a line. -/
structure Layable (ts : List Tok) : Prop where
  ne : ts ≠ []
  inline : ∃ s, Inline s ts
  opens : ∀ t ∈ ts, Opens t.text
  label : (∀ t ∈ ts, t.text.head? ≠ some '[') ∨ ∀ t ∈ ts, ¬ c!"]:" <:+: t.text

/-- Lines of text that stand for tokens: the lines are joined by spaces. -/
structure Text (ls : List Str) (ts : List Tok) : Prop where
  lines : ∀ l ∈ ls, TextLine l
  inline : Inline (pyJoin c!" " (ls.map strip)) ts
  layable : Layable ts

end MF
