import Verif.Props.TextSpec
/-!
# Lines that define a link

A specification of link reference definitions that does not mention the program: which definitions can be written down
(`Ref`), how they are written (`refLine`), and which lines stand for them (`RefAt`, `TailAt`).
-/

namespace MF

/-- A definition on one line: `[label]: link title`. -/
def refLine (label link title : Str) : Str :=
  '[' :: (label ++ (c!"]: " ++ (link ++ (if title = [] then [] else ' ' :: title))))

/-- A title: text between two quotation marks. -/
def IsTitle (title : Str) : Prop :=
  ∃ q body, (q = '"' ∨ q = '\'') ∧ title = q :: (body ++ [q]) ∧ q ∉ body ∧ body.getLast? ≠ some '\\'

/-- A definition: a label, a link without white space, and perhaps a title. -/
structure Ref (label link title : Str) : Prop where
  labelOk : label ≠ [] ∧ label.length ≤ 999 ∧ ']' ∉ label
  linkOk : link ≠ [] ∧ ∀ c ∈ link, isWs c = false
  titleOk : title = [] ∨ IsTitle title
  single : pyJoin c!" " (splitWs title) = title
  noLB : NoLB label ∧ NoLB link ∧ NoLB title

/-- A line of plain words with one space between them. -/
structure PlainLine (l : Str) : Prop where
  single : pyJoin c!" " (splitWs l) = l
  plain : ∀ w ∈ splitWs l, PlainWord w

/-- A line that stands for a definition. -/
def RefAt (l label link title : Str) : Prop :=
  ∃ ws g g' e, l = ws ++ '[' :: (label ++ (']' :: ':' :: (g ++ (link ++ (g' ++ (title ++ e)))))) ∧
    (∀ x ∈ [ws, g, g', e], ∀ c ∈ x, isWs c = true) ∧ (∀ x ∈ [ws, g, g', e], NoLB x) ∧ ws.length < 4 ∧
    (title ≠ [] → g' ≠ [])

/-- A line that stands for a definition without a title at the very end of a text. The program takes it for a paragraph,
so there must be a space between its parts, there are no spaces but blanks, and it does not end in a hard break. -/
def TailAt (l label link : Str) : Prop :=
  ∃ ws g e, l = ws ++ '[' :: (label ++ (']' :: ':' :: (g ++ (link ++ e)))) ∧
    (∀ x ∈ [ws, g, e], ∀ c ∈ x, c = ' ') ∧ ws.length < 4 ∧ g ≠ [] ∧ e.length ≤ 1

end MF
