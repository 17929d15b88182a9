import Verif.Model.Detect
/-!
# Which lines a link definition takes: specification

Written with no regular expression: a label, a first word, and a title that runs to the first quotation mark with no
backslash before it.
-/

namespace MF

/-- The text behind the first `q` that no backslash escapes; a backslash that is itself escaped escapes nothing.
`esc`: the character before is a backslash that escapes. -/
def closeAfter (q : Char) : Bool → Str → Option Str
  | _, [] => none
  | esc, c :: cs => if c == q && !esc then some cs else closeAfter q (c == '\\' && !esc) cs

/-- How a title runs whose text begins with `line` and goes on in `more`. `(k, true)`: it closes at the end of the
`k`-th of these lines. `(k, false)`: it does not close; the line after the first `k` is the one with text behind the
closing mark, or the last line of the document. -/
def titleRun (q : Char) (line : Str) : List Str → Nat × Bool
  | [] =>
    match closeAfter q false line with
    | some r => if r.all isWs then (1, true) else (0, false)
    | none => (0, false)
  | next :: more =>
    match closeAfter q false line with
    | some r => if r.all isWs then (1, true) else (0, false)
    | none => ((titleRun q next more).1 + 1, (titleRun q next more).2)

/-- The text behind `[name]:` at the beginning of a line, the name of 1 to 999 characters, the line indented by less
than four. -/
def labelRest (l : Str) : Option Str :=
  if 4 ≤ getIndent l then none
  else
    match l.dropWhile isWs with
    | '[' :: s =>
      match s.dropWhile (· != ']') with
      | ']' :: ':' :: r =>
        if 1 ≤ (s.takeWhile (· != ']')).length ∧ (s.takeWhile (· != ']')).length ≤ 999 then some r else none
      | _ => none
    | _ => none

/-- What follows the first word of a text; `none` when the text has no word, `some []` when it has one only. -/
def behindWord (s : Str) : Option Str :=
  match s.dropWhile isWs with
  | [] => none
  | c :: r => some (((c :: r).dropWhile fun x => !isWs x).dropWhile isWs)

/-- Lines of a definition whose link and title stand on the line after the first `before` lines, the title beginning
with `title`: the title has to close, or there is no definition. -/
def titleNeeded (before : Nat) (title : Str) (more : List Str) : Nat :=
  match title with
  | q :: rest =>
    if (q == '\'' || q == '"') && (titleRun q rest more).2 then before + (titleRun q rest more).1 else 0
  | [] => 0

/-- Lines of a definition whose link ends the `before`-th line: a title may follow from the first character of the next
line. If it does not close, the definition takes the lines up to the one that spoils it. -/
def titleMaybe (before : Nat) (line : Str) (more : List Str) : Nat :=
  match line with
  | q :: rest => if q == '\'' || q == '"' then before + (titleRun q rest more).1 else before
  | [] => before

/-- The number of lines of the link definition at the beginning of `lines`; 0: there is none. -/
def defLines : List Str → Except Err Nat
  | [] => .error .stopIteration
  | l :: more =>
    match labelRest l with
    | none => .ok 0
    | some r =>
      match behindWord r with
      | some (c :: t) => .ok (titleNeeded 0 (c :: t) more)
      | some [] =>
        match more with
        | [] => .ok 0
        | l1 :: more1 => .ok (titleMaybe 1 l1 more1)
      | none =>
        match more with
        | [] => .ok 1
        | l1 :: more1 =>
          if l1.head? = some '[' then .ok 1
          else
            match behindWord l1, more1 with
            | none, _ => .ok 1
            | some (c :: t), _ => .ok (titleNeeded 1 (c :: t) more1)
            | some [], l2 :: more2 => .ok (titleMaybe 2 l2 more2)
            | some [], [] => .error .stopIteration

end MF
