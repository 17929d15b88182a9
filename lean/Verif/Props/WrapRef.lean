import Verif.Props.InlineSpec
/-!
# A reference for wrapping

What wrapping does to any text, without regular expressions: the text is divided into code and other text, that into links
and other text, that at line breaks, and the rest into words; what comes out is put into lines.
-/

namespace MF

/-- A piece of text. -/
structure Bit where
  /-- a space goes in front of it, unless a line starts there -/
  space : Bool
  text : Str
  /-- it may be divided further -/
  isOpen : Bool
  deriving DecidableEq, Repr

/-- Text between other pieces, without the white space around it. `lead` says whether there is a space in front of it if
it is the first piece. -/
def plainBits (lead : Option Bool) (s : Str) : List Bit :=
  if strip s = [] then [] else [⟨lead.getD (startsWith s c!" "), strip s, true⟩]

/-- A single period behind a piece belongs to it. -/
def dotOf (s : Str) : Str := if startsSingleDot s then c!"." else []

/-- What follows that period. -/
def undot (s : Str) : Str := if startsSingleDot s then s.drop 1 else s

/-! ## Code -/

/-- The text in front of the first backtick, and the runs of backticks, each with its length and the text behind it. -/
def tickRuns : Str → Str × List (Nat × Str)
  | [] => ([], [])
  | c :: s =>
    let r := tickRuns s
    if c = '`' then
      match r with
      | ([], (k, t) :: more) => ([], (k + 1, t) :: more)
      | (a, more) => ([], (1, a) :: more)
    else (c :: r.1, r.2)

/-- Where the scan for code is. -/
inductive CodeAt where
  /-- outside of code, before this text -/
  | out (lead : Option Bool) (s : Str)
  /-- in code that a run of `k` backticks has opened and of which `code` has been seen; next is `s` -/
  | within (space : Bool) (k : Nat) (code s : Str)

/-- Code ends at the next run of the same length. If there is none, it ends at the last backtick, and a run of backticks
behind which there are no others does not open code. -/
def codeBits : CodeAt → List (Nat × Str) → List Bit
  | .out lead s, [] => plainBits lead s
  | .out lead s, (k, t) :: more =>
    plainBits lead s ++
      codeBits (.within (if strip s = [] then lead.getD (endsWith s c!" ") else endsWith s c!" ") k (ticks k) t) more
  | .within space _ code s, [] =>
    if code.all (· == '`') then [⟨space, code ++ rstrip s, true⟩]
    else ⟨space, code ++ dotOf s, false⟩ :: plainBits none (undot s)
  | .within space k code s, (j, t) :: more =>
    if j = k then ⟨space, code ++ s ++ ticks k ++ dotOf t, false⟩ :: codeBits (.out none (undot t)) more
    else codeBits (.within space k (code ++ s ++ ticks j) t) more

/-- The pieces of a text, code told from other text. Text without a backtick that begins with a single period is an
error. -/
def codePieces (lead : Bool) (s : Str) : Except Err (List Bit) :=
  let r := tickRuns s
  if r.2.isEmpty && startsSingleDot s then .error .indexError else .ok (codeBits (.out (some lead) r.1) r.2)

/-! ## Finding links and line breaks -/

/-- Where and how long the things are of which `len` tells the length if the text begins with one, and 0 otherwise. What
is found first counts: it is looked on behind it. `pos` is where the text begins and `skip` how much of it to pass over. -/
def scan (len : Str → Nat) : Nat → Nat → Str → List (Nat × Nat)
  | _, _, [] => []
  | pos, skip + 1, _ :: s => scan len (pos + 1) skip s
  | pos, 0, c :: s =>
    match len (c :: s) with
    | 0 => scan len (pos + 1) 0 s
    | n + 1 => (pos, n + 1) :: scan len (pos + 1) n s

/-- The target of a link, which goes up to the first `c`: its length, that character included. -/
def targetLen (c : Char) (s : Str) : Option Nat :=
  let n := (s.takeWhile (· != c)).length
  if n = 0 ∨ n = s.length then none else some (n + 1)

/-- `]`, `o` and a target. -/
def behindName (o c : Char) : Str → Option Nat
  | b :: p :: r => if b = ']' ∧ p = o then (targetLen c r).map (· + 2) else none
  | _ => none

/-- The name of a link and its target, `o` in front of the target and `c` behind it. There is no `[` in the name; the
longest name counts. -/
def nameLen (o c : Char) : Str → Option Nat
  | [] => none
  | x :: s =>
    if x = '[' then none
    else
      match nameLen o c s with
      | some n => some (n + 1)
      | none => (behindName o c s).map (· + 1)

/-- A link with the word in front of it: no white space, `]` or `)` in that; the last `[` possible counts. -/
def linkFront (o c : Char) : Str → Option Nat
  | [] => none
  | x :: s =>
    if isWs x || x == ']' || x == ')' then none
    else match linkFront o c s with
      | some n => some (n + 1)
      | none => if x = '[' then (nameLen o c s).map (· + 1) else none

/-- A link with the word in front of it and the one behind it. -/
def linkLen (o c : Char) (s : Str) : Nat :=
  match linkFront o c s with
  | none => 0
  | some n => n + ((s.drop n).takeWhile fun x => !(isWs x || x == '[' || x == '(')).length

/-- A line break of HTML. -/
def brLen (s : Str) : Nat :=
  match [c!"<br>", c!"<br/>", c!"<br >", c!"<br />"].find? (startsWith s) with
  | none => 0
  | some b => b.length

/-- Merges two lists by position; of two at the same place the first list's comes first. -/
def mergeFound : List (Nat × Nat) → List (Nat × Nat) → List (Nat × Nat)
  | [], bs => bs
  | a :: as, bs => bs.takeWhile (·.1 < a.1) ++ a :: mergeFound as (bs.dropWhile (·.1 < a.1))

/-- References `[name][target]` and links `[name](target)`. They are looked for separately and may overlap. -/
def links (s : Str) : List (Nat × Nat) := mergeFound (scan (linkLen '[' ']') 0 0 s) (scan (linkLen '(' ')') 0 0 s)

/-! ## Links -/

/-- The two parts of a link: up to its first `](`, or `][` if there is no `](`, and what follows, up to the second. -/
def linkHalves (g : Str) : Str × Str :=
  let o := if isIn c!"](" g then '(' else '['
  let parts := splitPair ']' o g
  (strip (parts.getD 0 []) ++ [']', o], strip (parts.getD 1 []))

/-- The text up to the next link. -/
def upTo (s : Str) (last : Nat) : List (Nat × Nat) → Str
  | [] => s.drop last
  | (i, _) :: _ => slice s last i

/-- Text and links from the position `last`. `first` is given at the beginning. -/
def linkBits (s : Str) (first : Option Bool) (last : Nat) : List (Nat × Nat) → List Bit
  | [] => plainBits first (if first.isSome then s.drop last else undot (s.drop last))
  | (i, n) :: more =>
    let before := slice s last i
    let text := if first.isSome then before else undot before
    let link := linkHalves (slice s i (i + n))
    let target : Bit := ⟨false, link.2 ++ dotOf (upTo s (i + n) more), false⟩
    (if strip before = [] then [⟨first.getD false, link.1, true⟩]
      else [⟨first.getD (startsWith text c!" "), strip text, true⟩, ⟨endsWith before c!" ", link.1, true⟩]) ++
      target :: linkBits s none (i + n) more

/-- The pieces of a text, the targets of links told from other text. Text without links that begins with a single period
is an error. -/
def linkPieces (lead : Bool) (s : Str) : Except Err (List Bit) :=
  if (links s).isEmpty && startsSingleDot s then .error .indexError else .ok (linkBits s (some lead) 0 (links s))

/-! ## Line breaks and words -/

/-- Text and line breaks from the position `last`. -/
def brBits (s : Str) (first : Option Bool) (last : Nat) : List (Nat × Nat) → List Bit
  | [] => plainBits first (s.drop last)
  | (i, n) :: more =>
    let before := slice s last i
    let lead := first.getD (startsWith before c!" ")
    (if strip before = [] then [⟨lead, slice s i (i + n), false⟩]
      else [⟨lead, strip before, true⟩, ⟨endsWith before c!" ", slice s i (i + n), false⟩]) ++
      brBits s none (i + n) more

def brPieces (lead : Bool) (s : Str) : List Bit := brBits s (some lead) 0 (scan brLen 0 0 s)

/-- What is between spaces. -/
def wordPieces (lead : Bool) (s : Str) : List Bit :=
  match ((splitChar ' ' s).filter (· ≠ [])).map strip with
  | [] => []
  | w :: ws => ⟨lead, w, true⟩ :: ws.map fun v => ⟨true, v, true⟩

/-! ## Lines -/

/-- Divides the pieces that may be divided. -/
def refine (f : Bool → Str → Except Err (List Bit)) : List Bit → Except Err (List Bit)
  | [] => .ok []
  | b :: bs => do
    let x ← if b.isOpen then f b.space b.text else .ok [b]
    let y ← refine f bs
    .ok (x ++ y)

/-- The lines: a piece goes on the line if that is then not too long, or empty before; a line break ends a line. -/
def fillLines (w : Width) : Str → List Bit → List Str
  | cur, [] => if cur = [] then [] else [cur]
  | cur, b :: bs =>
    let longer := if b.space && cur ≠ [] then cur ++ ' ' :: b.text else cur ++ b.text
    let ended (line : Str) : List Str := if brLen b.text ≠ 0 then line :: fillLines w [] bs else fillLines w line bs
    if cur = [] || fitsIn w longer.length then ended longer else cur :: ended b.text

/-- A text wrapped. -/
def wrapRef (text : Str) (w : Width) : Except Err Str := do
  let bs ← codePieces false (pyJoin [' '] ((splitlines text).map strip))
  let bs ← refine linkPieces bs
  let bs ← refine (fun l s => .ok (brPieces l s)) bs
  let bs ← refine (fun l s => .ok (wordPieces l s)) bs
  .ok (pyJoin ['\n'] (fillLines w [] bs))

end MF
