/-!
# Python string primitives used by markflow

Model of the builtin `str` methods that `/repo/markflow` calls. These are CPython builtins, not code of the
repository; their behaviour here is part of the trusted base (see DESIGN.md). The character tables were
compared with CPython 3.11 over all code points.
-/

namespace MF

/-- A Python `str`: a list of code points (surrogates excluded). -/
abbrev Str := List Char

open Lean in
/-- `c!"abc"` is the character list `['a', 'b', 'c']`. -/
macro:max "c!" s:str : term => do
  let cs := s.getString.toList.toArray.map fun c => Syntax.mkCharLit c
  `(([$cs,*] : Str))

/-- Code points for which `str.isspace` holds; also what `strip()`, `split()` and regex `\s` use. -/
def isWs (c : Char) : Bool :=
  let n := c.toNat
  (9 ≤ n && n ≤ 13) || (28 ≤ n && n ≤ 32) || n == 0x85 || n == 0xa0 || n == 0x1680 ||
  (0x2000 ≤ n && n ≤ 0x200a) || n == 0x2028 || n == 0x2029 || n == 0x202f || n == 0x205f || n == 0x3000

/-- Code points at which `str.splitlines` breaks. -/
def isLB (c : Char) : Bool :=
  let n := c.toNat
  (10 ≤ n && n ≤ 13) || (28 ≤ n && n ≤ 30) || n == 0x85 || n == 0x2028 || n == 0x2029

/-- `s.lstrip()`. -/
def lstrip (s : Str) : Str := s.dropWhile isWs

/-- `s.lstrip(chars)` with the set of characters given as a predicate. -/
def lstripBy (p : Char → Bool) (s : Str) : Str := s.dropWhile p

/-- `s.rstrip(chars)` with the set of characters given as a predicate. -/
def rstripBy (p : Char → Bool) (s : Str) : Str := (s.reverse.dropWhile p).reverse

/-- `s.rstrip()`. -/
def rstrip (s : Str) : Str := rstripBy isWs s

/-- `s.strip()`. -/
def strip (s : Str) : Str := rstrip (lstrip s)

/-- Puts a character in front of the first element of a list of strings. -/
def consHead (c : Char) : List Str → List Str
  | [] => [[c]]
  | l :: ls => (c :: l) :: ls

/-- `s.splitlines()`. `\r\n` counts as one separator: the `\r` is skipped and the `\n` breaks the line. -/
def splitlines : Str → List Str
  | [] => []
  | c :: rest =>
    if c == '\r' && rest.head? == some '\n' then splitlines rest
    else if isLB c then [] :: splitlines rest
    else consHead c (splitlines rest)

/-- `sep.join(parts)`. -/
def pyJoin (sep : Str) : List Str → Str
  | [] => []
  | [x] => x
  | x :: y :: r => x ++ sep ++ pyJoin sep (y :: r)

/-- `s.split(sep)` for a one-character separator. -/
def splitChar (sep : Char) : Str → List Str
  | [] => [[]]
  | c :: rest => if c == sep then [] :: splitChar sep rest else consHead c (splitChar sep rest)

/-- `s.split(sep)` for a two-character separator `ab`. -/
def splitPair (a b : Char) : Str → List Str
  | [] => [[]]
  | [x] => [[x]]
  | x :: y :: rest =>
    if x == a && y == b then [] :: splitPair a b rest else consHead x (splitPair a b (y :: rest))

/-- `s.split()`: maximal runs of non-whitespace. -/
def splitWs : Str → List Str
  | [] => []
  | c :: rest =>
    if isWs c then splitWs rest
    else match rest with
      | [] => [[c]]
      | d :: _ => if isWs d then [c] :: splitWs rest else consHead c (splitWs rest)

/-- `s.split(maxsplit=1)`: the first word and the rest, which keeps its trailing whitespace. -/
def splitMax1 (s : Str) : List Str :=
  match lstrip s with
  | [] => []
  | c :: r =>
    let word := (c :: r).takeWhile (fun x => !isWs x)
    match lstrip ((c :: r).dropWhile (fun x => !isWs x)) with
    | [] => [word]
    | d :: r' => [word, d :: r']

/-- `s.startswith(p)`. -/
def startsWith (s p : Str) : Bool := p.isPrefixOf s

/-- `s.endswith(p)`. -/
def endsWith (s p : Str) : Bool := p.isSuffixOf s

/-- `p in s` for strings. -/
def isIn (p : Str) : Str → Bool
  | [] => p.isEmpty
  | c :: s => p.isPrefixOf (c :: s) || isIn p s

/-- `c * n` for a one-character string and an integer, negative counts giving the empty string. -/
def mul (c : Char) (n : Int) : Str := List.replicate n.toNat c

/-- `s[a:b]` for non-negative `a`, `b`. -/
def slice (s : Str) (a b : Nat) : Str := (s.drop a).take (b - a)

/-- `xs[1:-1]`. -/
def inner {α : Type} (xs : List α) : List α := (xs.drop 1).dropLast

/-- Decimal digits of `n`, most significant first, with a recursion bound. -/
def digitsAux : Nat → Nat → Str
  | 0, _ => []
  | fuel + 1, n =>
    if n < 10 then [Char.ofNat (48 + n)] else digitsAux fuel (n / 10) ++ [Char.ofNat (48 + n % 10)]

/-- `str(n)` for a natural number. -/
def natStr (n : Nat) : Str := digitsAux (n + 1) n

/-- Membership in `string.digits`, and regex `[0-9]`. -/
def isDigit (c : Char) : Bool := 48 ≤ c.toNat && c.toNat ≤ 57

/-- `int(s)` for a string of ASCII digits. -/
def parseNat (s : Str) : Nat := s.foldl (fun n c => 10 * n + (c.toNat - 48)) 0


end MF
