import Verif.Py.Str
/-!
# A backtracking regular expression matcher with the priorities of Python's `re`

CPython's `re` is not code of the repository; this file models the part of it that markflow uses
(greedy repetition, alternation, groups, anchors, one-character lookbehind, negative lookahead).
The patterns themselves are transcribed next to the code that uses them.
-/

namespace MF

/-- Regex syntax. -/
inductive Rx where
  /-- one character of a class -/
  | chr (p : Char → Bool)
  | eps
  | seq (a b : Rx)
  | alt (a b : Rx)
  /-- greedy repetition, at least `mn` and at most `mx` (`none`: unbounded) times -/
  | rep (r : Rx) (mn : Nat) (mx : Option Nat)
  /-- capturing group -/
  | grp (n : Nat) (r : Rx)
  /-- `^` without MULTILINE -/
  | bol
  /-- `$` without MULTILINE: the end, or just before a final newline -/
  | eol
  /-- `(?!r)` -/
  | notAhead (r : Rx)
  /-- `(?<!c)` for a one-character class -/
  | notBehind (p : Char → Bool)

/-- Matcher state: consumed text (reversed), remaining text, groups captured so far (number, text, end position). -/
structure MS where
  pre : Str
  post : Str
  caps : List (Nat × Str × Nat)

/-- Greedy loop of `rep`. `fuel` bounds the number of iterations. Iterations that consume nothing are not taken;
no repetition body of markflow can match the empty string. -/
def repRun {β : Type} (body : MS → (MS → Option β) → Option β) :
    Nat → Nat → Option Nat → MS → (MS → Option β) → Option β
  | 0, mn, _, st, k => if mn == 0 then k st else none
  | fuel + 1, mn, mx, st, k =>
    if mx == some 0 then (if mn == 0 then k st else none)
    else
      match body st (fun st' =>
          if st'.post.length < st.post.length then repRun body fuel (mn - 1) (mx.map (· - 1)) st' k else none) with
      | some r => some r
      | none => if mn == 0 then k st else none

/-- Runs a pattern from a state; the continuation says whether the rest of the match succeeds. -/
def Rx.run : Rx → {β : Type} → MS → (MS → Option β) → Option β
  | .chr p, _, st, k =>
    match st.post with
    | [] => none
    | c :: cs => if p c then k { st with pre := c :: st.pre, post := cs } else none
  | .eps, _, st, k => k st
  | .seq a b, _, st, k => a.run st (fun st' => b.run st' k)
  | .alt a b, _, st, k =>
    match a.run st k with
    | some r => some r
    | none => b.run st k
  | .rep r mn mx, _, st, k => repRun (fun s k' => r.run s k') (st.post.length + 1) mn mx st k
  | .grp n r, _, st, k =>
    r.run st (fun st' =>
      k { st' with caps := (n, st.post.take (st.post.length - st'.post.length), st'.pre.length) :: st'.caps })
  | .bol, _, st, k => if st.pre.isEmpty then k st else none
  | .eol, _, st, k => if st.post.isEmpty || st.post == ['\n'] then k st else none
  | .notAhead r, _, st, k =>
    match r.run (β := Unit) st (fun _ => some ()) with
    | some _ => none
    | none => k st
  | .notBehind p, _, st, k =>
    match st.pre with
    | [] => k st
    | c :: _ => if p c then none else k st

/-- A literal string as a pattern. -/
def Rx.lit : Str → Rx
  | [] => .eps
  | [c] => .chr (· == c)
  | c :: d :: cs => .seq (.chr (· == c)) (Rx.lit (d :: cs))

/-- Sequence of several patterns. -/
def Rx.seqs : List Rx → Rx
  | [] => .eps
  | [r] => r
  | r :: s :: rs => .seq r (Rx.seqs (s :: rs))

/-- `r*`, `r+`, `r?` -/
def Rx.star (r : Rx) : Rx := .rep r 0 none
def Rx.plus (r : Rx) : Rx := .rep r 1 none
def Rx.opt (r : Rx) : Rx := .rep r 0 (some 1)

/-- A match: start and end position, matched text, captured groups. -/
structure Match where
  start : Nat
  stop : Nat
  text : Str
  caps : List (Nat × Str × Nat)

/-- `m.group(n)` of the last capture of group `n`. -/
def Match.group (m : Match) (n : Nat) : Option Str := (m.caps.find? (·.1 == n)).map (·.2.1)

/-- `m.end(n)`. -/
def Match.groupEnd (m : Match) (n : Nat) : Option Nat := (m.caps.find? (·.1 == n)).map (·.2.2)

/-- Match attempt at one position given by consumed (reversed) and remaining text. -/
def Rx.matchAt (r : Rx) (pre post : Str) : Option Match :=
  (r.run { pre := pre, post := post, caps := [] } some).map fun st =>
    { start := pre.length, stop := st.pre.length,
      text := post.take (post.length - st.post.length), caps := st.caps }

/-- `pattern.match(s)`. -/
def Rx.match? (r : Rx) (s : Str) : Option Match := r.matchAt [] s

/-- Leftmost match starting in the remaining text. -/
def Rx.searchFrom (r : Rx) : Str → Str → Option Match
  | pre, [] => r.matchAt pre []
  | pre, c :: cs =>
    match r.matchAt pre (c :: cs) with
    | some m => some m
    | none => r.searchFrom (c :: pre) cs

/-- `pattern.search(s)`. -/
def Rx.search (r : Rx) (s : Str) : Option Match := r.searchFrom [] s

/-- `pattern.finditer(s)` for patterns that never match the empty string: after a match ending at `e` the scan
goes on at `e`. `fuel` bounds the number of matches. -/
def Rx.finditerFrom (r : Rx) : Nat → Str → Str → List Match
  | 0, _, _ => []
  | fuel + 1, pre, post =>
    match r.searchFrom pre post with
    | none => []
    | some m =>
      if m.stop ≤ pre.length then [m]
      else
        let n := m.stop - pre.length
        m :: r.finditerFrom fuel ((post.take n).reverse ++ pre) (post.drop n)

def Rx.finditer (r : Rx) (s : Str) : List Match := r.finditerFrom (s.length + 1) [] s

/-- `pattern.split(s)` for patterns without groups that never match the empty string. -/
def splitAt' (s : Str) : Nat → List Match → List Str
  | last, [] => [s.drop last]
  | last, m :: ms => slice s last m.start :: splitAt' s m.stop ms

def Rx.split (r : Rx) (s : Str) : List Str := splitAt' s 0 (r.finditer s)

/-- `pattern.sub("", s)` for patterns that never match the empty string. -/
def Rx.subEmpty (r : Rx) (s : Str) : Str := (r.split s).flatten

end MF
