import Verif.Model.Basic
/-!
# Text wrapping: `markflow/_utils/textwrap.py`
-/

namespace MF

/-- `INLINE_CODE_MARKER_REGEX`, /repo/markflow/_utils/textwrap.py:6: ``(((?!<\\)`)+)``. -/
def codeMarkerRx : Rx :=
  .grp 1 (.plus (.grp 2 (.seqs [.notAhead (.lit ['<', '\\']), .chr (· == '`')])))

/-- `FOOTNOTE_REGEX`, /repo/markflow/_utils/textwrap.py:7: `[^\s\]\)]*\[[^\[]+\]\[[^\]]+\][^\s\[\(]*`. -/
def footnoteRx : Rx :=
  .seqs [.star (.chr fun c => !isWs c && c != ']' && c != ')'), .chr (· == '['), .plus (.chr (· != '[')),
    .chr (· == ']'), .chr (· == '['), .plus (.chr (· != ']')), .chr (· == ']'),
    .star (.chr fun c => !isWs c && c != '[' && c != '(')]

/-- `HTML_NEWLINE_REGEX`, /repo/markflow/_utils/textwrap.py:8: `<br ?/?>`. -/
def htmlNewlineRx : Rx :=
  .seqs [.chr (· == '<'), .chr (· == 'b'), .chr (· == 'r'), .opt (.chr (· == ' ')), .opt (.chr (· == '/')),
    .chr (· == '>')]

/-- `URL_REGEX`, /repo/markflow/_utils/textwrap.py:9: `[^\s\]\)]*\[[^\[]+\]\([^\)]+\)[^\s\[\(]*`. -/
def urlRx : Rx :=
  .seqs [.star (.chr fun c => !isWs c && c != ']' && c != ')'), .chr (· == '['), .plus (.chr (· != '[')),
    .chr (· == ']'), .chr (· == '('), .plus (.chr (· != ')')), .chr (· == ')'),
    .star (.chr fun c => !isWs c && c != '[' && c != '(')]

/-- One step of the loop of `join`, /repo/markflow/_utils/textwrap.py:14-26. The state is `new_split_text`, given as
the finished lines (latest first) and its last element. -/
def joinStep (width : Width) (st : List Str × Str) (word : Str) (leadingSpace : Bool) : List Str × Str :=
  let potential := if leadingSpace && !st.2.isEmpty then st.2 ++ [' '] ++ word else st.2 ++ word
  let st' :=
    if width.ge potential.length || st.2.isEmpty || width.nonpos then (st.1, potential)
    else (st.2 :: st.1, word)
  if (htmlNewlineRx.match? word).isSome then (st'.2 :: st'.1, []) else st'

/-- Loop of `join`, /repo/markflow/_utils/textwrap.py:14-26. -/
def joinLoop (width : Width) : List Str × Str → List (Str × Bool) → List Str × Str
  | st, [] => st
  | st, (word, leadingSpace) :: rest => joinLoop width (joinStep width st word leadingSpace) rest

/-- The lines `join` puts together, /repo/markflow/_utils/textwrap.py:12-29. -/
def joinLines (splitText : List Str) (leadingSpaces : List Bool) (width : Width) : List Str :=
  let st := joinLoop width ([], []) (splitText.zip leadingSpaces)
  if st.2.isEmpty then st.1.reverse else (st.2 :: st.1).reverse

/-- /repo/markflow/_utils/textwrap.py:12-30 `join`. -/
def join (splitText : List Str) (leadingSpaces : List Bool) (width : Width) : Str :=
  pyJoin ['\n'] (joinLines splitText leadingSpaces width)

/-- The three parallel lists every `*_split` function builds: `split_text`, `leading_spaces`, `evaluates`. -/
structure Toks where
  split : List Str
  lead : List Bool
  eval : List Bool
  deriving DecidableEq, Repr

/-- `xs[-1] += s`; IndexError for an empty list. -/
def appendLast (xs : List Str) (s : Str) : Except Err (List Str) :=
  match xs.getLast? with
  | none => .error .indexError
  | some x => .ok (xs.dropLast ++ [x ++ s])

/-- `s.startswith(".") and not s.startswith("..")`. -/
def startsSingleDot (s : Str) : Bool := startsWith s c!"." && !startsWith s c!".."

/-- `split_text[-1] += "."; text = text[1:]` when `cond` holds: a period that follows a token directly stays with it
(/repo/markflow/_utils/textwrap.py:49-55, 89-95, 142-148, 178-184). -/
def moveDot (cond : Bool) (split : List Str) (text : Str) : Except Err (List Str × Str) :=
  if cond then (appendLast split c!".").map fun split' => (split', text.drop 1) else .ok (split, text)

/-- State of the loop of `code_split`. -/
structure CodeSt where
  toks : Toks
  openLen : Nat
  lastEnd : Nat

/-- Loop body of `code_split`, /repo/markflow/_utils/textwrap.py:46-81. -/
def codeStep (text : Str) (leadingSpace : Bool) (st : CodeSt) (m : Match) : Except Err CodeSt :=
  if st.openLen == 0 then do
    let plaintext := slice text st.lastEnd m.start
    let (split, plaintext) ← moveDot (startsSingleDot plaintext && !st.toks.split.isEmpty) st.toks.split plaintext
    let t : Toks := { st.toks with split := split }
    let t : Toks :=
      if !(strip plaintext).isEmpty then
        { split := t.split ++ [strip plaintext],
          lead := t.lead ++ [if t.lead.isEmpty then leadingSpace else startsWith plaintext c!" "],
          eval := t.eval ++ [true] }
      else t
    let openLen := m.text.length
    let t : Toks :=
      { split := t.split ++ [List.replicate openLen '`'],
        lead := t.lead ++ [if t.lead.isEmpty then leadingSpace else endsWith plaintext c!" "],
        eval := t.eval ++ [false] }
    .ok { toks := t, openLen := openLen, lastEnd := m.stop }
  else if m.text.length == st.openLen then do
    let code := slice text st.lastEnd m.start
    let split ← appendLast st.toks.split (code ++ List.replicate st.openLen '`')
    .ok { toks := { st.toks with split := split }, openLen := 0, lastEnd := m.stop }
  else do
    let split ← appendLast st.toks.split (slice text st.lastEnd m.stop)
    .ok { st with toks := { st.toks with split := split }, lastEnd := m.stop }

/-- `len(INLINE_CODE_MARKER_REGEX.findall(s))`. -/
def markerCount (s : Str) : Nat := (codeMarkerRx.finditer s).length

/-- /repo/markflow/_utils/textwrap.py:33-106 `code_split`. -/
def codeSplit (text : Str) (leadingSpace : Bool) : Except Err Toks := do
  let st ← (codeMarkerRx.finditer text).foldlM (codeStep text leadingSpace)
    { toks := { split := [], lead := [], eval := [] }, openLen := 0, lastEnd := 0 }
  let t := st.toks
  let rest := text.drop st.lastEnd
  if t.split.getLast?.any (fun s => markerCount s == 1) then
    let t : Toks := { t with eval := t.eval.dropLast ++ [true] }
    if !(strip rest).isEmpty then do
      let split ← appendLast t.split (rstrip rest)
      .ok { t with split := split }
    else .ok t
  else do
    let (split, remaining) ← moveDot (startsSingleDot rest) t.split rest
    let t : Toks := { t with split := split }
    if !(strip remaining).isEmpty then
      .ok { split := t.split ++ [strip remaining],
            lead := t.lead ++ [if st.lastEnd == 0 then leadingSpace else startsWith remaining c!" "],
            eval := t.eval ++ [true] }
    else .ok t

/-- Insertion after all elements with a smaller or equal start. -/
def insertMatch (m : Match) : List Match → List Match
  | [] => [m]
  | x :: xs => if x.start ≤ m.start then x :: insertMatch m xs else m :: x :: xs

/-- `matches.sort(key=lambda m: m.start())`: the stable sort by start. -/
def sortMatches (ms : List Match) : List Match := ms.foldl (fun acc m => insertMatch m acc) []

/-- State of the loops of `link_split` and `newline_split`. -/
structure LinkSt where
  toks : Toks
  lastEnd : Nat

/-- The two parts of a link, /repo/markflow/_utils/textwrap.py:164-171. -/
def linkParts (group : Str) : Except Err (Str × Str) :=
  if isIn c!"](" group then
    match splitPair ']' '(' group with
    | a :: b :: _ => .ok (strip a ++ c!"](", strip b)
    | _ => .error .indexError
  else
    match splitPair ']' '[' group with
    | a :: b :: _ => .ok (strip a ++ c!"][", strip b)
    | _ => .error .indexError

/-- Loop body of `link_split`, /repo/markflow/_utils/textwrap.py:139-175. -/
def linkStep (text : Str) (leadingSpace : Bool) (st : LinkSt) (m : Match) : Except Err LinkSt := do
  let nonLink := slice text st.lastEnd m.start
  let t ←
    if !(strip nonLink).isEmpty then do
      let (split, nonLink) ← moveDot (!st.toks.split.isEmpty && startsSingleDot nonLink) st.toks.split nonLink
      .ok ({ split := split ++ [strip nonLink],
             lead := st.toks.lead ++
               [if st.toks.lead.isEmpty then leadingSpace else startsWith nonLink c!" ",
                -- `match.start() - 1` is not negative here: there is text before the match
                text[m.start - 1]? == some ' '],
             eval := st.toks.eval ++ [true] } : Toks)
    else
      .ok { st.toks with lead := st.toks.lead ++ [if st.toks.lead.isEmpty then leadingSpace else false] }
  let parts ← linkParts m.text
  .ok { toks := { split := t.split ++ [parts.1, parts.2],
                  lead := t.lead ++ [false],
                  eval := t.eval ++ [true, false] },
        lastEnd := m.stop }

/-- /repo/markflow/_utils/textwrap.py:109-193 `link_split`. -/
def linkSplit (text : Str) (leadingSpace : Bool) : Except Err Toks := do
  let ms := sortMatches (footnoteRx.finditer text ++ urlRx.finditer text)
  let st ← ms.foldlM (linkStep text leadingSpace)
    { toks := { split := [], lead := [], eval := [] }, lastEnd := 0 }
  let t := st.toks
  let rest := text.drop st.lastEnd
  let (split, remaining) ← moveDot (startsSingleDot rest) t.split rest
  let t : Toks := { t with split := split }
  if !(strip remaining).isEmpty then
    .ok { split := t.split ++ [strip remaining],
          lead := t.lead ++ [if st.lastEnd == 0 then leadingSpace else startsWith remaining c!" "],
          eval := t.eval ++ [true] }
  else .ok t

/-- Loop body of `newline_split`, /repo/markflow/_utils/textwrap.py:205-219. `text[last_end]` exists because a match
starts at or after it. -/
def newlineStep (text : Str) (leadingSpace : Bool) (st : LinkSt) (m : Match) : LinkSt :=
  let nonNewline := slice text st.lastEnd m.start
  let t : Toks := { st.toks with
    lead := st.toks.lead ++ [if st.toks.lead.isEmpty then leadingSpace else text[st.lastEnd]? == some ' '] }
  let t : Toks :=
    if !(strip nonNewline).isEmpty then
      { split := t.split ++ [strip nonNewline],
        lead := t.lead ++ [endsWith nonNewline c!" "],
        eval := t.eval ++ [true] }
    else t
  { toks := { t with split := t.split ++ [m.text], eval := t.eval ++ [false] }, lastEnd := m.stop }

/-- /repo/markflow/_utils/textwrap.py:196-229 `newline_split`. -/
def newlineSplit (text : Str) (leadingSpace : Bool) : Except Err Toks :=
  let st := (htmlNewlineRx.finditer text).foldl (newlineStep text leadingSpace)
    { toks := { split := [], lead := [], eval := [] }, lastEnd := 0 }
  let t := st.toks
  let rest := text.drop st.lastEnd
  if !(strip rest).isEmpty then
    .ok { split := t.split ++ [strip rest],
          lead := t.lead ++ [if st.lastEnd == 0 then leadingSpace else startsWith rest c!" "],
          eval := t.eval ++ [true] }
  else .ok t

/-- Loop of `space_split`, /repo/markflow/_utils/textwrap.py:238-246. -/
def spaceLoop (leadingSpace : Bool) : Toks → List Str → Toks
  | t, [] => t
  | t, word :: ws =>
    if word.isEmpty then spaceLoop leadingSpace t ws
    else
      spaceLoop leadingSpace
        { split := t.split ++ [strip word],
          lead := t.lead ++ [if t.lead.isEmpty then leadingSpace else true],
          eval := t.eval ++ [true] } ws

/-- /repo/markflow/_utils/textwrap.py:232-248 `space_split`. -/
def spaceSplit (text : Str) (leadingSpace : Bool) : Except Err Toks :=
  .ok (spaceLoop leadingSpace { split := [], lead := [], eval := [] } (splitChar ' ' text))

/-- Inner loop of `wrap`, /repo/markflow/_utils/textwrap.py:263-272. -/
def applySplit (func : Str → Bool → Except Err Toks) : List (Str × Bool × Bool) → Except Err Toks
  | [] => .ok { split := [], lead := [], eval := [] }
  | (text, leadingSpace, evaluate) :: rest => do
    let t ←
      if evaluate then func text leadingSpace
      else .ok { split := [text], lead := [leadingSpace], eval := [evaluate] }
    let r ← applySplit func rest
    .ok { split := t.split ++ r.split, lead := t.lead ++ r.lead, eval := t.eval ++ r.eval }

/-- One iteration of the outer loop of `wrap`, /repo/markflow/_utils/textwrap.py:259-275. -/
def splitPass (func : Str → Bool → Except Err Toks) (t : Toks) : Except Err Toks :=
  applySplit func (t.split.zip (t.lead.zip t.eval))

/-- The text `wrap` works on, /repo/markflow/_utils/textwrap.py:253-254. -/
def wrapInput (text : Str) : Str := pyJoin [' '] ((splitlines text).map strip)

/-- The tokens `wrap` passes to `join`, /repo/markflow/_utils/textwrap.py:256-275. -/
def wrapToks (text : Str) : Except Err Toks := do
  let t ← splitPass codeSplit { split := [text], lead := [false], eval := [true] }
  let t ← splitPass linkSplit t
  let t ← splitPass newlineSplit t
  splitPass spaceSplit t

/-- /repo/markflow/_utils/textwrap.py:251-277 `wrap`. -/
def wrap (text : Str) (width : Width) : Except Err Str := do
  let t ← wrapToks (wrapInput text)
  .ok (join t.split t.lead width)

end MF
