import Verif.Model.LogM
/-!
# Section detection with its log messages

The functions of `Model/Detect.lean` that log, or that call functions that log, with their messages and with the argument
`line_offset`, which only appears in messages. `Props/DetectLog.lean` proves that leaving out the messages gives the functions
of `Model/Detect.lean` back.
-/

namespace MF

/-- Result of a `split_*` function. -/
abbrev SplitL := LogM (List Str × List Str)

/-- A `split_*` function that does not log. -/
def quiet (f : List Str → Split) : List Str → Nat → SplitL := fun lines _ => lift (f lines)

/-- `fenceLoop`: /repo/markflow/detectors/fenced_code_block.py:129-138. -/
def fenceLoopL (fullFence : Str) (fenceIndent lineOffset index : Nat) : List Str → LogM (List Str × Nat)
  | [] => pure ([], index)
  | l :: ls =>
    if strip l == fullFence then do
      logIf (decide (getIndent l > 3 + fenceIndent)) (logOther WARNING (.overIndented ((index + 1) + lineOffset + 1)))
      pure ([l], index + 1)
    else do
      let r ← fenceLoopL fullFence fenceIndent lineOffset (index + 1) ls
      pure (l :: r.1, r.2)

/-- `splitFenced`: /repo/markflow/detectors/fenced_code_block.py:97-141. -/
def splitFencedL (lines : List Str) (lineOffset : Nat) : SplitL :=
  match lines with
  | [] => lift (.error .stopIteration)
  | l :: ls =>
    match openFence l with
    | none => pure ([], l :: ls)
    | some fullFence => do
      let r ← fenceLoopL fullFence (getIndent l) lineOffset 0 ls
      pure (l :: r.1, (l :: ls).drop (r.2 + 1))

/-- `splitLrd`: /repo/markflow/detectors/link_reference_definition.py:42-141. The message of lines 103-107 has `index`, which
is 1 if there is a second line and 0 otherwise. -/
def splitLrdL (lines : List Str) (_lineOffset : Nat) : SplitL :=
  match lines with
  | [] => lift (.error .stopIteration)
  | l0 :: tail0 =>
    let lines := l0 :: tail0
    if getIndent l0 ≥ 4 then pure ([], lines)
    else
      let restOfLine := lstrip l0
      match lrdFirstRx.match? restOfLine with
      | none => pure ([], lines)
      | some m =>
        match splitMax1 (restOfLine.drop m.stop) with
        | [_, title] => lift (lrdFinish lines false 0 title tail0)
        | [_] =>
          match tail0 with
          | l1 :: tail1 => lift (lrdFinish lines true 1 l1 tail1)
          | [] => lift (lrdFinish lines true 0 [] [])
        | _ =>
          let index := if tail0.isEmpty then 0 else 1
          let line := tail0.headD []
          if startsWith line c!"[" || (strip line).isEmpty then do
            logOther WARNING (.noLink index)
            pure ([l0], tail0)
          else
            match splitMax1 line with
            | [_] =>
              match tail0.drop 1 with
              | l2 :: tail2 => lift (lrdFinish lines true 2 l2 tail2)
              | [] => lift (.error .stopIteration)
            | _ :: t :: _ => lift (lrdFinish lines false 1 t (tail0.drop 1))
            | [] => lift (.error .indexError)

/-- `anySplits`. -/
def anySplitsL (lines : List Str) (lineOffset : Nat) : List (List Str → Nat → SplitL) → LogM Bool
  | [] => pure false
  | f :: fs => do
    let r ← f lines lineOffset
    if !r.1.isEmpty then pure true else anySplitsL lines lineOffset fs

/-- `isParCont`: /repo/markflow/detectors/paragraph.py:14-46. -/
def isParContL (sbq : List Str → Nat → SplitL) (lines : List Str) (lineOffset : Nat) : LogM Bool := do
  if ← anySplitsL lines lineOffset [quiet splitAtx, quiet splitBlank, sbq, quiet splitBullet, splitFencedL,
      quiet splitOrdered, quiet splitTable, quiet splitThematic] then
    pure false
  else
    match lines with
    | [] => lift (.error .indexError)
    | l :: _ => if isSetextUnderline l then pure false else pure true

/-- `parLoop`: /repo/markflow/detectors/paragraph.py:100-115. `lineOffset` is `line_offset + len(paragraph_lines)`. -/
def parLoopL (sbq : List Str → Nat → SplitL) (lineOffset : Nat) : List Str → SplitL
  | [] => pure ([], [])
  | l :: ls => do
    if ← isParContL sbq (l :: ls) lineOffset then
      if endsWith l c!"  " then
        match ls with
        | [] => lift (.error .stopIteration)
        | _ :: _ => pure ([l], ls)
      else
        let r ← parLoopL sbq (lineOffset + 1) ls
        pure (l :: r.1, r.2)
    else pure ([], l :: ls)

/-- `splitParIgn`: /repo/markflow/detectors/paragraph.py:73-117. -/
def splitParIgnL (sbq : List Str → Nat → SplitL) (lines : List Str) (lineOffset : Nat) : SplitL :=
  match lines with
  | [] => lift (.error .indexError)
  | l :: ls =>
    if isParStart l then
      if endsWith l c!"  " then pure ([l], ls)
      else do
        let r ← parLoopL sbq (lineOffset + 1) ls
        pure (l :: r.1, r.2)
    else pure ([], l :: ls)

/-- `splitPar`: /repo/markflow/detectors/paragraph.py:120-141. -/
def splitParL (sbq : List Str → Nat → SplitL) (lines : List Str) (lineOffset : Nat) : SplitL := do
  let r ← splitParIgnL sbq lines lineOffset
  match r.2 with
  | [] => pure (r.1, [])
  | l :: ls => if !isSetextUnderline l then pure (r.1, l :: ls) else pure ([], lines)

/-- `splitSetext`: /repo/markflow/detectors/setext_heading.py:26-44. -/
def splitSetextL (sbq : List Str → Nat → SplitL) (lines : List Str) (lineOffset : Nat) : SplitL := do
  let r ← splitParIgnL sbq lines lineOffset
  match r.1, r.2 with
  | p :: ps, l :: ls => if isSetextUnderline l then pure (p :: ps ++ [l], ls) else pure ([], lines)
  | _, _ => pure ([], lines)

/-- `splitters`: /repo/markflow/parser.py:40-53. -/
def splittersL (sbq : List Str → Nat → SplitL) : List (Sec × (List Str → Nat → SplitL)) :=
  [(.atx, quiet splitAtx), (.blank, quiet splitBlank), (.quote, sbq), (.bullet, quiet splitBullet), (.fenced, splitFencedL),
   (.indented, quiet splitIndented), (.lrd, splitLrdL), (.ordered, quiet splitOrdered), (.par, splitParL sbq),
   (.setext, splitSetextL sbq), (.table, quiet splitTable), (.thematic, quiet splitThematic)]

/-- `firstSection`: /repo/markflow/parser.py:62-81. `splitter(remaining_lines)` leaves `line_offset` at its default 0. -/
def firstSectionL : List (Sec × (List Str → Nat → SplitL)) → List Str → LogM (Sec × List Str × List Str)
  | [], _ => lift (.error .runtime)
  | (ty, f) :: fs, remaining => do
    let r ← f remaining 0
    if !r.1.isEmpty then pure (ty, r.1, r.2) else firstSectionL fs r.2

/-- `parseLoop`: /repo/markflow/parser.py:61-83. `current` is `current_line`. -/
def parseLoopL (sbq : List Str → Nat → SplitL) : Nat → Nat → List Str → LogM (List (Sec × List Str))
  | _, _, [] => pure []
  | 0, _, _ :: _ => lift (.error .recursion)
  | fuel + 1, current, l :: ls => do
    let r ← firstSectionL (splittersL sbq) (l :: ls)
    logOther DEBUG (.found current (current + r.2.1.length - 1) r.1)
    let rest ← parseLoopL sbq fuel (current + r.2.1.length) r.2.2
    pure ((r.1, r.2.1) :: rest)

/-- `parseWith`: /repo/markflow/parser.py:56-83. -/
def parseWithL (sbq : List Str → Nat → SplitL) (lines : List Str) : LogM (List (Sec × List Str)) :=
  parseLoopL sbq lines.length 1 lines

/-- `endsWithPar`: /repo/markflow/detectors/block_quote.py:84-100. Taking the last section is inside the `with`. -/
def endsWithParL (parse : List Str → LogM (List (Sec × List Str))) : Nat → List Str → LogM Bool
  | 0, _ => lift (.error .recursion)
  | n + 1, lines => do
    let last ← redirected do
      let secs ← parse (lines.map unquote)
      match secs.getLast? with
      | none => lift (.error .indexError)
      | some s => pure s
    match last with
    | (.quote, content) => endsWithParL parse n content
    | (.par, _) => pure true
    | _ => pure false

/-- `isQuoteCont`: /repo/markflow/detectors/block_quote.py:21-81. Every splitter is called inside its own `with`. -/
def isQuoteContL (sbq : List Str → Nat → SplitL) (lines : List Str) (lineOffset : Nat) : LogM Bool := do
  let inside (f : List Str → Nat → SplitL) : List Str → Nat → SplitL := fun lines k => redirected (f lines k)
  if ← anySplitsL lines lineOffset ([quiet splitAtx, quiet splitBlank, quiet splitBullet, splitFencedL, quiet splitOrdered,
      splitSetextL sbq, quiet splitTable, quiet splitThematic].map inside) then
    pure false
  else
    match lines with
    | [] => lift (.error .indexError)
    | l :: _ => if isSetextUnderline l then pure false else pure true

/-- `contLoop`: /repo/markflow/detectors/block_quote.py:141-153. -/
def contLoopL (sbq : List Str → Nat → SplitL) (first : Bool) (lineOffset : Nat) : List Str → SplitL
  | [] => pure ([], [])
  | l :: ls => do
    if ← isQuoteContL sbq (l :: ls) lineOffset then
      if first && (isSetextUnderline l && !isThematic l) then pure ([], l :: ls)
      else
        let r ← contLoopL sbq false (lineOffset + 1) ls
        pure (l :: r.1, r.2)
    else pure ([], l :: ls)

/-- `quoteLoop`: /repo/markflow/detectors/block_quote.py:130-157. `line_offset` grows by one for each continuation line, and
only for these. -/
def quoteLoopL (ends : List Str → LogM Bool) (sbq : List Str → Nat → SplitL) :
    Nat → Nat → List Str → List Str → SplitL
  | 0, _, _, _ => lift (.error .recursion)
  | _ + 1, _, bq, [] => pure (bq, [])
  | fuel + 1, lineOffset, bq, l :: ls =>
    if !isQuote l then pure (bq, l :: ls)
    else do
      let bq' := bq ++ (l :: ls).takeWhile isQuote
      let rem := (l :: ls).dropWhile isQuote
      if ← ends bq' then
        let r ← contLoopL sbq true lineOffset rem
        quoteLoopL ends sbq fuel (lineOffset + r.1.length) (bq' ++ r.1) r.2
      else pure (bq', rem)

/-- `splitQuote`: /repo/markflow/detectors/block_quote.py:103-157. -/
def splitQuoteL : Nat → List Str → Nat → SplitL
  | 0, _, _ => lift (.error .recursion)
  | n + 1, lines, lineOffset =>
    quoteLoopL (endsWithParL (parseWithL (splitQuoteL n)) n) (splitQuoteL n) (lines.length + 1) lineOffset [] lines

/-- `parse`: /repo/markflow/parser.py:56-83. -/
def parseL (n : Nat) (lines : List Str) : LogM (List (Sec × List Str)) := parseWithL (splitQuoteL n) lines

end MF
