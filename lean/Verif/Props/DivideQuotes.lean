import Verif.Props.Divide
import Verif.Props.Budget
import Verif.Props.Termination
/-!
# C117: how every document is divided, quotes included

The specification of C116 with quotes: a quote is a run of quoted lines; if what it holds ends in a paragraph, lazy lines
may follow, and quoted lines among them.
-/

namespace MF

/-! ## Specification -/

/-- A line without its quotation marker: at most three spaces and `>`. -/
def unmark (l : Str) : Str :=
  if (l.takeWhile (· == ' ')).length ≤ 3 then
    match l.dropWhile (· == ' ') with
    | '>' :: r => r
    | _ => l
  else l

section
/- `sq` counts the lines of the quote that begins with the first of the given lines. -/
variable (sq : List Str → Except Err Nat)

/-- As `textRun`. A quoted line ends text, too, but a quote that begins there has to be one that can be divided. -/
def textRunQ : List Str → Except Err Nat
  | [] => .ok 0
  | l :: more =>
    if quotedLine l then (sq (l :: more)).map fun _ => 0
    else if textEnd l then .ok 0
    else if hardBreak l then (if more.isEmpty then .error .stopIteration else .ok 1)
    else (textRunQ more).map (· + 1)

def textLinesQ (l : Str) (more : List Str) : Except Err Nat :=
  if hardBreak l then .ok 1 else (textRunQ sq more).map (· + 1)

/-- As `firstExtent`. -/
def firstExtentQ (l : Str) (more : List Str) : Except Err (Sec × Nat) :=
  match kindOf l with
  | some .quote => (sq (l :: more)).map fun k => (.quote, k)
  | some .fenced => .ok (.fenced, 1 + fencedRun (fenceRun l) more)
  | some .indented => .ok (.indented, max 1 (codeRun more))
  | some .bullet => .ok (.bullet, 1 + (more.takeWhile fun x => !listEnd x).length)
  | some .ordered => .ok (.ordered, 1 + (more.takeWhile fun x => !listEnd x).length)
  | some .table => .ok (.table, 1 + (more.takeWhile rowLine).length)
  | some k => .ok (k, 1)
  | none => do
    let d ← defLines (l :: more)
    if d ≠ 0 then .ok (.lrd, d)
    else
      let t ← textLinesQ sq l more
      match (l :: more).drop t with
      | u :: _ => if underline u then .ok (.setext, t + 1) else .ok (.par, t)
      | [] => .ok (.par, t)

def divideLoopQ : Nat → List Str → Except Err (List (Sec × List Str))
  | _, [] => .ok []
  | 0, _ :: _ => .error .recursion
  | fuel + 1, l :: more => do
    let r ← firstExtentQ sq l more
    let rest ← divideLoopQ fuel ((l :: more).drop r.2)
    .ok ((r.1, (l :: more).take r.2) :: rest)

def divideWith (lines : List Str) : Except Err (List (Sec × List Str)) := divideLoopQ sq lines.length lines

/-- Whether the text that begins with `l` is underlined. -/
def underlinedAt (l : Str) (more : List Str) : Except Err Bool := do
  let t ← textLinesQ sq l more
  match (l :: more).drop t with
  | u :: _ => .ok (underline u)
  | [] => .ok false

/-- Whether `l` does not go on a quote: it is neither quoted nor text, or it belongs to an underlined heading. -/
def lazyStop (l : Str) (more : List Str) : Except Err Bool :=
  if quotedLine l then .ok false
  else if kindOf l = none then (underlinedAt sq l more).map (· || underline l)
  else .ok (textEnd l)

/-- Lines that go on a quote. -/
def lazyRun : List Str → Except Err Nat
  | [] => .ok 0
  | l :: more => do
    let stop ← lazyStop sq l more
    if stop then .ok 0 else (lazyRun more).map (· + 1)

end

/-- Whether what the quoted lines hold ends in a paragraph, also if that paragraph is quoted in turn. -/
def endsPar (divide : List Str → Except Err (List (Sec × List Str))) : Nat → List Str → Except Err Bool
  | 0, _ => .error .recursion
  | depth + 1, quoted => do
    let secs ← divide (quoted.map unmark)
    match secs.getLast? with
    | none => .error .indexError
    | some (.quote, lines) => endsPar divide depth lines
    | some (.par, _) => .ok true
    | some _ => .ok false

/-- Lines of the quote at the beginning; `depth` bounds how deep quotes are nested. -/
def quoteLines : Nat → List Str → Except Err Nat
  | _, [] => .ok 0
  | depth, l :: more =>
    if quotedLine l then
      match depth with
      | 0 => .error .recursion
      | depth + 1 => do
        let quoted := (l :: more).takeWhile quotedLine
        let goesOn ← endsPar (divideWith (quoteLines depth)) depth quoted
        if goesOn then (lazyRun (quoteLines depth) ((l :: more).dropWhile quotedLine)).map (quoted.length + ·)
        else .ok quoted.length
    else .ok 0

/-- The division of a document whose quotes are nested at most `depth` deep. -/
def divideQ (depth : Nat) (lines : List Str) : Except Err (List (Sec × List Str)) := divideWith (quoteLines depth) lines

/-! ## Counting lines -/

theorem unmark_eq (l : Str) : unmark l = unquote l := by
  unfold unmark
  have hsplit : l = l.takeWhile (· == ' ') ++ l.dropWhile (· == ' ') := (List.takeWhile_append_dropWhile).symm
  have hrep : l.takeWhile (· == ' ') = List.replicate (l.takeWhile (· == ' ')).length ' ' := by
    rw [List.eq_replicate_iff]
    exact ⟨rfl, fun c hc => by simpa using takeWhile_all _ _ _ hc⟩
  -- the run of spaces of a marked line
  have hrun : ∀ (k : Nat) (r : Str), l = List.replicate k ' ' ++ '>' :: r →
      (l.takeWhile (· == ' ')).length = k ∧ l.dropWhile (· == ' ') = '>' :: r := by
    intro k r e
    have hall : ∀ c ∈ List.replicate k ' ', (c == ' ') = true := by
      intro c hc
      rw [(List.mem_replicate.1 hc).2]; rfl
    rw [e, takeWhile_append_stop _ _ _ _ hall rfl, dropWhile_append_all _ _ _ hall]
    exact ⟨by simp, rfl⟩
  split
  · rename_i hk
    split
    · rename_i r hr
      refine (unquote_marked ⟨_, hk, ?_⟩).symm
      rw [← hrep, ← hr]
      exact hsplit
    · rename_i hne
      refine (unquote_unmarked ?_).symm
      rintro r ⟨k, _, e⟩
      exact hne r (hrun k r e).2
  · rename_i hk
    refine (unquote_unmarked ?_).symm
    rintro r ⟨k, h3, e⟩
    have := (hrun k r e).1
    omega

/-- A splitter for quotes, and the number of lines it takes. -/
structure Counts (s : List Str → Split) (sq : List Str → Except Err Nat) : Prop where
  eq : ∀ lines, s lines = (sq lines).map (cutAt lines)
  unq : ∀ l ls, quotedLine l = false → sq (l :: ls) = .ok 0
  pos : ∀ l ls k, quotedLine l = true → sq (l :: ls) = .ok k → 1 ≤ k

section
variable {s : List Str → Split} {sq : List Str → Except Err Nat} (hc : Counts s sq)
include hc

theorem Counts.skip {l : Str} (ls : List Str) (h : isQuote l = false) : s (l :: ls) = .ok ([], l :: ls) := by
  rw [hc.eq, hc.unq l ls (by rw [quotedLine_eq]; exact h)]
  rfl

theorem isParCont_unq {l : Str} (ls : List Str) (h : isQuote l = false) : isParCont s (l :: ls) = .ok (!textEnd l) := by
  have hsk := hc.skip ls h
  have e := isParCont_eq (n := 0) ls h
  have e2 : isParCont s (l :: ls) = isParCont (splitQuote 1) (l :: ls) := by
    simp only [isParCont, anySplits, hsk, splitQuote_unquoted 0 ls h]
  rw [e2, e, textEnd_eq, h]
  cases interrupts l <;> cases isSetextUnderline l <;> rfl

theorem isParCont_quo {l : Str} (ls : List Str) (h : isQuote l = true) :
    isParCont s (l :: ls) = (sq (l :: ls)).map fun _ => false := by
  have hne : isAtx l = false ∧ isBlankLine l = false := by
    cases hb : isBlankLine l with
    | true =>
      have hk := kindOf_eq l
      simp only [isQuote, Bool.and_eq_true] at h
      have h2 := h.2
      have : lstrip l = [] := (lstrip_eq_nil_iff_strip l).2 (by simpa [isBlankLine] using hb)
      rw [this] at h2
      cases h2
    | false =>
      refine ⟨?_, rfl⟩
      cases ha : isAtx l with
      | false => rfl
      | true =>
        simp only [isQuote, isAtx, Bool.and_eq_true, startsWith_iff] at h ha
        obtain ⟨r, hr⟩ := h.2
        obtain ⟨r', hr'⟩ := ha.2
        rw [hr] at hr'
        cases hr'
  cases hs : sq (l :: ls) with
  | error e =>
    have : s (l :: ls) = .error e := by rw [hc.eq, hs]; rfl
    simp only [isParCont, anySplits, splitAtx_eq_nil _ hne.1, splitBlank_eq_nil _ hne.2, this, bind, Except.bind, Except.map,
      List.isEmpty_nil, Bool.not_true, Bool.false_eq_true, if_false]
  | ok k =>
    have hk := hc.pos l ls k (by rw [quotedLine_eq]; exact h) hs
    have : s (l :: ls) = .ok (cutAt (l :: ls) k) := by rw [hc.eq, hs]; rfl
    exact isParCont_quote h this (by
      obtain ⟨j, rfl⟩ : ∃ j, k = j + 1 := ⟨k - 1, by omega⟩
      rw [List.take_succ_cons]; simp)

theorem parLoop_count : ∀ (ls : List Str), parLoop s ls = (textRunQ sq ls).map (cutAt ls) := by
  intro ls
  induction ls with
  | nil => rfl
  | cons l ls ih =>
    rw [textRunQ, quotedLine_eq]
    cases hq : isQuote l with
    | true =>
      simp only [parLoop, isParCont_quo hc ls hq, bind, Except.bind, if_true]
      cases sq (l :: ls) with
      | error e => rfl
      | ok k => rfl
    | false =>
      simp only [parLoop, isParCont_unq hc ls hq, bind, Except.bind, Bool.false_eq_true, if_false]
      cases ht : textEnd l with
      | true => rfl
      | false =>
        simp only [Bool.not_false, if_true, Bool.false_eq_true, if_false]
        have hh : endsWith l c!"  " = hardBreak l := rfl
        rw [hh]
        cases hb : hardBreak l with
        | true =>
          simp only [if_true]
          cases ls with
          | nil => rfl
          | cons x ls => rfl
        | false =>
          simp only [Bool.false_eq_true, if_false]
          rw [ih]
          cases textRunQ sq ls with
          | error e => rfl
          | ok k => rfl

theorem splitParIgn_count {l : Str} {ls : List Str} (hk : kindOf l = none) :
    splitParIgn s (l :: ls) = (textLinesQ sq l ls).map (cutAt (l :: ls)) := by
  have hp := (isParStart_kind l).2 hk
  have hh : endsWith l c!"  " = hardBreak l := rfl
  simp only [splitParIgn, hp, if_true, textLinesQ, hh, parLoop_count hc ls, bind, Except.bind]
  cases hb : hardBreak l with
  | true => rfl
  | false =>
    simp only [Bool.false_eq_true, if_false]
    cases textRunQ sq ls with
    | error e => rfl
    | ok k => rfl

omit hc in
theorem textLinesQ_pos {l : Str} {ls : List Str} {k : Nat} (h : textLinesQ sq l ls = .ok k) : 1 ≤ k := by
  unfold textLinesQ at h
  split at h
  · cases h; omega
  · cases ht : textRunQ sq ls with
    | error e => rw [ht] at h; cases h
    | ok j =>
      rw [ht] at h
      have : j + 1 = k := Except.ok.inj h
      omega

omit hc in
theorem take_ne {l : Str} {ls : List Str} {k : Nat} (h : 1 ≤ k) : (l :: ls).take k ≠ [] := by
  obtain ⟨j, rfl⟩ : ∃ j, k = j + 1 := ⟨k - 1, by omega⟩
  rw [List.take_succ_cons]; simp

omit hc in
theorem listLoop_count (ls : List Str) (i : Nat) :
    listLoop i ls = (ls.takeWhile (fun x => !listEnd x), i + 1 + (ls.takeWhile fun x => !listEnd x).length) := by
  have h := listLoop_take (ls.takeWhile fun x => !listEnd x) (ls.dropWhile fun x => !listEnd x)
    (fun x hx => by simpa using takeWhile_all _ _ _ hx) (fun x hx => by simpa using dropWhile_stop _ _ x hx) i
  rw [List.takeWhile_append_dropWhile] at h
  exact h

omit hc in
theorem tableLoop_count (ls : List Str) (i : Nat) :
    tableLoop i ls = (ls.takeWhile rowLine, i + 1 + (ls.takeWhile rowLine).length) := by
  have h := tableLoop_take (ls.takeWhile rowLine) (ls.dropWhile rowLine)
    (fun x hx => by rw [← rowLine_eq]; exact takeWhile_all _ _ _ hx)
    (fun x hx => by rw [← rowLine_eq]; exact dropWhile_stop _ _ x hx) i
  rw [List.takeWhile_append_dropWhile] at h
  exact h

omit hc in
theorem takeWhile_take {α : Type} (p : α → Bool) (l : α) (ls : List α) :
    l :: ls.takeWhile p = (l :: ls).take (1 + (ls.takeWhile p).length) := by
  rw [Nat.add_comm, List.take_succ_cons, ← (takeWhile_cut p ls).1]

omit hc in
/-- A line that begins a list, a table or a rule begins with no bracket. -/
theorem not_label {l : Str} (h : isOrderedStart l = true ∨ isTableStart l = true ∨ isThematic l = true) : NoLabel l := by
  intro h0
  exfalso
  rcases h with h | h | h
  · have := (false_of_first h0).2.2.2.2.2.1 (by decide)
    rw [h] at this; cases this
  · have := (false_of_first h0).2.2.1 (by decide)
    rw [h] at this; cases this
  · have := (false_of_first h0).2.2.2.2.2.2.1 (by decide) (by decide) (by decide)
    rw [h] at this; cases this

theorem first_section_quotes (l : Str) (ls : List Str) :
    firstSection (splitters s) (l :: ls) = (firstExtentQ sq l ls).map (asLines (l :: ls)) := by
  have hk := kindOf_eq l
  unfold firstExtentQ
  cases hb : isBlankLine l with
  | true =>
    rw [hk, hb]
    exact firstSection_blank ls hb
  | false =>
  rw [hb] at hk
  cases hf : isFenceStart l with
  | true =>
    rw [hf] at hk
    simp only [Bool.false_eq_true, if_false, if_true] at hk
    rw [hk]
    simp only
    cases hF : openFence l with
    | none => rw [(openFence_none l).1 hF] at hf; cases hf
    | some F =>
      have hrun := openFence_run hF
      have hsp : splitFenced (l :: ls) = .ok (cutAt (l :: ls) (1 + fencedRun (fenceRun l) ls)) := by
        simp only [splitFenced, hF, fenceLoop_run, hrun, cutAt]
        rw [Nat.add_comm 1, List.take_succ_cons, Nat.zero_add]
      have hsk : isAtx l = false ∧ isBulletStart l = false ∧ isQuote l = false := by
        rcases isFenceStart_first hf with h | h
        · obtain ⟨h1, h2, _, _, h5, _⟩ := false_of_first h
          exact ⟨h1 (by decide), h5 (by decide) (by decide) (by decide), h2 (by decide)⟩
        · obtain ⟨h1, h2, _, _, h5, _⟩ := false_of_first h
          exact ⟨h1 (by decide), h5 (by decide) (by decide) (by decide), h2 (by decide)⟩
      unfold splitters
      rw [firstSection_skip (splitAtx_eq_nil _ hsk.1), firstSection_skip (splitBlank_eq_nil _ hb),
        firstSection_skip (hc.skip _ hsk.2.2), firstSection_skip (splitBullet_eq_nil _ hsk.2.1),
        firstSection_take hsp (take_ne (by omega))]
      rfl
  | false =>
  rw [hf] at hk
  cases hi : isIndentedStart l with
  | true =>
    rw [hi] at hk
    simp only [Bool.false_eq_true, if_false, if_true] at hk
    rw [hk]
    simp only
    have hsp : splitIndented (l :: ls) = .ok (cutAt (l :: ls) (max 1 (codeRun ls))) := by
      have hi' := hi
      unfold isIndentedStart at hi'
      simp only [splitIndented]
      rw [if_pos hi', indentLoop_count]
      have : (if codeRun ls = 0 then 1 else 1 + codeRun ls - 1) = max 1 (codeRun ls) := by
        split <;> omega
      rw [this]
      rfl
    have h1 : isAtx l = false := by simp [isAtx, hi]
    have h2 : isQuote l = false := by simp [isQuote, hi]
    have h3 : isBulletStart l = false := by simp [isBulletStart, hi]
    unfold splitters
    rw [firstSection_skip (splitAtx_eq_nil _ h1), firstSection_skip (splitBlank_eq_nil _ hb),
      firstSection_skip (hc.skip _ h2), firstSection_skip (splitBullet_eq_nil _ h3),
      firstSection_skip (splitFenced_eq_nil _ hf), firstSection_take hsp (take_ne (by omega))]
    rfl
  | false =>
  rw [hi] at hk
  cases ha : isAtx l with
  | true =>
    rw [ha] at hk
    rw [hk]
    exact firstSection_atx ls ha
  | false =>
  rw [ha] at hk
  cases hq : isQuote l with
  | true =>
    rw [hq] at hk
    rw [hk]
    simp only [Bool.false_eq_true, if_false, if_true]
    unfold splitters
    rw [firstSection_skip (splitAtx_eq_nil _ ha), firstSection_skip (splitBlank_eq_nil _ hb)]
    cases hs : sq (l :: ls) with
    | error e =>
      have : s (l :: ls) = .error e := by rw [hc.eq, hs]; rfl
      simp only [firstSection, this, bind, Except.bind]
      rfl
    | ok k =>
      have hpos := hc.pos l ls k (by rw [quotedLine_eq]; exact hq) hs
      have : s (l :: ls) = .ok (cutAt (l :: ls) k) := by rw [hc.eq, hs]; rfl
      rw [firstSection_take this (take_ne hpos)]
      rfl
  | false =>
  rw [hq] at hk
  have hskq := hc.skip ls hq
  cases hu : isBulletStart l with
  | true =>
    rw [hu] at hk
    simp only [Bool.false_eq_true, if_false, if_true] at hk
    rw [hk]
    simp only
    have hsp : splitBullet (l :: ls) = .ok (cutAt (l :: ls) (1 + (ls.takeWhile fun x => !listEnd x).length)) := by
      simp only [splitBullet, hu, Bool.not_true, Bool.false_eq_true, if_false, listLoop_count, Nat.zero_add, cutAt]
      rw [takeWhile_take]
    unfold splitters
    rw [firstSection_skip (splitAtx_eq_nil _ ha), firstSection_skip (splitBlank_eq_nil _ hb), firstSection_skip hskq,
      firstSection_take hsp (take_ne (by omega))]
    rfl
  | false =>
  rw [hu] at hk
  cases ho : isOrderedStart l with
  | true =>
    rw [ho] at hk
    simp only [Bool.false_eq_true, if_false, if_true] at hk
    rw [hk]
    simp only
    have hsp : splitOrdered (l :: ls) = .ok (cutAt (l :: ls) (1 + (ls.takeWhile fun x => !listEnd x).length)) := by
      simp only [splitOrdered, ho, Bool.not_true, Bool.false_eq_true, if_false, listLoop_count, Nat.zero_add, cutAt]
      rw [takeWhile_take]
    unfold splitters
    rw [firstSection_skip (splitAtx_eq_nil _ ha), firstSection_skip (splitBlank_eq_nil _ hb), firstSection_skip hskq,
      firstSection_skip (splitBullet_eq_nil _ hu), firstSection_skip (splitFenced_eq_nil _ hf),
      firstSection_skip (splitIndented_eq_nil _ hi), firstSection_skip (splitLrd_eq_nil _ (not_label (.inl ho))),
      firstSection_take hsp (take_ne (by omega))]
    rfl
  | false =>
  rw [ho] at hk
  cases ht : isTableStart l with
  | true =>
    rw [ht] at hk
    simp only [Bool.false_eq_true, if_false, if_true] at hk
    rw [hk]
    simp only
    have hsp : splitTable (l :: ls) = .ok (cutAt (l :: ls) (1 + (ls.takeWhile rowLine).length)) := by
      simp only [splitTable, ht, if_true, tableLoop_count, Nat.zero_add, cutAt]
      rw [takeWhile_take]
    have hp : isParStart l = false := by
      cases h : isParStart l with
      | false => rfl
      | true => rw [(isParStart_kind l).1 h] at hk; cases hk
    unfold splitters
    rw [firstSection_skip (splitAtx_eq_nil _ ha), firstSection_skip (splitBlank_eq_nil _ hb), firstSection_skip hskq,
      firstSection_skip (splitBullet_eq_nil _ hu), firstSection_skip (splitFenced_eq_nil _ hf),
      firstSection_skip (splitIndented_eq_nil _ hi), firstSection_skip (splitLrd_eq_nil _ (not_label (.inr (.inl ht)))),
      firstSection_skip (splitOrdered_eq_nil _ ho), firstSection_skip (splitPar_eq_nil _ hp),
      firstSection_skip (splitSetext_eq_nil _ hp), firstSection_take hsp (take_ne (by omega))]
    rfl
  | false =>
  rw [ht] at hk
  cases hm : isThematic l with
  | true =>
    rw [hm] at hk
    simp only [Bool.false_eq_true, if_false, if_true] at hk
    rw [hk]
    simp only
    have hsp : splitThematic (l :: ls) = .ok ([l], ls) := by simp only [splitThematic, hm, if_true]
    have hp : isParStart l = false := by
      cases h : isParStart l with
      | false => rfl
      | true => rw [(isParStart_kind l).1 h] at hk; cases hk
    unfold splitters
    rw [firstSection_skip (splitAtx_eq_nil _ ha), firstSection_skip (splitBlank_eq_nil _ hb), firstSection_skip hskq,
      firstSection_skip (splitBullet_eq_nil _ hu), firstSection_skip (splitFenced_eq_nil _ hf),
      firstSection_skip (splitIndented_eq_nil _ hi), firstSection_skip (splitLrd_eq_nil _ (not_label (.inr (.inr hm)))),
      firstSection_skip (splitOrdered_eq_nil _ ho), firstSection_skip (splitPar_eq_nil _ hp),
      firstSection_skip (splitSetext_eq_nil _ hp), firstSection_skip (splitTable_eq_nil _ ht),
      firstSection_take hsp (by simp)]
    rfl
  | false =>
  rw [hm] at hk
  simp only [Bool.false_eq_true, if_false] at hk
  rw [hk]
  simp only
  unfold splitters
  rw [firstSection_skip (splitAtx_eq_nil _ ha), firstSection_skip (splitBlank_eq_nil _ hb), firstSection_skip hskq,
    firstSection_skip (splitBullet_eq_nil _ hu), firstSection_skip (splitFenced_eq_nil _ hf),
    firstSection_skip (splitIndented_eq_nil _ hi)]
  have hdef := C115_definition (l :: ls)
  cases hd : defLines (l :: ls) with
  | error e =>
    rw [hd] at hdef
    simp only [firstSection, hdef, bind, Except.bind, Except.map]
  | ok d =>
    rw [hd] at hdef
    by_cases h0 : d = 0
    · subst h0
      rw [firstSection_skip hdef, firstSection_skip (splitOrdered_eq_nil _ ho)]
      simp only [bind, Except.bind, ne_eq, not_true_eq_false, if_false]
      have hpi := splitParIgn_count hc (ls := ls) hk
      cases htl : textLinesQ sq l ls with
      | error e =>
        rw [htl] at hpi
        simp only [firstSection, splitPar, hpi, bind, Except.bind, Except.map]
      | ok t =>
        have hpos := textLinesQ_pos htl
        rw [htl] at hpi
        have hne := take_ne (l := l) (ls := ls) hpos
        simp only
        cases hdr : (l :: ls).drop t with
        | nil =>
          have hsp : splitPar s (l :: ls) = .ok ((l :: ls).take t, []) := by
            simp only [splitPar, hpi, bind, Except.bind, Except.map, cutAt, hdr]
          rw [firstSection_take hsp hne]
          simp only [Except.map, asLines, hdr]
        | cons u us =>
          simp only
          rw [underline_eq]
          cases hun : isSetextUnderline u with
          | false =>
            have hsp : splitPar s (l :: ls) = .ok ((l :: ls).take t, u :: us) := by
              simp only [splitPar, hpi, bind, Except.bind, Except.map, cutAt, hdr, hun, Bool.not_false, if_true]
            rw [firstSection_take hsp hne]
            simp only [Bool.false_eq_true, if_false, Except.map, asLines, hdr]
          | true =>
            have hsp : splitPar s (l :: ls) = .ok ([], l :: ls) := by
              simp only [splitPar, hpi, bind, Except.bind, Except.map, cutAt, hdr, hun, Bool.not_true, Bool.false_eq_true,
                if_false]
            have hcut : (l :: ls).take (t + 1) = (l :: ls).take t ++ [u] ∧ (l :: ls).drop (t + 1) = us := by
              constructor
              · rw [List.take_add, hdr]; rfl
              · rw [← List.drop_drop, hdr]; rfl
            have hse : splitSetext s (l :: ls) = .ok ((l :: ls).take t ++ [u], us) := by
              simp only [splitSetext, hpi, bind, Except.bind, Except.map, cutAt, hdr]
              cases hta : (l :: ls).take t with
              | nil => exact absurd hta hne
              | cons p ps => simp only [hun, if_true]
            rw [firstSection_skip hsp, firstSection_take hse (by simp)]
            simp only [if_true, Except.map, asLines, hcut.1, hcut.2]
    · rw [firstSection_take hdef (take_ne (by omega))]
      simp only [bind, Except.bind, ne_eq, h0, not_false_eq_true, if_true, Except.map, asLines]

theorem divide_loop_quotes : ∀ (fuel : Nat) (ls : List Str), parseLoop s fuel ls = divideLoopQ sq fuel ls := by
  intro fuel
  induction fuel with
  | zero => intro ls; cases ls <;> rfl
  | succ fuel ih =>
    intro ls
    cases ls with
    | nil => rfl
    | cons l ls =>
      simp only [parseLoop, divideLoopQ, first_section_quotes hc, bind, Except.bind]
      cases firstExtentQ sq l ls with
      | error e => rfl
      | ok r =>
        simp only [Except.map, asLines]
        rw [ih]

theorem parseWith_divide (ls : List Str) : parseWith s ls = divideWith sq ls := divide_loop_quotes hc _ _

/-! ## Quotes -/

omit hc in
theorem splitSetext_empty {l : Str} (ls : List Str) (h : kindOf l ≠ none) : splitSetext s (l :: ls) = .ok ([], l :: ls) := by
  refine splitSetext_eq_nil ls ?_
  cases hp : isParStart l with
  | false => rfl
  | true => exact absurd ((isParStart_kind l).1 hp) h

theorem isQuoteCont_count (l : Str) (ls : List Str) :
    isQuoteCont s (l :: ls) = (lazyStop sq l ls).map (!·) := by
  unfold lazyStop
  have any1 : ∀ {b : Bool}, interrupts l = false → splitSetext s (l :: ls) = .ok (if b then l :: ls else [], []) ∨ True →
      True := fun _ _ => trivial
  clear any1
  -- what the other checks say
  have hchk : interrupts l = false → isQuoteCont s (l :: ls) =
      (splitSetext s (l :: ls)).map fun r => r.1.isEmpty && !isSetextUnderline l := by
    intro hi
    have hi' := hi
    simp only [interrupts, Bool.or_eq_false_iff] at hi'
    obtain ⟨⟨⟨⟨⟨⟨h1, h2⟩, h3⟩, h4⟩, h5⟩, h6⟩, h7⟩ := hi'
    simp only [isQuoteCont, anySplits, splitAtx_eq_nil ls h1, splitBlank_eq_nil ls h2, splitBullet_eq_nil ls h3,
      splitFenced_eq_nil ls h4, splitOrdered_eq_nil ls h5, splitTable_eq_nil ls h6, splitThematic_eq_nil ls h7, bind,
      Except.bind, List.isEmpty_nil, Bool.not_true, Bool.false_eq_true, if_false]
    cases splitSetext s (l :: ls) with
    | error e => rfl
    | ok r =>
      simp only [Except.map]
      cases r.1.isEmpty <;> cases isSetextUnderline l <;> rfl
  cases hq : quotedLine l with
  | true =>
    simp only [if_true]
    rw [quotedLine_eq] at hq
    have hkq : kindOf l = some .quote := by
      have hq' := hq
      simp only [isQuote, Bool.and_eq_true] at hq'
      obtain ⟨hi, hst⟩ := hq'
      obtain ⟨r, hr⟩ := (startsWith_iff _ _).1 hst
      have hfc : firstCh l = some '>' := by simp only [firstCh, hr]; rfl
      obtain ⟨f1, f2, f3, f4, f5, f6, f7, f8, f9⟩ := false_of_first hfc
      rw [kindOf_eq, f9, f4 (by decide) (by decide), f1 (by decide), hq]
      simp only [Bool.not_eq_true'] at hi
      rw [hi]
      rfl
    have hint : interrupts l = false ∧ isSetextUnderline l = false := by
      have hq' := hq
      simp only [isQuote, Bool.and_eq_true] at hq'
      obtain ⟨r, hr⟩ := (startsWith_iff _ _).1 hq'.2
      have hfc : firstCh l = some '>' := by simp only [firstCh, hr]; rfl
      obtain ⟨f1, f2, f3, f4, f5, f6, f7, f8, f9⟩ := false_of_first hfc
      constructor
      · simp only [interrupts, f9, f4 (by decide) (by decide), f1 (by decide), f3 (by decide),
          f5 (by decide) (by decide) (by decide), f6 (by decide), f7 (by decide) (by decide) (by decide), Bool.or_self]
      · exact f8 (by decide) (by decide)
    rw [hchk hint.1, splitSetext_empty ls (by rw [hkq]; simp), hint.2]
    rfl
  | false =>
    simp only [Bool.false_eq_true, if_false]
    have hq' : isQuote l = false := by rw [← quotedLine_eq]; exact hq
    by_cases hk : kindOf l = none
    · rw [if_pos hk]
      have hint : interrupts l = false := by
        have hp := (isParStart_kind l).2 hk
        simp only [isParStart, List.any_cons, List.any_nil, Bool.or_false, Bool.not_eq_true', Bool.or_eq_false_iff] at hp
        obtain ⟨p1, p2, p3, p4, p5, p6, p7, p8, p9⟩ := hp
        simp only [interrupts, p2, p3, p4, p6, p7, p8, p9, Bool.or_self]
      rw [hchk hint]
      have hpi := splitParIgn_count hc (ls := ls) hk
      simp only [splitSetext, underlinedAt, hpi, bind, Except.bind]
      cases htl : textLinesQ sq l ls with
      | error e => rfl
      | ok t =>
        have hne := take_ne (l := l) (ls := ls) (textLinesQ_pos htl)
        simp only [Except.map, cutAt]
        cases hta : (l :: ls).take t with
        | nil => exact absurd hta hne
        | cons p ps =>
          cases hdr : (l :: ls).drop t with
          | nil => simp only [List.isEmpty_nil, Bool.true_and, Bool.false_or, underline_eq]
          | cons u us =>
            simp only
            rw [underline_eq, underline_eq]
            cases isSetextUnderline u <;> simp
    · rw [if_neg hk]
      cases hint : interrupts l with
      | true =>
        rw [isQuoteCont_stop ls hint, textEnd_eq, hint]
        rfl
      | false =>
        rw [hchk hint, splitSetext_empty ls hk, textEnd_eq, hint, hq']
        simp [Except.map]

theorem contLoop_count : ∀ (ls : List Str) (first : Bool), contLoop s first ls = (lazyRun sq ls).map (cutAt ls) := by
  intro ls
  induction ls with
  | nil => intro first; rfl
  | cons l ls ih =>
    intro first
    have hstop : lazyStop sq l ls = .ok false → isSetextUnderline l = false := by
      intro h
      have hi := isQuoteCont_count hc l ls
      rw [h] at hi
      rcases isQuoteCont_textEnd hi with h1 | h1
      · rw [quotedLine_eq] at h1
        simp only [isQuote, Bool.and_eq_true] at h1
        obtain ⟨r, hr⟩ := (startsWith_iff _ _).1 h1.2
        have hfc : firstCh l = some '>' := by simp only [firstCh, hr]; rfl
        exact (false_of_first hfc).2.2.2.2.2.2.2.1 (by decide) (by decide)
      · rw [textEnd_eq] at h1
        simp only [Bool.or_eq_false_iff] at h1
        exact h1.2
    simp only [contLoop, lazyRun, isQuoteCont_count hc l ls, bind, Except.bind]
    cases hl : lazyStop sq l ls with
    | error e => rfl
    | ok b =>
      simp only [Except.map]
      cases b with
      | true => rfl
      | false =>
        simp only [Bool.not_false, if_true, Bool.false_eq_true, if_false]
        rw [hstop hl]
        simp only [Bool.false_and, Bool.and_false, Bool.false_eq_true, if_false]
        rw [ih false]
        cases lazyRun sq ls with
        | error e => rfl
        | ok k => rfl

omit hc in
/-- What follows the lines that go on a quote is not quoted. -/
theorem lazyRun_stop : ∀ (ls : List Str) (k : Nat), lazyRun sq ls = .ok k →
    ∀ x, (ls.drop k).head? = some x → isQuote x = false := by
  intro ls
  induction ls with
  | nil => intro k _ x hx; simp at hx
  | cons l ls ih =>
    intro k h x hx
    simp only [lazyRun, bind, Except.bind] at h
    cases hl : lazyStop sq l ls with
    | error e => rw [hl] at h; cases h
    | ok b =>
      rw [hl] at h
      cases b with
      | true =>
        cases h
        simp only [List.drop_zero, List.head?_cons, Option.some.injEq] at hx
        subst hx
        cases hq : isQuote l with
        | false => rfl
        | true =>
          rw [lazyStop, quotedLine_eq, hq] at hl
          cases hl
      | false =>
        simp only [Bool.false_eq_true, if_false] at h
        cases hr : lazyRun sq ls with
        | error e => rw [hr] at h; cases h
        | ok j =>
          rw [hr] at h
          have : j + 1 = k := Except.ok.inj h
          subst this
          rw [List.drop_succ_cons] at hx
          exact ih j hr x hx

end

theorem endsPar_eq {p q : List Str → Except Err (List (Sec × List Str))} (hpq : ∀ ls, p ls = q ls) :
    ∀ n ls, endsWithPar p n ls = endsPar q n ls := by
  intro n
  induction n with
  | zero => intro ls; rfl
  | succ n ih =>
    intro ls
    have : ls.map unquote = ls.map unmark := List.map_congr_left fun l _ => (unmark_eq l).symm
    simp only [endsWithPar, endsPar, this, hpq, bind, Except.bind]
    cases q (ls.map unmark) with
    | error e => rfl
    | ok secs =>
      simp only
      split <;> simp_all

theorem quoteLoop_count {s : List Str → Split} {sq : List Str → Except Err Nat} (hc : Counts s sq) (n : Nat) (l : Str)
    (ls : List Str) (hq : isQuote l = true) (f : Nat) (hf : 2 ≤ f) :
    quoteLoop (endsWithPar (parseWith s) n) s f [] (l :: ls) =
      ((do
        let goesOn ← endsPar (divideWith sq) n ((l :: ls).takeWhile quotedLine)
        if goesOn then
          (lazyRun sq ((l :: ls).dropWhile quotedLine)).map (((l :: ls).takeWhile quotedLine).length + ·)
        else .ok ((l :: ls).takeWhile quotedLine).length) : Except Err Nat).map (cutAt (l :: ls)) := by
  obtain ⟨f, rfl⟩ : ∃ g, f = g + 2 := ⟨f - 2, by omega⟩
  have hfun : quotedLine = isQuote := funext quotedLine_eq
  rw [hfun]
  have hcut := takeWhile_cut isQuote (l :: ls)
  simp only [quoteLoop, hq, Bool.not_true, Bool.false_eq_true, if_false, List.nil_append, bind, Except.bind,
    endsPar_eq (parseWith_divide hc)]
  cases endsPar (divideWith sq) n ((l :: ls).takeWhile isQuote) with
  | error e => rfl
  | ok b =>
    simp only
    cases b with
    | false =>
      simp only [Bool.false_eq_true, if_false, Except.map, cutAt]
      rw [← hcut.1, ← hcut.2]
    | true =>
      simp only [if_true, contLoop_count hc]
      cases hlr : lazyRun sq ((l :: ls).dropWhile isQuote) with
      | error e => rfl
      | ok k =>
        have hstop := lazyRun_stop _ k hlr
        simp only [Except.map, cutAt]
        have e1 : (l :: ls).take (((l :: ls).takeWhile isQuote).length + k) =
            (l :: ls).takeWhile isQuote ++ ((l :: ls).dropWhile isQuote).take k := by
          rw [List.take_add, ← hcut.1, ← hcut.2]
        have e2 : (l :: ls).drop (((l :: ls).takeWhile isQuote).length + k) = ((l :: ls).dropWhile isQuote).drop k := by
          rw [← List.drop_drop, ← hcut.2]
        rw [e1, e2]
        cases hd : ((l :: ls).dropWhile isQuote).drop k with
        | nil => simp only [quoteLoop]
        | cons x xs =>
          have := hstop x (by rw [hd]; rfl)
          simp only [quoteLoop, this, Bool.not_false, if_true]

/-- The splitter that takes the lines the specification says. -/
def specQuote (n : Nat) (lines : List Str) : Split := (quoteLines n lines).map (cutAt lines)

theorem quoteLines_counts (n : Nat) : Counts (specQuote n) (quoteLines n) where
  eq := fun _ => rfl
  unq := by
    intro l ls h
    cases n <;> simp only [quoteLines, h, Bool.false_eq_true, if_false]
  pos := by
    intro l ls k h hk
    cases n with
    | zero => simp only [quoteLines, h, if_true] at hk; cases hk
    | succ n =>
      simp only [quoteLines, h, if_true] at hk
      have hlen : 1 ≤ ((l :: ls).takeWhile quotedLine).length := by
        rw [List.takeWhile_cons, h]; simp
      simp only [bind, Except.bind] at hk
      split at hk
      · cases hk
      · split at hk
        · cases hr : lazyRun (quoteLines n) ((l :: ls).dropWhile quotedLine) with
          | error e => rw [hr] at hk; cases hk
          | ok j =>
            rw [hr] at hk
            have : ((l :: ls).takeWhile quotedLine).length + j = k := Except.ok.inj hk
            omega
        · have := Except.ok.inj hk
          omega

theorem specQuote_succ (n : Nat) (lines : List Str) : specQuote (n + 1) lines =
    quoteLoop (endsWithPar (parseWith (specQuote n)) n) (specQuote n) (lines.length + 1) [] lines := by
  cases lines with
  | nil => rfl
  | cons l ls =>
    cases hq : isQuote l with
    | false =>
      have : quotedLine l = false := by rw [quotedLine_eq]; exact hq
      simp only [specQuote, quoteLines, this, Bool.false_eq_true, if_false, quoteLoop, hq, Bool.not_false, if_true]
      rfl
    | true =>
      have : quotedLine l = true := by rw [quotedLine_eq]; exact hq
      rw [quoteLoop_count (quoteLines_counts n) n l ls hq _ (by simp)]
      simp only [specQuote, quoteLines, this, if_true]

theorem splitQuote_below : ∀ (n : Nat) (lines : List Str), Refines (splitQuote n lines) (specQuote n lines) := by
  intro n
  induction n with
  | zero => intro lines; exact .inl rfl
  | succ n ih =>
    intro lines
    rw [specQuote_succ]
    exact quoteLoop_refines ih
      (fun ls => endsWithPar_refines (parseWith_refines ih) n n ls (Nat.le_refl _)) _ _ _

theorem splitQuote_above : ∀ (n : Nat) (lines : List Str), Refines (specQuote n lines) (splitQuote (n + 1) lines) := by
  intro n
  induction n with
  | zero =>
    intro lines
    cases lines with
    | nil => exact .inr rfl
    | cons l ls =>
      cases hq : isQuote l with
      | false =>
        right
        have : quotedLine l = false := by rw [quotedLine_eq]; exact hq
        rw [splitQuote_unquoted 0 ls hq]
        simp only [specQuote, quoteLines, this, Bool.false_eq_true, if_false]
        rfl
      | true =>
        left
        have : quotedLine l = true := by rw [quotedLine_eq]; exact hq
        simp only [specQuote, quoteLines, this, if_true]
        rfl
  | succ n ih =>
    intro lines
    rw [specQuote_succ]
    exact quoteLoop_refines ih
      (fun ls => endsWithPar_refines (parseWith_refines ih) n (n + 1) ls (Nat.le_succ _)) _ _ _

/-- C117: unless it runs out of its recursion budget, the division of a document is the one of the specification:
kinds, lines and failures. -/
theorem C117_division (n : Nat) (lines : List Str) (h : parse n lines ≠ .error .recursion) :
    parse n lines = divideQ n lines := by
  have := parseWith_refines (splitQuote_below n) lines
  rw [parseWith_divide (quoteLines_counts n)] at this
  exact this.resolve_left h

/-- C117: where the specification is not cut off by its depth, a recursion budget one larger gives it. -/
theorem C117_enough (n : Nat) (lines : List Str) (h : divideQ n lines ≠ .error .recursion) :
    parse (n + 1) lines = divideQ n lines := by
  have := parseWith_refines (splitQuote_above n) lines
  rw [parseWith_divide (quoteLines_counts n)] at this
  exact (this.resolve_left h).symm

/-- C117: documents without whitespace other than spaces are always divided as specified, with a recursion budget that
depends on their size only. -/
theorem C117_spaces (lines : List Str) (h : ∀ l ∈ lines, ∀ c ∈ l, isWs c = true → c = ' ') (n : Nat)
    (hn : lines.length * (longest lines + 2) + (lines.headD []).length + 1 ≤ n) :
    parse n lines = divideQ n lines ∧ parse n lines ≠ .error .recursion := by
  have := parse_terminates (M := longest lines) (n := n) (fun l hl => ⟨longest_ge lines l hl, h l hl⟩) hn
  exact ⟨C117_division n lines this, this⟩

theorem C117_example :
    parse 8 [c!"> a", c!"> > b", c!"c", c!"> d", c!"# e", c!"> # f", c!"g", c!"> h", c!"i", c!"j", c!"==="] =
      .ok [(.quote, [c!"> a", c!"> > b", c!"c", c!"> d"]), (.atx, [c!"# e"]), (.quote, [c!"> # f"]), (.par, [c!"g"]),
        (.quote, [c!"> h"]), (.setext, [c!"i", c!"j", c!"==="])] ∧
    parse 8 [c!"> a  "] = .ok [(.quote, [c!"> a  "])] ∧
    parse 8 [c!"> a", c!"b", c!"c  "] = .error .stopIteration := by
  refine ⟨?_, ?_, ?_⟩
  · rw [C117_division 8 _ (by decide +kernel)]
    decide +kernel
  · rw [C117_division 8 _ (by decide +kernel)]
    decide +kernel
  · rw [C117_division 8 _ (by decide +kernel)]
    decide +kernel

end MF
