import Verif.Props.DefLines
import Verif.Props.Extents
import Verif.Lemmas.Sections
/-!
# C116: how a document without quoted lines is divided, completely

`divide` is a specification of the division of lines into sections: what the first line is, and how many lines belong
to it. It says when the division fails, too.
-/

namespace MF

/-- Text lines that go on from here: up to a line that ends text, or up to and with one that ends in two spaces. Such a
line must not be the last one of the document. -/
def textRun : List Str → Except Err Nat
  | [] => .ok 0
  | l :: more =>
    if textEnd l then .ok 0
    else if hardBreak l then (if more.isEmpty then .error .stopIteration else .ok 1)
    else (textRun more).map (· + 1)

/-- The lines of a block of text. -/
def textLines (l : Str) (more : List Str) : Except Err Nat := if hardBreak l then .ok 1 else (textRun more).map (· + 1)

/-- Indented and empty lines that follow, without the empty ones at the end. -/
def codeRun (more : List Str) : Nat :=
  ((more.takeWhile fun l => emptyLine l || decide (4 ≤ getIndent l)).reverse.dropWhile emptyLine).length

/-- Lines up to and with the one that closes a fence; all of them when none does. -/
def fencedRun (F : Str) : List Str → Nat
  | [] => 0
  | l :: more => if strip l = F then 1 else fencedRun F more + 1

/-- Kind and number of lines of the section at the beginning of `l :: more`. -/
def firstExtent (l : Str) (more : List Str) : Except Err (Sec × Nat) :=
  match kindOf l with
  | some .fenced => .ok (.fenced, 1 + fencedRun (fenceRun l) more)
  | some .indented => .ok (.indented, max 1 (codeRun more))
  | some .bullet => .ok (.bullet, 1 + (more.takeWhile fun x => !listEnd x).length)
  | some .ordered => .ok (.ordered, 1 + (more.takeWhile fun x => !listEnd x).length)
  | some .table => .ok (.table, 1 + (more.takeWhile rowLine).length)
  | some k => .ok (k, 1)
  | none => do
    let d ← defLines (l :: more)
    if d ≠ 0 then .ok (.lrd, d)
    else
      let t ← textLines l more
      match (l :: more).drop t with
      | u :: _ => if underline u then .ok (.setext, t + 1) else .ok (.par, t)
      | [] => .ok (.par, t)

/-- Section after section; `fuel` bounds their number. -/
def divideLoop : Nat → List Str → Except Err (List (Sec × List Str))
  | _, [] => .ok []
  | 0, _ :: _ => .error .recursion
  | fuel + 1, l :: more => do
    let r ← firstExtent l more
    let rest ← divideLoop fuel ((l :: more).drop r.2)
    .ok ((r.1, (l :: more).take r.2) :: rest)

/-- The division of a document; every section takes a line, so the number of lines bounds the number of sections. -/
def divide (lines : List Str) : Except Err (List (Sec × List Str)) := divideLoop lines.length lines

/-! ## The loops -/

theorem parLoop_run (n : Nat) : ∀ (ls : List Str), (∀ l ∈ ls, isQuote l = false) →
    parLoop (splitQuote (n + 1)) ls = (textRun ls).map (cutAt ls) := by
  intro ls
  induction ls with
  | nil => intro _; rfl
  | cons l ls ih =>
    intro hq
    have hl := hq l List.mem_cons_self
    have he : (!interrupts l && !isSetextUnderline l) = !textEnd l := by
      rw [textEnd_eq, hl]
      cases interrupts l <;> cases isSetextUnderline l <;> rfl
    simp only [parLoop, textRun, isParCont_eq (n := n) ls hl, he, bind, Except.bind]
    cases ht : textEnd l with
    | true => rfl
    | false =>
      simp only [Bool.not_false, if_true, Bool.false_eq_true, if_false]
      have hh : endsWith l c!"  " = hardBreak l := rfl
      rw [hh]
      cases hb : hardBreak l with
      | true =>
        simp only [if_true]
        cases ls with
        | nil => rfl
        | cons x ls => rfl
      | false =>
        simp only [Bool.false_eq_true, if_false]
        rw [ih (fun x hx => hq x (List.mem_cons_of_mem _ hx))]
        cases textRun ls with
        | error e => rfl
        | ok k => rfl

theorem splitParIgn_run (n : Nat) {l : Str} {ls : List Str} (hk : kindOf l = none) (hq : ∀ x ∈ ls, isQuote x = false) :
    splitParIgn (splitQuote (n + 1)) (l :: ls) = (textLines l ls).map (cutAt (l :: ls)) := by
  have hp := (isParStart_kind l).2 hk
  have hh : endsWith l c!"  " = hardBreak l := rfl
  simp only [splitParIgn, hp, if_true, textLines, hh, parLoop_run n ls hq, bind, Except.bind]
  cases hb : hardBreak l with
  | true => rfl
  | false =>
    simp only [Bool.false_eq_true, if_false]
    cases textRun ls with
    | error e => rfl
    | ok k => rfl

theorem fenceLoop_run (F : Str) : ∀ (ls : List Str) (i : Nat),
    fenceLoop F i ls = (ls.take (fencedRun F ls), i + fencedRun F ls) := by
  intro ls
  induction ls with
  | nil => intro i; rfl
  | cons l ls ih =>
    intro i
    rw [fenceLoop, fencedRun]
    by_cases h : strip l = F
    · simp [h]
    · have : (strip l == F) = false := by simpa using h
      simp only [this, if_neg h, Bool.false_eq_true, if_false, ih]
      simp only [List.take_succ_cons, Prod.mk.injEq, true_and]
      omega

theorem codeRun_cons (l : Str) (ls : List Str) :
    codeRun (l :: ls) =
      if emptyLine l then (if codeRun ls = 0 then 0 else codeRun ls + 1)
      else if 4 ≤ getIndent l then codeRun ls + 1 else 0 := by
  have key : ∀ (r : List Str), ((l :: r).reverse.dropWhile emptyLine).length =
      if emptyLine l then (if (r.reverse.dropWhile emptyLine).length = 0 then 0
        else (r.reverse.dropWhile emptyLine).length + 1) else (r.reverse.dropWhile emptyLine).length + 1 := by
    intro r
    rw [List.reverse_cons]
    by_cases h0 : r.reverse.dropWhile emptyLine = []
    · rw [dropWhile_append_all _ _ _ ((dropWhile_eq_nil _ _).1 h0), h0]
      cases he : emptyLine l <;> simp [he]
    · rw [dropWhile_append_of_ne _ _ _ h0]
      have : (r.reverse.dropWhile emptyLine).length ≠ 0 := by simpa using h0
      rw [if_neg this]
      simp
  unfold codeRun
  rw [List.takeWhile_cons]
  by_cases he : emptyLine l = true
  · simp only [he, Bool.true_or, if_true]
    rw [key, if_pos he]
  · have he : emptyLine l = false := by simpa using he
    by_cases hi : 4 ≤ getIndent l
    · simp only [he, hi, decide_true, Bool.or_true, if_true, Bool.false_eq_true, if_false]
      rw [key, he]
      simp
    · simp [he, hi]

theorem indentLoop_count : ∀ (ls : List Str) (i c : Nat),
    indentLoop i c ls = if codeRun ls = 0 then c else i + codeRun ls - 1 := by
  intro ls
  induction ls with
  | nil => intro i c; rfl
  | cons l ls ih =>
    intro i c
    have he : (strip l).isEmpty = emptyLine l := (emptyLine_eq l).symm
    rw [indentLoop, codeRun_cons, he]
    cases hE : emptyLine l with
    | true =>
      simp only [if_true]
      rw [ih]
      split
      · rfl
      · rw [if_neg (by omega)]; omega
    | false =>
      simp only [Bool.false_eq_true, if_false]
      by_cases hi : 4 ≤ getIndent l
      · rw [if_pos hi, if_pos hi, ih, if_neg (Nat.succ_ne_zero _)]
        split <;> omega
      · rw [if_neg hi, if_neg hi, if_pos rfl]

theorem takeWhile_cut {α : Type} (p : α → Bool) (l : List α) : l.takeWhile p = l.take (l.takeWhile p).length ∧
    l.dropWhile p = l.drop (l.takeWhile p).length := by
  induction l with
  | nil => exact ⟨rfl, rfl⟩
  | cons a l ih =>
    rw [List.takeWhile_cons, List.dropWhile_cons]
    cases p a with
    | true => simp only [if_true, List.length_cons, List.take_succ_cons, List.drop_succ_cons]; exact ⟨by rw [← ih.1], ih.2⟩
    | false => exact ⟨rfl, rfl⟩

theorem dropWhile_stop {α : Type} (p : α → Bool) (l : List α) : ∀ x, (l.dropWhile p).head? = some x → p x = false := by
  intro x hx
  rcases dropWhile_head p l with h | ⟨c, r, h, hc⟩
  · rw [h] at hx; cases hx
  · rw [h] at hx; cases hx; exact hc

/-! ## The first section -/

/-- The first section of the specification, as lines. -/
def asLines (lines : List Str) (r : Sec × Nat) : Sec × List Str × List Str := (r.1, lines.take r.2, lines.drop r.2)

theorem textLines_pos {l : Str} {ls : List Str} {k : Nat} (h : textLines l ls = .ok k) : 1 ≤ k := by
  unfold textLines at h
  split at h
  · cases h; omega
  · cases ht : textRun ls with
    | error e => rw [ht] at h; cases h
    | ok j =>
      rw [ht] at h
      have : j + 1 = k := Except.ok.inj h
      omega

theorem first_section (n : Nat) {l : Str} {ls : List Str} (hq : ∀ x ∈ l :: ls, isQuote x = false) :
    firstSection (splitters (splitQuote (n + 1))) (l :: ls) = (firstExtent l ls).map (asLines (l :: ls)) := by
  have hl := hq l List.mem_cons_self
  have hls : ∀ x ∈ ls, isQuote x = false := fun x hx => hq x (List.mem_cons_of_mem _ hx)
  have hk := kindOf_eq l
  -- lines up to a stop
  have hup : ∀ (p : Str → Bool), ∃ a b, ls = a ++ b ∧ (∀ x ∈ a, p x = true) ∧ (∀ x, b.head? = some x → p x = false) ∧
      a.length = (ls.takeWhile p).length := by
    intro p
    exact ⟨_, _, (List.takeWhile_append_dropWhile (p := p)).symm, takeWhile_all _ _, dropWhile_stop _ _, rfl⟩
  unfold firstExtent
  cases hb : isBlankLine l with
  | true =>
    rw [hk, hb]
    exact firstSection_blank ls hb
  | false =>
  rw [hb] at hk
  cases hf : isFenceStart l with
  | true =>
    rw [hf] at hk
    simp only [Bool.false_eq_true, if_false, if_true] at hk
    rw [hk]
    simp only
    cases hF : openFence l with
    | none => rw [(openFence_none l).1 hF] at hf; cases hf
    | some F =>
      have hrun := openFence_run hF
      have hsp : splitFenced (l :: ls) = .ok (cutAt (l :: ls) (1 + fencedRun (fenceRun l) ls)) := by
        simp only [splitFenced, hF, fenceLoop_run, hrun, cutAt]
        rw [Nat.add_comm 1, List.take_succ_cons, Nat.zero_add]
      have h1 : firstCh l = some '`' ∨ firstCh l = some '~' := isFenceStart_first hf
      have hsk : isAtx l = false ∧ isBulletStart l = false := by
        rcases h1 with h | h
        · obtain ⟨h1, _, _, _, h5, _⟩ := false_of_first h
          exact ⟨h1 (by decide), h5 (by decide) (by decide) (by decide)⟩
        · obtain ⟨h1, _, _, _, h5, _⟩ := false_of_first h
          exact ⟨h1 (by decide), h5 (by decide) (by decide) (by decide)⟩
      unfold splitters
      rw [firstSection_skip (splitAtx_eq_nil _ hsk.1), firstSection_skip (splitBlank_eq_nil _ hb),
        firstSection_skip (splitQuote_unquoted n _ hl), firstSection_skip (splitBullet_eq_nil _ hsk.2),
        firstSection_take hsp (by rw [Nat.add_comm 1, List.take_succ_cons]; simp)]
      rfl
  | false =>
  rw [hf] at hk
  cases hi : isIndentedStart l with
  | true =>
    rw [hi] at hk
    simp only [Bool.false_eq_true, if_false, if_true] at hk
    rw [hk]
    simp only
    have hsp : splitIndented (l :: ls) = .ok (cutAt (l :: ls) (max 1 (codeRun ls))) := by
      have hi' := hi
      unfold isIndentedStart at hi'
      simp only [splitIndented]
      rw [if_pos hi', indentLoop_count]
      have : (if codeRun ls = 0 then 1 else 1 + codeRun ls - 1) = max 1 (codeRun ls) := by
        split <;> omega
      rw [this]
      rfl
    rw [firstSection_indented hi hf hsp ?_]
    · rfl
    · obtain ⟨j, hj⟩ : ∃ j, max 1 (codeRun ls) = j + 1 := ⟨max 1 (codeRun ls) - 1, by omega⟩
      rw [hj, List.take_succ_cons]
      simp
  | false =>
  rw [hi] at hk
  cases ha : isAtx l with
  | true =>
    rw [ha] at hk
    rw [hk]
    exact firstSection_atx ls ha
  | false =>
  rw [ha, hl] at hk
  cases hu : isBulletStart l with
  | true =>
    rw [hu] at hk
    simp only [Bool.false_eq_true, if_false, if_true] at hk
    rw [hk]
    simp only
    obtain ⟨a, b, e, h1, h2, h3⟩ := hup (fun x => !listEnd x)
    rw [← h3, e, ← List.cons_append, firstSection_bullet a b hu (fun x hx => by simpa using h1 x hx)
      (fun x hx => by simpa using h2 x hx)]
    simp only [Except.map, asLines]
    rw [show 1 + a.length = (l :: a).length by simp; omega]
    simp
  | false =>
  rw [hu] at hk
  cases ho : isOrderedStart l with
  | true =>
    rw [ho] at hk
    simp only [Bool.false_eq_true, if_false, if_true] at hk
    rw [hk]
    simp only
    obtain ⟨a, b, e, h1, h2, h3⟩ := hup (fun x => !listEnd x)
    rw [← h3, e, ← List.cons_append, firstSection_ordered a b ho (fun x hx => by simpa using h1 x hx)
      (fun x hx => by simpa using h2 x hx)]
    simp only [Except.map, asLines]
    rw [show 1 + a.length = (l :: a).length by simp; omega]
    simp
  | false =>
  rw [ho] at hk
  cases ht : isTableStart l with
  | true =>
    rw [ht] at hk
    simp only [Bool.false_eq_true, if_false, if_true] at hk
    rw [hk]
    simp only
    obtain ⟨a, b, e, h1, h2, h3⟩ := hup rowLine
    have hind : getIndent l < 4 := by
      have := indented_eq hb
      rw [hi] at this
      simpa using this
    rw [← h3, e, ← List.cons_append, firstSection_table a b ht hind (fun x hx => by rw [← rowLine_eq]; exact h1 x hx)
      (fun x hx => by rw [← rowLine_eq]; exact h2 x hx)]
    simp only [Except.map, asLines]
    rw [show 1 + a.length = (l :: a).length by simp; omega]
    simp
  | false =>
  rw [ht] at hk
  cases hm : isThematic l with
  | true =>
    rw [hm] at hk
    rw [hk]
    exact firstSection_thematic ls hm hu
  | false =>
  rw [hm] at hk
  simp only [Bool.false_eq_true, if_false] at hk
  rw [hk]
  simp only
  unfold splitters
  rw [firstSection_skip (splitAtx_eq_nil _ ha), firstSection_skip (splitBlank_eq_nil _ hb),
    firstSection_skip (splitQuote_unquoted n _ hl), firstSection_skip (splitBullet_eq_nil _ hu),
    firstSection_skip (splitFenced_eq_nil _ hf), firstSection_skip (splitIndented_eq_nil _ hi)]
  have hdef := C115_definition (l :: ls)
  cases hd : defLines (l :: ls) with
  | error e =>
    rw [hd] at hdef
    simp only [firstSection, hdef, bind, Except.bind, Except.map]
  | ok d =>
    rw [hd] at hdef
    by_cases h0 : d = 0
    · subst h0
      rw [firstSection_skip hdef, firstSection_skip (splitOrdered_eq_nil _ ho)]
      simp only [bind, Except.bind, ne_eq, not_true_eq_false, if_false]
      have hpi := splitParIgn_run n hk hls
      cases htl : textLines l ls with
      | error e =>
        rw [htl] at hpi
        simp only [firstSection, splitPar, hpi, bind, Except.bind, Except.map]
      | ok t =>
        have hpos := textLines_pos htl
        rw [htl] at hpi
        have hne : (l :: ls).take t ≠ [] := by
          obtain ⟨j, rfl⟩ : ∃ j, t = j + 1 := ⟨t - 1, by omega⟩
          rw [List.take_succ_cons]; simp
        simp only
        cases hdr : (l :: ls).drop t with
        | nil =>
          have hsp : splitPar (splitQuote (n + 1)) (l :: ls) = .ok ((l :: ls).take t, []) := by
            simp only [splitPar, hpi, bind, Except.bind, Except.map, cutAt, hdr]
          rw [firstSection_take hsp hne]
          simp only [Except.map, asLines, hdr]
        | cons u us =>
          simp only
          rw [underline_eq]
          cases hun : isSetextUnderline u with
          | false =>
            have hsp : splitPar (splitQuote (n + 1)) (l :: ls) = .ok ((l :: ls).take t, u :: us) := by
              simp only [splitPar, hpi, bind, Except.bind, Except.map, cutAt, hdr, hun, Bool.not_false, if_true]
            rw [firstSection_take hsp hne]
            simp only [Bool.false_eq_true, if_false, Except.map, asLines, hdr]
          | true =>
            have hsp : splitPar (splitQuote (n + 1)) (l :: ls) = .ok ([], l :: ls) := by
              simp only [splitPar, hpi, bind, Except.bind, Except.map, cutAt, hdr, hun, Bool.not_true, Bool.false_eq_true,
                if_false]
            have hcut : (l :: ls).take (t + 1) = (l :: ls).take t ++ [u] ∧ (l :: ls).drop (t + 1) = us := by
              constructor
              · rw [List.take_add, hdr]; rfl
              · rw [← List.drop_drop, hdr]; rfl
            have hse : splitSetext (splitQuote (n + 1)) (l :: ls) = .ok ((l :: ls).take t ++ [u], us) := by
              simp only [splitSetext, hpi, bind, Except.bind, Except.map, cutAt, hdr]
              cases hta : (l :: ls).take t with
              | nil => exact absurd hta hne
              | cons p ps => simp only [hun, if_true]
            rw [firstSection_skip hsp, firstSection_take hse (by simp)]
            simp only [if_true, Except.map, asLines, hcut.1, hcut.2]
    · have hne : (l :: ls).take d ≠ [] := by
        obtain ⟨j, rfl⟩ : ∃ j, d = j + 1 := ⟨d - 1, by omega⟩
        rw [List.take_succ_cons]; simp
      rw [firstSection_take hdef hne]
      simp only [bind, Except.bind, ne_eq, h0, not_false_eq_true, if_true, Except.map, asLines]

theorem divide_loop (n : Nat) : ∀ (fuel : Nat) (ls : List Str), (∀ x ∈ ls, isQuote x = false) →
    parseLoop (splitQuote (n + 1)) fuel ls = divideLoop fuel ls := by
  intro fuel
  induction fuel with
  | zero => intro ls _; cases ls <;> rfl
  | succ fuel ih =>
    intro ls hq
    cases ls with
    | nil => rfl
    | cons l ls =>
      simp only [parseLoop, divideLoop, first_section n hq, bind, Except.bind]
      cases firstExtent l ls with
      | error e => rfl
      | ok r =>
        simp only [Except.map, asLines]
        rw [ih _ (fun x hx => hq x (List.mem_of_mem_drop hx))]

/-- C116: the division of a document that has no quoted line is the one of the specification: kinds, lines and the cases
in which there is none. -/
theorem C116_division (n : Nat) (lines : List Str) (h : ∀ l ∈ lines, quotedLine l = false) :
    parse (n + 1) lines = divide lines :=
  divide_loop n lines.length lines (fun l hl => by rw [← quotedLine_eq]; exact h l hl)

/-! ## When there is no division -/

/-- The division of `lines` comes to the lines `b`. -/
inductive Reaches : List Str → List Str → Prop
  | here (b : List Str) : Reaches b b
  | step {l : Str} {more b : List Str} {k : Sec} {m : Nat} (h : firstExtent l more = .ok (k, m))
      (hr : Reaches ((l :: more).drop m) b) : Reaches (l :: more) b

/-- Lines that detection cannot get past: a label with nothing behind it and one word on the next line, the last one;
or a block of two or more text lines, no definition, that the document ends with and whose last line ends in two
spaces. -/
inductive Stuck : List Str → Prop
  | label {l w r : Str} (hk : kindOf l = none) (hl : labelRest l = some r) (hr : behindWord r = none)
      (hb : w.head? ≠ some '[') (hw : behindWord w = some []) : Stuck [l, w]
  | text {body : List Str} {last : Str} (ht : TextBlock (body ++ [last])) (hb : body ≠ [])
      (hd : defLines (body ++ [last]) = .ok 0) (hh : hardBreak last = true) : Stuck (body ++ [last])

theorem defLines_error (l : Str) (more : List Str) (e : Err) : defLines (l :: more) = .error e ↔
    e = .stopIteration ∧ ∃ r w, more = [w] ∧ labelRest l = some r ∧ behindWord r = none ∧ w.head? ≠ some '[' ∧
      behindWord w = some [] := by
  simp only [defLines]
  constructor
  · intro h
    split at h
    · cases h
    · rename_i r hr
      split at h
      · cases h
      · split at h <;> cases h
      · rename_i hb
        split at h
        · cases h
        · rename_i l1 more1
          split at h
          · cases h
          · rename_i hne
            split at h
            · cases h
            · cases h
            · cases h
            · rename_i hw
              cases h
              exact ⟨rfl, r, l1, rfl, hr, hb, hne, hw⟩
  · rintro ⟨rfl, r, w, rfl, h1, h2, h3, h4⟩
    rw [h1]
    simp only [h2]
    rw [if_neg h3, h4]

theorem textRun_error : ∀ (ls : List Str) (e : Err), textRun ls = .error e ↔
    e = .stopIteration ∧ ∃ body last, ls = body ++ [last] ∧ (∀ l ∈ ls, textEnd l = false) ∧
      (∀ l ∈ body, hardBreak l = false) ∧ hardBreak last = true := by
  intro ls
  induction ls with
  | nil =>
    intro e
    constructor
    · intro h; cases h
    · rintro ⟨_, body, last, h, _⟩
      exact absurd (congrArg List.length h) (by simp)
  | cons l ls ih =>
    intro e
    rw [textRun]
    cases ht : textEnd l with
    | true =>
      simp only [if_true]
      constructor
      · intro h; cases h
      · rintro ⟨_, body, last, _, h, _⟩
        have := h l List.mem_cons_self
        rw [ht] at this; cases this
    | false =>
      simp only [Bool.false_eq_true, if_false]
      cases hb : hardBreak l with
      | true =>
        simp only [if_true]
        cases ls with
        | nil =>
          simp only [List.isEmpty_nil, if_true]
          constructor
          · intro h; cases h
            exact ⟨rfl, [], l, rfl, by simpa using ht, by simp, hb⟩
          · rintro ⟨rfl, _⟩; rfl
        | cons x ls =>
          simp only [List.isEmpty_cons, Bool.false_eq_true, if_false]
          constructor
          · intro h; cases h
          · rintro ⟨_, body, last, h, _, h2, _⟩
            cases body with
            | nil => exact absurd (congrArg List.length h) (by simp)
            | cons y body =>
              have := (List.cons.inj h).1
              have h3 := h2 y List.mem_cons_self
              rw [← this, hb] at h3; cases h3
      | false =>
        simp only [Bool.false_eq_true, if_false]
        have hm : (Except.map (· + 1) (textRun ls) = .error e) ↔ textRun ls = .error e := by
          cases textRun ls with
          | error e' => exact ⟨fun h => by cases h; rfl, fun h => by cases h; rfl⟩
          | ok k => exact ⟨nofun, nofun⟩
        rw [hm, ih]
        constructor
        · rintro ⟨rfl, body, last, rfl, h1, h2, h3⟩
          refine ⟨rfl, l :: body, last, rfl, ?_, ?_, h3⟩
          · intro x hx
            rcases List.mem_cons.1 hx with rfl | hx
            · exact ht
            · exact h1 x hx
          · intro x hx
            rcases List.mem_cons.1 hx with rfl | hx
            · exact hb
            · exact h2 x hx
        · rintro ⟨rfl, body, last, h, h1, h2, h3⟩
          cases body with
          | nil =>
            have := (List.cons.inj h).1
            rw [this, h3] at hb; cases hb
          | cons y body =>
            refine ⟨rfl, body, last, (List.cons.inj h).2, fun x hx => h1 x (List.mem_cons_of_mem _ hx),
              fun x hx => h2 x (List.mem_cons_of_mem _ hx), h3⟩

theorem firstExtent_error (l : Str) (more : List Str) (e : Err) :
    firstExtent l more = .error e ↔ e = .stopIteration ∧ Stuck (l :: more) := by
  constructor
  · intro h
    unfold firstExtent at h
    split at h
    · cases h
    · cases h
    · cases h
    · cases h
    · cases h
    · cases h
    · rename_i hk
      simp only [bind, Except.bind] at h
      cases hd : defLines (l :: more) with
      | error e' =>
        rw [hd] at h
        cases h
        obtain ⟨he, r, w, rfl, h1, h2, h3, h4⟩ := (defLines_error l more e).1 hd
        exact ⟨he, .label hk h1 h2 h3 h4⟩
      | ok d =>
        rw [hd] at h
        simp only at h
        by_cases h0 : d = 0
        · subst h0
          simp only [ne_eq, not_true_eq_false, if_false] at h
          cases ht : textLines l more with
          | ok t =>
            rw [ht] at h
            simp only at h
            split at h
            · split at h <;> cases h
            · cases h
          | error e' =>
            rw [ht] at h
            cases h
            unfold textLines at ht
            split at ht
            · cases ht
            · rename_i hb
              cases hr : textRun more with
              | ok k => rw [hr] at ht; cases ht
              | error e' =>
                rw [hr] at ht
                cases ht
                obtain ⟨he, body, last, rfl, h1, h2, h3⟩ := (textRun_error more e).1 hr
                refine ⟨he, ?_⟩
                refine Stuck.text (body := l :: body) (last := last) ⟨?_, ?_, ?_, by simp⟩ (by simp) hd h3
                · intro x hx; cases hx; exact hk
                · intro x hx; exact h1 x hx
                · intro x hx
                  rw [List.dropLast_concat] at hx
                  rcases List.mem_cons.1 hx with rfl | hx
                  · simpa using hb
                  · exact h2 x hx
        · simp only [ne_eq, h0, not_false_eq_true, if_true] at h
          cases h
  · rintro ⟨rfl, h⟩
    generalize hL : l :: more = L at h
    cases h with
    | label hk hl hr hb hw =>
      obtain ⟨rfl, rfl⟩ := List.cons.inj hL
      have := (defLines_error l _ .stopIteration).2 ⟨rfl, _, _, rfl, hl, hr, hb, hw⟩
      simp only [firstExtent, hk, this, bind, Except.bind]
    | @text body last ht hb hd hh =>
      cases body with
      | nil => exact absurd rfl hb
      | cons y body =>
        obtain ⟨rfl, h0⟩ := List.cons.inj hL
        have h0 : more = body ++ [last] := h0
        subst h0
        have hk : kindOf l = none := ht.first l rfl
        have hlb : hardBreak l = false := ht.hard l (by rw [List.dropLast_concat]; exact List.mem_cons_self)
        have htr : textRun (body ++ [last]) = .error .stopIteration :=
          (textRun_error _ _).2 ⟨rfl, body, last, rfl, fun x hx => ht.further x hx,
            fun x hx => ht.hard x (by rw [List.dropLast_concat]; exact List.mem_cons_of_mem _ hx), hh⟩
        rw [List.cons_append] at hd
        have htl : textLines l (body ++ [last]) = .error .stopIteration := by
          rw [textLines, hlb, htr]; rfl
        simp only [firstExtent, hk, hd, bind, Except.bind, ne_eq, not_true_eq_false, if_false, htl]

theorem firstExtent_pos {l : Str} {more : List Str} {k : Sec} {m : Nat} (h : firstExtent l more = .ok (k, m)) : 1 ≤ m := by
  unfold firstExtent at h
  split at h
  · cases h; omega
  · cases h; omega
  · cases h; omega
  · cases h; omega
  · cases h; omega
  · cases h; omega
  · simp only [bind, Except.bind] at h
    split at h
    · cases h
    · split at h
      · rename_i hd
        cases h
        omega
      · split at h
        · cases h
        · rename_i t ht
          have := textLines_pos ht
          split at h
          · split at h
            · cases h; omega
            · cases h; omega
          · cases h; omega

theorem divide_error : ∀ (fuel : Nat) (ls : List Str) (e : Err), ls.length ≤ fuel →
    (divideLoop fuel ls = .error e ↔ e = .stopIteration ∧ ∃ b, Reaches ls b ∧ Stuck b) := by
  intro fuel
  induction fuel with
  | zero =>
    intro ls e hl
    have : ls = [] := List.length_eq_zero_iff.1 (by omega)
    subst this
    constructor
    · intro h; cases h
    · rintro ⟨_, b, hr, hs⟩
      cases hr
      generalize hL : ([] : List Str) = L at hs
      cases hs with
      | label => cases hL
      | text => exact absurd (congrArg List.length hL) (by simp)
  | succ fuel ih =>
    intro ls e hl
    cases ls with
    | nil =>
      constructor
      · intro h; cases h
      · rintro ⟨_, b, hr, hs⟩
        cases hr
        generalize hL : ([] : List Str) = L at hs
        cases hs with
        | label => cases hL
        | text => exact absurd (congrArg List.length hL) (by simp)
    | cons l more =>
      simp only [divideLoop, bind, Except.bind]
      cases hf : firstExtent l more with
      | error e' =>
        obtain ⟨rfl, hs⟩ := (firstExtent_error l more e').1 hf
        constructor
        · intro h
          cases h
          exact ⟨rfl, _, .here _, hs⟩
        · rintro ⟨rfl, _⟩; rfl
      | ok r =>
        obtain ⟨k, m⟩ := r
        have hpos := firstExtent_pos hf
        have hlen : ((l :: more).drop m).length ≤ fuel := by
          rw [List.length_drop]
          simp only [List.length_cons] at hl ⊢
          omega
        have hi := ih ((l :: more).drop m) e hlen
        simp only
        constructor
        · intro h
          cases hr : divideLoop fuel ((l :: more).drop m) with
          | ok rest => rw [hr] at h; cases h
          | error e' =>
            rw [hr] at h
            cases h
            obtain ⟨he, b, h1, h2⟩ := hi.1 hr
            exact ⟨he, b, .step hf h1, h2⟩
        · rintro ⟨he, b, h1, h2⟩
          cases h1 with
          | here =>
            have := (firstExtent_error l more .stopIteration).2 ⟨rfl, h2⟩
            rw [hf] at this
            cases this
          | step h hr =>
            rw [hf] at h
            cases h
            rw [hi.2 ⟨he, b, hr, h2⟩]

/-- C116: such a document is divided unless its division comes to lines that are stuck; the failure is then
`StopIteration`. -/
theorem C116_fails (n : Nat) (lines : List Str) (h : ∀ l ∈ lines, quotedLine l = false) (e : Err) :
    parse (n + 1) lines = .error e ↔ e = .stopIteration ∧ ∃ b, Reaches lines b ∧ Stuck b := by
  rw [C116_division n lines h]
  exact divide_error lines.length lines e (Nat.le_refl _)

/-- C116: a document that has no quoted line, whose last line does not end in two spaces and is not one word alone, is
divided. -/
theorem C116_divided (n : Nat) (lines : List Str) (h : ∀ l ∈ lines, quotedLine l = false) (last : Str)
    (hl : lines.getLast? = some last) (h1 : hardBreak last = false) (h2 : behindWord last ≠ some []) :
    ∃ secs, parse (n + 1) lines = .ok secs := by
  cases hp : parse (n + 1) lines with
  | ok secs => exact ⟨secs, rfl⟩
  | error e =>
    exfalso
    obtain ⟨_, b, hr, hs⟩ := (C116_fails n lines h e).1 hp
    have hlast : b ≠ [] → b.getLast? = lines.getLast? := by
      clear hs hp h hl
      induction hr with
      | here b => intro _; rfl
      | @step l more b k m _ hr ih =>
        intro hb
        rw [ih hb]
        by_cases hm : (l :: more).length ≤ m
        · exfalso
          rw [List.drop_eq_nil_of_le hm] at hr
          cases hr
          exact hb rfl
        · rw [List.getLast?_drop, if_neg hm]
    cases hs with
    | label hk hl' hr' hb hw =>
      have := hlast (by simp)
      rw [hl] at this
      cases this
      exact h2 hw
    | text ht hb hd hh =>
      have := hlast (by simp)
      rw [hl, List.getLast?_concat] at this
      cases this
      rw [h1] at hh; cases hh

/-- One document with sections of all kinds but quotes, and two that are stuck. -/
theorem C116_example :
    parse 1 [c!"[a]:", c!"b", c!"'c", c!"d'", c!"1. e", c!"f", c!"", c!"    g", c!"", c!"    h", c!"i  ", c!"j", c!"=", c!"| k",
      c!"~~~", c!"l", c!"~~~", c!"# m", c!"***", c!"n"] =
      .ok [(.lrd, [c!"[a]:", c!"b", c!"'c", c!"d'"]), (.ordered, [c!"1. e", c!"f"]), (.blank, [c!""]),
        (.indented, [c!"    g", c!""]), (.indented, [c!"    h"]), (.par, [c!"i  "]), (.setext, [c!"j", c!"="]),
        (.table, [c!"| k"]), (.fenced, [c!"~~~", c!"l", c!"~~~"]), (.atx, [c!"# m"]), (.thematic, [c!"***"]),
        (.par, [c!"n"])] ∧
    parse 1 [c!"# a", c!"b", c!"c  "] = .error .stopIteration ∧
    parse 1 [c!"# a", c!"[b]:", c!"c"] = .error .stopIteration := by
  refine ⟨?_, ?_, ?_⟩
  · rw [C116_division 0 _ (by decide)]
    decide +kernel
  · exact (C116_fails 0 _ (by decide) _).2 ⟨rfl, [c!"b", c!"c  "], .step (k := .atx) (m := 1) (by decide +kernel) (.here _),
      .text (body := [c!"b"]) ⟨by decide +kernel, by decide +kernel, by decide +kernel, by decide⟩ (by decide)
        (by decide +kernel) (by decide +kernel)⟩
  · exact (C116_fails 0 _ (by decide) _).2 ⟨rfl, [c!"[b]:", c!"c"], .step (k := .atx) (m := 1) (by decide +kernel) (.here _),
      .label (r := []) (by decide +kernel) (by decide +kernel) (by decide +kernel) (by decide) (by decide +kernel)⟩

end MF
