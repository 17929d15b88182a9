import Verif.Lemmas.Rename
import Verif.Model.Wrap
/-!
# Renaming of characters: wrapping
-/

namespace MF

/-- The renamed tokens. -/
def Toks.rn (f : Char → Char) (t : Toks) : Toks := { split := t.split.map (List.map f), lead := t.lead, eval := t.eval }

/-- A function that splits a text into tokens does not see a renaming. -/
def CarriesT (f : Char → Char) (func : Str → Bool → Except Err Toks) : Prop :=
  ∀ s b, func (s.map f) b = (func s b).map (Toks.rn f)

section
variable {f : Char → Char} [Mask f]

local notation "ρ" => List.map f
local notation "ρs" => List.map (List.map f)

theorem inv_codeMarker : codeMarkerRx.Inv f := by
  simp only [codeMarkerRx, Rx.seqs, Rx.plus, Rx.lit, Rx.Inv, ren_lits, implies_true, and_self]

theorem inv_footnote : footnoteRx.Inv f := by
  simp only [footnoteRx, Rx.seqs, Rx.plus, Rx.star, Rx.Inv, bne, ren_isWs, ren_lits, implies_true, and_self]

theorem inv_htmlNewline : htmlNewlineRx.Inv f := by
  simp only [htmlNewlineRx, Rx.seqs, Rx.opt, Rx.Inv, ren_lits, implies_true, and_self]

theorem inv_url : urlRx.Inv f := by
  simp only [urlRx, Rx.seqs, Rx.plus, Rx.star, Rx.Inv, bne, ren_isWs, ren_lits, implies_true, and_self]

theorem ren_joinStep (w : Width) (a : List Str) (b word : Str) (lead : Bool) :
    joinStep w (ρs a, ρ b) (ρ word) lead = (ρs (joinStep w (a, b) word lead).1, ρ (joinStep w (a, b) word lead).2) := by
  have hsp : ρ [' '] = [' '] := ren_fixed (by decide)
  have hp : (if (lead && !(ρ b).isEmpty) = true then ρ b ++ [' '] ++ ρ word else ρ b ++ ρ word) =
      ρ (if (lead && !b.isEmpty) = true then b ++ [' '] ++ word else b ++ word) := by
    rw [ren_isEmpty]; split <;> simp only [List.map_append, hsp]
  simp only [joinStep]
  rw [hp]
  generalize (if (lead && !b.isEmpty) = true then b ++ [' '] ++ word else b ++ word) = pot
  simp only [List.length_map, ren_isEmpty, ren_match? inv_htmlNewline, Option.isSome_map]
  split <;> split <;> rfl

theorem ren_joinLoop (w : Width) (xs : List (Str × Bool)) (a : List Str) (b : Str) :
    joinLoop w (ρs a, ρ b) (xs.map fun x => (ρ x.1, x.2)) = (ρs (joinLoop w (a, b) xs).1, ρ (joinLoop w (a, b) xs).2) := by
  induction xs generalizing a b with
  | nil => rfl
  | cons x xs ih => simp only [List.map_cons, joinLoop, ren_joinStep]; exact ih _ _

theorem ren_joinLines (ss : List Str) (bs : List Bool) (w : Width) : joinLines (ρs ss) bs w = ρs (joinLines ss bs w) := by
  have hz : (ρs ss).zip bs = (ss.zip bs).map fun x => (ρ x.1, x.2) := by
    rw [List.zip_map_left]; rfl
  have h := ren_joinLoop (f := f) w (ss.zip bs) [] []
  simp only [List.map_nil] at h
  simp only [joinLines, hz, h, ren_isEmpty]
  split <;> simp

theorem ren_join (ss : List Str) (bs : List Bool) (w : Width) : join (ρs ss) bs w = ρ (join ss bs w) := by
  simp only [join, ren_joinLines, ren_pyJoin (f := f) (sep := ['\n']) (ren_fixed (by decide))]

omit [Mask f] in
theorem ren_appendLast (xs : List Str) (s : Str) : appendLast (ρs xs) (ρ s) = (appendLast xs s).map ρs := by
  simp only [appendLast, List.getLast?_map]
  cases xs.getLast? with
  | none => rfl
  | some x => simp [Except.map, List.map_dropLast]

theorem ren_startsSingleDot (s : Str) : startsSingleDot (ρ s) = startsSingleDot s := by
  simp only [startsSingleDot, ren_startsWith (p := ['.']) (by decide), ren_startsWith (p := ['.', '.']) (by decide)]

theorem ren_moveDot (b : Bool) (xs : List Str) (s : Str) :
    moveDot b (ρs xs) (ρ s) = (moveDot b xs s).map fun r => (ρs r.1, ρ r.2) := by
  have h := ren_appendLast (f := f) xs ['.']
  rw [ren_fixed (f := f) (s := ['.']) (by decide)] at h
  simp only [moveDot, h]
  split
  · cases appendLast xs ['.'] with
    | error e => rfl
    | ok x => simp [Except.map]
  · rfl

theorem ren_repl (n : Nat) {c : Char} (hc : isMark c = true) : ρ (List.replicate n c) = List.replicate n c := by
  rw [List.map_replicate, Mask.fix (f := f) hc]

/-- The renamed state of `code_split`. -/
def CodeSt.rn (f : Char → Char) (st : CodeSt) : CodeSt := { toks := st.toks.rn f, openLen := st.openLen, lastEnd := st.lastEnd }

/-- The renamed state of `link_split` and `newline_split`. -/
def LinkSt.rn (f : Char → Char) (st : LinkSt) : LinkSt := { toks := st.toks.rn f, lastEnd := st.lastEnd }

omit [Mask f] in
theorem ren_emptyList (ls : List Str) : (ρs ls).isEmpty = ls.isEmpty := by cases ls <;> rfl

theorem ren_codeStep (text : Str) (lead : Bool) (st : CodeSt) (m : Match) :
    codeStep (ρ text) lead (st.rn f) (m.rn f) = (codeStep text lead st m).map (CodeSt.rn f) := by
  obtain ⟨⟨sp, ld, ev⟩, ol, le⟩ := st
  simp only [codeStep, CodeSt.rn, Toks.rn, Match.rn, List.length_map, ren_slice, ren_startsSingleDot, ren_emptyList, ren_moveDot]
  split
  · cases moveDot (startsSingleDot (slice text le m.start) && !sp.isEmpty) sp (slice text le m.start) with
    | error e => rfl
    | ok r =>
      obtain ⟨sp', pl⟩ := r
      simp only [Except.map, bind, Except.bind, ren_strip, ren_isEmpty, ren_startsWith (p := [' ']) (by decide),
        ren_endsWith (p := [' ']) (by decide)]
      split <;> simp [CodeSt.rn, Toks.rn, ren_repl (f := f) _ (show isMark '`' = true by decide)]
  · split
    · have h := ren_appendLast (f := f) sp (slice text le m.start ++ List.replicate ol '`')
      rw [List.map_append, ren_repl _ (by decide)] at h
      rw [h]
      cases appendLast sp (slice text le m.start ++ List.replicate ol '`') <;> rfl
    · rw [ren_appendLast]
      cases appendLast sp (slice text le m.stop) <;> rfl

omit [Mask f] in
theorem ren_foldlM {σ : Type} (g : σ → σ) (step step' : σ → Match → Except Err σ)
    (h : ∀ st m, step' (g st) (m.rn f) = (step st m).map g) (ms : List Match) (st : σ) :
    (ms.map (Match.rn f)).foldlM step' (g st) = (ms.foldlM step st).map g := by
  induction ms generalizing st with
  | nil => rfl
  | cons m ms ih =>
    simp only [List.map_cons, List.foldlM_cons, h]
    cases step st m with
    | error e => rfl
    | ok r => exact ih r

theorem ren_markerCount (s : Str) : markerCount (ρ s) = markerCount s := by
  simp only [markerCount, ren_finditer inv_codeMarker, List.length_map]

theorem ren_codeSplit : CarriesT f codeSplit := by
  intro text lead
  have h := ren_foldlM (f := f) (CodeSt.rn f) (codeStep text lead) (codeStep (ρ text) lead) (ren_codeStep text lead)
    (codeMarkerRx.finditer text) { toks := { split := [], lead := [], eval := [] }, openLen := 0, lastEnd := 0 }
  unfold codeSplit
  rw [ren_finditer inv_codeMarker]
  rw [show ({ toks := { split := [], lead := [], eval := [] }, openLen := 0, lastEnd := 0 } : CodeSt) =
    CodeSt.rn f { toks := { split := [], lead := [], eval := [] }, openLen := 0, lastEnd := 0 } from rfl, h]
  rw [show CodeSt.rn f { toks := { split := [], lead := [], eval := [] }, openLen := 0, lastEnd := 0 } =
    ({ toks := { split := [], lead := [], eval := [] }, openLen := 0, lastEnd := 0 } : CodeSt) from rfl]
  cases (codeMarkerRx.finditer text).foldlM (codeStep text lead)
    { toks := { split := [], lead := [], eval := [] }, openLen := 0, lastEnd := 0 } with
  | error e => rfl
  | ok st =>
    obtain ⟨⟨sp, ld, ev⟩, ol, le⟩ := st
    have ha : (List.map ρ sp).getLast?.any (fun s => markerCount s == 1) = sp.getLast?.any (fun s => markerCount s == 1) := by
      rw [List.getLast?_map]
      cases sp.getLast? <;> simp [ren_markerCount]
    simp only [Except.map, bind, Except.bind, CodeSt.rn, Toks.rn, ha, ← List.map_drop, ren_strip, ren_isEmpty, ren_rstrip,
      ren_startsSingleDot, ren_moveDot, ren_appendLast]
    split
    · split
      · cases appendLast sp (rstrip (text.drop le)) <;> rfl
      · rfl
    · cases moveDot (startsSingleDot (text.drop le)) sp (text.drop le) with
      | error e => rfl
      | ok r =>
        obtain ⟨sp', rem⟩ := r
        simp only [ren_strip, ren_isEmpty, ren_startsWith (p := [' ']) (by decide)]
        split <;> simp

omit [Mask f] in
theorem ren_insertMatch (m : Match) (ms : List Match) :
    insertMatch (m.rn f) (ms.map (Match.rn f)) = (insertMatch m ms).map (Match.rn f) := by
  induction ms with
  | nil => rfl
  | cons x ms ih =>
    simp only [List.map_cons, insertMatch]
    rw [show (Match.rn f x).start = x.start from rfl, show (Match.rn f m).start = m.start from rfl]
    split
    · rw [ih]; rfl
    · rfl

omit [Mask f] in
theorem ren_sortMatches (ms : List Match) : sortMatches (ms.map (Match.rn f)) = (sortMatches ms).map (Match.rn f) := by
  have : ∀ acc : List Match, (ms.map (Match.rn f)).foldl (fun acc m => insertMatch m acc) (acc.map (Match.rn f)) =
      (ms.foldl (fun acc m => insertMatch m acc) acc).map (Match.rn f) := by
    induction ms with
    | nil => intro acc; rfl
    | cons m ms ih => intro acc; simp only [List.map_cons, List.foldl_cons, ren_insertMatch, ih]
  exact this []

theorem ren_linkParts (g : Str) : linkParts (ρ g) = (linkParts g).map fun r => (ρ r.1, ρ r.2) := by
  have hi : isIn [']', '('] (ρ g) = isIn [']', '('] g := ren_markIn (by decide) g
  have h1 : ρ [']', '('] = [']', '('] := ren_fixed (by decide)
  have h2 : ρ [']', '['] = [']', '['] := ren_fixed (by decide)
  simp only [linkParts, hi, ren_splitPair (f := f) (show isMark ']' = true by decide) (show isMark '(' = true by decide),
    ren_splitPair (f := f) (show isMark ']' = true by decide) (show isMark '[' = true by decide)]
  split
  · match splitPair ']' '(' g with
    | [] => rfl
    | [_] => rfl
    | a :: b :: r => simp only [List.map_cons, Except.map, ren_strip, List.map_append, h1]
  · match splitPair ']' '[' g with
    | [] => rfl
    | [_] => rfl
    | a :: b :: r => simp only [List.map_cons, Except.map, ren_strip, List.map_append, h2]

theorem ren_at (s : Str) (i : Nat) : ((ρ s)[i]? == some ' ') = (s[i]? == some ' ') := by
  rw [List.getElem?_map]
  cases s[i]? with
  | none => rfl
  | some c => exact ren_beq (by decide) c

theorem ren_linkStep (text : Str) (lead : Bool) (st : LinkSt) (m : Match) :
    linkStep (ρ text) lead (st.rn f) (m.rn f) = (linkStep text lead st m).map (LinkSt.rn f) := by
  obtain ⟨⟨sp, ld, ev⟩, le⟩ := st
  simp only [linkStep, LinkSt.rn, Toks.rn, Match.rn, ren_slice, ren_strip, ren_isEmpty, ren_startsSingleDot, ren_emptyList, ren_moveDot,
    ren_linkParts, ren_at]
  split
  · cases moveDot (!sp.isEmpty && startsSingleDot (slice text le m.start)) sp (slice text le m.start) with
    | error e => rfl
    | ok r =>
      obtain ⟨sp', nl⟩ := r
      simp only [Except.map, bind, Except.bind, ren_strip, ren_startsWith (p := [' ']) (by decide)]
      cases linkParts m.text with
      | error e => rfl
      | ok p => simp [LinkSt.rn, Toks.rn]
  · simp only [bind, Except.bind]
    cases linkParts m.text with
    | error e => rfl
    | ok p => simp [Except.map, LinkSt.rn, Toks.rn]

theorem ren_linkSplit : CarriesT f linkSplit := by
  intro text lead
  have h := ren_foldlM (f := f) (LinkSt.rn f) (linkStep text lead) (linkStep (ρ text) lead) (ren_linkStep text lead)
    (sortMatches (footnoteRx.finditer text ++ urlRx.finditer text)) { toks := { split := [], lead := [], eval := [] }, lastEnd := 0 }
  unfold linkSplit
  rw [ren_finditer inv_footnote, ren_finditer inv_url, ← List.map_append, ren_sortMatches]
  rw [show ({ toks := { split := [], lead := [], eval := [] }, lastEnd := 0 } : LinkSt) =
    LinkSt.rn f { toks := { split := [], lead := [], eval := [] }, lastEnd := 0 } from rfl]
  simp only [h]
  rw [show LinkSt.rn f { toks := { split := [], lead := [], eval := [] }, lastEnd := 0 } =
    ({ toks := { split := [], lead := [], eval := [] }, lastEnd := 0 } : LinkSt) from rfl]
  cases (sortMatches (footnoteRx.finditer text ++ urlRx.finditer text)).foldlM (linkStep text lead)
    { toks := { split := [], lead := [], eval := [] }, lastEnd := 0 } with
  | error e => rfl
  | ok st =>
    obtain ⟨⟨sp, ld, ev⟩, le⟩ := st
    simp only [Except.map, bind, Except.bind, LinkSt.rn, Toks.rn, ← List.map_drop, ren_startsSingleDot, ren_moveDot]
    cases moveDot (startsSingleDot (text.drop le)) sp (text.drop le) with
    | error e => rfl
    | ok r =>
      obtain ⟨sp', rem⟩ := r
      simp only [ren_strip, ren_isEmpty, ren_startsWith (p := [' ']) (by decide)]
      split <;> simp

theorem ren_newlineStep (text : Str) (lead : Bool) (st : LinkSt) (m : Match) :
    newlineStep (ρ text) lead (st.rn f) (m.rn f) = (newlineStep text lead st m).rn f := by
  obtain ⟨⟨sp, ld, ev⟩, le⟩ := st
  simp only [newlineStep, LinkSt.rn, Toks.rn, Match.rn, ren_slice, ren_strip, ren_isEmpty, ren_at, ren_endsWith (p := [' ']) (by decide)]
  split <;> simp

theorem ren_newlineSplit : CarriesT f newlineSplit := by
  intro text lead
  have h : ∀ (ms : List Match) (st : LinkSt), (ms.map (Match.rn f)).foldl (newlineStep (ρ text) lead) (st.rn f) =
      (ms.foldl (newlineStep text lead) st).rn f := by
    intro ms
    induction ms with
    | nil => intro st; rfl
    | cons m ms ih => intro st; simp only [List.map_cons, List.foldl_cons, ren_newlineStep, ih]
  have h' := h (htmlNewlineRx.finditer text) { toks := { split := [], lead := [], eval := [] }, lastEnd := 0 }
  simp only [LinkSt.rn, Toks.rn, List.map_nil] at h'
  simp only [newlineSplit, ren_finditer inv_htmlNewline, h', ← List.map_drop, ren_strip, ren_isEmpty,
    ren_startsWith (p := [' ']) (by decide)]
  split <;> simp [Except.map, Toks.rn]

theorem ren_spaceLoop (lead : Bool) (t : Toks) (ws : List Str) :
    spaceLoop lead (t.rn f) (ρs ws) = (spaceLoop lead t ws).rn f := by
  induction ws generalizing t with
  | nil => rfl
  | cons w ws ih =>
    simp only [List.map_cons, spaceLoop, ren_isEmpty, ren_strip]
    split
    · exact ih t
    · rw [← ih]
      simp [Toks.rn]

theorem ren_spaceSplit : CarriesT f spaceSplit := by
  intro text lead
  simp only [spaceSplit, ren_splitChar (f := f) (show isMark ' ' = true by decide), Except.map]
  exact congrArg Except.ok (ren_spaceLoop lead { split := [], lead := [], eval := [] } (splitChar ' ' text))

omit [Mask f] in
theorem ren_applySplit {func : Str → Bool → Except Err Toks} (h : CarriesT f func) (xs : List (Str × Bool × Bool)) :
    applySplit func (xs.map fun x => (ρ x.1, x.2)) = (applySplit func xs).map (Toks.rn f) := by
  induction xs with
  | nil => rfl
  | cons x xs ih =>
    obtain ⟨t, l, e⟩ := x
    simp only [List.map_cons, applySplit, h t l, ih]
    cases e with
    | true =>
      simp only [if_true]
      cases func t l with
      | error e => rfl
      | ok a =>
        cases applySplit func xs with
        | error e => rfl
        | ok b => simp [Except.map, bind, Except.bind, Toks.rn]
    | false =>
      simp only [Bool.false_eq_true, if_false]
      cases applySplit func xs with
      | error e => rfl
      | ok b => simp [Except.map, bind, Except.bind, Toks.rn]

omit [Mask f] in
theorem ren_splitPass {func : Str → Bool → Except Err Toks} (h : CarriesT f func) (t : Toks) :
    splitPass func (t.rn f) = (splitPass func t).map (Toks.rn f) := by
  simp only [splitPass, ← ren_applySplit h, Toks.rn, List.zip_map_left]
  rfl

theorem ren_wrapInput (s : Str) : wrapInput (ρ s) = ρ (wrapInput s) := by
  have h : (ρs (splitlines s)).map strip = ρs ((splitlines s).map strip) := by
    simp only [List.map_map]; congr 1; funext l; exact ren_strip l
  simp only [wrapInput, ren_splitlines, h, ren_pyJoin (f := f) (sep := [' ']) (ren_fixed (by decide))]

theorem ren_wrapToks (s : Str) : wrapToks (ρ s) = (wrapToks s).map (Toks.rn f) := by
  have h1 := ren_splitPass (f := f) ren_codeSplit { split := [s], lead := [false], eval := [true] }
  simp only [Toks.rn, List.map_cons, List.map_nil] at h1
  simp only [wrapToks, h1]
  cases splitPass codeSplit { split := [s], lead := [false], eval := [true] } with
  | error e => rfl
  | ok t =>
    have h2 := ren_splitPass (f := f) ren_linkSplit t
    simp only [Except.map, bind, Except.bind, h2]
    cases splitPass linkSplit t with
    | error e => rfl
    | ok t =>
      have h3 := ren_splitPass (f := f) ren_newlineSplit t
      simp only [Except.map, h3]
      cases splitPass newlineSplit t with
      | error e => rfl
      | ok t =>
        have h4 := ren_splitPass (f := f) ren_spaceSplit t
        simp only [Except.map, h4]

/-- Wrapping does not see a renaming. -/
theorem ren_wrap (s : Str) (w : Width) : wrap (ρ s) w = (wrap s w).map ρ := by
  simp only [wrap, ren_wrapInput, ren_wrapToks]
  cases wrapToks (wrapInput s) with
  | error e => rfl
  | ok t => simp only [Except.map, bind, Except.bind, Toks.rn, ren_join]

end

end MF
