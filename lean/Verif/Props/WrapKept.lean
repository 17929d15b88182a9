import Verif.Props.WrapFails
import Verif.Model.Reformat
/-!
# C96: exactly which characters wrapping keeps
-/

namespace MF

/-! ## Specification -/

/-- What is kept of a link: everything in front of its second `](`, or, if it has no `](`, in front of its second
`][`. -/
def linkKept (g : Str) : Str :=
  if isIn c!"](" g then pyJoin c!"](" ((splitPair ']' '(' g).take 2) else pyJoin c!"][" ((splitPair ']' '[' g).take 2)

/-- What is kept of a text behind position `last`, given its links `ms`: the text between the links and what is kept of
the links. A link that starts in front of the end of the link before has no text in front of it. -/
def keptFrom (text : Str) : Nat → List Match → Str
  | last, [] => nw (text.drop last)
  | last, m :: ms => nw (slice text last m.start) ++ nw (linkKept m.text) ++ keptFrom text m.stop ms

/-- What is kept of a text without code spans. `linkMatches` are the matches of both link patterns in the order in which
they start. -/
def textKept (text : Str) : Str := keptFrom text 0 (linkMatches text)

/-! ## Links -/

theorem linkParts_kept {g a b : Str} (hp : linkParts g = .ok (a, b)) : nw a ++ nw b = nw (linkKept g) := by
  unfold linkParts at hp
  unfold linkKept
  by_cases h1 : isIn c!"](" g = true
  · rw [if_pos h1] at hp ⊢
    split at hp
    · rename_i x y r hs
      cases hp
      rw [hs]
      simp only [List.take_succ_cons, List.take_zero, pyJoin, nw_append, nw_strip]
    · cases hp
  · rw [if_neg h1] at hp ⊢
    split at hp
    · rename_i x y r hs
      cases hp
      rw [hs]
      simp only [List.take_succ_cons, List.take_zero, pyJoin, nw_append, nw_strip]
    · cases hp

theorem linkFold_kept {text : Str} {ls : Bool} : ∀ (ms : List Match) (st st' : LinkSt),
    (∀ m ∈ ms, HasSep m.text) → ms.foldlM (linkStep text ls) st = .ok st' →
    nw st'.toks.split.flatten ++ nw (text.drop st'.lastEnd) = nw st.toks.split.flatten ++ keptFrom text st.lastEnd ms := by
  intro ms
  induction ms with
  | nil => intro st st' _ hf; cases hf; rfl
  | cons m ms ih =>
    intro st st' hm hf
    have h1 := hm m (List.mem_cons_self ..)
    obtain ⟨a, b, sep, rest, split', nl', st1, hst, hsep, hg, hp, hmv, he, hcase⟩ :=
      linkStep_ok (text := text) (ls := ls) (st := st) h1
    simp only [List.foldlM_cons, hst, bind, Except.bind] at hf
    rw [ih st1 st' (fun m hm' => hm m (by simp [hm'])) hf, he, keptFrom, ← linkParts_kept hp, ← List.append_assoc,
      ← List.append_assoc (nw st.toks.split.flatten), ← hmv.nw]
    rcases hcase with ⟨l1, l2, hcase⟩ | ⟨hb, hs, l, hcase⟩
    · rw [hcase]
      simp only [List.flatten_append, List.flatten_cons, List.flatten_nil, List.append_nil, nw_append, nw_strip,
        List.append_assoc]
    · rw [hcase, nw_eq_nil.2 hb]
      simp only [List.flatten_append, List.flatten_cons, List.flatten_nil, List.append_nil, nw_append, nw_strip,
        List.append_assoc]

theorem linkSplit_kept {text : Str} {ls : Bool} {t : Toks} (h : linkSplit text ls = .ok t) :
    nw t.split.flatten = textKept text := by
  have hms : ∀ m ∈ linkMatches text, HasSep m.text := fun m hm => (linkMatches_ok text m hm).2.2.2
  unfold linkSplit at h
  dsimp only at h
  cases hst : (sortMatches (footnoteRx.finditer text ++ urlRx.finditer text)).foldlM (linkStep text ls)
      { toks := { split := [], lead := [], eval := [] }, lastEnd := 0 } with
  | error e => rw [hst] at h; cases h
  | ok st =>
    rw [hst] at h
    simp only [bind, Except.bind] at h
    have hn := linkFold_kept (linkMatches text) _ st hms hst
    have hn' : nw st.toks.split.flatten ++ nw (text.drop st.lastEnd) = textKept text := hn
    by_cases hd : startsSingleDot (text.drop st.lastEnd) = true ∧ st.toks.split = []
    · simp only [moveDot, hd.1, hd.2, if_true, appendLast_nil] at h
      cases h
    · obtain ⟨split', rem, hmd, hmv⟩ := moveDot_ok (cond := startsSingleDot (text.drop st.lastEnd))
        (split := st.toks.split) (text := text.drop st.lastEnd) (fun h => h) (fun h h' => hd ⟨h, h'⟩)
      simp only [hmd] at h
      rw [← hn', ← hmv.nw]
      split at h
      · cases h
        simp only [List.flatten_append, List.flatten_cons, List.flatten_nil, List.append_nil, nw_append, nw_strip]
      · rename_i hb
        cases h
        have : nw rem = [] := nw_eq_nil.2 (by simpa using hb)
        simp [this]

theorem applySplit_kept {func : Str → Bool → Except Err Toks} {f : Str → Str}
    (hf : ∀ s l t, func s l = .ok t → nw t.split.flatten = f s) : ∀ (ps : List (Str × Bool × Bool)) (t : Toks),
    applySplit func ps = .ok t → nw t.split.flatten = (ps.map fun x => if x.2.2 then f x.1 else nw x.1).flatten := by
  intro ps
  induction ps with
  | nil => intro t h; cases h; rfl
  | cons p ps ih =>
    obtain ⟨s, l, e⟩ := p
    intro t h
    have key : ∀ t1 : Toks, nw t1.split.flatten = (if e then f s else nw s) → (do
        let r ← applySplit func ps
        .ok { split := t1.split ++ r.split, lead := t1.lead ++ r.lead, eval := t1.eval ++ r.eval } :
          Except Err Toks) = .ok t →
        nw t.split.flatten = (((s, l, e) :: ps).map fun x => if x.2.2 then f x.1 else nw x.1).flatten := by
      intro t1 h1 h
      cases hr : applySplit func ps with
      | error e => rw [hr] at h; cases h
      | ok r =>
        rw [hr] at h
        cases h
        simp only [List.flatten_append, nw_append, List.map_cons, List.flatten_cons, h1, ih r hr]
    unfold applySplit at h
    cases e with
    | true =>
      simp only [if_true] at h
      cases hfe : func s l with
      | error e => rw [hfe] at h; cases h
      | ok t1 => rw [hfe] at h; exact key t1 (by simpa using hf s l t1 hfe) h
    | false => exact key { split := [s], lead := [l], eval := [false] } (by simp) h

/-! ## C96 -/

/-- C96: what wrapping keeps of any text. The text is a sequence of parts, stretches of text outside code spans and code;
the result has the same code and of every stretch `textKept`. -/
theorem C96_kept {text : Str} {width : Width} {s : Str} {ps : List Str} (h : wrap text width = .ok s)
    (hp : Pieces false (wrapInput text) ps) : ∃ parts : List (Str × Bool),
      (parts.filter (·.2)).map (·.1) = ps.filter (· ≠ []) ∧
      (∀ x ∈ parts, x.2 = false → x.1.head? = some '`') ∧
      nw text = (parts.map fun x => nw x.1).flatten ∧
      nw s = (parts.map fun x => if x.2 then textKept x.1 else nw x.1).flatten := by
  obtain ⟨t, ht, rfl⟩ := wrap_ok h
  obtain ⟨t1, h1, _, t2, h2, h3⟩ := ht.code
  obtain ⟨w1, a1, n1⟩ := codeSplit_all h1
  refine ⟨t1.split.zip t1.eval, ?_, ?_, ?_, ?_⟩
  · have := codeSplit_pieces h1 hp
    rw [evs] at this
    rw [this, nonEmpties]
    apply List.filter_congr
    intro x _
    cases x <;> simp
  · intro x hx hf
    obtain ⟨y, dots, hy, _, hh, _⟩ := (codeSplit_toks h1 x hx).2 hf
    rw [hy]
    cases y with
    | nil => cases hh
    | cons c y => simpa using hh
  · have hz : t1.split = (t1.split.zip t1.eval).map (·.1) := (List.map_fst_zip (by rw [w1.2]; exact Nat.le_refl _)).symm
    rw [← nw_wrapInput, ← n1, congrArg (fun x => nw (List.flatten x)) hz]
    generalize t1.split.zip t1.eval = ps
    induction ps with
    | nil => rfl
    | cons p ps ih => simp only [List.map_cons, List.flatten_cons, nw_append, ih]
  · rw [nw_pyJoin (by intro c hc; simp at hc; rw [hc]; decide), joinPairs_nw,
      List.map_fst_zip (by rw [ht.wf.1]; exact Nat.le_refl _), h3,
      applySplit_kept (f := textKept) (fun s l t h => linkSplit_kept h) _ _ h2, ← triples_evals t1 w1, List.map_map]
    rfl

/-- C96: nothing is lost or repeated if nothing is in any stretch of text outside code spans. -/
theorem C96_lossless {text : Str} {width : Width} {s : Str} {ps : List Str} (h : wrap text width = .ok s)
    (hp : Pieces false (wrapInput text) ps) (hk : ∀ p ∈ ps, textKept p = nw p) : nw s = nw text := by
  obtain ⟨parts, h1, _, h3, h4⟩ := C96_kept h hp
  rw [h3, h4]
  congr 1
  apply List.map_congr_left
  intro x hx
  by_cases hx2 : x.2 = true
  · rw [if_pos hx2]
    apply hk
    have : x.1 ∈ ps.filter (· ≠ []) := by
      rw [← h1]
      exact List.mem_map.2 ⟨x, List.mem_filter.2 ⟨hx, hx2⟩, rfl⟩
    exact (List.mem_filter.1 this).1
  · rw [if_neg hx2]

/-- C96: without backticks, exactly `textKept` is kept; so everything is kept exactly if that is the text. -/
theorem C96_no_code {text : Str} {width : Width} {s : Str} (h : wrap text width = .ok s) (hb : '`' ∉ text) :
    nw s = textKept (strip (wrapInput text)) ∧
    (nw s = nw text ↔ textKept (strip (wrapInput text)) = nw (strip (wrapInput text))) := by
  have hb' : '`' ∉ wrapInput text := wrapInput_not_mem hb (by decide)
  have hp : Pieces false (wrapInput text) [plainPiece false (wrapInput text)] := .none hb'
  have hpl : plainPiece false (wrapInput text) = strip (wrapInput text) := by simp [plainPiece]
  rw [hpl] at hp
  obtain ⟨parts, h1, h2, h3, h4⟩ := C96_kept h hp
  have hall : parts.filter (·.2) = parts := by
    apply List.filter_eq_self.2
    intro x hx
    refine Classical.byContradiction fun hf => hb ?_
    have hf' : x.2 = false := by simpa using hf
    have hh := h2 x hx hf'
    have hm : '`' ∈ nw text := by
      rw [h3]
      refine List.mem_flatten.2 ⟨nw x.1, List.mem_map.2 ⟨x, hx, rfl⟩, ?_⟩
      exact List.mem_filter.2 ⟨List.mem_of_mem_head? hh, by decide⟩
    exact (List.mem_filter.1 hm).1
  have htrue : ∀ x ∈ parts, x.2 = true := by
    intro x hx
    rw [← hall] at hx
    exact (List.mem_filter.1 hx).2
  rw [hall] at h1
  have hs : nw s = textKept (strip (wrapInput text)) := by
    rw [h4]
    cases hc : strip (wrapInput text) with
    | nil =>
      rw [hc] at h1
      cases parts with
      | nil => decide +kernel
      | cons x parts => simp at h1
    | cons c cs =>
      rw [hc] at h1
      cases parts with
      | nil => simp at h1
      | cons x parts =>
        cases parts with
        | nil =>
          have h5 : x.1 = c :: cs := by simpa using h1
          simp [htrue x (by simp), h5]
        | cons y parts => simp at h1
  exact ⟨hs, by rw [hs, nw_strip, nw_wrapInput]⟩

/-- An image inside a link loses the target of the link, a reference followed by a link is repeated in part, and so is a
comma between them. The formula gives exactly what is left. -/
theorem C96_example :
    wrap c!"see [![a](b)](c) here" (.fin 80) = .ok c!"see [![a](b) here" ∧
    textKept c!"see [![a](b)](c) here" = c!"see[![a](b)here" ∧
    wrap c!"`[x](y](z)` [a][b](c) d" (.fin 80) = .ok c!"`[x](y](z)` [a][b][b](c) d" ∧
    textKept c!"[a][b](c) d" = c!"[a][b][b](c)d" ∧
    wrap c!"[a][b],[c](d e" (.fin 80) = .ok c!"[a][b],[c](d e" ∧ textKept c!"[a][b],[c](d e" = c!"[a][b],[c](de" ∧
    textKept c!"[a][b],[c](d)" = c!"[a][b],,[c](d)" := by decide +kernel

/-- A badge, which is a link around an image, loses its target when a document is formatted, and nothing reports it. -/
theorem C96_badge : reformatMarkdownText 3 (.fin 80) c!"# T\n\n[![build](b.svg)](https://ci) text\n" =
    .ok c!"# T\n\n[![build](b.svg) text\n" := by decide +kernel

end MF
