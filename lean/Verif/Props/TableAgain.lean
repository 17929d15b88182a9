import Verif.Props.TableCells
import Verif.Props.Prose
import Verif.Lemmas.Sections
/-!
# Exactly which tables pass the consistency check (C94)
-/

namespace MF

/-- The length of the longest trimmed cell in column `j`. -/
def widest (rows : List (List Str)) (j : Nat) : Nat :=
  (rows.map fun r => (strip ((r[j]?).getD [])).length).foldl max 0

/-- The rows of the body, read both ways. -/
def Grid : List Str → List (List Str) → List (List Str) → Prop
  | [], [], [] => True
  | l :: ls, p :: ps, e :: es => PlainCells l p ∧ EscCells l e ∧ Grid ls ps es
  | _, _, _ => False

/-! ## Column widths -/

theorem widths_get (rows : List (List Str)) (j : Nat) : ∀ (ws : List Nat), (∀ r ∈ rows, r.length = ws.length) → j < ws.length →
    (rows.foldl (fun ws r => ws.zipWith (fun w c => if c.length > w then c.length else w) r) ws)[j]? =
      some ((rows.map fun r => ((r[j]?).getD []).length).foldl max ((ws[j]?).getD 0)) ∧
    (rows.foldl (fun ws r => ws.zipWith (fun w c => if c.length > w then c.length else w) r) ws).length = ws.length := by
  induction rows with
  | nil =>
    intro ws _ hj
    refine ⟨?_, rfl⟩
    simp [List.getElem?_eq_getElem hj]
  | cons r rows ih =>
    intro ws h hj
    have hr := h r (by simp)
    have hl : (ws.zipWith (fun w (c : Str) => if c.length > w then c.length else w) r).length = ws.length := by
      rw [List.length_zipWith, hr, Nat.min_self]
    obtain ⟨h1, h2⟩ := ih (ws.zipWith (fun w c => if c.length > w then c.length else w) r)
      (fun x hx => by rw [hl]; exact h x (by simp [hx])) (by rw [hl]; exact hj)
    simp only [List.foldl_cons, List.map_cons]
    refine ⟨?_, by rw [h2, hl]⟩
    rw [h1]
    congr 2
    have hj' : j < r.length := by rw [hr]; exact hj
    simp only [List.getElem?_zipWith, List.getElem?_eq_getElem hj, List.getElem?_eq_getElem hj', Option.getD_some]
    split <;> omega

theorem columnWidths_get {header : List Str} {rows : List (List Str)} (h : ∀ r ∈ rows, r.length = header.length) {j : Nat}
    (hj : j < header.length) : (columnWidths (header.map strip) (rows.map (·.map strip)))[j]? = some (widest (header :: rows) j) := by
  have := (widths_get ((header.map strip) :: rows.map (·.map strip)) j ((header.map strip).map fun _ => 0) (by
    intro r hr
    rcases List.mem_cons.1 hr with rfl | hr
    · simp
    · obtain ⟨x, hx, rfl⟩ := List.mem_map.1 hr
      simpa using h x hx) (by simpa using hj)).1
  rw [columnWidths, this]
  have hz : ((((header.map strip).map fun _ => 0)[j]?).getD 0) = 0 := by
    simp [List.getElem?_map, List.getElem?_eq_getElem hj]
  rw [hz, widest]
  congr 2
  simp only [List.map_cons, List.map_map]
  congr 1
  · simp [List.getElem?_map]
    cases header[j]? <;> rfl
  · apply List.map_congr_left
    intro r _
    simp only [Function.comp, List.getElem?_map]
    cases r[j]? <;> rfl

theorem columnWidths_length {header : List Str} {rows : List (List Str)} (h : ∀ r ∈ rows, r.length = header.length) :
    (columnWidths (header.map strip) (rows.map (·.map strip))).length = header.length := by
  have := (columnWidths_fits (header.map strip) (rows.map (·.map strip)) (by
    intro r hr
    obtain ⟨x, hx, rfl⟩ := List.mem_map.1 hr
    simpa using h x hx)).1
  simpa using this

/-- Only the kept columns count. -/
theorem widest_take (rows : List (List Str)) (m j : Nat) (hj : j < m) : widest (rows.map (·.take m)) j = widest rows j := by
  simp only [widest, List.map_map]
  congr 1
  apply List.map_congr_left
  intro r _
  simp only [Function.comp, List.getElem?_take, if_pos hj]

theorem widest_strip (rows : List (List Str)) (j : Nat) : widest (rows.map (·.map strip)) j = widest rows j := by
  simp only [widest, List.map_map]
  congr 1
  apply List.map_congr_left
  intro r _
  simp only [Function.comp, List.getElem?_map]
  cases r[j]? with
  | none => rfl
  | some c => simp [strip_idem]

/-! ## Writing cells that were written before -/

theorem zipCells_trunc (f : Str → Nat → Align → Str) (cs : List Str) : ∀ (ws : List Nat) (as : List Align) (m : Nat),
    min ws.length as.length ≤ m → zipCells f cs ws as = zipCells f (cs.take m) (ws.take m) (as.take m) := by
  induction cs with
  | nil => intro ws as m _; simp [zipCells]
  | cons c cs ih =>
    intro ws as m hm
    cases ws with
    | nil => simp [zipCells]
    | cons w ws =>
      cases as with
      | nil => simp [zipCells]
      | cons a as =>
        cases m with
        | zero => simp at hm
        | succ m =>
          simp only [List.take_succ_cons, zipCells]
          rw [ih ws as m (by simp only [List.length_cons] at hm; omega)]

/-- A cell formatter looks at the trimmed cell only. -/
theorem zipCells_strip {f : Str → Nat → Align → Str} (hf : ∀ c w a, f c w a = f (strip c) w a) (cs : List Str) :
    ∀ (ws : List Nat) (as : List Align), zipCells f cs ws as = zipCells f (cs.map strip) ws as := by
  induction cs with
  | nil => intro ws as; rfl
  | cons c cs ih =>
    intro ws as
    cases ws with
    | nil => simp [zipCells]
    | cons w ws =>
      cases as with
      | nil => simp [zipCells]
      | cons a as => simp only [zipCells, List.map_cons]; rw [hf, ih]

theorem headerCell_strip (c : Str) (w : Nat) (a : Align) : headerCell c w a = headerCell (strip c) w a := by
  cases a <;> simp only [headerCell, strip_idem]

theorem bodyCell_strip (c : Str) (w : Nat) (a : Align) : bodyCell c w a = bodyCell (strip c) w a := by
  cases a <;> simp only [bodyCell, strip_idem]

theorem dividerAlign_cell (w : Nat) (a : Align) : dividerAlign (dividerCell w a) = a := by
  have hs : strip (dividerCell w a) = dividerCell w a := by
    have hx : ∀ x ∈ dividerCell w a, x = '-' ∨ x = ':' := by
      intro x hx
      cases a <;> simp [dividerCell] at hx <;> rcases hx with h | h | h <;> simp [h]
    apply strip_eq_self_of
    · intro a r h; rcases hx a (by rw [h]; simp) with h | h <;> rw [h] <;> decide
    · intro r a h; rcases hx a (by rw [h]; simp) with h | h <;> rw [h] <;> decide
  simp only [dividerAlign, hs]
  have hend : ∀ x y : Char, endsWith ([x] ++ List.replicate w '-' ++ [y]) c!":" = (y == ':') := by
    intro x y
    simp [endsWith, List.isSuffixOf, List.isPrefixOf]; exact Bool.beq_comm
  have hst : ∀ x y : Char, startsWith ([x] ++ List.replicate w '-' ++ [y]) c!":" = (x == ':') := by
    intro x y
    simp [startsWith, List.isPrefixOf]; exact Bool.beq_comm
  cases a <;> simp only [dividerCell, hst, hend] <;> decide

/-- A written row read again. -/
theorem tableRow_cells {cells : List Str} (hne : cells ≠ []) (h : ∀ c ∈ cells, CellOk (some '|') c) :
    EscCells (tableRow cells) cells := by
  refine ⟨[], [], by simp, ?_, h, trivial⟩
  rw [pyJoin_append hne (by simp)]
  simp [tableRow, pyJoin]

theorem tableRow_plain {cells : List Str} (hne : cells ≠ []) (h : ∀ c ∈ cells, '|' ∉ c) :
    PlainCells (tableRow cells) cells := by
  refine ⟨[], [], by simp, ?_, ?_⟩
  · rw [pyJoin_append hne (by simp)]
    simp [tableRow, pyJoin]
  · intro c hc
    rcases List.mem_append.1 hc with hc | hc
    · exact h c hc
    · simp at hc; subst hc; simp

theorem zipCells_length (f : Str → Nat → Align → Str) (cs : List Str) : ∀ (ws : List Nat) (as : List Align),
    (zipCells f cs ws as).length = min cs.length (min ws.length as.length) := by
  induction cs with
  | nil => intro ws as; simp [zipCells]
  | cons c cs ih =>
    intro ws as
    cases ws with
    | nil => simp [zipCells]
    | cons w ws =>
      cases as with
      | nil => simp [zipCells]
      | cons a as => simp only [zipCells, List.length_cons, ih]; omega

theorem zipCells_noBar {f : Str → Nat → Align → Str} (hf : PadsCell f) (cs : List Str) : ∀ (ws : List Nat) (as : List Align),
    (∀ c ∈ cs, '|' ∉ c) → ∀ c ∈ zipCells f cs ws as, '|' ∉ c := by
  induction cs with
  | nil => intro ws as _ c hc; simp [zipCells] at hc
  | cons c cs ih =>
    intro ws as h
    cases ws with
    | nil => simp [zipCells]
    | cons w ws =>
      cases as with
      | nil => simp [zipCells]
      | cons a as =>
        obtain ⟨x, y, hxy, hx, hy, -⟩ := hf c w a
        intro d hd hm
        simp only [zipCells] at hd
        rcases List.mem_cons.1 hd with rfl | hd
        · rw [hxy] at hm
          rcases List.mem_append.1 hm with h2 | h2
          · exact absurd (hx _ h2) (by decide)
          · rcases List.mem_append.1 h2 with h2 | h2
            · exact h c (by simp) (mem_of_mem_strip h2)
            · exact absurd (hy _ h2) (by decide)
        · exact ih ws as (fun x hx => h x (by simp [hx])) d hd hm

theorem dividers_noBar (ps : List (Nat × Align)) : ∀ c ∈ ps.map (fun p => dividerCell p.1 p.2), '|' ∉ c := by
  intro c hc hm
  obtain ⟨p, _, rfl⟩ := List.mem_map.1 hc
  have : ∀ x ∈ dividerCell p.1 p.2, x = '-' ∨ x = ':' := by
    intro x hx
    cases hp : p.2 <;> rw [hp] at hx <;> simp [dividerCell] at hx <;> rcases hx with h | h | h <;> simp [h]
  rcases this _ hm with h | h <;> revert h <;> decide

theorem tableRow_strip (cells : List Str) : strip (tableRow cells) = tableRow cells := by
  apply strip_eq_self_of
  · intro c r h; simp only [tableRow, List.singleton_append] at h; cases h; decide
  · intro r c h
    have := (List.append_inj' (s₁ := ['|'] ++ pyJoin ['|'] cells) h rfl).2
    simp at this
    rw [← this]; decide

theorem tableRow_delim {cells : List Str} (hne : cells ≠ []) (h : ∀ c ∈ cells, '|' ∉ c) :
    DelimCells (tableRow cells) cells := by
  refine ⟨hne, h, ?_⟩
  rw [tableRow_strip]
  simp [tableRow]

/-- The rows written, as the next pass reads them. -/
theorem fmtTable_written {i : Nat} {H D : List Str} {Bs : List (List Str)} (hH : H ≠ []) (hHok : ∀ c ∈ H, CellOk (some '|') c)
    (hD : D ≠ []) (hDok : ∀ c ∈ D, '|' ∉ c) (hB : ∀ B ∈ Bs, B.length = H.length ∧ (∀ c ∈ B, '|' ∉ c) ∧
      ∀ c ∈ B, CellOk (some '|') c) (hnl : ∀ l ∈ tableRow H :: tableRow D :: Bs.map tableRow, NoLB l) (ws2 : List Nat)
    (hws2 : columnWidths (H.map strip) (Bs.map (·.map strip)) = ws2) :
    ∃ out2, fmtTable i (tableRow H :: tableRow D :: Bs.map tableRow) = .ok out2 ∧
      out2 = pyJoin ['\n'] (tableRow (zipCells headerCell H ws2 (D.map dividerAlign)) ::
       tableRow ((ws2.zip (D.map dividerAlign)).map fun p => dividerCell p.1 p.2) ::
       Bs.map fun B => tableRow (zipCells bodyCell B ws2 (D.map dividerAlign))) ∧
      splitlines out2 = (tableRow (zipCells headerCell H ws2 (D.map dividerAlign)) ::
       tableRow ((ws2.zip (D.map dividerAlign)).map fun p => dividerCell p.1 p.2) ::
       Bs.map fun B => tableRow (zipCells bodyCell B ws2 (D.map dividerAlign))) := by
  subst hws2
  have hne : ∀ B ∈ Bs, B ≠ [] := fun B hb h0 => hH (List.length_eq_zero_iff.1 (by rw [← (hB B hb).1, h0]; rfl))
  have e1 : (Bs.map tableRow).map rowCols = Bs.map (·.map strip) := by
    rw [List.map_map]
    apply List.map_congr_left
    intro B hb
    exact (tableRow_cells (hne B hb) (hB B hb).2.2).cols
  have e2 : (Bs.map tableRow).map (fun line => tableRow (zipCells bodyCell (inner (splitChar '|' line))
      (columnWidths (H.map strip) (Bs.map (·.map strip))) (D.map dividerAlign))) =
      Bs.map fun B => tableRow (zipCells bodyCell B (columnWidths (H.map strip) (Bs.map (·.map strip))) (D.map dividerAlign)) := by
    rw [List.map_map]
    apply List.map_congr_left
    intro B hb
    simp only [Function.comp]
    rw [(tableRow_plain (hne B hb) (hB B hb).2.1).split]
  have key : fmtTable i (tableRow H :: tableRow D :: Bs.map tableRow) = .ok (pyJoin ['\n']
      (tableRow (zipCells headerCell H (columnWidths (H.map strip) (Bs.map (·.map strip))) (D.map dividerAlign)) ::
       tableRow (((columnWidths (H.map strip) (Bs.map (·.map strip))).zip (D.map dividerAlign)).map fun p => dividerCell p.1 p.2) ::
       Bs.map fun B => tableRow (zipCells bodyCell B (columnWidths (H.map strip) (Bs.map (·.map strip))) (D.map dividerAlign)))) := by
    simp only [fmtTable, bind, Except.bind]
    rw [(tableRow_cells hH hHok).cols, e1, (tableRow_delim hD hDok).aligns, checkRows_of_all]
    · simp only
      rw [e2, (tableRow_cells hH hHok).split]
    · intro r hr
      obtain ⟨B, hb, rfl⟩ := List.mem_map.1 hr
      simp [(hB B hb).1]
  refine ⟨_, key, rfl, ?_⟩
  have := (fmtTable_rows hnl key).2
  rwa [(tableRow_cells hH hHok).cols, e1, (tableRow_delim hD hDok).aligns, e2, (tableRow_cells hH hHok).split] at this

theorem tableRow_inj {a b : List Str} (ha : a ≠ []) (hb : b ≠ []) (hac : ∀ c ∈ a, '|' ∉ c) (hbc : ∀ c ∈ b, '|' ∉ c)
    (h : tableRow a = tableRow b) : a = b := by
  have h1 := (tableRow_plain ha hac).split
  rw [h, (tableRow_plain hb hbc).split] at h1
  exact h1.symm

theorem zip_fst {α β : Type} (a : List α) : ∀ (b : List β), (a.zip b).map Prod.fst = a.take b.length := by
  induction a with
  | nil => intro b; simp
  | cons x a ih =>
    intro b
    cases b with
    | nil => simp
    | cons y b => simp [ih]

theorem zip_snd {α β : Type} (a : List α) : ∀ (b : List β), (a.zip b).map Prod.snd = b.take a.length := by
  induction a with
  | nil => intro b; simp
  | cons x a ih =>
    intro b
    cases b with
    | nil => simp
    | cons y b => simp [ih]

/-- The widths can be read off the delimiter row. -/
theorem dividers_fst {ps qs : List (Nat × Align)}
    (h : ps.map (fun p => dividerCell p.1 p.2) = qs.map fun p => dividerCell p.1 p.2) : ps.map Prod.fst = qs.map Prod.fst := by
  have h1 : ∀ ps : List (Nat × Align), ((ps.map fun p => dividerCell p.1 p.2).map List.length).map (· - 2) = ps.map Prod.fst := by
    intro ps
    simp only [List.map_map]
    apply List.map_congr_left
    intro p _
    simp [Function.comp, dividerCell_length]
  rw [← h1 ps, h, h1 qs]

theorem Grid.rows {body : List Str} : ∀ {plain esc : List (List Str)}, Grid body plain esc →
    body.map rowCols = esc.map (·.map strip) ∧ body.map (fun l => inner (splitChar '|' l)) = plain ∧
    (∀ r ∈ plain, ∀ c ∈ r, '|' ∉ c) ∧ (∀ h, (∀ r ∈ esc, r.length = h) → ∀ r ∈ plain, h ≤ r.length) := by
  induction body with
  | nil =>
    intro plain esc h
    cases plain with
    | cons => cases esc <;> exact h.elim
    | nil => cases esc with
      | cons => exact h.elim
      | nil => simp
  | cons l body ih =>
    intro plain esc h
    cases plain with
    | nil => cases esc <;> exact h.elim
    | cons p plain => cases esc with
      | nil => exact h.elim
      | cons e esc =>
        obtain ⟨hp, he, hg⟩ := h
        obtain ⟨h1, h2, h3, h4⟩ := ih hg
        refine ⟨by simp only [List.map_cons, h1, he.cols], by simp only [List.map_cons, h2, hp.split], ?_, ?_⟩
        · intro r hr
          rcases List.mem_cons.1 hr with rfl | hr
          · obtain ⟨_, _, _, _, h5⟩ := hp
            exact fun c hc => h5 c (List.mem_append_left _ hc)
          · exact h3 r hr
        · intro h hh r hr
          rcases List.mem_cons.1 hr with rfl | hr
          · rw [← hh e (by simp)]; exact esc_le_plain he hp
          · exact h4 h (fun r hr => hh r (by simp [hr])) r hr

/-- C94 for one table: rewriting the rewritten rows never fails, and gives them back exactly if the header has a cell
and in every column that is kept the longest cell written is as long as the longest cell of the source. -/
theorem C94_table (sub : Width → Str → Except Err Str) (w w' : Width) (i i' : Nat) (header divider : Str) (body : List Str)
    (hc dc : List Str) (plain esc : List (List Str)) (out : Str) (hnl : ∀ l ∈ header :: divider :: body, NoLB l)
    (hh : EscCells header hc) (hd : DelimCells divider dc) (hb : Grid body plain esc)
    (h : fmtSection sub w i .table (header :: divider :: body) = .ok out) :
    ∃ out2, fmtSection sub w' i' .table (splitlines out) = .ok out2 ∧
      (out2 = out ↔ hc ≠ [] ∧ ∀ j < min hc.length dc.length, widest (hc :: plain) j = widest (hc :: esc) j) := by
  obtain ⟨hlen, h2⟩ := fmtTable_rows hnl h
  obtain ⟨hg1, hg2, hg3, hg4⟩ := hb.rows
  have hel : ∀ r ∈ esc, r.length = hc.length := by
    intro r hr
    have : r.map strip ∈ body.map rowCols := hg1 ▸ List.mem_map.2 ⟨r, hr, rfl⟩
    obtain ⟨l, hl, hl2⟩ := List.mem_map.1 this
    have := hlen l hl
    rw [hl2, hh.cols] at this
    simpa using this
  have hpl := hg4 _ hel
  have hout : out = pyJoin ['\n'] (splitlines out) := by
    have h' := h
    simp only [fmtSection, fmtTable, bind, Except.bind] at h'
    split at h'
    · cases h'
    · cases h'
      rw [h2]
  have hnl2 : ∀ l ∈ splitlines out, NoLB l := splitlines_noLB out
  have hbody : ∀ ws as, body.map (fun line => tableRow (zipCells bodyCell (inner (splitChar '|' line)) ws as)) =
      (plain.map fun p => zipCells bodyCell p ws as).map tableRow := by
    intro ws as
    rw [← hg2, List.map_map, List.map_map]
    rfl
  rw [hh.split, hd.aligns, hbody, hh.cols, hg1] at h2
  obtain ⟨ws, hws⟩ : ∃ ws, ws = columnWidths (hc.map strip) (esc.map (·.map strip)) := ⟨_, rfl⟩
  have hwl : ws.length = hc.length := by rw [hws]; exact columnWidths_length hel
  have hwget : ∀ j < hc.length, ws[j]? = some (widest (hc :: esc) j) := by
    intro j hj; rw [hws]; exact columnWidths_get hel hj
  rw [← hws] at h2
  clear hws hlen hg1 hg2 hg4 hel hbody
  have hdl : dc.length ≠ 0 := fun h0 => hd.1 (List.length_eq_zero_iff.1 h0)
  have hHb : ∀ c ∈ hc, BarsOk (some '|') c := by
    obtain ⟨_, _, _, _, h5, _⟩ := hh
    exact fun c hx => ((cellOk_iff _ _).1 (h5 c hx)).1
  obtain ⟨as, has⟩ : ∃ as, as = dc.map dividerAlign := ⟨_, rfl⟩
  have hal : as.length = dc.length := by rw [has, List.length_map]
  rw [← has] at h2
  show ∃ out2, fmtTable i' (splitlines out) = .ok out2 ∧ _
  rw [h2] at hnl2
  by_cases h0 : hc = []
  · subst h0
    have hw0 : ws = [] := List.length_eq_zero_iff.1 hwl
    subst hw0
    have e : splitlines out = tableRow [[]] :: tableRow [[]] :: (plain.map fun _ => [[]]).map tableRow := by
      have e0 : (plain.map fun p => zipCells bodyCell p [] as).map tableRow = (plain.map fun _ => [[]]).map tableRow := by
        simp only [List.map_map]
        apply List.map_congr_left
        intro p _
        have : zipCells bodyCell p [] as = [] := by cases p <;> rfl
        simp only [Function.comp, this]
        rfl
      rw [h2, e0]
      rfl
    have hnl3 : ∀ l ∈ splitlines out, NoLB l := splitlines_noLB out
    rw [e] at hnl3
    obtain ⟨out2, k1, k2, k3⟩ := fmtTable_written (i := i') (H := [[]]) (D := [[]]) (Bs := plain.map fun _ => [[]]) (by simp)
      (by simp [CellOk]) (by simp) (by simp) (by
        intro B hB
        obtain ⟨_, _, rfl⟩ := List.mem_map.1 hB
        simp [CellOk]) hnl3 _ rfl
    refine ⟨out2, by rw [e]; exact k1, ⟨fun hcontra => ?_, fun ⟨hcontra, _⟩ => absurd rfl hcontra⟩⟩
    exfalso
    rw [hcontra, e] at k3
    obtain ⟨_, k4⟩ := List.cons.inj k3
    obtain ⟨k5, _⟩ := List.cons.inj k4
    have hl := columnWidths_length (header := [[]]) (rows := plain.map fun _ => [[]]) (by
      intro r hr
      obtain ⟨_, _, rfl⟩ := List.mem_map.1 hr
      rfl)
    obtain ⟨w0, hw0⟩ : ∃ w0, columnWidths ([[]].map strip) ((plain.map fun _ => [[]]).map (·.map strip)) = [w0] :=
      List.length_eq_one_iff.1 hl
    rw [hw0] at k5
    have := tableRow_inj (by simp) (by simp) (by simp) (dividers_noBar _) k5
    simp only [List.map_cons, List.map_nil, List.zip_cons_cons, List.zip_nil_left] at this
    have := congrArg (List.map List.length) this
    simp [dividerCell_length] at this
  · have hh0 : hc.length ≠ 0 := fun h1 => h0 (List.length_eq_zero_iff.1 h1)
    obtain ⟨m, hm⟩ : ∃ m, m = min hc.length dc.length := ⟨_, rfl⟩
    have hm0 : m ≠ 0 := by omega
    obtain ⟨hH1, hH2⟩ := zipCells_take headerCell_pads hc ws as hHb
    have hHl : (zipCells headerCell hc ws as).length = m := by rw [zipCells_length, hwl, hal]; omega
    have hDl : ((ws.zip as).map fun p => dividerCell p.1 p.2).length = m := by simp [hwl, hal, hm]
    have hBs : ∀ B ∈ plain.map fun p => zipCells bodyCell p ws as, B.length = (zipCells headerCell hc ws as).length ∧
        (∀ c ∈ B, '|' ∉ c) ∧ ∀ c ∈ B, CellOk (some '|') c := by
      intro B hB
      obtain ⟨p, hp, rfl⟩ := List.mem_map.1 hB
      refine ⟨?_, zipCells_noBar bodyCell_pads p ws as (hg3 p hp),
        (zipCells_take bodyCell_pads p ws as fun c hx => barsOk_noBar _ _ (hg3 p hp c hx)).2⟩
      rw [hHl, zipCells_length, hwl, hal]
      have := hpl p hp
      omega
    have hwid : columnWidths ((zipCells headerCell hc ws as).map strip)
        ((plain.map fun p => zipCells bodyCell p ws as).map (·.map strip)) =
        columnWidths ((hc.take m).map strip) ((plain.map (·.take m)).map (·.map strip)) := by
      rw [hH1, hwl, hal, ← hm, List.map_take]
      congr 1
      simp only [List.map_map]
      apply List.map_congr_left
      intro p hp
      simp only [Function.comp]
      rw [(zipCells_take bodyCell_pads p ws as fun c hx => barsOk_noBar _ _ (hg3 p hp c hx)).1, hwl, hal, ← hm, List.map_take]
    obtain ⟨w2, hw2⟩ : ∃ w2, w2 = columnWidths ((hc.take m).map strip) ((plain.map (·.take m)).map (·.map strip)) := ⟨_, rfl⟩
    have hrl : ∀ r ∈ plain.map (·.take m), r.length = (hc.take m).length := by
      intro r hr
      obtain ⟨p, hp, rfl⟩ := List.mem_map.1 hr
      have := hpl p hp
      simp only [List.length_take]
      omega
    have hw2l : w2.length = m := by
      rw [hw2, columnWidths_length hrl, List.length_take]; omega
    have hw2get : ∀ j < m, w2[j]? = some (widest (hc :: plain) j) := by
      intro j hj
      rw [hw2, columnWidths_get hrl (by rw [List.length_take]; omega)]
      rw [show (hc.take m :: plain.map (·.take m)) = (hc :: plain).map (·.take m) from rfl, widest_take _ _ _ hj]
    rw [← hw2] at hwid
    have hasD : ((ws.zip as).map fun p => dividerCell p.1 p.2).map dividerAlign = as.take m := by
      rw [List.map_map]
      have : (dividerAlign ∘ fun p : Nat × Align => dividerCell p.1 p.2) = Prod.snd := by
        funext p; exact dividerAlign_cell _ _
      rw [this, zip_snd, hwl, hm, List.take_eq_take_min (i := hc.length), hal]
    obtain ⟨out2, k1, k2, k3⟩ := fmtTable_written (i := i') (H := zipCells headerCell hc ws as)
      (D := (ws.zip as).map fun p => dividerCell p.1 p.2) (Bs := plain.map fun p => zipCells bodyCell p ws as)
      (fun h1 => hm0 (by rw [← hHl, h1]; rfl)) hH2 (fun h1 => hm0 (by rw [← hDl, h1]; rfl)) (dividers_noBar _) hBs hnl2 w2 hwid
    rw [hasD] at k2 k3
    refine ⟨out2, by rw [h2]; exact k1, ⟨fun heq => ⟨h0, ?_⟩, fun ⟨_, hj⟩ => ?_⟩⟩
    · rw [heq, h2] at k3
      obtain ⟨_, k4⟩ := List.cons.inj k3
      obtain ⟨k5, _⟩ := List.cons.inj k4
      have hne2 : ((w2.zip (as.take m)).map fun p => dividerCell p.1 p.2) ≠ [] := by
        intro h1
        have := congrArg List.length h1
        rw [List.length_map, List.length_zip, hw2l, List.length_take, hal, List.length_nil] at this
        omega
      have k6 := tableRow_inj (fun h1 => hm0 (by rw [← hDl, h1]; rfl)) hne2 (dividers_noBar _) (dividers_noBar _) k5
      have k7 := dividers_fst k6
      rw [zip_fst, zip_fst, hal, List.length_take, hal] at k7
      intro j hj
      rw [← hm] at hj
      have k8 := congrArg (fun l => l[j]?) k7
      simp only [List.getElem?_take] at k8
      rw [if_pos (by omega), if_pos (by omega), hwget j (by omega), hw2get j hj] at k8
      exact (Option.some.inj k8).symm
    · have hw2w : w2 = ws.take m := by
        apply List.ext_getElem?
        intro j
        by_cases hjm : j < m
        · rw [hw2get j hjm, List.getElem?_take, if_pos hjm, hwget j (by omega), hj j (by omega)]
        · rw [List.getElem?_eq_none (by omega), List.getElem?_eq_none (by simp; omega)]
      rw [k2, hout, h2]
      have hz : ∀ {f : Str → Nat → Align → Str} (_ : ∀ c w a, f c w a = f (strip c) w a) (_ : PadsCell f) (cs : List Str),
          (∀ c ∈ cs, BarsOk (some '|') c) →
          zipCells f (zipCells f cs ws as) w2 (as.take m) = zipCells f cs ws as := by
        intro f hf hp cs hcs
        rw [zipCells_strip hf, (zipCells_take hp cs ws as hcs).1, hwl, hal, ← hm, zipCells_strip hf cs,
          zipCells_trunc f (cs.map strip) ws as m (by rw [hwl, hal, hm]; exact Nat.le_refl _), hw2w]
      rw [hz headerCell_strip headerCell_pads hc hHb]
      congr 2
      congr 1
      · rw [hw2w]
        congr 2
        rw [List.zip, ← List.take_zipWith, List.take_of_length_le (by rw [List.length_zipWith, hwl, hal, hm]; exact Nat.le_refl _)]
      · simp only [List.map_map]
        apply List.map_congr_left
        intro p hp
        simp only [Function.comp]
        rw [hz bodyCell_strip bodyCell_pads p fun c hx => barsOk_noBar _ _ (hg3 p hp c hx)]

theorem grid_exists (body : List Str) (h : ∀ l ∈ body, ∃ ws s, (∀ c ∈ ws, isWs c = true) ∧ l = ws ++ '|' :: s) :
    ∃ plain esc, Grid body plain esc := by
  induction body with
  | nil => exact ⟨[], [], trivial⟩
  | cons l body ih =>
    obtain ⟨ws, s, hws, rfl⟩ := h l (by simp)
    obtain ⟨⟨e, he⟩, ⟨p, hp⟩⟩ := cells_exist (s := s) hws
    obtain ⟨ps, es, hg⟩ := ih fun l hl => h l (by simp [hl])
    exact ⟨p :: ps, e :: es, hp, he, hg⟩

theorem table_rows_barred {n : Nat} {text : Str} {pre post : List (Sec × List Str)} {content : List Str}
    (hp : parse n (splitlines text) = .ok (pre ++ (.table, content) :: post)) :
    ∀ l ∈ content, NoLB l ∧ ∃ ws s, (∀ c ∈ ws, isWs c = true) ∧ l = ws ++ '|' :: s := by
  have hrow := (C52_extent hp).1
  intro l hl
  refine ⟨?_, ?_⟩
  · apply splitlines_noLB text
    rw [← (C08_parse_partition n _ _ hp).1]
    simp [hl]
  · have h1 := hrow l hl
    obtain ⟨ws, h2, h3⟩ := lstrip_split l
    rw [rowLine, show l.dropWhile isWs = lstrip l from rfl] at h1
    cases h4 : lstrip l with
    | nil => rw [h4] at h1; exact absurd h1 (by decide)
    | cons c s =>
      rw [h4] at h1 h2
      have : c = '|' := by simpa using h1
      exact ⟨ws, s, h3, by rw [← this]; exact h2⟩

/-- The conditions of `C94_document` on the rows are met by every table of every document. -/
theorem C94_readable (n : Nat) (text : Str) (pre post : List (Sec × List Str)) (header divider : Str) (body : List Str)
    (hp : parse n (splitlines text) = .ok (pre ++ (.table, header :: divider :: body) :: post)) :
    ∃ hc dc plain esc, EscCells header hc ∧ DelimCells divider dc ∧ Grid body plain esc := by
  have h := table_rows_barred hp
  obtain ⟨_, ws, s, hws, hh⟩ := h header (by simp)
  obtain ⟨hc, hhc⟩ := (cells_exist (s := s) hws).1
  obtain ⟨dc, hdc⟩ := delim_exists divider
  obtain ⟨plain, esc, hg⟩ := grid_exists body fun l hl => (h l (by simp [hl])).2
  exact ⟨hc, dc, plain, esc, hh ▸ hhc, hdc, hg⟩

/-- Lines that start with a bar are one table. -/
theorem parse_rows (n : Nat) (lines : List Str) (hne : lines ≠ []) (h : ∀ l ∈ lines, ∃ r, l = '|' :: r) :
    parse (n + 1) lines = .ok [(.table, lines)] := by
  obtain ⟨l, ls, rfl⟩ := List.exists_cons_of_ne_nil hne
  have hts : ∀ x ∈ l :: ls, isTableStart x = true := by
    intro x hx
    obtain ⟨r, rfl⟩ := h x hx
    rfl
  have := parse_of_first (n := n + 1) [(.table, l :: ls)] (by
    intro a b c e
    match a, e with
    | [], e =>
      cases e
      refine ⟨by simp, ?_⟩
      have := firstSection_table (n := n) (l := l) ls [] (hts l (by simp)) (by
        obtain ⟨r, rfl⟩ := h l (by simp)
        simp [getIndent, lstrip, List.dropWhile, isWs]) (fun x hx => hts x (by simp [hx])) (by simp)
      simpa [linesOf] using this
    | [_], e => cases e
    | _ :: _ :: _, e => cases e)
  simpa [linesOf] using this

/-- C94: a document that is one table passes the consistency check exactly if the header has a cell and in every column
that is kept the longest cell written is as long as the longest cell of the source. -/
theorem C94_document (n : Nat) (w : Width) (text : Str) (header divider : Str) (body : List Str)
    (hc dc : List Str) (plain esc : List (List Str)) (out : Str)
    (hp : parse (n + 1) (splitlines text) = .ok [(.table, header :: divider :: body)])
    (hh : EscCells header hc) (hd : DelimCells divider dc) (hb : Grid body plain esc)
    (h : fmtSection (reformatText (n + 1)) w 0 .table (header :: divider :: body) = .ok out) :
    (reformatMarkdownText (n + 2) w text = .ok (out ++ ['\n']) ↔
      hc ≠ [] ∧ ∀ j < min hc.length dc.length, widest (hc :: plain) j = widest (hc :: esc) j) ∧
    (reformatMarkdownText (n + 2) w text = .error .inconsistent ↔
      ¬ (hc ≠ [] ∧ ∀ j < min hc.length dc.length, widest (hc :: plain) j = widest (hc :: esc) j)) := by
  have hrows := table_rows_barred (pre := []) (post := []) hp
  have hnl : ∀ l ∈ header :: divider :: body, NoLB l := fun l hl => (hrows l hl).1
  obtain ⟨out2, k1, k2⟩ := C94_table _ w w 0 0 header divider body hc dc plain esc out hnl hh hd hb h
  have hone : ∀ (lines : List Str) (o t : Str), parse (n + 1) (splitlines t) = .ok [(.table, lines)] →
      fmtSection (reformatText (n + 1)) w 0 .table lines = .ok o → reformatText (n + 2) w t = .ok (o ++ ['\n']) := by
    intro lines o t h1 h2
    rw [show n + 2 = (n + 1) + 1 from rfl, reformatText]
    simp only [reformatBody, bind, Except.bind, h1, buildFmts, reprCheck]
    rw [if_neg (by decide)]
    simp only [fmtAll, bind, Except.bind, h2, Except.mapError]
    rfl
  have hlines := (fmtTable_rows hnl h).2
  have hbars : ∀ l ∈ splitlines out, ∃ r, l = '|' :: (r ++ ['|']) := by
    rw [hlines]
    intro l hl
    rcases List.mem_cons.1 hl with rfl | hl
    · exact tableRow_bars _
    · rcases List.mem_cons.1 hl with rfl | hl
      · exact tableRow_bars _
      · obtain ⟨b, _, rfl⟩ := List.mem_map.1 hl
        exact tableRow_bars _
  have hne : splitlines out ≠ [] := by rw [hlines]; simp
  have hout : out = pyJoin ['\n'] (splitlines out) := by
    have h' := h
    simp only [fmtSection, fmtTable, bind, Except.bind] at h'
    split at h'
    · cases h'
    · cases h'
      rw [hlines]
  have hagain : splitlines (out ++ ['\n']) = splitlines out := by
    conv => lhs; rw [hout]
    exact splitlines_join_nl _ (splitlines_noLB out) hne
  have p1 := hone _ _ _ hp h
  have p2 := hone (splitlines out) out2 (out ++ ['\n']) (by
    rw [hagain]
    exact parse_rows n _ hne fun l hl => by obtain ⟨r, hr⟩ := hbars l hl; exact ⟨_, hr⟩) k1
  have hstrip : rstrip (out ++ ['\n']) = out := by
    have hlast : ∃ r, out = r ++ ['|'] := by
      rw [hout]
      obtain ⟨init, l, hl⟩ : ∃ init l, splitlines out = init ++ [l] := by
        rcases List.eq_nil_or_concat (splitlines out) with h0 | ⟨r, a, h0⟩
        · exact absurd h0 hne
        · exact ⟨r, a, by rw [h0, List.concat_eq_append]⟩
      obtain ⟨r, hr⟩ := hbars l (by rw [hl]; simp)
      rw [hl, hr]
      by_cases hi : init = []
      · exact ⟨'|' :: r, by rw [hi]; rfl⟩
      · rw [pyJoin_append hi (by simp)]
        exact ⟨pyJoin ['\n'] init ++ ['\n'] ++ '|' :: r, by simp [pyJoin]⟩
    obtain ⟨r, hr⟩ := hlast
    rw [hr, rstrip_append_ws _ _ (by decide)]
    exact rstrip_concat_of_not r '|' (by decide)
  have hm : reformatMarkdownText (n + 2) w text = if out2 = out then .ok (out ++ ['\n']) else .error .inconsistent := by
    simp only [reformatMarkdownText, bind, Except.bind, p1, p2, hstrip]
    by_cases he : out2 = out
    · simp [he]
    · simp [he]
  rw [hm, ← k2]
  by_cases he : out2 = out
  · simp [he]
  · simp [he]

/-- Without escaped bars in the body, a table with a cell in its header always passes, also if columns or the text
behind the last bars are lost. -/
theorem C94_no_escapes (n : Nat) (w : Width) (text : Str) (header divider : Str) (body : List Str)
    (hc dc : List Str) (plain esc : List (List Str)) (out : Str)
    (hp : parse (n + 1) (splitlines text) = .ok [(.table, header :: divider :: body)])
    (hh : EscCells header hc) (hd : DelimCells divider dc) (hb : Grid body plain esc)
    (h : fmtSection (reformatText (n + 1)) w 0 .table (header :: divider :: body) = .ok out) (hne : hc ≠ [])
    (hesc : ∀ r ∈ esc, ∀ c ∈ r, '|' ∉ c) : reformatMarkdownText (n + 2) w text = .ok (out ++ ['\n']) := by
  rw [(C94_document n w text header divider body hc dc plain esc out hp hh hd hb h).1]
  refine ⟨hne, fun j hj => ?_⟩
  have hrows := table_rows_barred (pre := []) (post := []) hp
  have hlen := (fmtTable_rows (fun l hl => (hrows l hl).1) h).1
  rw [hh.cols, List.length_map] at hlen
  have key : ∀ (body : List Str) (plain esc : List (List Str)), Grid body plain esc → (∀ r ∈ esc, ∀ c ∈ r, '|' ∉ c) →
      (∀ l ∈ body, (rowCols l).length = hc.length) →
      (plain.map fun r => (strip ((r[j]?).getD [])).length) = esc.map fun r => (strip ((r[j]?).getD [])).length := by
    intro body
    induction body with
    | nil =>
      intro plain esc hg _ _
      cases plain with
      | cons => cases esc <;> exact hg.elim
      | nil => cases esc with
        | cons => exact hg.elim
        | nil => rfl
    | cons l body ih =>
      intro plain esc hg hesc hl
      cases plain with
      | nil => cases esc <;> exact hg.elim
      | cons p plain => cases esc with
        | nil => exact hg.elim
        | cons e esc =>
          obtain ⟨hpc, hec, hg⟩ := hg
          obtain ⟨more, rfl⟩ := plain_of_esc hec hpc (hesc e (by simp))
          have hel := hl l (by simp)
          rw [hec.cols, List.length_map] at hel
          simp only [List.map_cons]
          rw [ih plain esc hg (fun r hr => hesc r (by simp [hr])) (fun x hx => hl x (by simp [hx])),
            List.getElem?_append_left (by omega)]
  simp only [widest, List.map_cons, key body plain esc hb hesc hlen]

/-- Three tables that lose text. The first passes because the header is the longest cell of its column, the second
because only a column is cut off; the third is refused because the cell that is cut short was the longest one. -/
theorem C94_example :
    reformatMarkdownText 3 (.fin 80) c!"| header |\n|---|\n| x\\|y |\n" = .ok c!"| header |\n|--------|\n| x\\     |\n" ∧
    reformatMarkdownText 3 (.fin 80) c!"|a|b|\n|-|\n|c|d| e\n" = .ok c!"| a |\n|---|\n| c |\n" ∧
    reformatMarkdownText 3 (.fin 80) c!"| a |\n|---|\n| x\\|y |\n" = .error .inconsistent ∧
    Grid [c!"| x\\|y |"] [[c!" x\\", c!"y "]] [[c!" x\\|y "]] ∧
    widest [[c!" header "], [c!" x\\", c!"y "]] 0 = widest [[c!" header "], [c!" x\\|y "]] 0 ∧
    widest [[c!" a "], [c!" x\\", c!"y "]] 0 = 2 ∧ widest [[c!" a "], [c!" x\\|y "]] 0 = 4 := by
  refine ⟨by decide +kernel, by decide +kernel, by decide +kernel,
    ⟨⟨[], [], by decide, by decide, by decide⟩, ⟨[], [], by decide, by decide, ?_, trivial⟩, trivial⟩, by decide +kernel,
    by decide +kernel, by decide +kernel⟩
  intro c hc
  simp only [List.mem_cons, List.not_mem_nil, or_false] at hc
  subst hc
  simp [CellOk]

end MF
