import Verif.Props.Trailing
import Verif.Lemmas.Tables
/-!
# Tables: C20, C21, C22
-/

namespace MF

/-! ## Widths -/

/-- Every cell is at most as long as the width at its place; there are as many cells as widths. -/
def Fits : List Str → List Nat → Prop
  | [], [] => True
  | c :: cs, w :: ws => c.length ≤ w ∧ Fits cs ws
  | _, _ => False

theorem Fits.length (cs : List Str) : ∀ {ws : List Nat}, Fits cs ws → cs.length = ws.length := by
  induction cs with
  | nil => intro ws h; cases ws with | nil => rfl | cons => exact h.elim
  | cons c cs ih => intro ws h; cases ws with | nil => exact h.elim | cons w ws => simp [ih h.2]

theorem widths_step (r : List Str) : ∀ (ws : List Nat), r.length = ws.length →
    Fits r (ws.zipWith (fun w c => if c.length > w then c.length else w) r) ∧
    ∀ r', Fits r' ws → Fits r' (ws.zipWith (fun w c => if c.length > w then c.length else w) r) := by
  induction r with
  | nil => intro ws h; cases ws with | nil => exact ⟨trivial, fun _ h => h⟩ | cons => simp at h
  | cons c r ih =>
    intro ws h
    cases ws with
    | nil => simp at h
    | cons w ws =>
      obtain ⟨h1, h2⟩ := ih ws (by simpa using h)
      refine ⟨⟨?_, h1⟩, ?_⟩
      · show _ ≤ if _ then _ else _
        split <;> omega
      · intro r' h'
        cases r' with
        | nil => exact h'.elim
        | cons c' r' =>
          refine ⟨?_, h2 r' h'.2⟩
          have := h'.1
          show _ ≤ if _ then _ else _
          split <;> omega

theorem widths_fold (rows : List (List Str)) : ∀ (ws : List Nat), (∀ r ∈ rows, r.length = ws.length) →
    let res := rows.foldl (fun ws r => ws.zipWith (fun w c => if c.length > w then c.length else w) r) ws
    res.length = ws.length ∧ (∀ r ∈ rows, Fits r res) ∧ ∀ r', Fits r' ws → Fits r' res := by
  induction rows with
  | nil => intro ws _; exact ⟨rfl, by simp, fun _ h => h⟩
  | cons r rows ih =>
    intro ws h
    obtain ⟨h1, h2⟩ := widths_step r ws (h r (by simp))
    have hlen := Fits.length _ h1
    rw [h r (by simp)] at hlen
    obtain ⟨h3, h4, h5⟩ := ih (ws.zipWith (fun w c => if c.length > w then c.length else w) r)
      (fun x hx => by rw [h x (by simp [hx]), hlen])
    refine ⟨by rw [List.foldl_cons, h3, ← hlen], ?_, fun r' h' => h5 r' (h2 r' h')⟩
    intro x hx
    rcases List.mem_cons.1 hx with rfl | hx
    · exact h5 x h1
    · exact h4 x hx

/-- The widths fit the header and every row. -/
theorem columnWidths_fits (header : List Str) (rows : List (List Str)) (h : ∀ r ∈ rows, r.length = header.length) :
    (columnWidths header rows).length = header.length ∧ ∀ r ∈ header :: rows, Fits r (columnWidths header rows) := by
  obtain ⟨h1, h2, _⟩ := widths_fold (header :: rows) (header.map fun _ => 0) (by
    intro r hr
    rcases List.mem_cons.1 hr with rfl | hr
    · simp
    · simp [h r hr])
  exact ⟨by simpa [columnWidths] using h1, h2⟩

theorem align_length (s : Str) (w : Nat) (h : s.length ≤ w) :
    (centerAlign s w).length = w ∧ (leftAlign s w).length = w ∧ (rightAlign s w).length = w := by
  simp only [centerAlign, leftAlign, rightAlign, mul, List.length_append, List.length_replicate]
  omega

theorem headerCell_length (c : Str) (w : Nat) (a : Align) (h : (strip c).length ≤ w) :
    (headerCell c w a).length = w + 2 := by
  obtain ⟨h1, h2, h3⟩ := align_length _ _ h
  cases a <;> simp only [headerCell, List.length_append, List.length_singleton, h1, h2, h3] <;> omega

theorem bodyCell_length (c : Str) (w : Nat) (a : Align) (h : (strip c).length ≤ w) :
    (bodyCell c w a).length = w + 2 := by
  obtain ⟨h1, h2, h3⟩ := align_length _ _ h
  cases a <;> simp only [bodyCell, List.length_append, List.length_singleton, h1, h2, h3] <;> omega

theorem dividerCell_length (w : Nat) (a : Align) : (dividerCell w a).length = w + 2 := by
  cases a <;> simp [dividerCell]

theorem zipCells_lengths (f : Str → Nat → Align → Str)
    (hf : ∀ c w a, (strip c).length ≤ w → (f c w a).length = w + 2) (cs : List Str) :
    ∀ (ws : List Nat) (as : List Align), Fits (cs.map strip) ws →
    (zipCells f cs ws as).map List.length = (ws.zip as).map fun p => p.1 + 2 := by
  induction cs with
  | nil => intro ws as h; cases ws with | nil => rfl | cons => exact h.elim
  | cons c cs ih =>
    intro ws as h
    cases ws with
    | nil => exact h.elim
    | cons w ws =>
      cases as with
      | nil => rfl
      | cons a as =>
        simp only [zipCells, List.map_cons, List.zip_cons_cons, ih ws as h.2, hf c w a h.1]

theorem pyJoin_length_eq (xs : List Str) : ∀ (ys : List Str), xs.map List.length = ys.map List.length →
    (pyJoin ['|'] xs).length = (pyJoin ['|'] ys).length := by
  induction xs with
  | nil => intro ys h; cases ys with | nil => rfl | cons => simp at h
  | cons x xs ih =>
    intro ys h
    cases ys with
    | nil => simp at h
    | cons y ys =>
      simp only [List.map_cons, List.cons.injEq] at h
      have := ih ys h.2
      cases xs with
      | nil =>
        cases ys with
        | nil => simp [pyJoin, h.1]
        | cons => simp at h
      | cons x2 xs2 =>
        cases ys with
        | nil => simp at h
        | cons y2 ys2 => simp only [pyJoin, List.length_append, List.length_singleton, h.1, this]

theorem tableRow_length_eq {xs ys : List Str} (h : xs.map List.length = ys.map List.length) :
    (tableRow xs).length = (tableRow ys).length := by
  simp only [tableRow, List.length_append, List.length_singleton, pyJoin_length_eq xs ys h]

theorem tableRow_bars (cells : List Str) : ∃ r, tableRow cells = '|' :: (r ++ ['|']) := ⟨_, rfl⟩

/-! ## The rows of a rewritten table -/

theorem checkRows_ok (lineIndex n : Nat) (rows : List (List Str)) : ∀ i, checkRows lineIndex n i rows = .ok () →
    ∀ r ∈ rows, r.length = n := by
  induction rows with
  | nil => intro i _ r hr; cases hr
  | cons r rows ih =>
    intro i h x hx
    simp only [checkRows] at h
    split at h
    · cases h
    · rename_i hn
      rcases List.mem_cons.1 hx with rfl | hx
      · simpa using hn
      · exact ih _ h x hx

theorem checkRows_of_all (lineIndex n : Nat) (rows : List (List Str)) (h : ∀ r ∈ rows, r.length = n) :
    ∀ i, checkRows lineIndex n i rows = .ok () := by
  induction rows with
  | nil => intro i; rfl
  | cons r rows ih =>
    intro i
    simp only [checkRows]
    rw [if_neg (by simpa using h r (by simp))]
    exact ih (fun x hx => h x (by simp [hx])) _

theorem tableRow_noLB {cells : List Str} (h : ∀ c ∈ cells, NoLB c) : NoLB (tableRow cells) := by
  have : NoLB (pyJoin ['|'] cells) := by
    induction cells with
    | nil => intro c hc; cases hc
    | cons x xs ih =>
      cases xs with
      | nil => exact h x (by simp)
      | cons y ys =>
        simp only [pyJoin]
        exact ((h x (by simp)).append (by intro c hc; simp at hc; rw [hc]; decide)).append
          (ih fun c hc => h c (by simp [List.mem_cons.1 hc]))
  unfold tableRow
  exact NoLB.append (NoLB.append (a := ['|']) (by intro c hc; simp at hc; rw [hc]; decide) this)
    (by intro c hc; simp at hc; rw [hc]; decide)

/-- The three kinds of rows, and the number of columns of the body's rows. -/
theorem fmtTable_rows {i : Nat} {header divider : Str} {body : List Str} {out : Str}
    (hnl : ∀ l ∈ header :: divider :: body, NoLB l) (h : fmtTable i (header :: divider :: body) = .ok out) :
    (∀ l ∈ body, (rowCols l).length = (rowCols header).length) ∧
    splitlines out =
      tableRow (zipCells headerCell (inner (columnRx.split header))
        (columnWidths (rowCols header) (body.map rowCols)) (tableAligns divider)) ::
      tableRow (((columnWidths (rowCols header) (body.map rowCols)).zip (tableAligns divider)).map
        fun p => dividerCell p.1 p.2) ::
      body.map fun line => tableRow (zipCells bodyCell (inner (splitChar '|' line))
        (columnWidths (rowCols header) (body.map rowCols)) (tableAligns divider)) := by
  simp only [fmtTable, bind, Except.bind] at h
  split at h
  · cases h
  · rename_i hc
    cases h
    refine ⟨fun l hl => checkRows_ok _ _ _ _ hc _ (List.mem_map.2 ⟨l, hl, rfl⟩), ?_⟩
    apply splitlines_join
    · intro l hl
      rcases List.mem_cons.1 hl with rfl | hl
      · apply tableRow_noLB
        apply zipCells_noLB headerCell_noLB
        intro c hc
        exact (hnl header (by simp)).of_mem fun x hx => splitAt'_mem _ _ _ c (inner_mem hc) x hx
      · rcases List.mem_cons.1 hl with rfl | hl
        · apply tableRow_noLB
          intro c hc
          obtain ⟨p, _, rfl⟩ := List.mem_map.1 hc
          exact dividerCell_noLB _ _
        · obtain ⟨b, hb, rfl⟩ := List.mem_map.1 hl
          apply tableRow_noLB
          apply zipCells_noLB bodyCell_noLB
          intro c hc
          exact (hnl b (by simp [hb])).of_mem fun x hx => (splitChar_mem _ _ c (inner_mem hc) x hx).1
    · intro h0
      have := List.mem_of_getLast? h0
      rcases List.mem_cons.1 this with h1 | h1
      · simp [tableRow] at h1
      · rcases List.mem_cons.1 h1 with h1 | h1
        · simp [tableRow] at h1
        · obtain ⟨b, _, h1⟩ := List.mem_map.1 h1
          simp [tableRow] at h1

/-- A bar that is escaped: directly after a backslash. -/
def HasEscapedBar (line : Str) : Prop := ∃ a b, line = a ++ '\\' :: '|' :: b

/-- C20: the rewritten table has as many lines as the source, each starts and ends with a bar, and if no line of the
body has an escaped bar, all of them have the same length. -/
theorem C20_rectangular (sub : Width → Str → Except Err Str) (w : Width) (i : Nat) (header divider : Str)
    (body : List Str) (out : Str) (hnl : ∀ l ∈ header :: divider :: body, NoLB l)
    (h : fmtSection sub w i .table (header :: divider :: body) = .ok out) :
    (splitlines out).length = body.length + 2 ∧
    (∀ l ∈ splitlines out, ∃ r, l = '|' :: (r ++ ['|'])) ∧
    ((∀ l ∈ body, ¬ HasEscapedBar l) → ∀ a ∈ splitlines out, ∀ b ∈ splitlines out, a.length = b.length) := by
  obtain ⟨h1, h2⟩ := fmtTable_rows hnl h
  rw [h2]
  refine ⟨by simp, ?_, ?_⟩
  · intro l hl
    rcases List.mem_cons.1 hl with rfl | hl
    · exact tableRow_bars _
    · rcases List.mem_cons.1 hl with rfl | hl
      · exact tableRow_bars _
      · obtain ⟨b, _, rfl⟩ := List.mem_map.1 hl
        exact tableRow_bars _
  · intro hesc
    obtain ⟨hlen, hfit⟩ := columnWidths_fits (rowCols header) (body.map rowCols) (by
      intro r hr
      obtain ⟨l, hl, rfl⟩ := List.mem_map.1 hr
      exact h1 l hl)
    generalize columnWidths (rowCols header) (body.map rowCols) = ws at hlen hfit
    have key : ∀ a ∈ tableRow (zipCells headerCell (inner (columnRx.split header)) ws (tableAligns divider)) ::
        tableRow ((ws.zip (tableAligns divider)).map fun p => dividerCell p.1 p.2) ::
        (body.map fun line => tableRow (zipCells bodyCell (inner (splitChar '|' line)) ws (tableAligns divider))),
        a.length = (tableRow ((ws.zip (tableAligns divider)).map fun p => dividerCell p.1 p.2)).length := by
      have hd : ((ws.zip (tableAligns divider)).map fun p => dividerCell p.1 p.2).map List.length =
          (ws.zip (tableAligns divider)).map fun p => p.1 + 2 := by
        rw [List.map_map]
        apply List.map_congr_left
        intro p _
        exact dividerCell_length _ _
      intro a ha
      rcases List.mem_cons.1 ha with rfl | ha
      · apply tableRow_length_eq
        rw [hd]
        exact zipCells_lengths _ headerCell_length _ _ _ (hfit _ List.mem_cons_self)
      · rcases List.mem_cons.1 ha with rfl | ha
        · rfl
        · obtain ⟨b, hb, rfl⟩ := List.mem_map.1 ha
          apply tableRow_length_eq
          rw [hd]
          apply zipCells_lengths _ bodyCell_length
          have e : splitChar '|' b = columnRx.split b := by
            rw [columnRx_split, splitBars_plain]
            · intro x y hxy; exact hesc b hb ⟨x, y, hxy⟩
            · intro h0; cases h0
          rw [e]
          exact hfit _ (List.mem_cons_of_mem _ (List.mem_map.2 ⟨b, hb, rfl⟩))
    intro a ha b hb
    rw [key a ha, key b hb]

/-- A table with all alignments, odd and even paddings (C20), and one where an escaped bar breaks the rectangle. -/
example : fmtSection (fun _ _ => .error .runtime) (.fin 5) 0 .table
      [c!"|a|bcd|e|f|", c!"|-|:-:|:-|-:|", c!"|long|x|yy|zzz|"] =
    .ok c!"|  a   | bcd | e  |   f |\n|------|:---:|:---|----:|\n| long |  x  | yy | zzz |" ∧
    fmtSection (fun _ _ => .error .runtime) (.fin 5) 0 .table [c!"| a |", c!"|---|", c!"| \\| |"] =
    .ok c!"| a  |\n|----|\n| \\  |" := by decide +kernel

/-! ## Cells -/

/-- A cell of the delimiter row. -/
def DelimCell (c : Str) : Prop := c ≠ [] ∧ ∀ x ∈ c, x = '-' ∨ x = ':'

/-- The alignment a delimiter cell asks for: a colon at the start, a colon at the end. -/
def colons (c : Str) : Bool × Bool := (c.head? == some ':', c.getLast? == some ':')

/-- `rows` are the lines of a table with cells `cells`. -/
def Rows : List Str → List (List Str) → Prop
  | [], [] => True
  | l :: ls, c :: cs => Row l c ∧ Rows ls cs
  | _, _ => False

/-- Full statement of C21. A well-formed table (every line a row with the header's number of cells, a proper delimiter
row) that is rewritten keeps all its cells and the alignment of each column. False of the code: `C21_refuted`. -/
def C21_statement : Prop := ∀ (sub : Width → Str → Except Err Str) (w : Width) (i : Nat) (header divider : Str)
  (body : List Str) (hc dc : List Str) (bc : List (List Str)) (out : Str),
  (∀ l ∈ header :: divider :: body, NoLB l) → Row header hc → Row divider dc → Rows body bc →
  dc.length = hc.length → (∀ c ∈ dc, DelimCell c) → (∀ r ∈ bc, r.length = hc.length) →
  fmtSection sub w i .table (header :: divider :: body) = .ok out →
  ∃ header' divider' body' dc', splitlines out = header' :: divider' :: body' ∧ Row header' hc ∧ Row divider' dc' ∧
    Rows body' bc ∧ dc'.map colons = dc.map colons

theorem pad_of_align (c : Str) (w : Nat) (al : Str → Nat → Str) (h : al = centerAlign ∨ al = leftAlign ∨ al = rightAlign) :
    ∃ a b, [' '] ++ al (strip c) w ++ [' '] = a ++ (strip c ++ b) ∧ (∀ x ∈ a, x = ' ') ∧ (∀ x ∈ b, x = ' ') ∧ b ≠ [] := by
  have hm : ∀ n, ∀ x ∈ mul ' ' n, x = ' ' := fun n x hx => List.eq_of_mem_replicate hx
  rcases h with rfl | rfl | rfl
  · refine ⟨' ' :: mul ' ' (((w : Int) - (strip c).length) / 2), mul ' ' (-((-((w : Int) - (strip c).length)) / 2)) ++ [' '],
      by simp [centerAlign], ?_, ?_, by simp⟩
    · intro x hx; rcases List.mem_cons.1 hx with h | h
      · exact h
      · exact hm _ x h
    · intro x hx; rcases List.mem_append.1 hx with h | h
      · exact hm _ x h
      · simpa using h
  · refine ⟨[' '], mul ' ' ((w : Int) - (strip c).length) ++ [' '], by simp [leftAlign], by simp, ?_, by simp⟩
    intro x hx; rcases List.mem_append.1 hx with h | h
    · exact hm _ x h
    · simpa using h
  · refine ⟨' ' :: mul ' ' ((w : Int) - (strip c).length), [' '], by simp [rightAlign], ?_, by simp, by simp⟩
    intro x hx; rcases List.mem_cons.1 hx with h | h
    · exact h
    · exact hm _ x h

/-- What is needed of a cell formatter: the cell is padded with spaces, at least one behind. -/
def PadsCell (f : Str → Nat → Align → Str) : Prop := ∀ c w al, ∃ a b, f c w al = a ++ (strip c ++ b) ∧
  (∀ x ∈ a, x = ' ') ∧ (∀ x ∈ b, x = ' ') ∧ b ≠ []

theorem headerCell_pads : PadsCell headerCell := by
  intro c w al
  cases al
  · exact pad_of_align c w _ (.inl rfl)
  · exact pad_of_align c w _ (.inl rfl)
  · exact pad_of_align c w _ (.inr (.inl rfl))
  · exact pad_of_align c w _ (.inr (.inr rfl))

theorem bodyCell_pads : PadsCell bodyCell := by
  intro c w al
  cases al
  · exact pad_of_align c w _ (.inr (.inl rfl))
  · exact pad_of_align c w _ (.inl rfl)
  · exact pad_of_align c w _ (.inr (.inl rfl))
  · exact pad_of_align c w _ (.inr (.inr rfl))

theorem zipCells_cells {f : Str → Nat → Align → Str} (hf : PadsCell f) (cs : List Str) :
    ∀ (ws : List Nat) (as : List Align), cs.length = ws.length → cs.length ≤ as.length →
    (∀ c ∈ cs, BarsOk (some '|') c) →
    (zipCells f cs ws as).map strip = cs.map strip ∧ ∀ c ∈ zipCells f cs ws as, CellOk (some '|') c := by
  induction cs with
  | nil => intro ws as _ _ _; cases ws <;> exact ⟨rfl, by simp [zipCells]⟩
  | cons c cs ih =>
    intro ws as hw ha hb
    cases ws with
    | nil => simp at hw
    | cons w ws =>
      cases as with
      | nil => simp at ha
      | cons a as =>
        obtain ⟨h1, h2⟩ := ih ws as (by simpa using hw) (by simpa using ha) (fun x hx => hb x (by simp [hx]))
        obtain ⟨x, y, hxy, hx, hy, hyne⟩ := hf c w a
        have hsp : ∀ {t : Str}, (∀ x ∈ t, x = ' ') → ∀ x ∈ t, isWs x = true := fun h x hx => by rw [h x hx]; decide
        simp only [zipCells, List.map_cons, h1]
        refine ⟨?_, ?_⟩
        · rw [hxy, strip_pad _ _ _ (hsp hx) (hsp hy), strip_idem]
        · intro d hd
          rcases List.mem_cons.1 hd with rfl | hd
          · rw [hxy]
            exact cellOk_pad (hb c (by simp)) x y hx hy hyne
          · exact h2 d hd

theorem Row.rewritten {f : Str → Nat → Align → Str} (hf : PadsCell f) {line : Str} {cells : List Str}
    (h : Row line cells) {ws : List Nat} {as : List Align} (hw : cells.length = ws.length) (ha : cells.length ≤ as.length) :
    Row (tableRow (zipCells f (inner (columnRx.split line)) ws as)) cells := by
  obtain ⟨pre, raw, post, rfl, hpre, hpost, hne, hc, rfl⟩ := h
  rw [rowCols_shape pre post raw hpre hc (fun hm => absurd (hpost _ hm) (by decide)) hne]
  simp only [List.length_map] at hw ha
  obtain ⟨h1, h2⟩ := zipCells_cells hf raw ws as hw ha (fun c hx => ((cellOk_iff _ _).1 (hc c hx)).1)
  have := Row.of_cells (cells := zipCells f raw ws as) (by
    intro h0
    rw [h0] at h1
    simp at h1
    exact hne h1) h2
  rwa [h1] at this

theorem dividerAlign_colons (c : Str) (hc : DelimCell c) (w : Nat) :
    colons (dividerCell w (dividerAlign c)) = colons c := by
  obtain ⟨hne, hx⟩ := hc
  have hs : strip c = c := by
    apply strip_eq_self_of
    · intro a r h; rcases hx a (by rw [h]; simp) with h | h <;> rw [h] <;> decide
    · intro r a h; rcases hx a (by rw [h]; simp) with h | h <;> rw [h] <;> decide
  have h1 : startsWith c c!":" = (c.head? == some ':') := by
    cases c with
    | nil => exact absurd rfl hne
    | cons a r => simp [startsWith, List.isPrefixOf, Bool.beq_comm]
  have h2 : endsWith c c!":" = (c.getLast? == some ':') := by
    rcases List.eq_nil_or_concat c with h0 | ⟨r, a, h0⟩
    · exact absurd h0 hne
    · rw [List.concat_eq_append] at h0
      rw [h0]
      simp [endsWith, List.isSuffixOf, List.isPrefixOf]; exact Bool.beq_comm
  have hlast : ∀ (x y : Char) (k : Nat), ([x] ++ List.replicate k '-' ++ [y]).getLast? = some y := by
    intro x y k; exact List.getLast?_concat
  have hhead : ∀ (x y : Char) (k : Nat), ([x] ++ List.replicate k '-' ++ [y]).head? = some x := by
    intro x y k; simp
  simp only [dividerAlign, hs, h1, h2, colons]
  cases e1 : (c.head? == some ':') <;> cases e2 : (c.getLast? == some ':') <;>
    simp only [Bool.and_self, Bool.and_true, Bool.and_false, if_true, Bool.false_eq_true, if_false, dividerCell, hlast, hhead] <;> decide

theorem Row.aligns {divider : Str} {dc : List Str} (h : Row divider dc) (hd : ∀ c ∈ dc, DelimCell c) :
    tableAligns divider = dc.map dividerAlign := by
  obtain ⟨pre, raw, post, rfl, hpre, hpost, hne, hc, rfl⟩ := h
  have hbar : ∀ r ∈ raw, '|' ∉ r := by
    intro r hr hm
    have h1 := hd (strip r) (List.mem_map.2 ⟨r, hr, rfl⟩)
    obtain ⟨a, b, hab, ha, hb⟩ := strip_parts r
    rw [hab] at hm
    rcases List.mem_append.1 hm with h2 | h2
    · exact absurd (ha _ h2) (by decide)
    · rcases List.mem_append.1 h2 with h2 | h2
      · rcases h1.2 _ h2 with h3 | h3 <;> revert h3 <;> decide
      · exact absurd (hb _ h2) (by decide)
  have hs : strip (pre ++ '|' :: (pyJoin ['|'] raw ++ '|' :: post)) = '|' :: (pyJoin ['|'] raw ++ ['|']) := by
    have e : pre ++ '|' :: (pyJoin ['|'] raw ++ '|' :: post) = pre ++ (('|' :: (pyJoin ['|'] raw ++ ['|'])) ++ post) := by simp
    rw [e, strip_pad _ _ _ hpre hpost]
    apply strip_eq_self_of
    · intro c r h; cases h; decide
    · intro r c h
      have := (List.append_inj' (s₁ := '|' :: pyJoin ['|'] raw) h rfl).2
      simp at this
      rw [← this]; decide
  have hi : inner ('|' :: (pyJoin ['|'] raw ++ ['|'])) = pyJoin ['|'] raw := by simp [inner]
  simp only [tableAligns]
  rw [hs, hi, splitChar_join _ _ hbar hne, List.map_map]
  apply List.map_congr_left
  intro r _
  simp only [Function.comp, dividerAlign, strip_idem]

theorem divider_row (dc : List Str) : ∀ (ws : List Nat), (∀ c ∈ dc, DelimCell c) → dc.length = ws.length →
    (((ws.zip (dc.map dividerAlign)).map fun p => dividerCell p.1 p.2).map strip).map colons = dc.map colons ∧
    ∀ c ∈ (ws.zip (dc.map dividerAlign)).map fun p => dividerCell p.1 p.2, CellOk (some '|') c := by
  induction dc with
  | nil => intro ws _ h; cases ws <;> simp at h ⊢
  | cons c dc ih =>
    intro ws hd h
    cases ws with
    | nil => simp at h
    | cons w ws =>
      obtain ⟨h1, h2⟩ := ih ws (fun x hx => hd x (by simp [hx])) (by simpa using h)
      have hchars : ∀ (al : Align), (∀ x ∈ dividerCell w al, x = '-' ∨ x = ':') := by
        intro al x hx
        cases al <;> simp [dividerCell] at hx <;> rcases hx with h | h | h <;> simp [h]
      have hs : strip (dividerCell w (dividerAlign c)) = dividerCell w (dividerAlign c) := by
        apply strip_eq_self_of
        · intro a r h; rcases hchars _ a (by rw [h]; simp) with h | h <;> rw [h] <;> decide
        · intro r a h; rcases hchars _ a (by rw [h]; simp) with h | h <;> rw [h] <;> decide
      simp only [List.map_cons, List.zip_cons_cons]
      refine ⟨by rw [h1, hs, dividerAlign_colons c (hd c (by simp))], ?_⟩
      intro x hx
      rcases List.mem_cons.1 hx with rfl | hx
      · rw [cellOk_iff]
        refine ⟨barsOk_noBar _ _ fun hm => ?_, ?_⟩
        · rcases hchars _ _ hm with h | h <;> revert h <;> decide
        · cases dividerAlign c <;> simp only [dividerCell, lastOf_concat] <;> decide
      · exact h2 x hx

/-- C21 for tables whose body has no escaped bar: such a table is always rewritten, and keeps all cells and
alignments. Missing: bodies with escaped bars, for which C21 is false. -/
theorem C21_cells_kept_partial (sub : Width → Str → Except Err Str) (w : Width) (i : Nat) (header divider : Str)
    (body : List Str) (hc dc : List Str) (bc : List (List Str))
    (hnl : ∀ l ∈ header :: divider :: body, NoLB l) (hh : Row header hc) (hd : Row divider dc) (hb : Rows body bc)
    (hdl : dc.length = hc.length) (hdc : ∀ c ∈ dc, DelimCell c) (hbl : ∀ r ∈ bc, r.length = hc.length)
    (hesc : ∀ l ∈ body, ¬ HasEscapedBar l) :
    ∃ out, fmtSection sub w i .table (header :: divider :: body) = .ok out ∧
      ∃ header' divider' body' dc', splitlines out = header' :: divider' :: body' ∧ Row header' hc ∧ Row divider' dc' ∧
        Rows body' bc ∧ dc'.map colons = dc.map colons := by
  have hcols : ∀ (body : List Str) (bc : List (List Str)), Rows body bc → (∀ r ∈ bc, r.length = hc.length) →
      ∀ l ∈ body, (rowCols l).length = hc.length := by
    intro body
    induction body with
    | nil => intro _ _ _ l hl; cases hl
    | cons b body ih =>
      intro bc hb hbl l hl
      cases bc with
      | nil => exact hb.elim
      | cons r bc =>
        rcases List.mem_cons.1 hl with rfl | hl
        · rw [hb.1.cols]; exact hbl r (by simp)
        · exact ih bc hb.2 (fun x hx => hbl x (by simp [hx])) l hl
  have hok : ∃ out, fmtSection sub w i .table (header :: divider :: body) = .ok out := by
    simp only [fmtSection, fmtTable, bind, Except.bind]
    rw [checkRows_of_all]
    · exact ⟨_, rfl⟩
    · intro r hr
      obtain ⟨l, hl, rfl⟩ := List.mem_map.1 hr
      rw [hcols body bc hb hbl l hl, hh.cols]
  obtain ⟨out, hout⟩ := hok
  refine ⟨out, hout, ?_⟩
  have h2 := (fmtTable_rows hnl hout).2
  obtain ⟨hlen, hfit⟩ := columnWidths_fits (rowCols header) (body.map rowCols) (by
    intro r hr
    obtain ⟨l, hl, rfl⟩ := List.mem_map.1 hr
    rw [hcols body bc hb hbl l hl, hh.cols])
  clear hfit
  generalize columnWidths (rowCols header) (body.map rowCols) = ws at hlen h2
  rw [hh.cols] at hlen
  have hal : tableAligns divider = dc.map dividerAlign := hd.aligns hdc
  obtain ⟨hd1, hd2⟩ := divider_row dc ws hdc (by rw [hdl, hlen])
  refine ⟨_, _, _, _, h2, hh.rewritten headerCell_pads hlen.symm (by rw [hal]; simp [hdl]), ?_, ?_, hd1⟩
  · rw [hal]
    apply Row.of_cells _ hd2
    intro h0
    rw [h0] at hd1
    simp at hd1
    rw [hd1] at hdl
    exact hh.ne_nil (List.length_eq_zero_iff.1 hdl.symm)
  · clear h2 hout hnl hcols
    induction body generalizing bc with
    | nil => cases bc with | nil => trivial | cons => exact hb.elim
    | cons b body ih =>
      cases bc with
      | nil => exact hb.elim
      | cons r bc =>
        refine ⟨?_, ih bc hb.2 (fun x hx => hbl x (by simp [hx])) (fun l hl => hesc l (by simp [hl]))⟩
        have e : splitChar '|' b = columnRx.split b := by
          rw [columnRx_split, splitBars_plain]
          · intro x y hxy; exact hesc b (by simp) ⟨x, y, hxy⟩
          · intro h0; cases h0
        have hr := hbl r (by simp)
        show Row (tableRow (zipCells bodyCell (inner (splitChar '|' b)) ws (tableAligns divider))) r
        rw [e]
        exact hb.1.rewritten bodyCell_pads (by rw [hr, hlen]) (by rw [hr, hal]; simp [hdl])

/-- An escaped bar in the body cuts the cell short, without an error. -/
theorem C21_refuted : ¬ C21_statement := by
  intro h
  have hok : ∀ s ∈ [c!" header ", c!"---", c!" x\\|y "], CellOk (some '|') s := by
    intro s hs
    simp only [List.mem_cons, List.not_mem_nil, or_false] at hs
    rcases hs with rfl | rfl | rfl
    · simp [CellOk]
    · simp [CellOk]
    · simp [CellOk]
  have hrow : ∀ s ∈ [c!" header ", c!"---", c!" x\\|y "], Row (tableRow [s]) [strip s] := fun s hs =>
    Row.of_cells (cells := [s]) (by simp) (by simpa using hok s hs)
  obtain ⟨h', d', b', dc', h1, h2, h3, h4, h5⟩ := h (fun _ _ => .error .runtime) (.fin 80) 0 c!"| header |" c!"|---|"
    [c!"| x\\|y |"] [c!"header"] [c!"---"] [[c!"x\\|y"]] c!"| header |\n|--------|\n| x\\     |"
    (by
      intro l hl
      simp only [List.mem_cons, List.not_mem_nil, or_false] at hl
      rcases hl with rfl | rfl | rfl <;> (unfold NoLB; decide))
    (hrow c!" header " (by simp)) (hrow c!"---" (by simp)) ⟨hrow c!" x\\|y " (by simp), trivial⟩ rfl
    (by
      intro c hc
      simp only [List.mem_cons, List.not_mem_nil, or_false] at hc
      subst hc
      exact ⟨by decide, by decide⟩)
    (by simp) (by decide +kernel)
  have e : splitlines c!"| header |\n|--------|\n| x\\     |" = [c!"| header |", c!"|--------|", c!"| x\\     |"] := by
    decide +kernel
  rw [e] at h1
  cases h1
  have := h4.1.cols
  revert this
  decide +kernel

/-- The same through the whole program: `y` is lost. -/
theorem C21_escaped_bar_loses_text :
    reformatMarkdownText 3 (.fin 80) c!"| header |\n|---|\n| x\\|y |\n" = .ok c!"| header |\n|--------|\n| x\\     |\n" := by
  decide +kernel

/-- Rows that do not end in a bar, which Markdown allows, lose their last cell. -/
theorem C21_no_trailing_bar_loses_cell :
    reformatMarkdownText 3 (.fin 80) c!"| a | b\n|---|---\n| c | d\n" = .ok c!"| a |\n|---|\n| c |\n" := by
  decide +kernel

/-- A delimiter row that is too short cuts off the columns it does not mention. -/
theorem C21_short_delimiter_loses_columns :
    reformatMarkdownText 3 (.fin 80) c!"|a|b|\n|-|\n|c|d|\n" = .ok c!"| a |\n|---|\n| c |\n" := by
  decide +kernel

/-- A table that meets the conditions of `C21_cells_kept_partial`. -/
example : Row c!"  | a |b\\|c|" [c!"a", c!"b\\|c"] ∧ Row c!"|:-|-:|" [c!":-", c!"-:"] ∧ Row c!"|x| yy |  " [c!"x", c!"yy"] ∧
    (∀ c ∈ [c!":-", c!"-:"], DelimCell c) ∧ ¬ HasEscapedBar c!"|x| yy |  " ∧
    reformatMarkdownText 3 (.fin 80) c!"  | a |b\\|c|\n|:-|-:|\n|x| yy |  \n" =
      .ok c!"| a | b\\|c |\n|:--|-----:|\n| x |   yy |\n" := by
  refine ⟨⟨c!"  ", [c!" a ", c!"b\\|c"], [], by decide, by decide, by decide, by decide, ?_, by decide⟩,
    ⟨[], [c!":-", c!"-:"], [], by decide, by decide, by decide, by decide, ?_, by decide⟩,
    ⟨[], [c!"x", c!" yy "], c!"  ", by decide, by decide, by decide, by decide, ?_, by decide⟩, ?_, ?_, by decide +kernel⟩
  · intro c hc
    simp only [List.mem_cons, List.not_mem_nil, or_false] at hc
    rcases hc with rfl | rfl <;> simp [CellOk]
  · intro c hc
    simp only [List.mem_cons, List.not_mem_nil, or_false] at hc
    rcases hc with rfl | rfl <;> simp [CellOk]
  · intro c hc
    simp only [List.mem_cons, List.not_mem_nil, or_false] at hc
    rcases hc with rfl | rfl <;> simp [CellOk]
  · intro c hc
    simp only [List.mem_cons, List.not_mem_nil, or_false] at hc
    rcases hc with rfl | rfl <;> exact ⟨by decide, by decide⟩
  · rintro ⟨a, b, h⟩
    have : '\\' ∈ c!"|x| yy |  " := by rw [h]; simp
    revert this; decide

/-! ## Ragged tables -/

/-- Number of bars not directly after a backslash; `p` is the character before. -/
def barCount : Option Char → Str → Nat
  | _, [] => 0
  | p, c :: cs => (if c = '|' ∧ p ≠ some '\\' then 1 else 0) + barCount (some c) cs

/-- Number of columns of a line: what lies between two successive bars. -/
def columns (line : Str) : Nat := barCount none line - 1

theorem splitBars_length (s : Str) : ∀ p, (splitBars p s).length = barCount p s + 1 := by
  induction s with
  | nil => intro p; rfl
  | cons c s ih =>
    intro p
    simp only [splitBars, barCount]
    split
    · simp only [List.length_cons, ih]; omega
    · have := ih (some c)
      cases h : splitBars (some c) s with
      | nil => exact absurd h (splitBars_ne_nil _ _)
      | cons x xs =>
        rw [h] at this
        simp only [consHead, List.length_cons] at this ⊢
        omega

theorem rowCols_length (line : Str) : (rowCols line).length = columns line := by
  simp only [rowCols, inner, List.length_map, List.length_dropLast, List.length_drop, columnRx_split,
    splitBars_length, columns]
  omega

theorem checkRows_first (li n : Nat) (good : List (List Str)) (bad : List Str) (more : List (List Str))
    (hg : ∀ r ∈ good, r.length = n) (hb : bad.length ≠ n) : ∀ i, checkRows li n i (good ++ bad :: more) =
    .error (.format (li + i + good.length + 1) n bad.length) := by
  induction good with
  | nil =>
    intro i
    simp only [List.nil_append, checkRows]
    rw [if_pos (by simpa using hb)]
    rfl
  | cons g good ih =>
    intro i
    simp only [List.cons_append, checkRows]
    rw [if_neg (by simpa using hg g (by simp)), ih (fun r hr => hg r (by simp [hr]))]
    congr 2
    simp only [List.length_cons]
    omega

theorem checkRows_error (li n : Nat) (rows : List (List Str)) : ∀ i e, checkRows li n i rows = .error e →
    ∃ good bad more, rows = good ++ bad :: more ∧ (∀ r ∈ good, r.length = n) ∧ bad.length ≠ n ∧
      e = .format (li + i + good.length + 1) n bad.length := by
  induction rows with
  | nil => intro i e h; cases h
  | cons r rows ih =>
    intro i e h
    simp only [checkRows] at h
    split at h
    · rename_i hn
      cases h
      exact ⟨[], r, rows, rfl, by simp, by simpa using hn, rfl⟩
    · rename_i hn
      obtain ⟨good, bad, more, rfl, h1, h2, h3⟩ := ih _ _ h
      refine ⟨r :: good, bad, more, rfl, ?_, h2, ?_⟩
      · intro x hx
        rcases List.mem_cons.1 hx with rfl | hx
        · simpa using hn
        · exact h1 x hx
      · rw [h3]
        congr 1
        simp only [List.length_cons]
        omega

/-- `bad` is the first line of `body` with another number of columns than `header`; `good` are the lines before. -/
def FirstRagged (header : Str) (body good : List Str) (bad : Str) : Prop :=
  (∃ more, body = good ++ bad :: more) ∧ (∀ l ∈ good, columns l = columns header) ∧ columns bad ≠ columns header

/-- The table formatter raises the exception exactly for ragged tables, with the counts of header and first ragged
row, and the line counted from 1 in a document in which `i` lines precede the table. -/
theorem C22_table (sub : Width → Str → Except Err Str) (w : Width) (i : Nat) (header divider : Str) (body : List Str)
    (e : Err) : fmtSection sub w i .table (header :: divider :: body) = .error e ↔
      ∃ good bad, FirstRagged header body good bad ∧
        e = .format (i + (good.length + 2) + 1) (columns header) (columns bad) := by
  have hiff : fmtSection sub w i .table (header :: divider :: body) = .error e ↔
      checkRows i (rowCols header).length 2 (body.map rowCols) = .error e := by
    simp only [fmtSection, fmtTable, bind, Except.bind]
    cases checkRows i (rowCols header).length 2 (body.map rowCols) with
    | error e' => exact ⟨fun h => (by cases h; rfl), fun h => (by cases h; rfl)⟩
    | ok u => exact ⟨fun h => (by cases h), fun h => (by cases h)⟩
  rw [hiff]
  constructor
  · intro h
    obtain ⟨g, b, m, h1, h2, h3, rfl⟩ := checkRows_error _ _ _ _ _ h
    obtain ⟨good, t, rfl, hg, ht⟩ := List.map_eq_append_iff.1 h1
    obtain ⟨bad, more, rfl, hb, hm⟩ := List.map_eq_cons_iff.1 ht
    refine ⟨good, bad, ⟨⟨more, rfl⟩, ?_, ?_⟩, ?_⟩
    · intro l hl
      rw [← rowCols_length, ← rowCols_length]
      exact h2 _ (by rw [← hg]; exact List.mem_map.2 ⟨l, hl, rfl⟩)
    · rw [← rowCols_length, ← rowCols_length, hb]; exact h3
    · rw [← rowCols_length, ← rowCols_length, hb, ← hg]
      simp only [List.length_map]
      congr 1
      omega
  · rintro ⟨good, bad, ⟨⟨more, rfl⟩, h1, h2⟩, rfl⟩
    rw [List.map_append, List.map_cons, checkRows_first]
    · simp only [rowCols_length, List.length_map]
      congr 2
      omega
    · intro r hr
      obtain ⟨l, hl, rfl⟩ := List.mem_map.1 hr
      rw [rowCols_length, rowCols_length]; exact h1 l hl
    · rw [rowCols_length, rowCols_length]; exact h2

theorem buildFmts_at (pre : List (Sec × List Str)) : ∀ (i : Nat) (last : Option Sec) (s : Sec × List Str)
    (post : List (Sec × List Str)) (fs : List Fmt), buildFmts i last (pre ++ s :: post) = .ok fs →
    ∃ fpre fpost, fs = fpre ++ ⟨i + (pre.map (·.2)).flatten.length, s.1, s.2⟩ :: fpost ∧
      ∀ f ∈ fpre, (f.ty, f.lines) ∈ pre ∨ (f.ty = .blank ∧ f.lines = [[]]) := by
  induction pre with
  | nil =>
    intro i last s post fs h
    obtain ⟨ty, content⟩ := s
    simp only [List.nil_append, buildFmts, bind, Except.bind] at h
    split at h
    · cases h
    · split at h
      · cases h
      · rename_i fs1 h1
        split at h
        · cases h
          exact ⟨[⟨i, .blank, [[]]⟩], fs1, rfl, by simp⟩
        · cases h
          exact ⟨[], fs1, rfl, by simp⟩
  | cons p pre ih =>
    intro i last s post fs h
    obtain ⟨ty, content⟩ := p
    simp only [List.cons_append, buildFmts, bind, Except.bind] at h
    split at h
    · cases h
    · split at h
      · cases h
      · rename_i fs1 h1
        obtain ⟨fpre, fpost, rfl, h2⟩ := ih _ _ _ _ _ h1
        have e : i + (List.map (·.2) ((ty, content) :: pre)).flatten.length =
            i + content.length + (pre.map (·.2)).flatten.length := by simp; omega
        rw [e]
        split at h
        · cases h
          refine ⟨⟨i, .blank, [[]]⟩ :: ⟨i, ty, content⟩ :: fpre, fpost, rfl, ?_⟩
          intro f hf
          simp only [List.mem_cons] at hf
          rcases hf with rfl | rfl | hf
          · exact .inr ⟨rfl, rfl⟩
          · exact .inl (by simp)
          · rcases h2 f hf with h3 | h3
            · exact .inl (by simp [h3])
            · exact .inr h3
        · cases h
          refine ⟨⟨i, ty, content⟩ :: fpre, fpost, rfl, ?_⟩
          intro f hf
          rcases List.mem_cons.1 hf with rfl | hf
          · exact .inl (by simp)
          · rcases h2 f hf with h3 | h3
            · exact .inl (by simp [h3])
            · exact .inr h3

theorem fmtAll_error {sub : Width → Str → Except Err Str} {w : Width} (pre : List Fmt) (f : Fmt) (post : List Fmt) (e : Err)
    (hpre : ∀ g ∈ pre, ∃ t, fmtSection sub w g.lineIndex g.ty g.lines = .ok t)
    (hf : fmtSection sub w f.lineIndex f.ty f.lines = .error e) :
    fmtAll sub w (pre ++ f :: post) = .error (genError e) := by
  induction pre with
  | nil =>
    simp only [List.nil_append, fmtAll, hf, bind, Except.bind, Except.mapError]
  | cons g pre ih =>
    obtain ⟨t, ht⟩ := hpre g (by simp)
    simp only [List.cons_append, fmtAll, ht, bind, Except.bind, Except.mapError]
    rw [ih fun x hx => hpre x (by simp [hx])]

/-- C22: if a table of a document is ragged and nothing before it fails, the exception names the first ragged row by
its line number in the document (from 1), with the header's and the row's number of columns. -/
theorem C22_ragged_table_rejected (n : Nat) (w : Width) (text : Str) (pre post : List (Sec × List Str))
    (header divider : Str) (body good : List Str) (bad : Str)
    (hparse : parse n (splitlines text) = .ok (pre ++ (.table, header :: divider :: body) :: post))
    (hrag : FirstRagged header body good bad)
    (hpre : ∀ s ∈ pre, ∀ i, ∃ t, fmtSection (reformatText n) w i s.1 s.2 = .ok t)
    (hrepr : ∀ s ∈ pre ++ (.table, header :: divider :: body) :: post, reprCheck s.1 s.2 = .ok ()) :
    ∃ line, (splitlines text)[line - 1]? = some bad ∧ 0 < line ∧
      line = (pre.map (·.2)).flatten.length + (good.length + 2) + 1 ∧
      reformatText (n + 1) w text = .error (.format line (columns header) (columns bad)) ∧
      reformatMarkdownText (n + 1) w text = .error (.format line (columns header) (columns bad)) := by
  have hb : ∀ (secs : List (Sec × List Str)) i last, (∀ s ∈ secs, reprCheck s.1 s.2 = .ok ()) →
      ∃ fs, buildFmts i last secs = .ok fs := by
    intro secs
    induction secs with
    | nil => intro i last _; exact ⟨[], rfl⟩
    | cons s secs ih =>
      intro i last h
      obtain ⟨ty, content⟩ := s
      obtain ⟨fs, hfs⟩ := ih (i + content.length) (some ty) (fun s hs => h s (by simp [hs]))
      simp only [buildFmts, bind, Except.bind, h (ty, content) (by simp), hfs]
      split
      · exact ⟨_, rfl⟩
      · exact ⟨_, rfl⟩
  obtain ⟨fs, hfs⟩ := hb _ 0 none hrepr
  obtain ⟨fpre, fpost, rfl, hfpre⟩ := buildFmts_at pre _ _ _ _ _ hfs
  have herr : reformatText (n + 1) w text = .error (.format ((pre.map (·.2)).flatten.length + (good.length + 2) + 1)
      (columns header) (columns bad)) := by
    simp only [reformatText, reformatBody, bind, Except.bind, hparse, hfs]
    rw [fmtAll_error _ _ _ (.format ((pre.map (·.2)).flatten.length + (good.length + 2) + 1)
      (columns header) (columns bad))]
    · rfl
    · intro g hg
      rcases hfpre g hg with h1 | ⟨h1, h2⟩
      · exact hpre _ h1 _
      · rw [h1, h2]; exact ⟨[], rfl⟩
    · rw [C22_table]
      exact ⟨good, bad, hrag, by simp⟩
  refine ⟨_, ?_, by omega, rfl, herr, by simp only [reformatMarkdownText, bind, Except.bind, herr]⟩
  rw [← (C08_parse_partition n _ _ hparse).1]
  obtain ⟨⟨more, rfl⟩, _⟩ := hrag
  have e : ((pre ++ (Sec.table, header :: divider :: (good ++ bad :: more)) :: post).map (·.2)).flatten =
      ((pre.map (·.2)).flatten ++ (header :: divider :: good)) ++ bad :: (more ++ (post.map (·.2)).flatten) := by
    simp
  rw [e, List.getElem?_append_right (by simp)]
  have : (pre.map (·.2)).flatten.length + (good.length + 2) + 1 - 1 -
      ((pre.map (·.2)).flatten ++ (header :: divider :: good)).length = 0 := by simp
  rw [this]
  rfl

/-- Errors of the formatters that do not format nested text: only tables raise the exception. -/
theorem fmtSection_format {sub : Width → Str → Except Err Str} {w : Width} {i : Nat} {ty : Sec} {lines : List Str}
    {a b c : Nat} (h : fmtSection sub w i ty lines = .error (.format a b c)) (h1 : ty ≠ .quote) (h2 : ty ≠ .bullet)
    (h3 : ty ≠ .ordered) : ty = .table := by
  have hwrap : ∀ {t : Str} {e : Err}, wrap t w = .error e → e = .indexError := fun h => (C27_wrap_partial h).1
  cases ty with
  | table => rfl
  | quote => exact absurd rfl h1
  | bullet => exact absurd rfl h2
  | ordered => exact absurd rfl h3
  | atx => cases lines <;> cases h
  | blank => cases h
  | indented => cases h
  | fenced =>
    cases lines with
    | nil => cases h
    | cons l ls =>
      simp only [fmtSection, fmtFenced] at h
      split at h <;> cases h
  | thematic =>
    cases lines with
    | nil => cases h
    | cons l ls =>
      simp only [fmtSection, fmtThematic] at h
      split at h
      · cases h
      · split at h <;> cases h
  | par =>
    simp only [fmtSection, fmtPar, bind, Except.bind] at h
    split at h
    · rename_i e he
      cases h
      cases hwrap he
    · split at h <;> cases h
  | setext =>
    simp only [fmtSection, fmtSetext, bind, Except.bind] at h
    split at h
    · cases h
    · split at h
      · rename_i e he
        cases h
        cases hwrap he
      · split at h
        · rename_i e he
          cases h
          unfold maxLen at he
          split at he <;> cases he
        · split at h <;> cases h
  | lrd =>
    simp only [fmtSection, fmtLrd, bind, Except.bind] at h
    split at h
    · rename_i e he
      cases h
      simp only [lrdParts] at he
      split at he <;> cases he
    · rename_i p hp
      obtain ⟨name, link, title⟩ := p
      simp only at h
      repeat' (split at h)
      all_goals first
        | (cases h; done)
        | (rename_i he; cases h; cases hwrap he; done)

/-- C22, the other direction, for a document without lists and block quotes: if formatting fails with the exception,
a table is ragged and the exception names its first ragged row. -/
theorem C22_only_ragged (n : Nat) (w : Width) (text : Str) (secs : List (Sec × List Str)) (line expected actual : Nat)
    (hparse : parse n (splitlines text) = .ok secs)
    (hnest : ∀ s ∈ secs, s.1 ≠ .quote ∧ s.1 ≠ .bullet ∧ s.1 ≠ .ordered)
    (h : reformatText (n + 1) w text = .error (.format line expected actual)) :
    ∃ pre header divider body post good bad, secs = pre ++ (Sec.table, header :: divider :: body) :: post ∧
      FirstRagged header body good bad ∧ line = (pre.map (·.2)).flatten.length + (good.length + 2) + 1 ∧
      expected = columns header ∧ actual = columns bad := by
  simp only [reformatText, reformatBody, bind, Except.bind, hparse] at h
  split at h
  · rename_i e he
    exfalso
    cases h
    have : ∀ (secs : List (Sec × List Str)) i last, buildFmts i last secs ≠ .error (.format line expected actual) := by
      intro secs
      induction secs with
      | nil => intro i last h; cases h
      | cons s secs ih =>
        intro i last h
        obtain ⟨ty, content⟩ := s
        simp only [buildFmts, bind, Except.bind] at h
        split at h
        · rename_i e1 h1
          cases h
          have hfn : ∀ l e, firstNumber l = .error e → e = .valueError := by
            intro l e h
            simp only [firstNumber] at h
            split at h <;> cases h
            rfl
          cases ty <;> cases content <;> simp only [reprCheck, bind, Except.bind] at h1 <;>
            repeat' (split at h1)
          all_goals first
            | (cases h1; done)
            | (rename_i he; cases h1; simp only [lrdParts] at he; split at he <;> cases he; done)
            | (rename_i he; cases h1; cases hfn _ _ he; done)
        · split at h
          · rename_i e1 h1
            cases h
            exact ih _ _ h1
          · split at h <;> cases h
    exact this _ _ _ he
  · rename_i fs hfs
    split at h
    · rename_i e he
      cases h
      have hfirst : ∀ (fs : List Fmt), fmtAll (reformatText n) w fs = .error (.format line expected actual) →
          ∃ f ∈ fs, fmtSection (reformatText n) w f.lineIndex f.ty f.lines = .error (.format line expected actual) := by
        intro fs
        induction fs with
        | nil => intro h; cases h
        | cons f fs ih =>
          intro h
          simp only [fmtAll, bind, Except.bind] at h
          split at h
          · rename_i e1 h1
            cases h
            refine ⟨f, by simp, ?_⟩
            cases hs : fmtSection (reformatText n) w f.lineIndex f.ty f.lines with
            | ok t => rw [hs] at h1; cases h1
            | error e2 =>
              rw [hs] at h1
              simp only [Except.mapError, Except.error.injEq] at h1
              cases e2 <;> simp only [genError] at h1 <;> first | (cases h1; done) | (rw [← h1])
          · split at h
            · rename_i e1 h1
              cases h
              obtain ⟨f', hf', h2⟩ := ih h1
              exact ⟨f', by simp [hf'], h2⟩
            · cases h
      obtain ⟨f, hf, herr⟩ := hfirst fs he
      have hidx : ∀ (secs : List (Sec × List Str)) i last fs, buildFmts i last secs = .ok fs → ∀ f ∈ fs, f.ty = .table →
          ∃ pre post, secs = pre ++ (f.ty, f.lines) :: post ∧ f.lineIndex = i + (pre.map (·.2)).flatten.length := by
        intro secs
        induction secs with
        | nil => intro i last fs h f hf; cases h; cases hf
        | cons s secs ih =>
          obtain ⟨ty, content⟩ := s
          intro i last fs h f hf hty
          simp only [buildFmts, bind, Except.bind] at h
          split at h
          · cases h
          · split at h
            · cases h
            · rename_i fs1 h1
              have htail : f ∈ fs1 → ∃ pre post, (ty, content) :: secs = pre ++ (f.ty, f.lines) :: post ∧
                  f.lineIndex = i + (pre.map (·.2)).flatten.length := by
                intro hf
                obtain ⟨pre, post, h2, h3⟩ := ih _ _ _ h1 f hf hty
                exact ⟨(ty, content) :: pre, post, by rw [h2]; rfl, by rw [h3]; simp; omega⟩
              split at h
              · cases h
                simp only [List.mem_cons] at hf
                rcases hf with rfl | rfl | hf
                · cases hty
                · exact ⟨[], secs, rfl, rfl⟩
                · exact htail hf
              · cases h
                rcases List.mem_cons.1 hf with rfl | hf
                · exact ⟨[], secs, rfl, rfl⟩
                · exact htail hf
      have hty : f.ty = .table := by
        rcases buildFmts_fmt _ _ _ _ hfs f hf with h1 | ⟨h1, _⟩
        · obtain ⟨g1, g2, g3⟩ := hnest _ h1
          exact fmtSection_format herr g1 g2 g3
        · exact fmtSection_format herr (by rw [h1]; decide) (by rw [h1]; decide) (by rw [h1]; decide)
      obtain ⟨pre, post, hsecs, hi⟩ := hidx _ _ _ _ hfs f hf hty
      rw [hty] at herr hsecs
      match hl : f.lines with
      | [] => rw [hl] at herr; cases herr
      | [_] => rw [hl] at herr; cases herr
      | header :: divider :: body =>
        rw [hl] at herr hsecs
        obtain ⟨good, bad, h1, h2⟩ := (C22_table _ _ _ _ _ _ _).1 herr
        simp only [Err.format.injEq] at h2
        exact ⟨pre, header, divider, body, post, good, bad, hsecs, h1, by rw [h2.1, hi]; omega, h2.2.1, h2.2.2⟩
    · cases h

/-- A ragged table further down in a document. -/
example : parse 2 (splitlines c!"# x\n\n|a|b|\n|-|-|\n|c|d|\n|e|\n") =
      .ok [(.atx, [c!"# x"]), (.blank, [[]]), (.table, [c!"|a|b|", c!"|-|-|", c!"|c|d|", c!"|e|"])] ∧
    FirstRagged c!"|a|b|" [c!"|c|d|", c!"|e|"] [c!"|c|d|"] c!"|e|" ∧
    reformatMarkdownText 3 (.fin 80) c!"# x\n\n|a|b|\n|-|-|\n|c|d|\n|e|\n" = .error (.format 6 2 1) := by
  refine ⟨by decide +kernel, ⟨⟨[], by decide⟩, by decide +kernel, by decide +kernel⟩, by decide +kernel⟩

/-- In a list or block quote the line number is counted from the start of the nested text: here line 3, although the
ragged row is line 5 of the document. -/
theorem C22_nested_line_number_wrong :
    reformatMarkdownText 4 (.fin 80) c!"# x\n\n> |a|\n> |-|\n> |b|c|\n" = .error (.format 3 1 2) := by decide +kernel

end MF
