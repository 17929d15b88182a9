import Verif.Props.Tables
import Verif.Props.Lists
import Verif.Props.Extents
/-!
# Exactly which cells of a table are kept (C93)
-/

namespace MF

/-- `line` is whitespace, a bar, cells with a bar behind each, and a rest. Bars directly behind a backslash belong to
the text, as Markdown reads them. -/
def EscCells (line : Str) (cells : List Str) : Prop := ∃ ws rest, (∀ c ∈ ws, isWs c = true) ∧
  line = ws ++ '|' :: pyJoin ['|'] (cells ++ [rest]) ∧ (∀ c ∈ cells, CellOk (some '|') c) ∧ BarsOk (some '|') rest

/-- The same with every bar read as a bar. -/
def PlainCells (line : Str) (cells : List Str) : Prop := ∃ ws rest, (∀ c ∈ ws, isWs c = true) ∧
  line = ws ++ '|' :: pyJoin ['|'] (cells ++ [rest]) ∧ ∀ c ∈ cells ++ [rest], '|' ∉ c

/-- What stands between the bars of the delimiter row: the line without the whitespace around it and without its first
and last character, whatever these are, cut at every bar. -/
def DelimCells (line : Str) (cells : List Str) : Prop :=
  cells ≠ [] ∧ (∀ c ∈ cells, '|' ∉ c) ∧ ((strip line).drop 1).dropLast = pyJoin ['|'] cells

/-- A row as it is written: a bar, cells separated by bars, a bar. `cells` are the trimmed cells; both ways of reading
bars see the same ones. -/
def RowText (line : Str) (cells : List Str) : Prop := ∃ raw, line = '|' :: (pyJoin ['|'] raw ++ ['|']) ∧
  raw.map strip = cells ∧ ∀ c ∈ raw, CellOk (some '|') c

/-! ## Reading rows -/

theorem splitBars_barsOk (u : Str) : ∀ p, BarsOk p u → splitBars p u = [u] := by
  induction u with
  | nil => intro p _; rfl
  | cons c u ih =>
    intro p h
    have hn : ¬ (c = '|' ∧ p ≠ some '\\') := fun ⟨h1, h2⟩ => h2 (h.1 h1)
    simp only [splitBars, if_neg hn, ih _ h.2, consHead]

theorem splitBars_join (cells : List Str) (rest : Str) (hc : ∀ c ∈ cells, CellOk (some '|') c)
    (hr : BarsOk (some '|') rest) : splitBars (some '|') (pyJoin ['|'] (cells ++ [rest])) = cells ++ [rest] := by
  induction cells with
  | nil => exact splitBars_barsOk _ _ hr
  | cons c cells ih =>
    have := ih fun x hx => hc x (by simp [hx])
    obtain ⟨d, ds, hd⟩ : ∃ d ds, cells ++ [rest] = d :: ds := by cases cells <;> exact ⟨_, _, rfl⟩
    simp only [List.cons_append, hd, pyJoin, List.append_assoc, List.nil_append] at this ⊢
    rw [splitBars_cell _ _ _ (hc c (by simp)), this]

theorem cellOk_ws (ws : Str) : ∀ p, p ≠ some '\\' → (∀ c ∈ ws, isWs c = true) → CellOk p ws := by
  intro p hp h
  rw [cellOk_iff]
  exact ⟨barsOk_noBar _ _ fun hm => absurd (h _ hm) (by decide), lastOf_ws ws p hp h⟩

theorem inner_cons_concat {α : Type} (a : α) (l : List α) (b : α) : inner (a :: (l ++ [b])) = l := by simp [inner]

theorem EscCells.split {line : Str} {cells : List Str} (h : EscCells line cells) :
    inner (columnRx.split line) = cells := by
  obtain ⟨ws, rest, hws, rfl, hc, hr⟩ := h
  rw [columnRx_split, splitBars_cell _ _ _ (cellOk_ws ws none (by simp) hws), splitBars_join _ _ hc hr,
    inner_cons_concat]

theorem EscCells.cols {line : Str} {cells : List Str} (h : EscCells line cells) : rowCols line = cells.map strip := by
  rw [rowCols, h.split]

theorem PlainCells.split {line : Str} {cells : List Str} (h : PlainCells line cells) :
    inner (splitChar '|' line) = cells := by
  obtain ⟨ws, rest, hws, rfl, hc⟩ := h
  rw [splitChar_line '|' ws _ (fun hm => absurd (hws _ hm) (by decide)), splitChar_join _ _ hc (by simp),
    inner_cons_concat]

theorem DelimCells.aligns {line : Str} {cells : List Str} (h : DelimCells line cells) :
    tableAligns line = cells.map dividerAlign := by
  obtain ⟨hne, hc, he⟩ := h
  rw [tableAligns, show inner (strip line) = ((strip line).drop 1).dropLast from rfl, he, splitChar_join _ _ hc hne]

/-! ### Every line of a table section can be read -/

theorem consHead_join (c : Char) (x : List Str) (hx : x ≠ []) : pyJoin ['|'] (consHead c x) = c :: pyJoin ['|'] x := by
  cases x with
  | nil => exact absurd rfl hx
  | cons y ys => cases ys <;> rfl

theorem splitBars_read (s : Str) : ∀ p, ∃ cells rest, splitBars p s = cells ++ [rest] ∧ pyJoin ['|'] (cells ++ [rest]) = s ∧
    (cells = [] → BarsOk p rest) ∧ (∀ c cs, cells = c :: cs → CellOk p c ∧ (∀ d ∈ cs, CellOk (some '|') d) ∧ BarsOk (some '|') rest) := by
  induction s with
  | nil => intro p; exact ⟨[], [], rfl, rfl, fun _ => trivial, fun c cs h => by cases h⟩
  | cons a s ih =>
    intro p
    obtain ⟨cells, rest, h1, h2, h3, h4⟩ := ih (some a)
    by_cases hb : a = '|' ∧ p ≠ some '\\'
    · obtain ⟨rfl, hp⟩ := hb
      refine ⟨[] :: cells, rest, ?_, ?_, fun h => (by cases h), ?_⟩
      · rw [splitBars, if_pos ⟨rfl, hp⟩, h1]; rfl
      · obtain ⟨d, ds, hd⟩ : ∃ d ds, cells ++ [rest] = d :: ds := by cases cells <;> exact ⟨_, _, rfl⟩
        rw [hd] at h2
        simp only [List.cons_append, hd, pyJoin, List.nil_append, h2]
      · intro c cs h
        cases h
        refine ⟨hp, ?_⟩
        cases cells with
        | nil => exact ⟨by simp, h3 rfl⟩
        | cons d ds =>
          obtain ⟨h5, h6, h7⟩ := h4 d ds rfl
          exact ⟨List.forall_mem_cons.2 ⟨h5, h6⟩, h7⟩
    · have hsp : splitBars p (a :: s) = consHead a (cells ++ [rest]) := by rw [splitBars, if_neg hb, h1]
      have hesc : a = '|' → p = some '\\' := fun ha => Classical.byContradiction fun hp => hb ⟨ha, hp⟩
      cases cells with
      | nil =>
        refine ⟨[], a :: rest, hsp, ?_, fun _ => ⟨hesc, h3 rfl⟩, fun c cs h => by cases h⟩
        show a :: rest = a :: s
        rw [← h2]; rfl
      | cons d ds =>
        refine ⟨(a :: d) :: ds, rest, hsp, ?_, fun h => (by cases h), ?_⟩
        · have := consHead_join a (d :: ds ++ [rest]) (by simp)
          rw [h2] at this
          exact this
        · intro c cs h
          cases h
          obtain ⟨h5, h6, h7⟩ := h4 d ds rfl
          exact ⟨⟨hesc, h5⟩, h6, h7⟩

theorem delim_exists (line : Str) : ∃ cells, DelimCells line cells :=
  ⟨splitChar '|' (inner (strip line)), splitChar_ne_nil _ _, fun c hc hm => (splitChar_mem _ _ c hc _ hm).2 rfl,
    (pyJoin_splitChar _ _).symm⟩

/-- A line that starts with a bar behind whitespace can be read both ways. -/
theorem cells_exist {ws s : Str} (hws : ∀ c ∈ ws, isWs c = true) :
    (∃ cells, EscCells (ws ++ '|' :: s) cells) ∧ ∃ cells, PlainCells (ws ++ '|' :: s) cells := by
  constructor
  · obtain ⟨cells, rest, _, h2, h3, h4⟩ := splitBars_read s (some '|')
    refine ⟨cells, ws, rest, hws, by rw [h2], ?_⟩
    cases cells with
    | nil => exact ⟨by simp, h3 rfl⟩
    | cons c cs =>
      obtain ⟨h5, h6, h7⟩ := h4 c cs rfl
      exact ⟨List.forall_mem_cons.2 ⟨h5, h6⟩, h7⟩
  · obtain ⟨cells, rest, h⟩ : ∃ cells rest, splitChar '|' s = cells ++ [rest] := by
      rcases List.eq_nil_or_concat (splitChar '|' s) with h0 | ⟨r, a, h0⟩
      · exact absurd h0 (splitChar_ne_nil _ _)
      · exact ⟨r, a, by rw [h0, List.concat_eq_append]⟩
    refine ⟨cells, ws, rest, hws, by rw [← h, pyJoin_splitChar], ?_⟩
    rw [← h]
    intro c hc hm
    exact (splitChar_mem _ _ c hc _ hm).2 rfl

/-! ## What is written -/

theorem zipCells_take {f : Str → Nat → Align → Str} (hf : PadsCell f) (cs : List Str) :
    ∀ (ws : List Nat) (as : List Align), (∀ c ∈ cs, BarsOk (some '|') c) →
    (zipCells f cs ws as).map strip = (cs.map strip).take (min ws.length as.length) ∧
    ∀ c ∈ zipCells f cs ws as, CellOk (some '|') c := by
  induction cs with
  | nil => intro ws as _; simp [zipCells]
  | cons c cs ih =>
    intro ws as hb
    cases ws with
    | nil => simp [zipCells]
    | cons w ws =>
      cases as with
      | nil => simp [zipCells]
      | cons a as =>
        obtain ⟨h1, h2⟩ := ih ws as (fun x hx => hb x (by simp [hx]))
        obtain ⟨x, y, hxy, hx, hy, hyne⟩ := hf c w a
        have hsp : ∀ {t : Str}, (∀ x ∈ t, x = ' ') → ∀ x ∈ t, isWs x = true := fun h x hx => by rw [h x hx]; decide
        simp only [zipCells, List.map_cons, h1, List.length_cons, Nat.succ_min_succ, List.take_succ_cons]
        refine ⟨?_, ?_⟩
        · rw [hxy, strip_pad _ _ _ (hsp hx) (hsp hy), strip_idem]
        · intro d hd
          rcases List.mem_cons.1 hd with rfl | hd
          · rw [hxy]
            exact cellOk_pad (hb c (by simp)) x y hx hy hyne
          · exact h2 d hd

theorem tableRow_written {cells : List Str} (h : ∀ c ∈ cells, CellOk (some '|') c) :
    RowText (tableRow cells) (cells.map strip) := ⟨cells, by simp [tableRow], rfl, h⟩

/-- The colons of a delimiter cell are written again. -/
theorem dividerCell_colons (c : Str) (w : Nat) : colons (dividerCell w (dividerAlign c)) = colons (strip c) := by
  have h1 : startsWith (strip c) c!":" = ((strip c).head? == some ':') := by
    cases strip c with
    | nil => rfl
    | cons a r => simp [startsWith, List.isPrefixOf, Bool.beq_comm]
  have h2 : endsWith (strip c) c!":" = ((strip c).getLast? == some ':') := by
    rcases List.eq_nil_or_concat (strip c) with h0 | ⟨r, a, h0⟩
    · rw [h0]; rfl
    · rw [List.concat_eq_append] at h0
      rw [h0]
      simp [endsWith, List.isSuffixOf, List.isPrefixOf]; exact Bool.beq_comm
  have hlast : ∀ (x y : Char) (k : Nat), ([x] ++ List.replicate k '-' ++ [y]).getLast? = some y := by
    intro x y k; exact List.getLast?_concat
  have hhead : ∀ (x y : Char) (k : Nat), ([x] ++ List.replicate k '-' ++ [y]).head? = some x := by
    intro x y k; simp
  simp only [dividerAlign, h1, h2, colons]
  cases e1 : ((strip c).head? == some ':') <;> cases e2 : ((strip c).getLast? == some ':') <;>
    simp only [Bool.and_self, Bool.and_true, Bool.and_false, if_true, Bool.false_eq_true, if_false, dividerCell, hlast, hhead] <;> decide

/-- The delimiter row. -/
theorem divider_written (dc : List Str) (ws : List Nat) :
    ∃ dc', RowText (tableRow ((ws.zip (dc.map dividerAlign)).map fun p => dividerCell p.1 p.2)) dc' ∧
      dc'.map colons = (dc.take ws.length).map (fun c => colons (strip c)) ∧ ∀ c ∈ dc', DelimCell c := by
  have hchars : ∀ w (al : Align), DelimCell (dividerCell w al) := by
    intro w al
    constructor
    · cases al <;> simp [dividerCell]
    · intro x hx
      cases al <;> simp [dividerCell] at hx <;> rcases hx with h | h | h <;> simp [h]
  have hs : ∀ w al, strip (dividerCell w al) = dividerCell w al := by
    intro w al
    apply strip_eq_self_of
    · intro a r h; rcases (hchars w al).2 a (by rw [h]; simp) with h | h <;> rw [h] <;> decide
    · intro r a h; rcases (hchars w al).2 a (by rw [h]; simp) with h | h <;> rw [h] <;> decide
  refine ⟨_, tableRow_written ?_, ?_, ?_⟩
  · intro c hc
    obtain ⟨p, _, rfl⟩ := List.mem_map.1 hc
    rw [cellOk_iff]
    refine ⟨barsOk_noBar _ _ fun hm => ?_, ?_⟩
    · rcases (hchars _ _).2 _ hm with h | h <;> revert h <;> decide
    · cases p.2 <;> simp only [dividerCell, lastOf_concat] <;> decide
  · induction dc generalizing ws with
    | nil => simp
    | cons c dc ih =>
      cases ws with
      | nil => simp
      | cons w ws =>
        simp only [List.map_cons, List.zip_cons_cons, List.length_cons, List.take_succ_cons, ih ws, hs, dividerCell_colons]
  · intro c hc
    obtain ⟨b, hb, rfl⟩ := List.mem_map.1 hc
    obtain ⟨p, _, rfl⟩ := List.mem_map.1 hb
    rw [hs]
    exact hchars _ _

/-- What becomes of a row of the body, in a table with `h` cells in the header and `d` in the delimiter row. It has `h`
cells as Markdown reads it. The row written has the first cells as they are cut at every bar, as many as the shorter of
the two. So the cells that Markdown reads are kept if and only if the delimiter row is not the shorter one and no cell
has a bar, which can only be an escaped one. -/
def RowTo (h d : Nat) (line line' : Str) : Prop := ∃ plain esc, PlainCells line plain ∧ EscCells line esc ∧
  esc.length = h ∧ h ≤ plain.length ∧ RowText line' ((plain.map strip).take (min h d)) ∧
  (RowText line' (esc.map strip) ↔ h ≤ d ∧ ∀ c ∈ esc, '|' ∉ c)

def RowsTo (h d : Nat) : List Str → List Str → Prop
  | [], [] => True
  | l :: ls, l' :: ls' => RowTo h d l l' ∧ RowsTo h d ls ls'
  | _, _ => False

theorem RowText.row {line : Str} {cells : List Str} (h : RowText line cells) (hne : cells ≠ []) : Row line cells := by
  obtain ⟨raw, rfl, rfl, hc⟩ := h
  exact ⟨[], raw, [], rfl, by simp, by simp, fun h0 => hne (by rw [h0]; rfl), hc, rfl⟩

/-- The cells of a written row are determined, but for rows without cells, which look like one empty cell. -/
theorem RowText.unique {line : Str} {a b : List Str} (ha : RowText line a) (hb : RowText line b) (hane : a ≠ [])
    (hbne : b ≠ []) : a = b := by
  rw [← (ha.row hane).cols, (hb.row hbne).cols]

theorem strip_noBar {c : Str} (h : '|' ∉ strip c) : '|' ∉ c := by
  intro hm
  obtain ⟨a, b, hab, ha, hb⟩ := strip_parts c
  rw [hab] at hm
  rcases List.mem_append.1 hm with h2 | h2
  · exact absurd (ha _ h2) (by decide)
  · rcases List.mem_append.1 h2 with h2 | h2
    · exact h h2
    · exact absurd (hb _ h2) (by decide)

/-- Cells without bars are read the same both ways. -/
theorem plain_of_esc {line : Str} {esc plain : List Str} (he : EscCells line esc) (hp : PlainCells line plain)
    (hb : ∀ c ∈ esc, '|' ∉ c) : ∃ more, plain = esc ++ more := by
  obtain ⟨ws, rest, hws, rfl, hc, hr⟩ := he
  have := hp.split
  rw [splitChar_line '|' ws _ (fun hm => absurd (hws _ hm) (by decide)), splitChar_pyJoin _ _ (by simp)] at this
  have hm : (esc.map (splitChar '|')).flatten = esc := by
    clear this hc hp
    induction esc with
    | nil => rfl
    | cons c esc ih =>
      rw [List.map_cons, List.flatten_cons, splitChar_noSep _ _ (hb c (by simp)), ih fun x hx => hb x (by simp [hx])]
      rfl
  rw [List.map_append, List.flatten_append, hm] at this
  have hne : splitChar '|' rest ≠ [] := splitChar_ne_nil _ _
  refine ⟨(splitChar '|' rest).dropLast, ?_⟩
  rw [← this]
  simp only [inner, List.drop_succ_cons, List.drop_zero, List.map_cons, List.map_nil, List.flatten_cons,
    List.flatten_nil, List.append_nil]
  rw [List.dropLast_append_of_ne_nil hne]

theorem esc_le_plain {line : Str} {esc plain : List Str} (he : EscCells line esc) (hp : PlainCells line plain) :
    esc.length ≤ plain.length := by
  obtain ⟨ws, rest, hws, rfl, hc, hr⟩ := he
  have := hp.split
  rw [splitChar_line '|' ws _ (fun hm => absurd (hws _ hm) (by decide)), splitChar_pyJoin _ _ (by simp)] at this
  have hm : ∀ l : List Str, l.length ≤ (l.map (splitChar '|')).flatten.length := by
    intro l
    induction l with
    | nil => simp
    | cons c l ih =>
      have : 0 < (splitChar '|' c).length := List.length_pos_iff.2 (splitChar_ne_nil _ _)
      simp only [List.map_cons, List.flatten_cons, List.length_append, List.length_cons]
      omega
  have h2 := hm (esc ++ [rest])
  rw [← this]
  simp only [inner, List.drop_succ_cons, List.drop_zero, List.length_dropLast]
  simp only [List.length_append, List.length_cons, List.length_nil] at h2
  omega

/-- One row of the body. -/
theorem rowTo_of {h d : Nat} {line line' : Str} {plain esc : List Str} (hp : PlainCells line plain)
    (he : EscCells line esc) (hl : esc.length = h) (hd : d ≠ 0)
    (hw : RowText line' ((plain.map strip).take (min h d))) : RowTo h d line line' := by
  have hle := esc_le_plain he hp
  refine ⟨plain, esc, hp, he, hl, hl ▸ hle, hw, fun hk => ?_, fun ⟨h1, h2⟩ => ?_⟩
  · by_cases h0 : h = 0
    · subst h0
      have : esc = [] := List.length_eq_zero_iff.1 hl
      subst this
      exact ⟨Nat.zero_le _, by simp⟩
    · have hne : esc.map strip ≠ [] := fun h1 => h0 (by
        rw [← hl, ← List.length_map (f := strip), h1]; rfl)
      have hlen : ((plain.map strip).take (min h d)).length = min h d := by
        rw [List.length_take, List.length_map]; omega
      have heq := hk.unique hw hne (fun h1 => by rw [h1] at hlen; simp at hlen; omega)
      have hl2 : h = min h d := by
        have := congrArg List.length heq
        rwa [List.length_map, hlen, hl] at this
      refine ⟨by omega, fun c hc hm => ?_⟩
      have hmem : strip c ∈ (plain.map strip).take (min h d) := heq ▸ List.mem_map.2 ⟨c, hc, rfl⟩
      obtain ⟨x, hx, hxc⟩ := List.mem_map.1 (List.mem_of_mem_take hmem)
      have hxb : '|' ∉ x := by
        obtain ⟨_, _, _, _, h3⟩ := hp
        exact h3 x (List.mem_append_left _ hx)
      apply strip_noBar _ hm
      rw [← hxc]
      exact fun h4 => hxb (mem_of_mem_strip h4)
  · obtain ⟨more, rfl⟩ := plain_of_esc he hp h2
    rw [Nat.min_eq_left h1, List.map_append, List.take_left' (by rw [List.length_map, hl])] at hw
    exact hw

/-- C93: a table that is rewritten has as many cells in every row as the shorter of header and delimiter row. The header
keeps its first cells, the delimiter row the colons of its first columns, and the rows of the body are cut at every bar;
what is written of them is `RowTo`. -/
theorem C93_cells (sub : Width → Str → Except Err Str) (w : Width) (i : Nat) (header divider : Str) (body : List Str)
    (hc dc : List Str) (out : Str) (hnl : ∀ l ∈ header :: divider :: body, NoLB l) (hh : EscCells header hc)
    (hd : DelimCells divider dc) (hb : ∀ l ∈ body, ∃ ws s, (∀ c ∈ ws, isWs c = true) ∧ l = ws ++ '|' :: s)
    (h : fmtSection sub w i .table (header :: divider :: body) = .ok out) :
    ∃ header' divider' body' dc', splitlines out = header' :: divider' :: body' ∧
      RowText header' ((hc.map strip).take dc.length) ∧
      RowText divider' dc' ∧ (∀ c ∈ dc', DelimCell c) ∧ dc'.map colons = (dc.take hc.length).map (fun c => colons (strip c)) ∧
      RowsTo hc.length dc.length body body' := by
  obtain ⟨hlen, h2⟩ := fmtTable_rows hnl h
  obtain ⟨hwl, -⟩ := columnWidths_fits (rowCols header) (body.map rowCols) (by
    intro r hr
    obtain ⟨l, hl, rfl⟩ := List.mem_map.1 hr
    exact hlen l hl)
  generalize columnWidths (rowCols header) (body.map rowCols) = ws at hwl h2
  rw [hh.cols] at hlen hwl
  rw [hh.split, hd.aligns] at h2
  rw [List.length_map] at hwl hlen
  obtain ⟨dc', hd1, hd2, hd3⟩ := divider_written dc ws
  refine ⟨_, _, _, dc', h2, ?_, hd1, hd3, by rw [hd2, hwl], ?_⟩
  · obtain ⟨h3, h4⟩ := zipCells_take headerCell_pads hc ws (dc.map dividerAlign) (by
      obtain ⟨_, _, _, _, h5, _⟩ := hh
      exact fun c hx => ((cellOk_iff _ _).1 (h5 c hx)).1)
    have := tableRow_written h4
    rw [h3, hwl, List.length_map] at this
    rwa [show (hc.map strip).take dc.length = (hc.map strip).take (min hc.length dc.length) by
      rw [Nat.min_comm, ← List.length_map (f := strip) (as := hc), ← List.take_eq_take_min]]
  · clear h2 h hnl
    induction body with
    | nil => trivial
    | cons l body ih =>
      refine ⟨?_, ih (fun x hx => hb x (by simp [hx])) fun x hx => hlen x (by simp [hx])⟩
      obtain ⟨p, s, hp, rfl⟩ := hb l (by simp)
      obtain ⟨⟨esc, he⟩, ⟨plain, hpl⟩⟩ := cells_exist (s := s) hp
      obtain ⟨h3, h4⟩ := zipCells_take bodyCell_pads plain ws (dc.map dividerAlign) (by
        obtain ⟨_, _, _, _, h5⟩ := hpl
        exact fun c hx => barsOk_noBar _ _ (h5 c (List.mem_append_left _ hx)))
      have hwr := tableRow_written h4
      rw [h3, hwl, List.length_map] at hwr
      have hel := hlen _ (List.mem_cons_self ..)
      rw [he.cols, List.length_map] at hel
      refine rowTo_of hpl he hel (fun h0 => hd.1 (List.length_eq_zero_iff.1 h0)) ?_
      show RowText (tableRow (zipCells bodyCell (inner (splitChar '|' (p ++ '|' :: s))) ws _)) _
      rw [hpl.split]
      exact hwr

/-- What becomes of a table with these lines. -/
def TableTo (content content' : List Str) : Prop := ∃ header divider body hc dc header' divider' body' dc',
  content = header :: divider :: body ∧ content' = header' :: divider' :: body' ∧ EscCells header hc ∧
    DelimCells divider dc ∧ RowText header' ((hc.map strip).take dc.length) ∧
    RowText divider' dc' ∧ (∀ c ∈ dc', DelimCell c) ∧ dc'.map colons = (dc.take hc.length).map (fun c => colons (strip c)) ∧
    RowsTo hc.length dc.length body body'

/-- C93 for every table of every document: nothing is assumed of its rows. -/
theorem C93_document (n m : Nat) (w : Width) (i : Nat) (text : Str) (pre post : List (Sec × List Str))
    (content : List Str) (out : Str) (hp : parse n (splitlines text) = .ok (pre ++ (.table, content) :: post))
    (h : fmtSection (reformatText m) w i .table content = .ok out) : TableTo content (splitlines out) := by
  have hrow := (C52_extent hp).1
  have hnl : ∀ l ∈ content, NoLB l := by
    intro l hl
    apply splitlines_noLB text
    rw [← (C08_parse_partition n _ _ hp).1]
    simp [hl]
  have hbar : ∀ l ∈ content, ∃ ws s, (∀ c ∈ ws, isWs c = true) ∧ l = ws ++ '|' :: s := by
    intro l hl
    have h1 := hrow l hl
    obtain ⟨ws, h2, h3⟩ := lstrip_split l
    rw [rowLine, show l.dropWhile isWs = lstrip l from rfl] at h1
    cases h4 : lstrip l with
    | nil => rw [h4] at h1; exact absurd h1 (by decide)
    | cons c s =>
      rw [h4] at h1 h2
      have : c = '|' := by simpa using h1
      exact ⟨ws, s, h3, by rw [← this]; exact h2⟩
  match content, h with
  | [], h => cases h
  | [_], h => cases h
  | header :: divider :: body, h =>
    obtain ⟨ws, s, hws, hh⟩ := hbar header (by simp)
    obtain ⟨hc, hhc⟩ := (cells_exist (s := s) hws).1
    obtain ⟨dc, hdc⟩ := delim_exists divider
    rw [← hh] at hhc
    obtain ⟨header', divider', body', dc', h1, h2, h3, h4, h5, h6⟩ := C93_cells _ w i header divider body hc dc out hnl hhc
      hdc (fun l hl => hbar l (by simp [hl])) h
    exact ⟨header, divider, body, hc, dc, header', divider', body', dc', rfl, h1, hhc, hdc, h2, h3, h4, h5, h6⟩

/-- Two escaped bars, one of them in a cell that is cut off, an indented row and text behind the last bar: all in one
table. The header keeps its escaped bar; the body is cut at it; the text behind the last bars is lost. -/
theorem C93_example :
    reformatText 3 (.fin 80) c!"|a\\|b|c|d| tail\n| :- | -: |\n  |e|f\\|g|h| more\n" =
      .ok c!"| a\\|b |    c |\n|:-----|-----:|\n| e    |   f\\ |\n" ∧
    EscCells c!"  |e|f\\|g|h| more" [c!"e", c!"f\\|g", c!"h"] ∧
    PlainCells c!"  |e|f\\|g|h| more" [c!"e", c!"f\\", c!"g", c!"h"] ∧
    EscCells c!"|a\\|b|c|d| tail" [c!"a\\|b", c!"c", c!"d"] ∧ DelimCells c!"| :- | -: |" [c!" :- ", c!" -: "] := by
  refine ⟨by decide +kernel, ⟨c!"  ", c!" more", by decide, by decide, ?_, ?_⟩,
    ⟨c!"  ", c!" more", by decide, by decide, by decide⟩, ⟨[], c!" tail", by decide, by decide, ?_, ?_⟩,
    by decide, by decide, by decide +kernel⟩
  · intro c hc
    simp only [List.mem_cons, List.not_mem_nil, or_false] at hc
    rcases hc with rfl | rfl | rfl <;> simp [CellOk]
  · simp [BarsOk]
  · intro c hc
    simp only [List.mem_cons, List.not_mem_nil, or_false] at hc
    rcases hc with rfl | rfl | rfl <;> simp [CellOk]
  · simp [BarsOk]

/-- A header with a bar at its start only has no cells, and the whole text of the table is lost. The next pass reads the
rows as rows with one empty cell, so the result is refused. -/
theorem C93_everything_lost :
    reformatText 3 (.fin 80) c!"| some\n|---\n| text\n" = .ok c!"||\n||\n||\n" ∧
    reformatMarkdownText 3 (.fin 80) c!"| some\n|---\n| text\n" = .error .inconsistent := by decide +kernel

end MF
