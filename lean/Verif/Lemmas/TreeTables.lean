import Verif.Lemmas.TreeLeaves
/-!
# Tables as trees
-/

namespace MF

theorem centerAlign_eq (s : Str) (n : Nat) : centerAlign s n = padCell .center n s := by
  have h1 : ((n : Int) - s.length).toNat = n - s.length := by omega
  have h2 : (((n : Int) - s.length) / 2).toNat = (n - s.length) / 2 := by omega
  have h3 : (-(-((n : Int) - s.length) / 2)).toNat = (n - s.length) - (n - s.length) / 2 := by omega
  simp only [centerAlign, padCell, mul, h2, h3]

theorem leftAlign_eq (s : Str) (n : Nat) : leftAlign s n = padCell .left n s := by
  have h1 : ((n : Int) - s.length).toNat = n - s.length := by omega
  simp only [leftAlign, padCell, mul, h1]

theorem rightAlign_eq (s : Str) (n : Nat) : rightAlign s n = padCell .right n s := by
  have h1 : ((n : Int) - s.length).toNat = n - s.length := by omega
  simp only [rightAlign, padCell, mul, h1]

theorem headerCell_eq (c : Str) (n : Nat) (a : Align) : headerCell c n a = ' ' :: padCell a n (strip c) ++ [' '] := by
  cases a <;> simp [headerCell, centerAlign_eq, leftAlign_eq, rightAlign_eq] <;> rfl

theorem bodyCell_eq (c : Str) (n : Nat) (a : Align) :
    bodyCell c n a = ' ' :: padCell (bodyAlign a) n (strip c) ++ [' '] := by
  cases a <;> simp [bodyCell, centerAlign_eq, leftAlign_eq, rightAlign_eq, bodyAlign]

theorem dividerCell_eq (n : Nat) (a : Align) : dividerCell n a = ruleCell a n := by
  cases a <;> simp [dividerCell, ruleCell]

theorem zipCells_eq {f : Str → Nat → Align → Str} {g : Align → Nat → Str → Str} (h : ∀ c n a, f c n a = g a n (strip c))
    (cs : List Str) : ∀ ns as, zipCells f cs ns as = zip3 g as ns (cs.map strip) := by
  induction cs with
  | nil => intro ns as; cases ns <;> cases as <;> rfl
  | cons c cs ih =>
    intro ns as
    cases ns with
    | nil => cases as <;> rfl
    | cons n ns =>
      cases as with
      | nil => rfl
      | cons a as => simp only [zipCells, zip3, List.map_cons, h, ih]

theorem zip_divider (as : List Align) : ∀ (ns : List Nat) (ss : List Str), as.length = ss.length → ns.length = ss.length →
    ((ns.zip as).map fun p => dividerCell p.1 p.2) = zip3 (fun a n _ => ruleCell a n) as ns ss := by
  induction as with
  | nil => intro ns ss; cases ns <;> simp [zip3]
  | cons a as ih =>
    intro ns ss h1 h2
    cases ss with
    | nil => simp at h1
    | cons s ss =>
      cases ns with
      | nil => simp at h2
      | cons n ns =>
        rw [List.zip_cons_cons, List.map_cons, ih ns ss (by simpa using h1) (by simpa using h2), dividerCell_eq]
        rfl

theorem barred_eq {cells : List Str} (h : cells ≠ []) : barred cells = tableRow cells := by
  unfold barred tableRow
  rw [List.singleton_append, List.cons_append]
  congr 1
  induction cells with
  | nil => exact absurd rfl h
  | cons c cs ih =>
    cases cs with
    | nil => simp [pyJoin]
    | cons c2 cs =>
      rw [List.map_cons, List.flatten_cons, ih (by simp), pyJoin_cons_ne (x := c) (ls := c2 :: cs) (by simp)]; simp

theorem colWidths_eq (head : List Str) (rows : List (List Str)) : columnWidths head rows = colWidths head rows := by
  have hf : (fun (ws : List Nat) (r : List Str) => ws.zipWith (fun w c => if c.length > w then c.length else w) r) =
      fun ws r => ws.zipWith (fun w c => max w c.length) r := by
    funext ws r
    congr 1
    funext w c
    split <;> omega
  unfold columnWidths colWidths
  rw [hf, List.foldl_cons]
  congr 1
  induction head with
  | nil => rfl
  | cons c cs ih => simp only [List.map_cons, List.zipWith_cons_cons, ih]; simp

theorem colWidths_length {head : List Str} {rows : List (List Str)} (h : ∀ r ∈ rows, r.length = head.length) :
    (colWidths head rows).length = head.length := by
  rw [← colWidths_eq]; exact (columnWidths_fits head rows h).1

theorem zip3_ne {f : Align → Nat → Str → Str} {as : List Align} {ns : List Nat} {ss : List Str} (hne : ss ≠ [])
    (h1 : as.length = ss.length) (h2 : ns.length = ss.length) : zip3 f as ns ss ≠ [] := by
  cases ss with
  | nil => exact absurd rfl hne
  | cons s ss =>
    cases as with
    | nil => simp at h1
    | cons a as =>
      cases ns with
      | nil => simp at h2
      | cons n ns => simp [zip3]

theorem zip3_map {α : Type} {f : Align → Nat → Str → Str} {g : Align → Str → α} {k : Str → α} {P : Str → Prop} {Q : Str → Prop}
    (hk : ∀ a n s, P s → k (f a n s) = g a s ∧ Q (f a n s)) (as : List Align) :
    ∀ (ns : List Nat) (ss : List Str), as.length = ss.length → ns.length = ss.length → (∀ s ∈ ss, P s) →
    (zip3 f as ns ss).map k = as.zipWith g ss ∧ ∀ c ∈ zip3 f as ns ss, Q c := by
  induction as with
  | nil => intro ns ss; simp [zip3]
  | cons a as ih =>
    intro ns ss h1 h2 hp
    cases ss with
    | nil => simp at h1
    | cons s ss =>
      cases ns with
      | nil => simp at h2
      | cons n ns =>
        obtain ⟨i1, i2⟩ := ih ns ss (by simpa using h1) (by simpa using h2) (fun x hx => hp x (by simp [hx]))
        obtain ⟨k1, k2⟩ := hk a n s (hp s (by simp))
        refine ⟨by simp [zip3, i1, k1], ?_⟩
        intro c hc
        simp only [zip3, List.mem_cons] at hc
        rcases hc with rfl | hc
        · exact k2
        · exact i2 c hc

theorem zipWith_right (as : List Align) : ∀ (ss : List Str), as.length = ss.length → as.zipWith (fun _ s => s) ss = ss := by
  induction as with
  | nil => intro ss h; cases ss <;> simp at h ⊢
  | cons a as ih =>
    intro ss h
    cases ss with
    | nil => simp at h
    | cons s ss => simp [ih ss (by simpa using h)]

theorem zipWith_left {α : Type} (f : Align → α) (as : List Align) : ∀ (ss : List Str), as.length = ss.length →
    as.zipWith (fun a _ => f a) ss = as.map f := by
  induction as with
  | nil => intro ss h; simp
  | cons a as ih =>
    intro ss h
    cases ss with
    | nil => simp at h
    | cons s ss => simp [ih ss (by simpa using h)]

/-- What is needed of a padded cell. -/
structure Padded (c : Str) : Prop where
  ok : CellOk (some '|') c
  noBar : '|' ∉ c
  noLB : NoLB c
  last : ∃ r x, c = r ++ [x] ∧ x ≠ '\\'

theorem padCell_parts (a : Align) (n : Nat) (s : Str) : ∃ p q, padCell a n s = p ++ (s ++ q) ∧ (∀ x ∈ p, x = ' ') ∧
    ∀ x ∈ q, x = ' ' := by
  have hr : ∀ k, ∀ x ∈ List.replicate k ' ', x = ' ' := fun k x hx => List.eq_of_mem_replicate hx
  cases a
  · exact ⟨_, _, by simp only [padCell]; rw [List.append_assoc], hr _, hr _⟩
  · exact ⟨_, _, by simp only [padCell]; rw [List.append_assoc], hr _, hr _⟩
  · exact ⟨[], List.replicate (n - s.length) ' ', by simp only [padCell, List.nil_append], by simp, hr _⟩
  · exact ⟨List.replicate (n - s.length) ' ', [], by simp only [padCell, List.append_nil], hr _, by simp⟩

theorem padded_of {c r : Str} {x : Char} (e : c = r ++ [x]) (hx : x ≠ '\\') (hb : '|' ∉ c) (hl : NoLB c) : Padded c := by
  refine ⟨?_, hb, hl, r, x, e, hx⟩
  rw [cellOk_iff]
  refine ⟨barsOk_noBar _ _ hb, ?_⟩
  rw [e, lastOf_concat]
  intro h; cases h; exact hx rfl

theorem textCell (b : Align → Align) (a : Align) (n : Nat) (s : Str) (h : Cell s) :
    strip (' ' :: padCell (b a) n s ++ [' ']) = s ∧ Padded (' ' :: padCell (b a) n s ++ [' ']) := by
  obtain ⟨p, q, e, hp, hq⟩ := padCell_parts (b a) n s
  have e2 : ' ' :: padCell (b a) n s ++ [' '] = (' ' :: p) ++ (s ++ (q ++ [' '])) := by rw [e]; simp
  refine ⟨?_, ?_⟩
  · rw [e2, strip_pad, h.trimmed]
    · intro c hc
      rcases List.mem_cons.1 hc with rfl | hc
      · decide
      · rw [hp c hc]; decide
    · intro c hc
      rcases List.mem_append.1 hc with hc | hc
      · rw [hq c hc]; decide
      · simp at hc; rw [hc]; decide
  · refine padded_of rfl (by decide) ?_ ?_
    · rw [e2]
      intro hm
      simp only [List.cons_append, List.mem_cons, List.mem_append, List.not_mem_nil, or_false] at hm
      rcases hm with hm | hm | hm | hm | hm
      · cases hm
      · cases hp _ hm
      · exact h.noBar hm
      · cases hq _ hm
      · cases hm
    · rw [e2]
      intro c hm
      simp only [List.cons_append, List.mem_cons, List.mem_append, List.not_mem_nil, or_false] at hm
      rcases hm with rfl | hm | hm | hm | rfl
      · decide
      · rw [hp _ hm]; decide
      · exact h.noLB c hm
      · rw [hq _ hm]; decide
      · decide

theorem ruleCell_chars (a : Align) (n : Nat) : ∀ x ∈ ruleCell a n, x = '-' ∨ x = ':' := by
  intro x hx
  simp only [ruleCell, List.mem_append, List.mem_replicate] at hx
  rcases hx with (hx | hx) | hx
  · split at hx <;> simp at hx <;> simp [hx]
  · exact .inl hx.2
  · split at hx <;> simp at hx <;> simp [hx]

theorem ruleCell_align (a : Align) (n : Nat) : dividerAlign (ruleCell a n) = a ∧ strip (ruleCell a n) = ruleCell a n ∧
    DelimCell (ruleCell a n) ∧ Padded (ruleCell a n) := by
  have hch := ruleCell_chars a n
  have hs : strip (ruleCell a n) = ruleCell a n := strip_noWs _ fun c hc => by
    rcases hch c hc with rfl | rfl <;> decide
  have hne : ruleCell a n ≠ [] := by cases a <;> simp [ruleCell]
  have hbar : '|' ∉ ruleCell a n := by
    intro hm; rcases hch _ hm with e | e <;> cases e
  have hlb : NoLB (ruleCell a n) := by
    intro c hc; rcases hch c hc with rfl | rfl <;> decide
  refine ⟨?_, hs, ⟨hne, hch⟩, ?_⟩
  · simp only [dividerAlign, hs]
    have hst : startsWith (ruleCell a n) c!":" = decide (a = .center ∨ a = .left) := by
      cases a <;> simp [ruleCell, startsWith, List.isPrefixOf]
    have hen : endsWith (ruleCell a n) c!":" = decide (a = .center ∨ a = .right) := by
      cases a <;> simp [ruleCell, endsWith, List.isSuffixOf, List.isPrefixOf]
    rw [hst, hen]
    cases a <;> decide
  · cases a
    · exact padded_of (r := ['-'] ++ List.replicate n '-') (x := '-') (by simp [ruleCell]) (by decide) hbar hlb
    · exact padded_of (r := [':'] ++ List.replicate n '-') (x := ':') (by simp [ruleCell]) (by decide) hbar hlb
    · exact padded_of (r := [':'] ++ List.replicate n '-') (x := '-') (by simp [ruleCell]) (by decide) hbar hlb
    · exact padded_of (r := ['-'] ++ List.replicate n '-') (x := ':') (by simp [ruleCell]) (by decide) hbar hlb

/-- A row of padded cells. -/
theorem row_facts {cells : List Str} (hne : cells ≠ []) (h : ∀ c ∈ cells, Padded c) :
    Row (barred cells) (cells.map strip) ∧ NoLB (barred cells) ∧ (∃ r, barred cells = '|' :: r) ∧
      rstrip (barred cells) = barred cells ∧ ¬ HasEscapedBar (barred cells) := by
  rw [barred_eq hne]
  obtain ⟨r, hr⟩ := tableRow_bars cells
  refine ⟨Row.of_cells hne fun c hc => (h c hc).ok, tableRow_noLB fun c hc => (h c hc).noLB, ⟨_, hr⟩, ?_, ?_⟩
  · rw [hr, ← List.cons_append, rstrip_concat_of_not _ _ (by decide)]
  · rw [← barred_eq hne]
    unfold barred
    clear hr hne
    rintro ⟨a, b, e⟩
    have key : ∀ (cells : List Str), (∀ c ∈ cells, Padded c) → ∀ a b, (cells.map (· ++ ['|'])).flatten ≠ a ++ '\\' :: '|' :: b := by
      intro cells
      induction cells with
      | nil => intro _ a b e; simp at e
      | cons c cs ih =>
        intro h a b e
        rw [List.map_cons, List.flatten_cons, List.append_assoc, List.singleton_append] at e
        rcases List.append_eq_append_iff.1 e with ⟨t, e1, e2⟩ | ⟨t, e1, e2⟩
        · cases t with
          | nil =>
            simp at e2
          | cons y t =>
            simp only [List.cons_append, List.cons.injEq] at e2
            exact ih (fun x hx => h x (by simp [hx])) t b e2.2
        · cases t with
          | nil => simp at e2
          | cons y t =>
            simp only [List.cons_append, List.cons.injEq] at e2
            cases t with
            | nil =>
              obtain ⟨r, x, hx, hx2⟩ := (h c (by simp)).last
              rw [hx] at e1
              have := (List.append_inj' e1 rfl).2
              simp only [List.cons.injEq, and_true] at this
              exact hx2 (this.trans e2.1.symm)
            | cons z t =>
              simp only [List.cons_append, List.cons.injEq] at e2
              exact (h c (by simp)).noBar (by rw [e1, ← e2.2.1]; simp)
    cases a with
    | nil => simp at e
    | cons y a =>
      simp only [List.cons_append, List.cons.injEq] at e
      exact key cells h a b e.2

theorem rows_of_map {α : Type} {f : α → Str} {g : α → List Str} (rows : List α) (h : ∀ r ∈ rows, Row (f r) (g r)) :
    Rows (rows.map f) (rows.map g) := by
  induction rows with
  | nil => trivial
  | cons r rows ih => exact ⟨h r (by simp), ih fun x hx => h x (by simp [hx])⟩

theorem rows_cols {body : List Str} : ∀ {rows : List (List Str)}, Rows body rows → body.map rowCols = rows := by
  induction body with
  | nil => intro rows h; cases rows with | nil => rfl | cons => exact h.elim
  | cons b body ih =>
    intro rows h
    cases rows with
    | nil => exact h.elim
    | cons r rows => rw [List.map_cons, h.1.cols, ih h.2]

/-- The lines a table is written as: bars around each, no whitespace at the ends, and their cells. -/
theorem table_lines {as : List Align} {head : List Str} {rows : List (List Str)} {d : Nat}
    (hw : (Node.table as head rows).WF (d + 1)) :
    ∃ header divider body dc, tableLines as head rows = header :: divider :: body ∧ Row header head ∧ Row divider dc ∧
      Rows body rows ∧ (∀ c ∈ dc, DelimCell c) ∧ dc.map dividerAlign = as ∧ (∀ l ∈ body, ¬ HasEscapedBar l) ∧
      ∀ l ∈ tableLines as head rows, NoLB l ∧ (∃ r, l = '|' :: r) ∧ rstrip l = l := by
  obtain ⟨hne, hal, hrl, hch, hcr⟩ := hw
  have hnl := colWidths_length hrl
  have hh := zip3_map (f := fun a n s => ' ' :: padCell a n s ++ [' ']) (g := fun _ s => s) (k := strip) (P := Cell) (Q := Padded)
    (fun a n s h => textCell id a n s h) as (colWidths head rows) head hal hnl hch
  have hd := zip3_map (f := fun a n _ => ruleCell a n) (g := fun a _ => a) (k := dividerAlign) (P := fun _ => True)
    (Q := fun c => strip c = c ∧ DelimCell c ∧ Padded c)
    (fun a n s h => ruleCell_align a n) as (colWidths head rows) head hal hnl (fun _ _ => trivial)
  have hb : ∀ r ∈ rows, _ := fun r hr => zip3_map (f := fun a n s => ' ' :: padCell (bodyAlign a) n s ++ [' '])
    (g := fun _ s => s) (k := strip) (P := Cell) (Q := Padded)
    (fun a n s h => textCell bodyAlign a n s h) as (colWidths head rows) r (by rw [hal, hrl r hr]) (by rw [hnl, hrl r hr])
    (hcr r hr)
  have f1 := row_facts (zip3_ne hne hal hnl) hh.2
  have f2 := row_facts (zip3_ne hne hal hnl) fun c hc => (hd.2 c hc).2.2
  have f3 : ∀ r ∈ rows, _ := fun r hr => row_facts (zip3_ne (ss := r) (by
    intro e; have := hrl r hr; rw [e] at this; exact hne (List.length_eq_zero_iff.1 this.symm))
    (by rw [hal, hrl r hr]) (by rw [hnl, hrl r hr])) (hb r hr).2
  refine ⟨_, _, _, zip3 (fun a n _ => ruleCell a n) as (colWidths head rows) head, rfl, ?_, ?_, ?_, ?_, ?_, ?_, ?_⟩
  · have := f1.1
    rw [hh.1, zipWith_right _ _ hal] at this
    exact this
  · have := f2.1
    rw [List.map_congr_left (g := id) (fun c hc => (hd.2 c hc).1), List.map_id] at this
    exact this
  · have := rows_of_map (f := fun r => barred (zip3 (fun a n s => ' ' :: padCell (bodyAlign a) n s ++ [' ']) as
        (colWidths head rows) r)) (g := id) rows (by
      intro r hr
      have := (f3 r hr).1
      rw [(hb r hr).1, zipWith_right _ _ (by rw [hal, hrl r hr])] at this
      exact this)
    rw [List.map_id] at this
    exact this
  · exact fun c hc => (hd.2 c hc).2.1
  · exact hd.1.trans ((zipWith_left id _ _ hal).trans (List.map_id _))
  · intro l hl
    obtain ⟨r, hr, rfl⟩ := List.mem_map.1 hl
    exact (f3 r hr).2.2.2.2
  · intro l hl
    rcases List.mem_cons.1 hl with rfl | hl
    · exact ⟨f1.2.1, f1.2.2.1, f1.2.2.2.1⟩
    · rcases List.mem_cons.1 hl with rfl | hl
      · exact ⟨f2.2.1, f2.2.2.1, f2.2.2.2.1⟩
      · obtain ⟨r, hr, rfl⟩ := List.mem_map.1 hl
        have := f3 r hr
        exact ⟨this.2.1, this.2.2.1, this.2.2.2.1⟩

theorem table_print {R : List Str → List Node → Prop} {S : List Str → Bool → Prop} {as : List Align} {head : List Str}
    {rows : List (List Str)} {d : Nat} {w : Width} (hw : (Node.table as head rows).WF (d + 1)) :
    ReadsNode R S ((Node.table as head rows).print w) (.table as head rows) := by
  obtain ⟨header, divider, body, dc, e, h1, h2, h3, h4, h5, h6, h7⟩ := table_lines hw
  show ReadsNode R S (tableLines as head rows) _
  rw [e] at h7 ⊢
  have hi : getIndent header < 4 := by
    obtain ⟨_, ⟨r, hr⟩, _⟩ := h7 header (by simp)
    rw [hr, getIndent_not_ws (by decide)]; omega
  have h : ReadsNode R S (header :: divider :: body) (.table (dc.map dividerAlign) head rows) :=
    .table hi h1 h2 h3 h4 h6 fun l hl => (h7 l hl).1
  rw [h5] at h
  exact h

/-- A table is formatted as it is written down. -/
theorem table_format {R : List Str → List Node → Prop} {S : List Str → Bool → Prop} {ls : List Str} {as : List Align}
    {head : List Str} {rows : List (List Str)} {d : Nat} {w : Width} (h : ReadsNode R S ls (.table as head rows))
    (hw : (Node.table as head rows).WF (d + 1)) (sub i) :
    fmtSection sub w i .table ls = .ok (pyJoin ['\n'] ((Node.table as head rows).print w)) := by
  obtain ⟨hne, hal, hrl, hch, hcr⟩ := hw
  have hnl := colWidths_length hrl
  cases h with
  | @table header divider body hc dc rows hi hh hd hb hdc hesc hl =>
    show fmtTable i (header :: divider :: body) = .ok (pyJoin ['\n'] (tableLines (dc.map dividerAlign) head rows))
    have hcw := rows_cols hb
    have hz : ∀ (g : Str → Nat → Align → Str) (f : Align → Nat → Str → Str), (∀ c n a, g c n a = f a n (strip c)) →
        ∀ line cells, Row line cells → cells.length = head.length →
        tableRow (zipCells g (inner (columnRx.split line)) (colWidths head rows) (dc.map dividerAlign)) =
          barred (zip3 f (dc.map dividerAlign) (colWidths head rows) cells) := by
      intro g f hgf line cells hrow hlen
      rw [zipCells_eq hgf]
      have : (inner (columnRx.split line)).map strip = cells := hrow.cols
      rw [this, barred_eq]
      apply zip3_ne
      · intro e0; rw [e0] at hlen; exact hne (List.length_eq_zero_iff.1 hlen.symm)
      · rw [hal, hlen]
      · rw [hnl, hlen]
    simp only [fmtTable, bind, Except.bind, hh.cols, hcw, hd.aligns hdc, colWidths_eq]
    rw [checkRows_of_all _ _ _ hrl]
    simp only
    rw [hz headerCell (fun a n s => ' ' :: padCell a n s ++ [' ']) headerCell_eq header head hh rfl,
      zip_divider _ _ _ hal hnl, ← barred_eq (zip3_ne hne hal hnl)]
    have hbody : body.map (fun line => tableRow (zipCells bodyCell (inner (splitChar '|' line)) (colWidths head rows)
        (dc.map dividerAlign))) = rows.map fun r => barred (zip3 (fun a n s => ' ' :: padCell (bodyAlign a) n s ++ [' '])
          (dc.map dividerAlign) (colWidths head rows) r) := by
      have : ∀ (body : List Str) (rws : List (List Str)), Rows body rws → (∀ l ∈ body, ¬ HasEscapedBar l) →
          (∀ r ∈ rws, r.length = head.length) →
          body.map (fun line => tableRow (zipCells bodyCell (inner (splitChar '|' line)) (colWidths head rows)
            (dc.map dividerAlign))) = rws.map fun r => barred (zip3 (fun a n s => ' ' :: padCell (bodyAlign a) n s ++ [' '])
            (dc.map dividerAlign) (colWidths head rows) r) := by
        intro body
        induction body with
        | nil => intro rws h _ _; cases rws with | nil => rfl | cons => exact h.elim
        | cons b body ih =>
          intro rws h hesc hlen
          cases rws with
          | nil => exact h.elim
          | cons r rws =>
            rw [List.map_cons, List.map_cons, ih rws h.2 (fun l hl => hesc l (by simp [hl])) (fun l hl => hlen l (by simp [hl]))]
            congr 1
            have e : splitChar '|' b = columnRx.split b := by
              rw [columnRx_split, splitBars_plain]
              · intro x y hxy; exact hesc b (by simp) ⟨x, y, hxy⟩
              · intro h0; cases h0
            rw [e]
            exact hz bodyCell _ bodyCell_eq b r h.1 (hlen r (by simp))
      exact this body rows hb hesc hrl
    rw [hbody]
    rfl

end MF
