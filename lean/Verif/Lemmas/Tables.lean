import Verif.Model.Format
import Verif.Lemmas.Finds
import Verif.Lemmas.Join
/-!
# Splitting table rows
-/

namespace MF

/-- Specification of splitting at unescaped bars: `p` is the character before. -/
def splitBars : Option Char → Str → List Str
  | _, [] => [[]]
  | p, c :: cs => if c = '|' ∧ p ≠ some '\\' then [] :: splitBars (some c) cs else consHead c (splitBars (some c) cs)

theorem splitBars_ne_nil (p : Option Char) (s : Str) : splitBars p s ≠ [] := by
  cases s with
  | nil => simp [splitBars]
  | cons c cs =>
    simp only [splitBars]
    split
    · simp
    · cases splitBars (some c) cs <;> simp [consHead]

theorem columnRx_matchAt (pre post : Str) :
    (∃ m, columnRx.matchAt pre post = some m ∧ m.text = ['|'] ∧ ∃ r, post = '|' :: r ∧ pre.head? ≠ some '\\') ∨
    (columnRx.matchAt pre post = none ∧ ∀ r, post = '|' :: r → pre.head? = some '\\') := by
  have hc : ∀ (caps : List (Nat × Str × Nat)) (pre post : Str), (Rx.chr (· == '|')).run (β := MS) ⟨pre, post, caps⟩ some =
      match post with | [] => none | c :: cs => if c == '|' then some ⟨c :: pre, cs, caps⟩ else none := by
    intro caps pre post
    cases post <;> rfl
  cases hb : pre with
  | nil =>
    cases hp : post with
    | nil => right; exact ⟨rfl, by simp⟩
    | cons c cs =>
      by_cases h : c = '|'
      · left
        subst h
        refine ⟨⟨0, 1, ['|'], []⟩, ?_, rfl, cs, rfl, by simp⟩
        simp [columnRx, Rx.seqs, Rx.matchAt, Rx.run]
      · right
        refine ⟨?_, by simp [h]⟩
        simp [columnRx, Rx.seqs, Rx.matchAt, Rx.run, h]
  | cons b bs =>
    by_cases hbb : b = '\\'
    · right
      subst hbb
      exact ⟨by simp [columnRx, Rx.seqs, Rx.matchAt, Rx.run], by simp⟩
    · cases hp : post with
      | nil => right; exact ⟨by simp [columnRx, Rx.seqs, Rx.matchAt, Rx.run], by simp⟩
      | cons c cs =>
        by_cases h : c = '|'
        · left
          subst h
          refine ⟨⟨(b :: bs).length, (b :: bs).length + 1, ['|'], []⟩, ?_, rfl, cs, rfl, by simpa using hbb⟩
          simp [columnRx, Rx.seqs, Rx.matchAt, Rx.run, hbb]
        · right
          refine ⟨?_, by simp [h]⟩
          simp [columnRx, Rx.seqs, Rx.matchAt, Rx.run, h, hbb]

theorem columnRx_nonEmpty : columnRx.NonEmpty := Rx.nonEmpty_of_pos rfl

/-- a stretch in which no bar splits -/
theorem splitBars_skip (u : Str) : ∀ (pre rest : Str),
    (∀ a b c, u = a ++ c :: b → columnRx.matchAt (a.reverse ++ pre) (c :: b ++ rest) = none) →
    splitBars pre.head? (u ++ rest) =
      match splitBars (u.reverse ++ pre).head? rest with
      | [] => []
      | x :: xs => (u ++ x) :: xs := by
  induction u with
  | nil =>
    intro pre rest _
    simp only [List.nil_append, List.reverse_nil]
    cases h : splitBars pre.head? rest with
    | nil => rfl
    | cons => rfl
  | cons c u ih =>
    intro pre rest h
    have h0 := h [] u c rfl
    have hn : ¬ (c = '|' ∧ pre.head? ≠ some '\\') := by
      rintro ⟨rfl, hp⟩
      rcases columnRx_matchAt pre ('|' :: (u ++ rest)) with ⟨m, h1, _⟩ | ⟨_, h1⟩
      · have : columnRx.matchAt pre ('|' :: (u ++ rest)) = none := h0
        rw [this] at h1; cases h1
      · exact hp (h1 _ rfl)
    have := ih (c :: pre) rest (fun a b d hd => by
      have := h (c :: a) b d (by rw [hd]; rfl)
      simpa using this)
    simp only [List.cons_append, splitBars, if_neg hn]
    simp only [List.head?_cons] at this
    rw [this]
    have e : (List.reverse (c :: u) ++ pre) = u.reverse ++ c :: pre := by simp
    rw [e]
    cases hsb : splitBars (u.reverse ++ c :: pre).head? rest with
    | nil => exact absurd hsb (splitBars_ne_nil _ _)
    | cons x xs => rfl

theorem splitBars_none (post : Str) : ∀ (pre : Str), columnRx.searchFrom pre post = none →
    splitBars pre.head? post = [post] := by
  induction post with
  | nil => intro pre _; rfl
  | cons c cs ih =>
    intro pre h
    simp only [Rx.searchFrom] at h
    split at h
    · cases h
    · rename_i h0
      have hn : ¬ (c = '|' ∧ pre.head? ≠ some '\\') := by
        rintro ⟨rfl, hp⟩
        rcases columnRx_matchAt pre ('|' :: cs) with ⟨m, h1, _⟩ | ⟨_, h1⟩
        · rw [h0] at h1; cases h1
        · exact hp (h1 _ rfl)
      have := ih (c :: pre) h
      simp only [List.head?_cons] at this
      simp only [splitBars, if_neg hn, this, consHead]

theorem columnRx_splitAt {pre post : Str} {ms : List Match} (h : Rx.Finds columnRx pre post ms) :
    splitAt' (pre.reverse ++ post) pre.length ms = splitBars pre.head? post := by
  induction h with
  | @done pre post hs =>
    rw [splitBars_none _ _ hs]
    simp [splitAt']
  | @step pre u rest m ms hno hm hne hstart hstop _ ih =>
    obtain ⟨htext, r, hr, hpre⟩ : m.text = ['|'] ∧ ∃ r, m.text ++ rest = '|' :: r ∧ (u.reverse ++ pre).head? ≠ some '\\' := by
      rcases columnRx_matchAt (u.reverse ++ pre) (m.text ++ rest) with ⟨m', h1, h2, h3⟩ | ⟨h1, _⟩
      · rw [hm] at h1; cases h1; exact ⟨h2, h3⟩
      · rw [hm] at h1; cases h1
    rw [htext] at hno hm hr hstop ih ⊢
    simp only [List.singleton_append, List.cons.injEq, true_and] at hr
    subst hr
    rw [splitBars_skip u pre (['|'] ++ rest) hno]
    have hb : splitBars (u.reverse ++ pre).head? (['|'] ++ rest) = [] :: splitBars (some '|') rest := by
      simp only [List.singleton_append, splitBars, if_pos (And.intro trivial hpre)]
    simp only [hb, List.append_nil, splitAt']
    congr 1
    · rw [hstart]
      have := slice_mid pre.reverse u (['|'] ++ rest)
      simpa using this
    · have e : pre.reverse ++ (u ++ (['|'] ++ rest)) = (['|'].reverse ++ (u.reverse ++ pre)).reverse ++ rest := by simp
      have e2 : m.stop = (['|'].reverse ++ (u.reverse ++ pre)).length := by rw [hstop]; simp; omega
      rw [e, e2, ih]
      rfl

/-- Splitting at the column regex is splitting at bars not preceded by a backslash. -/
theorem columnRx_split (s : Str) : columnRx.split s = splitBars none s := by
  have := columnRx_splitAt (Rx.finditer_finds columnRx_nonEmpty s)
  simpa [Rx.split] using this

/-- A cell as written between two bars: bars only directly after a backslash, and no backslash at the end. -/
def CellOk : Option Char → Str → Prop
  | p, [] => p ≠ some '\\'
  | p, c :: cs => (c = '|' → p = some '\\') ∧ CellOk (some c) cs

theorem splitBars_cell (u : Str) : ∀ (p : Option Char) (rest : Str), CellOk p u →
    splitBars p (u ++ '|' :: rest) = u :: splitBars (some '|') rest := by
  induction u with
  | nil =>
    intro p rest h
    simp only [List.nil_append, splitBars]
    rw [if_pos ⟨trivial, h⟩]
  | cons c u ih =>
    intro p rest h
    have hn : ¬ (c = '|' ∧ p ≠ some '\\') := fun ⟨h1, h2⟩ => h2 (h.1 h1)
    simp only [List.cons_append, splitBars, if_neg hn, ih _ rest h.2, consHead]

/-- no bar at all -/
theorem splitBars_noBar (u : Str) : ∀ (p : Option Char), '|' ∉ u → splitBars p u = [u] := by
  induction u with
  | nil => intro p _; rfl
  | cons c u ih =>
    intro p h
    simp only [List.mem_cons, not_or] at h
    have hn : ¬ (c = '|' ∧ p ≠ some '\\') := fun ⟨h1, _⟩ => h.1 h1.symm
    simp only [splitBars, if_neg hn, ih _ h.2, consHead]

theorem splitBars_cells (cells : List Str) : ∀ (post : Str), (∀ c ∈ cells, CellOk (some '|') c) → '|' ∉ post →
    cells ≠ [] → splitBars (some '|') (pyJoin ['|'] cells ++ '|' :: post) = cells ++ [post] := by
  induction cells with
  | nil => intro _ _ _ h; exact absurd rfl h
  | cons c cells ih =>
    intro post hc hp _
    cases cells with
    | nil =>
      simp only [pyJoin]
      rw [splitBars_cell _ _ _ (hc c (by simp)), splitBars_noBar _ _ hp]
      rfl
    | cons d ds =>
      simp only [pyJoin, List.append_assoc, List.nil_append, List.cons_append]
      rw [splitBars_cell _ _ _ (hc c (by simp))]
      have := ih post (fun x hx => hc x (by simp [List.mem_cons.1 hx])) hp (by simp)
      rw [this]
      rfl

/-- Cells of a line of the form: indentation, `|`, cells separated by `|`, `|`, trailing text without bars. -/
theorem rowCols_shape (ws post : Str) (cells : List Str) (hws : ∀ c ∈ ws, isWs c = true)
    (hc : ∀ c ∈ cells, CellOk (some '|') c) (hp : '|' ∉ post) (hne : cells ≠ []) :
    inner (columnRx.split (ws ++ '|' :: (pyJoin ['|'] cells ++ '|' :: post))) = cells := by
  have hok : CellOk none ws := by
    have : ∀ (ws : Str) (p : Option Char), p ≠ some '\\' → (∀ c ∈ ws, isWs c = true) → CellOk p ws := by
      intro ws
      induction ws with
      | nil => intro p hp _; exact hp
      | cons c ws ih =>
        intro p hp h
        have hcw := h c (by simp)
        refine ⟨fun h0 => ?_, ih _ ?_ fun x hx => h x (by simp [hx])⟩
        · rw [h0] at hcw; exact absurd hcw (by decide)
        · intro h0; simp at h0; rw [h0] at hcw; revert hcw; decide
    exact this ws none (by simp) hws
  rw [columnRx_split, splitBars_cell _ _ _ hok, splitBars_cells cells post hc hp hne]
  simp [inner]

/-- Without escaped bars the split at the regex is the plain split. -/
theorem splitBars_plain (s : Str) : ∀ (p : Option Char), (∀ a b, s ≠ a ++ '\\' :: '|' :: b) →
    (p = some '\\' → ∀ r, s ≠ '|' :: r) → splitBars p s = splitChar '|' s := by
  induction s with
  | nil => intro p _ _; rfl
  | cons c s ih =>
    intro p h hp
    have := ih (some c) (fun a b h0 => h (c :: a) b (by rw [h0]; rfl)) (fun h0 r h1 => by
      simp at h0
      exact h [] r (by rw [h0, h1]; rfl))
    simp only [splitBars, splitChar, this]
    by_cases hc : c = '|'
    · subst hc
      rw [if_pos ⟨rfl, fun h0 => hp h0 s rfl⟩, if_pos (by decide)]
    · rw [if_neg (fun h => hc h.1), if_neg (by simpa using hc)]

/-- The last character read, starting from `p`. -/
def lastOf : Option Char → Str → Option Char
  | p, [] => p
  | _, c :: cs => lastOf (some c) cs

/-- Every bar comes directly after a backslash; `p` is the character before. -/
def BarsOk : Option Char → Str → Prop
  | _, [] => True
  | p, c :: cs => (c = '|' → p = some '\\') ∧ BarsOk (some c) cs

theorem cellOk_iff (u : Str) : ∀ p, CellOk p u ↔ BarsOk p u ∧ lastOf p u ≠ some '\\' := by
  induction u with
  | nil => intro p; simp [CellOk, BarsOk, lastOf]
  | cons c u ih => intro p; simp only [CellOk, BarsOk, lastOf, ih]; exact and_assoc.symm

theorem barsOk_append (a : Str) : ∀ p b, BarsOk p (a ++ b) ↔ BarsOk p a ∧ BarsOk (lastOf p a) b := by
  induction a with
  | nil => intro p b; simp [BarsOk, lastOf]
  | cons c a ih => intro p b; simp only [List.cons_append, BarsOk, lastOf, ih]; exact and_assoc.symm

theorem lastOf_append (a : Str) : ∀ p b, lastOf p (a ++ b) = lastOf (lastOf p a) b := by
  induction a with
  | nil => intro p b; rfl
  | cons c a ih => intro p b; simp only [List.cons_append, lastOf, ih]

theorem lastOf_concat (a : Str) (p : Option Char) (c : Char) : lastOf p (a ++ [c]) = some c := by
  rw [lastOf_append]; rfl

theorem barsOk_noBar (u : Str) : ∀ p, '|' ∉ u → BarsOk p u := by
  induction u with
  | nil => intro p _; trivial
  | cons c u ih =>
    intro p h
    simp only [List.mem_cons, not_or] at h
    exact ⟨fun h0 => absurd h0.symm h.1, ih _ h.2⟩

theorem barsOk_any {p : Option Char} {u : Str} (q : Option Char) (hp : p ≠ some '\\') (h : BarsOk p u) : BarsOk q u := by
  cases u with
  | nil => trivial
  | cons c u => exact ⟨fun h0 => absurd (h.1 h0) hp, h.2⟩

theorem lastOf_ws (t : Str) : ∀ p, p ≠ some '\\' → (∀ c ∈ t, isWs c = true) → lastOf p t ≠ some '\\' := by
  induction t with
  | nil => intro p hp _; exact hp
  | cons c t ih =>
    intro p _ h
    apply ih
    · intro h0
      simp at h0
      have := h c (by simp)
      rw [h0] at this; revert this; decide
    · exact fun x hx => h x (by simp [hx])

theorem strip_parts (s : Str) : ∃ a b, s = a ++ (strip s ++ b) ∧ (∀ c ∈ a, isWs c = true) ∧ ∀ c ∈ b, isWs c = true := by
  obtain ⟨a, ha, ha'⟩ := lstrip_split s
  obtain ⟨b, hb, hb'⟩ := rstripBy_split isWs (lstrip s)
  exact ⟨a, b, by conv => lhs; rw [ha, hb]
                  rfl, ha', hb'⟩

theorem strip_pad (a s b : Str) (ha : ∀ c ∈ a, isWs c = true) (hb : ∀ c ∈ b, isWs c = true) :
    strip (a ++ (s ++ b)) = strip s := by
  rw [← strip_lstrip, lstrip_append_ws _ _ ha, strip_lstrip, ← strip_rstrip, rstrip_append_ws _ _ hb, strip_rstrip]

/-- A cell stays a cell when its padding is changed to at least one trailing space. -/
theorem cellOk_pad {raw : Str} (h : BarsOk (some '|') raw) (a b : Str) (ha : ∀ c ∈ a, c = ' ') (hb : ∀ c ∈ b, c = ' ')
    (hbne : b ≠ []) : CellOk (some '|') (a ++ (strip raw ++ b)) := by
  have hnb : ∀ {t : Str}, (∀ c ∈ t, c = ' ') → '|' ∉ t := fun h hm => absurd (h _ hm) (by decide)
  rw [cellOk_iff]
  constructor
  · obtain ⟨x, y, hxy, hx, hy⟩ := strip_parts raw
    rw [hxy, barsOk_append, barsOk_append] at h
    rw [barsOk_append, barsOk_append]
    exact ⟨barsOk_noBar _ _ (hnb ha), barsOk_any _ (lastOf_ws x _ (by simp) hx) h.2.1, barsOk_noBar _ _ (hnb hb)⟩
  · rcases List.eq_nil_or_concat b with h0 | ⟨b', c, h0⟩
    · exact absurd h0 hbne
    · rw [List.concat_eq_append] at h0
      rw [h0, ← List.append_assoc, ← List.append_assoc, lastOf_concat, hb c (by rw [h0]; simp)]
      simp

/-- `line` is a table row: indentation, a bar, cells with a bar after each, trailing whitespace. A cell has no bars but
directly after a backslash and does not end in a backslash. `cells` are the trimmed cells. -/
def Row (line : Str) (cells : List Str) : Prop :=
  ∃ ws raw post, line = ws ++ '|' :: (pyJoin ['|'] raw ++ '|' :: post) ∧ (∀ c ∈ ws, isWs c = true) ∧
    (∀ c ∈ post, isWs c = true) ∧ raw ≠ [] ∧ (∀ c ∈ raw, CellOk (some '|') c) ∧ cells = raw.map strip

theorem Row.cols {line : Str} {cells : List Str} (h : Row line cells) : rowCols line = cells := by
  obtain ⟨ws, raw, post, rfl, hws, hpost, hne, hc, rfl⟩ := h
  unfold rowCols
  rw [rowCols_shape ws post raw hws hc (fun hm => absurd (hpost _ hm) (by decide)) hne]

theorem Row.ne_nil {line : Str} {cells : List Str} (h : Row line cells) : cells ≠ [] := by
  obtain ⟨ws, raw, post, _, _, _, hne, _, rfl⟩ := h
  simpa using hne

theorem Row.of_cells {cells : List Str} (hne : cells ≠ []) (h : ∀ c ∈ cells, CellOk (some '|') c) :
    Row (tableRow cells) (cells.map strip) :=
  ⟨[], cells, [], by simp [tableRow], by simp, by simp, hne, h, rfl⟩

end MF
