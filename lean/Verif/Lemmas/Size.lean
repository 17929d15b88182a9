import Verif.Props.WrapExact
import Verif.Props.Idempotent
/-!
# How long things get

The weight of a string: its length, or the number of its characters other than `>`. Wrapping multiplies either by a constant.
-/

namespace MF

/-- The length of a string if `g` is 1, and the number of characters other than `>` if `g` is 0. -/
def wt (g : Nat) : Str → Nat
  | [] => 0
  | c :: s => (if c = '>' then g else 1) + wt g s

/-- The weights of lines, with one for the end of each. -/
def wts (g : Nat) : List Str → Nat
  | [] => 0
  | l :: ls => wt g l + 1 + wts g ls

theorem wt_append (g : Nat) (a b : Str) : wt g (a ++ b) = wt g a + wt g b := by
  induction a with
  | nil => simp [wt]
  | cons c s ih => simp only [List.cons_append, wt, ih]; omega

theorem wts_append (g : Nat) (a b : List Str) : wts g (a ++ b) = wts g a + wts g b := by
  induction a with
  | nil => simp [wts]
  | cons c s ih => simp only [List.cons_append, wts, ih]; omega

theorem wt_one (s : Str) : wt 1 s = s.length := by
  induction s with
  | nil => rfl
  | cons c s ih => simp only [wt, ih, List.length_cons]; split <;> omega

theorem wt_sublist {g : Nat} {a b : Str} (h : a.Sublist b) : wt g a ≤ wt g b := by
  induction h with
  | slnil => exact Nat.le_refl _
  | cons c _ ih => simp only [wt]; omega
  | cons_cons c _ ih => simp only [wt]; omega

theorem wt_mono {g : Nat} (hg : g ≤ 1) (s : Str) : wt g s ≤ s.length := by
  induction s with
  | nil => exact Nat.le_refl _
  | cons c s ih => simp only [wt, List.length_cons]; split <;> omega

theorem wt_ge {g : Nat} {c : Char} {s : Str} (h : c ∈ s) (hc : c ≠ '>') : 1 ≤ wt g s := by
  induction s with
  | nil => cases h
  | cons d s ih =>
    simp only [wt]
    rcases List.mem_cons.1 h with rfl | h
    · rw [if_neg hc]; omega
    · have := ih h; omega

theorem wts_length (g : Nat) (ls : List Str) : ls.length ≤ wts g ls := by
  induction ls with
  | nil => exact Nat.le_refl _
  | cons l ls ih => simp only [wts, List.length_cons]; omega

theorem wt_le_wts {g : Nat} {l : Str} {ls : List Str} (h : l ∈ ls) : wt g l + 1 ≤ wts g ls := by
  induction ls with
  | nil => cases h
  | cons a ls ih =>
    simp only [wts]
    rcases List.mem_cons.1 h with rfl | h
    · omega
    · have := ih h; omega

theorem lstripBy_sub (p : Char → Bool) (s : Str) : (lstripBy p s).Sublist s := List.dropWhile_sublist _

theorem rstripBy_sub (p : Char → Bool) (s : Str) : (rstripBy p s).Sublist s := by
  unfold rstripBy
  have h := (List.dropWhile_sublist p (l := s.reverse)).reverse
  rwa [List.reverse_reverse] at h

theorem strip_sub (s : Str) : (strip s).Sublist s := (rstripBy_sub _ _).trans (lstripBy_sub _ _)

theorem rstrip_sub (s : Str) : (rstrip s).Sublist s := rstripBy_sub _ _

theorem slice_sub (s : Str) (a b : Nat) : (slice s a b).Sublist s := (List.take_sublist _ _).trans (List.drop_sublist _ _)

theorem wt_strip (g : Nat) (s : Str) : wt g (strip s) ≤ wt g s := wt_sublist (strip_sub s)

theorem wts_map {g : Nat} {f : Str → Str} (h : ∀ s, wt g (f s) ≤ wt g s) (ls : List Str) : wts g (ls.map f) ≤ wts g ls := by
  induction ls with
  | nil => exact Nat.le_refl _
  | cons l ls ih => simp only [List.map_cons, wts]; have := h l; omega

theorem wts_consHead {g : Nat} (_hg : g ≤ 1) (c : Char) (ls : List Str) :
    wts g (consHead c ls) ≤ (if c = '>' then g else 1) + wts g ls + (if ls = [] then 1 else 0) := by
  cases ls with
  | nil => simp [consHead, wts, wt]
  | cons l ls => simp [consHead, wts, wt]; omega

/-- Joining with a separator of one character. -/
theorem wt_pyJoin {g : Nat} (hg : g ≤ 1) (c : Char) (ls : List Str) (hne : ls ≠ []) : wt g (pyJoin [c] ls) + 1 ≤ wts g ls := by
  induction ls with
  | nil => exact absurd rfl hne
  | cons l ls ih =>
    cases ls with
    | nil => simp [pyJoin, wts]
    | cons m ls =>
      have := ih (by simp)
      have hc : wt g [c] ≤ 1 := by simp only [wt]; split <;> omega
      rw [wts]
      simp only [pyJoin, wt_append]
      omega

theorem wt_pyJoin' {g : Nat} (hg : g ≤ 1) (c : Char) (ls : List Str) : wt g (pyJoin [c] ls) ≤ wts g ls := by
  by_cases h : ls = []
  · subst h; simp [pyJoin, wt]
  · have := wt_pyJoin hg c ls h; omega

theorem lb_ne {c : Char} (h : isLB c = true) : c ≠ '>' := by
  intro e; subst e; revert h; decide

theorem wts_splitlines {g : Nat} (hg : g ≤ 1) (s : Str) : wts g (splitlines s) ≤ wt g s + 1 ∧ (s = [] → splitlines s = []) := by
  refine ⟨?_, fun h => by subst h; rfl⟩
  induction s with
  | nil => simp [splitlines, wts]
  | cons c s ih =>
    simp only [splitlines, wt]
    split
    · split <;> omega
    · split
      · rename_i h
        rw [if_neg (lb_ne h)]
        simp only [wts, wt]; omega
      · have h1 := wts_consHead hg c (splitlines s)
        by_cases hs : splitlines s = []
        · rw [hs] at h1 ⊢
          simp only [wts, if_true] at h1
          omega
        · rw [if_neg hs] at h1; omega

/-- A text that ends in a newline. -/
theorem wts_splitlines_nl {g : Nat} (hg : g ≤ 1) (s : Str) : wts g (splitlines (s ++ ['\n'])) ≤ wt g (s ++ ['\n']) := by
  induction s with
  | nil =>
    have : isLB '\n' = true := by decide
    simp [splitlines, this, wts, wt]
  | cons c s ih =>
    simp only [List.cons_append, splitlines, wt]
    split
    · split <;> omega
    · split
      · rename_i h
        rw [if_neg (lb_ne h)]
        simp only [wts, wt]; omega
      · have h1 := wts_consHead hg c (splitlines (s ++ ['\n']))
        have hs := splitlines_concat_ne s '\n' (by decide)
        rw [if_neg hs] at h1; omega

theorem wt_wrapInput {g : Nat} (hg : g ≤ 1) (s : Str) : wt g (pyJoin [' '] ((splitlines s).map strip)) ≤ wt g s := by
  by_cases h : splitlines s = []
  · simp [h, pyJoin, wt]
  · have h1 := wt_pyJoin hg ' ' ((splitlines s).map strip) (by simpa using h)
    have h2 := wts_map (g := g) (f := strip) (wt_strip g) (splitlines s)
    have h3 := (wts_splitlines hg s).1
    omega

theorem wts_splitChar {g : Nat} (hg : g ≤ 1) {sep : Char} (hs : sep ≠ '>') (s : Str) :
    wts g (splitChar sep s) ≤ wt g s + 1 := by
  induction s with
  | nil => simp [splitChar, wts, wt]
  | cons c s ih =>
    simp only [splitChar, wt]
    split
    · rename_i h
      rw [if_neg (by rw [eq_of_beq h]; exact hs)]
      simp only [wts, wt]; omega
    · have h1 := wts_consHead hg c (splitChar sep s)
      have hne : splitChar sep s ≠ [] := by
        cases s with
        | nil => simp [splitChar]
        | cons d s =>
          simp only [splitChar]
          split
          · simp
          · cases splitChar sep s <;> simp [consHead]
      rw [if_neg hne] at h1; omega

/-! ## Pieces of text -/

/-- The weights of pieces. -/
def bw (g : Nat) : List Bit → Nat
  | [] => 0
  | b :: bs => wt g b.text + 1 + bw g bs

theorem bw_append (g : Nat) (a b : List Bit) : bw g (a ++ b) = bw g a + bw g b := by
  induction a with
  | nil => simp [bw]
  | cons c s ih => simp only [List.cons_append, bw, ih]; omega

theorem bw_plain (g : Nat) (lead : Option Bool) (s : Str) : bw g (plainBits lead s) ≤ wt g s + 1 := by
  unfold plainBits
  split
  · simp [bw]
  · have := wt_strip g s; simp only [bw]; omega

theorem wt_dot (g : Nat) (s : Str) : wt g (dotOf s) + wt g (undot s) = wt g s := by
  unfold dotOf undot
  split
  · rename_i h
    cases s with
    | nil => simp [startsSingleDot, startsWith] at h
    | cons c s =>
      have hc : c = '.' := by
        simp only [startsSingleDot, startsWith, Bool.and_eq_true] at h
        have := h.1
        simp at this
        exact this.symm
      subst hc
      simp [wt]
  · simp [wt]

/-- The weight of runs of backticks and what is behind them. -/
def rw' (g : Nat) : List (Nat × Str) → Nat
  | [] => 0
  | (k, t) :: more => k + wt g t + rw' g more

theorem wt_ticks (g k : Nat) : wt g (ticks k) = k := by
  unfold ticks
  induction k with
  | zero => rfl
  | succ k ih => simp only [List.replicate_succ, wt, ih]; rw [if_neg (by decide)]; omega

theorem tickRuns_wt (g : Nat) (s : Str) : wt g (tickRuns s).1 + rw' g (tickRuns s).2 = wt g s ∧
    (tickRuns s).2.length ≤ rw' g (tickRuns s).2 ∧ ∀ x ∈ (tickRuns s).2, 1 ≤ x.1 := by
  induction s with
  | nil => simp [tickRuns, wt, rw']
  | cons c s ih =>
    obtain ⟨h1, h2, h3⟩ := ih
    simp only [tickRuns]
    by_cases hc : c = '`'
    · subst hc
      rw [if_pos rfl]
      simp only [wt]
      rw [if_neg (by decide)]
      match hr : tickRuns s, h1, h2, h3 with
      | ([], (k, t) :: more), h1, h2, h3 =>
        simp only [wt, rw', List.length_cons] at h1 h2 ⊢
        refine ⟨by omega, by omega, ?_⟩
        intro x hx
        rcases List.mem_cons.1 hx with rfl | hx
        · simp
        · exact h3 x (List.mem_cons_of_mem _ hx)
      | ([], []), h1, h2, h3 =>
        simp only [wt, rw', List.length_cons] at h1 h2 ⊢
        refine ⟨by omega, by simp, by simp⟩
      | (a :: b, more), h1, h2, h3 =>
        simp only [rw', List.length_cons] at h1 h2 ⊢
        refine ⟨by simp only [wt] at h1 ⊢; omega, by omega, ?_⟩
        intro x hx
        rcases List.mem_cons.1 hx with rfl | hx
        · simp
        · exact h3 x hx
    · rw [if_neg hc]
      simp only [wt]
      exact ⟨by omega, h2, h3⟩

theorem bw_code (g : Nat) (runs : List (Nat × Str)) :
    (∀ lead s, bw g (codeBits (.out lead s) runs) ≤ wt g s + rw' g runs + 2 * runs.length + 1) ∧
    (∀ sp k code s, bw g (codeBits (.within sp k code s) runs) ≤ wt g code + wt g s + rw' g runs + 2 * runs.length + 2) := by
  induction runs with
  | nil =>
    refine ⟨fun lead s => ?_, fun sp k code s => ?_⟩
    · simp only [codeBits, rw', List.length_nil]; have := bw_plain g lead s; omega
    · simp only [codeBits, rw', List.length_nil]
      have h0 := wt_sublist (g := g) (rstrip_sub s)
      have h1 := wt_dot g s
      have h2 := bw_plain g none (undot s)
      split
      · simp only [bw, wt_append]; omega
      · simp only [bw, wt_append]; omega
  | cons x more ih =>
    obtain ⟨k', t⟩ := x
    refine ⟨fun lead s => ?_, fun sp k code s => ?_⟩
    · simp only [codeBits, rw', List.length_cons, bw_append]
      have h1 := bw_plain g lead s
      have h2 := ih.2 (if strip s = [] then lead.getD (endsWith s c!" ") else endsWith s c!" ") k' (ticks k') t
      rw [wt_ticks] at h2
      omega
    · simp only [codeBits, rw', List.length_cons]
      split
      · rename_i he
        subst he
        have h1 := ih.1 none (undot t)
        have h2 := wt_dot g t
        simp only [bw, wt_append, wt_ticks]
        omega
      · have h1 := ih.2 sp k (code ++ s ++ ticks k') t
        simp only [wt_append, wt_ticks] at h1
        omega

theorem bw_codePieces {g : Nat} {lead : Bool} {s : Str} {bs : List Bit} (h : codePieces lead s = .ok bs) :
    bw g bs ≤ 3 * wt g s + 1 := by
  unfold codePieces at h
  simp only at h
  split at h
  · cases h
  · cases h
    have h1 := (bw_code g (tickRuns s).2).1 (some lead) (tickRuns s).1
    obtain ⟨h2, h3, _⟩ := tickRuns_wt g s
    omega

/-! ## What is found in a text -/

/-- The weights of what is found. -/
def fw (g : Nat) (s : Str) : List (Nat × Nat) → Nat
  | [] => 0
  | (i, n) :: more => wt g (slice s i (i + n)) + fw g s more

theorem fw_append (g : Nat) (s : Str) (a b : List (Nat × Nat)) : fw g s (a ++ b) = fw g s a + fw g s b := by
  induction a with
  | nil => simp [fw]
  | cons c r ih => simp only [List.cons_append, fw, ih]; omega

theorem fw_scan (g : Nat) (len : Str → Nat) (S : Str) : ∀ (s : Str) (pos skip : Nat), S.drop pos = s →
    fw g S (scan len pos skip s) ≤ wt g (s.drop skip) := by
  intro s
  induction s with
  | nil => intro pos skip _; cases skip <;> simp [scan, fw]
  | cons c s ih =>
    intro pos skip h
    have h' : S.drop (pos + 1) = s := by rw [← List.drop_drop, h]; rfl
    cases skip with
    | succ k => simp only [scan, List.drop_succ_cons]; exact ih _ _ h'
    | zero =>
      simp only [scan, List.drop_zero]
      split
      · have := ih (pos + 1) 0 h'
        simp only [List.drop_zero] at this
        simp only [wt]; omega
      · rename_i n _
        simp only [fw]
        have h1 := ih (pos + 1) n h'
        have h2 : slice S pos (pos + (n + 1)) = (c :: s).take (n + 1) := by
          unfold slice; rw [h]; congr 1; omega
        have h3 := wt_append g ((c :: s).take (n + 1)) ((c :: s).drop (n + 1))
        rw [List.take_append_drop] at h3
        rw [h2]
        simp only [List.drop_succ_cons] at h3
        omega

/-- Everything found has some property if that follows from its length. -/
theorem scan_each (len : Str → Nat) (S : Str) (P : Nat × Nat → Prop) (hP : ∀ i n, len (S.drop i) = n + 1 → P (i, n + 1)) :
    ∀ (s : Str) (pos skip : Nat), S.drop pos = s → ∀ x ∈ scan len pos skip s, P x := by
  intro s
  induction s with
  | nil => intro pos skip _ x hx; cases skip <;> simp [scan] at hx
  | cons c s ih =>
    intro pos skip h x hx
    have h' : S.drop (pos + 1) = s := by rw [← List.drop_drop, h]; rfl
    cases skip with
    | succ k => simp only [scan] at hx; exact ih _ _ h' x hx
    | zero =>
      simp only [scan] at hx
      split at hx
      · exact ih _ _ h' x hx
      · rename_i n hn
        rcases List.mem_cons.1 hx with rfl | hx
        · exact hP pos n (by rw [h]; exact hn)
        · exact ih _ _ h' x hx

/-- Positions in order, from `lo` on. -/
def Rising : Nat → List (Nat × Nat) → Prop
  | _, [] => True
  | lo, (i, _) :: more => lo ≤ i ∧ Rising i more

theorem Rising.low {lo lo' : Nat} (h : lo' ≤ lo) : ∀ {xs}, Rising lo xs → Rising lo' xs
  | [], _ => trivial
  | (_, _) :: _, r => ⟨Nat.le_trans h r.1, r.2⟩

theorem scan_rising (len : Str → Nat) : ∀ (s : Str) (pos skip : Nat), Rising pos (scan len pos skip s) := by
  intro s
  induction s with
  | nil => intro pos skip; cases skip <;> simp [scan, Rising]
  | cons c s ih =>
    intro pos skip
    cases skip with
    | succ k => simp only [scan]; exact (ih _ _).low (by omega)
    | zero =>
      simp only [scan]
      split
      · exact (ih _ _).low (by omega)
      · exact ⟨Nat.le_refl _, (ih _ _).low (by omega)⟩

theorem rising_take {lo i k : Nat} : ∀ {bs : List (Nat × Nat)} {rest : List (Nat × Nat)}, Rising lo bs → lo ≤ i →
    Rising i rest → Rising lo (bs.takeWhile (·.1 < i) ++ (i, k) :: rest) := by
  intro bs
  induction bs generalizing lo with
  | nil => intro rest _ hi hr; exact ⟨hi, hr⟩
  | cons b bs ih =>
    intro rest hb hi hr
    obtain ⟨j, n⟩ := b
    rw [List.takeWhile_cons]
    split
    · rename_i hj
      have hj : j < i := by simpa using hj
      exact ⟨hb.1, ih hb.2 (by omega) hr⟩
    · exact ⟨hi, hr⟩

theorem rising_drop {lo i : Nat} : ∀ {bs : List (Nat × Nat)}, Rising lo bs → Rising i (bs.dropWhile (·.1 < i)) := by
  intro bs
  induction bs generalizing lo with
  | nil => intro _; trivial
  | cons b bs ih =>
    intro hb
    obtain ⟨j, n⟩ := b
    rw [List.dropWhile_cons]
    split
    · exact ih hb.2
    · rename_i hj
      have hj : ¬ j < i := by simpa using hj
      exact ⟨by omega, hb.2⟩

theorem merge_rising : ∀ {as bs : List (Nat × Nat)} {lo : Nat}, Rising lo as → Rising lo bs → Rising lo (mergeFound as bs) := by
  intro as
  induction as with
  | nil => intro bs lo _ hb; exact hb
  | cons a as ih =>
    intro bs lo ha hb
    obtain ⟨i, k⟩ := a
    simp only [mergeFound]
    exact rising_take hb ha.1 (ih ha.2 (rising_drop hb))

theorem merge_fw (g : Nat) (s : Str) : ∀ (as bs : List (Nat × Nat)), fw g s (mergeFound as bs) = fw g s as + fw g s bs ∧
    (mergeFound as bs).length = as.length + bs.length := by
  intro as
  induction as with
  | nil => intro bs; simp [mergeFound, fw]
  | cons a as ih =>
    intro bs
    obtain ⟨i, k⟩ := a
    obtain ⟨h1, h2⟩ := ih (bs.dropWhile (·.1 < i))
    have h3 : fw g s bs = fw g s (bs.takeWhile (·.1 < i)) + fw g s (bs.dropWhile (·.1 < i)) := by
      rw [← fw_append, List.takeWhile_append_dropWhile]
    have h4 : bs.length = (bs.takeWhile (·.1 < i)).length + (bs.dropWhile (·.1 < i)).length := by
      rw [← List.length_append, List.takeWhile_append_dropWhile]
    simp only [mergeFound, fw_append, fw, h1, List.length_append, List.length_cons, h2]
    omega

theorem fw_length {g : Nat} {s : Str} {xs : List (Nat × Nat)} (h : ∀ x ∈ xs, 1 ≤ wt g (slice s x.1 (x.1 + x.2))) :
    xs.length ≤ fw g s xs := by
  induction xs with
  | nil => exact Nat.le_refl _
  | cons x xs ih =>
    have h1 := ih fun y hy => h y (List.mem_cons_of_mem _ hy)
    have h2 := h x (by simp)
    simp only [List.length_cons, fw]; omega

theorem wt_slice_drop (g : Nat) (s : Str) {lo last i : Nat} (h : lo ≤ last) (hi : lo ≤ i) :
    wt g (slice s last i) + wt g (s.drop i) ≤ wt g (s.drop lo) := by
  have h1 := wt_append g ((s.drop lo).take (i - lo)) ((s.drop lo).drop (i - lo))
  rw [List.take_append_drop, List.drop_drop, show lo + (i - lo) = i by omega] at h1
  have h2 : (slice s last i).Sublist ((s.drop lo).take (i - lo)) := by
    unfold slice
    by_cases hl : last ≤ i
    · have e : (s.drop last).take (i - last) = ((s.drop lo).take (i - lo)).drop (last - lo) := by
        rw [List.drop_take, List.drop_drop, show lo + (last - lo) = last by omega, show i - lo - (last - lo) = i - last by omega]
      rw [e]; exact List.drop_sublist _ _
    · rw [show i - last = 0 by omega, List.take_zero]; exact List.nil_sublist _
  have := wt_sublist (g := g) h2
  omega

theorem wt_splitPair {g : Nat} (_hg : g ≤ 1) (a b : Char) : ∀ s : Str,
    wt g ((splitPair a b s).getD 0 []) + wt g ((splitPair a b s).getD 1 []) ≤ wt g s := by
  intro s
  suffices h : ∀ n (s : Str), s.length ≤ n → wt g ((splitPair a b s).getD 0 []) + wt g ((splitPair a b s).getD 1 []) ≤ wt g s ∧
      wt g ((splitPair a b s).getD 0 []) ≤ wt g s from (h s.length s (Nat.le_refl _)).1
  intro n
  induction n with
  | zero => intro s hs; cases s with
    | nil => simp [splitPair, wt]
    | cons c s => simp at hs
  | succ n ih =>
    intro s hs
    match s with
    | [] => simp [splitPair, wt]
    | [x] => simp [splitPair, wt]
    | x :: y :: rest =>
      simp only [splitPair]
      split
      · have := (ih rest (by simp only [List.length_cons] at hs; omega)).2
        simp only [List.getD_cons_zero, List.getD_cons_succ, wt]
        omega
      · have h1 := ih (y :: rest) (by simp only [List.length_cons] at hs ⊢; omega)
        cases hp : splitPair a b (y :: rest) with
        | nil => rw [hp] at h1; simp [consHead, wt]
        | cons p ps =>
          rw [hp] at h1
          simp only [consHead, List.getD_cons_zero, List.getD_cons_succ] at h1 ⊢
          simp only [wt] at h1 ⊢
          omega

theorem wt_halves {g : Nat} (hg : g ≤ 1) (s : Str) : wt g (linkHalves s).1 + wt g (linkHalves s).2 ≤ wt g s + 2 := by
  unfold linkHalves
  simp only [wt_append]
  generalize (if isIn c!"](" s then '(' else '[') = o
  have h1 := wt_splitPair hg ']' o s
  have h2 := wt_strip g ((splitPair ']' o s).getD 0 [])
  have h3 := wt_strip g ((splitPair ']' o s).getD 1 [])
  have h4 : wt g [']', o] ≤ 2 := wt_mono hg _
  omega

theorem wt_dot_le {g : Nat} (_hg : g ≤ 1) (s : Str) : wt g (dotOf s) ≤ 1 := by
  unfold dotOf; split <;> simp [wt]

theorem wt_undot (g : Nat) (s : Str) : wt g (undot s) ≤ wt g s := by have := wt_dot g s; omega

theorem bw_linkBits {g : Nat} (hg : g ≤ 1) (s : Str) : ∀ (xs : List (Nat × Nat)) (first : Option Bool) (lo last : Nat), Rising lo xs →
    lo ≤ last → bw g (linkBits s first last xs) ≤ wt g (s.drop lo) + fw g s xs + 6 * xs.length + 1 := by
  intro xs
  induction xs with
  | nil =>
    intro first lo last _ hl
    simp only [linkBits, fw, List.length_nil]
    have h1 := bw_plain g first (if first.isSome then s.drop last else undot (s.drop last))
    have h2 : wt g (if first.isSome then s.drop last else undot (s.drop last)) ≤ wt g (s.drop last) := by
      split
      · exact Nat.le_refl _
      · exact wt_undot _ _
    have h3 : wt g (s.drop last) ≤ wt g (s.drop lo) := by
      rw [show last = lo + (last - lo) by omega, ← List.drop_drop]
      exact wt_sublist (List.drop_sublist _ _)
    omega
  | cons x xs ih =>
    intro first lo last hr hl
    obtain ⟨i, n⟩ := x
    have h1 := ih none i (i + n) hr.2 (by omega)
    have h2 := wt_slice_drop g s hl hr.1
    have h3 := wt_halves hg (slice s i (i + n))
    have h4 := wt_dot_le hg (upTo s (i + n) xs)
    have h5 : wt g (strip (if first.isSome then slice s last i else undot (slice s last i))) ≤ wt g (slice s last i) := by
      refine Nat.le_trans (wt_strip _ _) ?_
      split
      · exact Nat.le_refl _
      · exact wt_undot _ _
    simp only [linkBits, bw_append, fw, List.length_cons]
    split <;> simp only [bw, wt_append] <;> omega

theorem linkFront_mem {o c : Char} : ∀ {s : Str} {n : Nat}, linkFront o c s = some n → '[' ∈ s.take n := by
  intro s
  induction s with
  | nil => intro n h; simp [linkFront] at h
  | cons x s ih =>
    intro n h
    simp only [linkFront] at h
    split at h
    · cases h
    · split at h
      · rename_i m hm
        cases h
        rw [List.take_succ_cons]
        exact List.mem_cons_of_mem _ (ih hm)
      · split at h
        · rename_i hx
          cases hn : nameLen o c s with
          | none => rw [hn] at h; cases h
          | some m =>
            rw [hn] at h
            cases h
            rw [List.take_succ_cons, hx]
            exact List.mem_cons_self
        · cases h

theorem link_ge (g : Nat) (o c : Char) (S : Str) : ∀ x ∈ scan (linkLen o c) 0 0 S, 1 ≤ wt g (slice S x.1 (x.1 + x.2)) := by
  refine scan_each (linkLen o c) S (fun x => 1 ≤ wt g (slice S x.1 (x.1 + x.2))) ?_ S 0 0 rfl
  intro i n h
  have hm : '[' ∈ (S.drop i).take (n + 1) := by
    unfold linkLen at h
    split at h
    · cases h
    · rename_i m hm
      have h1 := linkFront_mem hm
      have : (S.drop i).take m = ((S.drop i).take (n + 1)).take m := by
        rw [List.take_take]; congr 1; omega
      rw [this] at h1
      exact (List.take_sublist _ _).subset h1
  unfold slice
  rw [show i + (n + 1) - i = n + 1 by omega]
  exact wt_ge hm (by decide)

theorem bw_linkPieces {g : Nat} (hg : g ≤ 1) {lead : Bool} {s : Str} {bs : List Bit} (h : linkPieces lead s = .ok bs) :
    bw g bs ≤ 15 * wt g s + 1 := by
  unfold linkPieces at h
  split at h
  · cases h
  · cases h
    have hr : Rising 0 (links s) := merge_rising (scan_rising _ _ _ _) (scan_rising _ _ _ _)
    have h1 := bw_linkBits hg s (links s) (some lead) 0 0 hr (Nat.le_refl _)
    obtain ⟨h2, h3⟩ := merge_fw g s (scan (linkLen '[' ']') 0 0 s) (scan (linkLen '(' ')') 0 0 s)
    have h4 := fw_scan g (linkLen '[' ']') s s 0 0 rfl
    have h5 := fw_scan g (linkLen '(' ')') s s 0 0 rfl
    have h6 := fw_length (link_ge g '[' ']' s)
    have h7 := fw_length (link_ge g '(' ')' s)
    simp only [List.drop_zero] at h1 h4 h5
    unfold links at h1 ⊢
    rw [h2, h3] at h1
    omega

theorem bw_brBits {g : Nat} (s : Str) : ∀ (xs : List (Nat × Nat)) (first : Option Bool) (lo last : Nat), Rising lo xs →
    lo ≤ last → bw g (brBits s first last xs) ≤ wt g (s.drop lo) + fw g s xs + 2 * xs.length + 1 := by
  intro xs
  induction xs with
  | nil =>
    intro first lo last _ hl
    simp only [brBits, fw, List.length_nil]
    have h1 := bw_plain g first (s.drop last)
    have h3 : wt g (s.drop last) ≤ wt g (s.drop lo) := by
      rw [show last = lo + (last - lo) by omega, ← List.drop_drop]
      exact wt_sublist (List.drop_sublist _ _)
    omega
  | cons x xs ih =>
    intro first lo last hr hl
    obtain ⟨i, n⟩ := x
    have h1 := ih none i (i + n) hr.2 (by omega)
    have h2 := wt_slice_drop g s hl hr.1
    have h5 := wt_strip g (slice s last i)
    simp only [brBits, bw_append, fw, List.length_cons]
    split <;> simp only [bw] <;> omega

theorem br_ge (g : Nat) (S : Str) : ∀ x ∈ scan brLen 0 0 S, 1 ≤ wt g (slice S x.1 (x.1 + x.2)) := by
  refine scan_each brLen S (fun x => 1 ≤ wt g (slice S x.1 (x.1 + x.2))) ?_ S 0 0 rfl
  intro i n h
  have hm : ((S.drop i).head?) = some '<' := by
    unfold brLen at h
    split at h
    · cases h
    · rename_i b hb
      have h1 := List.find?_some hb
      have h2 := List.mem_of_find?_eq_some hb
      have h3 : b.head? = some '<' := by
        revert h2; revert b; intro b _ _ _ h2
        simp only [List.mem_cons, List.not_mem_nil, or_false] at h2
        rcases h2 with rfl | rfl | rfl | rfl <;> rfl
      unfold startsWith at h1
      obtain ⟨t, ht⟩ := List.isPrefixOf_iff_prefix.1 h1
      rw [← ht]
      cases b with
      | nil => cases h3
      | cons c b => simpa using h3
  unfold slice
  rw [show i + (n + 1) - i = n + 1 by omega]
  cases hd : S.drop i with
  | nil => rw [hd] at hm; cases hm
  | cons c r =>
    rw [hd] at hm
    cases hm
    rw [List.take_succ_cons]
    exact wt_ge List.mem_cons_self (by decide)

theorem bw_brPieces (g : Nat) (lead : Bool) (s : Str) : bw g (brPieces lead s) ≤ 4 * wt g s + 1 := by
  unfold brPieces
  have h1 := bw_brBits (g := g) s (scan brLen 0 0 s) (some lead) 0 0 (scan_rising _ _ _ _) (Nat.le_refl _)
  have h2 := fw_scan g brLen s s 0 0 rfl
  have h3 := fw_length (br_ge g s)
  simp only [List.drop_zero] at h1 h2
  omega

theorem bw_wordPieces {g : Nat} (hg : g ≤ 1) (lead : Bool) (s : Str) : bw g (wordPieces lead s) ≤ wt g s + 1 := by
  have h1 : wts g (((splitChar ' ' s).filter (· ≠ [])).map strip) ≤ wt g s + 1 := by
    refine Nat.le_trans (wts_map (wt_strip g) _) (Nat.le_trans ?_ (wts_splitChar hg (sep := ' ') (by decide) s))
    generalize splitChar ' ' s = ls
    induction ls with
    | nil => exact Nat.le_refl _
    | cons l ls ih =>
      rw [List.filter_cons]
      split <;> simp only [wts] <;> omega
  unfold wordPieces
  cases h : ((splitChar ' ' s).filter (· ≠ [])).map strip with
  | nil => simp [bw]
  | cons w ws =>
    rw [h] at h1
    simp only [bw, wts] at h1 ⊢
    have : bw g (ws.map fun v => ⟨true, v, true⟩) = wts g ws := by
      clear h h1
      induction ws with
      | nil => rfl
      | cons v ws ih => simp only [List.map_cons, bw, wts, ih]
    omega

theorem bw_refine {g k : Nat} (hk : 1 ≤ k) {f : Bool → Str → Except Err (List Bit)}
    (hf : ∀ l s bs, f l s = .ok bs → bw g bs ≤ k * wt g s + 1) :
    ∀ (bs : List Bit) {out : List Bit}, refine f bs = .ok out → bw g out ≤ k * bw g bs := by
  intro bs
  induction bs with
  | nil => intro out h; cases h; simp [bw]
  | cons b bs ih =>
    intro out h
    simp only [refine, bind, Except.bind] at h
    have key : ∀ x y : List Bit, refine f bs = .ok y → bw g x ≤ k * wt g b.text + k → bw g (x ++ y) ≤ k * bw g (b :: bs) := by
      intro x y hy h2
      have h1 := ih hy
      rw [bw_append]
      simp only [bw, Nat.mul_add]
      omega
    by_cases ho : b.isOpen = true
    · rw [if_pos ho] at h
      split at h
      · cases h
      · rename_i x hx
        split at h
        · cases h
        · rename_i y hy
          cases h
          have := hf _ _ _ hx
          exact key x y hy (by omega)
    · rw [if_neg ho] at h
      split at h
      · cases h
      · rename_i y hy
        cases h
        refine key [b] y hy ?_
        simp only [bw]
        have := Nat.mul_le_mul_right (wt g b.text) hk
        omega

theorem wts_fillLines {g : Nat} (_hg : g ≤ 1) (w : Width) : ∀ (bs : List Bit) (cur : Str),
    wts g (fillLines w cur bs) ≤ (if cur = [] then 0 else wt g cur + 1) + bw g bs := by
  intro bs
  induction bs with
  | nil => intro cur; simp only [fillLines]; split <;> simp [wts, bw]
  | cons b bs ih =>
    intro cur
    have hnil := ih []
    simp only [if_true] at hnil
    have hany : ∀ l : Str, wts g (if brLen b.text ≠ 0 then l :: fillLines w [] bs else fillLines w l bs) ≤ wt g l + 1 + bw g bs := by
      intro l
      split
      · simp only [wts]; omega
      · have := ih l
        split at this <;> omega
    have hsp : wt g (if (b.space && decide (cur ≠ [])) = true then cur ++ ' ' :: b.text else cur ++ b.text) ≤
        (if cur = [] then 0 else wt g cur + 1) + wt g b.text := by
      by_cases hc : cur = []
      · subst hc; simp
      · rw [if_neg hc]
        split
        · simp only [wt_append, wt]; rw [if_neg (by decide)]; omega
        · simp only [wt_append]; omega
    unfold fillLines
    simp only [bw]
    generalize (if (b.space && decide (cur ≠ [])) = true then cur ++ ' ' :: b.text else cur ++ b.text) = lg at hsp
    by_cases hf : (decide (cur = []) || fitsIn w lg.length) = true
    · rw [if_pos hf]
      have := hany lg
      omega
    · rw [if_neg hf]
      have hc : cur ≠ [] := by intro h; simp [h] at hf
      rw [if_neg hc]
      simp only [wts]
      have := hany b.text
      omega

/-- Wrapping makes a text at most 180 times as long, whatever it repeats. -/
theorem wt_wrap {g : Nat} (hg : g ≤ 1) {text out : Str} {w : Width} (h : wrap text w = .ok out) :
    wt g out ≤ 180 * (wt g text + 1) := by
  rw [C118_wrap] at h
  unfold wrapRef at h
  simp only [bind, Except.bind] at h
  have h0 := wt_wrapInput hg text
  split at h
  · cases h
  · rename_i b1 h1
    split at h
    · cases h
    · rename_i b2 h2
      split at h
      · cases h
      · rename_i b3 h3
        split at h
        · cases h
        · rename_i b4 h4
          cases h
          have e1 := bw_codePieces (g := g) h1
          have e2 := bw_refine (g := g) (k := 15) (by decide) (fun l s bs hb => bw_linkPieces hg hb) _ h2
          have e3 := bw_refine (g := g) (k := 4) (by decide)
            (fun l s bs hb => by cases hb; exact bw_brPieces g l s) _ h3
          have e4 := bw_refine (g := g) (k := 1) (by decide)
            (fun l s bs hb => by cases hb; have := bw_wordPieces hg l s; omega) _ h4
          have e5 := wts_fillLines hg w b4 []
          simp only [if_true] at e5
          have e6 := wt_pyJoin' hg '\n' (fillLines w [] b4)
          omega

end MF
