import Verif.Lemmas.Lines
import Verif.Model.Detect
/-!
# Removing a quote marker from a line
-/

namespace MF

/-- the line starts with a quote marker: up to three spaces and a `>`; `r` is the rest -/
def Marked (l r : Str) : Prop := ∃ k, k ≤ 3 ∧ l = List.replicate k ' ' ++ '>' :: r

theorem leadingQuote_step {l : Str} {st : MS} (h : leadingQuoteRx.Step ⟨[], l, []⟩ st) :
    ∃ k, k ≤ 3 ∧ l = List.replicate k ' ' ++ '>' :: st.post ∧ st.pre.length = k + 1 := by
  simp only [leadingQuoteRx, Rx.seqs, Rx.Step] at h
  obtain ⟨m1, ⟨_, rfl⟩, m2, h2, c, cs, h3, h4, h5⟩ := h
  obtain ⟨u, ⟨hu1, hu2⟩, hall, _, hmx, _⟩ := repStep_chr h2
  simp only at hu1 hu2 h5 h3
  have hu : u = List.replicate u.length ' ' := by
    rw [List.eq_replicate_iff]
    exact ⟨rfl, fun b hb => by simpa using hall b hb⟩
  refine ⟨u.length, hmx 3 rfl, ?_, ?_⟩
  · rw [← hu]
    subst h5
    rw [hu1, h3]
    simp only [beq_iff_eq] at h4
    rw [h4]
  · subst h5
    simp [hu2]

theorem leadingQuote_intro {l r : Str} (h : Marked l r) : ∃ st, leadingQuoteRx.Step ⟨[], l, []⟩ st := by
  obtain ⟨k, hk, rfl⟩ := h
  refine ⟨⟨'>' :: (List.replicate k ' ').reverse, r, []⟩, ?_⟩
  simp only [leadingQuoteRx, Rx.seqs, Rx.Step]
  refine ⟨_, ⟨trivial, rfl⟩, ⟨(List.replicate k ' ').reverse, '>' :: r, []⟩, ?_, '>', r, rfl, by decide, rfl⟩
  have := repStep_chr_intro (p := fun c => c == ' ') (List.replicate k ' ') (by simp) (mn := 0) (mx := some 3) (pre := [])
    (post := '>' :: r) (caps := []) (by omega) (by simp; omega)
  rw [List.append_nil] at this
  exact this

theorem bol_later {r : Rx} {c : Char} {pre post : Str} : (Rx.seq .bol r).matchAt (c :: pre) post = none := by
  simp [Rx.matchAt, Rx.run]

theorem bol_searchFrom {r : Rx} (post : Str) : ∀ (c : Char) (pre : Str), (Rx.seq .bol r).searchFrom (c :: pre) post = none := by
  induction post with
  | nil => intro c pre; simp only [Rx.searchFrom]; exact bol_later
  | cons x xs ih =>
    intro c pre
    simp only [Rx.searchFrom]
    rw [bol_later]
    exact ih _ _

theorem leadingQuote_bol : ∃ r, leadingQuoteRx = .seq .bol r := ⟨_, rfl⟩

/-- a marker is removed -/
theorem unquote_marked {l r : Str} (h : Marked l r) : unquote l = r := by
  obtain ⟨st0, h0⟩ := leadingQuote_intro h
  have hs := Rx.matchAt_isSome h0
  obtain ⟨m, hm⟩ := Option.isSome_iff_exists.1 hs
  obtain ⟨st, h1, h2, h3, _, _⟩ := Rx.matchAt_sound hm
  obtain ⟨k, hk, hl, hp⟩ := leadingQuote_step h1
  have hr : st.post = r := by
    obtain ⟨k', _, hl'⟩ := h
    rw [hl] at hl'
    have hkk : ∀ (k k' : Nat) (x y : Str), List.replicate k ' ' ++ '>' :: x = List.replicate k' ' ' ++ '>' :: y → x = y := by
      intro k
      induction k with
      | zero =>
        intro k' x y h
        cases k' with
        | zero => simpa using h
        | succ k' => simp [List.replicate_succ] at h
      | succ k ih =>
        intro k' x y h
        cases k' with
        | zero => simp [List.replicate_succ] at h
        | succ k' =>
          simp only [List.replicate_succ, List.cons_append, List.cons.injEq, true_and] at h
          exact ih k' x y h
    exact hkk _ _ _ _ hl'
  obtain ⟨rx, hrx⟩ := leadingQuote_bol
  have hsearch : leadingQuoteRx.searchFrom [] l = some m := by
    have : leadingQuoteRx.search l = some m := Rx.search_of_matchAt hm
    exact this
  have hfind : leadingQuoteRx.finditer l = [m] := by
    unfold Rx.finditer
    simp only [Rx.finditerFrom, hsearch]
    rw [if_neg (by simp [h3, hp])]
    congr 1
    cases hlen : l.length with
    | zero => rfl
    | succ n =>
      simp only [Rx.finditerFrom]
      have : ∃ c pre, (l.take (m.stop - ([] : Str).length)).reverse ++ [] = c :: pre := by
        rw [h3, hp]
        simp only [List.length_nil, Nat.sub_zero, List.append_nil]
        cases hx : (l.take (k + 1)).reverse with
        | nil =>
          have := congrArg List.length hx
          simp [hlen] at this
        | cons c pre => exact ⟨c, pre, rfl⟩
      obtain ⟨c, pre, hcp⟩ := this
      rw [hcp, hrx, bol_searchFrom]
  unfold unquote Rx.subEmpty Rx.split
  rw [hfind]
  simp only [splitAt', h2, h3, hp, List.length_nil, slice]
  simp only [List.drop_zero, Nat.sub_self, List.take_zero, List.flatten_cons, List.nil_append, List.flatten_nil,
    List.append_nil]
  rw [hl, ← hr]
  rw [show k + 1 = (List.replicate k ' ' ++ ['>']).length by simp]
  rw [show List.replicate k ' ' ++ '>' :: st.post = (List.replicate k ' ' ++ ['>']) ++ st.post by simp]
  rw [List.drop_left]

/-- a line without a marker stays as it is -/
theorem unquote_unmarked {l : Str} (h : ∀ r, ¬ Marked l r) : unquote l = l := by
  have hnone : leadingQuoteRx.matchAt [] l = none := by
    cases hm : leadingQuoteRx.matchAt [] l with
    | none => rfl
    | some m =>
      obtain ⟨st, h1, _⟩ := Rx.matchAt_sound hm
      obtain ⟨k, hk, hl, _⟩ := leadingQuote_step h1
      exact absurd ⟨k, hk, hl⟩ (h _)
  have hsearch : leadingQuoteRx.searchFrom [] l = none := by
    obtain ⟨rx, hrx⟩ := leadingQuote_bol
    have := Rx.search_bol_eq rx l
    rw [← hrx, hnone] at this
    exact this
  unfold unquote Rx.subEmpty Rx.split Rx.finditer
  simp only [Rx.finditerFrom, hsearch, splitAt', List.drop_zero, List.flatten_cons, List.flatten_nil, List.append_nil]

/-- a line with only spaces for indentation that is recognised as quoted has a marker -/
theorem quote_marked {l : Str} (hq : isQuote l = true) (hs : ∀ c ∈ l, isWs c = true → c = ' ') : ∃ r, Marked l r := by
  simp only [isQuote, Bool.and_eq_true, Bool.not_eq_true'] at hq
  obtain ⟨h1, h2⟩ := hq
  obtain ⟨r, hr⟩ := (startsWith_single _ _).1 h2
  obtain ⟨t, ht, hall⟩ := lstrip_split l
  refine ⟨r, t.length, ?_, ?_⟩
  · have hne : strip l ≠ [] := by
      rw [Ne, ← lstrip_eq_nil_iff_strip, hr]; simp
    have hgi : getIndent l = t.length := by
      unfold getIndent
      conv => lhs; lhs; rw [ht]
      simp
    unfold isIndentedStart at h1
    rw [hgi] at h1
    simp [hne] at h1
    omega
  · have : t = List.replicate t.length ' ' := by
      rw [List.eq_replicate_iff]
      exact ⟨rfl, fun b hb => hs b (by rw [ht]; simp [hb]) (hall b hb)⟩
    rw [← this, ← hr]
    exact ht

theorem Marked.isQuote {l r : Str} (h : Marked l r) : MF.isQuote l = true := by
  obtain ⟨k, hk, rfl⟩ := h
  have hls : lstrip (List.replicate k ' ' ++ '>' :: r) = '>' :: r := by
    rw [lstrip_append_ws _ _ (by intro x hx; rw [List.eq_of_mem_replicate hx]; decide)]
    exact lstrip_cons_of_not _ _ (by decide)
  simp only [MF.isQuote, Bool.and_eq_true, Bool.not_eq_true', isIndentedStart]
  have hgi : getIndent (List.replicate k ' ' ++ '>' :: r) = k := by
    unfold getIndent
    rw [hls]
    simp
  refine ⟨?_, ?_⟩
  · rw [hgi]; simp; omega
  · rw [hls]; simp [startsWith]

end MF
