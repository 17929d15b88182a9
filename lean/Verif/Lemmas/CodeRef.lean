import Verif.Props.WrapRef
import Verif.Lemmas.Pieces
/-!
# `code_split` as a scan over runs of backticks
-/

namespace MF

/-- The three lists of a list of pieces. -/
def toToks (bs : List Bit) : Toks := ⟨bs.map (·.text), bs.map (·.space), bs.map (·.isOpen)⟩

theorem plainBits_none (s : Str) (h : strip s = []) (l : Option Bool) : plainBits l s = [] := by
  unfold plainBits; rw [if_pos h]

theorem tickRuns_none {s : Str} (h : '`' ∉ s) : tickRuns s = (s, []) := by
  induction s with
  | nil => rfl
  | cons c s ih =>
    simp only [List.mem_cons, not_or] at h
    rw [tickRuns, ih h.2]
    simp only
    rw [if_neg (Ne.symm h.1)]

theorem tickRuns_ticks (k : Nat) {s : Str} (hs : s.head? ≠ some '`') :
    tickRuns (ticks (k + 1) ++ s) = ([], (k + 1, (tickRuns s).1) :: (tickRuns s).2) := by
  induction k with
  | zero =>
    show tickRuns ('`' :: s) = _
    rw [tickRuns]
    simp only [if_true]
    cases s with
    | nil => rfl
    | cons c s =>
      have hc : c ≠ '`' := by intro h; subst h; exact hs rfl
      rw [tickRuns]
      simp only [if_neg hc]
  | succ k ih =>
    have : ticks (k + 1 + 1) ++ s = '`' :: (ticks (k + 1) ++ s) := by simp [ticks, List.replicate_succ]
    rw [this, tickRuns, ih]
    simp only [if_true]

theorem tickRuns_run {u s : Str} {k : Nat} (hu : '`' ∉ u) (hk : 0 < k) (hs : s.head? ≠ some '`') :
    tickRuns (u ++ (ticks k ++ s)) = (u, (k, (tickRuns s).1) :: (tickRuns s).2) := by
  induction u with
  | nil =>
    obtain ⟨i, rfl⟩ : ∃ i, k = i + 1 := ⟨k - 1, by omega⟩
    exact tickRuns_ticks i hs
  | cons c u ih =>
    simp only [List.mem_cons, not_or] at hu
    rw [List.cons_append, tickRuns, ih hu.2]
    simp only
    rw [if_neg (Ne.symm hu.1)]

/-- what a stretch of plain text and a run of backticks do behind code -/
theorem codeStep_out {text : Str} {ls : Bool} {bs : List Bit} {sp : Bool} {z u : Str} {last : Nat} {m : Match}
    (hu : slice text last m.start = u) :
    codeStep text ls ⟨toToks (bs ++ [⟨sp, z, false⟩]), 0, last⟩ m =
      .ok ⟨toToks ((bs ++ ⟨sp, z ++ dotOf u, false⟩ :: plainBits none (undot u)) ++
        [⟨endsWith (undot u) c!" ", ticks m.text.length, false⟩]), m.text.length, m.stop⟩ := by
  unfold codeStep
  simp only [hu, beq_self_eq_true, if_true, moveDot]
  have hne : (toToks (bs ++ [⟨sp, z, false⟩])).split.isEmpty = false := by simp [toToks]
  simp only [hne, Bool.not_false, Bool.and_true, bind, Except.bind]
  have hsplit : (toToks (bs ++ [⟨sp, z, false⟩])).split = bs.map (·.text) ++ [z] := by simp [toToks]
  unfold dotOf undot plainBits
  cases startsSingleDot u with
  | true =>
    simp only [if_true, hsplit, appendLast_concat, Except.map]
    generalize u.drop 1 = v
    by_cases h : strip v = []
    · simp [h, toToks, ticks]
    · simp [h, toToks, ticks]
  | false =>
    simp only [Bool.false_eq_true, if_false]
    by_cases h : strip u = []
    · simp [h, toToks, ticks]
    · simp [h, toToks, ticks]

theorem codeStep_first {text : Str} {ls : Bool} {u : Str} {m : Match} (hu : slice text 0 m.start = u) :
    codeStep text ls ⟨toToks [], 0, 0⟩ m =
      .ok ⟨toToks (plainBits (some ls) u ++
        [⟨if strip u = [] then ls else endsWith u c!" ", ticks m.text.length, false⟩]), m.text.length, m.stop⟩ := by
  unfold codeStep
  simp only [hu, beq_self_eq_true, if_true, moveDot]
  have hne : (toToks []).split.isEmpty = true := rfl
  simp only [hne, Bool.not_true, Bool.and_false, Bool.false_eq_true, if_false, bind, Except.bind]
  unfold plainBits
  by_cases h : strip u = []
  · simp [h, toToks, ticks]
  · simp [h, toToks, ticks]

theorem codeStep_within {text : Str} {ls : Bool} {bs : List Bit} {sp : Bool} {z u : Str} {last k : Nat} {m : Match}
    (hk : 0 < k) (hmt : m.text = ticks m.text.length)
    (hu : slice text last m.start = u) (hu2 : slice text last m.stop = u ++ m.text) :
    codeStep text ls ⟨toToks (bs ++ [⟨sp, z, false⟩]), k, last⟩ m =
      .ok ⟨toToks (bs ++ [⟨sp, z ++ u ++ ticks m.text.length, false⟩]), if m.text.length = k then 0 else k, m.stop⟩ := by
  unfold codeStep
  have hk0 : (k == 0) = false := by simp; omega
  have hsplit : (toToks (bs ++ [⟨sp, z, false⟩])).split = bs.map (·.text) ++ [z] := by simp [toToks]
  simp only [hk0, Bool.false_eq_true, if_false, hu, hu2, bind, Except.bind, hsplit, appendLast_concat]
  by_cases h : m.text.length = k
  · simp [h, toToks, ticks]
  · have : (m.text.length == k) = false := by simpa using h
    simp only [this, Bool.false_eq_true, if_false, h]
    rw [← hmt]
    simp [toToks]

theorem codeEnd_out {text : Str} {ls : Bool} {bs : List Bit} {sp : Bool} {z s : Str} {last : Nat} {k : Nat}
    (hz : markerCount z ≠ 1) (hs : text.drop last = s) (hl : 0 < last) :
    codeEnd text ls ⟨toToks (bs ++ [⟨sp, z, false⟩]), k, last⟩ =
      .ok (toToks (bs ++ ⟨sp, z ++ dotOf s, false⟩ :: plainBits none (undot s))) := by
  unfold codeEnd
  have hsplit : (toToks (bs ++ [⟨sp, z, false⟩])).split = bs.map (·.text) ++ [z] := by simp [toToks]
  have hlast : (bs.map (·.text) ++ [z]).getLast?.any (fun s => markerCount s == 1) = false := by simpa using hz
  have hl0 : (last == 0) = false := by simp; omega
  simp only [hs, hsplit, hlast, Bool.false_eq_true, if_false, moveDot, hl0]
  unfold dotOf undot plainBits
  cases startsSingleDot s with
  | true =>
    simp only [if_true, appendLast_concat, Except.map, bind, Except.bind]
    generalize s.drop 1 = v
    by_cases h : strip v = []
    · simp [h, toToks]
    · simp [h, toToks]
  | false =>
    simp only [Bool.false_eq_true, if_false, bind, Except.bind]
    by_cases h : strip s = []
    · simp [h, toToks]
    · simp [h, toToks]

theorem codeEnd_open {text : Str} {ls : Bool} {bs : List Bit} {sp : Bool} {z s : Str} {last : Nat} {k : Nat}
    (hz : markerCount z = 1) (hs : text.drop last = s) :
    codeEnd text ls ⟨toToks (bs ++ [⟨sp, z, false⟩]), k, last⟩ =
      .ok (toToks (bs ++ [⟨sp, z ++ rstrip s, true⟩])) := by
  unfold codeEnd
  have hsplit : (toToks (bs ++ [⟨sp, z, false⟩])).split = bs.map (·.text) ++ [z] := by simp [toToks]
  have hlast : (bs.map (·.text) ++ [z]).getLast?.any (fun s => markerCount s == 1) = true := by simpa using hz
  simp only [hs, hsplit, hlast, if_true]
  by_cases h : strip s = []
  · have : rstrip s = [] := (rstrip_eq_nil s).2 ((strip_eq_nil s).1 h)
    simp [h, this, toToks]
  · simp only [appendLast_concat, bind, Except.bind]
    simp [h, toToks]

/-- what the rest of the text adds -/
theorem codeFold_ref {text : Str} {ls : Bool} {pre post : Str} {ms : List Match}
    (hf : Rx.Finds codeMarkerRx pre post ms) : text = pre.reverse ++ post → 0 < pre.length → ∀ bs sp z,
    (markerCount z ≠ 1 →
      (ms.foldlM (codeStep text ls) ⟨toToks (bs ++ [⟨sp, z, false⟩]), 0, pre.length⟩ >>= codeEnd text ls) =
        .ok (toToks (bs ++ ⟨sp, z ++ dotOf (tickRuns post).1, false⟩ ::
          codeBits (.out none (undot (tickRuns post).1)) (tickRuns post).2))) ∧
    (∀ k w, 0 < k → z = ticks k ++ w → w.head? ≠ some '`' → (w = [] ∨ '`' ∈ w) → post.head? ≠ some '`' →
      (ms.foldlM (codeStep text ls) ⟨toToks (bs ++ [⟨sp, z, false⟩]), k, pre.length⟩ >>= codeEnd text ls) =
        .ok (toToks (bs ++ codeBits (.within sp k z (tickRuns post).1) (tickRuns post).2))) := by
  induction hf with
  | @done pre post hn =>
    intro ht hpre bs sp z
    have hno := searchFrom_none_tick hn
    rw [tickRuns_none hno]
    have hdrop : text.drop pre.length = post := by rw [ht]; simp
    constructor
    · intro hz
      simp only [List.foldlM_nil, pure, Except.pure, bind, Except.bind]
      rw [codeEnd_out hz hdrop hpre, codeBits]
    · intro k w hk hz hw hww hh
      simp only [List.foldlM_nil, pure, Except.pure, bind, Except.bind]
      have hmc := markerCount_ticks hk hw
      rw [← hz] at hmc
      rw [codeBits]
      rcases hww with rfl | hww
      · rw [codeEnd_open (hmc.2 (by simp)) hdrop, if_pos (by rw [hz]; simp [ticks])]
      · rw [codeEnd_out (fun h => hmc.1 h hww) hdrop hpre, if_neg]
        intro hall
        rw [hz, List.all_append, Bool.and_eq_true] at hall
        cases w with
        | nil => cases hww
        | cons c w =>
          have := hall.2
          simp only [List.all_cons, Bool.and_eq_true, beq_iff_eq] at this
          exact hw (by rw [this.1]; rfl)
  | @step pre u rest m ms h1 h2 hne hs he hr ih =>
    intro ht hpre bs sp z
    obtain ⟨hu, hr'⟩ := codeFinds_step h1 h2
    have hmt : m.text = ticks m.text.length := codeMarker_text h2
    have hmpos : 0 < m.text.length := List.length_pos_iff.2 hne
    have hr'' : rest.head? ≠ some '`' := by
      cases rest with
      | nil => simp
      | cons c r => intro h0; simp at h0; subst h0; exact hr' r rfl
    have hruns : tickRuns (u ++ (m.text ++ rest)) = (u, (m.text.length, (tickRuns rest).1) :: (tickRuns rest).2) := by
      have := tickRuns_run hu hmpos hr''
      rwa [← hmt] at this
    rw [hruns]
    have hs1 : slice text pre.length m.start = u := by
      have := slice_mid pre.reverse u (m.text ++ rest)
      rwa [List.length_reverse, ← ht, ← hs] at this
    have hs2 : slice text pre.length m.stop = u ++ m.text := by
      have := slice_mid pre.reverse (u ++ m.text) rest
      rwa [List.length_reverse, List.append_assoc, ← ht, List.length_append, ← Nat.add_assoc, ← he] at this
    have hpre' : m.stop = (m.text.reverse ++ (u.reverse ++ pre)).length := by simp [he]; omega
    have ih := ih (by rw [ht]; simp) (by simp; omega)
    constructor
    · intro hz
      rw [List.foldlM_cons, codeStep_out hs1]
      simp only [Except.bind, bind]
      rw [hpre']
      have := (ih (bs ++ ⟨sp, z ++ dotOf u, false⟩ :: plainBits none (undot u)) (endsWith (undot u) c!" ")
        (ticks m.text.length)).2 m.text.length [] hmpos (by simp) (by simp) (.inl rfl) hr''
      simp only [Except.bind, bind] at this
      rw [this, codeBits]
      simp
    · intro k w hk hz hw hww hh
      rw [List.foldlM_cons, codeStep_within hk hmt hs1 hs2]
      simp only [Except.bind, bind]
      rw [hpre', codeBits]
      have hune : u ≠ [] := by
        rintro rfl
        rw [hmt, ticks_cons hmpos] at hh
        exact hh rfl
      have hw2 : (w ++ u ++ ticks m.text.length).head? ≠ some '`' := by
        cases w with
        | cons c w => exact hw
        | nil =>
          cases u with
          | nil => exact absurd rfl hune
          | cons c u => intro h; simp at h; subst h; simp at hu
      have hmem : '`' ∈ w ++ u ++ ticks m.text.length := by rw [ticks_cons hmpos]; simp
      have hz2 : z ++ u ++ ticks m.text.length = ticks k ++ (w ++ u ++ ticks m.text.length) := by rw [hz]; simp
      by_cases hjk : m.text.length = k
      · rw [if_pos hjk, if_pos hjk]
        have := (ih bs sp (z ++ u ++ ticks m.text.length)).1 (by
          rw [hz2]
          intro h0
          exact (markerCount_ticks hk hw2).1 h0 hmem)
        simp only [Except.bind, bind] at this
        rw [this, hjk]
      · rw [if_neg hjk, if_neg hjk]
        have := (ih bs sp (z ++ u ++ ticks m.text.length)).2 k _ hk hz2 hw2 (.inr hmem) hr''
        simp only [Except.bind, bind] at this
        rw [this]

theorem codeSplit_ref (text : Str) (ls : Bool) : codeSplit text ls = (codePieces ls text).map toToks := by
  rw [codeSplit_end]
  have hf := Rx.finditer_finds codeMarkerRx_nonEmpty text
  generalize codeMarkerRx.finditer text = ms at hf ⊢
  unfold codePieces
  simp only
  cases hf with
  | done hn =>
    rw [tickRuns_none (searchFrom_none_tick hn)]
    simp only [List.foldlM_nil, pure, Except.pure, Except.bind, codeBits, List.isEmpty_nil, Bool.true_and]
    unfold codeEnd plainBits
    simp only [List.getLast?_nil, Option.any_none, Bool.false_eq_true, if_false, List.drop_zero, moveDot, beq_self_eq_true,
      if_true, appendLast_nil]
    cases startsSingleDot text with
    | true => rfl
    | false =>
      simp only [Bool.false_eq_true, if_false, bind, Except.bind]
      by_cases h : strip text = []
      · simp [h, toToks, Except.map]
      · simp [h, toToks, Except.map]
  | @step _ u rest m ms h1 h2 hne hs he hr =>
    obtain ⟨hu, hr'⟩ := codeFinds_step h1 h2
    have hmt : m.text = ticks m.text.length := codeMarker_text h2
    have hmpos : 0 < m.text.length := List.length_pos_iff.2 hne
    have hr'' : rest.head? ≠ some '`' := by
      cases rest with
      | nil => simp
      | cons c r => intro h0; simp at h0; subst h0; exact hr' r rfl
    have hruns : tickRuns (u ++ (m.text ++ rest)) = (u, (m.text.length, (tickRuns rest).1) :: (tickRuns rest).2) := by
      have := tickRuns_run hu hmpos hr''
      rwa [← hmt] at this
    rw [hruns]
    have hs1 : slice (u ++ (m.text ++ rest)) 0 m.start = u := by
      have := slice_mid [] u (m.text ++ rest)
      rw [List.length_nil] at hs this
      rwa [← hs] at this
    have := codeStep_first (ls := ls) hs1
    simp only [List.foldlM_cons, bind, Except.bind, List.isEmpty_cons, Bool.false_and, Bool.false_eq_true, if_false]
    rw [show (⟨⟨[], [], []⟩, 0, 0⟩ : CodeSt) = ⟨toToks [], 0, 0⟩ from rfl, this]
    simp only
    have hpre' : m.stop = (m.text.reverse ++ (u.reverse ++ [])).length := by
      rw [he]; simp; omega
    have := (codeFold_ref (ls := ls) hr (text := u ++ (m.text ++ rest)) (by simp) (by simp; omega)
      (plainBits (some ls) u) (if strip u = [] then ls else endsWith u c!" ")
        (ticks m.text.length)).2 m.text.length [] hmpos (by simp) (by simp) (.inl rfl) hr''
    simp only [Except.bind, bind] at this
    rw [hpre', this, codeBits]
    rfl

end MF
