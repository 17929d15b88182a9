import Verif.Model.Wrap
import Verif.Lemmas.Join
import Verif.Lemmas.Finds
/-!
# Lemmas about `join`
-/

namespace MF

/-- the text without its white space -/
def nw (s : Str) : Str := s.filter fun c => !isWs c

theorem nw_append (a b : Str) : nw (a ++ b) = nw a ++ nw b := List.filter_append ..

theorem nw_nil : nw [] = [] := rfl

theorem nw_ws {s : Str} (h : ∀ c ∈ s, isWs c = true) : nw s = [] := by
  unfold nw
  rw [List.filter_eq_nil_iff]
  intro c hc
  simp [h c hc]

theorem nw_lstrip (s : Str) : nw (lstrip s) = nw s := by
  obtain ⟨t, h, hw⟩ := lstrip_split s
  conv => rhs; rw [h, nw_append, nw_ws hw, List.nil_append]

theorem nw_rstrip (s : Str) : nw (rstrip s) = nw s := by
  obtain ⟨t, h, hw⟩ := rstripBy_split isWs s
  conv => rhs; rw [h, nw_append, nw_ws hw, List.append_nil]
  rfl

theorem nw_strip (s : Str) : nw (strip s) = nw s := by
  unfold strip
  rw [nw_rstrip, nw_lstrip]

theorem nw_eq_nil {s : Str} : nw s = [] ↔ strip s = [] := by
  rw [strip_eq_nil]
  unfold nw
  rw [List.filter_eq_nil_iff]
  simp

theorem joinLoop_inv (width : Width) (P : List (Str × Bool) → List Str × Str → Prop)
    (hstep : ∀ done st w l, P done st → P (done ++ [(w, l)]) (joinStep width st w l)) :
    ∀ toks done st, P done st → P (done ++ toks) (joinLoop width st toks) := by
  intro toks
  induction toks with
  | nil => intro done st h; simpa [joinLoop] using h
  | cons t toks ih =>
    intro done st h
    obtain ⟨w, l⟩ := t
    simp only [joinLoop]
    have := ih (done ++ [(w, l)]) _ (hstep done st w l h)
    simpa using this

/-- the lines so far, last one included -/
def stLines (st : List Str × Str) : List Str := st.1.reverse ++ [st.2]

theorem joinStep_cases (width : Width) (st : List Str × Str) (w : Str) (l : Bool) :
    ∃ st', ((st' = (st.1, st.2 ++ [' '] ++ w) ∧ l = true ∧ st.2 ≠ [] ∧
              (width.ge (st.2.length + 1 + w.length) = true ∨ width.nonpos = true)) ∨
            (st' = (st.1, st.2 ++ w) ∧ (l = false ∨ st.2 = []) ∧
              (st.2 = [] ∨ width.ge (st.2.length + w.length) = true ∨ width.nonpos = true)) ∨
            (st' = (st.2 :: st.1, w) ∧ st.2 ≠ [] ∧ width.nonpos = false ∧
              width.ge (st.2.length + (if l then 1 else 0) + w.length) = false)) ∧
      joinStep width st w l =
        if (htmlNewlineRx.match? w).isSome then (st'.2 :: st'.1, []) else st' := by
  unfold joinStep
  by_cases hne : st.2 = []
  · refine ⟨(st.1, st.2 ++ w), .inr (.inl ⟨rfl, .inr hne, .inl hne⟩), ?_⟩
    simp [hne]
  · have hemp : st.2.isEmpty = false := by cases h : st.2 with
      | nil => exact absurd h hne
      | cons a b => rfl
    have key : ∀ pot : Str, ∃ st', ((st' = (st.1, pot) ∧ (width.ge pot.length = true ∨ width.nonpos = true)) ∨
        (st' = (st.2 :: st.1, w) ∧ width.nonpos = false ∧ width.ge pot.length = false)) ∧
        (if width.ge pot.length || st.2.isEmpty || width.nonpos then (st.1, pot) else (st.2 :: st.1, w)) = st' := by
      intro pot
      by_cases hw : width.ge pot.length = true ∨ width.nonpos = true
      · refine ⟨_, .inl ⟨rfl, hw⟩, ?_⟩
        rw [if_pos (by simpa [hne] using hw)]
      · simp only [not_or, Bool.not_eq_true] at hw
        refine ⟨_, .inr ⟨rfl, hw.2, hw.1⟩, ?_⟩
        rw [if_neg (by simp [hne, hw.1, hw.2])]
    cases l with
    | true =>
      obtain ⟨st', hst, he⟩ := key (st.2 ++ [' '] ++ w)
      have hlen : (st.2 ++ [' '] ++ w).length = st.2.length + 1 + w.length := by simp; omega
      rw [hlen] at hst
      refine ⟨st', ?_, ?_⟩
      · rcases hst with ⟨h1, h2⟩ | ⟨h1, h2, h3⟩
        · exact .inl ⟨h1, by simp, hne, h2⟩
        · exact .inr (.inr ⟨h1, hne, h2, by simpa using h3⟩)
      · simp only [hemp, Bool.not_false, Bool.and_self, if_true] at he ⊢
        simp only [he]
    | false =>
      obtain ⟨st', hst, he⟩ := key (st.2 ++ w)
      rw [List.length_append] at hst
      refine ⟨st', ?_, ?_⟩
      · rcases hst with ⟨h1, h2⟩ | ⟨h1, h2, h3⟩
        · exact .inr (.inl ⟨h1, .inl (by simp), .inr h2⟩)
        · exact .inr (.inr ⟨h1, hne, h2, by simpa using h3⟩)
      · simp only [hemp, Bool.not_false, Bool.false_and, Bool.false_eq_true, if_false] at he ⊢
        simp only [he]

/-- `joinLines` in terms of pairs -/
def joinPairs (toks : List (Str × Bool)) (width : Width) : List Str :=
  let st := joinLoop width ([], []) toks
  if st.2.isEmpty then st.1.reverse else (st.2 :: st.1).reverse

theorem joinLines_pairs (split : List Str) (lead : List Bool) (width : Width) :
    joinLines split lead width = joinPairs (split.zip lead) width := rfl

theorem joinPairs_eq (toks : List (Str × Bool)) (width : Width) :
    joinPairs toks width = stLines (joinLoop width ([], []) toks) ∨
      (stLines (joinLoop width ([], []) toks) = joinPairs toks width ++ [[]]) := by
  unfold joinPairs stLines
  by_cases h : (joinLoop width ([], []) toks).2 = []
  · right; simp [h]
  · left
    have : (joinLoop width ([], []) toks).2.isEmpty = false := by
      cases h' : (joinLoop width ([], []) toks).2 with
      | nil => exact absurd h' h
      | cons a b => rfl
    simp [this]

/-- joining keeps everything but white space -/
theorem joinPairs_nw (toks : List (Str × Bool)) (width : Width) :
    nw (joinPairs toks width).flatten = nw (toks.map (·.1)).flatten := by
  have h := joinLoop_inv width (fun done st => nw (stLines st).flatten = nw (done.map (·.1)).flatten) (by
    intro done st w l h
    obtain ⟨st', hc, he⟩ := joinStep_cases width st w l
    have key : nw (stLines st').flatten = nw ((done ++ [(w, l)]).map (·.1)).flatten := by
      have hs : nw ([' '] : Str) = [] := by decide
      simp only [stLines, List.flatten_append, nw_append, List.flatten_cons, List.flatten_nil, List.append_nil,
        List.map_append, List.map_cons, List.map_nil] at h ⊢
      rcases hc with ⟨rfl, _⟩ | ⟨rfl, _⟩ | ⟨rfl, _⟩ <;>
        simp only [nw_append, hs, List.append_nil, ← List.append_assoc, h, List.reverse_cons, List.flatten_append,
          List.flatten_cons, List.flatten_nil]
    rw [he]
    split
    · simpa [stLines] using key
    · exact key) toks [] ([], []) rfl
  simp only [List.nil_append] at h
  rw [← h]
  rcases joinPairs_eq toks width with h1 | h1
  · rw [h1]
  · rw [h1]; simp

theorem nw_pyJoin {sep : Str} (hs : ∀ c ∈ sep, isWs c = true) (ls : List Str) : nw (pyJoin sep ls) = nw ls.flatten := by
  induction ls with
  | nil => rfl
  | cons l ls ih =>
    cases ls with
    | nil => simp [pyJoin]
    | cons m ls => simp only [pyJoin, nw_append, nw_ws hs, List.append_nil, ih, List.flatten_cons]

theorem join_nw (split : List Str) (lead : List Bool) (width : Width) (h : split.length = lead.length) :
    nw (join split lead width) = nw split.flatten := by
  unfold join
  rw [nw_pyJoin (by decide), joinLines_pairs, joinPairs_nw, List.map_fst_zip (by omega)]

/-- no line is empty -/
theorem joinPairs_nonempty (toks : List (Str × Bool)) (width : Width) : ∀ l ∈ joinPairs toks width, l ≠ [] := by
  have h := joinLoop_inv width (fun _ st => ∀ l ∈ st.1, l ≠ []) (by
    intro done st w l h
    obtain ⟨st', hc, he⟩ := joinStep_cases width st w l
    have key : (∀ l ∈ st'.1, l ≠ []) ∧ (w ≠ [] → st'.2 ≠ []) := by
      rcases hc with ⟨rfl, _⟩ | ⟨rfl, _⟩ | ⟨rfl, hne, _⟩
      · exact ⟨h, by intro hw; simp⟩
      · exact ⟨h, by intro hw; simp [hw]⟩
      · refine ⟨?_, id⟩
        intro x hx
        rcases List.mem_cons.1 hx with rfl | hx
        · exact hne
        · exact h x hx
    rw [he]
    split
    · rename_i hm
      have hw : w ≠ [] := by rintro rfl; revert hm; decide
      intro x hx
      rcases List.mem_cons.1 hx with rfl | hx
      · exact key.2 hw
      · exact key.1 x hx
    · exact key.1) toks [] ([], []) (by intro l hl; cases hl)
  unfold joinPairs
  intro l hl
  dsimp only at hl
  split at hl
  · exact h l (by simpa using hl)
  · rename_i hne
    rcases List.mem_cons.1 (List.mem_reverse.1 hl) with rfl | hl
    · intro h0; simp [h0] at hne
    · exact h l hl

/-- the characters of the lines come from the words, or are spaces put between words -/
theorem joinPairs_mem (toks : List (Str × Bool)) (width : Width) :
    ∀ l ∈ joinPairs toks width, ∀ c ∈ l, (c = ' ' ∧ ∃ w, (w, true) ∈ toks) ∨ ∃ w b, (w, b) ∈ toks ∧ c ∈ w := by
  have h := joinLoop_inv width (fun done st => ∀ l ∈ stLines st, ∀ c ∈ l,
      (c = ' ' ∧ ∃ w, (w, true) ∈ done) ∨ ∃ w b, (w, b) ∈ done ∧ c ∈ w) (by
    intro done st w l h
    obtain ⟨st', hc, he⟩ := joinStep_cases width st w l
    have old : ∀ x ∈ stLines st, ∀ c ∈ x, (c = ' ' ∧ ∃ v, (v, true) ∈ done ++ [(w, l)]) ∨
        ∃ v b, (v, b) ∈ done ++ [(w, l)] ∧ c ∈ v := by
      intro x hx c hc
      rcases h x hx c hc with ⟨h1, v, hv⟩ | ⟨v, b, hv, hcv⟩
      · exact .inl ⟨h1, v, by simp [hv]⟩
      · exact .inr ⟨v, b, by simp [hv], hcv⟩
    have cur : ∀ c ∈ st.2, (c = ' ' ∧ ∃ v, (v, true) ∈ done ++ [(w, l)]) ∨
        ∃ v b, (v, b) ∈ done ++ [(w, l)] ∧ c ∈ v := old st.2 (by simp [stLines])
    have new : ∀ c ∈ w, (c = ' ' ∧ ∃ v, (v, true) ∈ done ++ [(w, l)]) ∨
        ∃ v b, (v, b) ∈ done ++ [(w, l)] ∧ c ∈ v := fun c hc => .inr ⟨w, l, by simp, hc⟩
    have key : ∀ x ∈ stLines st', ∀ c ∈ x, (c = ' ' ∧ ∃ v, (v, true) ∈ done ++ [(w, l)]) ∨
        ∃ v b, (v, b) ∈ done ++ [(w, l)] ∧ c ∈ v := by
      intro x hx c hcx
      simp only [stLines, List.mem_append, List.mem_reverse, List.mem_singleton] at hx
      rcases hc with ⟨rfl, hl, _⟩ | ⟨rfl, _⟩ | ⟨rfl, _⟩
      · rcases hx with hx | rfl
        · exact old x (by simp [stLines, hx]) c hcx
        · simp only [List.append_assoc, List.mem_append, List.mem_singleton] at hcx
          rcases hcx with hcx | rfl | hcx
          · exact cur c hcx
          · exact .inl ⟨rfl, w, by simp [hl]⟩
          · exact new c hcx
      · rcases hx with hx | rfl
        · exact old x (by simp [stLines, hx]) c hcx
        · rcases List.mem_append.1 hcx with hcx | hcx
          · exact cur c hcx
          · exact new c hcx
      · rcases hx with hx | rfl
        · rcases List.mem_cons.1 hx with rfl | hx
          · exact cur c hcx
          · exact old x (by simp [stLines, hx]) c hcx
        · exact new c hcx
    rw [he]
    split
    · intro x hx c hcx
      simp only [stLines, List.reverse_cons, List.mem_append, List.mem_reverse, List.mem_singleton] at hx
      rcases hx with hx | rfl
      · exact key x (by simpa [stLines] using hx) c hcx
      · cases hcx
    · exact key) toks [] ([], []) (by
      intro l hl c hc
      simp only [stLines, List.reverse_nil, List.nil_append, List.mem_singleton] at hl
      subst hl; cases hc)
  simp only [List.nil_append] at h
  intro l hl
  rcases joinPairs_eq toks width with h1 | h1
  · exact h l (h1 ▸ hl)
  · exact h l (by rw [h1]; simp [hl])

/-- a line that is wider than allowed is a single token -/
theorem joinPairs_width (toks : List (Str × Bool)) (width : Width) :
    ∀ l ∈ joinPairs toks width, width.ge l.length = true ∨ width.nonpos = true ∨ ∃ b, (l, b) ∈ toks := by
  have h := joinLoop_inv width (fun done st => ∀ l ∈ stLines st,
      l = [] ∨ width.ge l.length = true ∨ width.nonpos = true ∨ ∃ b, (l, b) ∈ done) (by
    intro done st w l h
    obtain ⟨st', hc, he⟩ := joinStep_cases width st w l
    have old : ∀ x ∈ stLines st, x = [] ∨ width.ge x.length = true ∨ width.nonpos = true ∨
        ∃ b, (x, b) ∈ done ++ [(w, l)] := by
      intro x hx
      rcases h x hx with h1 | h1 | h1 | ⟨b, h1⟩
      · exact .inl h1
      · exact .inr (.inl h1)
      · exact .inr (.inr (.inl h1))
      · exact .inr (.inr (.inr ⟨b, by simp [h1]⟩))
    have key : ∀ x ∈ stLines st', x = [] ∨ width.ge x.length = true ∨ width.nonpos = true ∨
        ∃ b, (x, b) ∈ done ++ [(w, l)] := by
      intro x hx
      simp only [stLines, List.mem_append, List.mem_reverse, List.mem_singleton] at hx
      rcases hc with ⟨rfl, _, _, hw⟩ | ⟨rfl, _, hw⟩ | ⟨rfl, _⟩
      · rcases hx with hx | rfl
        · exact old x (by simp [stLines, hx])
        · rcases hw with hw | hw
          · exact .inr (.inl (by simpa [Nat.add_assoc, Nat.add_comm 1] using hw))
          · exact .inr (.inr (.inl hw))
      · rcases hx with hx | rfl
        · exact old x (by simp [stLines, hx])
        · rcases hw with hw | hw | hw
          · exact .inr (.inr (.inr ⟨l, by simp [hw]⟩))
          · exact .inr (.inl (by simpa using hw))
          · exact .inr (.inr (.inl hw))
      · rcases hx with hx | rfl
        · rcases List.mem_cons.1 hx with rfl | hx
          · exact old _ (by simp [stLines])
          · exact old x (by simp [stLines, hx])
        · exact .inr (.inr (.inr ⟨l, by simp⟩))
    rw [he]
    split
    · intro x hx
      simp only [stLines, List.reverse_cons, List.mem_append, List.mem_reverse, List.mem_singleton] at hx
      rcases hx with hx | rfl
      · exact key x (by simpa [stLines] using hx)
      · exact .inl rfl
    · exact key) toks [] ([], []) (by
      intro l hl
      simp only [stLines, List.reverse_nil, List.nil_append, List.mem_singleton] at hl
      exact .inl hl)
  simp only [List.nil_append] at h
  intro l hl
  have hne := joinPairs_nonempty toks width l hl
  have : l ∈ stLines (joinLoop width ([], []) toks) := by
    rcases joinPairs_eq toks width with h1 | h1
    · exact h1 ▸ hl
    · rw [h1]; simp [hl]
  rcases h l this with h1 | h1
  · exact absurd h1 hne
  · exact h1

end MF
