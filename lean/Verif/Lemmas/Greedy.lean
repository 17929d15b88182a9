import Verif.Lemmas.WrapJoin
/-!
# Greedy filling of lines
-/

namespace MF

/-- neighbouring elements of a list are related -/
def Adj {α : Type} (R : α → α → Prop) (ls : List α) : Prop := ∀ a x y b, ls = a ++ x :: y :: b → R x y

theorem Adj.nil {α : Type} {R : α → α → Prop} : Adj R ([] : List α) := by
  intro a x y b h; cases a <;> cases h

theorem Adj.single {α : Type} {R : α → α → Prop} (z : α) : Adj R [z] := by
  intro a x y b h
  cases a with
  | nil => cases h
  | cons p a => cases a <;> cases h

theorem Adj.cons {α : Type} {R : α → α → Prop} {x : α} {ls : List α} (h : ∀ y, ls.head? = some y → R x y) (hs : Adj R ls) :
    Adj R (x :: ls) := by
  intro a y z b e
  cases a with
  | nil =>
    simp only [List.nil_append, List.cons.injEq] at e
    rw [← e.1]; exact h z (by rw [e.2]; rfl)
  | cons c a =>
    simp only [List.cons_append, List.cons.injEq] at e
    exact hs a y z b e.2

theorem Adj.tail {α : Type} {R : α → α → Prop} {x : α} {ls : List α} (h : Adj R (x :: ls)) : Adj R ls := by
  intro a y z b e; exact h (x :: a) y z b (by rw [e]; rfl)

theorem Adj.head {α : Type} {R : α → α → Prop} {x y : α} {ls : List α} (h : Adj R (x :: y :: ls)) : R x y := h [] x y ls rfl

theorem Adj.prefix {α : Type} {R : α → α → Prop} {p q : List α} (h : Adj R (p ++ q)) : Adj R p := by
  intro a x y b h0
  exact h a x y (b ++ q) (by rw [h0]; simp)

theorem Adj.concat {α : Type} {R : α → α → Prop} {p : List α} {x y : α} (h : Adj R (p ++ [x])) (hxy : R x y) :
    Adj R (p ++ [x] ++ [y]) := by
  intro a u v b h0
  rcases List.eq_nil_or_concat b with rfl | ⟨b', z, rfl⟩
  · have h1 : p ++ [x] ++ [y] = a ++ [u] ++ [v] := by rw [h0]; simp
    have h2 := List.append_inj' h1 rfl
    have h3 := List.append_inj' h2.1 rfl
    have e1 : y = v := by simpa using h2.2
    have e2 : x = u := by simpa using h3.2
    rw [← e1, ← e2]; exact hxy
  · rw [List.concat_eq_append] at h0
    have h1 : p ++ [x] ++ [y] = (a ++ u :: v :: b') ++ [z] := by rw [h0]; simp
    have h2 := List.append_inj' h1 rfl
    exact h a u v b' h2.1

theorem Adj.replaceLast {α : Type} {R : α → α → Prop} {p : List α} {x x' : α} (h : Adj R (p ++ [x]))
    (hx : ∀ z, R z x → R z x') : Adj R (p ++ [x']) := by
  rcases List.eq_nil_or_concat p with rfl | ⟨q, z, rfl⟩
  · exact .single _
  · rw [List.concat_eq_append] at h ⊢
    exact h.prefix.concat (hx z (h q z x [] (by simp)))

/-- why a line ends where it does: it ends with a `<br>` tag, or the next token does not fit -/
def BreakWhy (toks : List (Str × Bool)) (width : Width) (l1 l2 : Str) : Prop :=
  (∃ u w, l1 = u ++ w ∧ (htmlNewlineRx.match? w).isSome = true) ∨
  (∃ w lead r, (w, lead) ∈ toks ∧ l2 = w ++ r ∧ width.nonpos = false ∧
    width.ge (l1.length + (if lead then 1 else 0) + w.length) = false)

theorem BreakWhy.mono {toks toks' : List (Str × Bool)} {width : Width} {l1 l2 : Str} (h : BreakWhy toks width l1 l2)
    (ht : ∀ t ∈ toks, t ∈ toks') (v : Str) : BreakWhy toks' width l1 (l2 ++ v) := by
  rcases h with h | ⟨w, lead, r, h1, h2, h3⟩
  · exact .inl h
  · exact .inr ⟨w, lead, r ++ v, ht _ h1, by rw [h2]; simp, h3⟩

/-- every line break has a reason -/
theorem joinPairs_breaks (toks : List (Str × Bool)) (width : Width) :
    Adj (BreakWhy toks width) (joinPairs toks width) := by
  have h := joinLoop_inv width (fun done st => Adj (BreakWhy done width) (stLines st)) (by
    intro done st w l h
    obtain ⟨st', hc, he⟩ := joinStep_cases width st w l
    have h' : Adj (BreakWhy (done ++ [(w, l)]) width) (stLines st) := by
      intro a x y b h0
      simpa using (h a x y b h0).mono (toks' := done ++ [(w, l)]) (by intro t ht; simp [ht]) []
    have key : Adj (BreakWhy (done ++ [(w, l)]) width) (stLines st') ∧ ∃ u, st'.2 = u ++ w := by
      rcases hc with ⟨rfl, _⟩ | ⟨rfl, _⟩ | ⟨rfl, _, hn, hw⟩
      · refine ⟨Adj.replaceLast h' ?_, st.2 ++ [' '], rfl⟩
        intro z hz
        rw [List.append_assoc]
        exact hz.mono (fun _ h => h) _
      · exact ⟨Adj.replaceLast h' fun z hz => hz.mono (fun _ h => h) _, st.2, rfl⟩
      · refine ⟨?_, [], rfl⟩
        have := Adj.concat h' (y := w) (.inr ⟨w, l, [], by simp, by simp, hn, hw⟩)
        simpa [stLines] using this
    rw [he]
    split
    · rename_i hm
      obtain ⟨hadj, u, hu⟩ := key
      have := Adj.concat hadj (y := []) (.inl ⟨u, w, hu, hm⟩)
      simpa [stLines] using this
    · exact key.1) toks [] ([], []) (by simpa [stLines] using Adj.single _)
  simp only [List.nil_append] at h
  rcases joinPairs_eq toks width with h1 | h1
  · rw [h1]; exact h
  · rw [h1] at h; exact h.prefix

/-- Specification of greedy filling: `lines` puts the words into lines in order, no line is empty, a line of several
words fits the width, and the first word of a line would not have fitted on the line before. A width that is not
positive counts as unlimited. -/
structure Greedy (width : Width) (words : List Str) (lines : List (List Str)) : Prop where
  all : lines.flatten = words
  ne : ∀ l ∈ lines, l ≠ []
  fits : ∀ l ∈ lines, width.ge (pyJoin [' '] l).length = true ∨ width.nonpos = true ∨ l.length = 1
  greedy : Adj (fun l m => width.nonpos = false ∧
    ∀ w, m.head? = some w → width.ge (pyJoin [' '] (l ++ [w])).length = false) lines

theorem ge_mono {width : Width} {a b : Nat} (h : a ≤ b) (hb : width.ge b = true) : width.ge a = true := by
  cases width with
  | inf => rfl
  | fin n =>
    simp only [Width.ge, decide_eq_true_eq] at hb ⊢
    omega

theorem pyJoin_prefix_length (a b : List Str) : (pyJoin [' '] a).length ≤ (pyJoin [' '] (a ++ b)).length := by
  by_cases ha : a = []
  · subst ha; exact Nat.zero_le _
  · by_cases hb : b = []
    · subst hb; simp
    · rw [pyJoin_append ha hb]; simp only [List.length_append]; omega

/-- greedy filling is unique -/
theorem Greedy.unique {width : Width} {words : List Str} {ls ls' : List (List Str)} (h : Greedy width words ls)
    (h' : Greedy width words ls') : ls = ls' := by
  have tail : ∀ {words : List Str} {l : List Str} {ls : List (List Str)}, Greedy width words (l :: ls) →
      Greedy width ls.flatten ls := by
    intro words l ls h
    exact ⟨rfl, fun x hx => h.ne x (by simp [hx]), fun x hx => h.fits x (by simp [hx]),
      fun a x y b h0 => h.greedy (l :: a) x y b (by rw [h0]; rfl)⟩
  -- of two first lines neither is longer
  have cmp : ∀ {words : List Str} {l m : List Str} {ls ms : List (List Str)} {w : Str} {r : List Str},
      Greedy width words (l :: ls) → Greedy width words (m :: ms) → m = l ++ w :: r → False := by
    intro words l m ls ms w r h h' hm
    have e : l ++ ls.flatten = m ++ ms.flatten := by
      have h1 := h.all; have h2 := h'.all
      simp only [List.flatten_cons] at h1 h2
      rw [h1, h2]
    rw [hm, List.append_assoc] at e
    have e2 : ls.flatten = w :: (r ++ ms.flatten) := by simpa using e
    cases ls with
    | nil => cases e2
    | cons n ls =>
      have hn := h.ne n (by simp)
      cases n with
      | nil => exact absurd rfl hn
      | cons v n =>
        simp only [List.flatten_cons, List.cons_append, List.cons.injEq] at e2
        obtain ⟨h1, h2⟩ := h.greedy [] l (v :: n) ls rfl
        have h3 := h2 v rfl
        have hlne := h.ne l (by simp)
        rcases h'.fits m (by simp) with h4 | h4 | h4
        · have : width.ge (pyJoin [' '] (l ++ [v])).length = true := by
            refine ge_mono ?_ h4
            rw [hm, e2.1, show l ++ w :: r = (l ++ [w]) ++ r by simp]
            exact pyJoin_prefix_length _ _
          rw [h3] at this; cases this
        · rw [h1] at h4; cases h4
        · rw [hm] at h4
          cases l with
          | nil => exact hlne rfl
          | cons p l => simp at h4
  induction ls generalizing words ls' with
  | nil =>
    cases ls' with
    | nil => rfl
    | cons m ms =>
      exfalso
      have h1 := h.all; have h2 := h'.all
      rw [← h1] at h2
      have := h'.ne m (by simp)
      cases m with
      | nil => exact this rfl
      | cons w m => simp at h2
  | cons l ls ih =>
    cases ls' with
    | nil =>
      exfalso
      have h1 := h.all; have h2 := h'.all
      rw [← h2] at h1
      have := h.ne l (by simp)
      cases l with
      | nil => exact this rfl
      | cons w m => simp at h1
    | cons m ms =>
      have e : l ++ ls.flatten = m ++ ms.flatten := by
        have h1 := h.all; have h2 := h'.all
        simp only [List.flatten_cons] at h1 h2
        rw [h1, h2]
      have hlm : l = m := by
        rcases List.append_eq_append_iff.1 e with ⟨r, h1, h2⟩ | ⟨r, h1, h2⟩
        · cases r with
          | nil => simpa using h1.symm
          | cons w r => exact (cmp h h' h1).elim
        · cases r with
          | nil => simpa using h1
          | cons w r => exact (cmp h' h h1).elim
      subst hlm
      have e2 : ls.flatten = ms.flatten := by simpa using e
      have := ih (tail h) (by have := tail h'; rw [← e2] at this; exact this)
      rw [this]

theorem pyJoin_concat (l : List Str) (w : Str) (h : l ≠ []) : pyJoin [' '] (l ++ [w]) = pyJoin [' '] l ++ [' '] ++ w := by
  rw [pyJoin_append h (by simp)]; rfl

theorem pyJoin_ne_nil {l : List Str} (h : l ≠ []) (hw : ∀ w ∈ l, w ≠ []) : pyJoin [' '] l ≠ [] := by
  cases l with
  | nil => exact absurd rfl h
  | cons w l =>
    have := hw w (by simp)
    cases l with
    | nil => simpa [pyJoin] using this
    | cons v l => simp [pyJoin]

/-- words that are put one after the other with spaces between them are filled greedily -/
theorem joinPairs_greedy (words : List Str) (toks : List (Str × Bool)) (width : Width)
    (hw : toks.map (·.1) = words) (hlead : ∀ t ∈ toks.drop 1, t.2 = true) (hne : ∀ w ∈ words, w ≠ [])
    (hbr : ∀ w ∈ words, (htmlNewlineRx.match? w).isSome = false) :
    ∃ lines, Greedy width words lines ∧ joinPairs toks width = lines.map (pyJoin [' ']) := by
  -- state after some words: finished lines and the current line as lists of words
  have h := joinLoop_inv width (fun done st => (∀ t ∈ done.drop 1, t.2 = true) → (∀ t ∈ done, t.1 ≠ []) →
      (∀ t ∈ done, (htmlNewlineRx.match? t.1).isSome = false) →
      ∃ lines cur, st.1 = (lines.map (pyJoin [' '])).reverse ∧ st.2 = pyJoin [' '] cur ∧
        (done = [] → cur = [] ∧ lines = []) ∧ (done ≠ [] → Greedy width (done.map (·.1)) (lines ++ [cur]))) (by
    intro done st w l h hl hn hb
    have hbw : (htmlNewlineRx.match? w).isSome = false := hb (w, l) (by simp)
    have hnw : w ≠ [] := hn (w, l) (by simp)
    obtain ⟨lines, cur, h1, h2, h3, h4⟩ := h
      (by
        intro t ht
        apply hl
        by_cases hd : done = []
        · subst hd; cases ht
        · rw [List.drop_append_of_le_length (by cases done <;> simp_all)]; exact List.mem_append_left _ ht)
      (fun t ht => hn t (by simp [ht])) (fun t ht => hb t (by simp [ht]))
    obtain ⟨st', hc, he⟩ := joinStep_cases width st w l
    rw [he, hbw]
    simp only [Bool.false_eq_true, if_false]
    by_cases hd : done = []
    · -- first word
      obtain ⟨rfl, rfl⟩ := h3 hd
      subst hd
      have hst2 : st.2 = [] := h2
      have hst1 : st.1 = [] := h1
      have hst' : st' = ([], w) := by
        rcases hc with ⟨_, _, hne', _⟩ | ⟨rfl, _⟩ | ⟨_, hne', _⟩
        · exact absurd hst2 hne'
        · rw [hst1, hst2]; rfl
        · exact absurd hst2 hne'
      refine ⟨[], [w], by rw [hst']; rfl, by rw [hst']; rfl, by simp, fun _ => ⟨by simp, by simp, ?_, Adj.single _⟩⟩
      intro x hx
      simp at hx
      exact .inr (.inr (by rw [hx]; rfl))
    · have hg := h4 hd
      have hcur : cur ≠ [] := hg.ne cur (by simp)
      have hcurw : ∀ v ∈ cur, v ≠ [] := by
        intro v hv
        have : v ∈ done.map (·.1) := by rw [← hg.all]; simp [hv]
        obtain ⟨t, ht, rfl⟩ := List.mem_map.1 this
        exact hn t (by simp [ht])
      have hst2 : st.2 ≠ [] := by rw [h2]; exact pyJoin_ne_nil hcur hcurw
      have hlt : l = true := hl (w, l) (by
        rw [List.drop_append_of_le_length (by cases done <;> simp_all)]; simp)
      subst hlt
      rcases hc with ⟨rfl, _, _, hfit⟩ | ⟨_, hno, _⟩ | ⟨rfl, _, hnp, hnofit⟩
      · refine ⟨lines, cur ++ [w], h1, ?_, by simp, fun _ => ⟨?_, ?_, ?_, ?_⟩⟩
        · simp only [h2]; rw [pyJoin_concat _ _ hcur]
        · have := hg.all
          simp only [List.flatten_append, List.flatten_cons, List.flatten_nil, List.append_nil] at this ⊢
          rw [← List.append_assoc, this]; simp
        · intro x hx
          simp only [List.mem_append, List.mem_singleton] at hx
          rcases hx with hx | rfl
          · exact hg.ne x (by simp [hx])
          · simp
        · intro x hx
          simp only [List.mem_append, List.mem_singleton] at hx
          rcases hx with hx | rfl
          · exact hg.fits x (by simp [hx])
          · rw [pyJoin_concat _ _ hcur]
            rcases hfit with hfit | hfit
            · left
              rw [h2] at hfit
              simpa [Nat.add_assoc, Nat.add_comm 1] using hfit
            · exact .inr (.inl hfit)
        · refine Adj.replaceLast hg.greedy ?_
          rintro z ⟨hz1, hz2⟩
          refine ⟨hz1, ?_⟩
          intro v hv
          apply hz2
          cases cur with
          | nil => exact absurd rfl hcur
          | cons p cur => simpa using hv
      · rcases hno with hno | hno
        · cases hno
        · exact absurd hno hst2
      · refine ⟨lines ++ [cur], [w], ?_, rfl, by simp, fun _ => ⟨?_, ?_, ?_, ?_⟩⟩
        · simp [h1, h2]
        · have := hg.all
          rw [List.flatten_append, this]; simp
        · intro x hx
          rcases List.mem_append.1 hx with hx | hx
          · exact hg.ne x hx
          · simp at hx; simp [hx]
        · intro x hx
          rcases List.mem_append.1 hx with hx | hx
          · exact hg.fits x hx
          · simp at hx; exact .inr (.inr (by rw [hx]; rfl))
        · refine Adj.concat hg.greedy ⟨hnp, ?_⟩
          intro v hv
          simp at hv
          subst hv
          rw [pyJoin_concat _ _ hcur]
          rw [h2] at hnofit
          simpa [Nat.add_assoc, Nat.add_comm 1] using hnofit) toks [] ([], [])
    (by intro _ _ _; exact ⟨[], [], rfl, rfl, by simp, by simp⟩)
  simp only [List.nil_append] at h
  obtain ⟨lines, cur, h1, h2, h3, h4⟩ := h hlead
    (fun t ht => hne _ (by rw [← hw]; exact List.mem_map.2 ⟨t, ht, rfl⟩))
    (fun t ht => hbr _ (by rw [← hw]; exact List.mem_map.2 ⟨t, ht, rfl⟩))
  by_cases ht : toks = []
  · obtain ⟨rfl, rfl⟩ := h3 ht
    subst ht
    refine ⟨[], ⟨by rw [← hw]; rfl, by simp, by simp, Adj.nil⟩, rfl⟩
  · have hg := h4 ht
    rw [hw] at hg
    refine ⟨lines ++ [cur], hg, ?_⟩
    have hcur : cur ≠ [] := hg.ne cur (by simp)
    have hcurw : ∀ v ∈ cur, v ≠ [] := by
      intro v hv
      exact hne v (by rw [← hg.all]; simp [hv])
    have h2' := pyJoin_ne_nil hcur hcurw
    rw [← h2] at h2'
    unfold joinPairs
    have : (joinLoop width ([], []) toks).2.isEmpty = false := by
      cases h' : (joinLoop width ([], []) toks).2 with
      | nil => exact absurd h' h2'
      | cons a b => rfl
    dsimp only
    rw [if_neg (by simp [this]), h1, h2]
    simp

end MF
