import Verif.Lemmas.Rx
/-!
# `finditer`: the matches cut the text into stretches between matches and matches
-/

namespace MF

/-- the pattern never matches the empty string -/
def Rx.NonEmpty (r : Rx) : Prop := ∀ pre post m, r.matchAt pre post = some m → m.text ≠ []

/-- `ms` are the matches of `r` in `post`, one after the other, each leftmost. `pre` is the text before, reversed. -/
inductive Rx.Finds (r : Rx) : Str → Str → List Match → Prop
  | done {pre post : Str} : r.searchFrom pre post = none → Rx.Finds r pre post []
  | step {pre u rest : Str} {m : Match} {ms : List Match} :
      (∀ a b c, u = a ++ c :: b → r.matchAt (a.reverse ++ pre) (c :: b ++ (m.text ++ rest)) = none) →
      r.matchAt (u.reverse ++ pre) (m.text ++ rest) = some m → m.text ≠ [] →
      m.start = pre.length + u.length → m.stop = pre.length + u.length + m.text.length →
      Rx.Finds r (m.text.reverse ++ (u.reverse ++ pre)) rest ms → Rx.Finds r pre (u ++ (m.text ++ rest)) (m :: ms)

theorem Rx.searchFrom_sound' {r : Rx} (post : Str) : ∀ {pre : Str} {m : Match}, r.searchFrom pre post = some m →
    ∃ u post', post = u ++ post' ∧ r.matchAt (u.reverse ++ pre) post' = some m ∧
      ∀ a b c, u = a ++ c :: b → r.matchAt (a.reverse ++ pre) (c :: b ++ post') = none := by
  induction post with
  | nil => intro pre m h; exact ⟨[], [], rfl, h, by intro a b c h0; cases a <;> cases h0⟩
  | cons c cs ih =>
    intro pre m h
    simp only [Rx.searchFrom] at h
    split at h
    · rename_i m' hm
      cases h
      exact ⟨[], c :: cs, rfl, hm, by intro a b c h0; cases a <;> cases h0⟩
    · rename_i hn
      obtain ⟨u, post', h1, h2, h3⟩ := ih h
      refine ⟨c :: u, post', by rw [h1]; rfl, by simpa using h2, ?_⟩
      intro a b d h0
      cases a with
      | nil =>
        simp only [List.nil_append, List.cons.injEq] at h0
        obtain ⟨rfl, rfl⟩ := h0
        simpa [h1] using hn
      | cons x a =>
        simp only [List.cons_append, List.cons.injEq] at h0
        obtain ⟨rfl, h0⟩ := h0
        simpa using h3 a b d h0

theorem Rx.finditerFrom_finds {r : Rx} (hr : r.NonEmpty) : ∀ fuel pre post, post.length < fuel →
    Rx.Finds r pre post (r.finditerFrom fuel pre post) := by
  intro fuel
  induction fuel with
  | zero => intro pre post h; omega
  | succ fuel ih =>
    intro pre post hlen
    simp only [Rx.finditerFrom]
    cases hs : r.searchFrom pre post with
    | none => exact .done hs
    | some m =>
      obtain ⟨u, post', h1, h2, h3⟩ := Rx.searchFrom_sound' post hs
      obtain ⟨rest, h4, h5, h6⟩ := Rx.matchAt_shape h2
      have hne := hr _ _ _ h2
      have hpos : 0 < m.text.length := List.length_pos_iff.2 hne
      simp only [List.length_append, List.length_reverse] at h5 h6
      dsimp only
      rw [if_neg (by omega)]
      subst h1
      subst h4
      have hn : m.stop - pre.length = (u ++ m.text).length := by simp; omega
      rw [hn, ← List.append_assoc, List.take_left, List.drop_left]
      have hlen2 : rest.length < fuel := by simp at hlen; omega
      have := ih ((u ++ m.text).reverse ++ pre) rest hlen2
      rw [List.append_assoc]
      refine .step h3 h2 hne (by omega) (by omega) ?_
      simpa using this

theorem Rx.finditer_finds {r : Rx} (hr : r.NonEmpty) (s : Str) : Rx.Finds r [] s (r.finditer s) :=
  Rx.finditerFrom_finds hr _ _ _ (by omega)

theorem slice_mid (a u b : Str) : slice (a ++ (u ++ b)) a.length (a.length + u.length) = u := by
  unfold slice
  rw [List.drop_left]
  simp

/-- every match is a stretch of the text -/
theorem Rx.Finds.bounds {r : Rx} {pre post : Str} {ms : List Match} (h : Rx.Finds r pre post ms) :
    ∀ m ∈ ms, pre.length ≤ m.start ∧ m.start < m.stop ∧ m.stop ≤ pre.length + post.length ∧
      m.text = slice (pre.reverse ++ post) m.start m.stop := by
  induction h with
  | done => intro m hm; cases hm
  | step h1 h2 hne hs he hrest ih =>
    rename_i pre u rest m ms
    have hpos : 0 < m.text.length := List.length_pos_iff.2 hne
    intro m' hm'
    rcases List.mem_cons.1 hm' with rfl | hm'
    · refine ⟨by omega, by omega, by simp; omega, ?_⟩
      rw [hs, he]
      have := slice_mid (pre.reverse ++ u) m'.text rest
      simp only [List.length_append, List.length_reverse, List.append_assoc] at this
      exact this.symm
    · obtain ⟨h3, h4, h5, h6⟩ := ih m' hm'
      simp only [List.length_append, List.length_reverse] at h3 h5
      refine ⟨by omega, h4, by simp; omega, ?_⟩
      rw [h6]
      simp

theorem Rx.finditer_bounds {r : Rx} (hr : r.NonEmpty) (s : Str) : ∀ m ∈ r.finditer s,
    m.start < m.stop ∧ m.stop ≤ s.length ∧ m.text = slice s m.start m.stop := by
  intro m hm
  have := (Rx.finditer_finds hr s).bounds m hm
  simpa using this.2

/-- consecutive matches do not overlap -/
theorem Rx.Finds.pairwise {r : Rx} {pre post : Str} {ms : List Match} (h : Rx.Finds r pre post ms) :
    ms.Pairwise (fun a b => a.stop ≤ b.start) := by
  induction h with
  | done => exact .nil
  | step h1 h2 hne hs he hrest ih =>
    rename_i pre u rest m ms
    refine .cons ?_ ih
    intro m' hm'
    have := (hrest.bounds m' hm').1
    simp only [List.length_append, List.length_reverse] at this
    omega

theorem mem_slice {s : Str} {a b : Nat} {c : Char} (h : c ∈ slice s a b) : c ∈ s :=
  List.mem_of_mem_drop (List.mem_of_mem_take h)

/-- a search that finds nothing -/
theorem Rx.finditer_nil {r : Rx} {s : Str} (h : r.search s = none) : r.finditer s = [] := by
  unfold Rx.search at h
  simp only [Rx.finditer, Rx.finditerFrom, h]

/-- the pattern consumes at least one character whenever it matches -/
def Rx.pos : Rx → Bool
  | .chr _ => true
  | .seq a b => a.pos || b.pos
  | .alt a b => a.pos && b.pos
  | .rep _ mn _ => 0 < mn
  | .grp _ r => r.pos
  | _ => false

theorem Rx.Step.shrinks (r : Rx) {st st' : MS} (h : r.Step st st') : st'.post.length ≤ st.post.length := by
  obtain ⟨u, h1, _⟩ := Rx.Step.consumes r h
  rw [h1]; simp

theorem RepStep.shrinks {R : MS → MS → Prop} {mn : Nat} {mx : Option Nat} {st st' : MS} (h : RepStep R mn mx st st') :
    st'.post.length ≤ st.post.length := by
  induction h with
  | stop => exact Nat.le_refl _
  | more _ _ hlt _ ih => omega

theorem Rx.pos_sound (r : Rx) : ∀ {st st' : MS}, r.pos = true → r.Step st st' → st'.post.length < st.post.length := by
  induction r with
  | chr p => rintro st st' _ ⟨c, cs, h, _, rfl⟩; rw [h]; simp
  | eps => intro st st' h; cases h
  | seq a b iha ihb =>
    rintro st st' h ⟨m, h1, h2⟩
    simp only [Rx.pos, Bool.or_eq_true] at h
    have := Rx.Step.shrinks a h1
    have := Rx.Step.shrinks b h2
    rcases h with h | h
    · have := iha h h1; omega
    · have := ihb h h2; omega
  | alt a b iha ihb =>
    rintro st st' h h1
    simp only [Rx.pos, Bool.and_eq_true] at h
    rcases h1 with h1 | h1
    · exact iha h.1 h1
    · exact ihb h.2 h1
  | rep r mn mx ih =>
    intro st st' h h1
    simp only [Rx.pos, decide_eq_true_eq] at h
    cases h1 with
    | stop => omega
    | more _ _ hlt h2 => have := h2.shrinks; omega
  | grp n r ih =>
    rintro st st' h ⟨m, h1, rfl⟩
    exact ih (st := st) (st' := m) h h1
  | bol => intro st st' h; cases h
  | eol => intro st st' h; cases h
  | notAhead r => intro st st' h; cases h
  | notBehind p => intro st st' h; cases h

theorem Rx.nonEmpty_of_pos {r : Rx} (h : r.pos = true) : r.NonEmpty := by
  intro pre post m hm h0
  obtain ⟨st', hs, _, _, h3, _⟩ := Rx.matchAt_sound hm
  have := Rx.pos_sound r h hs
  rw [h0] at h3
  have h4 := congrArg List.length h3
  simp only [List.length_nil, List.length_take] at h4
  simp only at this
  omega

end MF
