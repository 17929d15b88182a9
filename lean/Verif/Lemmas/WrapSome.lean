import Verif.Lemmas.WrapLines
/-!
# `wrap` of a text that is not blank is not empty
-/

namespace MF

theorem linkFold_nonblank {text : Str} {ls : Bool} : ∀ (ms : List Match) (st st' : LinkSt),
    (∀ m ∈ ms, HasSep m.text) → ms.foldlM (linkStep text ls) st = .ok st' →
    (ms ≠ [] ∨ ∃ x ∈ st.toks.split, nw x ≠ []) → ∃ x ∈ st'.toks.split, nw x ≠ [] := by
  intro ms
  induction ms with
  | nil => intro st st' _ h hx; cases h; exact hx.resolve_left (by simp)
  | cons m ms ih =>
    intro st st' hs h _
    obtain ⟨a, b, sep, rest, split', nl, st1, h1, hsep, _, _, _, _, h2⟩ :=
      linkStep_ok (text := text) (ls := ls) (st := st) (hs m (by simp))
    simp only [List.foldlM_cons, h1, bind, Except.bind] at h
    refine ih st1 st' (fun x hx => hs x (by simp [hx])) h (.inr ⟨strip a ++ sep, ?_, ?_⟩)
    · rcases h2 with ⟨l1, l2, e⟩ | ⟨_, _, l, e⟩ <;> rw [e] <;> simp
    · rw [nw_append]
      rcases hsep with rfl | rfl
      · have : nw c!"](" = c!"](" := by decide
        rw [this]; simp
      · have : nw c!"][" = c!"][" := by decide
        rw [this]; simp

theorem nw_flatten_ne {xs : List Str} : nw xs.flatten ≠ [] ↔ ∃ x ∈ xs, nw x ≠ [] := by
  induction xs with
  | nil => simp [nw]
  | cons x xs ih =>
    rw [List.flatten_cons, nw_append]
    constructor
    · intro h
      by_cases hx : nw x = []
      · rw [hx, List.nil_append] at h
        obtain ⟨y, hy, h⟩ := ih.1 h
        exact ⟨y, by simp [hy], h⟩
      · exact ⟨x, by simp, hx⟩
    · rintro ⟨y, hy, h⟩ he
      obtain ⟨e1, e2⟩ := List.append_eq_nil_iff.1 he
      rcases List.mem_cons.1 hy with rfl | hy
      · exact h e1
      · exact ih.2 ⟨y, hy, h⟩ e2

theorem linkSplit_nonblank {s : Str} {ls : Bool} {t : Toks} (hn : nw s ≠ []) (h : linkSplit s ls = .ok t) :
    nw t.split.flatten ≠ [] := by
  by_cases hm : linkMatches s = []
  · rw [linkSplit_nw ⟨by rw [hm]; exact List.Pairwise.nil, by rw [hm]; simp⟩ h]
    exact hn
  · have hne := hm
    obtain ⟨st, hst, hi, hne'⟩ := linkFold_inv (ls := ls) (linkMatches s)
      { toks := { split := [], lead := [], eval := [] }, lastEnd := 0 }
      (fun m hm => let h := linkMatches_ok s m hm; ⟨h.2.2.2, h.2.2.1⟩)
      ⟨⟨rfl, rfl⟩, by intro x hx; simp [Toks.triples] at hx⟩
    have hx := linkFold_nonblank (linkMatches s) _ _ (fun m hm => (linkMatches_ok s m hm).2.2.2) hst (.inl hne)
    have hfold : (sortMatches (footnoteRx.finditer s ++ urlRx.finditer s)).foldlM (linkStep s ls)
      { toks := { split := [], lead := [], eval := [] }, lastEnd := 0 } = .ok st := hst
    have hsne : st.toks.split ≠ [] := by
      obtain ⟨x, hx, _⟩ := hx
      intro he; rw [he] at hx; cases hx
    obtain ⟨split', rem, hmd, hmv⟩ := moveDot_ok (cond := startsSingleDot (s.drop st.lastEnd))
      (split := st.toks.split) (text := s.drop st.lastEnd) (fun h => h) (fun _ h' => hsne h')
    have hx' : nw split'.flatten ≠ [] := by
      have h1 := nw_flatten_ne.2 hx
      rcases hmv with ⟨rfl, _⟩ | ⟨zs, z, e1, e2, _⟩
      · exact h1
      · rw [e1] at h1
        rw [e2]
        intro he
        simp only [List.flatten_append, List.flatten_cons, List.flatten_nil, List.append_nil, nw_append,
          List.append_eq_nil_iff] at h1 he
        rw [he.1, he.2.1] at h1; exact h1 rfl
    unfold linkSplit at h
    simp only [hfold, hmd, bind, Except.bind] at h
    split at h <;> cases h
    · simp only [List.flatten_append, nw_append]
      exact fun he => hx' (List.append_eq_nil_iff.1 he).1
    · exact hx'

theorem splitPass_nonblank {func : Str → Bool → Except Err Toks} {t t' : Toks}
    (hf : ∀ s l t, nw s ≠ [] → func s l = .ok t → nw t.split.flatten ≠ []) (hw : t.WF)
    (hn : nw t.split.flatten ≠ []) (h : splitPass func t = .ok t') : nw t'.split.flatten ≠ [] := by
  have key : ∀ (ps : List (Str × Bool × Bool)) t, nw (ps.map (·.1)).flatten ≠ [] → applySplit func ps = .ok t →
      nw t.split.flatten ≠ [] := by
    intro ps
    induction ps with
    | nil => intro t hn _; exact absurd rfl hn
    | cons p ps ih =>
      obtain ⟨s, l, e⟩ := p
      intro t hn h
      have step : ∀ t1 : Toks, (nw s ≠ [] → nw t1.split.flatten ≠ []) → (do
          let r ← applySplit func ps
          .ok { split := t1.split ++ r.split, lead := t1.lead ++ r.lead, eval := t1.eval ++ r.eval } :
            Except Err Toks) = .ok t → nw t.split.flatten ≠ [] := by
        intro t1 h1 h
        cases hr : applySplit func ps with
        | error e => rw [hr] at h; cases h
        | ok r =>
          rw [hr] at h
          cases h
          simp only [List.flatten_append, nw_append]
          simp only [List.map_cons, List.flatten_cons, nw_append] at hn
          intro he
          obtain ⟨e1, e2⟩ := List.append_eq_nil_iff.1 he
          by_cases hs : nw s = []
          · rw [hs, List.nil_append] at hn
            exact ih r hn hr e2
          · exact h1 hs e1
      unfold applySplit at h
      cases e with
      | true =>
        simp only [if_true] at h
        cases hfe : func s l with
        | error e => rw [hfe] at h; cases h
        | ok t1 => rw [hfe] at h; exact step t1 (fun hs => hf s l t1 hs hfe) h
      | false => exact step { split := [s], lead := [l], eval := [false] } (fun hs => by simpa using hs) h
  refine key _ _ ?_ h
  have := triples_split t hw
  rw [show (t.split.zip (t.lead.zip t.eval)).map (·.1) = t.split from this]
  exact hn

theorem wrapToks_nonblank {text : Str} {t : Toks} (hn : nw text ≠ []) (h : wrapToks text = .ok t) :
    nw t.split.flatten ≠ [] := by
  simp only [wrapToks, bind, Except.bind] at h
  split at h
  · cases h
  rename_i t1 h1
  split at h
  · cases h
  rename_i t2 h2
  split at h
  · cases h
  rename_i t3 h3
  have h1 := splitPass_first h1
  obtain ⟨w1, a1, n1⟩ := codeSplit_all h1
  have wf2 : t2.WF := (splitPass_all (Qin := fun _ => True) (Qout := fun _ => True) (by
    intro s l t _ hs
    rcases linkSplit_out s l with ⟨t', h', hw, ha⟩ | ⟨h', _⟩
    · rw [hs] at h'; cases h'; exact ⟨hw, fun _ _ => trivial⟩
    · rw [hs] at h'; cases h') (fun _ _ _ => trivial) (fun _ _ => trivial) h2).1
  have wf3 : t3.WF := (splitPass_all (Qin := fun _ => True) (Qout := fun _ => True) (by
    intro s l t _ hs
    obtain ⟨t', h', hw, ha, _⟩ := newlineSplit_out s l
    rw [hs] at h'; cases h'; exact ⟨hw, fun _ _ => trivial⟩) (fun _ _ _ => trivial) (fun _ _ => trivial) h3).1
  refine splitPass_nonblank ?_ wf3 (splitPass_nonblank ?_ wf2 (splitPass_nonblank ?_ w1 (by rw [n1]; exact hn) h2) h3) h
  · intro s l t hn hs
    rw [spaceSplit_eq] at hs
    cases hs
    rw [pieces_nw]; exact hn
  · intro s l t hn hs
    obtain ⟨t', h', _, _, e⟩ := newlineSplit_out s l
    rw [hs] at h'; cases h'
    rw [e]; exact hn
  · exact fun s l t hn hs => linkSplit_nonblank hn hs

/-- Links that nest or overlap may lose text, but never all of it. -/
theorem wrap_nonblank {text : Str} {width : Width} {s : Str} (hn : strip text ≠ []) (h : wrap text width = .ok s) :
    strip s ≠ [] := by
  simp only [wrap, bind, Except.bind] at h
  cases ht : wrapToks (wrapInput text) with
  | error e => rw [ht] at h; cases h
  | ok t =>
    rw [ht] at h
    cases h
    have h1 := wrapToks_nonblank (by rw [nw_wrapInput]; exact fun he => hn (nw_eq_nil.1 he)) ht
    intro he
    apply h1
    have hj := nw_eq_nil.2 he
    unfold join at hj
    rw [joinLines_pairs, nw_pyJoin (by decide), joinPairs_nw,
      List.map_fst_zip (by rw [(wrapToks_out ht).wf.1]; exact Nat.le_refl _)] at hj
    exact hj

end MF
