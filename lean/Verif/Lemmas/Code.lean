import Verif.Lemmas.WrapJoin
/-!
# Lemmas about `code_split`
-/

namespace MF

theorem codeMarkerRx_nonEmpty : codeMarkerRx.NonEmpty := Rx.nonEmpty_of_pos rfl
theorem footnoteRx_nonEmpty : footnoteRx.NonEmpty := Rx.nonEmpty_of_pos rfl
theorem urlRx_nonEmpty : urlRx.NonEmpty := Rx.nonEmpty_of_pos rfl
theorem htmlNewlineRx_nonEmpty : htmlNewlineRx.NonEmpty := Rx.nonEmpty_of_pos rfl

/-- a code marker is a run of backticks -/
theorem codeMarker_text {pre post : Str} {m : Match} (h : codeMarkerRx.matchAt pre post = some m) :
    m.text = List.replicate m.text.length '`' := by
  obtain ⟨st', hs, _, _, h3, _⟩ := Rx.matchAt_sound h
  have key : ∀ {mn : Nat} {mx : Option Nat} {st st' : MS},
      RepStep (Rx.grp 2 (.seqs [.notAhead (.lit ['<', '\\']), .chr (· == '`')])).Step mn mx st st' →
      ∃ u, st.Consumes st' u ∧ ∀ c ∈ u, c = '`' := by
    intro mn mx st st' h
    induction h with
    | stop => exact ⟨[], .refl _, by simp⟩
    | more _ h1 _ _ ih =>
      obtain ⟨u, hu, hall⟩ := ih
      obtain ⟨st1, ⟨st2, ⟨_, rfl⟩, ⟨c, cs, hp, hc, rfl⟩⟩, rfl⟩ := h1
      refine ⟨c :: u, MS.Consumes.trans (u := [c]) (b := ⟨c :: st2.pre, cs, _⟩) ⟨hp, rfl⟩ hu, ?_⟩
      intro x hx
      rcases List.mem_cons.1 hx with rfl | hx
      · simpa using hc
      · exact hall x hx
  obtain ⟨st1, hr, rfl⟩ := hs
  obtain ⟨u, ⟨hu1, hu2⟩, hall⟩ := key hr
  simp only at hu1 h3
  have ht : m.text = u := by rw [h3, hu1]; simp
  rw [ht]
  exact List.eq_replicate_iff.2 ⟨rfl, hall⟩

/-- there is a code marker wherever there is a backtick -/
theorem codeMarker_some (pre : Str) (rest : Str) : (codeMarkerRx.matchAt pre ('`' :: rest)).isSome = true := by
  have step : (Rx.grp 2 (.seqs [.notAhead (.lit ['<', '\\']), .chr (· == '`')])).Step ⟨pre, '`' :: rest, []⟩
      ⟨'`' :: pre, rest, [(2, ('`' :: rest).take (('`' :: rest).length - rest.length), pre.length + 1)]⟩ := by
    refine ⟨⟨'`' :: pre, rest, []⟩, ⟨⟨pre, '`' :: rest, []⟩, ⟨?_, rfl⟩, ⟨'`', rest, rfl, rfl, rfl⟩⟩, rfl⟩
    rintro m ⟨m', ⟨c, cs, h1, h2, _⟩, _⟩
    simp only [List.cons.injEq] at h1
    rw [← h1.1] at h2
    revert h2; decide
  have : codeMarkerRx.Step ⟨pre, '`' :: rest, []⟩ _ :=
    ⟨_, RepStep.more (by simp) step (by simp) (.stop _ _), rfl⟩
  exact Rx.matchAt_isSome this

theorem codeMarker_none_iff (s : Str) : codeMarkerRx.search s = none ↔ '`' ∉ s := by
  constructor
  · intro h hm
    obtain ⟨a, b, rfl⟩ := List.append_of_mem hm
    have := Rx.searchFrom_none _ h a ('`' :: b) rfl
    have h2 := codeMarker_some (a.reverse ++ []) b
    rw [this] at h2; cases h2
  · intro h
    cases hs : codeMarkerRx.search s with
    | none => rfl
    | some m =>
      exfalso
      obtain ⟨u, post, h1, h2⟩ := Rx.searchFrom_sound s hs
      obtain ⟨rest, h3, _⟩ := Rx.matchAt_shape h2
      have hne := codeMarkerRx_nonEmpty _ _ _ h2
      have ht := codeMarker_text h2
      apply h
      rw [h1, h3]
      cases hm : m.text with
      | nil => exact absurd hm hne
      | cons c r =>
        rw [hm] at ht
        simp only [List.length_cons, List.replicate_succ, List.cons.injEq] at ht
        rw [ht.1]; simp

theorem markerCount_zero {s : Str} (h : '`' ∉ s) : markerCount s = 0 := by
  unfold markerCount
  rw [Rx.finditer_nil ((codeMarker_none_iff s).2 h)]; rfl

/-- not empty, and without white space at the ends -/
def Stripped (s : Str) : Prop := s ≠ [] ∧ strip s = s

instance (s : Str) : Decidable (Stripped s) := inferInstanceAs (Decidable (_ ∧ _))

theorem stripped_iff (s : Str) : Stripped s ↔ s ≠ [] ∧ (∀ c r, s = c :: r → isWs c = false) ∧
    (∀ r c, s = r ++ [c] → isWs c = false) := by
  constructor
  · rintro ⟨h1, h2⟩
    refine ⟨h1, ?_, ?_⟩
    · rintro c r rfl
      rcases strip_head (c :: r) with h0 | ⟨d, r', h0, hd⟩
      · rw [h2] at h0; cases h0
      · rw [h2] at h0; cases h0; exact hd
    · rintro r c rfl
      rcases strip_last (r ++ [c]) with h0 | ⟨r', d, h0, hd⟩
      · rw [h2] at h0; simp at h0
      · rw [h2] at h0
        have := (List.append_inj' h0 rfl).2
        simp at this; rw [this]; exact hd
  · rintro ⟨h1, h2, h3⟩
    exact ⟨h1, strip_eq_self_of s h2 h3⟩

theorem Stripped.of_strip {s : Str} (h : strip s ≠ []) : Stripped (strip s) := ⟨h, strip_idem s⟩

theorem Stripped.append {a b : Str} (ha : Stripped a) (hb : ∀ r c, b = r ++ [c] → isWs c = false) :
    Stripped (a ++ b) := by
  rw [stripped_iff] at ha ⊢
  obtain ⟨h1, h2, h3⟩ := ha
  refine ⟨by simp [h1], ?_, ?_⟩
  · intro c r h
    cases a with
    | nil => exact absurd rfl h1
    | cons d a => simp only [List.cons_append, List.cons.injEq] at h; rw [← h.1]; exact h2 d a rfl
  · intro r c h
    rcases List.eq_nil_or_concat b with rfl | ⟨b', d, rfl⟩
    · exact h3 r c (by simpa using h)
    · rw [List.concat_eq_append] at hb h
      rw [← List.append_assoc] at h
      have := (List.append_inj' h rfl).2
      simp at this
      rw [← this]; exact hb b' d rfl

theorem Stripped.noWs {s : Str} (h : s ≠ []) (hw : ∀ c ∈ s, isWs c = false) : Stripped s :=
  ⟨h, strip_noWs s hw⟩

theorem appendLast_concat (xs : List Str) (x s : Str) : appendLast (xs ++ [x]) s = .ok (xs ++ [x ++ s]) := by
  simp [appendLast]

theorem appendLast_ok {xs ys : List Str} {s : Str} (h : appendLast xs s = .ok ys) :
    ∃ zs x, xs = zs ++ [x] ∧ ys = zs ++ [x ++ s] := by
  rcases List.eq_nil_or_concat xs with rfl | ⟨zs, x, rfl⟩
  · cases h
  · rw [List.concat_eq_append] at h ⊢
    rw [appendLast_concat] at h
    cases h
    exact ⟨zs, x, rfl, rfl⟩

theorem appendLast_nil (s : Str) : appendLast [] s = .error .indexError := rfl

theorem startsSingleDot_iff (s : Str) : startsSingleDot s = true ↔ ∃ r, s = '.' :: r ∧ r.head? ≠ some '.' := by
  unfold startsSingleDot
  rw [Bool.and_eq_true, startsWith_single, Bool.not_eq_true', Bool.eq_false_iff, Ne, startsWith_iff]
  constructor
  · rintro ⟨⟨r, rfl⟩, h⟩
    refine ⟨r, rfl, ?_⟩
    intro h0
    cases r with
    | nil => cases h0
    | cons d r => simp at h0; subst h0; exact h ⟨r, rfl⟩
  · rintro ⟨r, rfl, h⟩
    refine ⟨⟨r, rfl⟩, ?_⟩
    rintro ⟨r', h0⟩
    simp at h0
    rw [h0] at h; exact h rfl

/-- Invariant of the loop of `code_split` after the text `pre` (reversed). -/
structure CodeInv (pre : Str) (st : CodeSt) : Prop where
  lastEnd : st.lastEnd = pre.length
  lead : st.toks.lead.length = st.toks.split.length
  eval : st.toks.eval.length = st.toks.split.length
  chars : ∀ s ∈ st.toks.split, ∀ c ∈ s, c ∈ pre
  stripped : ∀ s ∈ st.toks.split, Stripped s
  code : ∀ t ∈ st.toks.split.zip st.toks.eval, t.2 = false → ∃ r, t.1 = '`' :: r
  started : st.toks.split = [] → pre = [] ∧ st.openLen = 0
  nw : nw st.toks.split.flatten = nw pre.reverse
  last : st.toks.split ≠ [] → ∃ zs x, st.toks.split = zs ++ ['`' :: x] ∧ st.toks.eval.getLast? = some false

theorem replicate_backtick {k : Nat} (hk : k ≠ 0) :
    Stripped (List.replicate k '`') ∧ (∃ r, List.replicate k '`' = '`' :: r) ∧
    ∀ r c, List.replicate k '`' = r ++ [c] → isWs c = false := by
  obtain ⟨j, rfl⟩ : ∃ j, k = j + 1 := ⟨k - 1, by omega⟩
  have hall : ∀ c ∈ List.replicate (j + 1) '`', isWs c = false := by
    intro c hc; rw [List.eq_of_mem_replicate hc]; decide
  refine ⟨Stripped.noWs (by simp [List.replicate_succ]) hall, ⟨List.replicate j '`', rfl⟩, ?_⟩
  intro r c h
  exact hall c (by rw [h]; simp)

theorem zip_concat {α β : Type} {as : List α} {bs : List β} {a : α} {b : β} (h : bs.length = as.length) :
    (as ++ [a]).zip (bs ++ [b]) = as.zip bs ++ [(a, b)] := by
  rw [List.zip_append h.symm]; rfl

theorem codeStep_inv {text : Str} {leadingSpace : Bool} {pre u rest : Str} {st : CodeSt} {m : Match}
    (ht : text = pre.reverse ++ (u ++ (m.text ++ rest))) (hi : CodeInv pre st)
    (hm : m.text = List.replicate m.text.length '`') (hne : m.text ≠ [])
    (hs : m.start = pre.length + u.length) (he : m.stop = pre.length + u.length + m.text.length) :
    ∃ st', codeStep text leadingSpace st m = .ok st' ∧ CodeInv (m.text.reverse ++ (u.reverse ++ pre)) st' := by
  have hk : m.text.length ≠ 0 := by simpa using hne
  obtain ⟨hrs, ⟨hr0, hrh⟩, hrl⟩ := replicate_backtick hk
  have hslice : slice text st.lastEnd m.start = u := by
    rw [hi.lastEnd, hs, ht]
    have := slice_mid pre.reverse u (m.text ++ rest)
    simpa using this
  have hslice2 : slice text st.lastEnd m.stop = u ++ m.text := by
    rw [hi.lastEnd, he, ht]
    have := slice_mid pre.reverse (u ++ m.text) rest
    simpa [Nat.add_assoc] using this
  have hlen : m.stop = (m.text.reverse ++ (u.reverse ++ pre)).length := by simp [he]; omega
  unfold codeStep
  by_cases hopen : st.openLen = 0
  · -- an opening marker
    rw [if_pos (by simp [hopen]), hslice]
    -- the text before the marker, with a leading period moved to the token before
    have hdot : ∃ split plain,
        moveDot (startsSingleDot u && !st.toks.split.isEmpty) st.toks.split u = .ok (split, plain) ∧
        split.length = st.toks.split.length ∧ (∀ s ∈ split, ∀ c ∈ s, c ∈ u.reverse ++ pre) ∧ (∀ s ∈ split, Stripped s) ∧
        (∀ c ∈ plain, c ∈ u) ∧ nw (split.flatten ++ plain) = nw (pre.reverse ++ u) ∧
        (∀ t ∈ split.zip st.toks.eval, t.2 = false → ∃ r, t.1 = '`' :: r) := by
      by_cases hd : startsSingleDot u = true ∧ st.toks.split ≠ []
      · obtain ⟨r, hur, _⟩ := (startsSingleDot_iff u).1 hd.1
        obtain ⟨zs, x, hzs, hev⟩ := hi.last hd.2
        have hap : appendLast st.toks.split c!"." = .ok (zs ++ ['`' :: x ++ c!"."]) := by
          rw [hzs, appendLast_concat]
        have hemp : st.toks.split.isEmpty = false := by rw [hzs]; simp
        refine ⟨zs ++ ['`' :: x ++ c!"."], u.drop 1, ?_, ?_, ?_, ?_, ?_, ?_, ?_⟩
        · simp only [moveDot, hd.1, hemp, Bool.not_false, Bool.and_self, if_true, hap]; rfl
        · rw [hzs]; simp
        · intro s hs' c hc
          simp only [List.mem_append, List.mem_singleton] at hs'
          rcases hs' with hs' | rfl
          · exact List.mem_append_right _ (hi.chars s (by rw [hzs]; simp [hs']) c hc)
          · rcases List.mem_append.1 hc with hc | hc
            · exact List.mem_append_right _ (hi.chars _ (by rw [hzs]; simp) c hc)
            · simp at hc; subst hc; rw [hur]; simp
        · intro s hs'
          simp only [List.mem_append, List.mem_singleton] at hs'
          rcases hs' with hs' | rfl
          · exact hi.stripped s (by rw [hzs]; simp [hs'])
          · refine Stripped.append (hi.stripped _ (by rw [hzs]; simp)) ?_
            intro r' c h
            have : c = '.' := by
              cases r' with
              | nil => simpa using h.symm
              | cons a r' => simp at h
            rw [this]; decide
        · intro c hc; exact List.mem_of_mem_drop hc
        · have := hi.nw
          rw [hzs] at this
          simp only [List.flatten_append, List.flatten_cons, List.flatten_nil, List.append_nil, nw_append,
            ← List.append_assoc] at this ⊢
          rw [this, hur]
          simp only [List.drop_succ_cons, List.drop_zero, List.append_assoc, ← nw_append]
          rfl
        · have hcode := hi.code
          rw [hzs] at hcode
          obtain ⟨es, e, hes⟩ : ∃ es e, st.toks.eval = es ++ [e] := by
            rcases List.eq_nil_or_concat st.toks.eval with h0 | ⟨es, e, h0⟩
            · rw [h0] at hev; cases hev
            · exact ⟨es, e, by rw [h0]; simp⟩
          rw [hes] at hcode ⊢
          have hl2 : es.length = zs.length := by
            have := hi.eval; rw [hes, hzs] at this; simpa using this
          rw [zip_concat hl2] at hcode ⊢
          intro t ht' hf
          rcases List.mem_append.1 ht' with ht' | ht'
          · exact hcode t (by simp [ht']) hf
          · simp at ht'; subst ht'; exact ⟨x ++ c!".", rfl⟩
      · refine ⟨st.toks.split, u, ?_, rfl, ?_, hi.stripped, fun c h => h, ?_, hi.code⟩
        · rw [moveDot, if_neg]
          simp only [Bool.and_eq_true, Bool.not_eq_true', List.isEmpty_eq_false_iff]
          exact hd
        · intro s hs' c hc; exact List.mem_append_right _ (hi.chars s hs' c hc)
        · rw [nw_append, hi.nw, nw_append]
    obtain ⟨split, plain, hdo, hlen1, hch1, hst1, hpl, hnw1, hcode1⟩ := hdot
    simp only [hdo, bind, Except.bind]
    refine ⟨_, rfl, ?_⟩
    have hmc : ∀ c ∈ m.text, c ∈ m.text.reverse ++ (u.reverse ++ pre) := by intro c hc; simp [hc]
    have hnwm : nw (m.text.reverse ++ (u.reverse ++ pre)).reverse = nw (pre.reverse ++ u) ++ nw m.text := by
      simp [nw_append]
    by_cases hb : strip plain = []
    · -- nothing but white space before the marker
      simp only [hb, List.isEmpty_nil, Bool.not_true, Bool.false_eq_true, if_false]
      constructor
      · exact hlen
      · simp [hlen1, hi.lead]
      · simp [hlen1, hi.eval]
      · intro s hs' c hc
        simp only [List.mem_append, List.mem_singleton] at hs'
        rcases hs' with hs' | rfl
        · exact List.mem_append_right _ (hch1 s hs' c hc)
        · exact hmc c (by rw [hm]; exact hc)
      · intro s hs'
        simp only [List.mem_append, List.mem_singleton] at hs'
        rcases hs' with hs' | rfl
        · exact hst1 s hs'
        · exact hrs
      · rw [zip_concat (by rw [hlen1]; exact hi.eval)]
        intro t ht' hf
        rcases List.mem_append.1 ht' with ht' | ht'
        · exact hcode1 t ht' hf
        · simp at ht'; subst ht'; exact ⟨hr0, hrh⟩
      · intro h; simp at h
      · rw [hnwm, ← hnw1]
        simp only [List.flatten_append, List.flatten_cons, List.flatten_nil, List.append_nil, nw_append,
          nw_eq_nil.2 hb]
        rw [← hm]
      · intro _; exact ⟨split, hr0, by rw [hrh], by simp⟩
    · have hbe : (strip plain).isEmpty = false := by simpa using hb
      simp only [hbe, Bool.not_false, if_true]
      constructor
      · exact hlen
      · simp [hlen1, hi.lead]
      · simp [hlen1, hi.eval]
      · intro s hs' c hc
        simp only [List.mem_append, List.mem_singleton] at hs'
        rcases hs' with (hs' | rfl) | rfl
        · exact List.mem_append_right _ (hch1 s hs' c hc)
        · have := hpl c (mem_of_mem_strip hc); simp [this]
        · exact hmc c (by rw [hm]; exact hc)
      · intro s hs'
        simp only [List.mem_append, List.mem_singleton] at hs'
        rcases hs' with (hs' | rfl) | rfl
        · exact hst1 s hs'
        · exact Stripped.of_strip hb
        · exact hrs
      · rw [zip_concat (by simp [hlen1, hi.eval]), zip_concat (by rw [hlen1]; exact hi.eval)]
        intro t ht' hf
        simp only [List.mem_append, List.mem_singleton] at ht'
        rcases ht' with (ht' | rfl) | rfl
        · exact hcode1 t ht' hf
        · cases hf
        · exact ⟨hr0, hrh⟩
      · intro h; simp at h
      · rw [hnwm, ← hnw1]
        simp only [List.flatten_append, List.flatten_cons, List.flatten_nil, List.append_nil, nw_append, nw_strip,
          List.append_assoc]
        rw [← hm]
      · intro _; exact ⟨split ++ [strip plain], hr0, by rw [hrh], by simp⟩
  · -- inside code: text is appended to the last token
    have hsne : st.toks.split ≠ [] := fun h => hopen (hi.started h).2
    obtain ⟨zs, x, hzs, hev⟩ := hi.last hsne
    have happ : ∀ s : Str, s = u ++ m.text →
        appendLast st.toks.split s = .ok (zs ++ ['`' :: x ++ s]) ∧
        ∀ o, CodeInv (m.text.reverse ++ (u.reverse ++ pre))
          { toks := { st.toks with split := zs ++ ['`' :: x ++ s] }, openLen := o, lastEnd := m.stop } := by
      rintro s rfl
      refine ⟨by rw [hzs, appendLast_concat], fun o => ?_⟩
      constructor
      · exact hlen
      · have := hi.lead; rw [hzs] at this; simpa using this
      · have := hi.eval; rw [hzs] at this; simpa using this
      · intro s hs' c hc
        simp only [List.mem_append, List.mem_singleton] at hs'
        rcases hs' with hs' | rfl
        · have := hi.chars s (by rw [hzs]; simp [hs']) c hc; simp [this]
        · rw [List.mem_append] at hc
          rcases hc with hc | hc
          · have := hi.chars _ (by rw [hzs]; simp) c hc; simp [this]
          · rcases List.mem_append.1 hc with hc | hc <;> simp [hc]
      · intro s hs'
        simp only [List.mem_append, List.mem_singleton] at hs'
        rcases hs' with hs' | rfl
        · exact hi.stripped s (by rw [hzs]; simp [hs'])
        · refine Stripped.append (hi.stripped _ (by rw [hzs]; simp)) ?_
          intro r c h
          have hc : c ∈ m.text := by
            rcases List.eq_nil_or_concat m.text with h0 | ⟨m', d, h0⟩
            · exact absurd h0 hne
            · rw [List.concat_eq_append] at h0
              rw [h0, ← List.append_assoc] at h
              have := (List.append_inj' h rfl).2
              simp at this
              rw [h0, ← this]; simp
          rw [hm] at hc
          rw [List.eq_of_mem_replicate hc]; decide
      · have hcode := hi.code
        rw [hzs] at hcode
        obtain ⟨es, e, hes⟩ : ∃ es e, st.toks.eval = es ++ [e] := by
          rcases List.eq_nil_or_concat st.toks.eval with h0 | ⟨es, e, h0⟩
          · rw [h0] at hev; cases hev
          · exact ⟨es, e, by rw [h0]; simp⟩
        dsimp only
        rw [hes] at hcode ⊢
        have hl2 : es.length = zs.length := by
          have := hi.eval; rw [hes, hzs] at this; simpa using this
        rw [zip_concat hl2] at hcode ⊢
        intro t ht' hf
        rcases List.mem_append.1 ht' with ht' | ht'
        · exact hcode t (by simp [ht']) hf
        · simp at ht'; subst ht'; exact ⟨x ++ (u ++ m.text), rfl⟩
      · intro h; simp at h
      · have := hi.nw
        rw [hzs] at this
        simp only [List.flatten_append, List.flatten_cons, List.flatten_nil, List.append_nil, nw_append,
          List.reverse_append, List.reverse_reverse, ← List.append_assoc] at this ⊢
        rw [this]
      · intro _; exact ⟨zs, x ++ (u ++ m.text), rfl, hev⟩
    rw [if_neg (by simpa using hopen)]
    split
    · rename_i hlen'
      have hlen' : m.text.length = st.openLen := by simpa using hlen'
      rw [hslice, ← hlen', ← hm]
      obtain ⟨h1, h2⟩ := happ _ rfl
      simp only [h1, bind, Except.bind]
      exact ⟨_, rfl, h2 0⟩
    · rw [hslice2]
      obtain ⟨h1, h2⟩ := happ _ rfl
      rw [h1]
      exact ⟨_, rfl, h2 st.openLen⟩

theorem codeFold_inv {text : Str} {leadingSpace : Bool} {pre post : Str} {ms : List Match}
    (hf : Rx.Finds codeMarkerRx pre post ms) : ∀ st, text = pre.reverse ++ post → CodeInv pre st →
    ∃ st' pre' post', ms.foldlM (codeStep text leadingSpace) st = .ok st' ∧ text = pre'.reverse ++ post' ∧
      CodeInv pre' st' ∧ '`' ∉ post' := by
  induction hf with
  | done hn =>
    rename_i pre post
    intro st ht hi
    refine ⟨st, pre, post, rfl, ht, hi, ?_⟩
    intro hm
    obtain ⟨a, b, rfl⟩ := List.append_of_mem hm
    have := Rx.searchFrom_none _ hn a ('`' :: b) rfl
    have h2 := codeMarker_some (a.reverse ++ pre) b
    rw [this] at h2; cases h2
  | step h1 h2 hne hs he hrest ih =>
    intro st ht hi
    obtain ⟨st1, hok, hi1⟩ := codeStep_inv (leadingSpace := leadingSpace) ht hi (codeMarker_text h2) hne hs he
    obtain ⟨st', pre', post', h3, h4, h5⟩ := ih st1 (by rw [ht]; simp) hi1
    refine ⟨st', pre', post', ?_, h4, h5⟩
    rw [List.foldlM_cons, hok]
    exact h3

/-- What `code_split` returns. -/
structure CodeOut (text : Str) (t : Toks) : Prop where
  lead : t.lead.length = t.split.length
  eval : t.eval.length = t.split.length
  chars : ∀ s ∈ t.split, ∀ c ∈ s, c ∈ text
  stripped : ∀ s ∈ t.split, Stripped s
  code : ∀ x ∈ t.split.zip t.eval, x.2 = false → ∃ r, x.1 = '`' :: r
  nw : nw t.split.flatten = nw text

/-- `code_split` fails only on a text that begins with one period and has no backtick. -/
theorem codeSplit_out (text : Str) (leadingSpace : Bool) :
    (∃ t, codeSplit text leadingSpace = .ok t ∧ CodeOut text t) ∨
    (codeSplit text leadingSpace = .error .indexError ∧ startsSingleDot text = true ∧ '`' ∉ text) := by
  obtain ⟨st, pre, post, hfold, htext, hi, hpost⟩ := codeFold_inv (leadingSpace := leadingSpace) (text := text)
    (Rx.finditer_finds codeMarkerRx_nonEmpty text)
    { toks := { split := [], lead := [], eval := [] }, openLen := 0, lastEnd := 0 } rfl
    ⟨rfl, rfl, rfl, by simp, by simp, by simp, by simp, rfl, by simp⟩
  have hrest : text.drop st.lastEnd = post := by
    rw [hi.lastEnd, htext]
    have : pre.length = pre.reverse.length := by simp
    rw [this, List.drop_left]
  unfold codeSplit
  rw [hfold]
  simp only [bind, Except.bind, hrest]
  have hmem : ∀ c ∈ pre, c ∈ text := by intro c hc; rw [htext]; simp [hc]
  have hmem2 : ∀ c ∈ post, c ∈ text := by intro c hc; rw [htext]; simp [hc]
  have hnwt : nw text = nw pre.reverse ++ nw post := by rw [htext, nw_append]
  by_cases hcase : st.toks.split.getLast?.any (fun s => markerCount s == 1) = true
  · -- unclosed code
    left
    rw [if_pos hcase]
    have hsne : st.toks.split ≠ [] := by intro h; rw [h] at hcase; cases hcase
    obtain ⟨zs, x, hzs, hev⟩ := hi.last hsne
    obtain ⟨es, hes⟩ : ∃ es, st.toks.eval = es ++ [false] := by
      rcases List.eq_nil_or_concat st.toks.eval with h0 | ⟨es, e, h0⟩
      · rw [h0] at hev; cases hev
      · rw [h0] at hev; simp at hev; exact ⟨es, by rw [h0, hev]; simp⟩
    have hl2 : es.length = zs.length := by
      have := hi.eval; rw [hes, hzs] at this; simpa using this
    have hcode := hi.code
    rw [hzs, hes, zip_concat hl2] at hcode
    by_cases hb : strip post = []
    · simp only [hb, List.isEmpty_nil, Bool.not_true, Bool.false_eq_true, if_false]
      refine ⟨_, rfl, hi.lead, ?_, ?_, hi.stripped, ?_, ?_⟩
      · have := hi.eval; rw [hes] at this ⊢; simpa using this
      · intro s hs c hc; exact hmem c (hi.chars s hs c hc)
      · rw [hzs, hes, List.dropLast_concat, zip_concat hl2]
        intro t ht hf
        rcases List.mem_append.1 ht with ht | ht
        · exact hcode t (by simp [ht]) hf
        · simp at ht; subst ht; cases hf
      · rw [hnwt, nw_eq_nil.2 hb, List.append_nil]; exact hi.nw
    · have hbe : (strip post).isEmpty = false := by simpa using hb
      simp only [hbe, Bool.not_false, if_true, hzs, appendLast_concat]
      refine ⟨_, rfl, ?_, ?_, ?_, ?_, ?_, ?_⟩
      · have := hi.lead; rw [hzs] at this; simpa using this
      · have := hi.eval; rw [hes, hzs] at this; rw [hes]; simpa using this
      · intro s hs c hc
        simp only [List.mem_append, List.mem_singleton] at hs
        rcases hs with hs | rfl
        · exact hmem c (hi.chars s (by rw [hzs]; simp [hs]) c hc)
        · rcases List.mem_append.1 hc with hc | hc
          · exact hmem c (hi.chars _ (by rw [hzs]; simp) c hc)
          · exact hmem2 c (mem_of_mem_rstrip hc)
      · intro s hs
        simp only [List.mem_append, List.mem_singleton] at hs
        rcases hs with hs | rfl
        · exact hi.stripped s (by rw [hzs]; simp [hs])
        · refine Stripped.append (hi.stripped _ (by rw [hzs]; simp)) ?_
          intro r c h
          rcases rstrip_last post with h0 | ⟨r', d, h0, hd⟩
          · rw [h0] at h; simp at h
          · rw [h0] at h
            have := (List.append_inj' h rfl).2
            simp at this; rw [← this]; exact hd
      · dsimp only
        rw [hes, List.dropLast_concat, zip_concat hl2]
        intro t ht hf
        rcases List.mem_append.1 ht with ht | ht
        · exact hcode t (by simp [ht]) hf
        · simp at ht; subst ht; cases hf
      · have := hi.nw
        rw [hzs] at this
        dsimp only
        rw [hnwt, ← this]
        simp only [List.flatten_append, List.flatten_cons, List.flatten_nil, List.append_nil, nw_append, nw_rstrip,
          List.append_assoc]
  · rw [if_neg hcase]
    -- common end: a list of tokens and the remaining text
    have fin : ∀ split remaining, split.length = st.toks.split.length → (∀ s ∈ split, ∀ c ∈ s, c ∈ text) →
        (∀ s ∈ split, Stripped s) → (∀ x ∈ split.zip st.toks.eval, x.2 = false → ∃ r, x.1 = '`' :: r) →
        nw split.flatten ++ nw remaining = nw text → (∀ c ∈ remaining, c ∈ text) →
        ∃ t, (if (!(strip remaining).isEmpty) = true then
            (.ok { split := split ++ [strip remaining],
                   lead := st.toks.lead ++ [if (st.lastEnd == 0) = true then leadingSpace else startsWith remaining c!" "],
                   eval := st.toks.eval ++ [true] } : Except Err Toks)
          else .ok { st.toks with split := split }) = .ok t ∧ CodeOut text t := by
      intro split remaining h1 h2 h3 h4 h5 h6
      by_cases hb : strip remaining = []
      · simp only [hb, List.isEmpty_nil, Bool.not_true, Bool.false_eq_true, if_false]
        refine ⟨_, rfl, ?_, ?_, h2, h3, h4, ?_⟩
        · rw [h1]; exact hi.lead
        · rw [h1]; exact hi.eval
        · rw [← h5, nw_eq_nil.2 hb, List.append_nil]
      · have hbe : (strip remaining).isEmpty = false := by simpa using hb
        simp only [hbe, Bool.not_false, if_true]
        refine ⟨_, rfl, ?_, ?_, ?_, ?_, ?_, ?_⟩
        · simp [h1, hi.lead]
        · simp [h1, hi.eval]
        · intro s hs c hc
          simp only [List.mem_append, List.mem_singleton] at hs
          rcases hs with hs | rfl
          · exact h2 s hs c hc
          · exact h6 c (mem_of_mem_strip hc)
        · intro s hs
          simp only [List.mem_append, List.mem_singleton] at hs
          rcases hs with hs | rfl
          · exact h3 s hs
          · exact Stripped.of_strip hb
        · dsimp only
          rw [zip_concat (by rw [h1]; exact hi.eval)]
          intro t ht hf
          rcases List.mem_append.1 ht with ht | ht
          · exact h4 t ht hf
          · simp at ht; subst ht; cases hf
        · simp only [List.flatten_append, List.flatten_cons, List.flatten_nil, List.append_nil, nw_append, nw_strip]
          exact h5
    by_cases hd : startsSingleDot post = true
    · rw [moveDot, if_pos hd]
      obtain ⟨r, hr, _⟩ := (startsSingleDot_iff post).1 hd
      by_cases hsne : st.toks.split = []
      · right
        obtain ⟨rfl, _⟩ := hi.started hsne
        have : text = post := by simpa using htext
        rw [hsne, appendLast_nil]
        exact ⟨rfl, by rw [this]; exact hd, by rw [this]; exact hpost⟩
      · left
        obtain ⟨zs, x, hzs, hev⟩ := hi.last hsne
        have hcode := hi.code
        obtain ⟨es, e, hes⟩ : ∃ es e, st.toks.eval = es ++ [e] := by
          rcases List.eq_nil_or_concat st.toks.eval with h0 | ⟨es, e, h0⟩
          · rw [h0] at hev; cases hev
          · exact ⟨es, e, by rw [h0]; simp⟩
        have hl2 : es.length = zs.length := by
          have := hi.eval; rw [hes, hzs] at this; simpa using this
        have := fin (zs ++ ['`' :: x ++ c!"."]) (post.drop 1) (by rw [hzs]; simp)
          (by
            intro s hs c hc
            simp only [List.mem_append, List.mem_singleton] at hs
            rcases hs with hs | rfl
            · exact hmem c (hi.chars s (by rw [hzs]; simp [hs]) c hc)
            · rcases List.mem_append.1 hc with hc | hc
              · exact hmem c (hi.chars _ (by rw [hzs]; simp) c hc)
              · simp at hc; subst hc; exact hmem2 _ (by rw [hr]; simp))
          (by
            intro s hs
            simp only [List.mem_append, List.mem_singleton] at hs
            rcases hs with hs | rfl
            · exact hi.stripped s (by rw [hzs]; simp [hs])
            · refine Stripped.append (hi.stripped _ (by rw [hzs]; simp)) ?_
              intro r' c h
              have : c = '.' := by
                cases r' with
                | nil => simpa using h.symm
                | cons a r' => simp at h
              rw [this]; decide)
          (by
            rw [hzs] at hcode
            rw [hes] at hcode ⊢
            rw [zip_concat hl2] at hcode ⊢
            intro t ht' hf
            rcases List.mem_append.1 ht' with ht' | ht'
            · exact hcode t (by simp [ht']) hf
            · simp at ht'; subst ht'; exact ⟨x ++ c!".", rfl⟩)
          (by
            have := hi.nw
            rw [hzs] at this
            rw [hnwt, ← this, hr]
            simp only [List.flatten_append, List.flatten_cons, List.flatten_nil, List.append_nil, nw_append,
              List.append_assoc, List.drop_succ_cons, List.drop_zero]
            rw [show ('.' :: r : Str) = c!"." ++ r from rfl, nw_append])
          (fun c hc => hmem2 c (List.mem_of_mem_drop hc))
        rw [hzs, appendLast_concat]
        exact this
    · left
      rw [moveDot, if_neg hd]
      exact fin st.toks.split post rfl (fun s hs c hc => hmem c (hi.chars s hs c hc)) hi.stripped hi.code
        (by rw [hnwt, hi.nw]) hmem2

end MF
