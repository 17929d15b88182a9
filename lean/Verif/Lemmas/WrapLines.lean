import Verif.Lemmas.WrapToks
/-!
# The lines `wrap` returns
-/

namespace MF

theorem wrapToks_error {text : Str} {e : Err} (h : wrapToks text = .error e) :
    e = .indexError ∧ ∃ a r, text = a ++ '.' :: r ∧ r.head? ≠ some '.' ∧ WordStart a := by
  have hdot : ∀ s, Placed text s → startsSingleDot s = true →
      ∃ a r, text = a ++ '.' :: r ∧ r.head? ≠ some '.' ∧ WordStart a := by
    intro s hp hs
    obtain ⟨a, b, ht, hw⟩ := hp
    obtain ⟨hw', hb⟩ := hw hs
    obtain ⟨r, rfl, hr⟩ := (startsSingleDot_iff s).1 hs
    cases r with
    | nil => exact ⟨a, b, by simpa using ht, hb, hw'⟩
    | cons c r => exact ⟨a, c :: r ++ b, by simpa using ht, by simpa using hr, hw'⟩
  simp only [wrapToks, bind, Except.bind] at h
  split at h
  · rename_i e1 h1
    cases h
    have hq : Toks.All (fun x => x.1 = text) { split := [text], lead := [false], eval := [true] } := by
      intro x hx; simp [Toks.triples] at hx; simp [hx]
    obtain ⟨s, l, rfl, h2⟩ := splitPass_error hq h1
    rcases codeSplit_out s l with ⟨t', h', ho⟩ | ⟨h', hs, _⟩
    · rw [h2] at h'; cases h'
    · rw [h2] at h'; cases h'
      exact ⟨rfl, hdot s ⟨[], [], by simp, fun _ => ⟨.inl rfl, by simp⟩⟩ hs⟩
  · rename_i t1 h1
    have h1 := splitPass_first h1
    obtain ⟨w1, a1, n1⟩ := codeSplit_all h1
    split at h
    · rename_i e1 h2
      cases h
      obtain ⟨s, l, hq, h2⟩ := splitPass_error a1 h2
      rcases linkSplit_out s l with ⟨t', h', ho⟩ | ⟨h', hs, _⟩
      · rw [h2] at h'; cases h'
      · rw [h2] at h'; cases h'
        exact ⟨rfl, hdot s (hq.2.2.1 rfl) hs⟩
    · rename_i t2 h2
      exfalso
      have hany : ∀ t : Toks, t.All (fun _ => True) := fun _ _ _ => trivial
      split at h
      · rename_i e1 h3
        obtain ⟨s, l, _, h3⟩ := splitPass_error (hany _) h3
        obtain ⟨t', h', _⟩ := newlineSplit_out s l
        rw [h3] at h'; cases h'
      · obtain ⟨s, l, _, h3⟩ := splitPass_error (hany _) h
        simp [spaceSplit] at h3

/-! ## Lines of `join` -/

/-- ends in a character that is not whitespace -/
def EndsNonWs (s : Str) : Prop := ∃ r c, s = r ++ [c] ∧ isWs c = false

/-- starts with a character that is not whitespace -/
def StartsNonWs (s : Str) : Prop := ∃ c r, s = c :: r ∧ isWs c = false

theorem Stripped.ends {s : Str} (h : Stripped s) : EndsNonWs s := by
  rcases strip_last s with h1 | ⟨r, c, h1, h2⟩
  · rw [h.2] at h1; exact absurd h1 h.1
  · exact ⟨r, c, by rw [← h1, h.2], h2⟩

theorem Stripped.starts {s : Str} (h : Stripped s) : StartsNonWs s := by
  rcases strip_head s with h1 | ⟨c, r, h1, h2⟩
  · rw [h.2] at h1; exact absurd h1 h.1
  · exact ⟨c, r, by rw [← h1, h.2], h2⟩

theorem stripped_of_ends {s : Str} (h1 : StartsNonWs s) (h2 : EndsNonWs s) : Stripped s := by
  obtain ⟨c, r, rfl, hc⟩ := h1
  obtain ⟨r', d, hr, hd⟩ := h2
  rw [stripped_iff]
  refine ⟨by simp, ?_, ?_⟩
  · intro x y h; cases h; exact hc
  · intro x y h
    rw [hr] at h
    have := (List.append_inj' h rfl).2
    simp at this
    rw [← this]; exact hd

theorem EndsNonWs.prepend {s : Str} (h : EndsNonWs s) (a : Str) : EndsNonWs (a ++ s) := by
  obtain ⟨r, c, rfl, hc⟩ := h
  exact ⟨a ++ r, c, by simp, hc⟩

theorem StartsNonWs.append {s : Str} (h : StartsNonWs s) (a : Str) : StartsNonWs (s ++ a) := by
  obtain ⟨c, r, rfl, hc⟩ := h
  exact ⟨c, r ++ a, by simp, hc⟩

theorem br_nil : (htmlNewlineRx.match? []).isSome = false := by decide

theorem br_ne_nil {w : Str} (h : (htmlNewlineRx.match? w).isSome = true) : w ≠ [] := by
  rintro rfl; rw [br_nil] at h; cases h

/-- what one step of `join` does to the lines, latest first -/
theorem joinStep_lines (width : Width) (st : List Str × Str) (w : Str) (l : Bool) :
    ∃ a b, (a = st.1 ∧ (b = st.2 ++ [' '] ++ w ∧ l = true ∧ st.2 ≠ [] ∨ b = st.2 ++ w ∧ (l = false ∨ st.2 = [])) ∨
        a = st.2 :: st.1 ∧ b = w ∧ st.2 ≠ []) ∧
      (joinStep width st w l = (a, b) ∨ joinStep width st w l = (b :: a, []) ∧ w ≠ []) := by
  obtain ⟨⟨a, b⟩, h1, h2⟩ := joinStep_cases width st w l
  refine ⟨a, b, ?_, ?_⟩
  · rcases h1 with ⟨h, hl, hn, _⟩ | ⟨h, hl, _⟩ | ⟨h, hn, _⟩
    · cases h; exact .inl ⟨rfl, .inl ⟨rfl, hl, hn⟩⟩
    · cases h; exact .inl ⟨rfl, .inr ⟨rfl, hl⟩⟩
    · cases h; exact .inr ⟨rfl, rfl, hn⟩
  · rw [h2]
    split
    · rename_i hb
      exact .inr ⟨rfl, br_ne_nil hb⟩
    · exact .inl rfl

/-- every token is kept in one piece on some line -/
theorem joinPairs_token (toks : List (Str × Bool)) (width : Width) {w : Str} {b : Bool} (h : (w, b) ∈ toks)
    (hne : w ≠ []) : ∃ l ∈ joinPairs toks width, w <:+: l := by
  have hin : ∀ (x y z : Str), x <:+: y → x <:+: y ++ z := fun x y z hx => hx.trans (List.prefix_append y z).isInfix
  have key := joinLoop_inv width (fun done st => ∀ w b, (w, b) ∈ done → w ≠ [] → w <:+: st.2 ∨ ∃ l ∈ st.1, w <:+: l)
    (by
      intro done st w l hP w' b' hm hn
      obtain ⟨a, c, h1, h2⟩ := joinStep_lines width st w l
      have hac : w' <:+: c ∨ ∃ l ∈ a, w' <:+: l := by
        rcases List.mem_append.1 hm with hm | hm
        · rcases hP w' b' hm hn with hP | ⟨x, hx, hP⟩
          · rcases h1 with ⟨rfl, ⟨rfl, _⟩ | ⟨rfl, _⟩⟩ | ⟨rfl, rfl, _⟩
            · exact .inl (hin _ _ _ (hin _ _ _ hP))
            · exact .inl (hin _ _ _ hP)
            · exact .inr ⟨st.2, by simp, hP⟩
          · rcases h1 with ⟨rfl, _⟩ | ⟨rfl, _⟩
            · exact .inr ⟨x, hx, hP⟩
            · exact .inr ⟨x, by simp [hx], hP⟩
        · simp at hm
          obtain ⟨rfl, _⟩ := hm
          left
          rcases h1 with ⟨rfl, ⟨rfl, _⟩ | ⟨rfl, _⟩⟩ | ⟨rfl, rfl, _⟩
          · exact (List.suffix_append _ _).isInfix
          · exact (List.suffix_append _ _).isInfix
          · exact List.infix_rfl
      rcases h2 with h2 | ⟨h2, _⟩
      · rw [h2]; exact hac
      · rw [h2]
        right
        rcases hac with hac | ⟨x, hx, hac⟩
        · exact ⟨c, by simp, hac⟩
        · exact ⟨x, by simp [hx], hac⟩) toks [] ([], []) (by intro w b h; cases h)
  simp only [List.nil_append] at key
  rcases key w b h hne with hk | ⟨l, hl, hk⟩
  · have : (joinLoop width ([], []) toks).2 ≠ [] := by
      intro h0
      rw [h0] at hk
      exact hne (List.infix_nil.1 hk)
    refine ⟨(joinLoop width ([], []) toks).2, ?_, hk⟩
    unfold joinPairs
    simp [this]
  · refine ⟨l, ?_, hk⟩
    unfold joinPairs
    dsimp only
    split <;> simp [hl]

/-- no line starts with whitespace -/
theorem joinPairs_starts (toks : List (Str × Bool)) (width : Width) (h : ∀ x ∈ toks, Stripped x.1 ∨ x.1 = []) :
    ∀ l ∈ joinPairs toks width, StartsNonWs l := by
  have key := joinLoop_inv width (fun done st => (∀ x ∈ done, Stripped x.1 ∨ x.1 = []) →
      (st.2 = [] ∨ StartsNonWs st.2) ∧ ∀ l ∈ st.1, StartsNonWs l)
    (by
      intro done st w l hP hq
      obtain ⟨p1, p2⟩ := hP (fun x hx => hq x (by simp [hx]))
      have hw := hq (w, l) (by simp)
      dsimp only at hw
      obtain ⟨a, c, h1, h2⟩ := joinStep_lines width st w l
      have hac : (c = [] ∧ w = [] ∨ StartsNonWs c) ∧ ∀ l ∈ a, StartsNonWs l := by
        rcases h1 with ⟨rfl, ⟨rfl, _, hne⟩ | ⟨rfl, _⟩⟩ | ⟨rfl, rfl, hne⟩
        · rcases p1 with p1 | p1
          · exact absurd p1 hne
          · exact ⟨.inr ((p1.append _).append _), p2⟩
        · refine ⟨?_, p2⟩
          rcases p1 with p1 | p1
          · rw [p1]
            rcases hw with hw | hw
            · exact .inr hw.starts
            · exact .inl ⟨by simp [hw], hw⟩
          · exact .inr (p1.append _)
        · refine ⟨?_, ?_⟩
          · rcases hw with hw | hw
            · exact .inr hw.starts
            · exact .inl ⟨hw, hw⟩
          · intro x hx
            rcases List.mem_cons.1 hx with rfl | hx
            · rcases p1 with p1 | p1
              · exact absurd p1 hne
              · exact p1
            · exact p2 x hx
      rcases h2 with h2 | ⟨h2, hne⟩
      · rw [h2]
        exact ⟨hac.1.imp (·.1) id, hac.2⟩
      · rw [h2]
        refine ⟨.inl rfl, ?_⟩
        intro x hx
        rcases List.mem_cons.1 hx with rfl | hx
        · rcases hac.1 with h | h
          · exact absurd h.2 hne
          · exact h
        · exact hac.2 x hx) toks [] ([], []) (by intro _; simp)
  simp only [List.nil_append] at key
  obtain ⟨k1, k2⟩ := key h
  intro l hl
  unfold joinPairs at hl
  dsimp only at hl
  split at hl
  · exact k2 l (by simpa using hl)
  · rename_i hne
    simp at hl
    rcases hl with hl | rfl
    · exact k2 l hl
    · rcases k1 with k1 | k1
      · rw [k1] at hne; simp at hne
      · exact k1

/-- with no blank tokens after a space, no line ends in whitespace -/
theorem joinPairs_ends (toks : List (Str × Bool)) (width : Width)
    (h : ∀ x ∈ toks, Stripped x.1 ∨ (x.1 = [] ∧ x.2 = false)) : ∀ l ∈ joinPairs toks width, EndsNonWs l := by
  have key := joinLoop_inv width (fun done st => (∀ x ∈ done, Stripped x.1 ∨ (x.1 = [] ∧ x.2 = false)) →
      (st.2 = [] ∨ EndsNonWs st.2) ∧ ∀ l ∈ st.1, EndsNonWs l)
    (by
      intro done st w l hP hq
      obtain ⟨p1, p2⟩ := hP (fun x hx => hq x (by simp [hx]))
      have hw := hq (w, l) (by simp)
      dsimp only at hw
      obtain ⟨a, c, h1, h2⟩ := joinStep_lines width st w l
      have hac : ((c = [] ∨ EndsNonWs c) ∧ ∀ l ∈ a, EndsNonWs l) ∧ (w ≠ [] → EndsNonWs c) := by
        rcases hw with hw | ⟨hw, hl⟩
        · have hc : EndsNonWs c := by
            rcases h1 with ⟨rfl, ⟨rfl, _, hne⟩ | ⟨rfl, _⟩⟩ | ⟨rfl, rfl, hne⟩
            · exact hw.ends.prepend _
            · exact hw.ends.prepend _
            · exact hw.ends
          refine ⟨⟨.inr hc, ?_⟩, fun _ => hc⟩
          rcases h1 with ⟨rfl, _⟩ | ⟨rfl, _, hne⟩
          · exact p2
          · intro x hx
            rcases List.mem_cons.1 hx with rfl | hx
            · exact p1.resolve_left hne
            · exact p2 x hx
        · refine ⟨?_, fun hn => absurd hw hn⟩
          subst hw
          rcases h1 with ⟨rfl, ⟨_, hl', _⟩ | ⟨rfl, _⟩⟩ | ⟨rfl, rfl, hne⟩
          · rw [hl] at hl'; cases hl'
          · refine ⟨?_, p2⟩
            rw [List.append_nil]; exact p1
          · refine ⟨.inl rfl, ?_⟩
            intro x hx
            rcases List.mem_cons.1 hx with rfl | hx
            · exact p1.resolve_left hne
            · exact p2 x hx
      rcases h2 with h2 | ⟨h2, hne⟩
      · rw [h2]; exact hac.1
      · rw [h2]
        refine ⟨.inl rfl, ?_⟩
        intro x hx
        rcases List.mem_cons.1 hx with rfl | hx
        · exact hac.2 hne
        · exact hac.1.2 x hx) toks [] ([], []) (by intro _; simp)
  simp only [List.nil_append] at key
  obtain ⟨k1, k2⟩ := key h
  intro l hl
  unfold joinPairs at hl
  dsimp only at hl
  split at hl
  · exact k2 l (by simpa using hl)
  · rename_i hne
    simp at hl
    rcases hl with hl | rfl
    · exact k2 l hl
    · rcases k1 with k1 | k1
      · rw [k1] at hne; simp at hne
      · exact k1

/-- the last line so far ends in a character that is not whitespace -/
def LastOk (st : List Str × Str) : Prop :=
  (st.2 ≠ [] → EndsNonWs st.2) ∧ (st.2 = [] → ∀ l r, st.1 = l :: r → EndsNonWs l)

theorem joinLoop_last (width : Width) : ∀ (toks : List (Str × Bool)) (st : List Str × Str),
    (∀ x ∈ toks, Stripped x.1 ∨ x.1 = []) →
    (∀ a w b, toks = a ++ (w, true) :: b → w = [] → ∃ x ∈ b, Stripped x.1) →
    (LastOk st ∨ ∃ x ∈ toks, Stripped x.1) → LastOk (joinLoop width st toks) := by
  intro toks
  induction toks with
  | nil =>
    intro st _ _ h
    rcases h with h | ⟨x, hx, _⟩
    · exact h
    · cases hx
  | cons x toks ih =>
    intro st hq ht h
    obtain ⟨w, l⟩ := x
    rw [joinLoop]
    apply ih
    · exact fun x hx => hq x (by simp [hx])
    · intro a w' b hab hw'
      exact ht ((w, l) :: a) w' b (by rw [hab]; rfl) hw'
    · obtain ⟨a, c, h1, h2⟩ := joinStep_lines width st w l
      rcases hq (w, l) (by simp) with hw | hw
      · left
        have hc : EndsNonWs c := by
          rcases h1 with ⟨rfl, ⟨rfl, _, hne⟩ | ⟨rfl, _⟩⟩ | ⟨rfl, rfl, hne⟩
          · exact hw.ends.prepend _
          · exact hw.ends.prepend _
          · exact hw.ends
        have hcne : c ≠ [] := by obtain ⟨r, c', rfl, _⟩ := hc; simp
        rcases h2 with h2 | ⟨h2, hne⟩
        · rw [h2]; exact ⟨fun _ => hc, fun h0 => absurd h0 hcne⟩
        · rw [h2]
          refine ⟨fun h0 => absurd rfl h0, fun _ l' r h0 => ?_⟩
          simp at h0; rw [← h0.1]; exact hc
      · dsimp only at hw
        subst hw
        cases l with
        | true => exact .inr (ht [] [] toks rfl rfl)
        | false =>
          rcases h with h | ⟨x, hx, hs⟩
          · left
            rcases h2 with h2 | ⟨h2, hne⟩
            · rw [h2]
              rcases h1 with ⟨rfl, ⟨_, hl', _⟩ | ⟨rfl, _⟩⟩ | ⟨rfl, rfl, hne⟩
              · cases hl'
              · rw [List.append_nil]; exact h
              · refine ⟨fun h0 => absurd rfl h0, fun _ l' r h0 => ?_⟩
                simp at h0; rw [← h0.1]; exact h.1 hne
            · exact absurd rfl hne
          · right
            rcases List.mem_cons.1 hx with rfl | hx
            · exact absurd rfl hs.1
            · exact ⟨x, hx, hs⟩

theorem joinPairs_last (toks : List (Str × Bool)) (width : Width) (hq : ∀ x ∈ toks, Stripped x.1 ∨ x.1 = [])
    (ht : ∀ a w b, toks = a ++ (w, true) :: b → w = [] → ∃ x ∈ b, Stripped x.1) :
    ∀ l, (joinPairs toks width).getLast? = some l → EndsNonWs l := by
  have key := joinLoop_last width toks ([], []) hq ht (.inl ⟨fun h => absurd rfl h, fun _ l r h => by cases h⟩)
  intro l hl
  unfold joinPairs at hl
  dsimp only at hl
  split at hl
  · rename_i he
    have he : (joinLoop width ([], []) toks).2 = [] := by simpa using he
    cases hs : (joinLoop width ([], []) toks).1 with
    | nil => rw [hs] at hl; cases hl
    | cons x r =>
      rw [hs] at hl
      simp at hl
      exact key.2 he l r (by rw [hs, hl])
  · rename_i he
    simp at hl
    rw [← hl]
    exact key.1 (by simpa using he)

/-! ## Lines of `wrap` -/

theorem wrap_ok {text : Str} {width : Width} {s : Str} (h : wrap text width = .ok s) :
    ∃ t, WrapOut (wrapInput text) t ∧ s = pyJoin ['\n'] (joinPairs (t.split.zip t.lead) width) := by
  simp only [wrap, bind, Except.bind] at h
  cases ht : wrapToks (wrapInput text) with
  | error e => rw [ht] at h; cases h
  | ok t =>
    rw [ht] at h
    cases h
    refine ⟨t, wrapToks_out ht, ?_⟩
    unfold join
    rw [joinLines_pairs]

theorem mem_pairs_triples {t : Toks} (ht : t.WF) {w : Str} {l : Bool} (h : (w, l) ∈ t.split.zip t.lead) :
    ∃ e, (w, l, e) ∈ t.triples := by
  rw [← triples_pairs t ht] at h
  obtain ⟨⟨a, b, c⟩, hx, h⟩ := List.mem_map.1 h
  cases h
  exact ⟨c, hx⟩

theorem WrapOut.pair {text : Str} {t : Toks} (h : WrapOut text t) {w : Str} {l : Bool}
    (hx : (w, l) ∈ t.split.zip t.lead) :
    (Stripped w ∨ w = []) ∧ (∀ c ∈ w, c ∈ text) ∧ (CodePiece text w ∨ LinkPiece text w ∨ IsBr w ∨ ' ' ∉ w) ∧
    ((∀ c ∈ text, isWs c = true → c = ' ') → Stripped w ∨ (w = [] ∧ l = false)) := by
  obtain ⟨e, he⟩ := mem_pairs_triples h.wf hx
  exact h.all _ he

theorem WrapOut.trailPairs {text : Str} {t : Toks} (h : WrapOut text t) :
    ∀ a w b, t.split.zip t.lead = a ++ (w, true) :: b → w = [] → ∃ x ∈ b, Stripped x.1 := by
  intro a w b hab hw
  rw [← triples_pairs t h.wf, List.map_eq_append_iff] at hab
  obtain ⟨a', b', h1, _, h2⟩ := hab
  rw [List.map_eq_cons_iff] at h2
  obtain ⟨⟨w', l', e'⟩, b'', h3, h4, h5⟩ := h2
  cases h4
  obtain ⟨x, hx, hs⟩ := h.trail a' w' e' b'' (by rw [h1, h3]) hw
  exact ⟨(x.1, x.2.1), by rw [← h5]; exact List.mem_map.2 ⟨x, hx, rfl⟩, hs⟩

theorem wrapLines_noLB {text : Str} {t : Toks} (h : WrapOut (wrapInput text) t) (width : Width) :
    ∀ l ∈ joinPairs (t.split.zip t.lead) width, NoLB l := by
  intro l hl c hc
  rcases joinPairs_mem _ _ l hl c hc with ⟨rfl, _⟩ | ⟨w, b, hw, hc⟩
  · decide
  · exact wrapInput_noLB text c ((h.pair hw).2.1 c hc)

theorem getLast?_mem {α : Type} {xs : List α} {x : α} (h : xs.getLast? = some x) : x ∈ xs := by
  obtain ⟨ys, rfl⟩ := getLast_concat h
  simp

theorem wrap_splitlines {text : Str} {width : Width} {s : Str} (h : wrap text width = .ok s) :
    ∃ t, WrapOut (wrapInput text) t ∧ splitlines s = joinPairs (t.split.zip t.lead) width ∧
      s = pyJoin ['\n'] (splitlines s) := by
  obtain ⟨t, ht, rfl⟩ := wrap_ok h
  have := splitlines_join (joinPairs (t.split.zip t.lead) width) (wrapLines_noLB ht width) (fun h0 =>
      joinPairs_nonempty _ _ _ (getLast?_mem h0) rfl)
  exact ⟨t, ht, this, by rw [this]⟩

/-- what `wrap` returns neither starts nor ends with whitespace, and no line of it is empty -/
theorem wrap_shape {text : Str} {width : Width} {s : Str} (h : wrap text width = .ok s) :
    (∀ l ∈ splitlines s, StartsNonWs l ∧ NoLB l) ∧ s = pyJoin ['\n'] (splitlines s) ∧
    (s = [] ∨ Stripped s) := by
  obtain ⟨t, ht, h1, h2⟩ := wrap_splitlines h
  have hq : ∀ x ∈ t.split.zip t.lead, Stripped x.1 ∨ x.1 = [] := fun x hx => (ht.pair hx).1
  have hst : ∀ l ∈ splitlines s, StartsNonWs l ∧ NoLB l := by
    intro l hl
    refine ⟨?_, splitlines_noLB s l hl⟩
    rw [h1] at hl
    exact joinPairs_starts _ _ hq l hl
  refine ⟨hst, h2, ?_⟩
  cases hl : splitlines s with
  | nil => left; rw [h2, hl]; rfl
  | cons l ls =>
    right
    rw [h2]
    apply stripped_of_ends
    · rw [hl]
      have := (hst l (by rw [hl]; simp)).1
      cases ls with
      | nil => exact this
      | cons m ls => rw [pyJoin_cons_ne (by simp)]; exact (this.append _).append _
    · rcases List.eq_nil_or_concat (splitlines s) with h0 | ⟨ys, y, h0⟩
      · rw [hl] at h0; cases h0
      · rw [List.concat_eq_append] at h0
        have hy := joinPairs_last _ width hq ht.trailPairs y (by rw [← h1, h0]; simp)
        rw [h0]
        cases ys with
        | nil => exact hy
        | cons z ys => rw [pyJoin_append (by simp) (by simp)]; exact hy.prepend _

/-- the text to wrap has no horizontal whitespace but spaces -/
def OnlySpaces (text : Str) : Prop := ∀ c ∈ text, isWs c = true → c = ' ' ∨ isLB c = true

theorem OnlySpaces.input {text : Str} (h : OnlySpaces text) : ∀ c ∈ wrapInput text, isWs c = true → c = ' ' := by
  intro c hc hw
  have hl := wrapInput_noLB text c hc
  rcases mem_wrapInput hc with hc | hc
  · rcases h c hc hw with h | h
    · exact h
    · rw [hl] at h; cases h
  · exact hc

/-- with spaces as the only horizontal whitespace no line of the result ends in whitespace -/
theorem wrap_lines_stripped {text : Str} {width : Width} {s : Str} (h : wrap text width = .ok s)
    (ho : OnlySpaces text) : ∀ l ∈ splitlines s, Stripped l := by
  obtain ⟨t, ht, h1, h2⟩ := wrap_splitlines h
  intro l hl
  refine stripped_of_ends ((wrap_shape h).1 l hl).1 ?_
  rw [h1] at hl
  exact joinPairs_ends _ _ (fun x hx => (ht.pair hx).2.2.2 ho.input) l hl

/-! ## Plain text -/

theorem pieces_words {s : Str} (h : ∀ c ∈ s, isWs c = true → c = ' ') : pieces s = splitWs s := by
  unfold pieces
  induction s with
  | nil => rfl
  | cons c s ih =>
    have ih := ih (fun x hx => h x (by simp [hx]))
    by_cases hc : c = ' '
    · subst hc
      rw [splitWs_ws _ _ (by decide), splitChar]
      simpa using ih
    · have hcw : isWs c = false := by
        cases hw : isWs c with
        | false => rfl
        | true => exact absurd (h c (by simp) hw) hc
      rw [splitChar]
      simp only [beq_iff_eq, hc, if_false]
      cases s with
      | nil => rw [splitWs_single hcw]; rfl
      | cons d s =>
        by_cases hd : d = ' '
        · subst hd
          rw [splitWs_end hcw (by decide)]
          rw [splitWs_ws _ _ (by decide)] at ih
          rw [splitChar] at ih ⊢
          simp only [beq_self_eq_true, if_true] at ih ⊢
          simp only [consHead]
          rw [List.filter_cons] at ih ⊢
          simp only [bne_self_eq_false, Bool.false_eq_true, if_false] at ih
          simp [ih]
        · have hdw : isWs d = false := by
            cases hw : isWs d with
            | false => rfl
            | true => exact absurd (h d (by simp) hw) hd
          rw [splitWs_more hcw hdw, ← ih]
          rw [splitChar]
          simp only [beq_iff_eq, hd, if_false]
          cases splitChar ' ' s <;> simp [consHead]

theorem splitWs_first {c : Char} (s : Str) (hc : isWs c = false) :
    splitWs (c :: s) = (c :: s.takeWhile (fun x => !isWs x)) :: splitWs (s.dropWhile (fun x => !isWs x)) := by
  induction s generalizing c with
  | nil => rw [splitWs_single hc]; rfl
  | cons d s ih =>
    cases hd : isWs d with
    | true => rw [splitWs_end hc hd]; simp [hd, splitWs_ws]
    | false => rw [splitWs_more hc hd, ih hd]; simp [hd, consHead]

theorem splitWs_word {s w : Str} (h : w ∈ splitWs s) : w ≠ [] ∧ (∀ c ∈ w, isWs c = false) ∧ w <:+: s := by
  induction hn : s.length using Nat.strongRecOn generalizing s w with
  | _ n ih =>
    cases s with
    | nil => cases h
    | cons c s =>
      cases hc : isWs c with
      | true =>
        rw [splitWs_ws _ _ hc] at h
        obtain ⟨h1, h2, h3⟩ := ih s.length (by simp at hn; omega) h rfl
        exact ⟨h1, h2, h3.trans (List.suffix_cons c s).isInfix⟩
      | false =>
        rw [splitWs_first s hc] at h
        rcases List.mem_cons.1 h with rfl | h
        · refine ⟨by simp, ?_, ?_⟩
          · intro x hx
            rcases List.mem_cons.1 hx with rfl | hx
            · exact hc
            · simpa using takeWhile_all _ s x hx
          · exact ((List.prefix_cons_inj c).2 (List.takeWhile_prefix _)).isInfix
        · have hsub := List.dropWhile_suffix (fun x => !isWs x) (l := s)
          obtain ⟨h1, h2, h3⟩ := ih _ (by have := hsub.length_le; simp at hn; omega) h rfl
          exact ⟨h1, h2, h3.trans (hsub.trans (List.suffix_cons c s)).isInfix⟩

theorem splitWs_self {w : Str} (h : w ≠ []) (hw : ∀ c ∈ w, isWs c = false) : splitWs w = [w] := by
  cases w with
  | nil => exact absurd rfl h
  | cons c w =>
    rw [splitWs_first w (hw c (by simp))]
    have h1 : w.takeWhile (fun x => !isWs x) = w := by
      have : ∀ (w : Str), (∀ c ∈ w, isWs c = false) → w.takeWhile (fun x => !isWs x) = w := by
        intro w
        induction w with
        | nil => intro _; rfl
        | cons x w ih => intro h; simp [h x (by simp), ih (fun y hy => h y (by simp [hy]))]
      exact this w (fun x hx => hw x (by simp [hx]))
    have h2 : w.dropWhile (fun x => !isWs x) = [] := by
      rw [dropWhile_eq_nil]; intro x hx; simp [hw x (by simp [hx])]
    rw [h1, h2]; rfl

theorem codeSplit_plain {text : Str} {ls : Bool} (h : '`' ∉ text) (hd : startsSingleDot text = false) :
    codeSplit text ls = .ok (if strip text = [] then { split := [], lead := [], eval := [] }
      else { split := [strip text], lead := [ls], eval := [true] }) := by
  have hs := (codeMarker_none_iff text).2 h
  have hf : codeMarkerRx.finditer text = [] := by
    exact Rx.finditer_nil hs
  unfold codeSplit
  rw [hf]
  simp only [List.foldlM_nil, bind, Except.bind, pure, Except.pure, List.getLast?_nil, Option.any_none,
    Bool.false_eq_true, if_false, List.drop_zero, moveDot, hd]
  by_cases hn : strip text = []
  · simp [hn]
  · simp [hn]

/-- the first word does not start with a single period -/
def NoLeadingDot (text : Str) : Prop := ∀ w ws, splitWs text = w :: ws → startsSingleDot w = false

theorem noLeadingDot_start {text : Str} (h : NoLeadingDot text) : startsSingleDot text = false := by
  cases hd : startsSingleDot text with
  | false => rfl
  | true =>
    obtain ⟨r, rfl, hr⟩ := (startsSingleDot_iff text).1 hd
    rw [← h _ _ (splitWs_first r (by decide))]
    symm
    rw [startsSingleDot_iff]
    refine ⟨_, rfl, ?_⟩
    cases r with
    | nil => simp
    | cons c r =>
      rw [List.takeWhile_cons]
      split
      · simpa using hr
      · simp

theorem wrapToks_plain {text : Str} (h1 : '`' ∉ text) (h2 : '[' ∉ text) (h3 : '<' ∉ text) (h4 : NoLeadingDot text) :
    ∃ t, wrapToks text = .ok t ∧ t.split = (pieces (strip text)).map strip ∧ t.WF ∧
      ∀ l ∈ t.lead.drop 1, l = true := by
  have hd := noLeadingDot_start h4
  have hd2 : startsSingleDot (strip text) = false := by
    apply noLeadingDot_start
    unfold NoLeadingDot
    rw [splitWs_strip]; exact h4
  have hb : '[' ∉ strip text := fun h => h2 (mem_of_mem_strip h)
  have ha : '<' ∉ strip text := fun h => h3 (mem_of_mem_strip h)
  have hone : ∀ (func : Str → Bool → Except Err Toks) (s : Str) (l : Bool) (t : Toks), func s l = .ok t →
      splitPass func { split := [s], lead := [l], eval := [true] } = .ok t := by
    intro func s l t hf
    simp [splitPass, applySplit, bind, Except.bind, hf]
  have hnone : ∀ (func : Str → Bool → Except Err Toks),
      splitPass func { split := [], lead := [], eval := [] } = .ok { split := [], lead := [], eval := [] } :=
    fun _ => rfl
  unfold wrapToks
  simp only [bind, Except.bind]
  rw [hone _ _ _ _ (codeSplit_plain h1 hd)]
  simp only
  by_cases hn : strip text = []
  · refine ⟨{ split := [], lead := [], eval := [] }, ?_, ?_, ⟨rfl, rfl⟩, by simp⟩
    · simp only [hn, if_true, hnone]
    · rw [hn]; rfl
  · simp only [hn, if_false]
    rw [hone _ _ _ _ (linkSplit_plain hb hd2)]
    simp only [strip_idem, hn, if_false]
    rw [hone _ _ _ _ (newlineSplit_plain ha)]
    simp only [strip_idem, hn, if_false]
    refine ⟨_, hone _ _ _ _ (spaceSplit_eq _ _), rfl, ?_, ?_⟩
    · constructor
      · simp only
        cases pieces (strip text) <;> simp
      · simp
    · intro l hl
      simp only at hl
      cases hp : pieces (strip text) with
      | nil => rw [hp] at hl; simp at hl
      | cons x r => rw [hp] at hl; simp at hl; exact hl.2

theorem words_strip {s : Str} : (splitWs s).map strip = splitWs s := by
  have : ∀ (ws : List Str), (∀ w ∈ ws, w ∈ splitWs s) → ws.map strip = ws := by
    intro ws
    induction ws with
    | nil => intro _; rfl
    | cons w ws ih =>
      intro h
      obtain ⟨h1, h2, _⟩ := splitWs_word (h w (by simp))
      rw [List.map_cons, ih (fun x hx => h x (by simp [hx])), (Stripped.noWs h1 h2).2]
  exact this _ (fun _ h => h)

/-- plain text: no inline code, links or tags, nothing but spaces and line breaks between words, and a first word
`wrap` does not fail on -/
structure Plain (text : Str) : Prop where
  noTick : '`' ∉ text
  noBracket : '[' ∉ text
  noTag : '<' ∉ text
  spaces : OnlySpaces text
  noDot : NoLeadingDot text

theorem wrapInput_not_mem {text : Str} {c : Char} (h : c ∉ text) (hc : c ≠ ' ') : c ∉ wrapInput text := by
  intro hm
  rcases mem_wrapInput hm with hm | hm
  · exact h hm
  · exact hc hm

/-- a word `join` breaks the line after starts with a tag -/
theorem br_prefix {w : Str} (h : (htmlNewlineRx.match? w).isSome = true) : ∃ b r, w = b ++ r ∧ IsBr b := by
  cases hm : htmlNewlineRx.match? w with
  | none => rw [hm] at h; cases h
  | some m =>
    obtain ⟨st', hst, hc⟩ := consumes_text (r := htmlNewlineRx) (pre := []) (post := w) hm
    exact ⟨m.text, st'.post, hc.1, br_text (pre := []) (post := w) hm⟩

theorem no_br {w : Str} (h : '<' ∉ w) : (htmlNewlineRx.match? w).isSome = false := by
  cases hm : (htmlNewlineRx.match? w).isSome with
  | false => rfl
  | true =>
    exfalso
    obtain ⟨b, r, rfl, hb⟩ := br_prefix hm
    apply h
    rcases hb with hb | hb | hb | hb <;> rw [hb] <;> simp

/-- plain text is wrapped greedily, word by word -/
theorem wrap_plain {text : Str} (h : Plain text) (width : Width) :
    ∃ lines, Greedy width (splitWs text) lines ∧
      wrap text width = .ok (pyJoin ['\n'] (lines.map (pyJoin [' ']))) := by
  have hi : NoLeadingDot (wrapInput text) := by
    unfold NoLeadingDot; rw [splitWs_wrapInput]; exact h.noDot
  obtain ⟨t, ht, h1, hw, hl⟩ := wrapToks_plain (wrapInput_not_mem h.noTick (by decide))
    (wrapInput_not_mem h.noBracket (by decide)) (wrapInput_not_mem h.noTag (by decide)) hi
  have hs : t.split = splitWs text := by
    rw [h1, pieces_words (fun c hc => h.spaces.input c (mem_of_mem_strip hc)), words_strip, splitWs_strip,
      splitWs_wrapInput]
  obtain ⟨lines, hg, hj⟩ := joinPairs_greedy (splitWs text) (t.split.zip t.lead) width
    (by rw [← hs]; apply List.map_fst_zip; rw [hw.1]; exact Nat.le_refl _)
    (by
      intro x hx
      have : ∀ (as : List Str) (bs : List Bool), x ∈ (as.zip bs).drop 1 → x.2 ∈ bs.drop 1 := by
        intro as bs
        cases as <;> cases bs <;> simp
        intro h
        exact (List.of_mem_zip h).2
      exact hl x.2 (this _ _ hx))
    (fun w hw => (splitWs_word hw).1)
    (fun w hw => no_br (fun hc => h.noTag ((splitWs_word hw).2.2.subset hc)))
  refine ⟨lines, hg, ?_⟩
  unfold wrap
  simp only [ht, bind, Except.bind]
  unfold join
  rw [joinLines_pairs, hj]

/-- the word around a character that is not whitespace -/
theorem splitWs_around (a : Str) (c : Char) (r : Str) (hc : isWs c = false) :
    ∃ w ∈ splitWs (a ++ c :: r), ∃ a' u v, a = a' ++ u ∧ w = u ++ c :: v ∧ (∀ x ∈ u, isWs x = false) ∧
      (a' = [] ∨ ∃ b d, a' = b ++ [d] ∧ isWs d = true) := by
  induction hn : a.length using Nat.strongRecOn generalizing a with
  | _ n ih =>
    by_cases hw : ∃ x ∈ a, isWs x = true
    · obtain ⟨x, hx, hxw⟩ := hw
      obtain ⟨p, q, rfl⟩ := List.append_of_mem hx
      obtain ⟨w, hm, a', u, v, h1, h2, h3, h4⟩ := ih q.length (by simp at hn; omega) q rfl
      refine ⟨w, ?_, p ++ x :: a', u, v, by rw [h1]; simp, h2, h3, .inr ?_⟩
      · rw [List.append_assoc, List.cons_append, splitWs_append_ws _ _ _ hxw]
        exact List.mem_append_right _ hm
      · rcases h4 with rfl | ⟨b, d, rfl, hd⟩
        · exact ⟨p, x, rfl, hxw⟩
        · exact ⟨p ++ x :: b, d, by simp, hd⟩
    · have hw' : ∀ x ∈ a, isWs x = false := by
        intro x hx
        cases h : isWs x with
        | false => rfl
        | true => exact absurd ⟨x, hx, h⟩ hw
      have htw : ∀ (a : Str) (s : Str), (∀ x ∈ a, isWs x = false) →
          (a ++ s).takeWhile (fun x => !isWs x) = a ++ s.takeWhile (fun x => !isWs x) := by
        intro a s
        induction a with
        | nil => intro _; rfl
        | cons y a ih => intro h; simp [h y (by simp), ih (fun z hz => h z (by simp [hz]))]
      refine ⟨a ++ c :: r.takeWhile (fun x => !isWs x), ?_, [], a, _, rfl, rfl, hw', .inl rfl⟩
      cases a with
      | nil => rw [List.nil_append, splitWs_first r hc]; simp
      | cons y a =>
        rw [List.cons_append, splitWs_first _ (hw' y (by simp)), htw a _ (fun z hz => hw' z (by simp [hz]))]
        simp [hc]

theorem startsSingleDot_first {s : Str} (h : strip s = s) :
    startsSingleDot s = true ↔ ∃ w ws, splitWs s = w :: ws ∧ startsSingleDot w = true := by
  constructor
  · intro hd
    obtain ⟨r, rfl, hr⟩ := (startsSingleDot_iff s).1 hd
    refine ⟨_, _, splitWs_first r (by decide), ?_⟩
    rw [startsSingleDot_iff]
    refine ⟨_, rfl, ?_⟩
    cases r with
    | nil => simp
    | cons c r =>
      rw [List.takeWhile_cons]
      split
      · simpa using hr
      · simp
  · rintro ⟨w, ws, hw, hd⟩
    rcases strip_head s with h0 | ⟨c, r, h0, hc⟩
    · rw [h] at h0; rw [h0] at hw; cases hw
    · rw [h] at h0
      rw [h0, splitWs_first r hc] at hw
      obtain ⟨rfl, -⟩ := List.cons.inj hw
      obtain ⟨r', hr', hr''⟩ := (startsSingleDot_iff _).1 hd
      obtain ⟨rfl, hr2⟩ := List.cons.inj hr'
      rw [h0, startsSingleDot_iff]
      refine ⟨r, rfl, ?_⟩
      intro h1
      cases r with
      | nil => cases h1
      | cons d r =>
        simp at h1
        subst h1
        apply hr''
        rw [← hr2, List.takeWhile_cons, if_pos (by decide)]
        rfl

theorem codeSplit_dot {text : Str} {ls : Bool} (h : '`' ∉ text) (hd : startsSingleDot text = true) :
    codeSplit text ls = .error .indexError := by
  have hs := (codeMarker_none_iff text).2 h
  have hf : codeMarkerRx.finditer text = [] := Rx.finditer_nil hs
  unfold codeSplit
  rw [hf]
  simp [moveDot, hd, appendLast, bind, Except.bind, pure, Except.pure, Except.map]

theorem linkSplit_dot {text : Str} {ls : Bool} (h : '[' ∉ text) (hd : startsSingleDot text = true) :
    linkSplit text ls = .error .indexError := by
  unfold linkSplit
  rw [show sortMatches (footnoteRx.finditer text ++ urlRx.finditer text) = [] from linkMatches_nil h]
  simp [moveDot, hd, appendLast, bind, Except.bind, pure, Except.pure, Except.map]

/-- without inline code and links, whether `wrap` fails depends on the first word only -/
theorem wrapToks_dot {text : Str} (h1 : '`' ∉ text) (h2 : '[' ∉ text) :
    wrapToks text = .error .indexError ↔ startsSingleDot (strip text) = true := by
  have hone : ∀ (func : Str → Bool → Except Err Toks) (s : Str) (l : Bool),
      splitPass func { split := [s], lead := [l], eval := [true] } = func s l := by
    intro func s l
    simp only [splitPass, applySplit, bind, Except.bind, List.zip_cons_cons, List.zip_nil_right, if_true]
    cases func s l with
    | error e => rfl
    | ok t => simp
  have hb : '[' ∉ strip text := fun h => h2 (mem_of_mem_strip h)
  unfold wrapToks
  rw [hone]
  simp only [bind, Except.bind]
  cases hd : startsSingleDot text with
  | true =>
    rw [codeSplit_dot h1 hd]
    have hd2 : startsSingleDot (strip text) = true := by
      rw [startsSingleDot_first (strip_idem _), splitWs_strip]
      cases hd3 : startsSingleDot (strip text) with
      | true =>
        have := (startsSingleDot_first (strip_idem text)).1 hd3
        rwa [splitWs_strip] at this
      | false =>
        exfalso
        have hn : NoLeadingDot text := by
          intro w ws hw
          cases hx : startsSingleDot w with
          | false => rfl
          | true =>
            have := (startsSingleDot_first (strip_idem text)).2 ⟨w, ws, by rw [splitWs_strip]; exact hw, hx⟩
            rw [this] at hd3; cases hd3
        rw [noLeadingDot_start hn] at hd; cases hd
    simp [hd2]
  | false =>
    rw [codeSplit_plain h1 hd]
    simp only
    by_cases hn : strip text = []
    · rw [hn]
      constructor
      · intro h; cases h
      · intro h; cases h
    · simp only [hn, if_false, hone]
      cases hd2 : startsSingleDot (strip text) with
      | true => rw [linkSplit_dot hb hd2]; simp
      | false =>
        rw [linkSplit_plain hb hd2]
        simp only [strip_idem, hn, if_false, hone]
        obtain ⟨t, ht, _⟩ := newlineSplit_out (strip text) false
        rw [ht]
        simp only [Bool.false_eq_true, iff_false]
        intro h
        have hany : ∀ t : Toks, t.All (fun _ => True) := fun _ _ _ => trivial
        obtain ⟨s, l, _, h3⟩ := splitPass_error (hany _) h
        simp [spaceSplit] at h3

end MF
