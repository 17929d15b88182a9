import Verif.Lemmas.Code
/-!
# The passes of `wrap`
-/

namespace MF

/-- the tokens of a pass: text, leading space, whether to evaluate further -/
def Toks.triples (t : Toks) : List (Str × Bool × Bool) := t.split.zip (t.lead.zip t.eval)

/-- the three lists have the same length -/
def Toks.WF (t : Toks) : Prop := t.lead.length = t.split.length ∧ t.eval.length = t.split.length

def Toks.All (Q : Str × Bool × Bool → Prop) (t : Toks) : Prop := ∀ x ∈ t.triples, Q x

theorem triples_append (t r : Toks) (ht : t.WF) :
    ({ split := t.split ++ r.split, lead := t.lead ++ r.lead, eval := t.eval ++ r.eval } : Toks).triples =
      t.triples ++ r.triples := by
  unfold Toks.triples
  rw [List.zip_append (by rw [ht.1, ht.2]), List.zip_append (by simp [ht.1, ht.2])]

theorem triples_split (t : Toks) (ht : t.WF) : t.triples.map (·.1) = t.split := by
  unfold Toks.triples
  rw [List.map_fst_zip]
  simp [ht.1, ht.2]

theorem triples_pairs (t : Toks) (ht : t.WF) : t.triples.map (fun x => (x.1, x.2.1)) = t.split.zip t.lead := by
  obtain ⟨s, l, e⟩ := t
  unfold Toks.triples Toks.WF at *
  simp only at *
  obtain ⟨h1, h2⟩ := ht
  induction s generalizing l e with
  | nil => rfl
  | cons x s ih =>
    cases l with
    | nil => simp at h1
    | cons y l =>
      cases e with
      | nil => simp at h2
      | cons z e =>
        simp only [List.zip_cons_cons, List.map_cons, List.cons.injEq, true_and]
        exact ih l e (by simpa using h1) (by simpa using h2)

theorem triples_evals (t : Toks) (ht : t.WF) : t.triples.map (fun x => (x.1, x.2.2)) = t.split.zip t.eval := by
  obtain ⟨s, l, e⟩ := t
  unfold Toks.triples Toks.WF at *
  simp only at *
  obtain ⟨h1, h2⟩ := ht
  induction s generalizing l e with
  | nil => rfl
  | cons x s ih =>
    cases l with
    | nil => simp at h1
    | cons y l =>
      cases e with
      | nil => simp at h2
      | cons z e =>
        simp only [List.zip_cons_cons, List.map_cons, List.cons.injEq, true_and]
        exact ih l e (by simpa using h1) (by simpa using h2)

theorem applySplit_all {func : Str → Bool → Except Err Toks} {Qin Qout : Str × Bool × Bool → Prop}
    (hf : ∀ s l t, Qin (s, l, true) → func s l = .ok t → t.WF ∧ t.All Qout)
    (hkeep : ∀ s l, Qin (s, l, false) → Qout (s, l, false)) :
    ∀ ps t, (∀ x ∈ ps, Qin x) → applySplit func ps = .ok t → t.WF ∧ t.All Qout := by
  intro ps
  induction ps with
  | nil =>
    intro t _ h
    cases h
    exact ⟨⟨rfl, rfl⟩, by intro x hx; cases hx⟩
  | cons p ps ih =>
    obtain ⟨s, l, e⟩ := p
    intro t hq h
    have hp := hq _ (List.mem_cons_self ..)
    have key : ∀ t1 : Toks, t1.WF ∧ t1.All Qout → (do
        let r ← applySplit func ps
        .ok { split := t1.split ++ r.split, lead := t1.lead ++ r.lead, eval := t1.eval ++ r.eval } :
          Except Err Toks) = .ok t →
        t.WF ∧ t.All Qout := by
      rintro t1 ⟨hw1, ha1⟩ h
      cases hr : applySplit func ps with
      | error e => rw [hr] at h; cases h
      | ok r =>
        rw [hr] at h
        cases h
        obtain ⟨hw2, ha2⟩ := ih r (fun x hx => hq x (by simp [hx])) hr
        refine ⟨⟨by simp [hw1.1, hw2.1], by simp [hw1.2, hw2.2]⟩, ?_⟩
        unfold Toks.All
        rw [triples_append _ _ hw1]
        intro x hx
        rcases List.mem_append.1 hx with hx | hx
        · exact ha1 x hx
        · exact ha2 x hx
    unfold applySplit at h
    cases e with
    | true =>
      simp only [if_true] at h
      cases hfe : func s l with
      | error e => rw [hfe] at h; cases h
      | ok t1 =>
        rw [hfe] at h
        exact key t1 (hf s l t1 hp hfe) h
    | false =>
      refine key { split := [s], lead := [l], eval := [false] } ⟨⟨rfl, rfl⟩, ?_⟩ h
      intro x hx
      simp only [Toks.triples, List.zip_cons_cons, List.zip_nil_right, List.mem_singleton] at hx
      subst hx
      exact hkeep s l hp

theorem splitPass_all {func : Str → Bool → Except Err Toks} {Qin Qout : Str × Bool × Bool → Prop} {t t' : Toks}
    (hf : ∀ s l t, Qin (s, l, true) → func s l = .ok t → t.WF ∧ t.All Qout)
    (hkeep : ∀ s l, Qin (s, l, false) → Qout (s, l, false)) (hq : t.All Qin) (h : splitPass func t = .ok t') :
    t'.WF ∧ t'.All Qout := applySplit_all hf hkeep _ _ hq h

theorem splitPass_nw {func : Str → Bool → Except Err Toks} {Qin : Str × Bool × Bool → Prop} {t t' : Toks}
    (hf : ∀ s l t, Qin (s, l, true) → func s l = .ok t → nw t.split.flatten = nw s) (hw : t.WF) (hq : t.All Qin)
    (h : splitPass func t = .ok t') : nw t'.split.flatten = nw t.split.flatten := by
  have key : ∀ ps t, (∀ x ∈ ps, Qin x) → applySplit func ps = .ok t →
      nw t.split.flatten = nw (ps.map (·.1)).flatten := by
    intro ps
    induction ps with
    | nil => intro t _ h; cases h; rfl
    | cons p ps ih =>
      obtain ⟨s, l, e⟩ := p
      intro t hq h
      have hp := hq _ (List.mem_cons_self ..)
      have key : ∀ t1 : Toks, nw t1.split.flatten = nw s → (do
          let r ← applySplit func ps
          .ok { split := t1.split ++ r.split, lead := t1.lead ++ r.lead, eval := t1.eval ++ r.eval } :
            Except Err Toks) = .ok t →
          nw t.split.flatten = nw (((s, l, e) :: ps).map (·.1)).flatten := by
        intro t1 h1 h
        cases hr : applySplit func ps with
        | error e => rw [hr] at h; cases h
        | ok r =>
          rw [hr] at h
          cases h
          have := ih r (fun x hx => hq x (by simp [hx])) hr
          simp only [List.flatten_append, nw_append, List.map_cons, List.flatten_cons, h1, this]
      unfold applySplit at h
      cases e with
      | true =>
        simp only [if_true] at h
        cases hfe : func s l with
        | error e => rw [hfe] at h; cases h
        | ok t1 => rw [hfe] at h; exact key t1 (hf s l t1 hp hfe) h
      | false => exact key { split := [s], lead := [l], eval := [false] } (by simp) h
  have := key _ _ hq h
  rw [triples_split t hw] at this
  exact this

theorem splitPass_ok {func : Str → Bool → Except Err Toks} {Qin : Str × Bool × Bool → Prop} {t : Toks}
    (hf : ∀ s l, Qin (s, l, true) → ∃ t, func s l = .ok t) (hq : t.All Qin) : ∃ t', splitPass func t = .ok t' := by
  have key : ∀ ps, (∀ x ∈ ps, Qin x) → ∃ t, applySplit func ps = .ok t := by
    intro ps
    induction ps with
    | nil => intro _; exact ⟨_, rfl⟩
    | cons p ps ih =>
      obtain ⟨s, l, e⟩ := p
      intro hq
      have hp := hq _ (List.mem_cons_self ..)
      obtain ⟨r, hr⟩ := ih (fun x hx => hq x (by simp [hx]))
      unfold applySplit
      rw [hr]
      cases e with
      | true =>
        obtain ⟨t1, h1⟩ := hf s l hp
        simp only [if_true, h1]
        exact ⟨_, rfl⟩
      | false => exact ⟨_, rfl⟩
  exact key _ hq

/-- errors of a pass come from its function -/
theorem splitPass_error {func : Str → Bool → Except Err Toks} {Qin : Str × Bool × Bool → Prop} {t : Toks} {e : Err}
    (hq : t.All Qin) (h : splitPass func t = .error e) : ∃ s l, Qin (s, l, true) ∧ func s l = .error e := by
  have key : ∀ ps, (∀ x ∈ ps, Qin x) → applySplit func ps = .error e → ∃ s l, Qin (s, l, true) ∧ func s l = .error e := by
    intro ps
    induction ps with
    | nil => intro _ h; cases h
    | cons p ps ih =>
      obtain ⟨s, l, ev⟩ := p
      intro hq h
      have hp := hq _ (List.mem_cons_self ..)
      have key : ∀ t1 : Toks, (do
          let r ← applySplit func ps
          .ok { split := t1.split ++ r.split, lead := t1.lead ++ r.lead, eval := t1.eval ++ r.eval } : Except Err Toks) =
          .error e → ∃ s l, Qin (s, l, true) ∧ func s l = .error e := by
        intro t1 h
        cases hr : applySplit func ps with
        | error e' => rw [hr] at h; cases h; exact ih (fun x hx => hq x (by simp [hx])) hr
        | ok r => rw [hr] at h; cases h
      unfold applySplit at h
      cases ev with
      | true =>
        simp only [if_true] at h
        cases hfe : func s l with
        | error e' => rw [hfe] at h; cases h; exact ⟨s, l, hp, hfe⟩
        | ok t1 => rw [hfe] at h; exact key t1 h
      | false => exact key _ h
  exact key _ hq h

/-! ## link_split -/

theorem splitPair_ne_nil (a b : Char) (s : Str) : splitPair a b s ≠ [] := by
  cases s with
  | nil => simp [splitPair]
  | cons x s =>
    cases s with
    | nil => simp [splitPair]
    | cons y s =>
      simp only [splitPair]
      split
      · simp
      · cases splitPair a b (y :: s) <;> simp [consHead]

theorem pyJoin_splitPair (a b : Char) (s : Str) : pyJoin [a, b] (splitPair a b s) = s := by
  fun_induction splitPair a b s with
  | case1 => rfl
  | case2 => rfl
  | case3 x y rest h ih =>
    have hne := splitPair_ne_nil a b rest
    simp only [Bool.and_eq_true, beq_iff_eq] at h
    obtain ⟨rfl, rfl⟩ := h
    rw [pyJoin_cons_ne hne, ih]; rfl
  | case4 x y rest h ih =>
    have hne := splitPair_ne_nil a b (y :: rest)
    cases hs : splitPair a b (y :: rest) with
    | nil => exact absurd hs hne
    | cons p ps =>
      rw [hs] at ih
      cases ps with
      | nil => simp only [consHead, pyJoin] at ih ⊢; rw [ih]
      | cons q qs => simp only [consHead, pyJoin, List.cons_append] at ih ⊢; rw [ih]

theorem isIn_iff (p s : Str) : isIn p s = true ↔ ∃ a b, s = a ++ (p ++ b) := by
  induction s with
  | nil =>
    simp only [isIn, List.isEmpty_iff]
    constructor
    · rintro rfl; exact ⟨[], [], rfl⟩
    · rintro ⟨a, b, h⟩
      have := List.append_eq_nil_iff.1 h.symm
      exact (List.append_eq_nil_iff.1 this.2).1
  | cons c s ih =>
    simp only [isIn, Bool.or_eq_true, ih, List.isPrefixOf_iff_prefix]
    constructor
    · rintro (⟨b, hb⟩ | ⟨a, b, rfl⟩)
      · exact ⟨[], b, hb.symm⟩
      · exact ⟨c :: a, b, rfl⟩
    · rintro ⟨a, b, h⟩
      cases a with
      | nil => exact .inl ⟨b, h.symm⟩
      | cons x a =>
        simp only [List.cons_append, List.cons.injEq] at h
        exact .inr ⟨a, b, h.2⟩

theorem splitPair_two {a b : Char} {s : Str} (h : isIn [a, b] s = true) :
    ∃ p q r, splitPair a b s = p :: q :: r := by
  fun_induction splitPair a b s with
  | case1 => cases h
  | case2 x =>
    obtain ⟨u, v, hu⟩ := (isIn_iff _ _).1 h
    have := congrArg List.length hu
    simp at this; omega
  | case3 x y rest hxy ih =>
    have hne := splitPair_ne_nil a b rest
    cases hs : splitPair a b rest with
    | nil => exact absurd hs hne
    | cons p ps => exact ⟨[], p, ps, rfl⟩
  | case4 x y rest hxy ih =>
    have : isIn [a, b] (y :: rest) = true := by
      obtain ⟨u, v, hu⟩ := (isIn_iff _ _).1 h
      cases u with
      | nil =>
        exfalso
        simp only [List.nil_append, List.cons_append, List.cons.injEq] at hu
        apply hxy
        simp [hu.1, hu.2.1]
      | cons z u =>
        simp only [List.cons_append, List.cons.injEq] at hu
        exact (isIn_iff _ _).2 ⟨u, v, hu.2⟩
    obtain ⟨p, q, r, hp⟩ := ih this
    exact ⟨x :: p, q, r, by rw [hp]; rfl⟩

/-- a match of the two link patterns contains `](` or `][` -/
def HasSep (g : Str) : Prop := isIn c!"](" g = true ∨ isIn c!"][" g = true

/-- What `linkParts` makes of a link: the text before the first separator, the separator, and the text up to the next
one. -/
theorem linkParts_ok {g : Str} (h : HasSep g) : ∃ a b sep rest, linkParts g = .ok (strip a ++ sep, strip b) ∧
    (sep = c!"](" ∨ sep = c!"][") ∧ g = a ++ sep ++ b ++ rest := by
  have aux : ∀ sep : Str, ∀ p q : Str, ∀ r : List Str, pyJoin sep (p :: q :: r) = g → ∃ rest, g = p ++ sep ++ q ++ rest := by
    intro sep p q r hj
    cases r with
    | nil => exact ⟨[], by rw [← hj]; simp [pyJoin]⟩
    | cons x r => exact ⟨sep ++ pyJoin sep (x :: r), by rw [← hj]; simp [pyJoin]⟩
  unfold linkParts
  by_cases h1 : isIn c!"](" g = true
  · rw [if_pos h1]
    obtain ⟨p, q, r, hs⟩ := splitPair_two h1
    rw [hs]
    obtain ⟨rest, hr⟩ := aux c!"](" p q r (by rw [← hs, pyJoin_splitPair])
    exact ⟨p, q, c!"](", rest, rfl, .inl rfl, hr⟩
  · rw [if_neg h1]
    obtain ⟨p, q, r, hs⟩ := splitPair_two (h.resolve_left h1)
    rw [hs]
    obtain ⟨rest, hr⟩ := aux c!"][" p q r (by rw [← hs, pyJoin_splitPair])
    exact ⟨p, q, c!"][", rest, rfl, .inr rfl, hr⟩

/-- the matches `link_split` works through -/
def linkMatches (text : Str) : List Match := sortMatches (footnoteRx.finditer text ++ urlRx.finditer text)

theorem mem_insertMatch {m x : Match} {xs : List Match} : x ∈ insertMatch m xs ↔ x = m ∨ x ∈ xs := by
  induction xs with
  | nil => simp [insertMatch]
  | cons y ys ih =>
    unfold insertMatch
    split
    · simp only [List.mem_cons, ih]
      constructor
      · rintro (h | h | h)
        · exact .inr (.inl h)
        · exact .inl h
        · exact .inr (.inr h)
      · rintro (h | h | h)
        · exact .inr (.inl h)
        · exact .inl h
        · exact .inr (.inr h)
    · simp

theorem mem_sortMatches {x : Match} {ms : List Match} : x ∈ sortMatches ms ↔ x ∈ ms := by
  unfold sortMatches
  have : ∀ acc, x ∈ ms.foldl (fun acc m => insertMatch m acc) acc ↔ x ∈ acc ∨ x ∈ ms := by
    induction ms with
    | nil => intro acc; simp
    | cons m ms ih =>
      intro acc
      rw [List.foldl_cons, ih, mem_insertMatch]
      simp only [List.mem_cons]
      constructor
      · rintro ((h | h) | h)
        · exact .inr (.inl h)
        · exact .inl h
        · exact .inr (.inr h)
      · rintro (h | h | h)
        · exact .inl (.inr h)
        · exact .inl (.inl h)
        · exact .inr h
  rw [this]
  simp

theorem consumes_text {r : Rx} {pre post : Str} {m : Match} (h : r.matchAt pre post = some m) :
    ∃ st', r.Step ⟨pre, post, []⟩ st' ∧ (⟨pre, post, []⟩ : MS).Consumes st' m.text := by
  obtain ⟨st', hs, _, _, h3, _⟩ := Rx.matchAt_sound h
  obtain ⟨u, hu1, hu2⟩ := Rx.Step.consumes r hs
  simp only at hu1 hu2
  have ht : m.text = u := by rw [h3, hu1]; simp
  exact ⟨st', hs, by rw [ht]; exact ⟨hu1, hu2⟩⟩

theorem consumes_unique {st st' : MS} {u v : Str} (h1 : st.Consumes st' u) (h2 : st.Consumes st' v) : u = v := by
  have := h1.1.symm.trans h2.1
  exact List.append_cancel_right this

theorem chrStep_consumes {p : Char → Bool} {st st' : MS} (h : (Rx.chr p).Step st st') :
    ∃ c, p c = true ∧ st.Consumes st' [c] := by
  obtain ⟨c, cs, h1, h2, rfl⟩ := h
  exact ⟨c, h2, h1, rfl⟩

theorem link_hasSep {pre post : Str} {m : Match} (h : urlRx.matchAt pre post = some m ∨
    footnoteRx.matchAt pre post = some m) : HasSep m.text := by
  rcases h with h | h
  · left
    obtain ⟨st', hs, hc⟩ := consumes_text h
    obtain ⟨s1, h1, s2, h2, s3, h3, s4, h4, s5, h5, h6⟩ := hs
    obtain ⟨u1, c1⟩ := Rx.Step.consumes _ h1
    obtain ⟨u2, c2⟩ := Rx.Step.consumes _ h2
    obtain ⟨u3, c3⟩ := Rx.Step.consumes _ h3
    obtain ⟨x, hx, c4⟩ := chrStep_consumes h4
    obtain ⟨y, hy, c5⟩ := chrStep_consumes h5
    obtain ⟨u6, c6⟩ := Rx.Step.consumes (.seqs [.plus (.chr (· != ')')), .chr (· == ')'),
      .star (.chr fun c => !isWs c && c != '[' && c != '(')]) h6
    have := consumes_unique hc (((((c1.trans c2).trans c3).trans c4).trans c5).trans c6)
    rw [this]
    have hx' : x = ']' := by simpa using hx
    have hy' : y = '(' := by simpa using hy
    subst hx'; subst hy'
    exact (isIn_iff _ _).2 ⟨u1 ++ u2 ++ u3, u6, by simp⟩
  · right
    obtain ⟨st', hs, hc⟩ := consumes_text h
    obtain ⟨s1, h1, s2, h2, s3, h3, s4, h4, s5, h5, h6⟩ := hs
    obtain ⟨u1, c1⟩ := Rx.Step.consumes _ h1
    obtain ⟨u2, c2⟩ := Rx.Step.consumes _ h2
    obtain ⟨u3, c3⟩ := Rx.Step.consumes _ h3
    obtain ⟨x, hx, c4⟩ := chrStep_consumes h4
    obtain ⟨y, hy, c5⟩ := chrStep_consumes h5
    obtain ⟨u6, c6⟩ := Rx.Step.consumes (.seqs [.plus (.chr (· != ']')), .chr (· == ']'),
      .star (.chr fun c => !isWs c && c != '[' && c != '(')]) h6
    have := consumes_unique hc (((((c1.trans c2).trans c3).trans c4).trans c5).trans c6)
    rw [this]
    have hx' : x = ']' := by simpa using hx
    have hy' : y = '[' := by simpa using hy
    subst hx'; subst hy'
    exact (isIn_iff _ _).2 ⟨u1 ++ u2 ++ u3, u6, by simp⟩

theorem Rx.Finds.matched {r : Rx} {pre post : Str} {ms : List Match} (h : Rx.Finds r pre post ms) :
    ∀ m ∈ ms, ∃ a b, r.matchAt a b = some m := by
  induction h with
  | done => intro m hm; cases hm
  | step h1 h2 hne hs he hrest ih =>
    intro m' hm'
    rcases List.mem_cons.1 hm' with rfl | hm'
    · exact ⟨_, _, h2⟩
    · exact ih m' hm'

theorem linkMatches_ok (text : Str) : ∀ m ∈ linkMatches text, m.start < m.stop ∧ m.stop ≤ text.length ∧
    m.text = slice text m.start m.stop ∧ HasSep m.text := by
  intro m hm
  rcases List.mem_append.1 (mem_sortMatches.1 hm) with hm | hm
  · obtain ⟨h1, h2, h3⟩ := Rx.finditer_bounds footnoteRx_nonEmpty text m hm
    obtain ⟨a, b, hab⟩ := (Rx.finditer_finds footnoteRx_nonEmpty text).matched m hm
    exact ⟨h1, h2, h3, link_hasSep (.inr hab)⟩
  · obtain ⟨h1, h2, h3⟩ := Rx.finditer_bounds urlRx_nonEmpty text m hm
    obtain ⟨a, b, hab⟩ := (Rx.finditer_finds urlRx_nonEmpty text).matched m hm
    exact ⟨h1, h2, h3, link_hasSep (.inl hab)⟩

end MF
