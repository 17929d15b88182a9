import Verif.Props.InlineSpec
import Verif.Lemmas.LinksApart
/-!
# Where the link patterns match
-/

namespace MF

/-- `FOOTNOTE_REGEX` and `URL_REGEX` differ in the brackets around the target only. -/
def linkRx (o c : Char) : Rx :=
  .seqs [.star (.chr fun x => !isWs x && x != ']' && x != ')'), .chr (· == '['), .plus (.chr (· != '[')),
    .chr (· == ']'), .chr (· == o), .plus (.chr (· != c)), .chr (· == c),
    .star (.chr fun x => !isWs x && x != '[' && x != '(')]

theorem urlRx_eq : urlRx = linkRx '(' ')' := rfl

theorem footnoteRx_eq : footnoteRx = linkRx '[' ']' := rfl

theorem linkRx_nonEmpty (o c : Char) : (linkRx o c).NonEmpty := Rx.nonEmpty_of_pos rfl

/-- a greedy repetition takes as much as it can if the rest of the pattern matches there and nowhere later -/
theorem repRun_greedy {β : Type} {p : Char → Bool} {k : MS → Option β} (u : Str) :
    ∀ {fuel mn : Nat} {pre y : Str} {caps : List (Nat × Str × Nat)} {x : β}, (u ++ y).length < fuel → mn ≤ u.length →
    (∀ c ∈ u, p c = true) → k ⟨u.reverse ++ pre, y, caps⟩ = some x →
    (∀ u' y', y = u' ++ y' → u' ≠ [] → (∀ c ∈ u', p c = true) → k ⟨u'.reverse ++ (u.reverse ++ pre), y', caps⟩ = none) →
    repRun (fun s k' => (Rx.chr p).run s k') fuel mn none ⟨pre, u ++ y, caps⟩ k = some x := by
  induction u with
  | nil =>
    intro fuel mn pre y caps x hf hmn _ hk hn
    obtain ⟨fuel, rfl⟩ : ∃ f, fuel = f + 1 := ⟨fuel - 1, by simp at hf; omega⟩
    have hmn0 : mn = 0 := by simpa using hmn
    subst hmn0
    unfold repRun
    rw [if_neg (by simp)]
    split
    · rename_i r hr
      exfalso
      obtain ⟨st1, ⟨c, cs, h1, h2, h3⟩, h4⟩ := Rx.run_sound (.chr p) _ _ _ hr
      split at h4
      · obtain ⟨st2, h5, h6⟩ := repRun_sound (Rx.chr p).Step _ (fun st k x h => Rx.run_sound (.chr p) st k x h) _ _ _ _ _ _ h4
        obtain ⟨u', hc, hall, _, _, hcaps⟩ := repStep_chr h5
        simp only [List.nil_append] at h1
        subst h1 h3
        have := hn (c :: u') st2.post (by rw [List.cons_append, ← hc.1]) (by simp) (by
          intro d hd
          rcases List.mem_cons.1 hd with rfl | hd
          · exact h2
          · exact hall d hd)
        obtain ⟨p2, q2, c2⟩ := st2
        have e2 := hc.2
        simp only at e2 hcaps this h6
        subst e2 hcaps
        simp only [List.reverse_nil, List.nil_append, List.reverse_cons, List.append_assoc, List.cons_append] at this
        rw [this] at h6
        cases h6
      · cases h4
    · simpa using hk
  | cons d u ih =>
    intro fuel mn pre y caps x hf hmn hall hk hn
    obtain ⟨fuel, rfl⟩ : ∃ f, fuel = f + 1 := ⟨fuel - 1, by simp at hf; omega⟩
    unfold repRun
    rw [if_neg (by simp)]
    have hd := hall d (by simp)
    have := ih (fuel := fuel) (mn := mn - 1) (pre := d :: pre) (y := y) (caps := caps) (x := x)
      (by simp at hf ⊢; omega) (by simp at hmn; omega) (fun c hc => hall c (by simp [hc])) (by simpa using hk)
      (fun u' y' e h1 h2 => by simpa using hn u' y' e h1 h2)
    simp only [Rx.run, List.cons_append, hd, if_true, List.length_cons, Nat.lt_succ_self, Option.map_none]
    simp only [Rx.run] at this
    rw [this]

theorem run_greedy {β : Type} {p : Char → Bool} {k : MS → Option β} {mn : Nat} (u : Str) {pre y : Str}
    {caps : List (Nat × Str × Nat)} {x : β} (hmn : mn ≤ u.length) (hall : ∀ c ∈ u, p c = true)
    (hk : k ⟨u.reverse ++ pre, y, caps⟩ = some x)
    (hn : ∀ u' y', y = u' ++ y' → u' ≠ [] → (∀ c ∈ u', p c = true) →
      k ⟨u'.reverse ++ (u.reverse ++ pre), y', caps⟩ = none) :
    (Rx.rep (.chr p) mn none).run ⟨pre, u ++ y, caps⟩ k = some x := by
  simp only [Rx.run]
  exact repRun_greedy u (Nat.lt_succ_self _) hmn hall hk hn

theorem run_chr_ne {β : Type} {p : Char → Bool} {k : MS → Option β} {pre y : Str} {caps : List (Nat × Str × Nat)}
    (h : ∀ c, y.head? = some c → p c = false) : (Rx.chr p).run ⟨pre, y, caps⟩ k = none := by
  cases y with
  | nil => rfl
  | cons c y => simp [Rx.run, h c rfl]

/-- A link at the start of a text: what is right before it, its name, its target and what is right behind it. -/
structure LinkHere (o c : Char) (pre name target tail rest : Str) : Prop where
  oc : (o = '(' ∧ c = ')') ∨ (o = '[' ∧ c = ']')
  preOk : ∀ x ∈ pre, (!isWs x && x != ']' && x != ')') = true
  nameOk : name ≠ [] ∧ '[' ∉ name
  targetOk : target ≠ [] ∧ c ∉ target
  tailOk : ∀ x ∈ tail, (!isWs x && x != '[' && x != '(') = true
  restOk : ∀ x, rest.head? = some x → (!isWs x && x != '[' && x != '(') = false
  /-- there is no other place for the end of the name -/
  only : ∀ a b, a ≠ [] → o :: (target ++ c :: (tail ++ rest)) = a ++ ']' :: o :: b → '[' ∈ a

theorem linkText_append (o c : Char) (pre name target tail rest : Str) :
    linkText o c pre name target tail ++ rest = pre ++ '[' :: (name ++ ']' :: o :: (target ++ c :: (tail ++ rest))) := by
  simp [linkText]

/-- the link is found -/
theorem LinkHere.match {o c : Char} {pre name target tail rest : Str} (h : LinkHere o c pre name target tail rest)
    (p : Str) : (linkRx o c).matchAt p (linkText o c pre name target tail ++ rest) =
      some ⟨p.length, p.length + (linkText o c pre name target tail).length, linkText o c pre name target tail, []⟩ := by
  have hrun : (linkRx o c).run ⟨p, linkText o c pre name target tail ++ rest, []⟩ some =
      some ⟨(linkText o c pre name target tail).reverse ++ p, rest, []⟩ := by
    rw [linkText_append]
    unfold linkRx
    simp only [Rx.seqs]
    -- what is before the link
    rw [Rx.run]
    refine run_greedy pre (Nat.zero_le _) h.preOk ?_ ?_
    · rw [Rx.run, Rx.run]
      simp only [beq_self_eq_true, if_true]
      rw [Rx.run]
      refine run_greedy name (List.length_pos_iff.2 h.nameOk.1) ?_ ?_ ?_
      · intro x hx; simp only [bne_iff_ne, ne_eq]; rintro rfl; exact h.nameOk.2 hx
      · rw [Rx.run, Rx.run]
        simp only [beq_self_eq_true, if_true]
        rw [Rx.run, Rx.run]
        simp only [beq_self_eq_true, if_true]
        rw [Rx.run]
        refine run_greedy target (List.length_pos_iff.2 h.targetOk.1) ?_ ?_ ?_
        · intro x hx; simp only [bne_iff_ne, ne_eq]; rintro rfl; exact h.targetOk.2 hx
        · rw [Rx.run, Rx.run]
          simp only [beq_self_eq_true, if_true]
          refine run_greedy tail (Nat.zero_le _) h.tailOk ?_ ?_
          · simp [linkText]
          · intro u' y' e hne hall
            exfalso
            obtain ⟨d, u', rfl⟩ := List.exists_cons_of_ne_nil hne
            have h1 := h.restOk d (by rw [e]; rfl)
            rw [hall d (by simp)] at h1
            cases h1
        · intro u' y' e hne hall
          exfalso
          obtain ⟨d, u', rfl⟩ := List.exists_cons_of_ne_nil hne
          have h1 := hall d (by simp)
          have h2 := (List.cons.inj e).1
          subst h2
          simp at h1
      · intro u' y' e hne hall
        rw [Rx.run]
        cases y' with
        | nil => rfl
        | cons d y' =>
          by_cases hd : d = ']'
          · subst hd
            rw [Rx.run]
            simp only [beq_self_eq_true, if_true]
            rw [Rx.run]
            cases y' with
            | nil => rfl
            | cons d y' =>
              by_cases hd : d = o
              · subst hd
                exfalso
                obtain ⟨x, u', rfl⟩ := List.exists_cons_of_ne_nil hne
                simp only [List.cons_append, List.cons.injEq] at e
                have hm : ∀ z ∈ u', (z != '[') = true := fun z hz => hall z (by simp [hz])
                cases u' with
                | nil =>
                  have := (List.cons.inj e.2).1
                  rcases h.oc with ⟨rfl, _⟩ | ⟨rfl, _⟩ <;> exact absurd this (by decide)
                | cons z u' =>
                  have := h.only (z :: u') y' (by simp) e.2
                  have := hm _ this
                  simp at this
              · exact run_chr_ne (by intro z hz; simp at hz; subst hz; simpa using hd)
          · exact run_chr_ne (by intro z hz; simp at hz; subst hz; simpa using hd)
    · intro u' y' e hne hall
      rw [Rx.run]
      cases y' with
      | nil => rfl
      | cons d y' =>
        by_cases hd : d = '['
        · subst hd
          exfalso
          obtain ⟨x, u', rfl⟩ := List.exists_cons_of_ne_nil hne
          simp only [List.cons_append, List.cons.injEq] at e
          have hm : ']' ∉ u' := by
            intro hm
            have := hall ']' (by simp [hm])
            simp at this
          rcases List.append_eq_append_iff.1 e.2 with ⟨a, e1, e2⟩ | ⟨a, e1, e2⟩
          · cases a with
            | nil => have := (List.cons.inj e2).1; exact absurd this (by decide)
            | cons z a =>
              have := (List.cons.inj e2).1
              subst this
              exact hm (by rw [e1]; simp)
          · cases a with
            | nil => have := (List.cons.inj e2).1; exact absurd this (by decide)
            | cons z a =>
              have := (List.cons.inj e2).1
              subst this
              exact h.nameOk.2 (by rw [e1]; simp)
        · exact run_chr_ne (by intro z hz; simp at hz; subst hz; simpa using hd)
  unfold Rx.matchAt
  rw [hrun]
  simp only [Option.map_some, List.length_append, List.length_reverse, Nat.add_sub_cancel, List.take_left]
  rw [Nat.add_comm]

/-- what a match looks like -/
theorem linkRx_parts {o c : Char} {p post : Str} {m : Match} (h : (linkRx o c).matchAt p post = some m) :
    ∃ pre name target rest, post = pre ++ '[' :: (name ++ ']' :: o :: (target ++ c :: rest)) ∧
      (∀ x ∈ pre, (!isWs x && x != ']' && x != ')') = true) ∧ '[' ∉ name ∧ name ≠ [] := by
  obtain ⟨st', hs, _⟩ := Rx.matchAt_sound h
  obtain ⟨s1, h1, s2, h2, s3, h3, s4, h4, s5, h5, s6, h6, s7, h7, h8⟩ := hs
  obtain ⟨u1, c1, a1, _⟩ := repStep_chr h1
  obtain ⟨x2, a2, c2⟩ := chrStep_consumes h2
  obtain ⟨u3, c3, a3, n3, _⟩ := repStep_chr h3
  obtain ⟨x4, a4, c4⟩ := chrStep_consumes h4
  obtain ⟨x5, a5, c5⟩ := chrStep_consumes h5
  obtain ⟨u6, c6, a6, n6, _⟩ := repStep_chr h6
  obtain ⟨x7, a7, c7⟩ := chrStep_consumes h7
  simp only [beq_iff_eq] at a2 a4 a5 a7
  subst a2 a4 a5 a7
  have := (c1.trans (c2.trans (c3.trans (c4.trans (c5.trans (c6.trans c7)))))).1
  simp only at this
  refine ⟨u1, u3, u6, s7.post, ?_, a1, ?_, ?_⟩
  · rw [this]; simp
  · intro hm; have := a3 _ hm; simp at this
  · rintro rfl; simp at n3

/-! ## Skipping text without a match -/

theorem Rx.searchFrom_skip {r : Rx} (x : Str) : ∀ {pre y : Str},
    (∀ a d b, x = a ++ d :: b → r.matchAt (a.reverse ++ pre) (d :: b ++ y) = none) →
    r.searchFrom pre (x ++ y) = r.searchFrom (x.reverse ++ pre) y := by
  induction x with
  | nil => intro pre y _; rfl
  | cons d x ih =>
    intro pre y h
    have h1 := h [] d x rfl
    simp only [List.reverse_nil, List.nil_append] at h1
    rw [List.cons_append, Rx.searchFrom, ← List.cons_append, h1]
    have := ih (pre := d :: pre) (y := y) (fun a e b hx => by
      have := h (d :: a) e b (by rw [hx]; rfl)
      simpa using this)
    simpa using this

theorem Rx.Finds.skip {r : Rx} {x pre y : Str} {ms : List Match} (hf : Rx.Finds r pre (x ++ y) ms)
    (h : ∀ a d b, x = a ++ d :: b → r.matchAt (a.reverse ++ pre) (d :: b ++ y) = none) :
    Rx.Finds r (x.reverse ++ pre) y ms := by
  generalize hp : x ++ y = post at hf
  cases hf with
  | done hn =>
    subst hp
    rw [Rx.searchFrom_skip x h] at hn
    exact .done hn
  | step h1 h2 hne hs he hrest =>
    rename_i u rest m ms
    rcases List.append_eq_append_iff.1 hp with ⟨a, e1, e2⟩ | ⟨a, e1, e2⟩
    · subst e1 e2
      refine .step ?_ ?_ hne ?_ ?_ ?_
      · intro b d c hb
        have := h1 (x ++ b) d c (by rw [hb]; simp)
        simpa using this
      · simpa using h2
      · rw [hs]; simp; omega
      · rw [he]; simp; omega
      · simpa using hrest
    · cases a with
      | nil =>
        rw [List.append_nil] at e1
        subst e1
        rw [List.nil_append] at e2
        rw [← e2]
        have := Rx.Finds.step (r := r) (pre := x.reverse ++ pre) (u := []) (rest := rest) (m := m) (ms := ms)
          (by intro a b c h0; cases a <;> cases h0) (by simpa using h2) hne (by rw [hs]; simp; omega)
          (by rw [he]; simp; omega) (by simpa using hrest)
        simpa using this
      | cons d a =>
        exfalso
        have := h u d a e1
        rw [← e2, h2] at this
        cases this

/-- the matches behind a match at the start -/
theorem Rx.Finds.first {r : Rx} {pre y rest : Str} {m : Match} {ms : List Match}
    (hf : Rx.Finds r pre y ms) (hm : r.matchAt pre y = some m) (hy : y = m.text ++ rest) :
    ∃ ms', ms = m :: ms' ∧ Rx.Finds r (m.text.reverse ++ pre) rest ms' := by
  subst hy
  generalize hp : m.text ++ rest = post at hf hm
  cases hf with
  | done hn =>
    exfalso
    have := Rx.searchFrom_none _ hn [] post rfl
    simp only [List.reverse_nil, List.nil_append] at this
    rw [hm] at this
    cases this
  | step h1 h2 hne hs he hrest =>
    rename_i u rest' m' ms'
    cases u with
    | nil =>
      simp only [List.reverse_nil, List.nil_append] at h2 hrest hp hm ⊢
      rw [hm] at h2
      cases h2
      have := List.append_cancel_left hp
      subst this
      exact ⟨ms', rfl, hrest⟩
    | cons d u =>
      exfalso
      have := h1 [] u d rfl
      simp only [List.reverse_nil, List.nil_append] at this
      rw [hm] at this
      cases this

theorem pair_append {p q : Char} {a b : Str} (h : [p, q] <:+: a ++ b) :
    [p, q] <:+: a ∨ [p, q] <:+: b ∨ (a.getLast? = some p ∧ b.head? = some q) := by
  obtain ⟨x, y, hxy⟩ := h
  rw [List.append_assoc] at hxy
  rcases List.append_eq_append_iff.1 hxy with ⟨z, e1, e2⟩ | ⟨z, e1, e2⟩
  · cases z with
    | nil => exact .inr (.inl ⟨[], y, by simpa using e2⟩)
    | cons d z =>
      simp only [List.cons_append, List.cons.injEq] at e2
      obtain ⟨rfl, e2⟩ := e2
      cases z with
      | nil =>
        right; right
        refine ⟨by rw [e1]; simp, ?_⟩
        simp at e2; rw [← e2]; rfl
      | cons d z =>
        simp only [List.cons_append, List.cons.injEq] at e2
        obtain ⟨rfl, e2⟩ := e2
        exact .inl ⟨x, z, by rw [e1]; simp⟩
  · exact .inr (.inl ⟨z, y, by rw [e2]; simp⟩)

theorem pair_mem {p q : Char} {a : Str} (h : [p, q] <:+: a) : p ∈ a ∧ q ∈ a := by
  obtain ⟨x, y, rfl⟩ := h
  simp

end MF
