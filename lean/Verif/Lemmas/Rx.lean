import Verif.Py.Rx
import Verif.Lemmas.Str
/-!
# Regular expressions: the matcher against a relational semantics

`Rx.Step r st st'` says that `r` can consume the text between the two states. The matcher finds a match only if the
relation has one (`run_sound`) and fails only if the relation has none (`run_complete`).
-/

namespace MF

/-- Repetition of a relation, each iteration consuming something. -/
inductive RepStep (R : MS → MS → Prop) : Nat → Option Nat → MS → MS → Prop
  | stop (mx : Option Nat) (st : MS) : RepStep R 0 mx st st
  | more {mn : Nat} {mx : Option Nat} {st st1 st2 : MS} : mx ≠ some 0 → R st st1 →
      st1.post.length < st.post.length → RepStep R (mn - 1) (mx.map (· - 1)) st1 st2 → RepStep R mn mx st st2

/-- Relational semantics of patterns. -/
def Rx.Step : Rx → MS → MS → Prop
  | .chr p, st, st' => ∃ c cs, st.post = c :: cs ∧ p c = true ∧ st' = { st with pre := c :: st.pre, post := cs }
  | .eps, st, st' => st' = st
  | .seq a b, st, st' => ∃ m, a.Step st m ∧ b.Step m st'
  | .alt a b, st, st' => a.Step st st' ∨ b.Step st st'
  | .rep r mn mx, st, st' => RepStep r.Step mn mx st st'
  | .grp n r, st, st' => ∃ m, r.Step st m ∧
      st' = { m with caps := (n, st.post.take (st.post.length - m.post.length), m.pre.length) :: m.caps }
  | .bol, st, st' => st.pre = [] ∧ st' = st
  | .eol, st, st' => (st.post = [] ∨ st.post = ['\n']) ∧ st' = st
  | .notAhead r, st, st' => (∀ m, ¬ r.Step st m) ∧ st' = st
  | .notBehind p, st, st' => (∀ c cs, st.pre = c :: cs → p c = false) ∧ st' = st

theorem repRun_sound {β : Type} (R : MS → MS → Prop) (body : MS → (MS → Option β) → Option β)
    (hb : ∀ st k x, body st k = some x → ∃ st', R st st' ∧ k st' = some x) :
    ∀ fuel mn mx st k x, repRun body fuel mn mx st k = some x → ∃ st', RepStep R mn mx st st' ∧ k st' = some x := by
  intro fuel
  induction fuel with
  | zero =>
    intro mn mx st k x h
    simp only [repRun] at h
    split at h
    · rename_i hmn
      have : mn = 0 := by simpa using hmn
      subst this
      exact ⟨st, .stop _ _, h⟩
    · cases h
  | succ fuel ih =>
    intro mn mx st k x h
    have stopCase : (if (mn == 0) = true then k st else none) = some x → ∃ st', RepStep R mn mx st st' ∧ k st' = some x := by
      intro h'
      split at h'
      · rename_i hmn
        have : mn = 0 := by simpa using hmn
        subst this
        exact ⟨st, .stop _ _, h'⟩
      · cases h'
    simp only [repRun] at h
    split at h
    · exact stopCase h
    · rename_i hmx
      split at h
      · rename_i r hr
        cases h
        obtain ⟨st1, h1, h2⟩ := hb _ _ _ hr
        split at h2
        · rename_i hlt
          obtain ⟨st2, h3, h4⟩ := ih _ _ _ _ _ h2
          exact ⟨st2, .more (by simpa using hmx) h1 hlt h3, h4⟩
        · cases h2
      · exact stopCase h

theorem repRun_complete {β : Type} (R : MS → MS → Prop) (body : MS → (MS → Option β) → Option β)
    (hb : ∀ st k, body st k = none → ∀ st', R st st' → k st' = none) :
    ∀ fuel mn mx st k, st.post.length < fuel → repRun body fuel mn mx st k = none →
      ∀ st', RepStep R mn mx st st' → k st' = none := by
  intro fuel
  induction fuel with
  | zero => intro mn mx st k h; omega
  | succ fuel ih =>
    intro mn mx st k hlen h st' hst
    simp only [repRun] at h
    cases hst with
    | stop =>
      split at h
      · simpa using h
      · split at h
        · cases h
        · simpa using h
    | more hmx hR hlt hrest =>
      rename_i st1
      rw [if_neg (by simpa using hmx)] at h
      split at h
      · cases h
      · rename_i hn
        have := hb _ _ hn _ hR
        rw [if_pos hlt] at this
        exact ih _ _ _ _ (by omega) this _ hrest

theorem Rx.run_both (r : Rx) : ∀ {β : Type} (st : MS) (k : MS → Option β),
    (∀ x, r.run st k = some x → ∃ st', r.Step st st' ∧ k st' = some x) ∧
    (r.run st k = none → ∀ st', r.Step st st' → k st' = none) := by
  induction r with
  | chr p =>
    intro β st k
    simp only [Rx.run, Rx.Step]
    constructor
    · intro x h
      split at h
      · cases h
      · rename_i c cs hp
        split at h
        · rename_i hc
          exact ⟨_, ⟨c, cs, hp, hc, rfl⟩, h⟩
        · cases h
    · rintro h st' ⟨c, cs, hp, hc, rfl⟩
      rw [hp] at h
      simp only [hc, if_true] at h
      exact h
  | eps =>
    intro β st k
    simp only [Rx.run, Rx.Step]
    exact ⟨fun x h => ⟨st, rfl, h⟩, fun h st' e => by rw [e]; exact h⟩
  | seq a b iha ihb =>
    intro β st k
    simp only [Rx.run, Rx.Step]
    constructor
    · intro x h
      obtain ⟨m, h1, h2⟩ := (iha st _).1 x h
      obtain ⟨st', h3, h4⟩ := (ihb m k).1 x h2
      exact ⟨st', ⟨m, h1, h3⟩, h4⟩
    · rintro h st' ⟨m, h1, h2⟩
      exact (ihb m k).2 ((iha st _).2 h m h1) st' h2
  | alt a b iha ihb =>
    intro β st k
    simp only [Rx.run, Rx.Step]
    constructor
    · intro x h
      split at h
      · rename_i r hr
        cases h
        obtain ⟨st', h1, h2⟩ := (iha st k).1 x hr
        exact ⟨st', .inl h1, h2⟩
      · obtain ⟨st', h1, h2⟩ := (ihb st k).1 x h
        exact ⟨st', .inr h1, h2⟩
    · intro h st' hst
      split at h
      · cases h
      · rename_i hn
        rcases hst with h1 | h1
        · exact (iha st k).2 hn st' h1
        · exact (ihb st k).2 h st' h1
  | rep r mn mx ih =>
    intro β st k
    simp only [Rx.run, Rx.Step]
    constructor
    · intro x h
      exact repRun_sound r.Step _ (fun st k x h => (ih st k).1 x h) _ _ _ _ _ _ h
    · intro h
      exact repRun_complete r.Step _ (fun st k h => (ih st k).2 h) _ _ _ _ _ (by omega) h
  | grp n r ih =>
    intro β st k
    simp only [Rx.run, Rx.Step]
    constructor
    · intro x h
      obtain ⟨m, h1, h2⟩ := (ih st _).1 x h
      exact ⟨_, ⟨m, h1, rfl⟩, h2⟩
    · rintro h st' ⟨m, h1, rfl⟩
      exact (ih st _).2 h m h1
  | bol =>
    intro β st k
    simp only [Rx.run, Rx.Step]
    constructor
    · intro x h
      split at h
      · rename_i he
        exact ⟨st, ⟨by simpa using he, rfl⟩, h⟩
      · cases h
    · rintro h st' ⟨he, rfl⟩
      simpa [he] using h
  | eol =>
    intro β st k
    simp only [Rx.run, Rx.Step]
    constructor
    · intro x h
      split at h
      · rename_i he
        exact ⟨st, ⟨by simpa using he, rfl⟩, h⟩
      · cases h
    · rintro h st' ⟨he, rfl⟩
      rw [if_pos (by simpa using he)] at h
      exact h
  | notAhead r ih =>
    intro β st k
    simp only [Rx.run, Rx.Step]
    constructor
    · intro x h
      split at h
      · cases h
      · rename_i hn
        refine ⟨st, ⟨?_, rfl⟩, h⟩
        intro m hm
        have := (ih st (fun _ => some ())).2 hn m hm
        cases this
    · rintro h st' ⟨hno, rfl⟩
      split at h
      · rename_i u hu
        obtain ⟨m, hm, _⟩ := (ih st' (fun _ => some ())).1 u hu
        exact absurd hm (hno m)
      · exact h
  | notBehind p =>
    intro β st k
    simp only [Rx.run, Rx.Step]
    constructor
    · intro x h
      split at h
      · rename_i hp
        exact ⟨st, ⟨(by intro c cs hc; rw [hp] at hc; cases hc), rfl⟩, h⟩
      · rename_i c cs hp
        split at h
        · cases h
        · rename_i hc
          refine ⟨st, ⟨?_, rfl⟩, h⟩
          intro c' cs' hc'
          rw [hp] at hc'
          cases hc'
          exact Bool.eq_false_iff.2 hc
    · rintro h st' ⟨hno, rfl⟩
      split at h
      · exact h
      · rename_i c cs hp
        rw [hno c cs hp] at h
        simpa using h

theorem Rx.run_sound (r : Rx) {β : Type} (st : MS) (k : MS → Option β) (x : β) (h : r.run st k = some x) :
    ∃ st', r.Step st st' ∧ k st' = some x := (r.run_both st k).1 x h

theorem Rx.run_complete (r : Rx) {β : Type} (st : MS) (k : MS → Option β) (h : r.run st k = none) (st' : MS)
    (hs : r.Step st st') : k st' = none := (r.run_both st k).2 h st' hs

/-! ## Shape of steps -/

/-- Consuming text: what was remaining is split into consumed and still remaining. -/
def MS.Consumes (st st' : MS) (u : Str) : Prop := st.post = u ++ st'.post ∧ st'.pre = u.reverse ++ st.pre

theorem MS.Consumes.refl (st : MS) : st.Consumes st [] := ⟨rfl, rfl⟩

theorem MS.Consumes.trans {a b c : MS} {u v : Str} (h1 : a.Consumes b u) (h2 : b.Consumes c v) :
    a.Consumes c (u ++ v) := by
  obtain ⟨h1, h1'⟩ := h1
  obtain ⟨h2, h2'⟩ := h2
  exact ⟨by rw [h1, h2]; simp, by rw [h2', h1']; simp⟩

theorem RepStep.consumes {R : MS → MS → Prop} (hR : ∀ st st', R st st' → ∃ u, st.Consumes st' u) {mn : Nat}
    {mx : Option Nat} {st st' : MS} (h : RepStep R mn mx st st') : ∃ u, st.Consumes st' u := by
  induction h with
  | stop mx st => exact ⟨[], .refl _⟩
  | more _ h1 _ _ ih =>
    obtain ⟨u, hu⟩ := hR _ _ h1
    obtain ⟨v, hv⟩ := ih
    exact ⟨u ++ v, hu.trans hv⟩

/-- every step consumes a prefix of the remaining text -/
theorem Rx.Step.consumes (r : Rx) : ∀ {st st' : MS}, r.Step st st' → ∃ u, st.Consumes st' u := by
  induction r with
  | chr p =>
    rintro st st' ⟨c, cs, h, _, rfl⟩
    exact ⟨[c], h, rfl⟩
  | eps => rintro st st' rfl; exact ⟨[], .refl _⟩
  | seq a b iha ihb =>
    rintro st st' ⟨m, h1, h2⟩
    obtain ⟨u, hu⟩ := iha h1
    obtain ⟨v, hv⟩ := ihb h2
    exact ⟨u ++ v, hu.trans hv⟩
  | alt a b iha ihb =>
    rintro st st' (h | h)
    · exact iha h
    · exact ihb h
  | rep r mn mx ih => intro st st' h; exact RepStep.consumes (fun _ _ h => ih h) h
  | grp n r ih =>
    rintro st st' ⟨m, h, rfl⟩
    obtain ⟨u, hu⟩ := ih h
    exact ⟨u, hu⟩
  | bol => rintro st st' ⟨_, rfl⟩; exact ⟨[], .refl _⟩
  | eol => rintro st st' ⟨_, rfl⟩; exact ⟨[], .refl _⟩
  | notAhead r => rintro st st' ⟨_, rfl⟩; exact ⟨[], .refl _⟩
  | notBehind p => rintro st st' ⟨_, rfl⟩; exact ⟨[], .refl _⟩

/-- Repetition of a character class. -/
theorem repStep_chr {p : Char → Bool} {mn : Nat} {mx : Option Nat} {st st' : MS}
    (h : RepStep (Rx.chr p).Step mn mx st st') :
    ∃ u, st.Consumes st' u ∧ (∀ c ∈ u, p c = true) ∧ mn ≤ u.length ∧ (∀ m, mx = some m → u.length ≤ m) ∧
      st'.caps = st.caps := by
  induction h with
  | stop mx st => exact ⟨[], .refl _, by simp, Nat.le_refl _, by intro m _; exact Nat.zero_le _, rfl⟩
  | more hmx h1 hlt _ ih =>
    rename_i mn mx st st1 st2 _
    obtain ⟨c, cs, hp, hc, rfl⟩ := h1
    obtain ⟨u, hu, hall, hmn, hmx', hcaps⟩ := ih
    refine ⟨c :: u, ?_, ?_, ?_, ?_, hcaps⟩
    · have h0 : st.Consumes { st with pre := c :: st.pre, post := cs } [c] := ⟨hp, rfl⟩
      exact h0.trans hu
    · intro x hx
      rcases List.mem_cons.1 hx with rfl | hx
      · exact hc
      · exact hall x hx
    · simp; omega
    · intro m hm
      subst hm
      have := hmx' (m - 1) (by simp)
      have hm0 : m ≠ 0 := fun h => hmx (by rw [h])
      simp; omega

/-- A character class repetition can take any stretch of the right characters. -/
theorem repStep_chr_intro {p : Char → Bool} (u : Str) (hall : ∀ c ∈ u, p c = true) :
    ∀ {mn : Nat} {mx : Option Nat} {pre post : Str} {caps : List (Nat × Str × Nat)}, mn ≤ u.length →
      (∀ m, mx = some m → u.length ≤ m) →
      RepStep (Rx.chr p).Step mn mx ⟨pre, u ++ post, caps⟩ ⟨u.reverse ++ pre, post, caps⟩ := by
  induction u with
  | nil =>
    intro mn mx pre post caps hmn _
    have : mn = 0 := by simpa using hmn
    subst this
    exact .stop _ _
  | cons c u ih =>
    intro mn mx pre post caps hmn hmx
    refine .more (st1 := ⟨c :: pre, u ++ post, caps⟩) ?_ ?_ ?_ ?_
    · intro h; have := hmx 0 h; simp at this
    · exact ⟨c, u ++ post, rfl, hall c (by simp), rfl⟩
    · simp
    · have := ih (fun x hx => hall x (by simp [hx])) (mn := mn - 1) (mx := mx.map (· - 1)) (pre := c :: pre)
        (post := post) (caps := caps) (by simp at hmn; omega) (by
          intro m hm
          cases mx with
          | none => cases hm
          | some m' =>
            simp at hm
            have := hmx m' rfl
            simp at this
            omega)
      simpa using this

/-! ## match, search, finditer -/

theorem Rx.matchAt_sound {r : Rx} {pre post : Str} {m : Match} (h : r.matchAt pre post = some m) :
    ∃ st', r.Step ⟨pre, post, []⟩ st' ∧ m.start = pre.length ∧ m.stop = st'.pre.length ∧
      m.text = post.take (post.length - st'.post.length) ∧ m.caps = st'.caps := by
  unfold Rx.matchAt at h
  cases hr : r.run ⟨pre, post, []⟩ some with
  | none => rw [hr] at h; cases h
  | some st =>
    rw [hr] at h
    obtain ⟨st', h1, h2⟩ := r.run_sound _ _ _ hr
    cases h2
    cases h
    exact ⟨st, h1, rfl, rfl, rfl, rfl⟩

theorem Rx.matchAt_none {r : Rx} {pre post : Str} (h : r.matchAt pre post = none) (st' : MS) :
    ¬ r.Step ⟨pre, post, []⟩ st' := by
  unfold Rx.matchAt at h
  cases hr : r.run ⟨pre, post, []⟩ some with
  | none => intro hs; have := r.run_complete _ _ hr st' hs; cases this
  | some st => rw [hr] at h; cases h

theorem Rx.matchAt_isSome {r : Rx} {pre post : Str} {st' : MS} (h : r.Step ⟨pre, post, []⟩ st') :
    (r.matchAt pre post).isSome = true := by
  cases hm : r.matchAt pre post with
  | none => exact absurd h (Rx.matchAt_none hm st')
  | some m => rfl

/-- a match is a stretch of the text -/
theorem Rx.matchAt_shape {r : Rx} {pre post : Str} {m : Match} (h : r.matchAt pre post = some m) :
    ∃ rest, post = m.text ++ rest ∧ m.start = pre.length ∧ m.stop = pre.length + m.text.length := by
  obtain ⟨st', hs, h1, h2, h3, _⟩ := Rx.matchAt_sound h
  obtain ⟨u, hu1, hu2⟩ := Rx.Step.consumes r hs
  simp only at hu1 hu2
  have ht : m.text = u := by rw [h3, hu1]; simp
  refine ⟨st'.post, by rw [ht, hu1], h1, ?_⟩
  rw [h2, hu2, ht]
  simp [Nat.add_comm]

theorem Rx.searchFrom_sound {r : Rx} (post : Str) : ∀ {pre : Str} {m : Match}, r.searchFrom pre post = some m →
    ∃ u post', post = u ++ post' ∧ r.matchAt (u.reverse ++ pre) post' = some m := by
  induction post with
  | nil => intro pre m h; exact ⟨[], [], rfl, h⟩
  | cons c cs ih =>
    intro pre m h
    simp only [Rx.searchFrom] at h
    split at h
    · rename_i m' hm
      cases h
      exact ⟨[], c :: cs, rfl, hm⟩
    · obtain ⟨u, post', h1, h2⟩ := ih h
      exact ⟨c :: u, post', by rw [h1]; rfl, by simpa using h2⟩

theorem Rx.searchFrom_none {r : Rx} (post : Str) : ∀ {pre : Str}, r.searchFrom pre post = none →
    ∀ u post', post = u ++ post' → r.matchAt (u.reverse ++ pre) post' = none := by
  induction post with
  | nil =>
    intro pre h u post' hu
    obtain ⟨rfl, rfl⟩ := List.append_eq_nil_iff.1 hu.symm
    exact h
  | cons c cs ih =>
    intro pre h u post' hu
    simp only [Rx.searchFrom] at h
    split at h
    · cases h
    · rename_i hn
      cases u with
      | nil => simp at hu; rw [← hu]; exact hn
      | cons d u =>
        simp at hu
        obtain ⟨rfl, hu⟩ := hu
        simpa using ih h u post' hu

end MF
