import Verif.Model.Version
import Verif.Lemmas.Rx
import Verif.Props.Cli
import Verif.Props.Args
/-!
# C59 the version, C60 the exit status of the program
-/

namespace MF

/-! ## Matching literals and classes -/

theorem lit_step {s pre post : Str} {caps : List (Nat × Str × Nat)} {st' : MS} :
    (Rx.lit s).Step ⟨pre, post, caps⟩ st' ↔ ∃ rest, post = s ++ rest ∧ st' = ⟨s.reverse ++ pre, rest, caps⟩ := by
  induction s generalizing pre post with
  | nil => simp [Rx.lit, Rx.Step]
  | cons c s ih =>
    cases s with
    | nil =>
      simp only [Rx.lit, Rx.Step]
      constructor
      · rintro ⟨x, cs, rfl, hx, rfl⟩
        have : x = c := by simpa using hx
        subst this
        exact ⟨cs, rfl, rfl⟩
      · rintro ⟨rest, rfl, rfl⟩
        exact ⟨c, rest, rfl, by simp, rfl⟩
    | cons d s =>
      simp only [Rx.lit, Rx.Step]
      constructor
      · rintro ⟨m, ⟨x, cs, rfl, hx, rfl⟩, h2⟩
        have : x = c := by simpa using hx
        subst this
        obtain ⟨rest, rfl, rfl⟩ := ih.1 h2
        exact ⟨rest, rfl, by simp⟩
      · rintro ⟨rest, rfl, rfl⟩
        exact ⟨_, ⟨c, d :: s ++ rest, rfl, by simp, rfl⟩, ih.2 ⟨rest, rfl, by simp⟩⟩

theorem chrs_step {p : Char → Bool} {mn : Nat} {pre post : Str} {caps : List (Nat × Str × Nat)} {st' : MS} :
    (Rx.rep (.chr p) mn none).Step ⟨pre, post, caps⟩ st' ↔
      ∃ u rest, post = u ++ rest ∧ mn ≤ u.length ∧ (∀ c ∈ u, p c = true) ∧ st' = ⟨u.reverse ++ pre, rest, caps⟩ := by
  constructor
  · intro h
    obtain ⟨u, ⟨h1, h2⟩, hall, hmn, _, hcaps⟩ := repStep_chr h
    obtain ⟨a, b, c⟩ := st'
    simp only at h1 h2 hcaps
    subst h2; subst hcaps
    exact ⟨u, b, h1, hmn, hall, rfl⟩
  · rintro ⟨u, rest, rfl, hmn, hall, rfl⟩
    exact repStep_chr_intro u hall hmn (by simp)

/-- a stretch of characters of a class up to one outside it is determined -/
theorem stretch_unique {p : Char → Bool} {x x' : Char} {s s' : Str} (hx : p x = false) (hx' : p x' = false) :
    ∀ {a a' : Str}, (∀ c ∈ a, p c = true) → (∀ c ∈ a', p c = true) → a ++ x :: s = a' ++ x' :: s' →
      a = a' ∧ x = x' ∧ s = s' := by
  intro a
  induction a with
  | nil =>
    intro a' _ ha' h
    cases a' with
    | nil => simpa using h
    | cons c a' =>
      simp at h
      rw [h.1, ha' c (by simp)] at hx
      cases hx
  | cons c a ih =>
    intro a' ha ha' h
    cases a' with
    | nil =>
      simp at h
      rw [← h.1, ha c (by simp)] at hx'
      cases hx'
    | cons d a' =>
      simp at h
      obtain ⟨h1, h2⟩ := h
      obtain ⟨e1, e2, e3⟩ := ih (fun y hy => ha y (by simp [hy])) (fun y hy => ha' y (by simp [hy])) h2
      exact ⟨by rw [h1, e1], e2, e3⟩

/-! ## C59 -/

/-- digits and dots, at least one -/
def VersionText (v : Str) : Prop := v ≠ [] ∧ ∀ c ∈ v, c = '.' ∨ ('0' ≤ c ∧ c ≤ '9')

/-- a line such as `version = "1.2"`, with any white space and anything behind the second quote -/
def LineDeclares (l v : Str) : Prop :=
  ∃ a b c rest : Str, (∀ x ∈ a, isWs x = true) ∧ (∀ x ∈ b, isWs x = true) ∧ (∀ x ∈ c, isWs x = true) ∧ VersionText v ∧
    l = a ++ c!"version" ++ b ++ c!"=" ++ c ++ c!"\"" ++ v ++ c!"\"" ++ rest

/-- a name such as `markflow-1.2.dist-info`, with anything behind it -/
def NameDeclares (name f v : Str) : Prop :=
  ∃ rest : Str, VersionText v ∧ f = name ++ c!"-" ++ v ++ c!".dist-info" ++ rest

theorem versionText_iff {v : Str} : VersionText v ↔ 1 ≤ v.length ∧ ∀ c ∈ v, isVersionChar c = true := by
  unfold VersionText isVersionChar isDigit
  have h : ∀ c : Char, (c = '.' ∨ ('0' ≤ c ∧ c ≤ '9')) ↔
      (decide (48 ≤ c.toNat) && decide (c.toNat ≤ 57) || c == '.') = true := by
    intro c
    have e1 : '0' ≤ c ↔ 48 ≤ c.toNat := Iff.rfl
    have e2 : c ≤ '9' ↔ c.toNat ≤ 57 := Iff.rfl
    rw [e1, e2]
    simp only [Bool.or_eq_true, Bool.and_eq_true, decide_eq_true_eq, beq_iff_eq]
    exact Or.comm
  constructor
  · rintro ⟨h1, h2⟩
    exact ⟨List.length_pos_iff.2 h1, fun c hc => (h c).1 (h2 c hc)⟩
  · rintro ⟨h1, h2⟩
    exact ⟨List.length_pos_iff.1 h1, fun c hc => (h c).2 (h2 c hc)⟩

/-- a line declares at most one version -/
theorem LineDeclares.unique {l v v' : Str} (h : LineDeclares l v) (h' : LineDeclares l v') : v = v' := by
  obtain ⟨a, b, c, r, ha, hb, hc, hv, rfl⟩ := h
  obtain ⟨a', b', c', r', ha', hb', hc', hv', e⟩ := h'
  simp only [List.append_assoc] at e
  have hv := (versionText_iff.1 hv).2
  have hv' := (versionText_iff.1 hv').2
  obtain ⟨_, _, e⟩ := stretch_unique (p := isWs) (x := 'v') (x' := 'v') (by decide) (by decide) ha ha' e
  have e := List.append_cancel_left (as := c!"ersion") e
  obtain ⟨_, _, e⟩ := stretch_unique (p := isWs) (x := '=') (x' := '=') (by decide) (by decide) hb hb' e
  obtain ⟨_, _, e⟩ := stretch_unique (p := isWs) (x := '"') (x' := '"') (by decide) (by decide) hc hc' e
  exact (stretch_unique (p := isVersionChar) (x := '"') (x' := '"') (by decide) (by decide) hv hv' e).1

/-- so does a name -/
theorem NameDeclares.unique {n f v v' : Str} (h : NameDeclares n f v) (h' : NameDeclares n f v') : v = v' := by
  obtain ⟨r, hv, rfl⟩ := h
  obtain ⟨r', hv', e⟩ := h'
  have hv := (versionText_iff.1 hv).2
  have hv' := (versionText_iff.1 hv').2
  simp only [List.append_assoc, List.append_cancel_left_eq] at e
  have hd : ∀ {u : Str}, (∀ c ∈ u, isVersionChar c = true) → ∀ c ∈ u ++ ['.'], isVersionChar c = true := by
    intro u hu c hc
    rcases List.mem_append.1 hc with hc | hc
    · exact hu c hc
    · simp at hc; subst hc; decide
  have e2 : (v ++ ['.']) ++ 'd' :: (c!"ist-info" ++ r) = (v' ++ ['.']) ++ 'd' :: (c!"ist-info" ++ r') := by
    simpa using e
  have := (stretch_unique (p := isVersionChar) (by decide) (by decide) (hd hv) (hd hv') e2).1
  simpa using this

/-- the pattern for lines matches exactly the declarations -/
theorem pyproject_match (l : Str) :
    (∃ v, pyprojectVersionRx.match? l ≠ none ∧ LineDeclares l v ∧
      (pyprojectVersionRx.match? l).bind (·.group 1) = some v) ∨
    (pyprojectVersionRx.match? l = none ∧ ∀ v, ¬ LineDeclares l v) := by
  cases hm : pyprojectVersionRx.match? l with
  | some m =>
    left
    obtain ⟨st, hs, _, _, _, hcaps⟩ := Rx.matchAt_sound hm
    simp only [pyprojectVersionRx, Rx.seqs, Rx.star, Rx.plus] at hs
    obtain ⟨s1, h1, s2, h2, s3, h3, s4, h4, s5, h5, s6, h6, s7, h7, s8, h8, h9⟩ := hs
    obtain ⟨a, r1, rfl, _, ha, rfl⟩ := chrs_step.1 h1
    obtain ⟨r2, rfl, rfl⟩ := lit_step.1 h2
    obtain ⟨b, r3, rfl, _, hb, rfl⟩ := chrs_step.1 h3
    obtain ⟨r4, rfl, rfl⟩ := lit_step.1 h4
    obtain ⟨c, r5, rfl, _, hc, rfl⟩ := chrs_step.1 h5
    obtain ⟨r6, rfl, rfl⟩ := lit_step.1 h6
    obtain ⟨g, h7, rfl⟩ := h7
    obtain ⟨v, r7, rfl, hl, hv, rfl⟩ := chrs_step.1 h7
    obtain ⟨r8, rfl, rfl⟩ := lit_step.1 h8
    obtain ⟨u, r9, rfl, _, hu, rfl⟩ := chrs_step.1 h9
    refine ⟨v, by simp, ⟨a, b, c, u ++ r9, ha, hb, hc, versionText_iff.2 ⟨hl, hv⟩, by simp⟩, ?_⟩
    simp only [Option.bind_some, Match.group, hcaps]
    simp
  | none =>
    right
    refine ⟨rfl, ?_⟩
    rintro v ⟨a, b, c, rest, ha, hb, hc, hv, rfl⟩
    obtain ⟨hl, hv⟩ := versionText_iff.1 hv
    have hs : ∃ st, pyprojectVersionRx.Step ⟨[], a ++ c!"version" ++ b ++ c!"=" ++ c ++ c!"\"" ++ v ++ c!"\"" ++ rest, []⟩ st := by
      simp only [pyprojectVersionRx, Rx.seqs, Rx.star, Rx.plus, List.append_assoc]
      exact ⟨_, _, chrs_step.2 ⟨a, _, rfl, by simp, ha, rfl⟩, _, lit_step.2 ⟨_, rfl, rfl⟩,
        _, chrs_step.2 ⟨b, _, rfl, by simp, hb, rfl⟩, _, lit_step.2 ⟨_, rfl, rfl⟩,
        _, chrs_step.2 ⟨c, _, rfl, by simp, hc, rfl⟩, _, lit_step.2 ⟨_, rfl, rfl⟩,
        _, ⟨_, chrs_step.2 ⟨v, _, rfl, hl, hv, rfl⟩, rfl⟩, _, lit_step.2 ⟨_, rfl, rfl⟩,
        chrs_step.2 ⟨[], _, rfl, by simp, by simp, rfl⟩⟩
    obtain ⟨st, hs⟩ := hs
    exact Rx.matchAt_none hm st hs

/-- the pattern for names matches exactly the declarations -/
theorem distInfo_match (n f : Str) :
    (∃ v, (distInfoRx n).match? f ≠ none ∧ NameDeclares n f v ∧ ((distInfoRx n).match? f).bind (·.group 1) = some v) ∨
    ((distInfoRx n).match? f = none ∧ ∀ v, ¬ NameDeclares n f v) := by
  cases hm : (distInfoRx n).match? f with
  | some m =>
    left
    obtain ⟨st, hs, _, _, _, hcaps⟩ := Rx.matchAt_sound hm
    simp only [distInfoRx, Rx.seqs, Rx.plus] at hs
    obtain ⟨s1, h1, s2, h2, s3, h3, h4⟩ := hs
    obtain ⟨r1, rfl, rfl⟩ := lit_step.1 h1
    obtain ⟨r2, rfl, rfl⟩ := lit_step.1 h2
    obtain ⟨g, h3, rfl⟩ := h3
    obtain ⟨v, r3, rfl, hl, hv, rfl⟩ := chrs_step.1 h3
    obtain ⟨r4, rfl, rfl⟩ := lit_step.1 h4
    refine ⟨v, by simp, ⟨r4, versionText_iff.2 ⟨hl, hv⟩, by simp⟩, ?_⟩
    simp only [Option.bind_some, Match.group, hcaps]
    simp
  | none =>
    right
    refine ⟨rfl, ?_⟩
    rintro v ⟨rest, hv, rfl⟩
    obtain ⟨hl, hv⟩ := versionText_iff.1 hv
    have hs : ∃ st, (distInfoRx n).Step ⟨[], n ++ c!"-" ++ v ++ c!".dist-info" ++ rest, []⟩ st := by
      simp only [distInfoRx, Rx.seqs, Rx.plus, List.append_assoc]
      exact ⟨_, _, lit_step.2 ⟨_, rfl, rfl⟩, _, lit_step.2 ⟨_, rfl, rfl⟩,
        _, ⟨_, chrs_step.2 ⟨v, _, rfl, hl, hv, rfl⟩, rfl⟩, lit_step.2 ⟨_, rfl, rfl⟩⟩
    obtain ⟨st, hs⟩ := hs
    exact Rx.matchAt_none hm st hs

/-- `v` is what the first of `xs` that declares anything declares -/
def FirstDeclares (D : Str → Str → Prop) (xs : List Str) (v : Str) : Prop :=
  ∃ before x after, xs = before ++ x :: after ∧ (∀ y ∈ before, ∀ u, ¬ D y u) ∧ D x v

theorem firstVersion_spec {r : Rx} {D : Str → Str → Prop}
    (h : ∀ x, (∃ v, r.match? x ≠ none ∧ D x v ∧ (r.match? x).bind (·.group 1) = some v) ∨
      (r.match? x = none ∧ ∀ v, ¬ D x v)) (hu : ∀ x v v', D x v → D x v' → v = v') (xs : List Str) :
    (∀ v, firstVersion r xs = some v ↔ FirstDeclares D xs v) ∧
    (firstVersion r xs = none ↔ ∀ x ∈ xs, ∀ v, ¬ D x v) := by
  induction xs with
  | nil =>
    refine ⟨?_, by simp [firstVersion]⟩
    intro v
    simp only [firstVersion]
    constructor
    · intro h; cases h
    · rintro ⟨a, x, b, e, _⟩
      simp at e
  | cons x xs ih =>
    rcases h x with ⟨v0, hne, hD, hg⟩ | ⟨hn, hD⟩
    · have hf : firstVersion r (x :: xs) = some v0 := by
        simp only [firstVersion]
        cases hm : r.match? x with
        | none => exact absurd hm hne
        | some m => rw [hm] at hg; exact hg
      rw [hf]
      constructor
      · intro v
        constructor
        · intro e
          cases e
          exact ⟨[], x, xs, rfl, by simp, hD⟩
        · rintro ⟨a, y, b, e, hno, hy⟩
          cases a with
          | nil =>
            simp at e
            obtain ⟨rfl, rfl⟩ := e
            rw [hu _ _ _ hD hy]
          | cons z a =>
            simp at e
            obtain ⟨rfl, rfl⟩ := e
            exact absurd hD (hno x (by simp) v0)
      · simp only [reduceCtorEq, false_iff]
        intro hno
        exact hno x (by simp) v0 hD
    · have hf : firstVersion r (x :: xs) = firstVersion r xs := by simp only [firstVersion, hn]
      rw [hf]
      constructor
      · intro v
        rw [ih.1 v]
        constructor
        · rintro ⟨a, y, b, rfl, hno, hy⟩
          refine ⟨x :: a, y, b, rfl, ?_, hy⟩
          intro z hz
          rcases List.mem_cons.1 hz with rfl | hz
          · exact hD
          · exact hno z hz
        · rintro ⟨a, y, b, e, hno, hy⟩
          cases a with
          | nil =>
            simp at e
            obtain ⟨rfl, rfl⟩ := e
            exact absurd hy (hD v)
          | cons z a =>
            simp at e
            obtain ⟨rfl, rfl⟩ := e
            exact ⟨a, y, b, rfl, fun w hw => hno w (by simp [hw]), hy⟩
      · rw [ih.2]
        simp only [List.mem_cons, forall_eq_or_imp]
        exact ⟨fun h => ⟨hD, h⟩, fun h => h.2⟩

/-- C59 with a `pyproject.toml`: the version is the one that its first declaring line declares, marked as that of a
development copy; there is an error exactly when no line declares one. -/
theorem C59_pyproject (i : Install) (text : Str) (hi : i.pyproject = some text) :
    (∀ s, getVersion i = .ok s ↔ ∃ v, FirstDeclares LineDeclares (splitlines text) v ∧ s = v ++ c!" (development)") ∧
    (getVersion i = .error .runtime ↔ ∀ l ∈ splitlines text, ∀ v, ¬ LineDeclares l v) := by
  obtain ⟨h1, h2⟩ := firstVersion_spec pyproject_match (fun _ _ _ => LineDeclares.unique) (splitlines text)
  rw [← h2]
  simp only [← h1]
  unfold getVersion
  rw [hi]
  simp only
  cases firstVersion pyprojectVersionRx (splitlines text) with
  | none => simp
  | some v => simp [eq_comm]

/-- C59 without one: the version is the one in the first name beside the package that has one; there is an error
exactly when no name has one. -/
theorem C59_installed (i : Install) (hi : i.pyproject = none) :
    (∀ s, getVersion i = .ok s ↔ FirstDeclares (NameDeclares i.name) i.siblings s) ∧
    (getVersion i = .error .runtime ↔ ∀ f ∈ i.siblings, ∀ v, ¬ NameDeclares i.name f v) := by
  obtain ⟨h1, h2⟩ := firstVersion_spec (distInfo_match i.name) (fun _ _ _ => NameDeclares.unique) i.siblings
  rw [← h2]
  simp only [← h1]
  unfold getVersion
  rw [hi]
  simp only
  cases firstVersion (distInfoRx i.name) i.siblings with
  | none => simp
  | some v => simp

/-- C59 on two installations: the repository itself, and an installed copy -/
theorem C59_example :
    getVersion ⟨some c!"[tool.poetry]\nname = \"markflow\"\nversion = \"0.2.1\"\n", c!"markflow", []⟩ =
      .ok c!"0.2.1 (development)" ∧
    getVersion ⟨none, c!"markflow", [c!"rich-9.dist-info", c!"markflow", c!"markflow-0.2.1.dist-info"]⟩ = .ok c!"0.2.1" := by
  decide +kernel

/-- C59's error on two ordinary installations: a pre-release, and a copy beside somebody else's `pyproject.toml`. The
error is not caught, so that no command works there (`C60_no_version`). -/
theorem C59_no_version :
    getVersion ⟨none, c!"markflow", [c!"markflow", c!"markflow-0.3.0rc1.dist-info"]⟩ = .error .runtime ∧
    getVersion ⟨some c!"[project]\ndynamic = [\"version\"]\n", c!"markflow", [c!"markflow-0.2.1.dist-info"]⟩ =
      .error .runtime := by
  decide +kernel

/-! ## C60 -/

/-- C60: without a version no command does anything: nothing is written or printed and the exit status is 1. -/
theorem C60_no_version (F : Formatter) (cw : Path → Bool) (i : Install) (os : Os) (raw : RawArgs) (stdin : Option Str)
    (d : Disk) (h : getVersion i = .error .runtime) :
    program F cw i os raw stdin d = ({ disk := d, ops := [], out := [] }, 1) := by
  simp [program, h]

/-- a run returns 0 or 1 -/
theorem mainRun_value {F : Formatter} {cw : Path → Bool} {args : Args} {stdin : Option Str} {d : Disk} {n : Nat}
    (h : (mainRun F cw args stdin d).2 = .ok n) : n = 0 ∨ (n = 1 ∧ args.check = true) := by
  unfold mainRun at h
  simp only at h
  split at h
  · cases stdin with
    | none => simp only [Except.ok.injEq] at h; exact .inl h.symm
    | some t =>
      simp only [reformatStdin] at h
      split at h
      · split at h
        · split at h
          · cases h
          · split at h <;> cases h
        · cases h
      · split at h
        · rename_i hc
          split at h <;> simp only [Except.ok.injEq] at h
          · exact .inr ⟨h.symm, hc⟩
          · exact .inl h.symm
        · simp only [Except.ok.injEq] at h; exact .inl h.symm
  · obtain ⟨_, a, _, _, _, _, hn⟩ := reformatFiles_ok (r := (reformatFiles F cw args (mainWidth args.lineLength) d).1) (n := n)
      (Prod.ext rfl h)
    rw [hn]
    split
    · rename_i hc
      exact .inr ⟨rfl, by simp at hc; exact hc.1⟩
    · exact .inl rfl

/-- what argument checking ends with -/
theorem parseArgs_error {os : Os} {raw : RawArgs} {n : Int} (h : parseArgs os raw = .error n) : n = 2 ∨ n = -1 := by
  unfold parseArgs at h
  simp only at h
  repeat' split at h
  all_goals first | (cases h; exact .inl rfl) | (cases h; exact .inr rfl) | (cases h; done)

/-- C60: the exit status is 0, 1, 2 or 255. 2 means that an argument was refused, and then nothing was written or
printed. 255 means that the arguments were refused or a table was ragged. 0 means that the run ended without an
exception. 1 without `--check` means an exception. -/
theorem C60_status (F : Formatter) (cw : Path → Bool) (i : Install) (os : Os) (raw : RawArgs) (stdin : Option Str)
    (d : Disk) :
    let res := program F cw i os raw stdin d
    (res.2 = 0 ∨ res.2 = 1 ∨ res.2 = 2 ∨ res.2 = 255) ∧
    (res.2 = 2 → parseArgs os raw = .error 2 ∧ res.1.ops = [] ∧ res.1.disk = d ∧ res.1.out = []) ∧
    (res.2 = 255 → (parseArgs os raw = .error (-1) ∧ res.1.ops = [] ∧ res.1.disk = d ∧ res.1.out = []) ∨
      ∃ args l e a f, parseArgs os raw = .ok args ∧ (mainRun F cw args stdin d).2 = .error (.fmt (.format l e a) f)) ∧
    (res.2 = 0 → ∃ args, parseArgs os raw = .ok args ∧ mainRun F cw args stdin d = (res.1, .ok 0)) ∧
    (res.2 = 1 → raw.check = false → getVersion i = .error .runtime ∨
      ∃ args e, parseArgs os raw = .ok args ∧ (mainRun F cw args stdin d).2 = .error e) := by
  intro res
  have hv : ∀ e, getVersion i = .error e → getVersion i = .error .runtime := by
    intro e h
    unfold getVersion at h ⊢
    split at h <;> split at h <;> first | (cases h; done) | (simp [*])
  have hres : res = program F cw i os raw stdin d := rfl
  clear_value res
  unfold program at hres
  cases hg : getVersion i with
  | error e =>
    rw [hg] at hres
    simp only at hres
    subst hres
    have := hv e hg
    rw [hg] at this
    simp [this]
  | ok v =>
    rw [hg] at hres
    simp only at hres
    cases hp : parseArgs os raw with
    | error n =>
      rw [hp] at hres
      simp only at hres
      subst hres
      rcases parseArgs_error hp with rfl | rfl
      · simp [osStatus]
      · have : osStatus (-1) = 255 := by decide
        simp [this]
    | ok args =>
      rw [hp] at hres
      simp only at hres
      have hcheck : args.check = raw.check := by
        unfold parseArgs at hp
        simp only at hp
        repeat' split at hp
        all_goals first | (cases hp; done) | (cases hp; rfl)
      subst hres
      cases hm : mainRun F cw args stdin d with
      | mk r out =>
        cases out with
        | ok n =>
          have := mainRun_value (F := F) (cw := cw) (args := args) (stdin := stdin) (d := d) (n := n) (by rw [hm])
          rcases this with rfl | ⟨rfl, hc⟩
          · simp [exitStatus, hm]
          · rw [hcheck] at hc
            simp [exitStatus, hc]
        | error e =>
          cases e with
          | os p => simp [exitStatus, hm]
          | fmt e f =>
            cases e with
            | format l x a =>
              simp only [exitStatus]
              refine ⟨by simp, by simp, ?_, by simp, by simp⟩
              intro _
              exact .inr ⟨args, l, x, a, f, rfl, by rw [hm]⟩
            | _ => simp [exitStatus, hm]

/-- C60 on a file system with one file: formatting it, checking it, a missing file and a ragged table -/
theorem C60_example :
    let i : Install := ⟨none, c!"markflow", [c!"markflow-0.2.1.dist-info"]⟩
    let os : Os := ⟨fun p => p == [c!"a.md"], fun p => p == [], fun _ => false, fun _ _ => true, fun _ => []⟩
    let run := fun (raw : RawArgs) (text : Str) =>
      (program (markflow 3) (fun _ => true) i os raw none (fun p => if p = [c!"a.md"] then some text else none)).2
    run { paths := [[c!"a.md"]] } c!"a  b" = 0 ∧ run { paths := [[c!"a.md"]], check := true } c!"a  b" = 1 ∧
    run { paths := [[c!"b.md"]] } c!"a  b" = 2 ∧ run { paths := [[c!"a.md"]] } c!"|a|b|\n|-|-|\n|c|\n" = 255 ∧
    run { developerHelp := true } [] = 255 := by
  decide +kernel

/-! ## C61 -/

/-- number and noun -/
def counted (n : Nat) : Str := if n = 1 then c!"1 file" else natStr n ++ c!" files"

/-- "was" or "were" -/
def verb (n : Nat) : Str := if n = 1 then c!" was" else c!" were"

/-- The closing message: a part for the changed files in bold and one for the unchanged ones, each only if there are
such files. -/
inductive Closing : Bool → Nat → Nat → Str → Prop
  | nothing (check : Bool) : Closing check 0 0 []
  | unchanged (n : Nat) (hn : n ≠ 0) : Closing false 0 n (counted n ++ verb n ++ c!" left unchanged.")
  | changed (n : Nat) (hn : n ≠ 0) : Closing false n 0 (c!"**" ++ counted n ++ verb n ++ c!" reformatted.**")
  | both (n m : Nat) (hn : n ≠ 0) (hm : m ≠ 0) : Closing false n m
      (c!"**" ++ counted n ++ verb n ++ c!" reformatted.** " ++ counted m ++ verb m ++ c!" left unchanged.")
  | wouldNot (n : Nat) (hn : n ≠ 0) : Closing true 0 n (counted n ++ c!" would be left unchanged.")
  | would (n : Nat) (hn : n ≠ 0) : Closing true n 0 (c!"**" ++ counted n ++ c!" would be reformatted.**")
  | wouldBoth (n m : Nat) (hn : n ≠ 0) (hm : m ≠ 0) : Closing true n m
      (c!"**" ++ counted n ++ c!" would be reformatted.** " ++ counted m ++ c!" would be left unchanged.")

theorem summary_closing (check : Bool) (a b : Nat) : Closing check a b (summary check a b) := by
  have hc : ∀ n, natStr n ++ [' '] ++ fileWord n = counted n := by
    intro n
    unfold counted fileWord
    split
    · rename_i h; have : n = 1 := by simpa using h
      subst this; rfl
    · rename_i h; have : n ≠ 1 := by simpa using h
      simp [this]
  have hv : ∀ n, [' '] ++ fileVerb n = verb n := by
    intro n
    unfold verb fileVerb
    split
    · rename_i h; have : n = 1 := by simpa using h
      subst this; rfl
    · rename_i h; have : n ≠ 1 := by simpa using h
      simp [this]
  have hs : summary check a b = pyJoin [' '] (
      if check then
        (if a = 0 then [] else [c!"**" ++ counted a ++ c!" would be reformatted.**"]) ++
        (if b = 0 then [] else [counted b ++ c!" would be left unchanged."])
      else
        (if a = 0 then [] else [c!"**" ++ counted a ++ verb a ++ c!" reformatted.**"]) ++
        (if b = 0 then [] else [counted b ++ verb b ++ c!" left unchanged."])) := by
    unfold summary
    simp only [← hc, ← hv]
    congr 1
    by_cases ha : a = 0 <;> by_cases hb : b = 0 <;> cases check <;> simp [ha, hb]
  rw [hs]
  by_cases ha : a = 0
  · subst ha
    by_cases hb : b = 0
    · subst hb
      cases check <;> exact .nothing _
    · cases check
      · simpa [hb, pyJoin] using Closing.unchanged b hb
      · simpa [hb, pyJoin] using Closing.wouldNot b hb
  · by_cases hb : b = 0
    · subst hb
      cases check
      · simpa [ha, pyJoin] using Closing.changed a ha
      · simpa [ha, pyJoin] using Closing.would a ha
    · cases check
      · simpa [ha, hb, pyJoin] using Closing.both a b ha hb
      · simpa [ha, hb, pyJoin] using Closing.wouldBoth a b ha hb

/-- the message about one file that changes -/
def announce (check : Bool) (p : Path) : Str :=
  if check then c!"would reformat " ++ pyJoin ['/'] p else c!"**reformatted " ++ pyJoin ['/'] p ++ c!"**"

theorem stepFile_out {F : Formatter} {cw : Path → Bool} {args : Args} {w : Width} {r r' : Run} {i o : Path} {b : Bool}
    (h : stepFile F cw args w r i o = (r', .ok b)) :
    r'.out = r.out ++ (if b then [announce args.check i] else []) := by
  unfold stepFile at h
  split at h
  · cases h
  split at h
  · repeat' split at h
    all_goals cases h
  split at h
  · split at h
    · rename_i hc
      have hc : args.check = false := by simpa using hc
      simp only [doWrite] at h
      by_cases hcw : cw o = true
      · simp only [hcw, if_true, Prod.mk.injEq, Except.ok.injEq] at h
        obtain ⟨rfl, rfl⟩ := h
        simp [say, announce, hc, pathStr]
      · simp [hcw] at h
    · rename_i hc
      have hc : args.check = true := by simpa using hc
      simp only [Prod.mk.injEq, Except.ok.injEq] at h
      obtain ⟨rfl, rfl⟩ := h
      simp [say, announce, hc, pathStr]
  · split at h
    · simp only [doWrite] at h
      by_cases hcw : cw o = true
      · simp only [hcw, if_true, Prod.mk.injEq, Except.ok.injEq] at h
        obtain ⟨rfl, rfl⟩ := h
        simp
      · simp [hcw] at h
    · simp only [Prod.mk.injEq, Except.ok.injEq] at h
      obtain ⟨rfl, rfl⟩ := h
      simp

/-- messages and counts of a loop over files none of which is written before it is read -/
theorem filesLoop_out {F : Formatter} {cw : Path → Bool} {args : Args} {w : Width} {d : Disk} {changes : Path → Bool}
    (hch : ∀ p, changes p = true ↔ Changes F w d p) (ps : List (Path × Path)) : ∀ {r r' : Run} {a b a' b' : Nat},
      ps.Pairwise (fun x y => x.2 ≠ y.1) → (∀ p ∈ ps, r.disk p.1 = d p.1) →
      filesLoop F cw args w r a b ps = (r', .ok (a', b')) →
      r'.out = r.out ++ ((ps.map (·.1)).filter changes).map (announce args.check) ∧
      a' = a + ((ps.map (·.1)).filter changes).length ∧
      b' = b + ((ps.map (·.1)).filter (fun p => !changes p)).length := by
  induction ps with
  | nil =>
    intro r r' a b a' b' _ _ h
    simp only [filesLoop, Prod.mk.injEq, Except.ok.injEq] at h
    obtain ⟨rfl, rfl, rfl⟩ := h
    simp
  | cons p ps ih =>
    intro r r' a b a' b' hpw hd h
    obtain ⟨i, o⟩ := p
    rw [List.pairwise_cons] at hpw
    unfold filesLoop at h
    cases hs : stepFile F cw args w r i o with
    | mk r1 res =>
      rw [hs] at h
      cases res with
      | error e => cases h
      | ok bb =>
        obtain ⟨old, new, hread, hfull, hb, hcases⟩ := stepFile_ok hs
        have hout := stepFile_out hs
        have hread' : readText d i = .ok old := by
          unfold readText at hread ⊢
          rw [← hd (i, o) (by simp)]
          exact hread
        have hci : changes i = bb := by
          have : changes i = true ↔ bb = true := by
            rw [hch, hb]
            constructor
            · rintro ⟨o', n', h1, h2, h3⟩
              rw [hread'] at h1; cases h1
              rw [hfull] at h2; cases h2
              exact h3
            · intro hne; exact ⟨old, new, hread', hfull, hne⟩
          cases hx : changes i <;> cases bb <;> simp_all
        have hd1 : ∀ p ∈ ps, r1.disk p.1 = d p.1 := by
          intro p hp
          have hne := hpw.1 p hp
          rw [← hd p (by simp [hp])]
          rcases hcases with ⟨h1, _, _⟩ | ⟨h1, _, _⟩
          · rw [h1]
          · rw [h1, applyOps_writeOps]; simp [Ne.symm hne]
        cases bb with
        | true =>
          simp only at h
          obtain ⟨e1, e2, e3⟩ := ih hpw.2 hd1 h
          simp only [List.map_cons, List.filter_cons, hci, if_true, Bool.not_true, Bool.false_eq_true, if_false,
            List.length_cons]
          refine ⟨by rw [e1, hout]; simp, by omega, by omega⟩
        | false =>
          simp only at h
          obtain ⟨e1, e2, e3⟩ := ih hpw.2 hd1 h
          simp only [List.map_cons, List.filter_cons, hci, if_true, Bool.not_false, Bool.false_eq_true, if_false,
            List.length_cons]
          refine ⟨by rw [e1, hout]; simp, by omega, by omega⟩

/-- C61 for a run without output options on different files: it prints one message for every file whose formatted text
differs from what is read from it, in the order of the files, then "All done!", then the numbers of files that changed
and that did not. -/
theorem C61_messages (F : Formatter) (cw : Path → Bool) (args : Args) (stdin : Option Str) (d : Disk) (r : Run) (n : Nat)
    (hne : args.paths ≠ []) (hnd : args.paths.Nodup) (hd : args.outputDirectory = none) (hf : args.outputFiles = [])
    (h : mainRun F cw args stdin d = (r, .ok n)) (changes : Path → Bool)
    (hch : ∀ p, changes p = true ↔ Changes F (mainWidth args.lineLength) d p) :
    ∃ closing, r.out = (args.paths.filter changes).map (announce args.check) ++ [c!"All done!", closing] ∧
      Closing args.check (args.paths.filter changes).length (args.paths.filter (fun p => !changes p)).length closing := by
  have hempty : args.paths.isEmpty = false := by cases hp : args.paths with
    | nil => exact absurd hp hne
    | cons x xs => rfl
  have hout : outputPaths args = args.paths := by simp [outputPaths, hd, hf]
  simp only [mainRun, hempty, Bool.false_eq_true, if_false] at h
  unfold reformatFiles at h
  rw [hout] at h
  cases hl : filesLoop F cw args (mainWidth args.lineLength) { disk := d, ops := [], out := [] } 0 0
      (args.paths.zip args.paths) with
  | mk r0 res =>
    rw [hl] at h
    cases res with
    | error e => cases h
    | ok cu =>
      obtain ⟨a, b⟩ := cu
      simp only [Prod.mk.injEq, Except.ok.injEq] at h
      obtain ⟨rfl, -⟩ := h
      obtain ⟨e1, e2, e3⟩ := filesLoop_out hch _ ((zip_self_pairwise hnd).imp And.left) (by simp) hl
      have hz : (args.paths.zip args.paths).map (·.1) = args.paths := by
        rw [List.map_fst_zip]; exact Nat.le_refl _
      rw [hz] at e1 e2 e3
      simp only [Nat.zero_add] at e2 e3
      subst e2; subst e3
      exact ⟨_, by simp [say, e1], summary_closing _ _ _⟩

/-- C61 with an output directory and inputs of different names outside it -/
theorem C61_messages_directory (F : Formatter) (cw : Path → Bool) (args : Args) (stdin : Option Str) (d : Disk)
    (dir : Path) (r : Run) (n : Nat) (hne : args.paths ≠ []) (hd : args.outputDirectory = some dir)
    (hdisj : ∀ p ∈ args.paths, ∀ q ∈ args.paths, pathJoin dir (pathName p) ≠ q)
    (h : mainRun F cw args stdin d = (r, .ok n)) (changes : Path → Bool)
    (hch : ∀ p, changes p = true ↔ Changes F (mainWidth args.lineLength) d p) :
    ∃ closing, r.out = (args.paths.filter changes).map (announce args.check) ++ [c!"All done!", closing] ∧
      Closing args.check (args.paths.filter changes).length (args.paths.filter (fun p => !changes p)).length closing := by
  have hempty : args.paths.isEmpty = false := by cases hp : args.paths with
    | nil => exact absurd hp hne
    | cons x xs => rfl
  have hout : outputPaths args = args.paths.map fun p => pathJoin dir (pathName p) := by simp [outputPaths, hd]
  simp only [mainRun, hempty, Bool.false_eq_true, if_false] at h
  unfold reformatFiles at h
  have hzip : args.paths.zip (outputPaths args) = args.paths.map fun p => (p, pathJoin dir (pathName p)) := by
    rw [hout]
    generalize args.paths = l
    induction l with
    | nil => rfl
    | cons x l ih => simp [ih]
  rw [hzip] at h
  cases hl : filesLoop F cw args (mainWidth args.lineLength) { disk := d, ops := [], out := [] } 0 0
      (args.paths.map fun p => (p, pathJoin dir (pathName p))) with
  | mk r0 res =>
    rw [hl] at h
    cases res with
    | error e => cases h
    | ok cu =>
      obtain ⟨a, b⟩ := cu
      simp only [Prod.mk.injEq, Except.ok.injEq] at h
      obtain ⟨rfl, -⟩ := h
      have hpw : (args.paths.map fun p => (p, pathJoin dir (pathName p))).Pairwise (fun x y => x.2 ≠ y.1) := by
        rw [List.pairwise_map]
        exact List.pairwise_of_forall_mem_list (fun x hx y hy => hdisj x hx y hy)
      obtain ⟨e1, e2, e3⟩ := filesLoop_out hch _ hpw (by simp) hl
      simp only [List.map_map, Function.comp_def, List.map_id'] at e1 e2 e3
      simp only [Nat.zero_add] at e2 e3
      subst e2; subst e3
      exact ⟨_, by simp [say, e1], summary_closing _ _ _⟩

/-- C61 on three files, one of which changes -/
theorem C61_example :
    let d : Disk := fun p => if p = [c!"a"] then some c!"a  b" else some c!"second\n"
    let args : Args := { lineLength := 88, paths := [[c!"x"], [c!"a"], [c!"b"]], check := false,
                         outputDirectory := none, outputFiles := [], writeRenders := false, logLevel := 40 }
    (mainRun (markflow 3) (fun _ => true) args none d).1.out =
      [c!"**reformatted a**", c!"All done!", c!"**1 file was reformatted.** 2 files were left unchanged."] := by
  decide +kernel

end MF
