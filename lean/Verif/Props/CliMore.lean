import Verif.Props.Cli
import Verif.Props.Renders
/-!
# C81 – C84: more about runs over several files

What a run does to files given several times or to outputs of the same name, which characters it writes, and what is
on the disk when it is interrupted.
-/

namespace MF

/-! ## Runs as sequences of steps -/

/-- A run without `--check`: each file is read as it is at its turn; nothing is written if the file is its own output
and would not change. -/
inductive InTurn (F : Formatter) (w : Width) : List (Path × Path) → Disk → Disk → Prop where
  | done (d : Disk) : InTurn F w [] d d
  | same {p : Path} {raw new : Str} {ps : List (Path × Path)} {d d' : Disk} : d p = some raw →
      F.full w (univNewlines raw) = .ok new → new = univNewlines raw → InTurn F w ps d d' →
      InTurn F w ((p, p) :: ps) d d'
  | written {p o : Path} {raw new : Str} {ps : List (Path × Path)} {d d' : Disk} : d p = some raw →
      F.full w (univNewlines raw) = .ok new → (new ≠ univNewlines raw ∨ o ≠ p) →
      InTurn F w ps (fun q => if q = o then some new else d q) d' → InTurn F w ((p, o) :: ps) d d'

theorem readText_raw {d : Disk} {p : Path} {old : Str} (h : readText d p = .ok old) :
    ∃ raw, d p = some raw ∧ old = univNewlines raw := by
  unfold readText at h
  split at h
  · cases h
  · cases h; exact ⟨_, ‹_›, rfl⟩

theorem filesLoop_inTurn {F : Formatter} {cw : Path → Bool} {args : Args} {w : Width} (hc : args.check = false)
    (ps : List (Path × Path)) : ∀ {r r' : Run} {a b a' b' : Nat},
      filesLoop F cw args w r a b ps = (r', .ok (a', b')) → InTurn F w ps r.disk r'.disk := by
  induction ps with
  | nil =>
    intro r r' a b a' b' h
    simp only [filesLoop, Prod.mk.injEq] at h
    obtain ⟨rfl, _⟩ := h
    exact .done _
  | cons p ps ih =>
    intro r r' a b a' b' h
    obtain ⟨i, o⟩ := p
    unfold filesLoop at h
    cases hs : stepFile F cw args w r i o with
    | mk r1 res =>
      rw [hs] at h
      cases res with
      | error e => cases h
      | ok bb =>
        obtain ⟨old, new, hread, hfull, _, hcases⟩ := stepFile_ok hs
        have hrest : ∃ a2 b2, filesLoop F cw args w r1 a2 b2 ps = (r', .ok (a', b')) := by
          cases bb <;> exact ⟨_, _, h⟩
        obtain ⟨a2, b2, hrest⟩ := hrest
        have hr := ih hrest
        obtain ⟨raw, hraw, rfl⟩ := readText_raw hread
        rcases hcases with ⟨h1, _, h2⟩ | ⟨h1, _, h2⟩
        · rcases h2 with ⟨_, h2⟩ | ⟨h2, rfl⟩
          · rw [hc] at h2; cases h2
          · rw [h1] at hr
            exact .same hraw hfull h2 hr
        · rw [h1, applyOps_writeOps] at hr
          refine .written hraw hfull ?_ hr
          rcases h2 with ⟨h2, _⟩ | ⟨_, h2⟩
          · exact .inl h2
          · exact .inr h2

theorem InTurn.other {F : Formatter} {w : Width} {ps : List (Path × Path)} {d d' : Disk} (h : InTurn F w ps d d')
    {q : Path} (hq : ∀ p ∈ ps, q ≠ p.2) : d' q = d q := by
  induction h with
  | done d => rfl
  | same _ _ _ _ ih => exact ih fun p hp => hq p (by simp [hp])
  | written _ _ _ _ ih =>
    rw [ih fun p hp => hq p (by simp [hp])]
    exact if_neg (hq _ List.mem_cons_self)

theorem mainRun_inTurn {F : Formatter} {cw : Path → Bool} {args : Args} {stdin : Option Str} {d : Disk} {r : Run}
    {n : Nat} (hne : args.paths ≠ []) (hc : args.check = false) (h : mainRun F cw args stdin d = (r, .ok n)) :
    InTurn F (mainWidth args.lineLength) (args.paths.zip (outputPaths args)) d r.disk := by
  have hempty : args.paths.isEmpty = false := by
    cases hp : args.paths with
    | nil => exact absurd hp hne
    | cons x xs => rfl
  simp only [mainRun, hempty, Bool.false_eq_true, if_false] at h
  obtain ⟨r0, a, b, hl, hdisk, _, _⟩ := reformatFiles_ok h
  rw [hdisk]
  exact filesLoop_inTurn hc _ hl

/-! ## C81 -/

/-- Formatting a file in place `k` times, one after the other, makes `raw` into `final`. A file whose text would not
change keeps its bytes, including its line ends. -/
inductive Times (F : Formatter) (w : Width) : Nat → Str → Str → Prop where
  | zero (raw : Str) : Times F w 0 raw raw
  | succ {k : Nat} {raw new final : Str} : F.full w (univNewlines raw) = .ok new →
      Times F w k (if new = univNewlines raw then raw else new) final → Times F w (k + 1) raw final

theorem InTurn.times {F : Formatter} {w : Width} {p : Path} (l : List Path) : ∀ {d d' : Disk} {raw : Str},
    InTurn F w (l.zip l) d d' → d p = some raw → ∃ final, Times F w (l.count p) raw final ∧ d' p = some final := by
  induction l with
  | nil =>
    intro d d' raw h hd
    cases h
    exact ⟨raw, .zero _, hd⟩
  | cons x l ih =>
    intro d d' raw h hd
    rw [List.zip_cons_cons] at h
    cases h with
    | same h1 h2 h3 h4 =>
      obtain ⟨final, h5, h6⟩ := ih h4 hd
      by_cases hx : x = p
      · subst hx
        rw [hd] at h1; cases h1
        refine ⟨final, ?_, h6⟩
        rw [List.count_cons_self]
        exact .succ h2 (by rw [if_pos h3]; exact h5)
      · exact ⟨final, by rw [List.count_cons_of_ne hx]; exact h5, h6⟩
    | written h1 h2 h3 h4 =>
      rename_i raw' new
      rcases h3 with h3 | h3
      · by_cases hx : x = p
        · subst hx
          rw [hd] at h1; cases h1
          obtain ⟨final, h5, h6⟩ := ih (raw := new) h4 (if_pos rfl)
          refine ⟨final, ?_, h6⟩
          rw [List.count_cons_self]
          exact .succ h2 (by rw [if_neg h3]; exact h5)
        · obtain ⟨final, h5, h6⟩ := ih (raw := raw) h4 ((if_neg (Ne.symm hx)).trans hd)
          exact ⟨final, by rw [List.count_cons_of_ne hx]; exact h5, h6⟩
      · exact absurd rfl h3

theorem InTurn.read {F : Formatter} {w : Width} {p : Path} (l : List Path) : ∀ {d d' : Disk},
    InTurn F w (l.zip l) d d' → p ∈ l → ∃ raw, d p = some raw := by
  induction l with
  | nil => intro d d' _ hp; cases hp
  | cons x l ih =>
    intro d d' h hp
    by_cases hx : p = x
    · subst hx
      rw [List.zip_cons_cons] at h
      cases h with
      | same h1 => exact ⟨_, h1⟩
      | written h1 => exact ⟨_, h1⟩
    · have hp' : p ∈ l := (List.mem_cons.1 hp).resolve_left hx
      rw [List.zip_cons_cons] at h
      cases h with
      | same _ _ _ h4 => exact ih h4 hp'
      | written _ _ _ h4 =>
        obtain ⟨raw, h5⟩ := ih h4 hp'
        exact ⟨raw, (if_neg hx).symm.trans h5⟩

/-- C81: a run in place over any list of files formats each of them as many times as it is listed, each time from what
the time before left; all other files are as before. -/
theorem C81_listed_repeatedly (F : Formatter) (cw : Path → Bool) (args : Args) (stdin : Option Str) (d : Disk)
    (r : Run) (n : Nat) (hne : args.paths ≠ []) (hc : args.check = false) (hd : args.outputDirectory = none)
    (hf : args.outputFiles = []) (h : mainRun F cw args stdin d = (r, .ok n)) :
    (∀ p ∈ args.paths, ∃ raw final, d p = some raw ∧ r.disk p = some final ∧
      Times F (mainWidth args.lineLength) (args.paths.count p) raw final) ∧
    (∀ q, q ∉ args.paths → r.disk q = d q) := by
  have hout : outputPaths args = args.paths := by simp [outputPaths, hd, hf]
  have hr := mainRun_inTurn hne hc h
  rw [hout] at hr
  refine ⟨?_, ?_⟩
  · intro p hp
    obtain ⟨raw, h1⟩ := hr.read _ hp
    obtain ⟨final, h2, h3⟩ := hr.times _ h1
    exact ⟨raw, final, h1, h3, h2⟩
  · intro q hq
    refine hr.other ?_
    intro p hp h0
    exact hq (by rw [h0]; exact (List.of_mem_zip (a := p.1) (b := p.2) hp).2)

/-- `f` applied `k` times; a failure ends it. -/
def again (f : Str → Except Err Str) : Nat → Str → Except Err Str
  | 0, s => .ok s
  | k + 1, s =>
    match f s with
    | .ok t => again f k t
    | .error e => .error e

theorem times_markflow {n : Nat} {w : Width} {k : Nat} {raw final : Str} (h : Times (markflow n) w k raw final)
    (hr : '\r' ∉ raw) : again (reformatMarkdownText n w) k raw = .ok final := by
  induction h with
  | zero => rfl
  | @succ k raw new final h1 _ ih =>
    rw [univNewlines_id _ hr] at h1 ih
    have h2 : reformatMarkdownText n w raw = .ok new := h1
    have hn : (if new = raw then raw else new) = new := by
      split
      · rename_i h0; exact h0.symm
      · rfl
    rw [hn] at ih
    simp only [again, h2]
    refine ih fun hcr => ?_
    exact absurd hcr (C04_no_other_separator n w raw new h2 '\r' (by decide))

/-- C81 for the modelled formatter, for files with Unix line ends: the file ends up as the result of applying
`reformat_markdown_text` to its text as many times as it is listed. -/
theorem C81_markflow (m : Nat) (cw : Path → Bool) (args : Args) (stdin : Option Str) (d : Disk) (r : Run) (n : Nat)
    (hne : args.paths ≠ []) (hc : args.check = false) (hd : args.outputDirectory = none) (hf : args.outputFiles = [])
    (h : mainRun (markflow m) cw args stdin d = (r, .ok n)) (p : Path) (hp : p ∈ args.paths) (text : Str)
    (ht : d p = some text) (hcr : '\r' ∉ text) :
    (r.disk p).map Except.ok =
      some (again (reformatMarkdownText m (mainWidth args.lineLength)) (args.paths.count p) text) := by
  obtain ⟨raw, final, h1, h2, h3⟩ := (C81_listed_repeatedly _ cw args stdin d r n hne hc hd hf h).1 p hp
  rw [ht] at h1; cases h1
  rw [h2, times_markflow h3 hcr]
  rfl

/-- C81 on a file that is listed twice; formatting it the second time changes it again (C03 is false). -/
theorem C81_example :
    let args : Args := { lineLength := 8, paths := [[c!"f"], [c!"g"], [c!"f"]], check := false,
                         outputDirectory := none, outputFiles := [], writeRenders := false, logLevel := 40 }
    let d : Disk := fun p => if p = [c!"f"] then some c!"[a b c d]: x\n\n" else some c!"a\r\n"
    let run := mainRun (markflow 3) (fun _ => true) args none d
    run.2 = .ok 0 ∧ run.1.disk [c!"g"] = some c!"a\r\n" ∧
    run.1.disk [c!"f"] = some c!"[a b c\nd]: x\n" ∧
    reformatMarkdownText 3 (.fin 8) c!"[a b c d]: x\n\n" = .ok c!"[a b c d]: x\n" := by
  decide +kernel

/-! ## C82 -/

theorem InTurn.split {F : Formatter} {w : Width} (ps : List (Path × Path)) : ∀ {qs : List (Path × Path)}
    {d d' : Disk}, InTurn F w (ps ++ qs) d d' → ∃ d1, InTurn F w ps d d1 ∧ InTurn F w qs d1 d' := by
  induction ps with
  | nil => intro qs d d' h; exact ⟨d, .done d, h⟩
  | cons p ps ih =>
    intro qs d d' h
    rw [List.cons_append] at h
    cases h with
    | same h1 h2 h3 h4 =>
      obtain ⟨d1, h5, h6⟩ := ih h4
      exact ⟨d1, .same h1 h2 h3 h5, h6⟩
    | written h1 h2 h3 h4 =>
      obtain ⟨d1, h5, h6⟩ := ih h4
      exact ⟨d1, .written h1 h2 h3 h5, h6⟩

/-- C82: with `--output-dir D`, when no input lies in `D` under a name that is written, `D/name` holds the formatted
text of the last input called `name`; the inputs and all other files are as before. -/
theorem C82_last_of_a_name (F : Formatter) (cw : Path → Bool) (args : Args) (stdin : Option Str) (d : Disk)
    (dir : Path) (r : Run) (n : Nat) (hne : args.paths ≠ []) (hc : args.check = false)
    (hd : args.outputDirectory = some dir)
    (hdisj : ∀ p ∈ args.paths, ∀ q ∈ args.paths, dir ++ [q.getLastD []] ≠ p)
    (h : mainRun F cw args stdin d = (r, .ok n)) :
    (∀ before p after, args.paths = before ++ p :: after → (∀ q ∈ after, q.getLastD [] ≠ p.getLastD []) →
      ∃ raw new, d p = some raw ∧ F.full (mainWidth args.lineLength) (univNewlines raw) = .ok new ∧
        r.disk (dir ++ [p.getLastD []]) = some new) ∧
    (∀ q, (∀ p ∈ args.paths, q ≠ dir ++ [p.getLastD []]) → r.disk q = d q) := by
  have hout : outputPaths args = args.paths.map fun p => dir ++ [p.getLastD []] := by
    simp [outputPaths, hd, pathJoin, pathName]
  have hr := mainRun_inTurn hne hc h
  rw [hout] at hr
  have hzip : ∀ l : List Path, l.zip (l.map fun p => dir ++ [p.getLastD []]) =
      l.map fun p => (p, dir ++ [p.getLastD []]) := by
    intro l
    induction l with
    | nil => rfl
    | cons x l ih => rw [List.map_cons, List.map_cons, List.zip_cons_cons, ih]
  rw [hzip] at hr
  refine ⟨?_, ?_⟩
  · intro before p after hpaths hlast
    have hin : ∀ x ∈ before, x ∈ args.paths := fun x hx => by rw [hpaths]; simp [hx]
    have hp : p ∈ args.paths := by rw [hpaths]; simp
    rw [hpaths, List.map_append, List.map_cons] at hr
    obtain ⟨d1, h1, h2⟩ := hr.split _
    have hd1 : d1 p = d p := h1.other fun x hx => by
      obtain ⟨y, hy, rfl⟩ := List.mem_map.1 hx
      exact (hdisj p hp y (hin y hy)).symm
    have hafter : ∀ x ∈ after.map fun p => (p, dir ++ [p.getLastD []]), dir ++ [p.getLastD []] ≠ x.2 := by
      intro x hx h0
      obtain ⟨y, hy, rfl⟩ := List.mem_map.1 hx
      have := List.append_cancel_left h0
      simp only [List.cons.injEq, and_true] at this
      exact hlast y hy this.symm
    generalize ho : dir ++ [p.getLastD []] = o at h2 hafter
    cases h2 with
    | same h3 h4 h5 h6 => exact absurd ho (hdisj p hp p hp)
    | written h3 h4 h5 h6 =>
      refine ⟨_, _, hd1 ▸ h3, h4, ?_⟩
      rw [h6.other hafter]
      exact if_pos rfl
  · intro q hq
    refine hr.other ?_
    intro x hx
    obtain ⟨y, hy, rfl⟩ := List.mem_map.1 hx
    exact hq y hy

/-- C82 on three inputs, two of one name -/
theorem C82_example :
    let args : Args := { lineLength := 88, paths := [[c!"x", c!"a.md"], [c!"b.md"], [c!"y", c!"a.md"]],
                         check := false, outputDirectory := some [c!"out"], outputFiles := [], writeRenders := false,
                         logLevel := 40 }
    let d : Disk := fun p => if p = [c!"x", c!"a.md"] then some c!"first\n" else if p = [c!"b.md"] then some c!"c  d"
      else some c!"second  one\n"
    let run := mainRun (markflow 3) (fun _ => true) args none d
    run.2 = .ok 0 ∧ run.1.disk [c!"out", c!"a.md"] = some c!"second one\n" ∧
    run.1.disk [c!"out", c!"b.md"] = some c!"c d\n" ∧ run.1.disk [c!"x", c!"a.md"] = some c!"first\n" := by
  decide +kernel

/-! ## Everything a run writes -/

/-- What the files of a run can hold: what the inputs held, and what the formatter makes of that. -/
inductive Content (F : Formatter) (w : Width) (paths : List Path) (d : Disk) : Str → Prop where
  | input {p : Path} {raw : Str} : p ∈ paths → d p = some raw → Content F w paths d raw
  | full {raw t : Str} : Content F w paths d raw → F.full w (univNewlines raw) = .ok t → Content F w paths d t
  | pass {raw t : Str} : Content F w paths d raw → F.pass w (univNewlines raw) = .ok t → Content F w paths d t
  | second {s t : Str} : Content F w paths d s → F.pass w s = .ok t → Content F w paths d t

/-- The steps of writing several files completely, one after the other. -/
def writesOps (ws : List (Path × Str)) : List Op := ws.flatMap fun x => writeOps x.1 x.2

/-- From `r` to `r'` files are written completely, with texts of which `P` holds. -/
def Wrote (P : Str → Prop) (r r' : Run) : Prop :=
  ∃ ws : List (Path × Str), r'.ops = r.ops ++ writesOps ws ∧ r'.disk = applyOps r.disk (writesOps ws) ∧
    ∀ x ∈ ws, P x.2

theorem Wrote.refl {P : Str → Prop} {r r' : Run} (h1 : r'.ops = r.ops) (h2 : r'.disk = r.disk) : Wrote P r r' :=
  ⟨[], by simp [h1, writesOps], by simp [h2, writesOps, applyOps], by simp⟩

theorem writesOps_append (a b : List (Path × Str)) : writesOps (a ++ b) = writesOps a ++ writesOps b := by
  simp [writesOps]

theorem Wrote.trans {P : Str → Prop} {r1 r2 r3 : Run} (h : Wrote P r1 r2) (h' : Wrote P r2 r3) : Wrote P r1 r3 := by
  obtain ⟨a, h1, h2, h3⟩ := h
  obtain ⟨b, h4, h5, h6⟩ := h'
  refine ⟨a ++ b, by rw [h4, h1, writesOps_append, List.append_assoc],
    by rw [h5, h2, writesOps_append, applyOps_append], ?_⟩
  intro x hx
  rcases List.mem_append.1 hx with hx | hx
  · exact h3 x hx
  · exact h6 x hx

theorem doWrite_wrote {P : Str → Prop} (cw : Path → Bool) (r : Run) (p : Path) (t : Str) (h : P t) :
    Wrote P r (doWrite cw r p t).1 := by
  unfold doWrite
  split
  · exact ⟨[(p, t)], by simp [writesOps], by simp [writesOps], by simpa using h⟩
  · exact .refl rfl rfl

/-- Files hold what they held before or one of the texts written. -/
theorem applyOps_writes (ws : List (Path × Str)) : ∀ (d : Disk) (q : Path),
    applyOps d (writesOps ws) q = d q ∨ ∃ x ∈ ws, applyOps d (writesOps ws) q = some x.2 := by
  induction ws with
  | nil => intro d q; exact .inl rfl
  | cons x ws ih =>
    intro d q
    have h1 : writesOps (x :: ws) = writeOps x.1 x.2 ++ writesOps ws := rfl
    rw [h1, applyOps_append]
    rcases ih (applyOps d (writeOps x.1 x.2)) q with h | ⟨y, hy, h⟩
    · rw [h, applyOps_writeOps]
      by_cases hq : q = x.1
      · exact .inr ⟨x, by simp, by simp [hq]⟩
      · exact .inl (if_neg hq)
    · exact .inr ⟨y, by simp [hy], h⟩

section
variable {F : Formatter} {cw : Path → Bool} {args : Args} {w : Width} {d : Disk}

/-- All inputs hold contents of the run. -/
def Known (F : Formatter) (w : Width) (paths : List Path) (d : Disk) (r : Run) : Prop :=
  ∀ p ∈ paths, ∀ raw, r.disk p = some raw → Content F w paths d raw

theorem Known.wrote {paths : List Path} {r r' : Run} (h : Known F w paths d r)
    (h' : Wrote (Content F w paths d) r r') : Known F w paths d r' := by
  obtain ⟨ws, _, h2, h3⟩ := h'
  intro p hp raw hr
  rw [h2] at hr
  rcases applyOps_writes ws r.disk p with h0 | ⟨x, hx, h0⟩
  · exact h p hp raw (h0 ▸ hr)
  · rw [h0] at hr
    cases hr
    exact h3 x hx

theorem writeRenders_wrote {paths : List Path} {r : Run} (hk : Known F w paths d r) {i : Path} (hi : i ∈ paths)
    (o : Path) : Wrote (Content F w paths d) r (writeRenders F cw w i o r).1 := by
  unfold writeRenders
  cases hr : readText r.disk i with
  | error e => exact .refl rfl rfl
  | ok text =>
    obtain ⟨raw, h1, rfl⟩ := readText_raw hr
    have hc := hk i hi raw h1
    simp only
    cases hp : F.pass w (univNewlines raw) with
    | error e => exact .refl rfl rfl
    | ok first =>
      have hfirst := Content.pass hc hp
      simp only
      have hw := doWrite_wrote cw r (renderPaths o).1 first hfirst
      cases hd : doWrite cw r (renderPaths o).1 first with
      | mk r1 res =>
        rw [hd] at hw
        cases res with
        | error e => exact hw
        | ok u =>
          simp only
          cases hp2 : F.pass w first with
          | error e => exact hw
          | ok second => exact hw.trans (doWrite_wrote cw r1 _ second (.second hfirst hp2))

theorem stepFile_wrote {paths : List Path} {r : Run} (hk : Known F w paths d r) {i : Path} (hi : i ∈ paths)
    (o : Path) : Wrote (Content F w paths d) r (stepFile F cw args w r i o).1 := by
  unfold stepFile
  cases hr : readText r.disk i with
  | error e => exact .refl rfl rfl
  | ok old =>
    obtain ⟨raw, h1, rfl⟩ := readText_raw hr
    have hc := hk i hi raw h1
    simp only
    cases hf : F.full w (univNewlines raw) with
    | error e =>
      simp only
      split
      · split
        · have hw := writeRenders_wrote (cw := cw) hk hi o
          cases hwr : writeRenders F cw w i o r with
          | mk r1 res =>
            rw [hwr] at hw
            cases res with
            | error e' => exact hw
            | ok u => exact hw
        · exact .refl rfl rfl
      · exact .refl rfl rfl
    | ok new =>
      have hnew := Content.full hc hf
      have hw := doWrite_wrote cw r o new hnew
      simp only
      cases hd : doWrite cw r o new with
      | mk r1 res =>
        rw [hd] at hw
        split
        · split
          · cases res with
            | error e => exact hw
            | ok u => exact hw.trans (.refl rfl rfl)
          · exact .refl rfl rfl
        · split
          · cases res with
            | error e => exact hw
            | ok u => exact hw
          · exact .refl rfl rfl

theorem filesLoop_wrote {paths : List Path} (ps : List (Path × Path)) : ∀ {r : Run} {a b : Nat},
    Known F w paths d r → (∀ p ∈ ps, p.1 ∈ paths) →
    Wrote (Content F w paths d) r (filesLoop F cw args w r a b ps).1 := by
  induction ps with
  | nil => intro r a b _ _; exact .refl rfl rfl
  | cons p ps ih =>
    intro r a b hk hps
    obtain ⟨i, o⟩ := p
    have hw := stepFile_wrote (cw := cw) (args := args) hk (hps (i, o) (by simp)) o
    unfold filesLoop
    cases hs : stepFile F cw args w r i o with
    | mk r1 res =>
      rw [hs] at hw
      cases res with
      | error e => exact hw
      | ok bb =>
        have hrest := fun a b => ih (a := a) (b := b) (hk.wrote hw) fun p hp => hps p (by simp [hp])
        cases bb <;> exact hw.trans (hrest _ _)

end

/-- Every run, whatever its outcome, writes some files completely, one after the other. -/
theorem mainRun_wrote (F : Formatter) (cw : Path → Bool) (args : Args) (stdin : Option Str) (d : Disk) :
    Wrote (Content F (mainWidth args.lineLength) args.paths d) { disk := d, ops := [], out := [] }
      (mainRun F cw args stdin d).1 := by
  unfold mainRun
  simp only
  split
  · cases stdin with
    | none => exact .refl rfl rfl
    | some t =>
      simp only [reformatStdin]
      split
      · split
        · split
          · exact .refl rfl rfl
          · split
            · exact .refl rfl rfl
            · exact .refl rfl rfl
        · exact .refl rfl rfl
      · split
        · split <;> exact .refl rfl rfl
        · exact .refl rfl rfl
  · unfold reformatFiles
    have hk : Known F (mainWidth args.lineLength) args.paths d { disk := d, ops := [], out := [] } :=
      fun p hp raw hr => .input hp hr
    have hw := filesLoop_wrote (cw := cw) (args := args) (a := 0) (b := 0) (args.paths.zip (outputPaths args)) hk
      fun p hp => (List.of_mem_zip (a := p.1) (b := p.2) hp).1
    cases hl : filesLoop F cw args (mainWidth args.lineLength) { disk := d, ops := [], out := [] } 0 0
        (args.paths.zip (outputPaths args)) with
    | mk r res =>
      rw [hl] at hw
      cases res with
      | error e => exact hw
      | ok cu => exact hw.trans (.refl rfl rfl)

/-! ## C83 -/

theorem mem_univNewlines {s : Str} {c : Char} (h : c ∈ univNewlines s) : c ∈ s ∨ c = '\n' := by
  induction s with
  | nil => cases h
  | cons x s ih =>
    simp only [univNewlines] at h
    split at h
    · split at h
      · rcases ih h with h | h
        · exact .inl (by simp [h])
        · exact .inr h
      · rcases List.mem_cons.1 h with h | h
        · exact .inr h
        · rcases ih h with h | h
          · exact .inl (by simp [h])
          · exact .inr h
    · rcases List.mem_cons.1 h with h | h
      · exact .inl (by simp [h])
      · rcases ih h with h | h
        · exact .inl (by simp [h])
        · exact .inr h

/-- The characters the formatters write themselves. -/
def ownChars : Str := c!"\n -0123456789"

theorem fine_own {text y : Str} (h : Fine (Made (· ∈ text)) y) {c : Char} (hc : c ∈ y) : c ∈ text ∨ c ∈ ownChars := by
  rcases h c hc with rfl | ⟨_, h1 | h1⟩
  · right; decide
  · rcases h1 with h1 | ⟨rfl, _⟩ | ⟨h1, _⟩
    · exact .inl h1
    · right; decide
    · right
      have := isDigit_mem h1
      simp only [ownChars, List.mem_cons] at this ⊢
      exact .inr (.inr (.inr this))
  · right
    rw [show c = ' ' by simpa [markup] using h1]
    decide

theorem content_chars {n : Nat} {w : Width} {paths : List Path} {d : Disk} {t : Str}
    (h : Content (markflow n) w paths d t) {c : Char} (hc : c ∈ t) :
    c ∈ ownChars ∨ ∃ p ∈ paths, ∃ raw, d p = some raw ∧ c ∈ raw := by
  induction h with
  | input hp hr => exact .inr ⟨_, hp, _, hr, hc⟩
  | full _ hf ih =>
    rcases fine_own (reformatMarkdownText_fine hf) hc with h | h
    · rcases mem_univNewlines h with h | rfl
      · exact ih h
      · exact .inl (by decide)
    · exact .inl h
  | pass _ hf ih =>
    rcases fine_own (reformatText_fine _ _ _ _ hf) hc with h | h
    · rcases mem_univNewlines h with h | rfl
      · exact ih h
      · exact .inl (by decide)
    · exact .inl h
  | second _ hf ih =>
    rcases fine_own (reformatText_fine _ _ _ _ hf) hc with h | h
    · exact ih h
    · exact .inl h

theorem mem_writesOps {ws : List (Path × Str)} {p : Path} {c : Char} (h : Op.append p c ∈ writesOps ws) :
    ∃ x ∈ ws, c ∈ x.2 := by
  obtain ⟨x, hx, h1⟩ := List.mem_flatMap.1 h
  refine ⟨x, hx, ?_⟩
  rcases List.mem_cons.1 h1 with h1 | h1
  · cases h1
  · obtain ⟨c', hc', h2⟩ := List.mem_map.1 h1
    cases h2
    exact hc'

/-- C83: every character that a command writes to a file, to renders of an inconsistent file too, occurs in one of
the files it was given or is one of thirteen ASCII characters. -/
theorem C83_written_characters (n : Nat) (cw : Path → Bool) (args : Args) (stdin : Option Str) (d : Disk) (p : Path)
    (c : Char) (h : Op.append p c ∈ (mainRun (markflow n) cw args stdin d).1.ops) :
    c ∈ c!"\n -0123456789" ∨ ∃ q ∈ args.paths, ∃ raw, d q = some raw ∧ c ∈ raw := by
  obtain ⟨ws, h1, _, h3⟩ := mainRun_wrote (markflow n) cw args stdin d
  rw [h1] at h
  obtain ⟨x, hx, hc⟩ := mem_writesOps h
  exact content_chars (h3 x hx) hc

/-- C83, consequence: with an encoding that has the ASCII characters and in which all given files are written, no
write can fail because of a character that cannot be encoded. -/
theorem C83_encodable (n : Nat) (cw : Path → Bool) (args : Args) (stdin : Option Str) (d : Disk)
    (encodable : Char → Prop) (hascii : ∀ c : Char, c.toNat < 128 → encodable c)
    (hin : ∀ q ∈ args.paths, ∀ raw, d q = some raw → ∀ c ∈ raw, encodable c) (p : Path) (c : Char)
    (h : Op.append p c ∈ (mainRun (markflow n) cw args stdin d).1.ops) : encodable c := by
  rcases C83_written_characters n cw args stdin d p c h with h | ⟨q, hq, raw, hr, hc⟩
  · have : ∀ c ∈ c!"\n -0123456789", c.toNat < 128 := by decide
    exact hascii c (this c h)
  · exact hin q hq raw hr c hc

/-- C83 on a file with accents -/
theorem C83_example :
    let args : Args := { lineLength := 88, paths := [[c!"f"]], check := false, outputDirectory := none,
                         outputFiles := [], writeRenders := false, logLevel := 40 }
    let d : Disk := fun p => if p = [c!"f"] then some c!"1. é  è\n* ü" else none
    let ops := (mainRun (markflow 4) (fun _ => true) args none d).1.ops
    Op.append [c!"f"] 'é' ∈ ops ∧ Op.append [c!"f"] '2' ∈ ops := by
  decide +kernel

/-! ## C84 -/

theorem prefix_writeOps {p : Path} {t : Str} {ops : List Op} (h : ops <+: writeOps p t) :
    ops = [] ∨ ∃ beg, beg <+: t ∧ ops = writeOps p beg := by
  cases ops with
  | nil => exact .inl rfl
  | cons o ops =>
    right
    unfold writeOps at h
    rw [List.cons_prefix_cons] at h
    obtain ⟨rfl, h⟩ := h
    obtain ⟨more, hm⟩ := h
    have hl := congrArg (List.take ops.length) hm
    rw [List.take_left, ← List.map_take] at hl
    exact ⟨t.take ops.length, List.take_prefix _ _, by rw [writeOps, ← hl]⟩

theorem prefix_append_cases {α : Type} {a b c : List α} (h : a <+: b ++ c) : a <+: b ∨ ∃ d, a = b ++ d ∧ d <+: c := by
  obtain ⟨e, h⟩ := h
  rcases List.append_eq_append_iff.1 h with ⟨x, h1, _⟩ | ⟨x, h1, h2⟩
  · exact .inl ⟨x, h1.symm⟩
  · exact .inr ⟨x, h1, ⟨e, h2.symm⟩⟩

/-- A run that is interrupted has written some files completely and possibly the beginning of one more. -/
theorem prefix_writesOps (ws : List (Path × Str)) : ∀ {crash : List Op}, crash <+: writesOps ws →
    ∃ done rest, ws = done ++ rest ∧ (crash = writesOps done ∨
      ∃ x beg, rest.head? = some x ∧ beg <+: x.2 ∧ crash = writesOps done ++ writeOps x.1 beg) := by
  induction ws with
  | nil =>
    intro crash h
    exact ⟨[], [], rfl, .inl (by simpa [writesOps] using h)⟩
  | cons x ws ih =>
    intro crash h
    have h1 : writesOps (x :: ws) = writeOps x.1 x.2 ++ writesOps ws := rfl
    rw [h1] at h
    rcases prefix_append_cases h with h | ⟨c, rfl, h'⟩
    · rcases prefix_writeOps h with rfl | ⟨beg, hb, rfl⟩
      · exact ⟨[], x :: ws, rfl, .inl rfl⟩
      · exact ⟨[], x :: ws, rfl, .inr ⟨x, beg, rfl, hb, rfl⟩⟩
    · obtain ⟨done, rest, rfl, h2⟩ := ih h'
      refine ⟨x :: done, rest, rfl, ?_⟩
      have h3 : writesOps (x :: done) = writeOps x.1 x.2 ++ writesOps done := rfl
      rcases h2 with rfl | ⟨y, beg, hy, hb, rfl⟩
      · exact .inl h3.symm
      · exact .inr ⟨y, beg, hy, hb, by rw [h3, List.append_assoc]⟩

/-- C84: whenever a run is interrupted, whatever its options and its outcome would have been, at most one file is
incomplete: it holds the beginning of a complete text. Every other file holds what it held before the run or a
complete text that the formatter made of the files given. -/
theorem C84_interrupted (F : Formatter) (cw : Path → Bool) (args : Args) (stdin : Option Str) (d : Disk)
    (crash : List Op) (h : crash <+: (mainRun F cw args stdin d).1.ops) :
    ∃ hit : Option Path,
      (∀ q, hit ≠ some q → applyOps d crash q = d q ∨
        ∃ t, applyOps d crash q = some t ∧ Content F (mainWidth args.lineLength) args.paths d t) ∧
      (∀ q, hit = some q → ∃ beg t, applyOps d crash q = some beg ∧ beg <+: t ∧
        Content F (mainWidth args.lineLength) args.paths d t) := by
  obtain ⟨ws, h1, _, h3⟩ := mainRun_wrote F cw args stdin d
  rw [h1] at h
  obtain ⟨done, rest, rfl, hc⟩ := prefix_writesOps ws (by simpa using h)
  have hdone : ∀ q, applyOps d (writesOps done) q = d q ∨
      ∃ t, applyOps d (writesOps done) q = some t ∧ Content F (mainWidth args.lineLength) args.paths d t := by
    intro q
    rcases applyOps_writes done d q with h0 | ⟨x, hx, h0⟩
    · exact .inl h0
    · exact .inr ⟨_, h0, h3 x (by simp [hx])⟩
  rcases hc with rfl | ⟨x, beg, hx, hb, rfl⟩
  · exact ⟨none, fun q _ => hdone q, fun q hq => by cases hq⟩
  · refine ⟨some x.1, ?_, ?_⟩
    · intro q hq
      rw [applyOps_append, applyOps_writeOps]
      have hq' : q ≠ x.1 := fun h0 => hq (by rw [h0])
      simp only [hq', if_false]
      exact hdone q
    · intro q hq
      cases hq
      rw [applyOps_append, applyOps_writeOps]
      refine ⟨beg, x.2, by simp, hb, h3 x ?_⟩
      cases rest with
      | nil => cases hx
      | cons y ys => cases hx; simp

/-- C84 on a run over two files, interrupted while the second is written -/
theorem C84_example :
    let args : Args := { lineLength := 88, paths := [[c!"f"], [c!"g"]], check := false, outputDirectory := none,
                         outputFiles := [], writeRenders := false, logLevel := 40 }
    let d : Disk := fun p => if p = [c!"f"] then some c!"a  b" else some c!"c  d"
    let ops := (mainRun (markflow 3) (fun _ => true) args none d).1.ops
    applyOps d (ops.take 7) [c!"f"] = some c!"a b\n" ∧ applyOps d (ops.take 7) [c!"g"] = some c!"c" ∧
    applyOps d ops [c!"g"] = some c!"c d\n" := by
  decide +kernel

end MF
