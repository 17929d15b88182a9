import Verif.Model.Cli
import Verif.Props.Chars
/-!
# C35 – C41: the command line

All theorems hold for every formatter `F`; `markflow n` is the modelled one.
-/

namespace MF

/-! ## Writing a file -/

theorem applyOps_append (d : Disk) (a b : List Op) : applyOps d (a ++ b) = applyOps (applyOps d a) b := by
  unfold applyOps; rw [List.foldl_append]

theorem applyOps_appends (p : Path) (s : Str) : ∀ (d : Disk) (t : Str), d p = some t →
    applyOps d (s.map (.append p)) = fun q => if q = p then some (t ++ s) else d q := by
  induction s with
  | nil =>
    intro d t h
    funext q
    simp only [applyOps, List.map_nil, List.foldl_nil, List.append_nil]
    split
    · rename_i hq; rw [hq, h]
    · rfl
  | cons c s ih =>
    intro d t h
    have h1 : (Op.append p c).apply d p = some (t ++ [c]) := by simp [Op.apply, h]
    have := ih ((Op.append p c).apply d) (t ++ [c]) h1
    simp only [applyOps, List.map_cons, List.foldl_cons] at this ⊢
    rw [this]
    funext q
    split
    · simp
    · rename_i hq; simp [Op.apply, hq]

theorem applyOps_writeOps (d : Disk) (p : Path) (s : Str) :
    applyOps d (writeOps p s) = fun q => if q = p then some s else d q := by
  have h : (Op.trunc p).apply d p = some [] := by simp [Op.apply]
  have := applyOps_appends p s _ _ h
  simp only [writeOps, applyOps, List.foldl_cons] at this ⊢
  rw [this]
  funext q
  split
  · simp
  · rename_i hq; simp [Op.apply, hq]

/-! ## One file -/

/-- the two cases in which a file is processed without an exception -/
theorem stepFile_ok {F : Formatter} {cw : Path → Bool} {args : Args} {w : Width} {r r' : Run} {i o : Path} {b : Bool}
    (h : stepFile F cw args w r i o = (r', .ok b)) :
    ∃ old new, readText r.disk i = .ok old ∧ F.full w old = .ok new ∧ (b = true ↔ new ≠ old) ∧
      ((r'.disk = r.disk ∧ r'.ops = r.ops ∧ ((new ≠ old ∧ args.check = true) ∨ (new = old ∧ o = i))) ∨
       (r'.disk = applyOps r.disk (writeOps o new) ∧ r'.ops = r.ops ++ writeOps o new ∧
         ((new ≠ old ∧ args.check = false) ∨ (new = old ∧ o ≠ i)))) := by
  unfold stepFile at h
  cases hr : readText r.disk i with
  | error e => rw [hr] at h; cases h
  | ok old =>
    rw [hr] at h
    simp only at h
    cases hf : F.full w old with
    | error e =>
      rw [hf] at h
      simp only at h
      split at h
      · split at h
        · split at h
          · cases h
          · cases h
        · cases h
      · cases h
    | ok new =>
      rw [hf] at h
      simp only at h
      refine ⟨old, new, rfl, hf, ?_⟩
      by_cases hne : new = old
      · subst hne
        simp only [bne_self_eq_false, Bool.false_eq_true, if_false] at h
        by_cases hio : o = i
        · subst hio
          simp only [bne_self_eq_false, Bool.false_eq_true, if_false, Prod.mk.injEq, Except.ok.injEq] at h
          obtain ⟨rfl, rfl⟩ := h
          simp
        · have hio' : (o != i) = true := by simpa using hio
          simp only [hio', if_true, doWrite] at h
          by_cases hcw : cw o = true
          · simp only [hcw, if_true, Prod.mk.injEq, Except.ok.injEq] at h
            obtain ⟨rfl, rfl⟩ := h
            simp [hio]
          · simp [hcw] at h
      · have hne' : (new != old) = true := by simpa using hne
        simp only [hne', if_true] at h
        by_cases hc : args.check = true
        · simp only [hc, Bool.not_true, Bool.false_eq_true, if_false, Prod.mk.injEq, Except.ok.injEq] at h
          obtain ⟨rfl, rfl⟩ := h
          simp [hne, hc, say]
        · have hc' : args.check = false := Bool.eq_false_iff.2 hc
          simp only [hc', Bool.not_false, if_true, doWrite] at h
          by_cases hcw : cw o = true
          · simp only [hcw, if_true, Prod.mk.injEq, Except.ok.injEq] at h
            obtain ⟨rfl, rfl⟩ := h
            simp [hne, hc', say]
          · simp [hcw] at h

/-! ## C35 -/

theorem zip_self {α : Type} (l : List α) : ∀ p ∈ l.zip l, p.1 = p.2 := by
  induction l with
  | nil => intro p hp; cases hp
  | cons x l ih =>
    intro p hp
    rcases List.mem_cons.1 hp with rfl | hp
    · rfl
    · exact ih p hp

theorem stepFile_check_quiet (F : Formatter) (cw : Path → Bool) (args : Args) (w : Width) (r : Run) (p : Path)
    (hc : args.check = true) (hr : args.writeRenders = false) :
    (stepFile F cw args w r p p).1.disk = r.disk ∧ (stepFile F cw args w r p p).1.ops = r.ops := by
  unfold stepFile
  cases readText r.disk p with
  | error e => exact ⟨rfl, rfl⟩
  | ok old =>
    simp only
    cases F.full w old with
    | error e =>
      simp only [hr, Bool.false_and, Bool.false_eq_true, if_false]
      split <;> exact ⟨rfl, rfl⟩
    | ok new =>
      simp only [hc, Bool.not_true, Bool.false_eq_true, if_false, bne_self_eq_false]
      split <;> exact ⟨rfl, rfl⟩

theorem filesLoop_check_quiet (F : Formatter) (cw : Path → Bool) (args : Args) (w : Width)
    (hc : args.check = true) (hr : args.writeRenders = false) (ps : List (Path × Path)) :
    ∀ (r : Run) (a b : Nat), (∀ p ∈ ps, p.1 = p.2) →
      (filesLoop F cw args w r a b ps).1.disk = r.disk ∧ (filesLoop F cw args w r a b ps).1.ops = r.ops := by
  induction ps with
  | nil => intro r a b _; exact ⟨rfl, rfl⟩
  | cons p ps ih =>
    intro r a b hps
    obtain ⟨i, o⟩ := p
    have hio : i = o := hps (i, o) (by simp)
    subst hio
    have hq := stepFile_check_quiet F cw args w r i hc hr
    unfold filesLoop
    cases hs : stepFile F cw args w r i i with
    | mk r' res =>
      rw [hs] at hq
      simp only at hq
      cases res with
      | error e => exact hq
      | ok bb =>
        have := fun a b => ih r' a b (fun p hp => hps p (by simp [hp]))
        cases bb
        · simp only; exact ⟨(this _ _).1.trans hq.1, (this _ _).2.trans hq.2⟩
        · simp only; exact ⟨(this _ _).1.trans hq.1, (this _ _).2.trans hq.2⟩

/-- C35: with `--check` and no output option (`--output-dir`, `--output-file`, `--write-renders`) a run performs no
file system write at all, whatever happens in it, so every file keeps its content. -/
theorem C35_check_writes_nothing (F : Formatter) (cw : Path → Bool) (args : Args) (stdin : Option Str) (d : Disk)
    (hc : args.check = true) (hd : args.outputDirectory = none) (hf : args.outputFiles = [])
    (hr : args.writeRenders = false) :
    (mainRun F cw args stdin d).1.ops = [] ∧ (mainRun F cw args stdin d).1.disk = d := by
  unfold mainRun
  simp only
  split
  · cases stdin with
    | none => exact ⟨rfl, rfl⟩
    | some t =>
      simp only [reformatStdin]
      split
      · simp [hr]
      · simp only [hc, if_true]
        split <;> exact ⟨rfl, rfl⟩
  · have hout : outputPaths args = args.paths := by simp [outputPaths, hd, hf]
    have hq := filesLoop_check_quiet F cw args (mainWidth args.lineLength) hc hr (args.paths.zip (outputPaths args))
      { disk := d, ops := [], out := [] } 0 0 (by rw [hout]; exact zip_self _)
    unfold reformatFiles
    cases hl : filesLoop F cw args (mainWidth args.lineLength) { disk := d, ops := [], out := [] } 0 0
        (args.paths.zip (outputPaths args)) with
    | mk r res =>
      rw [hl] at hq
      cases res with
      | error e => exact ⟨hq.2, hq.1⟩
      | ok cu => exact ⟨hq.2, hq.1⟩

/-! ## Runs that write -/

/-- What happens to the file system when all files are processed without `--check`, provided no output is read or
written again later. -/
theorem filesLoop_final {F : Formatter} {cw : Path → Bool} {args : Args} {w : Width} (hc : args.check = false)
    (ps : List (Path × Path)) : ∀ {r r' : Run} {a b a' b' : Nat},
      ps.Pairwise (fun x y => x.2 ≠ y.1 ∧ x.2 ≠ y.2) →
      filesLoop F cw args w r a b ps = (r', .ok (a', b')) →
      (∀ p ∈ ps, ∃ old new, readText r.disk p.1 = .ok old ∧ F.full w old = .ok new ∧
        r'.disk p.2 = if new = old ∧ p.2 = p.1 then r.disk p.2 else some new) ∧
      (∀ q, (∀ p ∈ ps, q ≠ p.2) → r'.disk q = r.disk q) := by
  induction ps with
  | nil =>
    intro r r' a b a' b' _ h
    simp only [filesLoop, Prod.mk.injEq] at h
    obtain ⟨rfl, _⟩ := h
    exact ⟨(by intro p hp; cases hp), fun _ _ => rfl⟩
  | cons p ps ih =>
    intro r r' a b a' b' hpw h
    obtain ⟨i, o⟩ := p
    rw [List.pairwise_cons] at hpw
    obtain ⟨hpw1, hpw2⟩ := hpw
    unfold filesLoop at h
    cases hs : stepFile F cw args w r i o with
    | mk r1 res =>
      rw [hs] at h
      cases res with
      | error e => cases h
      | ok bb =>
        obtain ⟨old, new, hread, hfull, _, hcases⟩ := stepFile_ok hs
        have hrest : ∃ a2 b2, filesLoop F cw args w r1 a2 b2 ps = (r', .ok (a', b')) := by
          cases bb <;> exact ⟨_, _, h⟩
        obtain ⟨a2, b2, hrest⟩ := hrest
        obtain ⟨ih1, ih2⟩ := ih hpw2 hrest
        -- disk after the first step
        have hd1 : ∀ q, q ≠ o → r1.disk q = r.disk q := by
          intro q hq
          rcases hcases with ⟨h1, _, _⟩ | ⟨h1, _, _⟩
          · rw [h1]
          · rw [h1, applyOps_writeOps]; simp [hq]
        have hdo : r1.disk o = if new = old ∧ o = i then r.disk o else some new := by
          rcases hcases with ⟨h1, _, h2⟩ | ⟨h1, _, h2⟩
          · rcases h2 with ⟨_, h2⟩ | h2
            · rw [hc] at h2; cases h2
            · rw [h1, if_pos h2]
          · have : ¬ (new = old ∧ o = i) := by
              rintro ⟨e1, e2⟩
              rcases h2 with ⟨h2, _⟩ | ⟨_, h2⟩
              · exact h2 e1
              · exact h2 e2
            rw [h1, applyOps_writeOps, if_neg this]; simp
        refine ⟨?_, ?_⟩
        · intro p hp
          rcases List.mem_cons.1 hp with rfl | hp
          · refine ⟨old, new, hread, hfull, ?_⟩
            rw [ih2 o (fun p hp => (hpw1 p hp).2), hdo]
          · obtain ⟨old', new', h1, h2, h3⟩ := ih1 p hp
            have e1 : r1.disk p.1 = r.disk p.1 := hd1 _ (fun h0 => (hpw1 p hp).1 h0.symm)
            have e2 : r1.disk p.2 = r.disk p.2 := hd1 _ (fun h0 => (hpw1 p hp).2 h0.symm)
            refine ⟨old', new', ?_, h2, ?_⟩
            · unfold readText at h1 ⊢; rw [← e1]; exact h1
            · rw [h3, e2]
        · intro q hq
          rw [ih2 q (fun p hp => hq p (by simp [hp])), hd1 q (hq (i, o) (by simp))]

theorem zip_self_pairwise {α : Type} {l : List α} (h : l.Nodup) :
    (l.zip l).Pairwise (fun x y => x.2 ≠ y.1 ∧ x.2 ≠ y.2) := by
  induction l with
  | nil => exact List.Pairwise.nil
  | cons x l ih =>
    rw [List.nodup_cons] at h
    simp only [List.zip_cons_cons, List.pairwise_cons]
    refine ⟨?_, ih h.2⟩
    intro p hp
    have := List.of_mem_zip (a := p.1) (b := p.2) hp
    exact ⟨fun h0 => h.1 (by rw [h0]; exact this.1), fun h0 => h.1 (by rw [h0]; exact this.2)⟩

theorem reformatFiles_ok {F : Formatter} {cw : Path → Bool} {args : Args} {w : Width} {d : Disk} {r : Run} {n : Nat}
    (h : reformatFiles F cw args w d = (r, .ok n)) :
    ∃ r0 a b, filesLoop F cw args w { disk := d, ops := [], out := [] } 0 0 (args.paths.zip (outputPaths args)) =
      (r0, .ok (a, b)) ∧ r.disk = r0.disk ∧ r.ops = r0.ops ∧ n = (if args.check && a != 0 then 1 else 0) := by
  unfold reformatFiles at h
  cases hl : filesLoop F cw args w { disk := d, ops := [], out := [] } 0 0 (args.paths.zip (outputPaths args)) with
  | mk r0 res =>
    rw [hl] at h
    cases res with
    | error e => cases h
    | ok cu =>
      simp only [Prod.mk.injEq, Except.ok.injEq] at h
      obtain ⟨rfl, rfl⟩ := h
      exact ⟨r0, cu.1, cu.2, rfl, rfl, rfl, rfl⟩

/-- C37 for lists without duplicates: a successful run in place sets each file whose formatted text differs from what
was read to that text, leaves the other given files and all other paths alone. Missing from the full claim: lists with
duplicates, for which it is false (`C37_duplicates_differ`). -/
theorem C37_only_changed_rewritten_partial (F : Formatter) (cw : Path → Bool) (args : Args) (stdin : Option Str)
    (d : Disk) (r : Run) (n : Nat) (hne : args.paths ≠ []) (hnd : args.paths.Nodup) (hc : args.check = false)
    (hd : args.outputDirectory = none) (hf : args.outputFiles = [])
    (h : mainRun F cw args stdin d = (r, .ok n)) :
    (∀ p ∈ args.paths, ∃ raw new, d p = some raw ∧
      F.full (mainWidth args.lineLength) (univNewlines raw) = .ok new ∧
      r.disk p = some (if new = univNewlines raw then raw else new)) ∧
    (∀ q, q ∉ args.paths → r.disk q = d q) := by
  have hempty : args.paths.isEmpty = false := by cases hp : args.paths with
    | nil => exact absurd hp hne
    | cons x xs => rfl
  have hout : outputPaths args = args.paths := by simp [outputPaths, hd, hf]
  simp only [mainRun, hempty, Bool.false_eq_true, if_false] at h
  obtain ⟨r0, a, b, hl, hdisk, _, _⟩ := reformatFiles_ok h
  rw [hout] at hl
  obtain ⟨h1, h2⟩ := filesLoop_final hc _ (zip_self_pairwise hnd) hl
  rw [hdisk]
  refine ⟨?_, ?_⟩
  · intro p hp
    have hpp : (p, p) ∈ args.paths.zip args.paths := by
      clear hl h1 h2 hnd hne hempty h hout
      generalize args.paths = l at hp
      induction l with
      | nil => cases hp
      | cons x l ih =>
        rcases List.mem_cons.1 hp with rfl | hp
        · simp
        · simp only [List.zip_cons_cons, List.mem_cons]; exact .inr (ih hp)
    obtain ⟨old, new, hr, hfu, hfin⟩ := h1 _ hpp
    simp only [readText] at hr
    cases hdp : d p with
    | none => rw [hdp] at hr; cases hr
    | some raw =>
      rw [hdp] at hr
      simp only [Except.ok.injEq] at hr
      subst hr
      refine ⟨raw, new, rfl, hfu, ?_⟩
      rw [hfin]
      simp only [and_true, hdp]
      split <;> rfl
  · intro q hq
    refine h2 q ?_
    rintro ⟨i, o⟩ hp h0
    exact hq (by rw [h0]; exact (List.of_mem_zip hp).2)

/-! ## C36 -/

/-- the file's formatted text differs from what is read from it -/
def Changes (F : Formatter) (w : Width) (d : Disk) (p : Path) : Prop :=
  ∃ old new, readText d p = .ok old ∧ F.full w old = .ok new ∧ new ≠ old

/-- Progress and counting: when all files can be read, formatted and written, and none is given twice, the loop
succeeds and the first counter grows exactly when some file changes. -/
theorem filesLoop_total {F : Formatter} {cw : Path → Bool} {args : Args} {w : Width} {d : Disk}
    (ps : List Path) : ∀ (r : Run) (a b : Nat), ps.Nodup →
      (∀ p ∈ ps, r.disk p = d p) →
      (∀ p ∈ ps, cw p = true ∧ ∃ old new, readText d p = .ok old ∧ F.full w old = .ok new) →
      ∃ r' a' b', filesLoop F cw args w r a b (ps.zip ps) = (r', .ok (a', b')) ∧ a ≤ a' ∧
        (a < a' ↔ ∃ p ∈ ps, Changes F w d p) := by
  induction ps with
  | nil => intro r a b _ _ _; exact ⟨r, a, b, rfl, Nat.le_refl _, by simp⟩
  | cons p ps ih =>
    intro r a b hnd hdisk hall
    rw [List.nodup_cons] at hnd
    obtain ⟨hcw, old, new, hread, hfull⟩ := hall p (by simp)
    have hread' : readText r.disk p = .ok old := by unfold readText; rw [hdisk p (by simp)]; exact hread
    have hstep : ∃ r1 bb, stepFile F cw args w r p p = (r1, .ok bb) := by
      simp only [stepFile, hread', hfull, doWrite, hcw, if_true, bne_self_eq_false, Bool.false_eq_true, if_false]
      by_cases hne : (new != old) = true
      · by_cases hc : args.check = true
        · simp [hne, hc]
        · simp [hne, hc]
      · simp [hne]
    obtain ⟨r1, bb, hs⟩ := hstep
    obtain ⟨old', new', hr', hf', hb, hcases⟩ := stepFile_ok hs
    rw [hread'] at hr'; cases hr'
    rw [hfull] at hf'; cases hf'
    have hdisk1 : ∀ q ∈ ps, r1.disk q = d q := by
      intro q hq
      have hqp : q ≠ p := fun h0 => hnd.1 (h0 ▸ hq)
      rw [← hdisk q (by simp [hq])]
      rcases hcases with ⟨h1, _, _⟩ | ⟨h1, _, _⟩
      · rw [h1]
      · rw [h1, applyOps_writeOps]; simp [hqp]
    have hch : Changes F w d p ↔ new ≠ old := by
      constructor
      · rintro ⟨o', n', h1, h2, h3⟩
        rw [hread] at h1; cases h1
        rw [hfull] at h2; cases h2
        exact h3
      · intro h; exact ⟨old, new, hread, hfull, h⟩
    simp only [List.zip_cons_cons, filesLoop, hs]
    have hall' := fun q hq => hall q (List.mem_cons_of_mem _ hq)
    cases bb with
    | true =>
      simp only
      obtain ⟨r', a', b', h1, h2, h3⟩ := ih r1 (a + 1) b hnd.2 hdisk1 hall'
      exact ⟨r', a', b', h1, by omega, ⟨fun _ => ⟨p, by simp, hch.2 (hb.1 rfl)⟩, fun _ => by omega⟩⟩
    | false =>
      simp only
      obtain ⟨r', a', b', h1, h2, h3⟩ := ih r1 a (b + 1) hnd.2 hdisk1 hall'
      refine ⟨r', a', b', h1, h2, ?_⟩
      rw [h3]
      constructor
      · rintro ⟨q, hq, hc⟩; exact ⟨q, by simp [hq], hc⟩
      · rintro ⟨q, hq, hc⟩
        rcases List.mem_cons.1 hq with rfl | hq
        · have := hb.2 (hch.1 hc); cases this
        · exact ⟨q, hq, hc⟩

theorem univNewlines_noCR (s : Str) : '\r' ∉ univNewlines s := by
  induction s with
  | nil => simp [univNewlines]
  | cons c s ih =>
    simp only [univNewlines]
    split
    · split
      · exact ih
      · simp [ih]
    · rename_i h
      intro hm
      rcases List.mem_cons.1 hm with h0 | h0
      · rw [← h0] at h; simp at h
      · exact ih h0

theorem univNewlines_id (s : Str) (h : '\r' ∉ s) : univNewlines s = s := by
  induction s with
  | nil => rfl
  | cons c s ih =>
    have hc : c ≠ '\r' := fun h0 => h (by simp [h0])
    simp only [univNewlines]
    rw [if_neg (by simpa using hc), ih (fun h0 => h (by simp [h0]))]

/-- C36: on distinct files that can all be read, formatted and written, `--check` exits with 1 if the same run without
`--check` would change some file's content, and with 0 if it would leave the file system as it is. The formatter is
assumed not to invent carriage returns; `C36_check_status` removes this for markflow. -/
theorem C36_check_status_any (F : Formatter) (cw : Path → Bool) (args : Args) (stdin : Option Str) (d : Disk)
    (hne : args.paths ≠ []) (hnd : args.paths.Nodup)
    (hd : args.outputDirectory = none) (hf : args.outputFiles = [])
    (hF : ∀ w s t, F.full w s = .ok t → '\r' ∉ s → '\r' ∉ t)
    (hall : ∀ p ∈ args.paths, cw p = true ∧
      ∃ old new, readText d p = .ok old ∧ F.full (mainWidth args.lineLength) old = .ok new) :
    let checked := mainRun F cw { args with check := true } stdin d
    let written := mainRun F cw { args with check := false } stdin d
    written.2 = .ok 0 ∧
    ((checked.2 = .ok 1 ∧ ∃ p ∈ args.paths, written.1.disk p ≠ d p) ∨ (checked.2 = .ok 0 ∧ written.1.disk = d)) := by
  have hempty : args.paths.isEmpty = false := by cases hp : args.paths with
    | nil => exact absurd hp hne
    | cons x xs => rfl
  intro checked written
  obtain ⟨r1, a1, b1, hl1, _, hiff1⟩ := filesLoop_total (F := F) (cw := cw) (args := { args with check := true })
    (w := mainWidth args.lineLength) (d := d) args.paths { disk := d, ops := [], out := [] } 0 0 hnd (fun _ _ => rfl) hall
  obtain ⟨r2, a2, b2, hl2, _, hiff2⟩ := filesLoop_total (F := F) (cw := cw) (args := { args with check := false })
    (w := mainWidth args.lineLength) (d := d) args.paths { disk := d, ops := [], out := [] } 0 0 hnd (fun _ _ => rfl) hall
  simp only [hd, hf] at hl1 hl2
  have hw : written = (say (say r2 c!"All done!") (summary false a2 b2), .ok 0) := by
    simp only [written, mainRun, hempty, Bool.false_eq_true, if_false, reformatFiles, outputPaths, hd, hf,
      List.isEmpty_nil, if_true, hl2, Bool.false_and]
  have hk : checked.2 = .ok (if a1 ≠ 0 then 1 else 0) := by
    simp only [checked, mainRun, hempty, Bool.false_eq_true, if_false, reformatFiles, outputPaths, hd, hf,
      List.isEmpty_nil, if_true, hl1, Bool.true_and]
    congr 1
    by_cases h0 : a1 = 0 <;> simp [h0]
  have hw2 : written.2 = .ok 0 := by rw [hw]
  refine ⟨hw2, ?_⟩
  have hwd : mainRun F cw { args with check := false } stdin d = (written.1, .ok 0) := by
    show written = _
    rw [← hw2]
  obtain ⟨h37a, h37b⟩ := C37_only_changed_rewritten_partial F cw { args with check := false } stdin d written.1 0 hne hnd
    rfl hd hf hwd
  by_cases hex : ∃ p ∈ args.paths, Changes F (mainWidth args.lineLength) d p
  · left
    have h0 : a1 ≠ 0 := by have := hiff1.2 hex; omega
    refine ⟨by rw [hk]; simp [h0], ?_⟩
    obtain ⟨p, hp, old, new, h1, h2, h3⟩ := hex
    refine ⟨p, hp, ?_⟩
    obtain ⟨raw, new', e1, e2, e3⟩ := h37a p hp
    simp only [readText, e1, Except.ok.injEq] at h1
    subst h1
    simp only at e2
    rw [h2] at e2
    cases e2
    rw [if_neg h3] at e3
    rw [e3, e1]
    intro h0
    cases h0
    have := hF _ _ _ h2 (univNewlines_noCR _)
    exact h3 (univNewlines_id _ this).symm
  · right
    have h0 : a1 = 0 := by
      rcases Nat.eq_zero_or_pos a1 with h | h
      · exact h
      · exact absurd (hiff1.1 h) hex
    refine ⟨by rw [hk]; simp [h0], ?_⟩
    funext q
    by_cases hq : q ∈ args.paths
    · obtain ⟨raw, new, e1, e2, e3⟩ := h37a q hq
      have hsame : new = univNewlines raw := by
        by_cases hne : new = univNewlines raw
        · exact hne
        · exact absurd ⟨q, hq, univNewlines raw, new, by simp [readText, e1], e2, hne⟩ hex
      rw [if_pos hsame] at e3
      rw [e3, e1]
    · exact h37b q hq

/-- C36 for markflow itself: its formatter writes no carriage return (C04). -/
theorem C36_check_status (n : Nat) (cw : Path → Bool) (args : Args) (stdin : Option Str) (d : Disk)
    (hne : args.paths ≠ []) (hnd : args.paths.Nodup)
    (hd : args.outputDirectory = none) (hf : args.outputFiles = [])
    (hall : ∀ p ∈ args.paths, cw p = true ∧
      ∃ old new, readText d p = .ok old ∧ reformatMarkdownText n (mainWidth args.lineLength) old = .ok new) :
    let checked := mainRun (markflow n) cw { args with check := true } stdin d
    let written := mainRun (markflow n) cw { args with check := false } stdin d
    written.2 = .ok 0 ∧
    ((checked.2 = .ok 1 ∧ ∃ p ∈ args.paths, written.1.disk p ≠ d p) ∨ (checked.2 = .ok 0 ∧ written.1.disk = d)) :=
  C36_check_status_any (markflow n) cw args stdin d hne hnd hd hf
    (fun w s t h _ => C04_no_other_separator n w s t h '\r' (by decide)) hall

/-! ## C38 -/

theorem filesLoop_append (F : Formatter) (cw : Path → Bool) (args : Args) (w : Width) (ps qs : List (Path × Path)) :
    ∀ (r : Run) (a b : Nat) (r' : Run) (a' b' : Nat), filesLoop F cw args w r a b ps = (r', .ok (a', b')) →
      filesLoop F cw args w r a b (ps ++ qs) = filesLoop F cw args w r' a' b' qs := by
  induction ps with
  | nil =>
    intro r a b r' a' b' h
    simp only [filesLoop, Prod.mk.injEq, Except.ok.injEq] at h
    obtain ⟨rfl, rfl, rfl⟩ := h
    rfl
  | cons p ps ih =>
    intro r a b r' a' b' h
    obtain ⟨i, o⟩ := p
    simp only [List.cons_append, filesLoop] at h ⊢
    cases hs : stepFile F cw args w r i o with
    | mk r1 res =>
      rw [hs] at h
      cases res with
      | error e => cases h
      | ok bb => cases bb <;> exact ih _ _ _ _ _ _ h

/-- C38: if reading succeeds but formatting the next file raises, the run on all the files has done to the file system
what the run on the files before it does, and ends with that error. The error names the file exactly if it is one of the
errors derived from RuntimeError. (`--write-renders` asks for two extra files on an inconsistency, see C65.) -/
theorem C38_failing_file_stops (F : Formatter) (cw : Path → Bool) (args : Args) (d : Disk) (w : Width)
    (before after : List Path) (p : Path) (r : Run) (n : Nat) (text : Str) (e : Err)
    (hpaths : args.paths = before ++ p :: after) (hf : args.outputFiles = [])
    (hr : args.writeRenders = true → e ≠ .inconsistent)
    (hbefore : reformatFiles F cw { args with paths := before } w d = (r, .ok n))
    (hread : readText r.disk p = .ok text) (hfmt : F.full w text = .error e) :
    ∃ r' named, reformatFiles F cw args w d = (r', .error (.fmt e named)) ∧ r'.disk = r.disk ∧ r'.ops = r.ops ∧
      (e ∈ [.recursion, .genStop, .runtime, .inconsistent] → named = some p) ∧
      (e ∉ [.recursion, .genStop, .runtime, .inconsistent] → named = none) := by
  obtain ⟨r0, a, b, hl, hdisk, hops, _⟩ := reformatFiles_ok hbefore
  have hargs : ∀ ps r a b, filesLoop F cw { args with paths := before } w r a b ps = filesLoop F cw args w r a b ps := by
    intro ps
    induction ps with
    | nil => intro r a b; rfl
    | cons x ps ih =>
      intro r a b
      obtain ⟨i, o⟩ := x
      have hstep : stepFile F cw { args with paths := before } w r i o = stepFile F cw args w r i o := rfl
      simp only [filesLoop, hstep]
      cases stepFile F cw args w r i o with
      | mk r1 res =>
        cases res with
        | error e => rfl
        | ok bb => cases bb <;> exact ih _ _ _
  rw [hargs] at hl
  -- the file list splits
  have hzip : ∃ o rest, args.paths.zip (outputPaths args) =
      before.zip (outputPaths { args with paths := before }) ++ (p, o) :: rest := by
    unfold outputPaths
    simp only [hpaths, hf, List.isEmpty_nil, if_true]
    cases args.outputDirectory with
    | none =>
      refine ⟨p, after.zip after, ?_⟩
      simp only
      rw [List.zip_append rfl]; rfl
    | some dir =>
      refine ⟨pathJoin dir (pathName p), after.zip (after.map fun p => pathJoin dir (pathName p)), ?_⟩
      simp only [List.map_append, List.map_cons]
      rw [List.zip_append (by simp)]; rfl
  obtain ⟨o, rest, hzip⟩ := hzip
  have hread0 : readText r0.disk p = .ok text := by rw [← hdisk]; exact hread
  have hstep : stepFile F cw args w r0 p o = (r0, .error (.fmt e (if e.isRuntimeError then some p else none))) := by
    have hr' : (args.writeRenders && e == .inconsistent) = false := by
      cases hw : args.writeRenders
      · rfl
      · simpa using hr hw
    simp only [stepFile, hread0, hfmt, hr', Bool.false_eq_true, if_false]
    split <;> rfl
  have hloop := filesLoop_append F cw args w _ ((p, o) :: rest) _ 0 0 _ _ _ hl
  refine ⟨r0, if e.isRuntimeError then some p else none, ?_, hdisk.symm, hops.symm, ?_, ?_⟩
  · unfold reformatFiles
    simp only [hzip, hloop, filesLoop, hstep]
  · intro he
    simp only [List.mem_cons, List.not_mem_nil, or_false] at he
    rcases he with rfl | rfl | rfl | rfl <;> rfl
  · intro he
    cases e <;> first | rfl | simp at he

/-! ## C39 -/

/-- the path a file system step works on -/
def Op.target : Op → Path
  | .trunc p => p
  | .append p _ => p

/-- In the middle of one `write_text` the file holds a prefix of the new text. -/
theorem writeOps_prefix (d : Disk) (p : Path) (s : Str) (ops : List Op) (h : ops <+: writeOps p s) :
    ops = [] ∨ ∃ t, t <+: s ∧ applyOps d ops = fun q => if q = p then some t else d q := by
  cases ops with
  | nil => exact .inl rfl
  | cons op ops =>
    right
    obtain ⟨rest, hrest⟩ := h
    unfold writeOps at hrest
    simp only [List.cons_append, List.cons.injEq] at hrest
    obtain ⟨rfl, hrest⟩ := hrest
    have hlen : ops.length ≤ s.length := by
      have := congrArg List.length hrest; simp at this; omega
    have hops : ops = (s.take ops.length).map (.append p) := by
      have h1 : ops = (s.map (Op.append p)).take ops.length := by rw [← hrest]; simp
      rw [← List.map_take] at h1; exact h1
    refine ⟨s.take ops.length, List.take_prefix _ _, ?_⟩
    have := applyOps_writeOps d p (s.take ops.length)
    rw [writeOps, ← hops] at this
    exact this

/-- C39 restricted to what holds, for a run in place on distinct files: killed at any point, every file holds its old
content or a prefix of its complete new content. Missing from the full claim: the prefix need not be the whole
(`C39_refuted`). -/
theorem C39_old_or_prefix_of_new_partial (F : Formatter) (cw : Path → Bool) (args : Args) (w : Width)
    (hc : args.check = false) (ps : List (Path × Path)) : ∀ (r r' : Run) (a b a' b' : Nat),
      ps.Pairwise (fun x y => x.2 ≠ y.1 ∧ x.2 ≠ y.2) →
      filesLoop F cw args w r a b ps = (r', .ok (a', b')) →
      ∃ ops, r'.ops = r.ops ++ ops ∧ r'.disk = applyOps r.disk ops ∧
        ∀ crash, crash <+: ops → ∀ q, applyOps r.disk crash q = r.disk q ∨
          ∃ t full, applyOps r.disk crash q = some t ∧ r'.disk q = some full ∧ t <+: full := by
  induction ps with
  | nil =>
    intro r r' a b a' b' _ h
    simp only [filesLoop, Prod.mk.injEq] at h
    obtain ⟨rfl, _⟩ := h
    refine ⟨[], by simp, rfl, ?_⟩
    intro crash hcr q
    have : crash = [] := by simpa using hcr
    subst this
    exact .inl rfl
  | cons p ps ih =>
    intro r r' a b a' b' hpw h
    obtain ⟨i, o⟩ := p
    rw [List.pairwise_cons] at hpw
    unfold filesLoop at h
    cases hs : stepFile F cw args w r i o with
    | mk r1 res =>
      rw [hs] at h
      cases res with
      | error e => cases h
      | ok bb =>
        have hrest : ∃ a2 b2, filesLoop F cw args w r1 a2 b2 ps = (r', .ok (a', b')) := by
          cases bb <;> exact ⟨_, _, h⟩
        obtain ⟨a2, b2, hrest⟩ := hrest
        obtain ⟨old, new, _, _, _, hcases⟩ := stepFile_ok hs
        obtain ⟨ops, ho1, ho2, ho3⟩ := ih r1 r' _ _ _ _ hpw.2 hrest
        have hkeep : r'.disk o = r1.disk o :=
          (filesLoop_final hc ps hpw.2 hrest).2 o (fun p hp => (hpw.1 p hp).2)
        rcases hcases with ⟨h1, h2, _⟩ | ⟨h1, h2, _⟩
        · refine ⟨ops, by rw [ho1, h2], by rw [ho2, h1], ?_⟩
          rw [← h1]; exact ho3
        · refine ⟨writeOps o new ++ ops, by rw [ho1, h2]; simp, by rw [ho2, h1, applyOps_append], ?_⟩
          intro crash hcr q
          by_cases hlen : crash.length ≤ (writeOps o new).length
          · have hpre : crash <+: writeOps o new :=
              List.prefix_of_prefix_length_le hcr (List.prefix_append _ _) hlen
            rcases writeOps_prefix r.disk o new crash hpre with h0 | ⟨t, ht, happ⟩
            · rw [h0]; exact .inl rfl
            · rw [happ]
              by_cases hq : q = o
              · right
                refine ⟨t, new, by simp [hq], ?_, ht⟩
                rw [hq, hkeep, h1, applyOps_writeOps]; simp
              · left; simp [hq]
          · obtain ⟨mid, hmid⟩ : writeOps o new <+: crash :=
              List.prefix_of_prefix_length_le (List.prefix_append _ _) hcr (by omega)
            have hmidpre : mid <+: ops := by
              rw [← hmid] at hcr
              exact (List.prefix_append_right_inj _).1 hcr
            rw [← hmid, applyOps_append, ← h1]
            rcases ho3 mid hmidpre q with h0 | h0
            · by_cases hq : q = o
              · right
                refine ⟨new, new, ?_, ?_, List.prefix_refl _⟩
                · rw [h0, hq, h1, applyOps_writeOps]; simp
                · rw [hq, hkeep, h1, applyOps_writeOps]; simp
              · left
                rw [h0, h1, applyOps_writeOps]; simp [hq]
            · exact .inr h0

/-- C39 is false: for every file the program rewrites there is a moment at which the file is empty, so a process
killed there loses the old text without having written the new one. -/
theorem C39_refuted (F : Formatter) (cw : Path → Bool) (args : Args) (w : Width) (r r' : Run) (p : Path) (old new : Str)
    (hread : readText r.disk p = .ok old) (hfull : F.full w old = .ok new) (hne : new ≠ old)
    (hc : args.check = false) (hstep : stepFile F cw args w r p p = (r', .ok true)) :
    ∃ crash, crash <+: (writeOps p new) ∧ r'.ops = r.ops ++ writeOps p new ∧
      applyOps r.disk crash p = some [] := by
  obtain ⟨old', new', h1, h2, _, h4⟩ := stepFile_ok hstep
  rw [hread] at h1; cases h1
  rw [hfull] at h2; cases h2
  refine ⟨[.trunc p], ⟨new.map (.append p), rfl⟩, ?_, ?_⟩
  · rcases h4 with ⟨_, _, h⟩ | ⟨_, h, _⟩
    · rcases h with ⟨_, h⟩ | ⟨h, _⟩
      · rw [hc] at h; cases h
      · exact absurd h hne
    · exact h
  · simp [applyOps, Op.apply]

/-- C39 counterexample with markflow itself: "a  b" becomes "a b", and in between the file is empty. -/
theorem C39_refuted_markflow : ∃ (d : Disk) (args : Args) (crash : List Op),
    crash <+: (mainRun (markflow 3) (fun _ => true) args none d).1.ops ∧
    d [c!"f"] = some c!"a  b\n" ∧ (mainRun (markflow 3) (fun _ => true) args none d).1.disk [c!"f"] = some c!"a b\n" ∧
    applyOps d crash [c!"f"] = some [] :=
  ⟨fun _ => some c!"a  b\n",
   { lineLength := 88, paths := [[c!"f"]], check := false, outputDirectory := none, outputFiles := [],
     writeRenders := false, logLevel := 40 }, [.trunc [c!"f"]], by decide +kernel, rfl, by decide +kernel, by decide⟩

/-! ## C40 -/

/-- C40 for inputs with different names none of which lies in the output directory: after a successful run without
`--check`, `D/name` holds the formatted text of the input called `name`, and no input has changed. Missing from the
full claim: inputs of the same name (`C40_name_collision`). -/
theorem C40_output_directory_partial (F : Formatter) (cw : Path → Bool) (args : Args) (stdin : Option Str) (d : Disk)
    (dir : Path) (r : Run) (n : Nat) (hne : args.paths ≠ []) (hc : args.check = false)
    (hd : args.outputDirectory = some dir) (hnames : (args.paths.map pathName).Nodup)
    (hdisj : ∀ p ∈ args.paths, ∀ q ∈ args.paths, pathJoin dir (pathName p) ≠ q)
    (h : mainRun F cw args stdin d = (r, .ok n)) :
    (∀ p ∈ args.paths, ∃ raw new, d p = some raw ∧
      F.full (mainWidth args.lineLength) (univNewlines raw) = .ok new ∧ r.disk (dir ++ [pathName p]) = some new) ∧
    (∀ p ∈ args.paths, r.disk p = d p) ∧
    (∀ q, (∀ p ∈ args.paths, q ≠ dir ++ [pathName p]) → r.disk q = d q) := by
  have hempty : args.paths.isEmpty = false := by cases hp : args.paths with
    | nil => exact absurd hp hne
    | cons x xs => rfl
  have hout : outputPaths args = args.paths.map fun p => pathJoin dir (pathName p) := by simp [outputPaths, hd]
  simp only [mainRun, hempty, Bool.false_eq_true, if_false] at h
  obtain ⟨r0, a, b, hl, hdisk, _, _⟩ := reformatFiles_ok h
  rw [hout] at hl
  have hzip : args.paths.zip (args.paths.map fun p => pathJoin dir (pathName p)) =
      args.paths.map fun p => (p, pathJoin dir (pathName p)) := by
    generalize args.paths = l
    induction l with
    | nil => rfl
    | cons x l ih => simp [ih]
  rw [hzip] at hl
  have hpw : (args.paths.map fun p => (p, pathJoin dir (pathName p))).Pairwise
      (fun x y => x.2 ≠ y.1 ∧ x.2 ≠ y.2) := by
    rw [List.pairwise_map]
    rw [List.nodup_iff_pairwise_ne, List.pairwise_map] at hnames
    refine hnames.imp_of_mem ?_
    intro x y hx hy hxy
    refine ⟨hdisj x hx y hy, ?_⟩
    intro h0
    apply hxy
    simpa [pathJoin] using h0
  obtain ⟨h1, h2⟩ := filesLoop_final hc _ hpw hl
  rw [hdisk]
  have hother : ∀ q, (∀ p ∈ args.paths, q ≠ dir ++ [pathName p]) → r0.disk q = d q := by
    intro q hq
    refine h2 q ?_
    intro p hp
    obtain ⟨x, hx, rfl⟩ := List.mem_map.1 hp
    exact hq x hx
  refine ⟨?_, ?_, hother⟩
  · intro p hp
    obtain ⟨old, new, hr, hfu, hfin⟩ := h1 (p, pathJoin dir (pathName p)) (List.mem_map.2 ⟨p, hp, rfl⟩)
    simp only [readText] at hr
    cases hdp : d p with
    | none => rw [hdp] at hr; cases hr
    | some raw =>
      rw [hdp] at hr
      simp only [Except.ok.injEq] at hr
      subst hr
      refine ⟨raw, new, rfl, hfu, ?_⟩
      have hneq := hdisj p hp p hp
      simp only [hneq, and_false, if_false] at hfin
      exact hfin
  · intro p hp
    exact hother p (fun q hq h0 => hdisj q hq p hp h0.symm)

/-- C40 is false for inputs of the same name: the later one overwrites the earlier one's result. -/
theorem C40_name_collision : ∃ (d : Disk) (args : Args),
    args.outputDirectory = some [c!"out"] ∧ args.paths = [[c!"x", c!"a.md"], [c!"y", c!"a.md"]] ∧
    d [c!"x", c!"a.md"] = some c!"first\n" ∧
    (mainRun (markflow 3) (fun _ => true) args none d).2 = .ok 0 ∧
    (mainRun (markflow 3) (fun _ => true) args none d).1.disk [c!"out", c!"a.md"] = some c!"second\n" :=
  ⟨fun p => if p = [c!"x", c!"a.md"] then some c!"first\n" else some c!"second\n",
   { lineLength := 88, paths := [[c!"x", c!"a.md"], [c!"y", c!"a.md"]], check := false,
     outputDirectory := some [c!"out"], outputFiles := [], writeRenders := false, logLevel := 40 },
   rfl, rfl, by decide +kernel, by decide +kernel, by decide +kernel⟩

/-- non-vacuity of C40: two inputs with different names -/
example : let d : Disk := fun p => if p = [c!"x", c!"a.md"] then some c!"a  b" else some c!"second\n"
    let r := (mainRun (markflow 3) (fun _ => true)
      { lineLength := 88, paths := [[c!"x", c!"a.md"], [c!"y", c!"b.md"]], check := false,
        outputDirectory := some [c!"out"], outputFiles := [], writeRenders := false, logLevel := 40 } none d)
    r.2 = .ok 0 ∧ r.1.disk [c!"out", c!"a.md"] = some c!"a b\n" ∧ r.1.disk [c!"out", c!"b.md"] = some c!"second\n" := by
  decide +kernel

/-- With `--output-dir` (or `--output-file`) and `--check`, a file that needs no change is still copied, so `--check`
then does write. -/
theorem C40_check_still_copies : ∃ (d : Disk) (args : Args), args.check = true ∧
    (mainRun (markflow 3) (fun _ => true) args none d).1.ops ≠ [] :=
  ⟨fun _ => some c!"a\n",
   { lineLength := 88, paths := [[c!"a.md"]], check := true, outputDirectory := some [c!"out"], outputFiles := [],
     writeRenders := false, logLevel := 40 }, rfl, by decide +kernel⟩

/-! ## C41 -/

/-- C41: with no paths and standard input not a terminal, the formatted text is what is printed (status 0); with
`--check` a verdict is printed instead and the status is 1 exactly when the text would change. If formatting raises,
that error ends the run. No file is written in any case. -/
theorem C41_stdin (F : Formatter) (cw : Path → Bool) (args : Args) (text : Str) (d : Disk) (hp : args.paths = []) :
    let res := mainRun F cw args (some text) d
    res.1.ops = [] ∧ res.1.disk = d ∧
    (∀ new, F.full (mainWidth args.lineLength) text = .ok new →
      (args.check = false → res.2 = .ok 0 ∧ res.1.out = [new]) ∧
      (args.check = true → new ≠ text → res.2 = .ok 1 ∧ res.1.out = [c!"STDIN would be reformatted."]) ∧
      (args.check = true → new = text → res.2 = .ok 0 ∧ res.1.out = [c!"STDIN would be unchanged."])) ∧
    (∀ e, F.full (mainWidth args.lineLength) text = .error e → args.writeRenders = false →
      res.2 = .error (.fmt e none) ∧ res.1.out = []) := by
  intro res
  have hres : res = reformatStdin F args (mainWidth args.lineLength) text { disk := d, ops := [], out := [] } := by
    simp [res, mainRun, hp]
  rw [hres]
  unfold reformatStdin
  cases hfu : F.full (mainWidth args.lineLength) text with
  | error e =>
    simp only
    refine ⟨?_, ?_, (by intro new h; cases h), ?_⟩
    · split
      · split
        · rfl
        · split <;> rfl
      · rfl
    · split
      · split
        · rfl
        · split <;> rfl
      · rfl
    · intro e' he hr
      cases he
      simp [hr]
  | ok new =>
    simp only
    refine ⟨?_, ?_, ?_, (by intro e h; cases h)⟩
    · split
      · split <;> rfl
      · rfl
    · split
      · split <;> rfl
      · rfl
    · intro new' he
      cases he
      refine ⟨?_, ?_, ?_⟩
      · intro hc; simp [hc, say]
      · intro hc hne; simp [hc, hne, say]
      · intro hc he; simp [hc, he, say]

/-- and with a terminal nothing is read or written -/
theorem C41_terminal (F : Formatter) (cw : Path → Bool) (args : Args) (d : Disk) (hp : args.paths = []) :
    let res := mainRun F cw args none d
    res.1.ops = [] ∧ res.1.disk = d ∧ res.2 = .ok 0 := by
  simp [mainRun, hp, say]

example : (mainRun (markflow 3) (fun _ => true)
    { lineLength := 88, paths := [], check := false, outputDirectory := none, outputFiles := [],
      writeRenders := false, logLevel := 40 } (some c!"a  b") (fun _ => none)).1.out = [c!"a b\n"] := by decide +kernel

/-! ## C37 with duplicates -/

/-- C37 is false for a list with duplicates: `markflow --line-length 8 f f` leaves in `f` something other than its
formatted text, because formatting is not idempotent. -/
theorem C37_duplicates_differ : ∃ (d : Disk) (text : Str),
    let args : Args := { lineLength := 8, paths := [[c!"f"], [c!"f"]], check := false, outputDirectory := none,
                         outputFiles := [], writeRenders := false, logLevel := 40 }
    d [c!"f"] = some text ∧
    (mainRun (markflow 3) (fun _ => true) args none d).2 = .ok 0 ∧
    ((mainRun (markflow 3) (fun _ => true) args none d).1.disk [c!"f"]).map Except.ok ≠
      some ((markflow 3).full (.fin 8) text) :=
  ⟨fun _ => some c!"[a b c d]: x\n\n", c!"[a b c d]: x\n\n", rfl, by decide +kernel, by decide +kernel⟩

/-- non-vacuity of C36 and C37: two files, one of which changes -/
example : let d : Disk := fun p => if p = [c!"a"] then some c!"a  b" else some c!"second\n"
    let args : Args := { lineLength := 88, paths := [[c!"a"], [c!"b"]], check := false, outputDirectory := none,
                         outputFiles := [], writeRenders := false, logLevel := 40 }
    (mainRun (markflow 3) (fun _ => true) args none d).2 = .ok 0 ∧
    (mainRun (markflow 3) (fun _ => true) args none d).1.disk [c!"a"] = some c!"a b\n" ∧
    (mainRun (markflow 3) (fun _ => true) { args with check := true } none d).2 = .ok 1 := by
  decide +kernel

/-- non-vacuity of C38: the second file raises, the first has been rewritten, the third is untouched -/
example : let d : Disk := fun p => if p = [c!"b"] then some c!"foo\nbar  " else some c!"a  b"
    let args : Args := { lineLength := 88, paths := [[c!"a"], [c!"b"], [c!"c"]], check := false,
                         outputDirectory := none, outputFiles := [], writeRenders := false, logLevel := 40 }
    let res := mainRun (markflow 3) (fun _ => true) args none d
    res.2 = .error (.fmt .stopIteration none) ∧ res.1.disk [c!"a"] = some c!"a b\n" ∧
    res.1.disk [c!"c"] = some c!"a  b" := by
  decide +kernel

end MF
