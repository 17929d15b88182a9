import Verif.Props.CliMore
import Verif.Props.Argv
import Verif.Props.Tree
/-!
# C92: `--check` after formatting
-/

namespace MF

/-- formatting the file at its turn would not change it -/
def Stable (F : Formatter) (w : Width) (d : Disk) (p : Path) : Prop :=
  ∃ raw, d p = some raw ∧ F.full w (univNewlines raw) = .ok (univNewlines raw)

theorem filesLoop_stable {F : Formatter} {cw : Path → Bool} {args : Args} {w : Width} {d : Disk} (l : List Path) :
    ∀ (r : Run) (a b : Nat), r.disk = d → (∀ p ∈ l, Stable F w d p) →
      ∃ b', filesLoop F cw args w r a b (l.zip l) = (r, .ok (a, b')) := by
  induction l with
  | nil => intro r a b _ _; exact ⟨b, rfl⟩
  | cons p l ih =>
    intro r a b hr h
    obtain ⟨raw, h1, h2⟩ := h p (by simp)
    obtain ⟨b', hb'⟩ := ih r a (b + 1) hr fun q hq => h q (by simp [hq])
    refine ⟨b', ?_⟩
    have hread : readText r.disk p = .ok (univNewlines raw) := by unfold readText; rw [hr, h1]
    have hs : stepFile F cw args w r p p = (r, .ok false) := by
      unfold stepFile
      simp [hread, h2]
    rw [List.zip_cons_cons]
    unfold filesLoop
    rw [hs]
    exact hb'

theorem filesLoop_zero {F : Formatter} {cw : Path → Bool} {args : Args} {w : Width} (hc : args.check = true) (l : List Path) :
    ∀ (r r' : Run) (a b a' b' : Nat), filesLoop F cw args w r a b (l.zip l) = (r', .ok (a', b')) → a ≤ a' ∧
      (a' = a → ∀ p ∈ l, Stable F w r.disk p) := by
  induction l with
  | nil =>
    intro r r' a b a' b' h
    simp only [List.zip_nil_left, filesLoop, Prod.mk.injEq, Except.ok.injEq] at h
    exact ⟨by omega, fun _ p hp => by cases hp⟩
  | cons p l ih =>
    intro r r' a b a' b' h
    rw [List.zip_cons_cons] at h
    unfold filesLoop at h
    cases hs : stepFile F cw args w r p p with
    | mk r1 res =>
      rw [hs] at h
      cases res with
      | error e => cases h
      | ok bb =>
        unfold stepFile at hs
        cases hread : readText r.disk p with
        | error e => rw [hread] at hs; cases hs
        | ok old =>
          rw [hread] at hs
          obtain ⟨raw, hraw, rfl⟩ := readText_raw hread
          simp only at hs
          cases hf : F.full w (univNewlines raw) with
          | error e =>
            rw [hf] at hs
            simp only at hs
            split at hs
            · split at hs
              · split at hs <;> cases hs
              · cases hs
            · cases hs
          | ok new =>
            rw [hf] at hs
            simp only [hc, Bool.not_true, Bool.false_eq_true, if_false, bne_self_eq_false] at hs
            split at hs
            · cases hs
              obtain ⟨h1, _⟩ := ih _ _ _ _ _ _ h
              exact ⟨by omega, fun h0 => by omega⟩
            · rename_i hne
              cases hs
              have hne : new = univNewlines raw := by simpa using hne
              subst hne
              obtain ⟨h1, h2⟩ := ih _ _ _ _ _ _ h
              refine ⟨h1, fun h0 q hq => ?_⟩
              rcases List.mem_cons.1 hq with rfl | hq
              · exact ⟨raw, hraw, hf⟩
              · exact h2 h0 q hq

/-- C92: a run with `--check` and without output options ends with status 0 exactly if no given file would be changed; then
it changes nothing. -/
theorem C92_check_zero (F : Formatter) (cw : Path → Bool) (args : Args) (stdin : Option Str) (d : Disk)
    (hne : args.paths ≠ []) (hc : args.check = true) (hd : args.outputDirectory = none) (hf : args.outputFiles = []) :
    ((mainRun F cw args stdin d).2 = .ok 0 ↔ ∀ p ∈ args.paths, Stable F (mainWidth args.lineLength) d p) ∧
    ((mainRun F cw args stdin d).2 = .ok 0 → (mainRun F cw args stdin d).1.disk = d) := by
  have hempty : args.paths.isEmpty = false := by cases hp : args.paths with
    | nil => exact absurd hp hne
    | cons x xs => rfl
  have hout : outputPaths args = args.paths := by simp [outputPaths, hd, hf]
  have h1 : (mainRun F cw args stdin d).2 = .ok 0 → ∀ p ∈ args.paths, Stable F (mainWidth args.lineLength) d p := by
    intro h
    have h' : mainRun F cw args stdin d = ((mainRun F cw args stdin d).1, .ok 0) := by rw [← h]
    simp only [mainRun, hempty, Bool.false_eq_true, if_false] at h'
    obtain ⟨r0, a, b, hl, _, _, hn⟩ := reformatFiles_ok h'
    rw [hout] at hl
    have ha : a = 0 := by
      rw [hc] at hn
      by_cases h0 : a = 0
      · exact h0
      · simp [h0] at hn
    subst ha
    exact (filesLoop_zero hc _ _ _ _ _ _ _ hl).2 rfl
  have h2 : (∀ p ∈ args.paths, Stable F (mainWidth args.lineLength) d p) →
      (mainRun F cw args stdin d).2 = .ok 0 ∧ (mainRun F cw args stdin d).1.disk = d := by
    intro h
    obtain ⟨b, hb⟩ := filesLoop_stable (F := F) (cw := cw) (args := args) (w := mainWidth args.lineLength) args.paths
      { disk := d, ops := [], out := [] } 0 0 rfl h
    simp only [mainRun, hempty, Bool.false_eq_true, if_false, reformatFiles, hout, hb]
    simp [say]
  exact ⟨⟨h1, fun h => (h2 h).1⟩, fun h => (h2 (h1 h)).2⟩

/-- The text stands for a tree that fits the width, with a budget that is large enough for it. -/
def TreeText (n : Nat) (w : Width) (text : Str) : Prop :=
  ∃ d doc, d + 1 ≤ n ∧ Reads d (splitlines text) doc ∧ WFDoc d doc ∧ wideDoc w doc = true

theorem times_stable {n : Nat} {w : Width} {k : Nat} : ∀ {raw final : Str}, Times (markflow n) w k raw final →
    reformatMarkdownText n w (univNewlines raw) = .ok (univNewlines raw) → final = raw := by
  induction k with
  | zero => intro raw final h _; cases h; rfl
  | succ k ih =>
    intro raw final h hs
    cases h with
    | succ h1 h2 =>
      rw [show (markflow n).full w (univNewlines raw) = reformatMarkdownText n w (univNewlines raw) from rfl, hs] at h1
      cases h1
      rw [if_pos rfl] at h2
      exact ih h2 hs

/-- C92: a run that ends regularly leaves files of trees so that they would not be changed again. -/
theorem tree_stable {n : Nat} {w : Width} {k : Nat} {raw final : Str} (h : Times (markflow n) w (k + 1) raw final)
    (ht : TreeText n w (univNewlines raw)) :
    reformatMarkdownText n w (univNewlines final) = .ok (univNewlines final) := by
  obtain ⟨d, doc, hn, h1, h2, h3⟩ := ht
  cases h with
  | @succ _ _ new _ hf hrest =>
    have hf : reformatMarkdownText n w (univNewlines raw) = .ok new := hf
    have hst := C54_stable d n hn w _ new doc h1 h2 h3 hf
    have hcr : '\r' ∉ new := C04_no_other_separator n w _ new hf '\r' (by decide)
    split at hrest
    · rename_i he
      rw [he] at hst
      rw [times_stable hrest hst]
      exact hst
    · have hnew : univNewlines new = new := univNewlines_id new hcr
      rw [times_stable hrest (by rw [hnew]; exact hst), hnew]
      exact hst

/-- C92 for files that stand for trees, which may be listed several times: the run with
`--check` finds nothing to change. -/
theorem C92_tree (n : Nat) (cw : Path → Bool) (args : Args) (stdin : Option Str) (d : Disk) (r : Run)
    (hne : args.paths ≠ []) (hc : args.check = false) (hd : args.outputDirectory = none) (hf : args.outputFiles = [])
    (ht : ∀ p ∈ args.paths, ∀ raw, d p = some raw → TreeText n (mainWidth args.lineLength) (univNewlines raw))
    (h : mainRun (markflow n) cw args stdin d = (r, .ok 0)) :
    (mainRun (markflow n) cw { args with check := true } stdin r.disk).2 = .ok 0 ∧
    (mainRun (markflow n) cw { args with check := true } stdin r.disk).1.disk = r.disk := by
  obtain ⟨h1, h2⟩ := C92_check_zero (markflow n) cw { args with check := true } stdin r.disk hne rfl hd hf
  have hz := h1.2 (by
    intro p hp
    obtain ⟨raw, final, hraw, hfin, htimes⟩ := (C81_listed_repeatedly _ cw args stdin d r 0 hne hc hd hf h).1 p hp
    have hcount : 0 < args.paths.count p := List.count_pos_iff.2 hp
    obtain ⟨k, hk⟩ : ∃ k, args.paths.count p = k + 1 := ⟨args.paths.count p - 1, by omega⟩
    rw [hk] at htimes
    exact ⟨final, hfin, tree_stable htimes (ht p hp raw hraw)⟩)
  exact ⟨hz, h2 hz⟩

/-- C92, exactly: for files listed once. -/
theorem C92_exact (F : Formatter) (cw : Path → Bool) (args : Args) (stdin : Option Str) (d : Disk) (r : Run)
    (hne : args.paths ≠ []) (hnd : args.paths.Nodup) (hc : args.check = false) (hd : args.outputDirectory = none)
    (hf : args.outputFiles = []) (hF : ∀ w s t, F.full w s = .ok t → '\r' ∉ t)
    (h : mainRun F cw args stdin d = (r, .ok 0)) :
    (mainRun F cw { args with check := true } stdin r.disk).2 = .ok 0 ↔
      ∀ p ∈ args.paths, ∀ raw new, d p = some raw → F.full (mainWidth args.lineLength) (univNewlines raw) = .ok new →
        F.full (mainWidth args.lineLength) new = .ok new := by
  rw [(C92_check_zero F cw { args with check := true } stdin r.disk hne rfl hd hf).1]
  have h1 := (C37_only_changed_rewritten_partial F cw args stdin d r 0 hne hnd hc hd hf h).1
  have key : ∀ p ∈ args.paths, ∀ raw new, d p = some raw → F.full (mainWidth args.lineLength) (univNewlines raw) = .ok new →
      ∃ raw', r.disk p = some raw' ∧ univNewlines raw' = new := by
    intro p hp raw new hraw hnew
    obtain ⟨raw', new', e1, e2, e3⟩ := h1 p hp
    rw [hraw] at e1; cases e1
    rw [hnew] at e2; cases e2
    refine ⟨_, e3, ?_⟩
    split
    · rename_i e; exact e.symm
    · exact univNewlines_id _ (hF _ _ _ hnew)
  constructor
  · intro hst p hp raw new hraw hnew
    obtain ⟨raw', e1, e2⟩ := key p hp raw new hraw hnew
    obtain ⟨raw2, e3, e4⟩ := hst p hp
    rw [e1] at e3; cases e3
    rw [e2] at e4
    exact e4
  · intro hall p hp
    obtain ⟨raw, new, e1, e2, _⟩ := h1 p hp
    obtain ⟨raw', e3, e4⟩ := key p hp raw new e1 e2
    refine ⟨raw', e3, ?_⟩
    rw [e4]
    exact hall p hp raw new e1 e2

/-! ## From the command line -/

/-- `--check` may be put in front of an accepted command line. -/
theorem parseArgv_check {py : PyFns} {os : Os} {argv : List Str} {raw : RawArgs} (h : parseArgv py os argv = .ok raw) :
    parseArgv py os (c!"--check" :: argv) = .ok { raw with check := true } := by
  obtain ⟨items, ps, hl, hv, rfl⟩ := (C86_accepted py os argv raw).1 h
  have hocc : Occ py [c!"--check"] [(.check, [])] := .flag (.exact (by decide)) (by decide)
  have hl' : Line py (c!"--check" :: argv) ((.check, []) :: items) ps := by
    cases hl with
    | @mk a b ps i j h1 h2 h3 =>
      have := Line.mk (.cons hocc h1) h2 h3
      simpa using this
    | @dashes a ps qs i h1 h2 =>
      have := Line.dashes (qs := qs) (.cons hocc h1) h2
      simpa using this
  rw [C86_line py os _ _ ps _ hl']
  obtain ⟨v1, v2, v3, v4, v5, v6, v7⟩ := hv
  exact ⟨⟨v1, v2, v3, v4, v5, v6, v7⟩, rfl⟩

/-- With `--check` the arguments are accepted as well. -/
theorem parseArgs_check {os : Os} {raw : RawArgs} {args : Args} (h : parseArgs os raw = .ok args) :
    parseArgs os { raw with check := true } = .ok { args with check := true } := by
  unfold parseArgs at h ⊢
  simp only at h ⊢
  split at h
  · cases h
  rename_i h1
  rw [if_neg h1]
  split at h
  · cases h
  rename_i h2
  rw [if_neg h2]
  split at h
  · cases h
  rename_i h3
  rw [if_neg h3]
  split at h
  · cases h
  rename_i h4
  rw [if_neg h4]
  split at h
  · cases h
  rename_i h5
  rw [if_neg h5]
  split at h
  · cases h
  rename_i h6
  rw [if_neg h6]
  split at h
  · cases h
  cases h
  rw [if_neg (by simp)]

theorem exitStatus_error (e : CliErr) : exitStatus (.error e) ≠ 0 := by
  unfold exitStatus
  split
  · rename_i h; cases h
  · decide
  · decide

/-- C92 for commands: if a command without output options and without `--check` ends with status 0, and its files stand for
trees, then the command with `--check` put in front ends with status 0 and changes nothing. -/
theorem C92_command (n : Nat) (cw : Path → Bool) (i : Install) (py : PyFns) (os : Os) (argv : List Str)
    (stdin : Option Str) (d : Disk) (raw : RawArgs) (args : Args) (hraw : parseArgv py os argv = .ok raw)
    (hargs : parseArgs os raw = .ok args) (hne : args.paths ≠ []) (hc : args.check = false)
    (hd : args.outputDirectory = none) (hf : args.outputFiles = [])
    (ht : ∀ p ∈ args.paths, ∀ raw, d p = some raw → TreeText n (mainWidth args.lineLength) (univNewlines raw))
    (h : (commandLine (markflow n) cw i py os argv stdin d).2 = 0) :
    let after := (commandLine (markflow n) cw i py os argv stdin d).1.disk
    (commandLine (markflow n) cw i py os (c!"--check" :: argv) stdin after).2 = 0 ∧
    (commandLine (markflow n) cw i py os (c!"--check" :: argv) stdin after).1.disk = after := by
  intro after
  have hafter : after = (commandLine (markflow n) cw i py os argv stdin d).1.disk := rfl
  clear_value after
  unfold commandLine at h hafter ⊢
  cases hv : getVersion i with
  | error e => rw [hv] at h; cases h
  | ok v =>
    rw [hv] at h hafter
    simp only [hraw, parseArgv_check hraw, program, hv, hargs, parseArgs_check hargs] at h hafter ⊢
    cases hm : mainRun (markflow n) cw args stdin d with | mk r res => ?_
    rw [hm] at h hafter
    simp only at h hafter
    subst hafter
    have hres : res = .ok 0 := by
      cases res with
      | error e => exact absurd h (exitStatus_error e)
      | ok k => simp only [exitStatus] at h; rw [h]
    subst hres
    obtain ⟨h1, h2⟩ := C92_tree n cw args stdin d r hne hc hd hf ht hm
    rw [h1, h2]
    exact ⟨rfl, rfl⟩

/-- Arguments of a run over one file with line length 8. -/
def oneFile : Args where
  lineLength := 8
  paths := [[c!"f"]]
  check := false
  outputDirectory := none
  outputFiles := []
  writeRenders := false
  logLevel := 40

/-- C92: some files would be changed again. The text that is checked, and the one that is written, differ in the blank lines at their end, and a
definition can depend on these. -/
theorem C92_not_always :
    let written := mainRun (markflow 3) (fun _ => true) oneFile none (fun _ => some c!"[a b c d]: x\n\n")
    written.2 = .ok 0 ∧ (mainRun (markflow 3) (fun _ => true) { oneFile with check := true } none written.1.disk).2 = .ok 1 := by
  decide +kernel

/-- C92: the conditions on the files are met by the example of C54, a document with lists and quotes in each other, and the
run changes it. -/
theorem C92_example : TreeText 4 (mainWidth 20) (univNewlines (pyJoin ['\n'] treeExample)) ∧
    (let args : Args := { lineLength := 20, paths := [[c!"f"], [c!"f"]], check := false, outputDirectory := none,
                          outputFiles := [], writeRenders := false, logLevel := 40 }
     let d : Disk := fun _ => some (pyJoin ['\n'] treeExample)
     (mainRun (markflow 4) (fun _ => true) args none d).2 = .ok 0 ∧
     (mainRun (markflow 4) (fun _ => true) args none d).1.disk [c!"f"] ≠ d [c!"f"] ∧
     (mainRun (markflow 4) (fun _ => true) { args with check := true } none d).2 = .ok 1) := by
  have e : splitlines (univNewlines (pyJoin ['\n'] treeExample)) = treeExample := by decide +kernel
  refine ⟨⟨3, treeExampleDoc, by decide, by rw [e]; exact C54_example_reads, C54_example_wf, by decide +kernel⟩, ?_⟩
  refine ⟨?_, ?_, ?_⟩
  · decide +kernel
  · decide +kernel
  · decide +kernel

end MF
