import Verif.Props.Version
import Verif.Props.Args
/-!
# C62 which arguments are accepted, C63 the line length
-/

namespace MF

/-! ## C62 -/

/-- What the given paths stand for: a file for itself, anything else for the Markdown files below it, in order. -/
inductive Expands (os : Os) : List Path → List Path → Prop where
  | nil : Expands os [] []
  | file {p ps qs} : os.isFile p = true → Expands os ps qs → Expands os (p :: ps) (p :: qs)
  | under {p ps qs} : os.isFile p = false → Expands os ps qs → Expands os (p :: ps) (os.glob p ++ qs)

/-- Every single option value is acceptable, and no two exclude each other. -/
structure ValuesOk (os : Os) (raw : RawArgs) : Prop where
  paths : ∀ p ∈ raw.paths, os.isFile p = true ∨ os.isDir p = true ∨ os.isOther p = true
  directory : ∀ p, raw.outputDirectory = some p → os.isDir p = true ∧ os.access p .write = true
  files : ∀ p ∈ raw.outputFiles, FileOk os [.write] false p
  one : raw.outputDirectory = none ∨ raw.outputFiles = []

/-- The files `qs` that the paths stand for go with the other options: as many output files as files, and files that
would be written in place can be written. -/
structure FilesOk (os : Os) (raw : RawArgs) (qs : List Path) : Prop where
  nohelp : raw.developerHelp = false
  count : raw.outputFiles ≠ [] → raw.outputFiles.length = qs.length
  inplace : raw.outputFiles = [] → raw.outputDirectory = none → raw.check = false → ∀ p ∈ qs, FileOk os [.write] false p

theorem expands_iff {os : Os} {vs qs : List Path} : Expands os vs qs ↔ expandPaths os vs = qs := by
  constructor
  · intro h
    induction h with
    | nil => rfl
    | file h _ ih => simp only [expandPaths, List.flatMap_cons, h, if_true] at ih ⊢; rw [ih]; rfl
    | under h _ ih => simp only [expandPaths, List.flatMap_cons, h] at ih ⊢; rw [ih]; rfl
  · intro h
    subst h
    induction vs with
    | nil => exact .nil
    | cons v vs ih =>
      simp only [expandPaths, List.flatMap_cons] at ih ⊢
      cases hv : os.isFile v with
      | true => simpa using Expands.file hv ih
      | false => simpa using Expands.under hv ih

theorem fileArg_isNone {os : Os} {p : Path} : (fileArg os [.write] false p).isNone = false ↔ FileOk os [.write] false p := by
  have := C43_file_partial os [.write] false p
  by_cases h : FileOk os [.write] false p
  · simp [this.1 h, h]
  · simp [this.2 h, h]

theorem ok_iff {os : Os} {raw : RawArgs} :
    ValuesOk os raw ↔
      (raw.paths.any fun p => (existingPath os [.read] p).isNone) = false ∧
      (raw.outputDirectory.any fun p => (directoryArg os [.write] true p).isNone) = false ∧
      (raw.outputFiles.any fun p => (fileArg os [.write] false p).isNone) = false ∧
      (raw.outputDirectory.isSome && !raw.outputFiles.isEmpty) = false := by
  have h1 : (∀ p ∈ raw.paths, os.isFile p = true ∨ os.isDir p = true ∨ os.isOther p = true) ↔
      (raw.paths.any fun p => (existingPath os [.read] p).isNone) = false := by
    rw [List.any_eq_false]
    refine forall_congr' fun p => forall_congr' fun _ => ?_
    unfold existingPath Os.exists
    cases os.isFile p <;> cases os.isDir p <;> cases os.isOther p <;> simp
  have h2 : (∀ p, raw.outputDirectory = some p → os.isDir p = true ∧ os.access p .write = true) ↔
      (raw.outputDirectory.any fun p => (directoryArg os [.write] true p).isNone) = false := by
    cases raw.outputDirectory with
    | none => simp
    | some p =>
      simp only [Option.some.injEq, forall_eq', Option.any_some, directoryArg, Os.exists]
      cases os.isFile p <;> cases os.isDir p <;> cases os.isOther p <;> cases h : os.access p .write <;> simp [h]
  have h3 : (∀ p ∈ raw.outputFiles, FileOk os [.write] false p) ↔
      (raw.outputFiles.any fun p => (fileArg os [.write] false p).isNone) = false := by
    rw [List.any_eq_false]
    refine forall_congr' fun p => forall_congr' fun _ => ?_
    rw [← fileArg_isNone]
    cases fileArg os [.write] false p <;> simp
  have h4 : (raw.outputDirectory = none ∨ raw.outputFiles = []) ↔
      (raw.outputDirectory.isSome && !raw.outputFiles.isEmpty) = false := by
    cases raw.outputDirectory <;> cases raw.outputFiles <;> simp
  rw [← h1, ← h2, ← h3, ← h4]
  exact ⟨fun h => ⟨h.paths, h.directory, h.files, h.one⟩, fun ⟨a, b, c, d⟩ => ⟨a, b, c, d⟩⟩

theorem files_iff {os : Os} {raw : RawArgs} {qs : List Path} :
    FilesOk os raw qs ↔
      raw.developerHelp = false ∧
      (!raw.outputFiles.isEmpty && qs.length != raw.outputFiles.length) = false ∧
      (raw.outputFiles.isEmpty && raw.outputDirectory.isNone && !raw.check &&
        qs.any fun p => (fileArg os [.write] false p).isNone) = false := by
  have h2 : (raw.outputFiles ≠ [] → raw.outputFiles.length = qs.length) ↔
      (!raw.outputFiles.isEmpty && qs.length != raw.outputFiles.length) = false := by
    cases raw.outputFiles with
    | nil => simp
    | cons a l =>
      simp only [ne_eq, reduceCtorEq, not_false_eq_true, forall_const, List.isEmpty_cons, Bool.not_false, Bool.true_and,
        bne_eq_false_iff_eq]
      exact eq_comm
  have h3 : (raw.outputFiles = [] → raw.outputDirectory = none → raw.check = false →
        ∀ p ∈ qs, FileOk os [.write] false p) ↔
      (raw.outputFiles.isEmpty && raw.outputDirectory.isNone && !raw.check &&
        qs.any fun p => (fileArg os [.write] false p).isNone) = false := by
    have h : (∀ p ∈ qs, FileOk os [.write] false p) ↔ (qs.any fun p => (fileArg os [.write] false p).isNone) = false := by
      rw [List.any_eq_false]
      refine forall_congr' fun p => forall_congr' fun _ => ?_
      rw [← fileArg_isNone]
      cases fileArg os [.write] false p <;> simp
    rw [h]
    generalize (qs.any fun p => (fileArg os [.write] false p).isNone) = b
    cases raw.outputFiles <;> cases raw.outputDirectory <;> cases raw.check <;> cases b <;> simp
  rw [← h2, ← h3]
  exact ⟨fun h => ⟨h.nohelp, h.count, h.inplace⟩, fun ⟨a, b, c⟩ => ⟨a, b, c⟩⟩

/-- C62: arguments are accepted exactly when every value is, and the files go with the options; what is returned is
then determined. -/
theorem C62_accepted (os : Os) (raw : RawArgs) (args : Args) :
    parseArgs os raw = .ok args ↔
      ValuesOk os raw ∧ Expands os raw.paths args.paths ∧ FilesOk os raw args.paths ∧
      args.lineLength = raw.lineLength ∧ args.check = raw.check ∧ args.outputDirectory = raw.outputDirectory ∧
      args.outputFiles = raw.outputFiles ∧ args.writeRenders = raw.writeRenders ∧
      logLevel raw.verbose raw.quiet = some args.logLevel := by
  constructor
  · intro h
    have hl := C42_parse_args_level os raw args h
    unfold parseArgs at h
    simp only at h
    repeat' split at h
    all_goals first
      | (cases h; done)
      | (cases h
         refine ⟨ok_iff.2 ⟨by simp_all, by simp_all, by simp_all, by simp_all⟩, expands_iff.2 rfl,
           files_iff.2 ⟨by simp_all, by simp_all, by simp_all⟩, rfl, rfl, rfl, rfl, rfl, hl⟩)
  · intro ⟨h1, h2, h3, e1, e2, e3, e4, e5, hl⟩
    rw [ok_iff] at h1
    rw [expands_iff] at h2
    rw [← h2, files_iff] at h3
    obtain ⟨a1, a2, a3, a4⟩ := h1
    obtain ⟨b1, b2, b3⟩ := h3
    obtain ⟨x1, x2, x3, x4, x5, x6, x7⟩ := args
    simp only at h2 e1 e2 e3 e4 e5 hl
    subst e1 e2 e3 e4 e5 h2
    unfold parseArgs
    simp only [a1, a2, a3, a4, b1, b2, b3, hl, Bool.false_eq_true, if_false, Option.getD_some]

/-- C62: a refused option value ends the program with status 2, everything else with -1. -/
theorem C62_refused (os : Os) (raw : RawArgs) (n : Int) :
    parseArgs os raw = .error n ↔
      (n = 2 ∧ ¬ ValuesOk os raw) ∨
      (n = -1 ∧ ValuesOk os raw ∧ ∀ qs, Expands os raw.paths qs → ¬ FilesOk os raw qs) := by
  constructor
  · intro h
    by_cases hv : ValuesOk os raw
    · refine .inr ⟨?_, hv, fun qs hq hf => ?_⟩
      · rw [ok_iff] at hv
        obtain ⟨a1, a2, a3, a4⟩ := hv
        unfold parseArgs at h
        simp only [a1, a2, a3, a4, Bool.false_eq_true, if_false] at h
        repeat' split at h
        all_goals cases h <;> rfl
      · obtain ⟨lvl, hl, _⟩ := C42_level_valid raw.verbose raw.quiet
        have := (C62_accepted os raw ⟨raw.lineLength, qs, raw.check, raw.outputDirectory, raw.outputFiles,
          raw.writeRenders, lvl⟩).2 ⟨hv, hq, hf, rfl, rfl, rfl, rfl, rfl, hl⟩
        rw [h] at this
        cases this
    · refine .inl ⟨?_, hv⟩
      rcases parseArgs_error h with hn | hn
      · exact hn
      · exfalso
        subst hn
        apply hv
        unfold parseArgs at h
        simp only at h
        repeat' split at h
        all_goals first
          | (cases h; done)
          | exact ok_iff.2 ⟨by simp_all, by simp_all, by simp_all, by simp_all⟩
  · intro h
    cases hp : parseArgs os raw with
    | ok args =>
      obtain ⟨h1, h2, h3, _⟩ := (C62_accepted os raw args).1 hp
      rcases h with ⟨_, h⟩ | ⟨_, _, h⟩
      · exact absurd h1 h
      · exact absurd h3 (h _ h2)
    | error m =>
      rcases h with ⟨rfl, h⟩ | ⟨rfl, h, _⟩
      · rcases parseArgs_error hp with rfl | rfl
        · rfl
        · exfalso
          apply h
          unfold parseArgs at hp
          simp only at hp
          repeat' split at hp
          all_goals first
            | (cases hp; done)
            | exact ok_iff.2 ⟨by simp_all, by simp_all, by simp_all, by simp_all⟩
      · rw [ok_iff] at h
        obtain ⟨a1, a2, a3, a4⟩ := h
        unfold parseArgs at hp
        simp only [a1, a2, a3, a4, Bool.false_eq_true, if_false] at hp
        repeat' split at hp
        all_goals cases hp <;> rfl

/-- C62: a directory stands for the Markdown files below it; one output file for two files is refused -/
theorem C62_example :
    let os : Os := ⟨fun p => p == [c!"a.md"] || p == [c!"d", c!"b.md"], fun p => p == [] || p == [c!"d"],
      fun _ => false, fun _ _ => true, fun p => if p = [c!"d"] then [[c!"d", c!"b.md"]] else []⟩
    (parseArgs os { paths := [[c!"d"], [c!"a.md"]] }).toOption.map (·.paths) =
      some [[c!"d", c!"b.md"], [c!"a.md"]] ∧
    parseArgs os { paths := [[c!"d"], [c!"a.md"]], outputFiles := [[c!"o"]] } = .error (-1) ∧
    parseArgs os { paths := [[c!"e"]] } = .error 2 := by
  decide +kernel

/-- A directory without Markdown files is the same as no path at all: the program reads standard input. -/
theorem C62_empty_directory (F : Formatter) (cw : Path → Bool) (i : Install) (os : Os) (raw : RawArgs)
    (stdin : Option Str) (d : Disk) (dir : Path) (hp : raw.paths = [dir])
    (hd : os.isDir dir = true) (hn : os.isFile dir = false) (hg : os.glob dir = []) :
    program F cw i os raw stdin d = program F cw i os { raw with paths := [] } stdin d := by
  have : parseArgs os raw = parseArgs os { raw with paths := [] } := by
    unfold parseArgs
    simp only [hp, expandPaths, List.flatMap_cons, List.flatMap_nil, hn, hg, List.any_cons, List.any_nil, existingPath,
      Os.exists, hd]
    simp
  unfold program
  rw [this]

/-! ## C63 -/

/-- `F` and `G` do the same at width `w`. -/
def SameAt (F G : Formatter) (w : Width) : Prop := ∀ s, F.full w s = G.full w s ∧ F.pass w s = G.pass w s

theorem writeRenders_same {F G : Formatter} {w : Width} (h : SameAt F G w) (cw : Path → Bool) (i o : Path) (r : Run) :
    writeRenders F cw w i o r = writeRenders G cw w i o r := by
  unfold writeRenders
  simp only [fun s => (h s).2]

theorem stepFile_same {F G : Formatter} {w : Width} (h : SameAt F G w) (cw : Path → Bool) (args : Args) (i o : Path)
    (r : Run) : stepFile F cw args w r i o = stepFile G cw args w r i o := by
  unfold stepFile
  simp only [fun s => (h s).1, writeRenders_same h]

theorem filesLoop_same {F G : Formatter} {w : Width} (h : SameAt F G w) (cw : Path → Bool) (args : Args)
    (ps : List (Path × Path)) : ∀ (r : Run) (a b : Nat),
    filesLoop F cw args w r a b ps = filesLoop G cw args w r a b ps := by
  induction ps with
  | nil => intro r a b; rfl
  | cons p ps ih =>
    intro r a b
    unfold filesLoop
    simp only [stepFile_same h, ih]

theorem mainRun_same {F G : Formatter} (cw : Path → Bool) (args : Args) (h : SameAt F G (mainWidth args.lineLength))
    (stdin : Option Str) (d : Disk) : mainRun F cw args stdin d = mainRun G cw args stdin d := by
  unfold mainRun reformatFiles reformatStdin
  simp only [filesLoop_same h, fun s => (h s).1, fun s => (h s).2]

/-- C63: with a positive line length the formatter is used at exactly that width: a run does not depend on what the
formatter does at other widths. -/
theorem C63_line_length (F G : Formatter) (cw : Path → Bool) (i : Install) (os : Os) (raw : RawArgs)
    (stdin : Option Str) (d : Disk) (hl : 1 ≤ raw.lineLength) (h : SameAt F G (.fin raw.lineLength)) :
    program F cw i os raw stdin d = program G cw i os raw stdin d := by
  unfold program
  cases getVersion i with
  | error e => rfl
  | ok v =>
    simp only
    cases hp : parseArgs os raw with
    | error n => rfl
    | ok args =>
      simp only
      have he := ((C62_accepted os raw args).1 hp).2.2.2.1
      rw [mainRun_same cw args (by rw [he, mainWidth, if_neg (by omega)]; exact h)]

/-- C63: any line length below 1 means no limit, whatever the number. -/
theorem C63_no_limit (F G : Formatter) (cw : Path → Bool) (i : Install) (os : Os) (raw : RawArgs)
    (stdin : Option Str) (d : Disk) (hl : raw.lineLength < 1) (h : SameAt F G .inf) :
    program F cw i os raw stdin d = program G cw i os raw stdin d := by
  unfold program
  cases getVersion i with
  | error e => rfl
  | ok v =>
    simp only
    cases hp : parseArgs os raw with
    | error n => rfl
    | ok args =>
      simp only
      have he := ((C62_accepted os raw args).1 hp).2.2.2.1
      rw [mainRun_same cw args (by rw [he, mainWidth, if_pos hl]; exact h)]

end MF
