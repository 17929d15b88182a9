import Verif.Model.Argparse
/-!
# C42 verbosity, C43 path arguments, C44 truncation
-/

namespace MF

/-! ## C42 -/

/-- C42: the selected level always exists and is one of the five. -/
theorem C42_level_valid (v q : Nat) :
    ∃ lvl, logLevel v q = some lvl ∧ (lvl = 10 ∨ lvl = 20 ∨ lvl = 30 ∨ lvl = 40 ∨ lvl = 50) := by
  unfold logLevel verbosity loggingLevels
  have h : (max 0 (min ((3 : Int) - v + q) ((5 : Nat) - 1))).toNat < 5 := by omega
  simp only [List.length_cons, List.length_nil] at h ⊢
  generalize (max 0 (min ((3 : Int) - v + q) (((0 + 1 + 1 + 1 + 1 + 1 : Nat) : Int) - 1))).toNat = k at *
  match k, h with
  | 0, _ => exact ⟨_, rfl, by simp [DEBUG]⟩
  | 1, _ => exact ⟨_, rfl, by simp [INFO]⟩
  | 2, _ => exact ⟨_, rfl, by simp [WARNING]⟩
  | 3, _ => exact ⟨_, rfl, by simp [ERROR]⟩
  | 4, _ => exact ⟨_, rfl, by simp [CRITICAL]⟩

/-- C42: closed form of the level: 40, minus 10 for every `-v`, plus 10 for every `-q`, cut off at 10 and 50. -/
theorem C42_level_formula (v q : Nat) :
    (logLevel v q).map (Int.ofNat ·) = some (max 10 (min (40 - 10 * (v : Int) + 10 * q) 50)) := by
  obtain ⟨k, hk⟩ : ∃ k : Nat, max 0 (min ((3 : Int) - v + q) (((loggingLevels.length : Nat) : Int) - 1)) = (k : Int) :=
    ⟨_, (Int.toNat_of_nonneg (by omega)).symm⟩
  have hlen : loggingLevels.length = 5 := rfl
  unfold logLevel verbosity
  rw [hk]
  rw [hlen] at hk
  have hk5 : k < 5 := by omega
  simp only [Int.toNat_natCast]
  match k, hk5 with
  | 0, _ => simp [loggingLevels, DEBUG, INFO, WARNING, ERROR, CRITICAL]; omega
  | 1, _ => simp [loggingLevels, DEBUG, INFO, WARNING, ERROR, CRITICAL]; omega
  | 2, _ => simp [loggingLevels, DEBUG, INFO, WARNING, ERROR, CRITICAL]; omega
  | 3, _ => simp [loggingLevels, DEBUG, INFO, WARNING, ERROR, CRITICAL]; omega
  | 4, _ => simp [loggingLevels, DEBUG, INFO, WARNING, ERROR, CRITICAL]; omega

/-- C42: more `-v` never gives a higher (less verbose) level, more `-q` never a lower one. -/
theorem C42_level_monotone (v v' q q' lvl lvl' : Nat) (hv : v ≤ v') (hq : q' ≤ q) (h : logLevel v q = some lvl)
    (h' : logLevel v' q' = some lvl') : lvl' ≤ lvl := by
  have e := C42_level_formula v q
  have e' := C42_level_formula v' q'
  rw [h] at e
  rw [h'] at e'
  simp only [Option.map_some, Option.some.injEq] at e e'
  have e1 : (lvl : Int) = _ := e
  have e2 : (lvl' : Int) = _ := e'
  omega

/-- C42 at the level of `parse_args`: the level passed to `basicConfig` is the selected one. -/
theorem C42_parse_args_level (os : Os) (raw : RawArgs) (args : Args) (h : parseArgs os raw = .ok args) :
    logLevel raw.verbose raw.quiet = some args.logLevel := by
  obtain ⟨lvl, hl, _⟩ := C42_level_valid raw.verbose raw.quiet
  unfold parseArgs at h
  simp only at h
  repeat' split at h
  all_goals first | (cases h; done) | (cases h; rw [hl]; rfl)

example : logLevel 0 0 = some ERROR ∧ logLevel 7 0 = some DEBUG ∧ logLevel 2 9 = some CRITICAL ∧
    logLevel 2 0 = some INFO ∧ logLevel 1 0 = some WARNING := by decide

/-! ## C43 -/

/-- what `Directory` promises -/
def DirectoryOk (os : Os) (perms : List Perm) (mustExist : Bool) (p : Path) : Prop :=
  (os.isDir p = true ∧ ∀ perm ∈ perms, os.access p perm = true) ∨
  (os.isFile p = false ∧ os.isDir p = false ∧ os.isOther p = false ∧ mustExist = false)

/-- what `File` promises: an existing object that is not a directory, with the permissions; or nothing there yet, but
a parent directory with the permissions -/
def FileOk (os : Os) (perms : List Perm) (mustExist : Bool) (p : Path) : Prop :=
  ((os.isFile p = true ∨ os.isOther p = true) ∧ os.isDir p = false ∧ ∀ perm ∈ perms, os.access p perm = true) ∨
  (os.isFile p = false ∧ os.isDir p = false ∧ os.isOther p = false ∧ mustExist = false ∧
    os.isDir p.dropLast = true ∧ ∀ perm ∈ perms, os.access p.dropLast perm = true)

/-- C43 for `Directory`: accepted exactly when the promise holds, and then the path is returned as it is. -/
theorem C43_directory (os : Os) (perms : List Perm) (mustExist : Bool) (p : Path) :
    (DirectoryOk os perms mustExist p → directoryArg os perms mustExist p = some p) ∧
    (¬ DirectoryOk os perms mustExist p → directoryArg os perms mustExist p = none) := by
  unfold DirectoryOk directoryArg Os.exists
  have hiff : (∀ perm ∈ perms, os.access p perm = true) ↔ (perms.any fun perm => !os.access p perm) = false := by
    simp
  rw [hiff]
  generalize (perms.any fun perm => !os.access p perm) = b
  cases os.isFile p <;> cases os.isDir p <;> cases os.isOther p <;> cases mustExist <;> cases b <;> simp

/-- C43 for `File`, where "a file" means anything that is not a directory. Missing from the full claim: an existing
device, socket or pipe is accepted as a file (`C43_file_accepts_devices`). -/
theorem C43_file_partial (os : Os) (perms : List Perm) (mustExist : Bool) (p : Path) :
    (FileOk os perms mustExist p → fileArg os perms mustExist p = some p) ∧
    (¬ FileOk os perms mustExist p → fileArg os perms mustExist p = none) := by
  unfold FileOk fileArg Os.exists pathParent
  have hiff : ∀ q, (∀ perm ∈ perms, os.access q perm = true) ↔ (perms.any fun perm => !os.access q perm) = false := by
    intro q; simp
  rw [hiff, hiff]
  generalize (perms.any fun perm => !os.access p perm) = b
  generalize (perms.any fun perm => !os.access p.dropLast perm) = b'
  cases os.isFile p <;> cases os.isDir p <;> cases os.isOther p <;> cases mustExist <;>
    cases os.isDir p.dropLast <;> cases b <;> cases b' <;> simp

/-- C43 for `ExistingPath` as far as existence goes. Missing from the full claim: the permissions
(`C43_existing_path_ignores_permissions`). -/
theorem C43_existing_path_partial (os : Os) (perms : List Perm) (p : Path) :
    ((os.isFile p = true ∨ os.isDir p = true ∨ os.isOther p = true) → existingPath os perms p = some p) ∧
    ((os.isFile p = false ∧ os.isDir p = false ∧ os.isOther p = false) → existingPath os perms p = none) := by
  unfold existingPath Os.exists
  cases os.isFile p <;> cases os.isDir p <;> cases os.isOther p <;> simp

/-- C43 is false for `ExistingPath`: it accepts a path without the requested permissions. -/
theorem C43_existing_path_ignores_permissions : ∃ (os : Os) (p : Path), os.access p .read = false ∧
    existingPath os [.read] p = some p :=
  ⟨⟨fun _ => true, fun _ => false, fun _ => false, fun _ _ => false, fun _ => []⟩, [c!"a.md"], rfl, rfl⟩

/-- C43 is false for `File` if a file is a regular file: other objects are accepted. -/
theorem C43_file_accepts_devices : ∃ (os : Os) (p : Path), os.isFile p = false ∧ os.exists p = true ∧
    fileArg os [.write] true p = some p :=
  ⟨⟨fun _ => false, fun _ => false, fun _ => true, fun _ _ => true, fun _ => []⟩, [c!"null"], rfl, rfl, rfl⟩

/-- What `parse_args` guarantees about the paths it returns when the files are to be written in place: each is an
existing object that is writable and not a directory, or does not exist but could be created. -/
theorem C43_parse_args_paths (os : Os) (raw : RawArgs) (args : Args) (h : parseArgs os raw = .ok args)
    (hc : raw.check = false) (ho : raw.outputDirectory = none) (hf : raw.outputFiles = []) :
    ∀ p ∈ args.paths, FileOk os [.write] false p := by
  intro p hp
  by_cases hok : FileOk os [.write] false p
  · exact hok
  · exfalso
    have hnone := (C43_file_partial os [.write] false p).2 hok
    have hpaths : args.paths = expandPaths os raw.paths := by
      unfold parseArgs at h
      simp only at h
      repeat' split at h
      all_goals first | (cases h; done) | (cases h; rfl)
    rw [hpaths] at hp
    have hany : ((expandPaths os raw.paths).any fun p => (fileArg os [.write] false p).isNone) = true := by
      rw [List.any_eq_true]; exact ⟨p, hp, by rw [hnone]; rfl⟩
    unfold parseArgs at h
    simp only [hc, ho, hf, hany] at h
    repeat' split at h
    all_goals first | (cases h; done) | simp_all

/-! ## C44 -/

/-- C44: length of the result. -/
theorem C44_truncate_length (s : Str) (n : Nat) : (truncateStr s n).length = min s.length n := by
  unfold truncateStr
  split
  · omega
  · split
    · simp; omega
    · rename_i h1 h2
      simp only [ellipsis, List.length_cons, List.length_nil, List.length_append, List.length_take] at *
      omega

/-- C44: unchanged when it fits, else a prefix and dots; at least three dots whenever the bound allows. -/
theorem C44_truncate_shape (s : Str) (n : Nat) :
    (s.length ≤ n → truncateStr s n = s) ∧
    (n < s.length → ∃ k, truncateStr s n = s.take (n - k) ++ List.replicate k '.' ∧ k = min n 3) := by
  constructor
  · intro h; unfold truncateStr; rw [if_pos h]
  · intro h
    refine ⟨min n 3, ?_, rfl⟩
    unfold truncateStr
    rw [if_neg (by omega)]
    have he : ellipsis.length = 3 := rfl
    split
    · rename_i h2
      rw [he] at h2
      have : min n 3 = n := by omega
      rw [this]; simp
    · rename_i h2
      rw [he] at h2
      have : min n 3 = 3 := by omega
      simp [this, ellipsis, List.replicate]

example : truncateStr c!"abcdefgh" 6 = c!"abc..." ∧ truncateStr c!"abcdefgh" 2 = c!".." := by decide

end MF
