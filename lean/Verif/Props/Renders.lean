import Verif.Props.Accept
import Verif.Props.Cli
import Verif.Props.Errors
/-!
# C64 output files, C65 the renders
-/

namespace MF

/-! ## C64 -/

theorem zip_get {α β : Type} : ∀ {l : List α} {m : List β} {i : Nat} {a : α} {b : β}, l[i]? = some a → m[i]? = some b →
    (a, b) ∈ l.zip m := by
  intro l
  induction l with
  | nil => intro m i a b h; simp at h
  | cons x l ih =>
    intro m i a b h h'
    cases m with
    | nil => simp at h'
    | cons y m =>
      cases i with
      | zero =>
        simp only [List.getElem?_cons_zero, Option.some.injEq] at h h'
        subst h h'
        exact List.mem_cons_self ..
      | succ i =>
        simp only [List.getElem?_cons_succ] at h h'
        exact List.mem_cons_of_mem _ (ih h h')

theorem zip_pairwise {α : Type} : ∀ {l m : List α}, m.Nodup →
    (∀ (i j : Nat) p o, i < j → m[i]? = some o → l[j]? = some p → o ≠ p) →
    (l.zip m).Pairwise (fun x y => x.2 ≠ y.1 ∧ x.2 ≠ y.2) := by
  intro l
  induction l with
  | nil => intro m _ _; simp
  | cons x l ih =>
    intro m hn h
    cases m with
    | nil => simp
    | cons y m =>
      rw [List.nodup_cons] at hn
      rw [List.zip_cons_cons, List.pairwise_cons]
      refine ⟨?_, ih hn.2 (fun i j p o hij ho hp => h (i + 1) (j + 1) p o (by omega) (by simpa using ho) (by simpa using hp))⟩
      intro z hz
      have h1 := (List.of_mem_zip hz).1
      have h2 := (List.of_mem_zip hz).2
      constructor
      · obtain ⟨j, hj⟩ := List.getElem?_of_mem h1
        exact h 0 (j + 1) z.1 y (by omega) (by simp) (by simpa using hj)
      · intro h0
        simp only at h0
        exact hn.1 (h0 ▸ h2)

/-- C64: with different output files, none of which is read later as an input, the `i`-th output file holds the
formatted text of the `i`-th input after a run that ends without an exception, and nothing else changes. -/
theorem C64_output_files (F : Formatter) (cw : Path → Bool) (args : Args) (stdin : Option Str) (d : Disk) (r : Run)
    (n : Nat) (hf : args.outputFiles ≠ []) (hlen : args.outputFiles.length = args.paths.length)
    (hd : args.outputDirectory = none) (hc : args.check = false) (hnd : args.outputFiles.Nodup)
    (hlater : ∀ (i j : Nat) p o, i < j → args.outputFiles[i]? = some o → args.paths[j]? = some p → o ≠ p)
    (h : mainRun F cw args stdin d = (r, .ok n)) :
    (∀ (i : Nat) p o, args.paths[i]? = some p → args.outputFiles[i]? = some o → ∃ raw new, d p = some raw ∧
      F.full (mainWidth args.lineLength) (univNewlines raw) = .ok new ∧
      r.disk o = some (if o = p ∧ new = univNewlines raw then raw else new)) ∧
    (∀ q, q ∉ args.outputFiles → r.disk q = d q) := by
  have hempty : args.paths.isEmpty = false := by
    cases hp : args.paths with
    | nil =>
      rw [hp] at hlen
      exact absurd (List.length_eq_zero_iff.1 hlen) hf
    | cons x xs => rfl
  have hout : outputPaths args = args.outputFiles := by simp [outputPaths, hd, hf]
  simp only [mainRun, hempty, Bool.false_eq_true, if_false] at h
  obtain ⟨r0, a, b, hl, hdisk, _, _⟩ := reformatFiles_ok h
  rw [hout] at hl
  obtain ⟨h1, h2⟩ := filesLoop_final hc _ (zip_pairwise hnd hlater) hl
  rw [hdisk]
  constructor
  · intro i p o hp ho
    obtain ⟨old, new, hr, hfu, hfin⟩ := h1 (p, o) (zip_get hp ho)
    simp only [readText] at hr
    cases hdp : d p with
    | none => rw [hdp] at hr; cases hr
    | some raw =>
      rw [hdp] at hr
      simp only [Except.ok.injEq] at hr
      subst hr
      refine ⟨raw, new, rfl, hfu, ?_⟩
      simp only at hfin
      rw [hfin]
      by_cases h0 : new = univNewlines raw ∧ o = p
      · rw [if_pos h0, if_pos ⟨h0.2, h0.1⟩, h0.2, hdp]
      · rw [if_neg h0, if_neg (fun h' => h0 ⟨h'.2, h'.1⟩)]
  · intro q hq
    exact h2 q (fun p hp h0 => hq (h0 ▸ (List.of_mem_zip hp).2))

/-- C64: accepted arguments have as many output files as files. -/
theorem C64_accepted (os : Os) (raw : RawArgs) (args : Args) (h : parseArgs os raw = .ok args)
    (hf : raw.outputFiles ≠ []) :
    args.outputFiles ≠ [] ∧ args.outputFiles.length = args.paths.length ∧ args.outputDirectory = none := by
  obtain ⟨hv, _, hk, _, _, h3, h4, _⟩ := (C62_accepted os raw args).1 h
  rw [h3, h4]
  refine ⟨hf, hk.count hf, ?_⟩
  rcases hv.one with h0 | h0
  · exact h0
  · exact absurd h0 hf

/-- C64 on two files; swapping two files through `--output-file` loses one of them: the first is written over the
second before that is read. -/
theorem C64_example :
    let d : Disk := fun p => if p = [c!"a"] then some c!"first\n" else if p = [c!"b"] then some c!"x  y\n" else none
    let run := fun out => (mainRun (markflow 3) (fun _ => true) ⟨80, [[c!"a"], [c!"b"]], false, none, out, false, 40⟩
      none d).1.disk
    (run [[c!"c"], [c!"e"]] [c!"c"] = some c!"first\n" ∧ run [[c!"c"], [c!"e"]] [c!"e"] = some c!"x y\n") ∧
    (run [[c!"b"], [c!"a"]] [c!"a"] = some c!"first\n" ∧ run [[c!"b"], [c!"a"]] [c!"b"] = some c!"first\n") := by
  decide +kernel

/-! ## C65 -/

/-- The names of the two renders of a file. -/
inductive RenderNames : Str → Str → Str → Prop where
  | md (stem : Str) : RenderNames (stem ++ c!".md") (stem ++ c!".1.md") (stem ++ c!".2.md")
  | other (name : Str) : (∀ stem, name ≠ stem ++ c!".md") → RenderNames name (name ++ c!".1") (name ++ c!".2")

theorem renderPaths_names (dir : Path) (name : Str) : ∃ n1 n2, RenderNames name n1 n2 ∧
    renderPaths (dir ++ [name]) = (dir ++ [n1], dir ++ [n2]) := by
  unfold renderPaths
  have hn : pathName (dir ++ [name]) = name := by simp [pathName]
  have hp : pathParent (dir ++ [name]) = dir := by simp [pathParent]
  simp only [hn, hp, pathJoin]
  split
  · rename_i h
    unfold endsWith at h
    rw [List.isSuffixOf_iff_suffix] at h
    obtain ⟨stem, hs⟩ := h
    subst hs
    have : (stem ++ c!".md").take ((stem ++ c!".md").length - 3) = stem := by simp
    rw [this]
    exact ⟨_, _, .md stem, rfl⟩
  · rename_i h
    refine ⟨_, _, .other name ?_, rfl⟩
    intro stem hs
    apply h
    unfold endsWith
    rw [List.isSuffixOf_iff_suffix]
    exact ⟨stem, hs.symm⟩

theorem inconsistent_passes {n : Nat} {w : Width} {text : Str} (h : reformatMarkdownText n w text = .error .inconsistent) :
    ∃ first second, reformatText n w text = .ok first ∧ reformatText n w first = .ok second ∧ second ≠ first := by
  have hp : ∀ t, reformatText n w t ≠ .error .inconsistent := by
    intro t ht
    obtain ⟨m, text', e', _, hc, he⟩ := C53_cause n w t _ ht
    rcases he with rfl | ⟨_, _, h0⟩
    · rcases hc.errs with h1 | h1 | h1 | ⟨_, _, _, h1⟩ <;> cases h1
    · cases h0
  simp only [reformatMarkdownText, bind, Except.bind] at h
  cases h1 : reformatText n w text with
  | error e => rw [h1] at h; simp only [Except.error.injEq] at h; subst h; exact absurd h1 (hp _)
  | ok first =>
    rw [h1] at h
    simp only at h
    cases h2 : reformatText n w first with
    | error e => rw [h2] at h; simp only [Except.error.injEq] at h; subst h; exact absurd h2 (hp _)
    | ok second =>
      rw [h2] at h
      simp only at h
      split at h
      · rename_i h3
        exact ⟨first, second, rfl, h2, by simpa using h3⟩
      · cases h

theorem writeRenders_ok {F : Formatter} {cw : Path → Bool} {w : Width} {input output : Path} {r : Run}
    {text first second : Str} (hread : readText r.disk input = .ok text) (h1 : F.pass w text = .ok first)
    (h2 : F.pass w first = .ok second) (hw1 : cw (renderPaths output).1 = true) (hw2 : cw (renderPaths output).2 = true) :
    ∃ r', writeRenders F cw w input output r = (r', .ok ()) ∧
      r'.disk = fun q => if q = (renderPaths output).2 then some second
        else if q = (renderPaths output).1 then some first else r.disk q := by
  have : writeRenders F cw w input output r =
      (⟨applyOps (applyOps r.disk (writeOps (renderPaths output).1 first)) (writeOps (renderPaths output).2 second),
        r.ops ++ writeOps (renderPaths output).1 first ++ writeOps (renderPaths output).2 second, r.out⟩, .ok ()) := by
    simp only [writeRenders, hread, h1, doWrite, hw1, h2, hw2, if_true]
  exact ⟨_, this, by simp only [applyOps_writeOps]⟩

/-- C65: with `--write-renders`, when formatting a file gives an inconsistent result, then after the run the two
renders beside its output path hold the first and the second formatting, which differ; no other file is touched and
the exception carries the name of the file. -/
theorem C65_renders (n : Nat) (cw : Path → Bool) (args : Args) (d : Disk) (w : Width)
    (before after : List Path) (p dir : Path) (name : Str) (r : Run) (k : Nat) (text : Str)
    (hpaths : args.paths = before ++ p :: after) (hf : args.outputFiles = []) (hr : args.writeRenders = true)
    (hout : dir ++ [name] = match args.outputDirectory with | none => p | some out => out ++ [pathName p])
    (hbefore : reformatFiles (markflow n) cw { args with paths := before } w d = (r, .ok k))
    (hread : readText r.disk p = .ok text) (hfmt : reformatMarkdownText n w text = .error .inconsistent)
    (hw : ∀ q, cw q = true) :
    ∃ r' n1 n2 first second, RenderNames name n1 n2 ∧ reformatText n w text = .ok first ∧
      reformatText n w first = .ok second ∧ second ≠ first ∧
      reformatFiles (markflow n) cw args w d = (r', .error (.fmt .inconsistent (some p))) ∧
      r'.disk (dir ++ [n1]) = some first ∧ r'.disk (dir ++ [n2]) = some second ∧
      ∀ q, q ≠ dir ++ [n1] → q ≠ dir ++ [n2] → r'.disk q = r.disk q := by
  obtain ⟨first, second, hp1, hp2, hne⟩ := inconsistent_passes hfmt
  obtain ⟨n1, n2, hnames, hrp⟩ := renderPaths_names dir name
  obtain ⟨r0, a, b, hl, hdisk, _, _⟩ := reformatFiles_ok hbefore
  have hargs : ∀ ps r a b, filesLoop (markflow n) cw { args with paths := before } w r a b ps =
      filesLoop (markflow n) cw args w r a b ps := by
    intro ps
    induction ps with
    | nil => intro r a b; rfl
    | cons x ps ih =>
      intro r a b
      obtain ⟨i, o⟩ := x
      have hstep : stepFile (markflow n) cw { args with paths := before } w r i o =
        stepFile (markflow n) cw args w r i o := rfl
      simp only [filesLoop, hstep]
      cases stepFile (markflow n) cw args w r i o with
      | mk r1 res =>
        cases res with
        | error e => rfl
        | ok bb => cases bb <;> exact ih _ _ _
  rw [hargs] at hl
  have hzip : ∃ rest, args.paths.zip (outputPaths args) =
      before.zip (outputPaths { args with paths := before }) ++ (p, dir ++ [name]) :: rest := by
    unfold outputPaths
    simp only [hpaths, hf, List.isEmpty_nil, if_true]
    cases hod : args.outputDirectory with
    | none =>
      rw [hod] at hout
      refine ⟨after.zip after, ?_⟩
      simp only at hout ⊢
      rw [List.zip_append rfl, hout]; rfl
    | some out =>
      rw [hod] at hout
      refine ⟨after.zip (after.map fun p => pathJoin out (pathName p)), ?_⟩
      simp only at hout
      simp only [List.map_append, List.map_cons]
      rw [List.zip_append (by simp), hout]; rfl
  obtain ⟨rest, hzip⟩ := hzip
  have hread0 : readText r0.disk p = .ok text := by rw [← hdisk]; exact hread
  obtain ⟨r', hwr, hd'⟩ := writeRenders_ok (F := markflow n) (cw := cw) (w := w) (output := dir ++ [name]) hread0 hp1 hp2
    (hw _) (hw _)
  rw [hrp] at hd'
  have hstep : stepFile (markflow n) cw args w r0 p (dir ++ [name]) = (r', .error (.fmt .inconsistent (some p))) := by
    have hfull : (markflow n).full w text = .error .inconsistent := hfmt
    simp only [stepFile, hread0, hfull, hr, hwr, Err.isRuntimeError, Bool.true_and, beq_self_eq_true, if_true]
  have hloop := filesLoop_append (markflow n) cw args w _ ((p, dir ++ [name]) :: rest) _ 0 0 _ _ _ hl
  have h12 : dir ++ [n1] ≠ dir ++ [n2] := by
    intro h0
    have h0 : n1 = n2 := by simpa using h0
    cases hnames with
    | md stem => have := List.append_cancel_left h0; exact absurd this (by decide)
    | other => have := List.append_cancel_left h0; exact absurd this (by decide)
  refine ⟨r', n1, n2, first, second, hnames, hp1, hp2, hne, ?_, ?_, ?_, ?_⟩
  · unfold reformatFiles
    simp only [hzip, hloop, filesLoop, hstep]
  · rw [hd']
    simp [h12]
  · rw [hd']
    simp
  · intro q hq1 hq2
    rw [hd', hdisk]
    simp only
    rw [if_neg hq2, if_neg hq1]

/-- C65 on standard input: both formattings are printed, then the exception is raised. -/
theorem C65_stdin (n : Nat) (cw : Path → Bool) (args : Args) (text : Str) (d : Disk) (hp : args.paths = [])
    (hr : args.writeRenders = true)
    (hfmt : reformatMarkdownText n (mainWidth args.lineLength) text = .error .inconsistent) :
    ∃ first second, reformatText n (mainWidth args.lineLength) text = .ok first ∧
      reformatText n (mainWidth args.lineLength) first = .ok second ∧ second ≠ first ∧
      mainRun (markflow n) cw args (some text) d =
        (⟨d, [], [first ++ ['\n'], second ++ ['\n']]⟩, .error (.fmt .inconsistent none)) := by
  obtain ⟨first, second, hp1, hp2, hne⟩ := inconsistent_passes hfmt
  refine ⟨first, second, hp1, hp2, hne, ?_⟩
  have hfull : (markflow n).full (mainWidth args.lineLength) text = .error .inconsistent := hfmt
  have e1 : (markflow n).pass (mainWidth args.lineLength) text = .ok first := hp1
  have e2 : (markflow n).pass (mainWidth args.lineLength) first = .ok second := hp2
  simp only [mainRun, hp, List.isEmpty_nil, if_true, reformatStdin, hfull, hr, e1, e2, say, Err.isRuntimeError,
    Bool.true_and, beq_self_eq_true, List.nil_append, List.cons_append]

/-- C65 on standard input: on any other exception, or without `--write-renders`, nothing is printed. -/
theorem C65_stdin_quiet (n : Nat) (cw : Path → Bool) (args : Args) (text : Str) (d : Disk) (e : Err) (hp : args.paths = [])
    (hr : args.writeRenders = true → e ≠ .inconsistent)
    (hfmt : reformatMarkdownText n (mainWidth args.lineLength) text = .error e) :
    mainRun (markflow n) cw args (some text) d = (⟨d, [], []⟩, .error (.fmt e none)) := by
  have hfull : (markflow n).full (mainWidth args.lineLength) text = .error e := hfmt
  have hr' : (e.isRuntimeError && args.writeRenders && e == .inconsistent) = false := by
    cases hw : args.writeRenders
    · simp
    · simpa using fun _ => hr hw
  simp only [mainRun, hp, List.isEmpty_nil, if_true, reformatStdin, hfull, hr', Bool.false_eq_true, if_false]

/-- C65 on a file: the hypotheses hold for a quote that is indented, and the renders are written beside it -/
theorem C65_example :
    let d : Disk := fun p => if p = [c!"x", c!"a.md"] then some c!"> foo  \n> bar\n" else none
    let res := mainRun (markflow 9) (fun _ => true) ⟨80, [[c!"x", c!"a.md"]], false, none, [], true, 40⟩ none d
    reformatMarkdownText 9 (.fin 80) c!"> foo  \n> bar\n" = .error .inconsistent ∧
    res.2 = .error (.fmt .inconsistent (some [c!"x", c!"a.md"])) ∧
    res.1.disk [c!"x", c!"a.1.md"] = (reformatText 9 (.fin 80) c!"> foo  \n> bar\n").toOption ∧
    res.1.disk [c!"x", c!"a.2.md"] ≠ res.1.disk [c!"x", c!"a.1.md"] ∧
    res.1.disk [c!"x", c!"a.md"] = some c!"> foo  \n> bar\n" := by
  decide +kernel

end MF
