import Verif.Model.Pipe
import Verif.Props.Bytes
import Verif.Props.Widths
import Verif.Props.Renders
/-!
# C128: a filter between pipes

In words: as a filter the program prints the bytes it would leave in a file with those contents, and ends in the same way. A
chain of filters is the composition of the calls.
-/

namespace MF

/-- The outcome of a filter in terms of the bytes that come in: undecodable, not formattable, or new bytes. -/
def filterOf (K : Codec) (n : Nat) (w : Width) (b : Bytes) : Except PipeErr Bytes :=
  match K.decode b with
  | none => .error .undecodable
  | some s =>
    match reformatMarkdownText n w (univNewlines s) with
    | .error e => .error (.fmt e)
    | .ok t => match K.encode t with
      | none => .error .unencodable
      | some b => .ok b

/-- One filter after the other. The chain ends with an error if one of them does (`set -o pipefail`). -/
def chainOf (K : Codec) (n : Nat) : List Width → Bytes → Except PipeErr Bytes
  | [], b => .ok b
  | w :: ws, b => do
    let y ← filterOf K n w b
    chainOf K n ws y

section
variable {K : Codec} {n : Nat} {T : Str → Prop}

theorem full_noCR {w : Width} {s t : Str} (h : reformatMarkdownText n w s = .ok t) : univNewlines t = t :=
  univNewlines_id t (C04_no_other_separator n w s t h '\r' (by decide))

/-- C128: what a filter prints is given by `filterOf`, and nothing is printed if it fails. -/
theorem C128_filter (hK : Suits K (markflow n) T) (render : Str → Str) (args : Args) (b : Bytes) (hc : args.check = false)
    (hr : args.writeRenders = false) :
    pipeRun K (markflow n) render args b = match filterOf K n (mainWidth args.lineLength) b with
      | .ok y => (y, .ok 0)
      | .error e => ([], .error e) := by
  unfold pipeRun pipeStdin filterOf
  rw [hc, hr]
  cases hd : K.decode b with
  | none => rfl
  | some s =>
    simp only [markflow]
    cases hf : reformatMarkdownText n (mainWidth args.lineLength) (univNewlines s) with
    | error e => simp
    | ok t =>
      obtain ⟨y, hy⟩ := hK.encodes t (hK.full _ _ _ (hK.read b s hd) hf)
      simp [printB, hy]

/-- C128: standard input that can be decoded is never refused for its characters. -/
theorem C128_encodes (hK : Suits K (markflow n) T) (w : Width) (b : Bytes) : filterOf K n w b ≠ .error .unencodable := by
  unfold filterOf
  cases hd : K.decode b with
  | none => simp
  | some s =>
    simp only
    cases hf : reformatMarkdownText n w (univNewlines s) with
    | error e => simp
    | ok t =>
      obtain ⟨y, hy⟩ := hK.encodes t (hK.full _ _ _ (hK.read b s hd) hf)
      simp [hy]

/-- C128: a chain of filters is a chain of calls. -/
theorem C128_chain (hK : Suits K (markflow n) T) (ws : List Width) : ∀ (b : Bytes) (s : Str), K.decode b = some s → ws ≠ [] →
    chainOf K n ws b = match throughWidths n ws (univNewlines s) with
      | .error e => .error (.fmt e)
      | .ok t => match K.encode t with
        | none => .error .unencodable
        | some b => .ok b := by
  induction ws with
  | nil => intro b s _ h; exact absurd rfl h
  | cons w ws ih =>
    intro b s hd _
    simp only [chainOf, throughWidths, bind, Except.bind]
    have hfil : filterOf K n w b = match reformatMarkdownText n w (univNewlines s) with
        | .error e => .error (.fmt e)
        | .ok t => match K.encode t with
          | none => .error .unencodable
          | some b => .ok b := by unfold filterOf; rw [hd]
    rw [hfil]
    cases hf : reformatMarkdownText n w (univNewlines s) with
    | error e => rfl
    | ok t =>
      obtain ⟨y, hy⟩ := hK.encodes t (hK.full _ _ _ (hK.read b s hd) hf)
      simp only [hy]
      by_cases hws : ws = []
      · subst hws; simp only [chainOf, throughWidths, hy]
      · rw [ih y t (hK.lawful t y hy) hws, full_noCR hf]

/-- C128: a filter and a run on a file with the same contents end with the same status. If they succeed then the file holds the
bytes that the filter prints; but if the file's text was in order it is left as it is, also where its line ends are not those that
the filter prints. -/
theorem C128_file (hK : Suits K (markflow n) T) (render : Str → Str) (cw : Path → Bool) (args : Args) (stdin : Option Str)
    (d : ByteDisk) (p : Path) (b : Bytes) (hpaths : args.paths = [p]) (hf : args.outputFiles = [])
    (hd : args.outputDirectory = none) (hc : args.check = false) (hr : args.writeRenders = false) (hb : d p = some b)
    (hcw : cw p = true) :
    let f := mainRunB K (markflow n) cw args stdin d
    let g := pipeRun K (markflow n) render args b
    exitStatusB f.2 = pipeStatus g.2 ∧
    (g.2 = .ok 0 ↔ f.2 = .ok 0) ∧
    (g.2 = .ok 0 → f.1.disk p = some g.1 ∨ (f.1.disk = d ∧ ∃ s t, K.decode b = some s ∧ K.decode g.1 = some t ∧ univNewlines s = t)) ∧
    (g.2 ≠ .ok 0 → f.1.disk = d) := by
  intro f g
  have hg : g = match filterOf K n (mainWidth args.lineLength) b with
      | .ok y => (y, .ok 0)
      | .error e => ([], .error e) := C128_filter hK render args b hc hr
  have hmain : f = match stepFileB K (markflow n) cw args (mainWidth args.lineLength) { disk := d, ops := [], out := [] } p p with
      | (r, .error e) => (r, .error e)
      | (r, .ok true) => (sayB (sayB r c!"All done!") (summary args.check 1 0), .ok 0)
      | (r, .ok false) => (sayB (sayB r c!"All done!") (summary args.check 0 1), .ok 0) := by
    show mainRunB K (markflow n) cw args stdin d = _
    simp only [mainRunB, hpaths, List.isEmpty_cons, Bool.false_eq_true, if_false, reformatFilesB, outputPaths, hf,
      List.isEmpty_nil, if_true, hd, List.zip_cons_cons, List.zip_nil_right, filesLoopB]
    cases stepFileB K (markflow n) cw args (mainWidth args.lineLength) { disk := d, ops := [], out := [] } p p with
    | mk r res =>
      cases res with
      | error e => rfl
      | ok bb => cases bb <;> simp [hc]
  have hread : ∀ s, K.decode b = some s → readTextB K d p = .ok (univNewlines s) := by
    intro s hs; unfold readTextB; rw [hb]; simp only [hs]
  cases hdec : K.decode b with
  | none =>
    have h1 : readTextB K d p = .error (.undecodable p) := by unfold readTextB; rw [hb]; simp only [hdec]
    have h2 : f = ({ disk := d, ops := [], out := [] }, .error (.undecodable p)) := by
      rw [hmain]; simp only [stepFileB, h1]
    have h3 : g = ([], .error .undecodable) := by rw [hg]; simp only [filterOf, hdec]
    rw [h2, h3]
    exact ⟨rfl, ⟨fun h => (by cases h), fun h => (by cases h)⟩, fun h => (by cases h), fun _ => rfl⟩
  | some s =>
    have h1 := hread s hdec
    cases hfull : reformatMarkdownText n (mainWidth args.lineLength) (univNewlines s) with
    | error e =>
      have hfull' : (markflow n).full (mainWidth args.lineLength) (univNewlines s) = .error e := hfull
      have h2 : ∃ m, f = ({ disk := d, ops := [], out := [] }, .error (.cli (.fmt e m))) := by
        rw [hmain]; simp only [stepFileB, h1, hfull', hr, Bool.false_and, Bool.false_eq_true, if_false]
        by_cases h : e.isRuntimeError = true
        · rw [if_pos h]; exact ⟨_, rfl⟩
        · rw [if_neg h]; exact ⟨_, rfl⟩
      have h3 : g = ([], .error (.fmt e)) := by rw [hg]; simp only [filterOf, hdec, hfull]
      obtain ⟨m, h2⟩ := h2
      rw [h2, h3]
      refine ⟨?_, ⟨fun h => (by cases h), fun h => (by cases h)⟩, fun h => (by cases h), fun _ => rfl⟩
      cases e <;> rfl
    | ok t =>
      have hfull' : (markflow n).full (mainWidth args.lineLength) (univNewlines s) = .ok t := hfull
      obtain ⟨y, hy⟩ := hK.encodes t (hK.full _ _ _ (hK.read b s hdec) hfull)
      have h3 : g = (y, .ok 0) := by rw [hg]; simp only [filterOf, hdec, hfull, hy]
      by_cases hne : t = univNewlines s
      · have h2 : f = (sayB (sayB { disk := d, ops := [], out := [] } c!"All done!") (summary args.check 0 1), .ok 0) := by
          rw [hmain]
          simp only [stepFileB, h1, hfull']
          rw [if_neg (by simp [hne]), if_neg (by simp)]
        rw [h2, h3]
        refine ⟨rfl, ⟨fun _ => rfl, fun _ => rfl⟩, fun _ => .inr ⟨rfl, s, t, rfl, hK.lawful t y hy, hne.symm⟩, fun h => absurd rfl h⟩
      · have hw : doWriteB K cw { disk := d, ops := [], out := [] } p t =
            ({ disk := applyBytes d (writeBytes p y), ops := [] ++ writeBytes p y, out := [] }, .ok ()) := by
          unfold doWriteB; rw [if_pos hcw]; simp only [hy]
        have h2 : ∃ o, f = ({ disk := applyBytes d (writeBytes p y), ops := [] ++ writeBytes p y, out := o }, .ok 0) := by
          rw [hmain]
          simp only [stepFileB, h1, hfull', hc, hw]
          rw [if_pos (by simpa using hne)]
          exact ⟨_, rfl⟩
        obtain ⟨o, h2⟩ := h2
        rw [h2, h3]
        refine ⟨rfl, ⟨fun _ => rfl, fun _ => rfl⟩, fun _ => .inl ?_, fun h => absurd rfl h⟩
        show applyBytes d (writeBytes p y) p = some y
        rw [applyBytes_write]
        exact if_pos rfl

/-- C128: with `--check` the status is that of a run on a file, provided the message can be printed. -/
theorem C128_check (K : Codec) (n : Nat) (render : Str → Str) (cw : Path → Bool) (args : Args) (stdin : Option Str)
    (d : ByteDisk) (p : Path) (b : Bytes) (hpaths : args.paths = [p]) (hf : args.outputFiles = [])
    (hd : args.outputDirectory = none) (hc : args.check = true) (hr : args.writeRenders = false) (hb : d p = some b)
    (h1 : K.encode (render c!"STDIN would be reformatted.") ≠ none) (h0 : K.encode (render c!"STDIN would be unchanged.") ≠ none) :
    exitStatusB (mainRunB K (markflow n) cw args stdin d).2 = pipeStatus (pipeRun K (markflow n) render args b).2 := by
  have hmain : mainRunB K (markflow n) cw args stdin d =
      match stepFileB K (markflow n) cw args (mainWidth args.lineLength) { disk := d, ops := [], out := [] } p p with
      | (r, .error e) => (r, .error e)
      | (r, .ok true) => (sayB (sayB r c!"All done!") (summary args.check 1 0), .ok 1)
      | (r, .ok false) => (sayB (sayB r c!"All done!") (summary args.check 0 1), .ok 0) := by
    simp only [mainRunB, hpaths, List.isEmpty_cons, Bool.false_eq_true, if_false, reformatFilesB, outputPaths, hf,
      List.isEmpty_nil, if_true, hd, List.zip_cons_cons, List.zip_nil_right, filesLoopB]
    cases stepFileB K (markflow n) cw args (mainWidth args.lineLength) { disk := d, ops := [], out := [] } p p with
    | mk r res =>
      cases res with
      | error e => rfl
      | ok bb => cases bb <;> simp [hc]
  rw [hmain]
  obtain ⟨y1, h1⟩ := Option.ne_none_iff_exists'.1 h1
  obtain ⟨y0, h0⟩ := Option.ne_none_iff_exists'.1 h0
  unfold pipeRun pipeStdin
  cases hdec : K.decode b with
  | none =>
    have hr1 : readTextB K d p = .error (.undecodable p) := by unfold readTextB; rw [hb]; simp only [hdec]
    simp only [stepFileB, hr1]; rfl
  | some s =>
    have hr1 : readTextB K d p = .ok (univNewlines s) := by unfold readTextB; rw [hb]; simp only [hdec]
    cases hfull : (markflow n).full (mainWidth args.lineLength) (univNewlines s) with
    | error e =>
      simp only [stepFileB, hr1, hfull, hr, Bool.false_and, Bool.and_false, Bool.false_eq_true, if_false]
      by_cases h : e.isRuntimeError = true
      · rw [if_pos h]; cases e <;> rfl
      · rw [if_neg h]; cases e <;> rfl
    | ok t =>
      simp only [stepFileB, hr1, hfull, hc, if_true, Bool.not_true, Bool.false_eq_true, if_false]
      by_cases hne : t = univNewlines s
      · rw [if_neg (by simp [hne]), if_neg (by simp), if_neg (by simp [hne])]
        simp [printB, h0, exitStatusB, pipeStatus]
      · rw [if_pos (by simpa using hne), if_pos (by simpa using hne)]
        simp [printB, h1, exitStatusB, pipeStatus]

/-- C128: with `--write-renders` an inconsistent text is printed as both passes have made it, and the filter fails. -/
theorem C128_renders (hK : Suits K (markflow n) T) (render : Str → Str) (args : Args) (b nl : Bytes) (s : Str)
    (hd : K.decode b = some s) (hnl : K.encode ['\n'] = some nl) (hr : args.writeRenders = true)
    (hbad : reformatMarkdownText n (mainWidth args.lineLength) (univNewlines s) = .error .inconsistent) :
    ∃ first second y1 y2, reformatText n (mainWidth args.lineLength) (univNewlines s) = .ok first ∧
      reformatText n (mainWidth args.lineLength) first = .ok second ∧ K.encode first = some y1 ∧ K.encode second = some y2 ∧
      second ≠ first ∧
      pipeRun K (markflow n) render args b = (y1 ++ nl ++ y2 ++ nl, .error (.fmt .inconsistent)) ∧
      pipeStatus (pipeRun K (markflow n) render args b).2 = 1 := by
  obtain ⟨first, second, h1, h2, hne⟩ := inconsistent_passes hbad
  obtain ⟨y1, hy1⟩ := hK.encodes first (hK.pass _ _ _ (hK.read b s hd) h1)
  obtain ⟨y2, hy2⟩ := hK.encodes second (hK.pass _ _ _ (hK.pass _ _ _ (hK.read b s hd) h1) h2)
  have hx : pipeRun K (markflow n) render args b = (y1 ++ nl ++ y2 ++ nl, .error (.fmt .inconsistent)) := by
    unfold pipeRun pipeStdin
    rw [hd, hr]
    simp only [markflow, hbad, printRendersB, h1, h2, printlnB, printB, hy1, hy2, hnl]
    simp [Err.isRuntimeError]
  exact ⟨first, second, y1, y2, h1, h2, hy1, hy2, hne, hx, by rw [hx]; rfl⟩

/-- C128: whatever else goes wrong in formatting, with any options: nothing is printed. -/
theorem C128_others (K : Codec) (n : Nat) (render : Str → Str) (args : Args) (b : Bytes) (s : Str) (e : Err) (hd : K.decode b = some s)
    (hbad : reformatMarkdownText n (mainWidth args.lineLength) (univNewlines s) = .error e)
    (he : e ≠ .inconsistent ∨ args.writeRenders = false) : pipeRun K (markflow n) render args b = ([], .error (.fmt e)) := by
  unfold pipeRun pipeStdin
  rw [hd]
  simp only [markflow, hbad]
  rw [if_neg]
  intro h
  simp only [Bool.and_eq_true, beq_iff_eq] at h
  rcases he with he | he
  · exact he h.2
  · rw [he] at h; exact absurd h.1.2 (by simp)

/-- C128: a message or a result that the encoding of the output lacks ends the program with an exception, and none of it is printed. -/
theorem C128_unprintable (K : Codec) (n : Nat) (render : Str → Str) (args : Args) (b : Bytes) (s t : Str) (hd : K.decode b = some s)
    (hok : reformatMarkdownText n (mainWidth args.lineLength) (univNewlines s) = .ok t)
    (hmsg : K.encode (if args.check then render (if t = univNewlines s then c!"STDIN would be unchanged."
      else c!"STDIN would be reformatted.") else t) = none) :
    pipeRun K (markflow n) render args b = ([], .error .unencodable) ∧ pipeStatus (pipeRun K (markflow n) render args b).2 = 1 := by
  have hx : pipeRun K (markflow n) render args b = ([], .error .unencodable) := by
    unfold pipeRun pipeStdin
    rw [hd]
    simp only [markflow, hok]
    cases hc : args.check with
    | false =>
      rw [hc, if_neg (by simp)] at hmsg
      simp only [Bool.false_eq_true, if_false, printB, hmsg]
    | true =>
      rw [hc, if_pos rfl] at hmsg
      simp only [if_true]
      by_cases ht : t = univNewlines s
      · rw [if_pos ht] at hmsg
        rw [if_neg (by simp [ht])]
        simp only [printB, hmsg]
      · rw [if_neg ht] at hmsg
        rw [if_pos (by simpa using ht)]
        simp only [printB, hmsg]
  exact ⟨hx, by rw [hx]; rfl⟩

end

/-- An encoding of seven bits. -/
def ascii : Codec where
  decode b := some (b.map fun x => Char.ofNat x.toNat)
  encode s := if s.all (fun c => c.toNat < 128) then some (s.map fun c => UInt8.ofNat c.toNat) else none

/-- C128: both cases occur: a decorated message on a terminal of seven bits, and a table with too few columns. -/
theorem C128_unprintable_example :
    let args : Args := { lineLength := 5, paths := [], check := true, outputDirectory := none,
                         outputFiles := [], writeRenders := true, logLevel := 40 }
    pipeRun ascii (markflow 3) (fun s => s ++ c!"✓") args (c!"a  b".flatMap utf8Char) = ([], .error .unencodable) ∧
    pipeRun ascii (markflow 3) id args (c!"| a |\n|---|\n| b | c |".flatMap utf8Char) = ([], .error (.fmt (.format 3 1 2))) := by
  decide +kernel

/-- C128 in UTF-8: a text with line ends of Windows that is in order stays as it is in a file; the filter translates its line ends.
Two filters in a row, and one that cannot read its input. -/
theorem C128_example :
    let args : Args := { lineLength := 5, paths := [[c!"f"]], check := false, outputDirectory := none,
                         outputFiles := [], writeRenders := false, logLevel := 40 }
    let b : Bytes := c!"ab\r\nc\r\n".flatMap utf8Char
    let f := mainRunB utf8 (markflow 3) (fun _ => true) { args with lineLength := 3 } none fun _ => some b
    f.2 = .ok 0 ∧ f.1.disk [c!"f"] = some b ∧
    pipeRun utf8 (markflow 3) id { args with lineLength := 3 } b = (c!"ab\nc\n".flatMap utf8Char, .ok 0) ∧
    pipeRun utf8 (markflow 3) id args b = (c!"ab c\n".flatMap utf8Char, .ok 0) ∧
    chainOf utf8 3 [.fin 3, .fin 5] (c!"é  bc ü".flatMap utf8Char) = .ok (c!"é bc\nü\n".flatMap utf8Char) ∧
    pipeRun utf8 (markflow 3) id args [0x61, 0xFF] = ([], .error .undecodable) ∧
    pipeStatus (pipeRun utf8 (markflow 3) id { args with check := true } b).2 = 1 ∧
    pipeRun utf8 (markflow 3) id { args with writeRenders := true } (c!"foo\n-- -".flatMap utf8Char) =
      (c!"foo\n-----\n\nfoo\n---\n\n".flatMap utf8Char, .error (.fmt .inconsistent)) := by
  decide +kernel

end MF
