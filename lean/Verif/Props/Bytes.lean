import Verif.Lemmas.Utf8
import Verif.Props.CliMore
import Verif.Props.DivideQuotes
/-!
# C123: files of bytes

A run on files of bytes is a run on the texts that the bytes are decoded to. So whatever is claimed of runs on texts holds of
runs on bytes, in every encoding in which what is decoded can be encoded again and in which the characters are that the
program writes itself.
-/

namespace MF

/-! ## Specification -/

/-- The texts of the files. A file that cannot be decoded is one that cannot be read. -/
def textsOf (K : Codec) (d : ByteDisk) : Disk := fun p => (d p).bind K.decode

/-- What is encoded is decoded to the same. -/
def Codec.Lawful (K : Codec) : Prop := ∀ s b, K.encode s = some b → K.decode b = some s

/-- The steps of writing encoded texts completely, one after the other. -/
def writesBytes (K : Codec) (ws : List (Path × Str)) : List ByteOp :=
  ws.flatMap fun x => writeBytes x.1 ((K.encode x.2).getD [])

/-- UnicodeDecodeError and UnicodeEncodeError as errors of reading and writing a file. -/
def ByteErr.plain : ByteErr → CliErr
  | .cli e => e
  | .undecodable p => .os p
  | .unencodable p => .os p

def plainErr {α : Type} : Except ByteErr α → Except CliErr α
  | .ok a => .ok a
  | .error e => .error e.plain

/-- The encoding `K` suits the formatter `F`: texts of which `T` holds can be encoded, texts that are read are among them, and
what the formatter makes of them is, too. -/
structure Suits (K : Codec) (F : Formatter) (T : Str → Prop) : Prop where
  lawful : K.Lawful
  encodes : ∀ s, T s → ∃ b, K.encode s = some b
  read : ∀ b s, K.decode b = some s → T (univNewlines s)
  full : ∀ w s t, T s → F.full w s = .ok t → T t
  pass : ∀ w s t, T s → F.pass w s = .ok t → T t

/-! ## Writing -/

theorem applyBytes_append (d : ByteDisk) (a b : List ByteOp) : applyBytes d (a ++ b) = applyBytes (applyBytes d a) b := by
  unfold applyBytes; rw [List.foldl_append]

theorem applyBytes_appends (p : Path) (s : Bytes) : ∀ (d : ByteDisk) (t : Bytes), d p = some t →
    applyBytes d (s.map (.append p)) = fun q => if q = p then some (t ++ s) else d q := by
  induction s with
  | nil =>
    intro d t h
    funext q
    simp only [applyBytes, List.map_nil, List.foldl_nil, List.append_nil]
    split
    · rename_i hq; rw [hq, h]
    · rfl
  | cons c s ih =>
    intro d t h
    have h1 : (ByteOp.append p c).apply d p = some (t ++ [c]) := by simp [ByteOp.apply, h]
    have := ih ((ByteOp.append p c).apply d) (t ++ [c]) h1
    simp only [applyBytes, List.map_cons, List.foldl_cons] at this ⊢
    rw [this]
    funext q
    split
    · simp
    · rename_i hq; simp [ByteOp.apply, hq]

theorem applyBytes_write (d : ByteDisk) (p : Path) (s : Bytes) :
    applyBytes d (writeBytes p s) = fun q => if q = p then some s else d q := by
  have h : (ByteOp.trunc p).apply d p = some [] := by simp [ByteOp.apply]
  have := applyBytes_appends p s _ _ h
  simp only [writeBytes, applyBytes, List.foldl_cons] at this ⊢
  rw [this]
  funext q
  split
  · simp
  · rename_i hq; simp [ByteOp.apply, hq]

theorem texts_write {K : Codec} (hK : K.Lawful) (d : ByteDisk) (p : Path) {s : Str} {b : Bytes}
    (h : K.encode s = some b) :
    textsOf K (applyBytes d (writeBytes p b)) = applyOps (textsOf K d) (writeOps p s) := by
  rw [applyBytes_write, applyOps_writeOps]
  funext q
  by_cases hq : q = p
  · simp only [textsOf, hq, if_true]
    exact hK s b h
  · simp only [textsOf, hq, if_false]

theorem read_texts (K : Codec) (d : ByteDisk) (p : Path) : readText (textsOf K d) p = plainErr (readTextB K d p) := by
  unfold readText readTextB textsOf
  cases d p with
  | none => rfl
  | some b =>
    simp only [Option.bind_some]
    cases K.decode b <;> rfl

/-! ## The runs agree -/

/-- The two runs have come equally far. -/
structure Agree (K : Codec) (d : ByteDisk) (r : ByteRun) (r' : Run) : Prop where
  texts : textsOf K r.disk = r'.disk
  out : r.out = r'.out
  disk : r.disk = applyBytes d r.ops
  writes : ∃ ws : List (Path × Str), (∀ x ∈ ws, ∃ b, K.encode x.2 = some b) ∧ r.ops = writesBytes K ws ∧
    r'.ops = writesOps ws

/-- Results agree. -/
def Agrees {α : Type} (K : Codec) (d : ByteDisk) (x : ByteRes α) (y : Res α) : Prop :=
  Agree K d x.1 y.1 ∧ plainErr x.2 = y.2

section
variable {K : Codec} {F : Formatter} {T : Str → Prop} {d : ByteDisk}

theorem Agree.said {r : ByteRun} {r' : Run} (h : Agree K d r r') (s : Str) : Agree K d (sayB r s) (say r' s) :=
  ⟨h.texts, congrArg (· ++ [s]) h.out, h.disk, h.writes⟩

theorem Agree.write (hK : Suits K F T) {r : ByteRun} {r' : Run} (h : Agree K d r r') (cw : Path → Bool) (p : Path) {s : Str}
    (hs : T s) : Agrees K d (doWriteB K cw r p s) (doWrite cw r' p s) := by
  obtain ⟨b, hb⟩ := hK.encodes s hs
  unfold doWriteB doWrite
  split
  · simp only [hb]
    refine ⟨⟨?_, h.out, ?_, ?_⟩, rfl⟩
    · rw [← h.texts]
      exact texts_write hK.lawful r.disk p hb
    · show applyBytes r.disk _ = _
      rw [applyBytes_append, ← h.disk]
    · obtain ⟨ws, h1, h2, h3⟩ := h.writes
      refine ⟨ws ++ [(p, s)], ?_, ?_, ?_⟩
      · intro x hx
        rcases List.mem_append.1 hx with hx | hx
        · exact h1 x hx
        · rw [List.mem_singleton.1 hx]; exact ⟨b, hb⟩
      · simp [h2, writesBytes, hb]
      · simp [h3, writesOps]
  · exact ⟨h, rfl⟩

theorem Agree.renders (hK : Suits K F T) {r : ByteRun} {r' : Run} (h : Agree K d r r') (cw : Path → Bool) (w : Width)
    (i o : Path) : Agrees K d (writeRendersB K F cw w i o r) (writeRenders F cw w i o r') := by
  unfold writeRendersB writeRenders
  rw [← h.texts, read_texts]
  cases hr : readTextB K r.disk i with
  | error e => exact ⟨h, rfl⟩
  | ok text =>
    have ht : T text := by
      unfold readTextB at hr
      split at hr
      · exact nomatch hr
      · split at hr
        · exact nomatch hr
        · have hx := Except.ok.inj hr
          subst hx
          exact hK.read _ _ (by assumption)
    simp only [plainErr]
    cases hp : F.pass w text with
    | error e => exact ⟨h, rfl⟩
    | ok first =>
      have hfirst := hK.pass w _ _ ht hp
      have hw := h.write hK cw (renderPaths o).1 hfirst
      simp only
      cases h1 : doWriteB K cw r (renderPaths o).1 first with
      | mk r1 e1 =>
        cases h2 : doWrite cw r' (renderPaths o).1 first with
        | mk r2 e2 =>
          rw [h1, h2] at hw
          obtain ⟨ha, he⟩ := hw
          simp only at ha he
          subst he
          cases e1 with
          | error e => exact ⟨ha, rfl⟩
          | ok u =>
            simp only [plainErr]
            cases hp2 : F.pass w first with
            | error e => exact ⟨ha, rfl⟩
            | ok second => exact ha.write hK cw _ (hK.pass w _ _ hfirst hp2)

theorem read_ok (hK : Suits K F T) {dd : ByteDisk} {p : Path} {text : Str} (h : readTextB K dd p = .ok text) : T text := by
  unfold readTextB at h
  split at h
  · exact nomatch h
  · split at h
    · exact nomatch h
    · have hx := Except.ok.inj h
      subst hx
      exact hK.read _ _ (by assumption)

theorem Agree.step (hK : Suits K F T) {r : ByteRun} {r' : Run} (h : Agree K d r r') (cw : Path → Bool) (args : Args)
    (w : Width) (i o : Path) : Agrees K d (stepFileB K F cw args w r i o) (stepFile F cw args w r' i o) := by
  unfold stepFileB stepFile
  rw [← h.texts, read_texts]
  cases hr : readTextB K r.disk i with
  | error e => exact ⟨h, rfl⟩
  | ok old =>
    have ht := read_ok hK hr
    simp only [plainErr]
    cases hf : F.full w old with
    | error e =>
      simp only
      split
      · split
        · have hw := h.renders hK cw w i o
          cases h1 : writeRendersB K F cw w i o r with
          | mk r1 e1 =>
            cases h2 : writeRenders F cw w i o r' with
            | mk r2 e2 =>
              rw [h1, h2] at hw
              obtain ⟨ha, he⟩ := hw
              simp only at ha he
              subst he
              cases e1 <;> exact ⟨ha, rfl⟩
        · exact ⟨h, rfl⟩
      · exact ⟨h, rfl⟩
    | ok new =>
      have hw := h.write hK cw o (hK.full w _ _ ht hf)
      simp only
      cases h1 : doWriteB K cw r o new with
      | mk r1 e1 =>
        cases h2 : doWrite cw r' o new with
        | mk r2 e2 =>
          rw [h1, h2] at hw
          obtain ⟨ha, he⟩ := hw
          simp only at ha he
          subst he
          split
          · split
            · cases e1 with
              | error e => exact ⟨ha, rfl⟩
              | ok u => exact ⟨ha.said _, rfl⟩
            · exact ⟨h.said _, rfl⟩
          · split
            · cases e1 <;> exact ⟨ha, rfl⟩
            · exact ⟨h, rfl⟩

theorem Agree.loop (hK : Suits K F T) (cw : Path → Bool) (args : Args) (w : Width) (ps : List (Path × Path)) :
    ∀ {r : ByteRun} {r' : Run} (a b : Nat), Agree K d r r' →
      Agrees K d (filesLoopB K F cw args w r a b ps) (filesLoop F cw args w r' a b ps) := by
  induction ps with
  | nil => intro r r' a b h; exact ⟨h, rfl⟩
  | cons p ps ih =>
    intro r r' a b h
    obtain ⟨i, o⟩ := p
    have hw := h.step hK cw args w i o
    simp only [filesLoopB, filesLoop]
    cases h1 : stepFileB K F cw args w r i o with
    | mk r1 e1 =>
      cases h2 : stepFile F cw args w r' i o with
      | mk r2 e2 =>
        rw [h1, h2] at hw
        obtain ⟨ha, he⟩ := hw
        simp only at ha he
        subst he
        cases e1 with
        | error e => exact ⟨ha, rfl⟩
        | ok x => cases x <;> exact ih _ _ ha

theorem agree_start (K : Codec) (d : ByteDisk) :
    Agree K d { disk := d, ops := [], out := [] } { disk := textsOf K d, ops := [], out := [] } :=
  ⟨rfl, rfl, rfl, [], by simp, rfl, rfl⟩

theorem agrees_main (hK : Suits K F T) (cw : Path → Bool) (args : Args) (stdin : Option Str) (d : ByteDisk) :
    Agrees K d (mainRunB K F cw args stdin d) (mainRun F cw args stdin (textsOf K d)) := by
  have h0 := agree_start K d
  unfold mainRunB mainRun
  simp only
  split
  · cases stdin with
    | none => exact ⟨h0.said _, rfl⟩
    | some text =>
      simp only [reformatStdinB, reformatStdin]
      cases F.full (mainWidth args.lineLength) text with
      | error e =>
        simp only
        split
        · cases F.pass (mainWidth args.lineLength) text with
          | error e => exact ⟨h0, rfl⟩
          | ok first =>
            simp only
            cases F.pass (mainWidth args.lineLength) first with
            | error e => exact ⟨h0.said _, rfl⟩
            | ok second => exact ⟨(h0.said _).said _, rfl⟩
        · exact ⟨h0, rfl⟩
      | ok new =>
        simp only
        split
        · split <;> exact ⟨h0.said _, rfl⟩
        · exact ⟨h0.said _, rfl⟩
  · have hw := Agree.loop hK cw args (mainWidth args.lineLength) (args.paths.zip (outputPaths args)) 0 0 h0
    simp only [reformatFilesB, reformatFiles]
    cases h1 : filesLoopB K F cw args (mainWidth args.lineLength) { disk := d, ops := [], out := [] } 0 0
        (args.paths.zip (outputPaths args)) with
    | mk r1 e1 =>
      cases h2 : filesLoop F cw args (mainWidth args.lineLength) { disk := textsOf K d, ops := [], out := [] } 0 0
          (args.paths.zip (outputPaths args)) with
      | mk r2 e2 =>
        rw [h1, h2] at hw
        obtain ⟨ha, he⟩ := hw
        simp only at ha he
        subst he
        cases e1 with
        | error e => exact ⟨ha, rfl⟩
        | ok x => exact ⟨(ha.said _).said _, rfl⟩

end

/-! ## Steps -/

theorem appends_append {p : Path} {t t' : Str} : ∀ {x y : List Op}, (∀ o ∈ x.head?, ∃ q, o = .trunc q) →
    (∀ o ∈ y.head?, ∃ q, o = .trunc q) → t.map (Op.append p) ++ x = t'.map (Op.append p) ++ y → t = t' ∧ x = y := by
  induction t generalizing t' with
  | nil =>
    intro x y hx hy h
    cases t' with
    | nil => exact ⟨rfl, h⟩
    | cons c t' =>
      simp only [List.map_nil, List.nil_append, List.map_cons, List.cons_append] at h
      obtain ⟨q, hq⟩ := hx _ (by rw [h]; rfl)
      exact nomatch hq
  | cons c t ih =>
    intro x y hx hy h
    cases t' with
    | nil =>
      simp only [List.map_nil, List.nil_append, List.map_cons, List.cons_append] at h
      obtain ⟨q, hq⟩ := hy _ (by rw [← h]; rfl)
      exact nomatch hq
    | cons c' t' =>
      simp only [List.map_cons, List.cons_append, List.cons.injEq, Op.append.injEq, true_and] at h
      obtain ⟨h1, h2⟩ := ih hx hy h.2
      exact ⟨by rw [h.1, h1], h2⟩

theorem writesOps_head (ws : List (Path × Str)) : ∀ o ∈ (writesOps ws).head?, ∃ q, o = .trunc q := by
  intro o ho
  cases ws with
  | nil => exact nomatch ho
  | cons x ws =>
    have e : writesOps (x :: ws) = .trunc x.1 :: (x.2.map (.append x.1) ++ writesOps ws) := rfl
    rw [e] at ho
    exact ⟨x.1, (Option.some.inj ho).symm⟩

/-- What was written can be told from the steps. -/
theorem writesOps_inj : ∀ {ws ws' : List (Path × Str)}, writesOps ws = writesOps ws' → ws = ws' := by
  intro ws
  induction ws with
  | nil =>
    intro ws' h
    cases ws' with
    | nil => rfl
    | cons x ws' => exact nomatch h
  | cons x ws ih =>
    intro ws' h
    cases ws' with
    | nil => exact nomatch h
    | cons y ws' =>
      have e : ∀ (x : Path × Str) ws, writesOps (x :: ws) = .trunc x.1 :: (x.2.map (.append x.1) ++ writesOps ws) :=
        fun _ _ => rfl
      rw [e, e, List.cons.injEq, Op.trunc.injEq] at h
      obtain ⟨h1, h2⟩ := h
      rw [h1] at h2
      obtain ⟨h3, h4⟩ := appends_append (writesOps_head ws) (writesOps_head ws') h2
      rw [ih h4]
      exact congrArg (· :: ws') (Prod.ext h1 h3)

theorem prefix_writeBytes {p : Path} {t : Bytes} {ops : List ByteOp} (h : ops <+: writeBytes p t) :
    ops = [] ∨ ∃ beg, beg <+: t ∧ ops = writeBytes p beg := by
  cases ops with
  | nil => exact .inl rfl
  | cons o ops =>
    right
    unfold writeBytes at h
    rw [List.cons_prefix_cons] at h
    obtain ⟨rfl, h⟩ := h
    obtain ⟨more, hm⟩ := h
    have hl := congrArg (List.take ops.length) hm
    rw [List.take_left, ← List.map_take] at hl
    exact ⟨t.take ops.length, List.take_prefix _ _, by rw [writeBytes, ← hl]⟩

theorem prefix_writesBytes (K : Codec) (ws : List (Path × Str)) : ∀ {crash : List ByteOp}, crash <+: writesBytes K ws →
    ∃ done rest, ws = done ++ rest ∧ (crash = writesBytes K done ∨
      ∃ x beg, rest.head? = some x ∧ beg <+: (K.encode x.2).getD [] ∧ crash = writesBytes K done ++ writeBytes x.1 beg) := by
  induction ws with
  | nil =>
    intro crash h
    exact ⟨[], [], rfl, .inl (by simpa [writesBytes] using h)⟩
  | cons x ws ih =>
    intro crash h
    have h1 : writesBytes K (x :: ws) = writeBytes x.1 ((K.encode x.2).getD []) ++ writesBytes K ws := rfl
    rw [h1] at h
    rcases prefix_append_cases h with h | ⟨c, rfl, h'⟩
    · rcases prefix_writeBytes h with rfl | ⟨beg, hb, rfl⟩
      · exact ⟨[], x :: ws, rfl, .inl rfl⟩
      · exact ⟨[], x :: ws, rfl, .inr ⟨x, beg, rfl, hb, rfl⟩⟩
    · obtain ⟨done, rest, rfl, h2⟩ := ih h'
      refine ⟨x :: done, rest, rfl, ?_⟩
      have h3 : writesBytes K (x :: done) = writeBytes x.1 ((K.encode x.2).getD []) ++ writesBytes K done := rfl
      rcases h2 with rfl | ⟨y, beg, hy, hb, rfl⟩
      · exact .inl h3.symm
      · exact .inr ⟨y, beg, hy, hb, by rw [h3, List.append_assoc]⟩

theorem applyBytes_writes (K : Codec) (ws : List (Path × Str)) : ∀ (d : ByteDisk) (q : Path),
    applyBytes d (writesBytes K ws) q = d q ∨
      ∃ x ∈ ws, applyBytes d (writesBytes K ws) q = some ((K.encode x.2).getD []) := by
  induction ws with
  | nil => intro d q; exact .inl rfl
  | cons x ws ih =>
    intro d q
    have h1 : writesBytes K (x :: ws) = writeBytes x.1 ((K.encode x.2).getD []) ++ writesBytes K ws := rfl
    rw [h1, applyBytes_append]
    rcases ih (applyBytes d (writeBytes x.1 ((K.encode x.2).getD []))) q with h | ⟨y, hy, h⟩
    · rw [h, applyBytes_write]
      by_cases hq : q = x.1
      · exact .inr ⟨x, by simp, by simp [hq]⟩
      · exact .inl (if_neg hq)
    · exact .inr ⟨y, by simp [hy], h⟩

/-! ## Encodings -/

/-- An encoding with a set of characters that has the ASCII characters. -/
structure Codec.Charset (K : Codec) (has : Char → Prop) : Prop where
  lawful : K.Lawful
  ascii : ∀ c : Char, c.toNat < 128 → has c
  encodes : ∀ s, (∀ c ∈ s, has c) → ∃ b, K.encode s = some b
  decodes : ∀ b s, K.decode b = some s → ∀ c ∈ s, has c

/-- The encoding "iso-8859-1". -/
def latin1 : Codec :=
  { decode := fun b => some (b.map fun x => Char.ofNat x.toNat)
    encode := fun s => if s.all (·.toNat < 256) then some (s.map fun c => UInt8.ofNat c.toNat) else none }

/-- C123: UTF-8 suits every formatter. -/
theorem C123_utf8 (F : Formatter) : Suits utf8 F fun _ => True where
  lawful s b h := (utf8_inverse b s).2 h
  encodes _ _ := ⟨_, rfl⟩
  read _ _ _ := trivial
  full _ _ _ _ _ := trivial
  pass _ _ _ _ _ := trivial

/-- C123: every encoding that has the ASCII characters suits markflow: what has been decoded can be encoded when it has been
formatted, so that no file is lost because it has been opened for writing. -/
theorem C123_charset {K : Codec} {has : Char → Prop} (h : K.Charset has) (n : Nat) :
    Suits K (markflow n) fun s => ∀ c ∈ s, has c := by
  have hown : ∀ c ∈ ownChars, has c := fun c hc => h.ascii c ((by decide : ∀ c ∈ ownChars, c.toNat < 128) c hc)
  refine ⟨h.lawful, h.encodes, ?_, ?_, ?_⟩
  · intro b s hb c hc
    rcases mem_univNewlines hc with hc | rfl
    · exact h.decodes b s hb c hc
    · exact h.ascii _ (by decide)
  · intro w s t hs ht c hc
    rcases fine_own (reformatMarkdownText_fine ht) hc with h1 | h1
    · exact hs c h1
    · exact hown c h1
  · intro w s t hs ht c hc
    rcases fine_own (reformatText_fine _ _ _ _ ht) hc with h1 | h1
    · exact hs c h1
    · exact hown c h1

theorem latin1_charset : latin1.Charset fun c => c.toNat < 256 := by
  have hb : ∀ x : UInt8, (Char.ofNat x.toNat).toNat = x.toNat := by
    intro x
    have hx := x.toNat_lt
    have hv : x.toNat.isValidChar := .inl (by omega)
    show (Char.ofNat x.toNat).toNat = _
    unfold Char.ofNat
    rw [dif_pos hv]
    show (UInt32.ofNatLT x.toNat _).toNat = _
    simp
  refine ⟨?_, fun c h => by omega, ?_, ?_⟩
  · intro s b h
    simp only [latin1] at h ⊢
    split at h
    · rename_i ha
      have hx := Option.some.inj h
      subst hx
      simp only [List.all_eq_true, decide_eq_true_eq] at ha
      rw [List.map_map]
      refine congrArg some ((List.map_congr_left fun c hc => ?_).trans s.map_id)
      simp only [Function.comp_apply, id]
      rw [toNat_ofNat_small (ha c hc)]
      exact Char.ofNat_toNat c
    · exact nomatch h
  · intro s hs
    simp only [latin1]
    rw [if_pos (by simpa using hs)]
    exact ⟨_, rfl⟩
  · intro b s h c hc
    have hx := Option.some.inj h
    subst hx
    obtain ⟨x, _, rfl⟩ := List.mem_map.1 hc
    rw [hb]
    exact x.toNat_lt

/-! ## The claims -/

theorem exitStatus_plain (x : Except ByteErr Nat) : exitStatusB x = exitStatus (plainErr x) := by
  cases x with
  | ok n => rfl
  | error e =>
    cases e with
    | cli e =>
      cases e with
      | fmt e p => cases e <;> rfl
      | os p => rfl
    | undecodable p => rfl
    | unencodable p => rfl

/-- C123: a run on files of bytes is a run on their texts: it prints the same, has the same outcome and exit status, and
leaves the same texts. -/
theorem C123_run {K : Codec} {F : Formatter} {T : Str → Prop} (hK : Suits K F T) (cw : Path → Bool) (args : Args)
    (stdin : Option Str) (d : ByteDisk) :
    let x := mainRunB K F cw args stdin d
    let y := mainRun F cw args stdin (textsOf K d)
    textsOf K x.1.disk = y.1.disk ∧ x.1.out = y.1.out ∧ plainErr x.2 = y.2 ∧ exitStatusB x.2 = exitStatus y.2 := by
  have h := agrees_main hK cw args stdin d
  exact ⟨h.1.texts, h.1.out, h.2, by rw [exitStatus_plain, h.2]⟩

/-- C123: and the steps are those of writing the same texts, encoded. -/
theorem C123_steps {K : Codec} {F : Formatter} {T : Str → Prop} (hK : Suits K F T) (cw : Path → Bool) (args : Args)
    (stdin : Option Str) (d : ByteDisk) (ws : List (Path × Str))
    (h : (mainRun F cw args stdin (textsOf K d)).1.ops = writesOps ws) :
    (mainRunB K F cw args stdin d).1.ops = writesBytes K ws ∧
    (mainRunB K F cw args stdin d).1.disk = applyBytes d (writesBytes K ws) ∧
    ∀ x ∈ ws, ∃ b, K.encode x.2 = some b := by
  have ha := (agrees_main hK cw args stdin d).1
  obtain ⟨ws', h1, h2, h3⟩ := ha.writes
  obtain rfl := writesOps_inj (h3.symm.trans h)
  exact ⟨h2, by rw [ha.disk, h2], h1⟩

/-- C123: where a run on texts writes nothing, no byte changes. -/
theorem C123_untouched {K : Codec} {F : Formatter} {T : Str → Prop} (hK : Suits K F T) (cw : Path → Bool) (args : Args)
    (stdin : Option Str) (d : ByteDisk) (h : (mainRun F cw args stdin (textsOf K d)).1.ops = []) :
    (mainRunB K F cw args stdin d).1.disk = d :=
  (C123_steps hK cw args stdin d [] h).2.1

/-- C123: whenever a run is interrupted, between any two bytes, at most one file is incomplete: it holds the beginning of an
encoded text. Every other file holds the bytes it held before or exactly the encoding of a text that the formatter made of
the files given. -/
theorem C123_interrupted {K : Codec} {F : Formatter} {T : Str → Prop} (hK : Suits K F T) (cw : Path → Bool) (args : Args)
    (stdin : Option Str) (d : ByteDisk) (crash : List ByteOp) (h : crash <+: (mainRunB K F cw args stdin d).1.ops) :
    ∃ hit : Option Path,
      (∀ q, hit ≠ some q → applyBytes d crash q = d q ∨ ∃ t b, applyBytes d crash q = some b ∧ K.encode t = some b ∧
        Content F (mainWidth args.lineLength) args.paths (textsOf K d) t) ∧
      (∀ q, hit = some q → ∃ beg t b, applyBytes d crash q = some beg ∧ beg <+: b ∧ K.encode t = some b ∧
        Content F (mainWidth args.lineLength) args.paths (textsOf K d) t) := by
  obtain ⟨ws, h1, _, h3⟩ := mainRun_wrote F cw args stdin (textsOf K d)
  obtain ⟨h4, _, h6⟩ := C123_steps hK cw args stdin d ws (by simpa using h1)
  rw [h4] at h
  obtain ⟨done, rest, rfl, hc⟩ := prefix_writesBytes K ws h
  have hdone : ∀ q, applyBytes d (writesBytes K done) q = d q ∨ ∃ t b, applyBytes d (writesBytes K done) q = some b ∧
      K.encode t = some b ∧ Content F (mainWidth args.lineLength) args.paths (textsOf K d) t := by
    intro q
    rcases applyBytes_writes K done d q with h0 | ⟨x, hx, h0⟩
    · exact .inl h0
    · obtain ⟨b, hb⟩ := h6 x (by simp [hx])
      exact .inr ⟨x.2, b, by rw [h0, hb]; rfl, hb, h3 x (by simp [hx])⟩
  rcases hc with rfl | ⟨x, beg, hx, hbeg, rfl⟩
  · exact ⟨none, fun q _ => hdone q, fun q hq => by cases hq⟩
  · have hmem : x ∈ done ++ rest := by
      cases rest with
      | nil => cases hx
      | cons y ys => cases hx; simp
    obtain ⟨b, hb⟩ := h6 x hmem
    refine ⟨some x.1, ?_, ?_⟩
    · intro q hq
      rw [applyBytes_append, applyBytes_write]
      have hq' : q ≠ x.1 := fun h0 => hq (by rw [h0])
      simp only [hq', if_false]
      exact hdone q
    · intro q hq
      cases hq
      rw [applyBytes_append, applyBytes_write]
      exact ⟨beg, x.2, b, by simp, by rw [hb] at hbeg; exact hbeg, hb, h3 x hmem⟩

theorem filesLoopB_append (K : Codec) (F : Formatter) (cw : Path → Bool) (args : Args) (w : Width)
    (ps qs : List (Path × Path)) : ∀ (r : ByteRun) (a b : Nat) (r' : ByteRun) (a' b' : Nat),
      filesLoopB K F cw args w r a b ps = (r', .ok (a', b')) →
      filesLoopB K F cw args w r a b (ps ++ qs) = filesLoopB K F cw args w r' a' b' qs := by
  induction ps with
  | nil =>
    intro r a b r' a' b' h
    simp only [filesLoopB, Prod.mk.injEq, Except.ok.injEq] at h
    obtain ⟨rfl, rfl, rfl⟩ := h
    rfl
  | cons p ps ih =>
    intro r a b r' a' b' h
    obtain ⟨i, o⟩ := p
    simp only [List.cons_append, filesLoopB] at h ⊢
    cases hs : stepFileB K F cw args w r i o with
    | mk r1 res =>
      rw [hs] at h
      cases res with
      | error e => cases h
      | ok bb => cases bb <;> exact ih _ _ _ _ _ _ h

/-- C123: a file that cannot be decoded ends the run with an exception, whatever the encoding. The files before it have been
dealt with; the others, and its own output, have not been touched. -/
theorem C123_undecodable (K : Codec) (F : Formatter) (cw : Path → Bool) (args : Args) (d : ByteDisk) (w : Width)
    (before after : List Path) (p : Path) (r : ByteRun) (n : Nat) (b : Bytes)
    (hpaths : args.paths = before ++ p :: after) (hf : args.outputFiles = [])
    (hbefore : reformatFilesB K F cw { args with paths := before } w d = (r, .ok n))
    (hread : r.disk p = some b) (hdec : K.decode b = none) :
    ∃ r', reformatFilesB K F cw args w d = (r', .error (.undecodable p)) ∧ r'.disk = r.disk ∧ r'.ops = r.ops := by
  have hargs : ∀ ps r a b, filesLoopB K F cw { args with paths := before } w r a b ps =
      filesLoopB K F cw args w r a b ps := by
    intro ps
    induction ps with
    | nil => intro r a b; rfl
    | cons x ps ih =>
      intro r a b
      obtain ⟨i, o⟩ := x
      have hstep : stepFileB K F cw { args with paths := before } w r i o = stepFileB K F cw args w r i o := rfl
      simp only [filesLoopB, hstep]
      cases stepFileB K F cw args w r i o with
      | mk r1 res =>
        cases res with
        | error e => rfl
        | ok bb => cases bb <;> exact ih _ _ _
  have hl : ∃ r0 a b, filesLoopB K F cw args w { disk := d, ops := [], out := [] } 0 0
      (before.zip (outputPaths { args with paths := before })) = (r0, .ok (a, b)) ∧ r.disk = r0.disk ∧ r.ops = r0.ops := by
    unfold reformatFilesB at hbefore
    rw [hargs] at hbefore
    cases hl : filesLoopB K F cw args w { disk := d, ops := [], out := [] } 0 0
        (before.zip (outputPaths { args with paths := before })) with
    | mk r0 res =>
      rw [hl] at hbefore
      cases res with
      | error e => cases hbefore
      | ok cu =>
        simp only [Prod.mk.injEq, Except.ok.injEq] at hbefore
        obtain ⟨rfl, _⟩ := hbefore
        exact ⟨r0, cu.1, cu.2, rfl, rfl, rfl⟩
  obtain ⟨r0, a, b', hl, hdisk, hops⟩ := hl
  have hzip : ∃ o rest, args.paths.zip (outputPaths args) =
      before.zip (outputPaths { args with paths := before }) ++ (p, o) :: rest := by
    unfold outputPaths
    simp only [hpaths, hf, List.isEmpty_nil, if_true]
    cases args.outputDirectory with
    | none =>
      refine ⟨p, after.zip after, ?_⟩
      simp only
      rw [List.zip_append rfl]; rfl
    | some dir =>
      refine ⟨pathJoin dir (pathName p), after.zip (after.map fun p => pathJoin dir (pathName p)), ?_⟩
      simp only [List.map_append, List.map_cons]
      rw [List.zip_append (by simp)]; rfl
  obtain ⟨o, rest, hzip⟩ := hzip
  have hstep : stepFileB K F cw args w r0 p o = (r0, .error (.undecodable p)) := by
    simp only [stepFileB, readTextB, ← hdisk, hread, hdec]
  refine ⟨r0, ?_, hdisk.symm, hops.symm⟩
  unfold reformatFilesB
  rw [hzip, filesLoopB_append K F cw args w _ ((p, o) :: rest) _ 0 0 _ _ _ hl]
  simp only [filesLoopB, hstep]

theorem utf8Loop_append (s : Str) : ∀ (fuel : Nat) (r : Bytes), (s.flatMap utf8Char ++ r).length ≤ fuel →
    utf8Loop fuel (s.flatMap utf8Char ++ r) = (utf8Loop (fuel - s.length) r).map (s ++ ·) := by
  induction s with
  | nil => intro fuel r _; simp
  | cons c s ih =>
    intro fuel r h
    have hne := utf8Char_ne c
    have hp := List.length_pos_iff.2 hne
    rw [List.flatMap_cons, List.append_assoc] at h ⊢
    rw [List.length_append] at h
    cases fuel with
    | zero => omega
    | succ fuel =>
      have e : utf8Loop (fuel + 1) (utf8Char c ++ (s.flatMap utf8Char ++ r)) =
          (utf8Loop fuel (s.flatMap utf8Char ++ r)).map (c :: ·) := by
        cases hb : utf8Char c ++ (s.flatMap utf8Char ++ r) with
        | nil => exact absurd (List.append_eq_nil_iff.1 hb).1 hne
        | cons x b =>
          simp only [utf8Loop]
          rw [← hb, utf8First_char]
      rw [e, ih fuel r (by omega), Option.map_map, List.length_cons, Nat.add_sub_add_right]
      rfl

/-- C123: UTF-8 text with a character outside of ASCII can be cut so that what is left cannot be decoded; a run that is
interrupted there leaves a file that the next run does not accept. -/
theorem C123_torn (t : Str) (h : ∃ c ∈ t, 128 ≤ c.toNat) :
    ∃ beg, beg <+: t.flatMap utf8Char ∧ utf8.decode beg = none := by
  obtain ⟨c, hc, hn⟩ := h
  obtain ⟨a, z, rfl⟩ := List.append_of_mem hc
  have hx : ∃ x y, utf8Char c = x :: y ∧ 128 ≤ x.toNat := by
    have hr := char_range c
    unfold utf8Char
    simp only
    rw [if_neg (by omega)]
    split
    · exact ⟨_, _, rfl, by rw [toNat_ofNat_small (by omega)]; omega⟩
    · split
      · exact ⟨_, _, rfl, by rw [toNat_ofNat_small (by omega)]; omega⟩
      · exact ⟨_, _, rfl, by rw [toNat_ofNat_small (by omega)]; omega⟩
  obtain ⟨x, y, hxy, hx⟩ := hx
  refine ⟨a.flatMap utf8Char ++ [x], ⟨y ++ z.flatMap utf8Char, ?_⟩, ?_⟩
  · simp [hxy]
  · show utf8Loop _ _ = none
    rw [utf8Loop_append a _ [x] (Nat.le_refl _)]
    have hf : ∀ fuel, utf8Loop fuel [x] = none := by
      intro fuel
      cases fuel with
      | zero => rfl
      | succ fuel =>
        have : utf8First [x] = none := by
          simp only [utf8First]
          rw [if_neg (by omega)]
          repeat' split
          all_goals first | rfl | (rename_i h; exact nomatch h)
        simp only [utf8Loop, this]
    rw [hf]
    rfl

/-- C123: a byte order mark is a character like others. A document that begins with one begins with a paragraph or an underlined
heading, whatever would begin without it. -/
theorem C123_mark {n : Nat} {l : Str} {more : List Str} {secs : List (Sec × List Str)}
    (h : parse n (('\ufeff' :: l) :: more) = .ok secs) : ∃ s ∈ secs.head?, s.1 = .par ∨ s.1 = .setext := by
  have hd : divideQ n (('\ufeff' :: l) :: more) = .ok secs := by
    rw [← C117_division n _ (by rw [h]; exact fun h => nomatch h), h]
  have hw : isWs '\ufeff' = false := by decide
  have hg : isDigit '\ufeff' = false := by decide
  have hk : kindOf ('\ufeff' :: l) = none := by
    have hb : bulletLine ('\ufeff' :: l) = false := by
      unfold bulletLine
      rw [List.dropWhile_cons_of_neg (by simp [hw])]
      split
      · rename_i h; obtain ⟨rfl, _⟩ := List.cons.inj h; decide
      · rfl
    have hn : numberLine ('\ufeff' :: l) = false := by simp [numberLine, hw, hg]
    simp [kindOf, fenceLine, getIndent, lstrip, hw, hb, hn, ruleLine]
  have hl : defLines (('\ufeff' :: l) :: more) = .ok 0 := by
    simp [defLines, labelRest, hw]
  simp only [divideQ, divideWith, divideLoopQ, List.length_cons, firstExtentQ, hk, hl, bind, Except.bind, ne_eq,
    not_true_eq_false, if_false] at hd
  split at hd
  · cases hd
  · rename_i v hv
    have hs : v.1 = .par ∨ v.1 = .setext := by
      split at hv
      · cases hv
      · split at hv
        · split at hv <;> (obtain rfl := Except.ok.inj hv; simp)
        · obtain rfl := Except.ok.inj hv; simp
    split at hd
    · cases hd
    · obtain rfl := Except.ok.inj hd
      exact ⟨_, rfl, hs⟩

/-- C123: what would happen if a formatter made characters that the encoding lacks: the file has been opened and is left empty,
and nothing else is touched. `C123_run` shows that this does not happen to this formatter. -/
theorem C123_unencodable (K : Codec) (F : Formatter) (cw : Path → Bool) (args : Args) (d : ByteDisk) (p : Path) (b : Bytes)
    (s t : Str) (hpaths : args.paths = [p]) (hf : args.outputFiles = []) (hd : args.outputDirectory = none)
    (hcheck : args.check = false) (hread : d p = some b) (hdec : K.decode b = some s)
    (hfull : F.full (mainWidth args.lineLength) (univNewlines s) = .ok t) (hne : t ≠ univNewlines s) (hcw : cw p = true)
    (henc : K.encode t = none) (stdin : Option Str) :
    let x := mainRunB K F cw args stdin d
    x.2 = .error (.unencodable p) ∧ exitStatusB x.2 = 1 ∧ x.1.out = [] ∧ x.1.ops = [.trunc p] ∧
      x.1.disk = fun q => if q = p then some [] else d q := by
  have hread' : readTextB K d p = .ok (univNewlines s) := by unfold readTextB; rw [hread]; simp only [hdec]
  have hne' : (t != univNewlines s) = true := by simpa using hne
  have hw : ∀ r : ByteRun, doWriteB K cw r p t =
      ({ r with disk := applyBytes r.disk [.trunc p], ops := r.ops ++ [.trunc p] }, .error (.unencodable p)) := by
    intro r; unfold doWriteB; rw [if_pos hcw]; simp only [henc]
  have hx : mainRunB K F cw args stdin d =
      ({ disk := applyBytes d [.trunc p], ops := [.trunc p], out := [] }, .error (.unencodable p)) := by
    simp only [mainRunB, hpaths, List.isEmpty_cons, Bool.false_eq_true, if_false, reformatFilesB, outputPaths, hf,
      List.isEmpty_nil, if_true, hd, List.zip_cons_cons, List.zip_nil_right, filesLoopB, stepFileB, hread', hfull, hne', hcheck,
      Bool.not_false, hw, List.nil_append]
  rw [hx]
  exact ⟨rfl, rfl, rfl, rfl, rfl⟩

/-- An encoding that reads every byte and writes only those of ASCII: `é  a` leaves the file empty. -/
theorem C123_unencodable_example :
    let K : Codec := { latin1 with encode := fun s => if s.all (·.toNat < 128) then latin1.encode s else none }
    let args : Args := { lineLength := 88, paths := [[c!"f"]], check := false, outputDirectory := none,
                         outputFiles := [], writeRenders := false, logLevel := 40 }
    let d : ByteDisk := fun _ => some [0xE9, 0x20, 0x20, 0x61]
    let run := mainRunB K (markflow 3) (fun _ => true) args none d
    run.2 = .error (.unencodable [c!"f"]) ∧ run.1.disk [c!"f"] = some [] ∧ run.1.disk [c!"g"] = d [c!"g"] := by
  decide +kernel

/-- One file in UTF-8, `é  ü`, and a file `ÿ` in Latin-1, which is not UTF-8. The first is formatted; after five steps of the
run it ends in the middle of a character. The second ends the run. In Latin-1 both can be formatted. With a byte order mark
the heading `a` is a paragraph. -/
theorem C123_example :
    let args : Args := { lineLength := 88, paths := [[c!"f"], [c!"g"]], check := false, outputDirectory := none,
                         outputFiles := [], writeRenders := false, logLevel := 40 }
    let d : ByteDisk := fun p => if p = [c!"f"] then some [0xC3, 0xA9, 0x20, 0x20, 0xC3, 0xBC] else some [0xFF, 0x20, 0x0A]
    let run := mainRunB utf8 (markflow 3) (fun _ => true) args none d
    let other := mainRunB latin1 (markflow 3) (fun _ => true) args none d
    run.1.disk [c!"f"] = some [0xC3, 0xA9, 0x20, 0xC3, 0xBC, 0x0A] ∧
    run.1.disk [c!"g"] = some [0xFF, 0x20, 0x0A] ∧ run.2 = .error (.undecodable [c!"g"]) ∧ exitStatusB run.2 = 1 ∧
    applyBytes d (run.1.ops.take 5) [c!"f"] = some [0xC3, 0xA9, 0x20, 0xC3] ∧
    utf8.decode [0xC3, 0xA9, 0x20, 0xC3] = none ∧
    other.2 = .ok 0 ∧ other.1.disk [c!"g"] = some [0xFF, 0x0A] ∧
    parse 3 [c!"# a"] = .ok [(.atx, [c!"# a"])] ∧
    parse 3 ['\ufeff' :: c!"# a"] = .ok [(.par, ['\ufeff' :: c!"# a"])] := by
  decide +kernel

end MF
