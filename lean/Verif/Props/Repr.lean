import Verif.Lemmas.Repr
import Verif.Props.DetectFound
import Verif.Props.Args
/-!
# C74, C75, C76, C77: the text of log messages
-/

namespace MF

/-! ## Specification -/

/-- A character that is shown as itself on a terminal: printable ASCII, or printable according to the character database. -/
def Visible (printable : Char → Bool) (c : Char) : Prop :=
  32 ≤ c.toNat ∧ c.toNat < 127 ∨ 127 < c.toNat ∧ printable c = true

/-- The text of a section its message shows an excerpt of; the first such text where there are several. -/
def subject : Sec → List Str → Str
  | .atx, l :: _ => strip ((strip l).dropWhile (· == '#'))
  | .par, ls => pyJoin [' '] (ls.map strip)
  | .setext, ls => pyJoin [' '] (ls.dropLast.map strip)
  | .quote, l :: _ | .bullet, l :: _ | .ordered, l :: _ => l
  | .indented, l :: _ => strip l
  | _, _ => []

/-! ## The message exists exactly if the check before it passes -/

theorem firstChar_check (l : Str) :
    (firstChar l).map (fun _ => ()) = if (strip l).isEmpty then .error .indexError else .ok () := by
  unfold firstChar
  cases strip l <;> rfl

theorem sectionRepr_check (P : Char → Bool) (ty : Sec) (lines : List Str) :
    (sectionRepr P ty lines).map (fun _ => ()) = reprCheck ty lines := by
  have hf : ∀ (l : Str) (f : Char → Str), (firstChar l >>= fun c => (.ok (f c) : Except Err Str)).map (fun _ => ()) =
      if (strip l).isEmpty then .error .indexError else .ok () := by
    intro l f
    rw [← firstChar_check]
    cases firstChar l <;> rfl
  cases ty with
  | atx => cases lines <;> rfl
  | blank => rfl
  | quote => cases lines <;> rfl
  | bullet =>
    cases lines with
    | nil => rfl
    | cons l ls =>
      simp only [sectionRepr, reprCheck]
      cases lstrip l <;> rfl
  | fenced =>
    rcases lines with _ | ⟨l, _ | ⟨l1, more⟩⟩
    · rfl
    · rfl
    · exact hf l _
  | indented => cases lines <;> rfl
  | lrd =>
    simp only [sectionRepr, reprCheck]
    cases lrdParts lines <;> rfl
  | ordered =>
    cases lines with
    | nil => rfl
    | cons l ls =>
      simp only [sectionRepr, reprCheck]
      cases firstNumber l <;> rfl
  | par => rfl
  | setext =>
    simp only [sectionRepr, reprCheck]
    split
    · rfl
    · exact hf _ _
  | table => rfl
  | thematic =>
    cases lines with
    | nil => rfl
    | cons l ls => exact hf l _

/-! ## C74: only visible characters -/

/-- All characters are visible. -/
def Clear (P : Char → Bool) (s : Str) : Prop := ∀ c ∈ s, Visible P c

theorem Clear.append {P : Char → Bool} {a b : Str} (ha : Clear P a) (hb : Clear P b) : Clear P (a ++ b) := by
  intro c hc
  rcases List.mem_append.1 hc with h | h
  · exact ha c h
  · exact hb c h

theorem clear_of_all {P : Char → Bool} {s : Str} (h : (s.all fun c => decide (32 ≤ c.toNat ∧ c.toNat < 127)) = true) :
    Clear P s := fun c hc => .inl (by simpa using List.all_eq_true.1 h c hc)

theorem clear_digits {P : Char → Bool} (n : Nat) : Clear P (natStr n) := by
  intro c hc
  have := (natStr_spec n).2.1 c hc
  simp only [isDigit, Bool.and_eq_true, decide_eq_true_eq] at this
  exact .inl (by omega)

theorem clear_hex {P : Char → Bool} (w n : Nat) : Clear P (hex w n) := by
  intro c hc
  have := hex_range w n c hc
  exact .inl (by omega)

theorem Code.clear {P : Char → Bool} {q c : Char} {a : Str} (hq : IsQuoteMark q) (h : Code P q c a) : Clear P a := by
  cases h with
  | plain _ _ _ h3 => intro x hx; rw [List.mem_singleton.1 hx]; exact h3
  | same _ h =>
    intro x hx
    rcases h with rfl | rfl
    · rcases hq with rfl | rfl <;> simp at hx <;> rcases hx with rfl | rfl <;> exact .inl (by decide)
    · simp at hx; rw [hx]; exact .inl (by decide)
  | tab => exact clear_of_all (by decide)
  | newline => exact clear_of_all (by decide)
  | ret => exact clear_of_all (by decide)
  | x => exact Clear.append (a := c!"\\x") (clear_of_all (by decide)) (clear_hex 2 _)
  | u => exact Clear.append (a := c!"\\u") (clear_of_all (by decide)) (clear_hex 4 _)
  | U => exact Clear.append (a := c!"\\U") (clear_of_all (by decide)) (clear_hex 8 _)

theorem clear_repr (P : Char → Bool) (s : Str) : Clear P (pyRepr P s) := by
  have hm := reprQuote_mark s
  have hq : Clear P [reprQuote s] := by
    rcases hm with h | h <;> rw [h] <;> exact clear_of_all (by decide)
  refine (hq.append fun c hc => ?_).append hq
  obtain ⟨d, _, hd⟩ := List.mem_flatMap.1 hc
  exact (reprChar_code P _ d).clear hm c hd

/-- The representation of a section has only visible characters, whatever its lines are. -/
theorem C74_visible (P : Char → Bool) (ty : Sec) (lines : List Str) (r : Str) (h : sectionRepr P ty lines = .ok r) :
    Clear P r := by
  have lit : ∀ {s : Str}, (s.all fun c => decide (32 ≤ c.toNat ∧ c.toNat < 127)) = true → Clear P s := clear_of_all
  have rep := clear_repr P
  have short : ∀ s, Clear P (reprShort P s) := fun s => rep _
  have num : ∀ n, Clear P (natStr n) := clear_digits
  cases ty with
  | atx =>
    cases lines with
    | nil => cases h
    | cons l ls =>
      cases h
      exact ((((((lit (by decide)).append (lit (by decide))).append (lit (by decide))).append (num _)).append
        (lit (by decide))).append (short _)).append (lit (by decide))
  | blank => cases h; exact lit (by decide)
  | quote =>
    cases lines with
    | nil => cases h
    | cons l ls =>
      cases h
      exact (((lit (by decide)).append (lit (by decide))).append (short _)).append (lit (by decide))
  | bullet =>
    cases lines with
    | nil => cases h
    | cons l ls =>
      simp only [sectionRepr] at h
      cases hl : lstrip l with
      | nil => rw [hl] at h; cases h
      | cons c t =>
        rw [hl] at h
        cases h
        exact (((((lit (by decide)).append (lit (by decide))).append (rep _)).append (lit (by decide))).append
          (short _)).append (lit (by decide))
  | fenced =>
    rcases lines with _ | ⟨l, _ | ⟨l1, more⟩⟩
    · cases h
    · cases h
    · simp only [sectionRepr, bind, Except.bind] at h
      cases hf : firstChar l with
      | error e => rw [hf] at h; cases h
      | ok c =>
        rw [hf] at h
        cases h
        refine (((((((((lit (by decide)).append (lit (by decide))).append (lit (by decide))).append (rep _)).append
          (lit (by decide))).append (num _)).append (lit (by decide))).append (rep _)).append (lit (by decide))).append
          ?_ |>.append (lit (by decide))
        split
        · exact lit (by decide)
        · exact short _
  | indented =>
    cases lines with
    | nil => cases h
    | cons l ls =>
      cases h
      exact ((((lit (by decide)).append (lit (by decide))).append (lit (by decide))).append (short _)).append
        (lit (by decide))
  | lrd =>
    simp only [sectionRepr, bind, Except.bind] at h
    cases hp : lrdParts lines with
    | error e => rw [hp] at h; cases h
    | ok x =>
      rw [hp] at h
      cases h
      exact ((((((((lit (by decide)).append (lit (by decide))).append (lit (by decide))).append (short _)).append
        (lit (by decide))).append (short _)).append (lit (by decide))).append (short _)).append (lit (by decide))
  | ordered =>
    cases lines with
    | nil => cases h
    | cons l ls =>
      simp only [sectionRepr, bind, Except.bind] at h
      cases hp : firstNumber l with
      | error e => rw [hp] at h; cases h
      | ok x =>
        rw [hp] at h
        cases h
        exact (((((lit (by decide)).append (lit (by decide))).append (num _)).append (lit (by decide))).append
          (short _)).append (lit (by decide))
  | par =>
    cases h
    exact ((((lit (by decide)).append (lit (by decide))).append (lit (by decide))).append (short _)).append
      (lit (by decide))
  | setext =>
    simp only [sectionRepr, bind, Except.bind] at h
    split at h
    · cases h
    · cases hf : firstChar (lines.getLastD []) with
      | error e => rw [hf] at h; cases h
      | ok c =>
        rw [hf] at h
        cases h
        exact ((((((lit (by decide)).append (lit (by decide))).append (lit (by decide))).append (rep _)).append
          (lit (by decide))).append (short _)).append (lit (by decide))
  | table => cases h; exact lit (by decide)
  | thematic =>
    cases lines with
    | nil => cases h
    | cons l ls =>
      simp only [sectionRepr, bind, Except.bind] at h
      cases hf : firstChar l with
      | error e => rw [hf] at h; cases h
      | ok c =>
        rw [hf] at h
        cases h
        exact ((((lit (by decide)).append (lit (by decide))).append (lit (by decide))).append (rep _)).append
          (lit (by decide))

theorem clear_lines {P : Char → Bool} (a b : Nat) : Clear P (linesText a b) := by
  unfold linesText
  split
  · exact (((clear_of_all (by decide)).append (clear_digits _)).append (clear_of_all (by decide))).append (clear_digits _)
  · exact (clear_of_all (by decide)).append (clear_digits _)

/-- The text of a message, if it has one, has only visible characters. -/
theorem C74_text (P : Char → Bool) (x : Msg) (t : Str) (h : x.text P = .ok t) : Clear P t := by
  have lit : ∀ {s : Str}, (s.all fun c => decide (32 ≤ c.toNat ∧ c.toNat < 127)) = true → Clear P s := clear_of_all
  cases x with
  | sect level a b ty lines =>
    simp only [Msg.text, bind, Except.bind] at h
    cases hr : sectionRepr P ty lines with
    | error e => rw [hr] at h; cases h
    | ok r =>
      rw [hr] at h
      cases h
      exact ((clear_lines a b).append (lit (by decide))).append (C74_visible P ty lines r hr)
  | added k => cases h; exact (lit (by decide +kernel)).append (clear_digits _)
  | noSpace k => cases h; exact ((lit (by decide)).append (clear_digits _)).append (lit (by decide +kernel))
  | found a b ty =>
    cases h
    exact ((clear_lines a b).append (lit (by decide))).append (by cases ty <;> exact lit (by decide))
  | overIndented k => cases h; exact ((lit (by decide +kernel)).append (clear_digits _)).append (lit (by decide +kernel))
  | noLink k => cases h; exact ((lit (by decide +kernel)).append (clear_digits _)).append (lit (by decide +kernel))

/-! ### Every message that is shown has a text -/

/-- The message has a text, and its line numbers fit the lines it carries. -/
def HasText (P : Char → Bool) : Msg → Prop
  | .sect _ a b ty lines => (∃ r, sectionRepr P ty lines = .ok r) ∧ b + 1 = a + lines.length
  | _ => True

theorem HasText.text {P : Char → Bool} {x : Msg} (h : HasText P x) : ∃ t, x.text P = .ok t := by
  cases x with
  | sect level a b ty lines =>
    obtain ⟨⟨r, hr⟩, _⟩ := h
    exact ⟨_, by simp only [Msg.text, hr, bind, Except.bind]; rfl⟩
  | added k => exact ⟨_, rfl⟩
  | noSpace k => exact ⟨_, rfl⟩
  | found a b ty => exact ⟨_, rfl⟩
  | overIndented k => exact ⟨_, rfl⟩
  | noLink k => exact ⟨_, rfl⟩

theorem hasText_build (P : Char → Bool) (secs : List (Sec × List Str)) :
    ∀ i last, Adds (fun _ x => HasText P x) (buildFmtsL i last secs) := by
  induction secs with
  | nil => exact fun _ _ => adds_pure _
  | cons x secs ih =>
    obtain ⟨ty, content⟩ := x
    intro i last
    refine adds_bind (adds_lift _) fun a ha => adds_bind (adds_own fun s hs => ?_) fun _ _ =>
      adds_bind (adds_ite fun hb => adds_own fun s hs => trivial) fun _ _ => adds_bind (ih _ _) fun _ _ => ?_
    · obtain ⟨s0, hc⟩ := ha
      have hc : reprCheck ty content = .ok a := hc
      rw [← sectionRepr_check P] at hc
      refine ⟨?_, by omega⟩
      cases hr : sectionRepr P ty content with
      | error e => rw [hr] at hc; cases hc
      | ok r => exact ⟨r, rfl⟩
    · dsimp only
      split
      · exact adds_pure _
      · exact adds_pure _

theorem hasText_pass (P : Char → Bool) (n : Nat) : ∀ w text, Adds (fun _ x => HasText P x) (reformatTextL n w text) := by
  induction n with
  | zero => exact fun _ _ => adds_lift _
  | succ n ih =>
    intro w text
    refine adds_bind ((adds_parse n (splitlines text)).imp fun l x hx => ?_) fun secs _ =>
      adds_bind (hasText_build P secs 0 none) fun fs _ => adds_bind (adds_all fun f _ => ?_) fun _ _ => adds_pure _
    · cases x with
      | sect => exact hx.1.elim
      | added => trivial
      | noSpace => trivial
      | found => trivial
      | overIndented => trivial
      | noLink => trivial
    · exact adds_section (Q' := fun _ x => HasText P x) (fun _ _ h => h) (fun w text _ => ih w text)
        fun _ _ _ _ _ _ _ => trivial

/-- What a run adds to the messages. -/
theorem hasText_run (P : Char → Bool) (n : Nat) (w : Width) (text : Str) (s : LSt) :
    ∃ ms, (reformatMarkdownTextL n w text s).2.shown = s.shown ++ ms ∧ ∀ x ∈ ms, HasText P x := by
  have key : ∀ (t : Str) (s0 s1 : LSt), s1.shown = s0.shown → ∃ ms, (reformatTextL n w t s1).2.shown = s0.shown ++ ms ∧
      ∀ x ∈ ms, HasText P x := by
    intro t s0 s1 h
    obtain ⟨_, _, _, ms, h1, h2⟩ := hasText_pass P n w t s1
    exact ⟨ms, h ▸ h1, h2⟩
  obtain ⟨ms, h1, h2⟩ := key text s s rfl
  unfold reformatMarkdownTextL
  rw [LogM.bind_eq]
  cases hm : reformatTextL n w text s with
  | mk r s1 =>
    rw [hm] at h1
    cases r with
    | error e => exact ⟨ms, h1, h2⟩
    | ok a =>
      change ∃ ms, ((logIf (decide (s1.effective > DEBUG)) (setLevel fun _ => ERROR) >>= fun _ => (do
        let newNewText ← reformatTextL n w a
        setLevel (fun _ => s1.effective)
        if newNewText != a then lift (.error .inconsistent) else pure (rstrip a ++ ['\n']) : LogM Str)) s1).2.shown =
          s.shown ++ ms ∧ ∀ x ∈ ms, HasText P x
      rw [LogM.bind_eq]
      have h3 : ∃ s2, logIf (decide (s1.effective > DEBUG)) (setLevel fun _ => ERROR) s1 = (.ok (), s2) ∧
          s2.shown = s1.shown := by
        unfold logIf
        split
        · exact ⟨_, rfl, rfl⟩
        · exact ⟨_, rfl, rfl⟩
      obtain ⟨s2, h4, h5⟩ := h3
      rw [h4]
      dsimp only
      rw [LogM.bind_eq]
      obtain ⟨ms', h6, h7⟩ := key a s1 s2 h5
      cases hm2 : reformatTextL n w a s2 with
      | mk r2 s3 =>
        rw [hm2] at h6
        have h8 : ∃ ms, s3.shown = s.shown ++ ms ∧ ∀ x ∈ ms, HasText P x := by
          refine ⟨ms ++ ms', ?_, ?_⟩
          · rw [h6, h1, List.append_assoc]
          · intro x hx
            rcases List.mem_append.1 hx with hx | hx
            · exact h2 x hx
            · exact h7 x hx
        cases r2 with
        | error e => exact h8
        | ok b =>
          dsimp only
          rw [LogM.bind_eq]
          dsimp only [setLevel]
          split
          · exact h8
          · exact h8

theorem clear_single {P : Char → Bool} {t : Str} (hc : Clear P t) (hne : t ≠ []) (hP : ∀ c, P c = true → isLB c = false) :
    splitlines t = [t] := by
  refine splitlines_single t (fun c hx => ?_) hne
  rcases hc c hx with h | h
  · simp only [isLB, Bool.or_eq_false_iff, Bool.and_eq_false_iff, decide_eq_false_iff_not, beq_eq_false_iff_ne]
    omega
  · exact hP c h.2

theorem HasText.clear {P : Char → Bool} {x : Msg} (h : HasText P x) : ∃ t, x.text P = .ok t ∧ t ≠ [] ∧
    Clear P t ∧ ((∀ c, P c = true → isLB c = false) → splitlines t = [t]) := by
  obtain ⟨t, ht⟩ := h.text
  have hc := C74_text P x t ht
  have hne : t ≠ [] := by
    cases x with
    | sect level a b ty lines =>
      simp only [Msg.text, bind, Except.bind] at ht
      split at ht
      · cases ht
      · cases ht; simp
    | added k => cases ht; simp
    | noSpace k => cases ht; simp
    | found a b ty => cases ht; simp
    | overIndented k => cases ht; simp
    | noLink k => cases ht; simp
  exact ⟨t, ht, hne, hc, clear_single hc hne⟩

/-- Every message a run shows has a text, which consists of visible characters only; if line breaks are not printable, it is
one line. This holds for runs that fail, too. -/
theorem C74_messages (P : Char → Bool) (n : Nat) (w : Width) (text : Str) (s : LSt) :
    ∃ ms, (reformatMarkdownTextL n w text s).2.shown = s.shown ++ ms ∧ ∀ x ∈ ms, ∃ t, x.text P = .ok t ∧ t ≠ [] ∧
      Clear P t ∧ ((∀ c, P c = true → isLB c = false) → splitlines t = [t]) := by
  obtain ⟨ms, h1, h2⟩ := hasText_run P n w text s
  exact ⟨ms, h1, fun x hx => (h2 x hx).clear⟩

/-! ## C75: the text tells sections apart -/

/-- Distinct strings have distinct representations. -/
theorem C75_repr (P : Char → Bool) (s t : Str) (h : pyRepr P s = pyRepr P t) : s = t :=
  (pyRepr_unique (r := []) (r' := []) (by rw [h])).1

theorem truncate_take (s t : Str) (h : truncateStr s reprContentLen = truncateStr t reprContentLen) :
    s.take 17 = t.take 17 ∧ (s.length ≤ 20 → t.length ≤ 20 → s = t) := by
  have key : ∀ s : Str, (truncateStr s reprContentLen).take 17 = s.take 17 := by
    intro s
    unfold truncateStr reprContentLen
    split
    · rfl
    · rename_i hl
      rw [if_neg (by decide)]
      have : (max 0 (20 - ellipsis.length)) = 17 := by decide
      rw [this, List.take_append_of_le_length (by rw [List.length_take]; omega), List.take_take]
      rfl
  refine ⟨by rw [← key s, ← key t, h], fun hs ht => ?_⟩
  unfold truncateStr reprContentLen at h
  rwa [if_pos hs, if_pos ht] at h

theorem short_unique {P : Char → Bool} {s t r r' : Str} (h : reprShort P s ++ r = reprShort P t ++ r') :
    (s.take 17 = t.take 17 ∧ (s.length ≤ 20 → t.length ≤ 20 → s = t)) ∧ r = r' := by
  obtain ⟨h1, h2⟩ := pyRepr_unique h
  exact ⟨truncate_take s t h1, h2⟩

/-- Cutting at a character that occurs in neither beginning. -/
theorem cut_unique {x : Char} {a : Str} : ∀ {b r r' : Str}, x ∉ a → x ∉ b → a ++ x :: r = b ++ x :: r' → a = b ∧ r = r' := by
  induction a with
  | nil =>
    intro b r r' _ hb h
    cases b with
    | nil => exact ⟨rfl, (List.cons.inj h).2⟩
    | cons y b => exact absurd (List.cons.inj h).1 fun e => hb (by rw [e]; simp)
  | cons y a ih =>
    intro b r r' ha hb h
    cases b with
    | nil => exact absurd (List.cons.inj h).1.symm fun e => ha (by rw [e]; simp)
    | cons z b =>
      obtain ⟨rfl, h2⟩ := List.cons.inj h
      obtain ⟨rfl, rfl⟩ := ih (fun h => ha (by simp [h])) (fun h => hb (by simp [h])) h2
      exact ⟨rfl, rfl⟩

theorem natStr_notin (n : Nat) {x : Char} (hx : isDigit x = false) : x ∉ natStr n := fun h => by
  rw [(natStr_spec n).2.1 x h] at hx
  cases hx

theorem natStr_unique {n m : Nat} (h : natStr n = natStr m) : n = m := by
  rw [← (natStr_spec n).2.2, h, (natStr_spec m).2.2]

theorem linesText_unique {a b a' b' : Nat} {r r' : Str} (h : linesText a b ++ ':' :: r = linesText a' b' ++ ':' :: r') :
    a = a' ∧ (a < b ↔ a' < b') ∧ (a < b → b = b') ∧ r = r' := by
  have hno : ∀ a b, ':' ∉ linesText a b := by
    intro a b h
    unfold linesText at h
    split at h
    · simp only [List.mem_append] at h
      rcases h with ((h | h) | h) | h
      · exact absurd h (by decide)
      · exact natStr_notin _ rfl h
      · exact absurd h (by decide)
      · exact natStr_notin _ rfl h
    · simp only [List.mem_append] at h
      rcases h with h | h
      · exact absurd h (by decide)
      · exact natStr_notin _ rfl h
  obtain ⟨h1, h2⟩ := cut_unique (hno a b) (hno a' b') h
  have e1 : ∀ n, c!"Line " ++ natStr n = c!"Line" ++ ' ' :: natStr n := fun _ => rfl
  unfold linesText at h1
  split at h1 <;> split at h1
  · rename_i g1 g2
    simp only [List.append_assoc] at h1
    have h1 := List.append_cancel_left h1
    obtain ⟨h3, h4⟩ := cut_unique (natStr_notin a (by decide)) (natStr_notin a' (by decide)) h1
    exact ⟨natStr_unique h3, ⟨fun _ => g2, fun _ => g1⟩, fun _ => natStr_unique h4, h2⟩
  · exfalso
    have := congrArg (fun s => s[4]?) h1
    simp at this
  · exfalso
    have := congrArg (fun s => s[4]?) h1
    simp at this
  · rename_i g1 g2
    exact ⟨natStr_unique (List.append_cancel_left h1), ⟨fun h => absurd h g1, fun h => absurd h g2⟩,
      fun h => absurd h g1, h2⟩

/-- How the representation of a kind of section begins. -/
def reprHead : Sec → Str
  | .blank => c!"<MarkdownBlankLine>"
  | .quote => className .quote ++ c!":"
  | .bullet => className .bullet ++ c!":"
  | .ordered => className .ordered ++ c!":"
  | ty => c!"<" ++ className ty ++ c!":"

theorem sectionRepr_head (P : Char → Bool) (ty : Sec) (lines : List Str) (r : Str) (h : sectionRepr P ty lines = .ok r) :
    reprHead ty <+: r := by
  have mk : ∀ {x t : Str}, t = reprHead ty → t <+: t ++ x → reprHead ty <+: t ++ x := fun e h => e ▸ h
  cases ty with
  | atx => cases lines with
    | nil => cases h
    | cons l ls => cases h; exact ⟨_, by simp [reprHead, className]; rfl⟩
  | blank => cases h; exact ⟨[], rfl⟩
  | quote => cases lines with
    | nil => cases h
    | cons l ls => cases h; exact ⟨_, by simp [reprHead, className]; rfl⟩
  | bullet => cases lines with
    | nil => cases h
    | cons l ls =>
      simp only [sectionRepr] at h
      split at h
      · cases h
      · cases h; exact ⟨_, by simp [reprHead, className]; rfl⟩
  | fenced =>
    rcases lines with _ | ⟨l, _ | ⟨l1, more⟩⟩
    · cases h
    · cases h
    · simp only [sectionRepr, bind, Except.bind] at h
      split at h
      · cases h
      · cases h; exact ⟨_, by simp [reprHead, className]; rfl⟩
  | indented => cases lines with
    | nil => cases h
    | cons l ls => cases h; exact ⟨_, by simp [reprHead, className]; rfl⟩
  | lrd =>
    simp only [sectionRepr, bind, Except.bind] at h
    split at h
    · cases h
    · cases h; exact ⟨_, by simp [reprHead, className]; rfl⟩
  | ordered => cases lines with
    | nil => cases h
    | cons l ls =>
      simp only [sectionRepr, bind, Except.bind] at h
      split at h
      · cases h
      · cases h; exact ⟨_, by simp [reprHead, className]; rfl⟩
  | par => cases h; exact ⟨_, by simp [reprHead, className]; rfl⟩
  | setext =>
    simp only [sectionRepr, bind, Except.bind] at h
    split at h
    · cases h
    · split at h
      · cases h
      · cases h; exact ⟨_, by simp [reprHead, className]; rfl⟩
  | table => cases h; exact ⟨_, rfl⟩
  | thematic => cases lines with
    | nil => cases h
    | cons l ls =>
      simp only [sectionRepr, bind, Except.bind] at h
      split at h
      · cases h
      · cases h; exact ⟨_, by simp [reprHead, className]; rfl⟩

theorem reprHead_unique (ty ty' : Sec) (r : Str) (h : reprHead ty <+: r) (h' : reprHead ty' <+: r) : ty = ty' := by
  have key : ∀ a b : Sec, (reprHead a).isPrefixOf (reprHead b) = true → a = b := by
    intro a b
    cases a <;> cases b <;> decide
  rcases List.prefix_or_prefix_of_prefix h h' with g | g
  · exact key _ _ (List.isPrefixOf_iff_prefix.2 g)
  · exact (key _ _ (List.isPrefixOf_iff_prefix.2 g)).symm

/-- Two sections with the same representation are of the same kind, and what the representations show of them agrees in its
first 17 characters; texts of at most 20 characters are the same. -/
theorem C75_section (P : Char → Bool) (ty ty' : Sec) (lines lines' : List Str) (r : Str)
    (h : sectionRepr P ty lines = .ok r) (h' : sectionRepr P ty' lines' = .ok r) :
    ty = ty' ∧ (subject ty lines).take 17 = (subject ty' lines').take 17 ∧
      ((subject ty lines).length ≤ 20 → (subject ty' lines').length ≤ 20 → subject ty lines = subject ty' lines') := by
  obtain rfl := reprHead_unique ty ty' r (sectionRepr_head P ty lines r h) (sectionRepr_head P ty' lines' r h')
  refine ⟨rfl, ?_⟩
  cases ty with
  | atx =>
    cases lines with
    | nil => cases h
    | cons l ls =>
      cases lines' with
      | nil => cases h'
      | cons l' ls' =>
        have e := Except.ok.inj (h.trans h'.symm)
        simp only [List.append_assoc] at e
        have e := List.append_cancel_left (List.append_cancel_left (List.append_cancel_left e))
        obtain ⟨_, e⟩ := cut_unique (x := ';') (natStr_notin _ rfl) (natStr_notin _ rfl) e
        exact (short_unique (List.append_cancel_left (as := c!" content=") e)).1
  | quote =>
    cases lines with
    | nil => cases h
    | cons l ls =>
      cases lines' with
      | nil => cases h'
      | cons l' ls' =>
        have e := Except.ok.inj (h.trans h'.symm)
        simp only [List.append_assoc] at e
        exact (short_unique (List.append_cancel_left (List.append_cancel_left e))).1
  | bullet =>
    cases lines with
    | nil => cases h
    | cons l ls =>
      cases lines' with
      | nil => cases h'
      | cons l' ls' =>
        simp only [sectionRepr] at h h'
        split at h
        · cases h
        split at h'
        · cases h'
        have e := Except.ok.inj (h.trans h'.symm)
        simp only [List.append_assoc] at e
        obtain ⟨_, e⟩ := pyRepr_unique (List.append_cancel_left (List.append_cancel_left e))
        exact (short_unique (List.append_cancel_left e)).1
  | ordered =>
    cases lines with
    | nil => cases h
    | cons l ls =>
      cases lines' with
      | nil => cases h'
      | cons l' ls' =>
        simp only [sectionRepr, bind, Except.bind] at h h'
        split at h
        · cases h
        split at h'
        · cases h'
        have e := Except.ok.inj (h.trans h'.symm)
        simp only [List.append_assoc] at e
        have e := List.append_cancel_left (List.append_cancel_left e)
        obtain ⟨_, e⟩ := cut_unique (x := ';') (natStr_notin _ rfl) (natStr_notin _ rfl) e
        exact (short_unique (List.append_cancel_left (as := c!" first_line=") e)).1
  | indented =>
    cases lines with
    | nil => cases h
    | cons l ls =>
      cases lines' with
      | nil => cases h'
      | cons l' ls' =>
        have e := Except.ok.inj (h.trans h'.symm)
        simp only [List.append_assoc] at e
        exact (short_unique (List.append_cancel_left (List.append_cancel_left (List.append_cancel_left e)))).1
  | par =>
    have e := Except.ok.inj (h.trans h'.symm)
    simp only [List.append_assoc] at e
    exact (short_unique (List.append_cancel_left (List.append_cancel_left (List.append_cancel_left e)))).1
  | setext =>
    simp only [sectionRepr, bind, Except.bind] at h h'
    split at h
    · cases h
    split at h
    · cases h
    split at h'
    · cases h'
    split at h'
    · cases h'
    have e := Except.ok.inj (h.trans h'.symm)
    simp only [List.append_assoc] at e
    obtain ⟨_, e⟩ := pyRepr_unique (List.append_cancel_left (List.append_cancel_left (List.append_cancel_left e)))
    exact (short_unique (List.append_cancel_left e)).1
  | blank => simp [subject]
  | fenced => simp [subject]
  | lrd => simp [subject]
  | table => simp [subject]
  | thematic => simp [subject]

/-- Two section messages with the same text are about the same lines and the same kind of section. -/
theorem C75_message (P : Char → Bool) (level level' a b a' b' : Nat) (ty ty' : Sec) (lines lines' : List Str) (t : Str)
    (hb : a ≤ b) (hb' : a' ≤ b') (h : (Msg.sect level a b ty lines).text P = .ok t)
    (h' : (Msg.sect level' a' b' ty' lines').text P = .ok t) :
    a = a' ∧ b = b' ∧ ty = ty' ∧ (subject ty lines).take 17 = (subject ty' lines').take 17 := by
  simp only [Msg.text, bind, Except.bind] at h h'
  cases hr : sectionRepr P ty lines with
  | error e => rw [hr] at h; cases h
  | ok r =>
    cases hr' : sectionRepr P ty' lines' with
    | error e => rw [hr'] at h'; cases h'
    | ok r' =>
      rw [hr] at h
      rw [hr'] at h'
      have e := Except.ok.inj (h.trans h'.symm)
      simp only [List.append_assoc] at e
      obtain ⟨h1, h2, h3, h4⟩ := linesText_unique (r := ' ' :: r) (r' := ' ' :: r') e
      obtain rfl := (List.cons.inj h4).2
      obtain ⟨h5, h6, _⟩ := C75_section P ty ty' lines lines' r hr hr'
      refine ⟨h1, ?_, h5, h6⟩
      by_cases hlt : a < b
      · exact h3 hlt
      · have : ¬ a' < b' := fun h => hlt (h2.2 h)
        omega

/-- What a message is about: its kind, the first and the last line, the kind of section. -/
def Msg.about : Msg → Nat × Nat × Nat × Option Sec
  | .sect _ a b ty _ => (0, a, b, some ty)
  | .added l => (1, l, l, none)
  | .noSpace l => (2, l, l, none)
  | .found a b ty => (3, a, b, some ty)
  | .overIndented l => (4, l, l, none)
  | .noLink l => (5, l, l, none)

theorem digits_cut {x y : Char} {a : Str} : ∀ {b r r' : Str}, (∀ c ∈ a, isDigit c = true) → (∀ c ∈ b, isDigit c = true) →
    isDigit x = false → isDigit y = false → a ++ x :: r = b ++ y :: r' → a = b ∧ x = y ∧ r = r' := by
  induction a with
  | nil =>
    intro b r r' _ hb hx _ h
    cases b with
    | nil => cases h; exact ⟨rfl, rfl, rfl⟩
    | cons z b =>
      cases h
      rw [hb x (by simp)] at hx; cases hx
  | cons w a ih =>
    intro b r r' ha hb hx hy h
    cases b with
    | nil =>
      cases h
      rw [ha y (by simp)] at hy; cases hy
    | cons z b =>
      obtain ⟨rfl, h2⟩ := List.cons.inj h
      obtain ⟨rfl, h3⟩ := ih (fun c hc => ha c (by simp [hc])) (fun c hc => hb c (by simp [hc])) hx hy h2
      exact ⟨rfl, h3⟩

theorem lines_noSpace {a b l : Nat} {r r' : Str} (h : linesText a b ++ ':' :: r = c!"Line " ++ (natStr l ++ ' ' :: r')) : False := by
  unfold linesText at h
  split at h
  · cases h
  · rw [List.append_assoc] at h
    obtain ⟨_, h, _⟩ := digits_cut (natStr_spec a).2.1 (natStr_spec l).2.1 (by decide) (by decide) (List.append_cancel_left h)
    cases h

theorem lines_head (a b : Nat) : ∃ r, linesText a b = 'L' :: r := by
  unfold linesText
  split <;> exact ⟨_, rfl⟩

theorem secName_inj (ty ty' : Sec) (h : secName ty = secName ty') : ty = ty' := by
  cases ty <;> cases ty' <;> first | rfl | (exact absurd h (by decide))

theorem secName_repr (P : Char → Bool) (ty ty' : Sec) (lines : List Str) (h : sectionRepr P ty lines = .ok (secName ty')) : False := by
  obtain ⟨t, ht⟩ := sectionRepr_head P ty lines _ h
  have := congrArg List.head? ht
  cases ty <;> cases ty' <;> exact absurd this (by simp [reprHead, className, secName])

/-- C75: the text of a message of any kind tells what it is about. -/
theorem C75_all (P : Char → Bool) (m m' : Msg) (t : Str) (hm : m.about.2.1 ≤ m.about.2.2.1) (hm' : m'.about.2.1 ≤ m'.about.2.2.1)
    (h : m.text P = .ok t) (h' : m'.text P = .ok t) : m.about = m'.about := by
  have hlines : ∀ {a b a' b' : Nat} {r r' : Str}, a ≤ b → a' ≤ b' → linesText a b ++ ':' :: ' ' :: r = linesText a' b' ++ ':' :: ' ' :: r' →
      a = a' ∧ b = b' ∧ r = r' := by
    intro a b a' b' r r' hb hb' e
    obtain ⟨h1, h2, h3, h4⟩ := linesText_unique e
    refine ⟨h1, ?_, (List.cons.inj h4).2⟩
    by_cases hlt : a < b
    · exact h3 hlt
    · have : ¬ a' < b' := fun h => hlt (h2.2 h)
      omega
  have hdig : ∀ {l l' : Nat} {x : Char} {r r' : Str}, isDigit x = false → natStr l ++ x :: r = natStr l' ++ x :: r' → l = l' := by
    intro l l' x r r' hx e
    exact natStr_unique (digits_cut (natStr_spec l).2.1 (natStr_spec l').2.1 hx hx e).1
  have key : ∀ m m' : Msg, m.about.1 ≤ m'.about.1 → m.about.2.1 ≤ m.about.2.2.1 → m'.about.2.1 ≤ m'.about.2.2.1 →
      m.text P = .ok t → m'.text P = .ok t → m.about = m'.about := by
    clear h h' hm hm' m m'
    intro m m' hle hm hm' h h'
    cases m with
    | sect lv a b ty lines =>
      obtain ⟨u, hu⟩ := lines_head a b
      simp only [Msg.text, bind, Except.bind] at h
      cases hr : sectionRepr P ty lines with
      | error e => rw [hr] at h; cases h
      | ok r =>
        rw [hr] at h
        cases h
        cases m' with
        | sect lv' a' b' ty' lines' =>
          obtain ⟨h1, h2, h3, _⟩ := C75_message P lv lv' a b a' b' ty ty' lines lines' _ hm hm'
            (by simp only [Msg.text, bind, Except.bind, hr]) h'
          subst h1 h2 h3
          rfl
        | found a' b' ty' =>
          have e := Except.ok.inj h'
          simp only [List.append_assoc] at e
          obtain ⟨_, _, h3⟩ := hlines hm' hm e
          rw [← show secName ty' = r from h3] at hr
          exact (secName_repr P ty ty' lines hr).elim
        | noSpace l =>
          have e := Except.ok.inj h'
          simp only [List.append_assoc] at e
          exact (lines_noSpace e.symm).elim
        | added l => have e := Except.ok.inj h'; rw [hu] at e; cases e
        | overIndented l => have e := Except.ok.inj h'; rw [hu] at e; cases e
        | noLink l => have e := Except.ok.inj h'; rw [hu] at e; cases e
    | added l =>
      cases h
      cases m' with
      | sect => exact absurd hle (by simp [Msg.about])
      | added l' =>
        have e := Except.ok.inj h'
        have := natStr_unique (List.append_cancel_left e)
        subst this
        rfl
      | noSpace l' => have e := Except.ok.inj h'; cases e
      | found a b ty =>
        obtain ⟨u, hu⟩ := lines_head a b
        have e := Except.ok.inj h'; rw [hu] at e; cases e
      | overIndented l' => have e := Except.ok.inj h'; cases e
      | noLink l' => have e := Except.ok.inj h'; cases e
    | noSpace l =>
      cases h
      cases m' with
      | sect => exact absurd hle (by simp [Msg.about])
      | added l' => exact absurd hle (by simp [Msg.about])
      | noSpace l' =>
        have e := Except.ok.inj h'
        simp only [List.append_assoc] at e
        have := hdig (by decide) (List.append_cancel_left e)
        subst this
        rfl
      | found a b ty =>
        have e := Except.ok.inj h'
        simp only [List.append_assoc] at e
        exact (lines_noSpace e).elim
      | overIndented l' => have e := Except.ok.inj h'; cases e
      | noLink l' => have e := Except.ok.inj h'; cases e
    | found a b ty =>
      obtain ⟨u, hu⟩ := lines_head a b
      cases h
      cases m' with
      | sect => exact absurd hle (by simp [Msg.about])
      | added l' => exact absurd hle (by simp [Msg.about])
      | noSpace l' => exact absurd hle (by simp [Msg.about])
      | found a' b' ty' =>
        have e := Except.ok.inj h'
        simp only [List.append_assoc] at e
        obtain ⟨h1, h2, h3⟩ := hlines hm' hm e
        have := secName_inj _ _ h3
        subst h1 h2 this
        rfl
      | overIndented l' => have e := Except.ok.inj h'; rw [hu] at e; cases e
      | noLink l' => have e := Except.ok.inj h'; rw [hu] at e; cases e
    | overIndented l =>
      cases h
      cases m' with
      | overIndented l' =>
        have e := Except.ok.inj h'
        simp only [List.append_assoc] at e
        have := hdig (by decide) (List.append_cancel_left e)
        subst this
        rfl
      | noLink l' => have e := Except.ok.inj h'; cases e
      | _ => exact absurd hle (by simp [Msg.about])
    | noLink l =>
      cases h
      cases m' with
      | noLink l' =>
        have e := Except.ok.inj h'
        simp only [List.append_assoc] at e
        have := hdig (by decide) (List.append_cancel_left e)
        subst this
        rfl
      | _ => exact absurd hle (by simp [Msg.about])
  rcases Nat.le_total m.about.1 m'.about.1 with hle | hle
  · exact key m m' hle hm hm' h h'
  · exact (key m' m hle hm' hm h' h).symm

/-! ## C76: brackets -/

/-- The full claim: every representation is enclosed in angle brackets. -/
def C76_statement : Prop := ∀ (P : Char → Bool) (ty : Sec) (lines : List Str) (r : Str), sectionRepr P ty lines = .ok r →
  ∃ t, r = c!"<" ++ t ++ c!">"

theorem sectionRepr_last (P : Char → Bool) (ty : Sec) (lines : List Str) (r : Str) (h : sectionRepr P ty lines = .ok r) :
    ∃ t, r = t ++ c!">" := by
  cases ty with
  | atx => cases lines with
    | nil => cases h
    | cons l ls => cases h; exact ⟨_, rfl⟩
  | blank => cases h; exact ⟨_, rfl⟩
  | quote => cases lines with
    | nil => cases h
    | cons l ls => cases h; exact ⟨_, rfl⟩
  | bullet => cases lines with
    | nil => cases h
    | cons l ls =>
      simp only [sectionRepr] at h
      split at h
      · cases h
      · cases h; exact ⟨_, rfl⟩
  | fenced =>
    rcases lines with _ | ⟨l, _ | ⟨l1, more⟩⟩
    · cases h
    · cases h
    · simp only [sectionRepr, bind, Except.bind] at h
      split at h
      · cases h
      · cases h; exact ⟨_, rfl⟩
  | indented => cases lines with
    | nil => cases h
    | cons l ls => cases h; exact ⟨_, rfl⟩
  | lrd =>
    simp only [sectionRepr, bind, Except.bind] at h
    split at h
    · cases h
    · cases h; exact ⟨_, rfl⟩
  | ordered => cases lines with
    | nil => cases h
    | cons l ls =>
      simp only [sectionRepr, bind, Except.bind] at h
      split at h
      · cases h
      · cases h; exact ⟨_, rfl⟩
  | par => cases h; exact ⟨_, rfl⟩
  | setext =>
    simp only [sectionRepr, bind, Except.bind] at h
    split at h
    · cases h
    · split at h
      · cases h
      · cases h; exact ⟨_, rfl⟩
  | table => cases h; exact ⟨c!"<MarkdownTable: ToDo", rfl⟩
  | thematic => cases lines with
    | nil => cases h
    | cons l ls =>
      simp only [sectionRepr, bind, Except.bind] at h
      split at h
      · cases h
      · cases h; exact ⟨_, rfl⟩

/-- True of all kinds of sections except quotes and lists, whose representations begin with the name of the class; all end
with a bracket. -/
theorem C76_brackets_partial (P : Char → Bool) (ty : Sec) (lines : List Str) (r : Str) (h : sectionRepr P ty lines = .ok r) :
    (∃ t, r = t ++ c!">") ∧
    (ty ≠ .quote → ty ≠ .bullet → ty ≠ .ordered → ∃ t, r = c!"<" ++ t ++ c!">") ∧
    (ty = .quote ∨ ty = .bullet ∨ ty = .ordered → r.head? = some 'M') := by
  obtain ⟨t, rfl⟩ := sectionRepr_last P ty lines r h
  obtain ⟨x, hx⟩ := sectionRepr_head P ty lines _ h
  refine ⟨⟨t, rfl⟩, fun h1 h2 h3 => ?_, ?_⟩
  · have hh : ∃ y, reprHead ty = '<' :: y ∧ y ≠ [] := by
      cases ty <;> first | exact ⟨_, rfl, by decide⟩ | contradiction
    obtain ⟨y, hy, hne⟩ := hh
    rw [hy] at hx
    cases t with
    | nil =>
      exfalso
      have := congrArg List.length hx
      have := List.length_pos_iff.2 hne
      simp at *
    | cons c t =>
      have := (List.cons.inj hx).1
      exact ⟨t, by rw [← this]; rfl⟩
  · rintro (rfl | rfl | rfl) <;> rw [← hx] <;> rfl

theorem C76_refuted : ¬ C76_statement := by
  intro h
  obtain ⟨t, ht⟩ := h (fun _ => true) .quote [c!"> a"] _ rfl
  exact absurd (congrArg List.head? ht) (by simp; decide)

/-! ## C77: length -/

/-- The full claim: there is a length no representation exceeds. -/
def C77_statement : Prop := ∃ N : Nat, ∀ (P : Char → Bool) (ty : Sec) (lines : List Str) (r : Str),
  sectionRepr P ty lines = .ok r → r.length ≤ N

theorem short_length (P : Char → Bool) (s : Str) : (reprShort P s).length ≤ 202 := by
  have h1 := pyRepr_length P (truncateStr s reprContentLen)
  have h2 := C44_truncate_length s reprContentLen
  have h3 : reprContentLen = 20 := rfl
  unfold reprShort
  omega

/-- True of all kinds of sections except headings with hashes, numbered lists and fenced code; for these, what exceeds the bound
is the digits of a number, or the info string of the fence. -/
theorem C77_length_partial (P : Char → Bool) (ty : Sec) (lines : List Str) (r : Str) (h : sectionRepr P ty lines = .ok r) :
    (ty ≠ .atx → ty ≠ .ordered → ty ≠ .fenced → r.length ≤ 700) ∧
    (ty = .atx → ∃ d, r.length ≤ 700 + (natStr d).length) ∧
    (ty = .ordered → ∃ k, r.length ≤ 700 + (natStr k).length) := by
  have hs := short_length P
  have h1 : ∀ c, (pyRepr P [c]).length ≤ 12 := fun c => pyRepr_length P [c]
  refine ⟨fun n1 n2 n3 => ?_, ?_, ?_⟩
  · cases ty with
    | atx => contradiction
    | ordered => contradiction
    | fenced => contradiction
    | blank => cases h; decide
    | table => cases h; decide
    | quote => cases lines with
      | nil => cases h
      | cons l ls =>
        cases h
        have := hs l
        simp [className]
        omega
    | bullet => cases lines with
      | nil => cases h
      | cons l ls =>
        simp only [sectionRepr] at h
        split at h
        · cases h
        · rename_i c _ _
          cases h
          have := hs l
          have := h1 c
          simp [className]
          omega
    | indented => cases lines with
      | nil => cases h
      | cons l ls =>
        cases h
        have := hs (strip l)
        simp [className]
        omega
    | lrd =>
      simp only [sectionRepr, bind, Except.bind] at h
      split at h
      · cases h
      · rename_i x _
        obtain ⟨label, link, title⟩ := x
        cases h
        have := hs label
        have := hs link
        have := hs title
        simp [className]
        omega
    | par =>
      cases h
      have := hs (parContent lines)
      simp [className]
      omega
    | setext =>
      simp only [sectionRepr, bind, Except.bind] at h
      split at h
      · cases h
      · split at h
        · cases h
        · rename_i c _
          cases h
          have := hs (parContent lines.dropLast)
          have := h1 c
          simp [className]
          omega
    | thematic => cases lines with
      | nil => cases h
      | cons l ls =>
        simp only [sectionRepr, bind, Except.bind] at h
        split at h
        · cases h
        · rename_i c _
          cases h
          have := h1 c
          simp [className]
          omega
  · rintro rfl
    cases lines with
    | nil => cases h
    | cons l ls =>
      cases h
      refine ⟨atxDepth l, ?_⟩
      have := hs (atxContent l)
      simp [className]
      omega
  · rintro rfl
    cases lines with
    | nil => cases h
    | cons l ls =>
      simp only [sectionRepr, bind, Except.bind] at h
      split at h
      · cases h
      · rename_i k _
        cases h
        refine ⟨k, ?_⟩
        have := hs l
        simp [className]
        omega

theorem pyRepr_long (P : Char → Bool) (s : Str) : s.length ≤ (pyRepr P s).length := by
  have : ∀ (q : Char) (s : Str), s.length ≤ (s.flatMap (reprChar P q)).length := by
    intro q s
    induction s with
    | nil => exact Nat.le_refl _
    | cons c s ih =>
      have : 1 ≤ (reprChar P q c).length := by
        generalize hx : reprChar P q c = x
        have := reprChar_code P q c
        rw [hx] at this
        cases this <;> simp
      rw [List.flatMap_cons, List.length_append, List.length_cons]
      omega
  have := this (reprQuote s) s
  simp only [pyRepr, List.length_append, List.length_singleton]
  omega

theorem C77_refuted : ¬ C77_statement := by
  rintro ⟨N, h⟩
  have hw : ∀ c ∈ c!"```" ++ List.replicate (N + 1) 'a', isWs c = false := by
    intro c hc
    rcases List.mem_append.1 hc with hc | hc
    · exact (by decide : ∀ c ∈ c!"```", isWs c = false) c hc
    · rw [(List.mem_replicate.1 hc).2]; decide
  have hs := strip_noWs _ hw
  have hf : firstChar (c!"```" ++ List.replicate (N + 1) 'a') = .ok '`' := by
    unfold firstChar
    rw [hs]
    rfl
  have hl : lstripBy (· == '`') (strip (c!"```" ++ List.replicate (N + 1) 'a')) = List.replicate (N + 1) 'a' := by
    rw [hs]
    exact lstripBy_replicate '`' 3 _ (by simp [List.replicate_succ])
  have h2 := h (fun _ => true) .fenced [c!"```" ++ List.replicate (N + 1) 'a', [], c!"```"] _ (by
    simp only [sectionRepr, bind, Except.bind, hf, hl]
    rfl)
  have h3 := pyRepr_long (fun _ => true) (strip (List.replicate (N + 1) 'a'))
  rw [strip_noWs _ fun c hc => hw c (List.mem_append_right _ hc)] at h2 h3
  simp only [List.length_append] at h2
  rw [List.length_replicate] at h3
  omega

/-! ## Examples -/

/-- A run over a document with an escape character, quotation marks and long lines. -/
theorem C74_example : (reformatMarkdownTextL 9 (.fin 80) c!"# it's\n\nA \x1b[31m\"red\" 'word' and more of it\n\n> q\n- e\n2. f\n"
      { info := INFO, own := 0, parent := INFO, shown := [] }).2.shown.map (fun x => x.text fun _ => true) =
    [.ok c!"Line 1: <MarkdownATXHeading: depth=1; content=\"it's\">",
     .ok c!"Line 2: <MarkdownBlankLine>",
     .ok c!"Line 3: <MarkdownParagraph: content='A \\x1b[31m\"red\" \\'wor...'>",
     .ok c!"Line 4: <MarkdownBlankLine>",
     .ok c!"Line 5: MarkdownBlockQuote: first_line='> q'>",
     .ok c!"Lines 6-7: MarkdownBulletList: marker='-'; first_line='- e'>"] := by
  decide +kernel

/-- Sections that meet the hypotheses of C75, C76 and C77. -/
theorem C75_example :
    sectionRepr (fun _ => true) .par [c!"it's  ", c!"a\tb"] = .ok c!"<MarkdownParagraph: content=\"it's a\\tb\">" ∧
    sectionRepr (fun _ => true) .setext [c!" x", c!"é  ", c!"=="] =
      .ok c!"<MarkdownSetextHeading: char='='; content='x é'>" ∧
    sectionRepr (fun _ => true) .fenced [c!"~~~~ py", c!"  code of a long line of code", c!"~~~~"] =
      .ok c!"<MarkdownFencedCodeBlock: fence_char='~'; fence_count=4; language='py'; first_line='code of a long li...'>" ∧
    sectionRepr (fun _ => true) .fenced [c!"~~~", c!"~~~"] =
      .ok c!"<MarkdownFencedCodeBlock: fence_char='~'; fence_count=3; language=''; first_line=None>" ∧
    sectionRepr (fun _ => true) .lrd [c!"[a]:", c!"  url 'the title'"] =
      .ok c!"<MarkdownLinkReferenceDefinition: name='a' link='url' title=\"'the title'\">" ∧
    sectionRepr (fun _ => true) .ordered [c!" 12. \\ x"] = .ok c!"MarkdownOrderedList: first_number=12; first_line=' 12. \\\\ x'>" ∧
    sectionRepr (fun _ => true) .thematic [c!" * * *"] = .ok c!"<MarkdownThematicBreak: char='*'>" := by
  decide +kernel

end MF
