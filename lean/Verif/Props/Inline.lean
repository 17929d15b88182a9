import Verif.Lemmas.Fill
/-!
# Properties C55, C56: wrapping is laying out tokens

`Inline s ts` (in `Verif.Props.InlineSpec`) says that `ts` are the tokens of the text `s`: words, code spans, links and line
break tags, each with a note whether there is white space in front of it. `Laid` says what it means to put tokens into
lines.
-/

namespace MF

/-! ## Layout -/

/-- The last token of the line is a line break. -/
def endsBr (l : List Tok) : Bool := l.getLast?.any Tok.isBr

/-- A line that is not too long, or cannot be shorter; a line break is the last token of its line. -/
structure GoodLine (w : Width) (l : List Tok) : Prop where
  ne : l ≠ []
  fits : l.length = 1 ∨ fitsIn w (lineText l).length = true
  br : ∀ t ∈ l.dropLast, t.isBr = false

/-- Tokens in lines, where no line ends before it has to: it ends with a line break, or the next token does not fit. -/
inductive Laid (w : Width) : List Tok → List (List Tok) → Prop
  | nil : Laid w [] []
  | cons {l ts : List Tok} {ls : List (List Tok)} (hl : GoodLine w l)
      (hfull : ∀ t r, ts = t :: r → endsBr l = true ∨ fitsIn w (lineText (l ++ [t])).length = false)
      (h : Laid w ts ls) : Laid w (l ++ ts) (l :: ls)

theorem lineText_suffix_le (a b : List Tok) : (lineText b).length ≤ (lineText (a ++ b)).length := by
  cases a with
  | nil => simp
  | cons t a =>
    cases b with
    | nil => simp [lineText]
    | cons x b =>
      have : x.text.length ≤ x.spaced.length := by unfold Tok.spaced; split <;> simp
      simp only [lineText, List.cons_append, List.map_append, List.map_cons, List.flatten_append, List.flatten_cons,
        List.length_append]
      omega

theorem lineText_prefix_le (a b : List Tok) : (lineText a).length ≤ (lineText (a ++ b)).length := by
  cases a with
  | nil => simp [lineText]
  | cons t a => simp [lineText]

theorem endsBr_mem {a l r : List Tok} (h : endsBr l = true) (hr : r ≠ []) : ∃ t ∈ (a ++ l ++ r).dropLast, t.isBr = true := by
  unfold endsBr at h
  cases hl : l.getLast? with
  | none => rw [hl] at h; cases h
  | some t =>
    rw [hl] at h
    refine ⟨t, ?_, h⟩
    rw [List.dropLast_append_of_ne_nil hr]
    exact List.mem_append_left _ (List.mem_append_right _ (getLast?_mem hl))

/-- a line does not contain a full line and the token after it -/
theorem GoodLine.not_past {w : Width} {a l r : List Tok} {t : Tok} (h : GoodLine w (a ++ l ++ t :: r)) (hl : l ≠ [])
    (hfull : endsBr l = true ∨ fitsIn w (lineText (l ++ [t])).length = false) : False := by
  rcases hfull with hb | hf
  · obtain ⟨x, hx, hx2⟩ := endsBr_mem (a := a) (r := t :: r) hb (by simp)
    rw [h.br x hx] at hx2; cases hx2
  · rcases h.fits with h1 | h1
    · have : 0 < l.length := List.length_pos_iff.2 hl
      simp at h1; omega
    · have e : a ++ l ++ t :: r = a ++ ((l ++ [t]) ++ r) := by simp
      have h2 := lineText_prefix_le (l ++ [t]) r
      have h3 := lineText_suffix_le a ((l ++ [t]) ++ r)
      rw [e] at h1
      rw [fitsIn_mono (Nat.le_trans h2 h3) h1] at hf
      cases hf

/-- There is only one way to lay out tokens. -/
theorem Laid.unique {w : Width} {ts : List Tok} {ls ls' : List (List Tok)} (h : Laid w ts ls) (h' : Laid w ts ls') :
    ls = ls' := by
  induction h generalizing ls' with
  | nil =>
    generalize hts : ([] : List Tok) = ts at h'
    cases h' with
    | nil => rfl
    | cons hl _ _ => simp at hts; exact absurd hts.1 hl.ne
  | @cons l ts ls hl hfull h ih =>
    generalize hts : l ++ ts = us at h'
    cases h' with
    | nil => simp at hts; exact absurd hts.1 hl.ne
    | @cons l' ts' ls' hl' hfull' h' =>
      rcases List.append_eq_append_iff.1 hts with ⟨a, e1, e2⟩ | ⟨a, e1, e2⟩
      · cases a with
        | nil => rw [List.append_nil] at e1; subst e1; rw [List.nil_append] at e2; subst e2; rw [ih h']
        | cons x a =>
          exfalso
          exact GoodLine.not_past (a := []) (r := a) (by rw [List.nil_append, ← e1]; exact hl') hl.ne (hfull x _ e2)
      · cases a with
        | nil => rw [List.append_nil] at e1; subst e1; rw [List.nil_append] at e2; subst e2; rw [ih h']
        | cons x a =>
          exfalso
          exact GoodLine.not_past (a := []) (r := a) (by rw [List.nil_append, ← e1]; exact hl) hl'.ne (hfull' x _ e2)

/-- No other way to put the tokens into lines has fewer lines. -/
theorem Laid.fewest {w : Width} {ts x : List Tok} {ls ls' : List (List Tok)} (h : Laid w ts ls)
    (hg : ∀ l ∈ ls', GoodLine w l) (hf : ls'.flatten = x ++ ts) : ls.length ≤ ls'.length := by
  induction h generalizing x ls' with
  | nil => simp
  | @cons l ts ls hl hfull h ih =>
    cases ls' with
    | nil => simp at hf; exact absurd hf.2.1 hl.ne
    | cons l' ls' =>
      rw [List.flatten_cons] at hf
      have hf' : l' ++ ls'.flatten = (x ++ l) ++ ts := by rw [hf, List.append_assoc]
      rcases List.append_eq_append_iff.1 hf' with ⟨a, e1, e2⟩ | ⟨a, e1, e2⟩
      · have := ih (fun l hl => hg l (by simp [hl])) e2
        simp; exact this
      · cases a with
        | nil =>
          have := ih (x := []) (ls' := ls') (fun l hl => hg l (by simp [hl])) (by simpa using e2.symm)
          simp; exact this
        | cons y a =>
          exfalso
          exact GoodLine.not_past (a := x) (r := a) (by rw [← e1]; exact hg l' (by simp)) hl.ne (hfull y _ e2)

theorem mem_dropLast {α : Type} {x : α} {l : List α} (h : x ∈ l.dropLast) : x ∈ l := (List.dropLast_sublist l).subset h

theorem lay_laid (w : Width) : ∀ ts : List Tok, Laid w ts (lay w [] ts) ∧ ∀ cur, cur ≠ [] →
    (cur.length = 1 ∨ fitsIn w (lineText cur).length = true) → (∀ t ∈ cur, t.isBr = false) →
    Laid w (cur ++ ts) (lay w cur ts) := by
  intro ts
  induction ts with
  | nil =>
    refine ⟨.nil, fun cur h0 h1 h2 => ?_⟩
    have : lay w cur [] = [cur] := by simp [lay, h0]
    rw [this]
    exact .cons ⟨h0, h1, fun t ht => h2 t (mem_dropLast ht)⟩ (by simp) .nil
  | cons t ts ih =>
    have h1 : Laid w (t :: ts) (lay w [] (t :: ts)) := by
      cases hb : t.isBr with
      | true =>
        have : lay w [] (t :: ts) = [t] :: lay w [] ts := by simp [lay, hb]
        rw [this]
        exact .cons (l := [t]) ⟨by simp, .inl rfl, by simp⟩ (fun _ _ _ => .inl (by simp [endsBr, hb])) ih.1
      | false =>
        have : lay w [] (t :: ts) = lay w [t] ts := by simp [lay, hb]
        rw [this]
        exact ih.2 [t] (by simp) (.inl rfl) (by simp [hb])
    refine ⟨h1, fun cur h0 hf hb => ?_⟩
    have hc : cur.isEmpty = false := by simpa using h0
    cases hfit : fitsIn w (lineText (cur ++ [t])).length with
    | true =>
      cases ht : t.isBr with
      | true =>
        have : lay w cur (t :: ts) = (cur ++ [t]) :: lay w [] ts := by simp [lay, hfit, ht]
        rw [this]
        have := Laid.cons (w := w) (l := cur ++ [t]) (ts := ts)
          ⟨by simp, .inr hfit, fun x hx => hb x (by simpa using hx)⟩ (fun _ _ _ => .inl (by simp [endsBr, ht])) ih.1
        simpa using this
      | false =>
        have : lay w cur (t :: ts) = lay w (cur ++ [t]) ts := by simp [lay, hfit, ht]
        rw [this]
        have := ih.2 (cur ++ [t]) (by simp) (.inr hfit) (by
          intro x hx
          rcases List.mem_append.1 hx with hx | hx
          · exact hb x hx
          · simp at hx; subst hx; exact ht)
        simpa using this
    | false =>
      have : lay w cur (t :: ts) = cur :: lay w [] (t :: ts) := by
        simp only [lay, hc, hfit, Bool.or_self, Bool.false_eq_true, if_false, List.isEmpty_nil, Bool.true_or, if_true,
          List.nil_append]
      rw [this]
      exact .cons ⟨h0, hf, fun x hx => hb x (mem_dropLast hx)⟩ (by
        intro x r e; cases e; exact .inr hfit) h1

/-! ## C55 -/

theorem layLines_ok {s : Str} {ts : List Tok} (h : Inline s ts) (hn : NoLB s) (w : Width) :
    ∀ l ∈ layLines w ts, NoLB l ∧ Stripped l := by
  intro x hx
  obtain ⟨l, hl, rfl⟩ := List.mem_map.1 hx
  have hmem : ∀ t ∈ l, t ∈ ts := by
    intro t ht
    have := List.mem_flatten.2 ⟨l, hl, ht⟩
    rwa [lay_flatten, List.nil_append] at this
  have hne := lay_ne w ts [] l hl
  refine ⟨?_, ?_⟩
  · have key : ∀ t ∈ l, NoLB t.text ∧ NoLB t.spaced := by
      intro t ht
      have h1 : NoLB t.text := fun c hc => hn c ((h.runs.tok t (hmem t ht)).2.2 c hc)
      refine ⟨h1, ?_⟩
      unfold Tok.spaced
      split
      · intro c hc
        rcases List.mem_cons.1 hc with rfl | hc
        · decide
        · exact h1 c hc
      · exact h1
    intro c hc
    cases l with
    | nil => cases hc
    | cons t l =>
      rcases List.mem_append.1 hc with hc | hc
      · exact (key t (by simp)).1 c hc
      · obtain ⟨y, hy, hc⟩ := List.mem_flatten.1 hc
        obtain ⟨u, hu, rfl⟩ := List.mem_map.1 hy
        exact (key u (by simp [hu])).2 c hc
  · apply stripped_of_ends
    · cases l with
      | nil => exact absurd rfl hne
      | cons t l => exact (h.runs.tok t (hmem t (by simp))).1.starts.append _
    · rcases List.eq_nil_or_concat l with h0 | ⟨a, t, h0⟩
      · exact absurd h0 hne
      · rw [List.concat_eq_append] at h0
        have he := (h.runs.tok t (hmem t (by rw [h0]; simp))).1.ends
        cases a with
        | nil => rw [h0, List.nil_append, lineText_one]; exact he
        | cons b a =>
          rw [h0, lineText_snoc (by simp)]
          apply EndsNonWs.prepend
          unfold Tok.spaced
          split
          · exact he.prepend [' ']
          · exact he

theorem splitlines_layLines {text : Str} {ts : List Tok} (h : Inline (wrapInput text) ts) (w : Width) :
    splitlines (pyJoin c!"\n" (layLines w ts)) = layLines w ts := by
  have hl := layLines_ok h (wrapInput_noLB text) w
  exact splitlines_join _ (fun l hx => (hl l hx).1) fun h0 => (hl _ (getLast?_mem h0)).2.1 rfl

/-- C55: wrapping a text is putting its tokens into lines. The tokens keep their order and text; those on one line are
separated by a single space or by nothing, as in the text. -/
theorem C55_wrap {text : Str} {ts : List Tok} (h : Inline (wrapInput text) ts) (w : Width) :
    ∃ s ls, wrap text w = .ok s ∧ Laid w ts ls ∧ splitlines s = ls.map lineText ∧ s = pyJoin c!"\n" (ls.map lineText) :=
  ⟨_, lay w [] ts, wrap_fill h w, (lay_laid w ts).1, splitlines_layLines h w, rfl⟩

/-- C55: a text has one list of tokens, and there is one way to put tokens into lines. -/
theorem C55_unique {s : Str} {ts us : List Tok} (h : Inline s ts) (h' : Inline s us) (w : Width) :
    ts = us ∧ ∃ ls, Laid w ts ls ∧ ∀ ls', Laid w ts ls' → ls' = ls :=
  ⟨inline_unique h h', lay w [] ts, (lay_laid w ts).1, fun _ h2 => h2.unique (lay_laid w ts).1⟩

/-- C55: no other way to put the tokens into lines that are short enough has fewer lines. -/
theorem C55_fewest {text s : Str} {ts : List Tok} {w : Width} {ls : List (List Tok)} (h : Inline (wrapInput text) ts)
    (hs : wrap text w = .ok s) (hf : ls.flatten = ts) (hg : ∀ l ∈ ls, GoodLine w l) :
    (splitlines s).length ≤ ls.length := by
  rw [wrap_fill h w] at hs
  cases hs
  rw [splitlines_layLines h w, layLines, List.length_map]
  exact (lay_laid w ts).1.fewest (x := []) hg (by simpa using hf)

/-! ## C56 -/

theorem Runs.gaps {s : Str} {t : Tok} {ts : List Tok} (h : Inline s (t :: ts)) : t.gap = .glue := by
  obtain ⟨g, r, hg, hs, hgap, hst, _⟩ := h.runs.first
  replace hgap : t.gap = gapOf g := by rcases hgap with h | h <;> exact h
  cases g with
  | nil => exact hgap
  | cons c g =>
    have hstr : Stripped s := ⟨fun h0 => (by rw [hs] at h0; cases h0), h.stripped⟩
    obtain ⟨d, r', hd, hd2⟩ := hstr.starts
    rw [hs] at hd
    cases hd
    rw [hg c (by simp)] at hd2; cases hd2

theorem written_ends {ts : List Tok} {s : Str} (hw : Written ts s) (h : ∀ t ∈ ts, Stripped t.text) (hne : ts ≠ []) :
    EndsNonWs s := by
  rcases List.eq_nil_or_concat ts with h0 | ⟨a, t, h0⟩
  · exact absurd h0 hne
  · rw [List.concat_eq_append] at h0
    subst h0
    obtain ⟨s1, s2, rfl, _, h2⟩ := hw.split
    cases h2 with
    | cons _ h3 =>
      cases h3
      rw [List.append_nil]
      exact ((h t (by simp)).ends.prepend _).prepend _

theorem written_chars {ts : List Tok} {s : Str} (hw : Written ts s) {c : Char} (hc : c ∈ s) : c = ' ' ∨ ∃ t ∈ ts, c ∈ t.text := by
  induction hw with
  | nil => cases hc
  | @cons g t ts s hg h ih =>
    rcases List.mem_append.1 hc with hc | hc
    · left
      rcases hg with ⟨_, rfl⟩ | ⟨_, rfl⟩ | ⟨_, rfl | rfl⟩
      · simpa using hc
      · cases hc
      · cases hc
      · simpa using hc
    · rcases List.mem_append.1 hc with hc | hc
      · exact .inr ⟨t, by simp, hc⟩
      · rcases ih hc with h | ⟨x, hx, h⟩
        · exact .inl h
        · exact .inr ⟨x, by simp [hx], h⟩

/-- the text that is written again, in one line -/
theorem inline_settle {s : Str} {ts : List Tok} (h : Inline s ts) (w : Width) :
    Inline (pyJoin c!" " (layLines w ts)) (settle w ts) := by
  cases ts with
  | nil => exact ⟨.nil (by simp [layLines, lay, pyJoin]), rfl, by simp [layLines, lay, pyJoin], rfl⟩
  | cons t ts =>
    have hg := Runs.gaps h
    have htok := h.runs.tok
    have hw := settle_written (w := w) (ts := ts) (t := t) (by rw [hg]; decide)
    generalize pyJoin c!" " (layLines w (t :: ts)) = s' at hw
    have hw' := hw
    have hr := h.runs.written (settle_respaced w (t :: ts)) hw
    obtain ⟨a, ls, e1, _⟩ := (relay w ts).2.1 t t rfl
    have hse : settle w (t :: ts) = t :: (a ++ (ls.map brokenLine).flatten) := by
      unfold settle; rw [e1]; rfl
    have hstr : Stripped s' := by
      apply stripped_of_ends
      · rw [hse] at hw
        cases hw with
        | @cons x _ _ s2 hx hw =>
          have : x = [] := by
            rcases hx with ⟨h, _⟩ | ⟨_, h⟩ | ⟨h, _⟩
            · rw [hg] at h; cases h
            · exact h
            · rw [hg] at h; cases h
          subst this
          exact (htok t (by simp)).1.starts.append _
      · exact written_ends hw (fun x hx => (hr.tok x hx).1) (by rw [hse]; simp)
    have htext : ∀ x ∈ settle w (t :: ts), ∃ y ∈ t :: ts, x.text = y.text := by
      have key : ∀ {ts us : List Tok}, Respaced ts us → ∀ x ∈ us, ∃ y ∈ ts, x.text = y.text := by
        intro ts us h
        induction h with
        | nil => simp
        | @cons t t' ts ts' ht _ _ ih =>
          intro x hx
          rcases List.mem_cons.1 hx with rfl | hx
          · exact ⟨t, by simp, ht⟩
          · obtain ⟨y, hy, e⟩ := ih x hx
            exact ⟨y, by simp [hy], e⟩
      exact key (settle_respaced w (t :: ts))
    refine ⟨hr, hstr.2, ?_, ?_⟩
    · intro c hc hw
      rcases written_chars hw' hc with h1 | ⟨u, hu, hc⟩
      · exact h1
      · obtain ⟨v, hv, e⟩ := htext u hu
        rw [e] at hc
        exact h.spaces c ((htok v hv).2.2 c hc) hw
    · have hl : lstrip s' = s' := lstrip_starts hstr.starts
      have hstr0 : Stripped s := ⟨fun h0 => h.runs.ne_nil (by rw [h.stripped, h0]), h.stripped⟩
      have hl0 : lstrip s = s := lstrip_starts hstr0.starts
      rw [hse] at hr
      rw [← hl, hr.singleDot, ← h.runs.singleDot, hl0]
      exact h.noDot

/-- C56: the tokens of a wrapped text. They are those of the text, but a token that was glued to the one in front and
starts a line is not any more. -/
theorem C56_tokens {text s : Str} {ts : List Tok} {w : Width} (h : Inline (wrapInput text) ts) (hs : wrap text w = .ok s) :
    Inline (wrapInput s) (settle w ts) := by
  rw [wrap_fill h w] at hs
  cases hs
  have hl := layLines_ok h (wrapInput_noLB text) w
  unfold wrapInput
  rw [splitlines_layLines h w]
  have : (layLines w ts).map strip = layLines w ts := by
    conv => rhs; rw [← List.map_id (layLines w ts)]
    exact List.map_congr_left fun l hx => (hl l hx).2.2
  rw [this]
  exact inline_settle h w

/-- C56: wrapping a wrapped text again changes nothing. -/
theorem C56_again {text s : Str} {ts : List Tok} {w : Width} (h : Inline (wrapInput text) ts) (hs : wrap text w = .ok s) :
    wrap s w = .ok s := by
  rw [wrap_fill (C56_tokens h hs) w, layLines_settle, ← hs, wrap_fill h w]

theorem settle_spaced {w : Width} {t : Tok} {ts : List Tok} (h : ∀ x ∈ ts, x.gap ≠ .glue) :
    settle w (t :: ts) = t :: ts := by
  obtain ⟨a, ls, e1, _⟩ := (relay w ts).2.1 t t rfl
  have hf := lay_flatten w (t :: ts) []
  unfold settle
  rw [e1] at hf ⊢
  simp only [List.flatten_cons, List.nil_append, List.cons_append, List.cons.injEq, true_and] at hf ⊢
  rw [← hf] at h ⊢
  congr 1
  have hls : ∀ l ∈ ls, brokenLine l = l := by
    intro l hl
    cases l with
    | nil => rfl
    | cons x l =>
      have : x.gap ≠ .glue := h x (List.mem_append_right _ (List.mem_flatten.2 ⟨_, hl, by simp⟩))
      simp [brokenLine, Tok.broken, this]
  have : ls.map brokenLine = ls := by
    conv => rhs; rw [← List.map_id ls]
    exact List.map_congr_left hls
  rw [this]

/-- C56: when no token is glued to another, the width a text was wrapped at before does not matter. -/
theorem C56_widths {text s : Str} {t : Tok} {ts : List Tok} {w : Width} (h : Inline (wrapInput text) (t :: ts))
    (hsp : ∀ x ∈ ts, x.gap ≠ .glue) (hs : wrap text w = .ok s) (w' : Width) : wrap s w' = wrap text w' := by
  have := C56_tokens h hs
  rw [settle_spaced hsp] at this
  rw [wrap_fill this w', wrap_fill h w']

/-- The condition is needed: what was glued to a code span is separated from it for good. -/
theorem C56_widths_refuted : ∃ text s, wrap text (.fin 5) = .ok s ∧ wrap s (.fin 80) ≠ wrap text (.fin 80) :=
  ⟨c!"`abc`def", c!"`abc`\ndef", by decide +kernel, by decide +kernel⟩

/-! ## A text with code spans and line breaks -/

theorem inline_example : Inline c!"use `a  b`. or ``x`y``<br/>then  (see) z" [⟨.glue, c!"use"⟩, ⟨.space, c!"`a  b`."⟩,
    ⟨.space, c!"or"⟩, ⟨.space, c!"``x`y``"⟩, ⟨.glue, c!"<br/>"⟩, ⟨.glue, c!"then"⟩, ⟨.space, c!"(see)"⟩, ⟨.space, c!"z"⟩] := by
  have word : ∀ {w : Str}, (w ≠ [] ∧ (∀ c ∈ w, isWs c = false) ∧ '`' ∉ w ∧ (¬ c!"](" <:+: w ∧ ¬ c!"][" <:+: w) ∧
    ¬ c!"<br" <:+: w) → PlainWord w := fun h => ⟨h.1, h.2.1, h.2.2.1, h.2.2.2.1, h.2.2.2.2⟩
  refine ⟨?_, by decide, by decide, by decide⟩
  refine .word (g := []) (w := c!"use") (by decide) trivial (word (by decide)) (.inr (.inl ⟨_, _, rfl, by decide⟩)) ?_
  refine .code (g := c!" ") (n := 1) (body := c!"a  b") (dot := c!".") (by decide)
    ⟨by decide, by decide, by decide, by decide, ?_⟩ ⟨by decide, by decide⟩ ?_
  · rintro ⟨a, b, h, _⟩
    have : '`' ∈ c!"a  b" := by rw [h]; simp [ticks]
    revert this; decide
  refine .word (g := c!" ") (w := c!"or") (by decide) trivial (word (by decide)) (.inr (.inl ⟨_, _, rfl, by decide⟩)) ?_
  refine .code (g := c!" ") (n := 2) (body := c!"x`y") (dot := []) (by decide)
    ⟨by decide, by decide, by decide, by decide, ?_⟩ ⟨by decide, by decide⟩ ?_
  · rintro ⟨a, b, h, _⟩
    have : (c!"x`y").count '`' = 1 := by decide
    rw [h] at this
    simp [ticks, List.count_append, List.replicate] at this
    omega
  refine .br (g := []) (b := c!"<br/>") (by decide) trivial (by unfold IsBr; decide) ?_
  refine .word (g := []) (w := c!"then") (by decide) trivial (word (by decide)) (.inr (.inl ⟨_, _, rfl, by decide⟩)) ?_
  refine .word (g := c!"  ") (w := c!"(see)") (by decide) trivial (word (by decide)) (.inr (.inl ⟨_, _, rfl, by decide⟩)) ?_
  refine .word (g := c!" ") (w := c!"z") (by decide) trivial (word (by decide)) (.inl rfl) ?_
  exact .nil (by decide)

/-- the example wrapped at two widths, and again -/
example : wrap c!"use `a  b`. or ``x`y``<br/>then  (see) z" (.fin 14) =
      .ok c!"use `a  b`. or\n``x`y``<br/>\nthen (see) z" ∧
    wrap c!"use `a  b`. or ``x`y``<br/>then  (see) z" (.fin 8) = .ok c!"use\n`a  b`.\nor\n``x`y``\n<br/>\nthen\n(see) z" ∧
    wrap c!"use\n`a  b`.\nor\n``x`y``\n<br/>\nthen\n(see) z" (.fin 8) =
      .ok c!"use\n`a  b`.\nor\n``x`y``\n<br/>\nthen\n(see) z" ∧
    wrap c!"use\n`a  b`.\nor\n``x`y``\n<br/>\nthen\n(see) z" (.fin 20) = .ok c!"use `a  b`. or\n``x`y`` <br/>\nthen (see) z" := by
  decide +kernel

/-! ## A text with links -/

theorem inline_links : Inline c!"see (as in [the  docs]( http://x.y \"T\").) and [a][b] [c][d], z" [⟨.glue, c!"see"⟩,
    ⟨.space, c!"(as"⟩, ⟨.space, c!"in"⟩, ⟨.space, c!"[the"⟩, ⟨.space, c!"docs]("⟩, ⟨.link, c!"http://x.y \"T\").)"⟩,
    ⟨.space, c!"and"⟩, ⟨.space, c!"[a]["⟩, ⟨.link, c!"b]"⟩, ⟨.link, c!"[c]["⟩, ⟨.link, c!"d],"⟩, ⟨.space, c!"z"⟩] := by
  have word : ∀ {w : Str}, (w ≠ [] ∧ (∀ c ∈ w, isWs c = false) ∧ '`' ∉ w ∧ (¬ c!"](" <:+: w ∧ ¬ c!"][" <:+: w) ∧
    ¬ c!"<br" <:+: w) → PlainWord w := fun h => ⟨h.1, h.2.1, h.2.2.1, h.2.2.2.1, h.2.2.2.2⟩
  refine ⟨?_, by decide, by decide, by decide⟩
  refine .word (g := []) (w := c!"see") (by decide) trivial (word (by decide)) (.inr (.inl ⟨_, _, rfl, by decide⟩)) ?_
  refine .word (g := c!" ") (w := c!"(as") (by decide) trivial (word (by decide)) (.inr (.inl ⟨_, _, rfl, by decide⟩)) ?_
  refine .word (g := c!" ") (w := c!"in") (by decide) trivial (word (by decide)) (.inr (.inl ⟨_, _, rfl, by decide⟩)) ?_
  refine .link (g := c!" ") (pre := []) (name := c!"the  docs") (v := c!" ") (target := c!"http://x.y \"T\"") (tail := c!".)")
    (o := '(') (c := ')') (by decide) trivial
    ⟨by decide, by decide, by decide, by decide, by decide, by decide, by decide, by decide, by decide⟩ (by decide) ?_
  refine .word (g := c!" ") (w := c!"and") (by decide) (by simp [Ctx.word]) (word (by decide)) (.inr (.inl ⟨_, _, rfl, by decide⟩)) ?_
  refine .link (g := c!" ") (pre := []) (name := c!"a") (v := []) (target := c!"b") (tail := []) (o := '[') (c := ']')
    (by decide) trivial
    ⟨by decide, by decide, by decide, by decide, by decide, by decide, by decide, by decide, by decide⟩ (by decide) ?_
  refine .link (g := c!" ") (pre := []) (name := c!"c") (v := []) (target := c!"d") (tail := c!",") (o := '[') (c := ']')
    (by decide) (by simp [Ctx.toLink])
    ⟨by decide, by decide, by decide, by decide, by decide, by decide, by decide, by decide, by decide⟩ (by decide) ?_
  refine .word (g := c!" ") (w := c!"z") (by decide) (by simp [Ctx.word]) (word (by decide)) (.inl rfl) ?_
  exact .nil (by decide)

/-- the example wrapped at two widths: the space between the two links at the end gets lost -/
example : wrap c!"see (as in [the  docs]( http://x.y \"T\").) and [a][b] [c][d], z" (.fin 20) =
      .ok c!"see (as in [the\ndocs](\nhttp://x.y \"T\").)\nand [a][b][c][d], z" ∧
    wrap c!"see (as in [the\ndocs](\nhttp://x.y \"T\").)\nand [a][b][c][d], z" (.fin 80) =
      wrap c!"see (as in [the  docs]( http://x.y \"T\").) and [a][b] [c][d], z" (.fin 80) := by
  decide +kernel

end MF
