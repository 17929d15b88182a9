import Verif.Props.Rename
import Verif.Props.Kept
import Verif.Props.Trailing
/-!
# C132: letters do not matter for the layout

A masking of characters, which need not be one-to-one, leaves white space and the characters of `marks` alone and puts none of them in
the place of another character; the masking of all letters by `x` is one. Sections and wrapping do not see it. Formatting does not see
it in texts without opening brackets; for definitions of links, which are written according to whether a word occurs in a line, this is
false.
-/

namespace MF

/-- A masking of characters, by the same character or by different ones. -/
def Masking (f : Char → Char) : Prop := (∀ c, isMark c = true → f c = c) ∧ (∀ c, isMark (f c) = true → isMark c = true)

theorem Masking.mask {f : Char → Char} (h : Masking f) : Mask f := ⟨fun {_} e => h.1 _ e, fun {_} e => h.2 _ e⟩

/-- Every renaming is a masking. -/
theorem Renaming.masking {f : Char → Char} (h : Renaming f) : Masking f :=
  have := h.ren
  ⟨fun _ e => Mask.fix e, fun _ e => Mask.keep e⟩

/-- **C132**, sections: the sections of the masked text are the masked sections, and the same exceptions are raised. -/
theorem C132_parse {f : Char → Char} (h : Masking f) (n : Nat) (ls : List Str) :
    parse n (ls.map (List.map f)) = (parse n ls).map (List.map fun s => (s.1, s.2.map (List.map f))) :=
  have := h.mask
  ren_parse n ls

/-- **C132**, wrapping: the wrapped masked text is the masked wrapped text. -/
theorem C132_wrap {f : Char → Char} (h : Masking f) (s : Str) (w : Width) : wrap (s.map f) w = (wrap s w).map (List.map f) :=
  have := h.mask
  ren_wrap s w

/-! ## Texts without opening brackets -/

theorem fine_bracket {s : Str} (h : Fine (· ≠ '[') s) : '[' ∉ s := by
  intro hm
  rcases h _ hm with e | ⟨_, e | e⟩
  · exact absurd e (by decide)
  · exact e rfl
  · exact absurd e (by decide)

theorem bracket_fine {l : Str} (h : '[' ∉ l) (hl : ∀ c ∈ l, isLB c = false) : Fine (· ≠ '[') l :=
  fun c hc => .inr ⟨hl c hc, .inl fun e => h (e ▸ hc)⟩

theorem lines_bracket {s : Str} (h : '[' ∉ s) : ∀ l ∈ splitlines s, Fine (· ≠ '[') l := fun l hl =>
  bracket_fine (fun hm => h (splitlines_mem s l hl _ hm)) (splitlines_noLB s l hl)

section
variable {f : Char → Char} [Mask f] {sub : Width → Str → Except Err Str}

theorem lines_carry (h : ∀ w s, '[' ∉ s → sub w (s.map f) = (sub w s).map (List.map f)) {ls : List Str}
    (hl : ∀ l ∈ ls, Fine (· ≠ '[') l) : CarriesL f sub ls := by
  intro w
  have hn : '[' ∉ pyJoin ['\n'] ls ++ ['\n'] :=
    fine_bracket ((Fine.pyJoin (fine_mk _ (by decide)) hl).append (fine_mk _ (by decide)))
  simp only [reformatLines, ren_pyJoin (f := f) ren_nl, ← h w _ hn, List.map_append, ren_nl]

theorem inside_carry (h : ∀ w s, '[' ∉ s → sub w (s.map f) = (sub w s).map (List.map f)) {ls : List Str}
    (hl : ∀ l ∈ ls, Fine (· ≠ '[') l) : CarriesIn f sub ls :=
  ⟨lines_carry h (quoteInner_fine hl), fun es ds hes hds e he =>
    lines_carry h (dedentEntries_fine es ds hds (fun e he x hx => hl x (splitList_mem hes e he x hx)) e he)⟩

theorem fmtLrd_noParts {w : Width} {ls : List Str} {e : Err} (h : lrdParts ls = .error e) : fmtLrd w ls = .error e := by
  simp only [fmtLrd, h, bind, Except.bind]

theorem lrdParts_bracket {ls : List Str} (hl : ∀ l ∈ ls, Fine (· ≠ '[') l) : ∃ e, lrdParts ls = .error e := by
  cases hp : lrdParts ls with
  | error e => exact ⟨e, rfl⟩
  | ok p =>
    obtain ⟨name, link, title⟩ := p
    obtain ⟨pre, body, h1, _⟩ := lrdParts_shape hp
    have := fine_bracket (Fine.pyJoin (sep := [' ']) (fine_mk _ (by decide)) hl)
    rw [h1] at this
    simp at this

theorem fence_first {l : Str} {c : Char} (h : isFenceStart l = true) (hc : (strip l).head? = some c) : isMark c = true := by
  unfold isFenceStart at h
  cases hs : strip l with
  | nil => rw [hs] at hc; cases hc
  | cons d r =>
    rw [hs] at h hc
    cases hc
    simp only [List.any_cons, List.any_nil, startsWith, List.replicate_succ, List.replicate_zero, List.isPrefixOf_cons_cons,
      Bool.or_eq_true, Bool.and_eq_true, beq_iff_eq, Bool.false_eq_true, or_false] at h
    rcases h with h | h <;> rw [← h.1] <;> decide

theorem section_distinct {n : Nat} {lines : List Str} {secs : List (Sec × List Str)} (hp : parse n lines = .ok secs)
    {ty : Sec} {ls : List Str} (hs : (ty, ls) ∈ secs) (hl : ∀ l ∈ ls, Fine (· ≠ '[') l) : Distinct f ty ls := by
  refine ⟨?_, ?_⟩
  · rintro rfl l hh c hc d
    have hm := fence_first ((parse_headPred hp hs).2 l hh) hc
    rw [Mask.fix (f := f) hm]
    exact ren_beq hm d
  · rintro rfl w
    obtain ⟨e, he⟩ := lrdParts_bracket hl
    have he' := ren_lrdParts (f := f) ls
    rw [he] at he'
    rw [fmtLrd_noParts he, fmtLrd_noParts (e := e) (by rw [he']; rfl)]
    rfl

theorem mask_reformatText (n : Nat) : ∀ w s, '[' ∉ s → reformatText n w (s.map f) = (reformatText n w s).map (List.map f) := by
  induction n with
  | zero => intro w s _; rfl
  | succ n ih =>
    intro w s hb
    refine ren_reformatBody (ren_parse n) w s fun secs fs hp hf x hx => ?_
    have hl := lines_bracket hb
    rcases buildFmts_fmt secs _ _ _ hf x hx with hm | ⟨h1, h2⟩
    · have hx : ∀ l ∈ x.lines, Fine (· ≠ '[') l := fun l hm' => hl l (by
        rw [← (C08_parse_partition n _ _ hp).1]
        exact List.mem_flatten.2 ⟨x.lines, List.mem_map.2 ⟨_, hm, rfl⟩, hm'⟩)
      exact ⟨inside_carry ih hx, section_distinct hp hm hx⟩
    · rw [h1, h2]
      refine ⟨inside_carry ih (fun l hl => ?_), ⟨fun h => (nomatch h), fun h => (nomatch h)⟩⟩
      simp at hl
      rw [hl]; exact Fine.nil

end

theorem bracket_out {n : Nat} {w : Width} {t o : Str} (hb : '[' ∉ t) (h : reformatText n w t = .ok o) : '[' ∉ o := by
  exact fun hm => hb (reformatText_from h hm (by decide) (by decide))

/-- **C132**, one pass: without opening brackets, the masked text gives the masked result or the same exception. -/
theorem C132_pass {f : Char → Char} (h : Masking f) (n : Nat) (w : Width) (t : Str) (hb : '[' ∉ t) :
    reformatText n w (t.map f) = (reformatText n w t).map (List.map f) :=
  have := h.mask
  mask_reformatText n w t hb

/-- **C132**: without opening brackets, a text that is formatted is so with its letters masked, with the masked result. -/
theorem C132_mask {f : Char → Char} (h : Masking f) {n : Nat} {w : Width} {t o : Str} (hb : '[' ∉ t)
    (ho : reformatMarkdownText n w t = .ok o) : reformatMarkdownText n w (t.map f) = .ok (o.map f) := by
  have := h.mask
  simp only [reformatMarkdownText, C132_pass h _ _ _ hb] at ho ⊢
  cases ha : reformatText n w t with
  | error e => rw [ha] at ho; cases ho
  | ok a =>
    rw [ha] at ho
    simp only [Except.map, bind, Except.bind, C132_pass h _ _ _ (bracket_out hb ha)] at ho ⊢
    cases hc : reformatText n w a with
    | error e => rw [hc] at ho; cases ho
    | ok b =>
      rw [hc] at ho
      dsimp only at ho ⊢
      split at ho
      · cases ho
      · rename_i e
        have e : b = a := by simpa using e
        subst e
        cases ho
        simp only [bne_self_eq_false, Bool.false_eq_true, if_false, ren_rstrip, List.map_append, ren_nl]

/-- **C132**, one letter for another: replacing one character that is not special by another, wherever it occurs, commutes with
formatting. -/
theorem C132_replace {a b : Char} (ha : isMark a = false) (hb : isMark b = false) {n : Nat} {w : Width} {t o : Str} (ht : '[' ∉ t)
    (ho : reformatMarkdownText n w t = .ok o) :
    reformatMarkdownText n w (t.map fun c => if c = a then b else c) = .ok (o.map fun c => if c = a then b else c) := by
  refine C132_mask ⟨fun c hc => ?_, fun c hc => ?_⟩ ht ho
  · rw [if_neg]; rintro rfl; rw [ha] at hc; cases hc
  · by_cases e : c = a
    · rw [if_pos e, hb] at hc; cases hc
    · rwa [if_neg e] at hc

/-- **C132**, exceptions: a text that is not formatted raises the same exception with its letters masked, except that two different
passes may be masked to the same. -/
theorem C132_error {f : Char → Char} (h : Masking f) {n : Nat} {w : Width} {t : Str} {e : Err} (hb : '[' ∉ t)
    (he : reformatMarkdownText n w t = .error e) : reformatMarkdownText n w (t.map f) = .error e ∨ e = .inconsistent := by
  simp only [reformatMarkdownText, C132_pass h _ _ _ hb] at he ⊢
  cases ha : reformatText n w t with
  | error e' => rw [ha] at he; cases he; exact .inl rfl
  | ok a =>
    rw [ha] at he
    simp only [Except.map, bind, Except.bind, C132_pass h _ _ _ (bracket_out hb ha)] at he ⊢
    cases hc : reformatText n w a with
    | error e' => rw [hc] at he; cases he; exact .inl rfl
    | ok b =>
      rw [hc] at he
      dsimp only at he
      split at he
      · cases he; exact .inr rfl
      · cases he

/-! ## Shapes -/

/-- Every character that is neither white space nor markup is an `x`. -/
def blot (c : Char) : Char := if isMark c then c else 'x'

/-- The text with its letters blotted out. -/
def shape (t : Str) : Str := t.map blot

theorem blot_masking : Masking blot := by
  refine ⟨fun c h => by unfold blot; rw [if_pos h], fun c h => ?_⟩
  unfold blot at h
  split at h
  · assumption
  · exact absurd h (by decide)

theorem shape_bracket {t : Str} (h : '[' ∉ t) : '[' ∉ shape t := by
  intro hm
  obtain ⟨c, hc, e⟩ := List.mem_map.1 hm
  unfold blot at e
  split at e
  · exact h (e ▸ hc)
  · exact absurd e (by decide)

theorem bracket_shape {t t' : Str} (h : '[' ∉ t) (e : shape t = shape t') : '[' ∉ t' := by
  intro hm
  have : '[' ∈ shape t' := List.mem_map.2 ⟨_, hm, by decide⟩
  rw [← e] at this
  exact shape_bracket h this

/-- **C132**, shapes: of two texts of the same shape, without opening brackets, that are both formatted the results have the same shape:
the same lines of the same lengths. -/
theorem C132_shape {n : Nat} {w : Width} {t t' o o' : Str} (hb : '[' ∉ t) (e : shape t = shape t')
    (ho : reformatMarkdownText n w t = .ok o) (ho' : reformatMarkdownText n w t' = .ok o') :
    shape o = shape o' ∧ (splitlines o).map List.length = (splitlines o').map List.length := by
  have h1 := C132_mask blot_masking hb ho
  have h2 := C132_mask blot_masking (bracket_shape hb e) ho'
  have e' : t.map blot = t'.map blot := e
  rw [e', h2] at h1
  have e2 : o.map blot = o'.map blot := by exact (Except.ok.inj h1).symm
  have := blot_masking.mask
  have hl : ∀ s : Str, (splitlines s).map List.length = (splitlines (s.map blot)).map List.length := fun s => by
    rw [ren_splitlines, List.map_map]
    congr 1
    funext l
    simp
  exact ⟨e2, by rw [hl, hl o', e2]⟩

/-- **C132**, failures: if a text without opening brackets is formatted, another one of the same shape is, or is found to be formatted
differently by a second pass. -/
theorem C132_other {n : Nat} {w : Width} {t t' o : Str} (hb : '[' ∉ t) (e : shape t = shape t')
    (ho : reformatMarkdownText n w t = .ok o) :
    (∃ o', reformatMarkdownText n w t' = .ok o' ∧ shape o' = shape o) ∨ reformatMarkdownText n w t' = .error .inconsistent := by
  cases h : reformatMarkdownText n w t' with
  | ok o' => exact .inl ⟨o', rfl, (C132_shape hb e ho h).1.symm⟩
  | error err =>
    rcases C132_error blot_masking (bracket_shape hb e) h with h1 | h1
    · have h2 := C132_mask blot_masking hb ho
      have e' : t.map blot = t'.map blot := e
      rw [e', h1] at h2
      cases h2
    · exact .inr (by rw [h1])

/-- **C132** fails for definitions of links: two texts of the same shape, and their results. -/
theorem C132_definitions : shape c!"[a]:\nc \"d\"" = shape c!"[c]:\nc \"d\"" ∧
    reformatMarkdownText 5 (.fin 12) c!"[a]:\nc \"d\"" = .ok c!"[a]:\nc \"d\"\n" ∧
    reformatMarkdownText 5 (.fin 12) c!"[c]:\nc \"d\"" = .ok c!"[c]: c\n\"d\"\n" := by
  refine ⟨by decide, by decide +kernel, by decide +kernel⟩

/-- **C132** is not vacuous: a heading, a quote with a list and a code block, and a table, of one shape in two languages. -/
theorem C132_example :
    shape c!"# Aha\n> * some Tage\n>   in it\n```\na  c\n```\n|a|\n|---|\n|cd|" =
      shape c!"# Öhö\n> * acht Zeit\n>   da es\n```\nß  ü\n```\n|ä|\n|---|\n|öü|" ∧
    reformatMarkdownText 5 (.fin 12) c!"# Aha\n> * some Tage\n>   in it\n```\na  c\n```\n|a|\n|---|\n|cd|" =
      .ok c!"# Aha\n> * some\n>   Tage in\n>   it\n```\na  c\n```\n| a  |\n|----|\n| cd |\n" ∧
    reformatMarkdownText 5 (.fin 12) c!"# Öhö\n> * acht Zeit\n>   da es\n```\nß  ü\n```\n|ä|\n|---|\n|öü|" =
      .ok c!"# Öhö\n> * acht\n>   Zeit da\n>   es\n```\nß  ü\n```\n| ä  |\n|----|\n| öü |\n" := by
  refine ⟨by decide, by decide +kernel, by decide +kernel⟩

end MF
