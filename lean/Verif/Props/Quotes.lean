import Verif.Props.Chars
import Verif.Lemmas.Unquote
/-!
# C29, C30, C46: block quotes
-/

namespace MF

/-! ## C29 -/

theorem fmtQuote_out {sub : Width → Str → Except Err Str} {w : Width} {lines : List Str} {out : Str}
    (h : fmtQuote sub w lines = .ok out) : ∃ text p, (p = c!">" ∨ p = c!"> ") ∧
      out = pyJoin ['\n'] ((splitlines text).map fun l => strip (p ++ l)) := by
  cases lines with
  | nil => cases h
  | cons l0 ls =>
    simp only [fmtQuote, bind, Except.bind] at h
    split at h
    · cases h
    · rename_i text _
      cases h
      have hneg : mul ' ' (((lstrip l0).length : Int) - l0.length) = [] := by
        have : (lstrip l0).length ≤ l0.length := by
          obtain ⟨t, ht, _⟩ := lstrip_split l0
          have := congrArg List.length ht
          simp at this; omega
        unfold mul
        rw [show (((lstrip l0).length : Int) - l0.length).toNat = 0 by omega]
        rfl
      rw [hneg]
      by_cases hs : (quoteInner (l0 :: ls)).2 = true
      · exact ⟨text, c!"> ", .inr rfl, by simp only [hs, if_true]; rfl⟩
      · exact ⟨text, c!">", .inl rfl, by simp only [hs, if_false, Bool.false_eq_true]; rfl⟩

theorem quoted_lines {p text : Str} (hp : p = c!">" ∨ p = c!"> ") :
    ∀ l ∈ (splitlines text).map (fun l => strip (p ++ l)), NoLB l ∧ ∃ r, l = '>' :: r := by
  intro l hl
  obtain ⟨x, hx, rfl⟩ := List.mem_map.1 hl
  constructor
  · intro c hc
    rcases List.mem_append.1 (mem_of_mem_strip hc) with h | h
    · rcases hp with rfl | rfl
      · exact (by decide : ∀ c ∈ c!">", isLB c = false) c h
      · exact (by decide : ∀ c ∈ c!"> ", isLB c = false) c h
    · exact splitlines_noLB _ x hx c h
  · rcases hp with rfl | rfl
    · exact strip_cons_head (by decide)
    · exact strip_cons_head (by decide)

theorem quoted_splitlines {p text : Str} (hp : p = c!">" ∨ p = c!"> ") :
    splitlines (pyJoin ['\n'] ((splitlines text).map fun l => strip (p ++ l))) =
      (splitlines text).map fun l => strip (p ++ l) := by
  apply splitlines_join
  · exact fun l hl => (quoted_lines hp l hl).1
  · intro hlast
    obtain ⟨_, r, hr⟩ := quoted_lines hp _ (getLast?_mem hlast)
    cases hr

/-- C29: every line of a rewritten block quote starts with `>` and does not end in whitespace. -/
theorem C29_quote_lines (sub : Width → Str → Except Err Str) (w : Width) (i : Nat) (lines : List Str) (out : Str)
    (h : fmtSection sub w i .quote lines = .ok out) :
    ∀ l ∈ splitlines out, (∃ r, l = '>' :: r) ∧ ∃ r c, l = r ++ [c] ∧ isWs c = false := by
  obtain ⟨text, p, hp, rfl⟩ := fmtQuote_out h
  rw [quoted_splitlines hp]
  intro l hl
  obtain ⟨_, r', hr'⟩ := quoted_lines hp l hl
  refine ⟨⟨r', hr'⟩, ?_⟩
  obtain ⟨x, hx, rfl⟩ := List.mem_map.1 hl
  rcases strip_last (p ++ x) with h0 | h0
  · rw [hr'] at h0; cases h0
  · exact h0

example : reformatMarkdownText 5 (.fin 20) c!"> a\nb  \n>  > * c\n>  >\n>  > d" = .ok c!"> a b\n> > * c\n> >\n> > d\n" := by
  decide +kernel

/-! ## C46 -/

theorem sub_sub_two (w : Width) : (w.sub 1).sub 1 = w.sub 2 := by
  cases w with
  | fin n => simp only [Width.sub, Width.fin.injEq]; omega
  | inf => rfl

theorem sub_zero (w : Width) : w.sub 0 = w := by
  cases w with
  | fin n => simp [Width.sub]
  | inf => rfl

theorem fullyQuote_marked (xs : List Str) : ∀ d, (∀ x ∈ xs, isQuote x = true) → fullyQuote d xs = xs := by
  induction xs with
  | nil => intro d _; rfl
  | cons x xs ih =>
    intro d h
    simp only [fullyQuote]
    rw [if_pos (h x (by simp)), ih _ fun y hy => h y (by simp [hy])]

theorem marked_cons (r : Str) : Marked ('>' :: r) r := ⟨0, by omega, rfl⟩

theorem getIndent_space (x : Str) : getIndent (' ' :: x) = getIndent x + 1 := by
  have h1 : lstrip (' ' :: x) = lstrip x := lstrip_append_ws [' '] x (by simp; decide)
  unfold getIndent
  rw [h1]
  obtain ⟨t, ht, _⟩ := lstrip_split x
  have := congrArg List.length ht
  simp at this ⊢
  omega

theorem strip_space (x : Str) : strip (' ' :: x) = strip x := by
  have h1 : lstrip (' ' :: x) = lstrip x := lstrip_append_ws [' '] x (by simp; decide)
  rw [← strip_lstrip, h1, strip_lstrip]

/-- Lines quoted with `"> "` where some line is not indented: the marker's space is recognised. -/
theorem hasSpace_quoted (xs : List Str) (h : ∃ x ∈ xs, strip x ≠ [] ∧ getIndent x = 0) :
    hasSpace (xs.map (' ' :: ·)) = true := by
  induction xs with
  | nil => obtain ⟨x, hx, _⟩ := h; cases hx
  | cons y ys ih =>
    simp only [List.map_cons, hasSpace, strip_space]
    by_cases hy : strip y = []
    · simp only [hy, List.isEmpty_nil, if_true]
      apply ih
      obtain ⟨x, hx, h1, h2⟩ := h
      rcases List.mem_cons.1 hx with rfl | hx
      · exact absurd hy h1
      · exact ⟨x, hx, h1, h2⟩
    · have hye : (strip y).isEmpty = false := by simpa using hy
      simp only [hye, Bool.false_eq_true, if_false, getIndent_space y]
      by_cases h0 : getIndent y = 0
      · simp [h0]
      · have h1 : (getIndent y + 1 == 1) = false := by simpa using h0
        have h2 : (getIndent y + 1 == 0) = false := by simp
        simp only [h1, h2, Bool.false_eq_true, if_false]
        apply ih
        obtain ⟨x, hx, h3, h4⟩ := h
        rcases List.mem_cons.1 hx with rfl | hx
        · exact absurd h4 h0
        · exact ⟨x, hx, h3, h4⟩

/-- C46: a block quote whose lines are all written `"> x"`, some `x` of them not indented, is rewritten to the
rewriting of the lines `x`, two columns narrower, each line quoted and trimmed; and it raises exactly when that does. -/
theorem C46_quote_content (sub : Width → Str → Except Err Str) (w : Width) (i : Nat) (xs : List Str)
    (h : ∃ x ∈ xs, strip x ≠ [] ∧ getIndent x = 0) :
    fmtSection sub w i .quote (xs.map (c!"> " ++ ·)) =
      (sub (w.sub 2) (pyJoin ['\n'] xs ++ ['\n'])).map fun text =>
        pyJoin ['\n'] ((splitlines text).map fun l => strip (c!"> " ++ l)) := by
  have hq : ∀ l ∈ xs.map (c!"> " ++ ·), isQuote l = true := by
    intro l hl
    obtain ⟨x, _, rfl⟩ := List.mem_map.1 hl
    exact (marked_cons (' ' :: x)).isQuote
  have hinner : quoteInner (xs.map (c!"> " ++ ·)) = (xs, true) := by
    have h1 : (fullyQuote 0 (xs.map (c!"> " ++ ·))).map unquote = xs.map (' ' :: ·) := by
      rw [fullyQuote_marked _ _ hq, List.map_map]
      apply List.map_congr_left
      intro x _
      exact unquote_marked (marked_cons (' ' :: x))
    simp only [quoteInner, h1, hasSpace_quoted xs h, if_true, List.map_map]
    congr 1
    conv => rhs; rw [← List.map_id xs]
    apply List.map_congr_left
    intro x _
    rfl
  cases xs with
  | nil => obtain ⟨x, hx, _⟩ := h; cases hx
  | cons y ys =>
    simp only [fmtSection, List.map_cons, fmtQuote, bind, Except.bind]
    rw [← List.map_cons (f := (c!"> " ++ ·)), hinner]
    have hl : lstrip (c!"> " ++ y) = c!"> " ++ y := lstrip_cons_of_not _ _ (by decide)
    simp only [hl, Int.sub_self, sub_zero, sub_sub_two, if_true, reformatLines]
    cases sub (w.sub 2) (pyJoin ['\n'] (y :: ys) ++ ['\n']) with
    | error e => rfl
    | ok text => rfl

example : fmtSection (reformatText 3) (.fin 9) 0 .quote ([c!"a b", c!"  c dd e", c!"", c!"* f"].map (c!"> " ++ ·)) =
    .ok c!"> a b c\n> dd e\n>\n> * f" := by decide +kernel

/-! ## C30 -/

/-- every `>` of `s` directly follows a backslash -/
def AllEscaped (s : Str) : Prop := ∀ a b, s = a ++ '>' :: b → ∃ a', a = a' ++ ['\\']

/-- a line after its quote markers -/
def afterMarkers (l : Str) : Str := l.dropWhile fun c => c == '>' || c == ' '

/-- C30 as the README puts it, for documents that are one block quote. False of the code: `C30_refuted`. -/
def C30_statement : Prop := ∀ (n : Nat) (w : Width) (text y : Str), (∀ l ∈ splitlines text, isQuote l = true) →
  reformatMarkdownText n w text = .ok y → ∀ l ∈ splitlines y, AllEscaped (afterMarkers l)

theorem C30_refuted : ¬ C30_statement := by
  intro h
  have h1 : reformatMarkdownText 5 (.fin 80) c!"> a > b" = .ok c!"> a > b\n" := by decide +kernel
  have h2 := h 5 (.fin 80) c!"> a > b" _ (by decide) h1 c!"> a > b" (by decide)
  obtain ⟨a', ha⟩ := h2 c!"a " c!" b" (by decide)
  have := congrArg List.getLast? ha
  simp at this

/-- Text turns into a quote marker: nothing is escaped where wrapping moves a `>` to the start of a line, and the word
after it ends up one quote deeper. -/
theorem C30_refuted_marker : reformatMarkdownText 5 (.fin 12) c!"> aaaaaaaaa > b" = .ok c!"> aaaaaaaaa\n> > b\n" ∧
    (parse 5 [c!"aaaaaaaaa > b"]).map (·.map (·.1)) = .ok [.par] ∧
    (parse 5 [c!"aaaaaaaaa", c!"> b"]).map (·.map (·.1)) = .ok [.par, .quote] := by decide +kernel

/-- No document gains a backslash, so nothing is ever escaped. -/
theorem C30_never_escapes (n : Nat) (w : Width) (text y : Str) (h : reformatMarkdownText n w text = .ok y)
    (hb : '\\' ∉ text) : '\\' ∉ y := by
  intro hy
  rcases C05_no_invented_characters n w text y h _ hy with h1 | h1
  · exact hb h1
  · revert h1; decide

/-- What does hold: if every `>` in the rewritten contents is escaped, so is every `>` of the quote after the markers.
Missing: contents with an unescaped `>`, which are written as they are. -/
theorem C30_escaped_stay_escaped_partial (sub : Width → Str → Except Err Str) (w : Width) (i : Nat) (xs : List Str)
    (hx : ∃ x ∈ xs, strip x ≠ [] ∧ getIndent x = 0) (text out : Str)
    (hsub : sub (w.sub 2) (pyJoin ['\n'] xs ++ ['\n']) = .ok text) (htext : ∀ l ∈ splitlines text, AllEscaped l)
    (h : fmtSection sub w i .quote (xs.map (c!"> " ++ ·)) = .ok out) :
    ∀ l ∈ splitlines out, AllEscaped (l.drop 1) := by
  rw [C46_quote_content sub w i xs hx, hsub] at h
  simp only [Except.map, Except.ok.injEq] at h
  subst h
  rw [quoted_splitlines (.inr rfl)]
  intro l hl
  obtain ⟨x, hx, rfl⟩ := List.mem_map.1 hl
  have hrs : strip (c!"> " ++ x) = rstrip ('>' :: ' ' :: x) := by
    show strip ('>' :: ' ' :: x) = _
    unfold strip
    rw [lstrip_cons_of_not _ _ (by decide)]
  obtain ⟨t, ht, _⟩ := rstripBy_split isWs ('>' :: ' ' :: x)
  rw [hrs]
  obtain ⟨r', hr'⟩ := rstrip_cons_of_not '>' (' ' :: x) (by decide)
  have ht2 : '>' :: ' ' :: x = rstrip ('>' :: ' ' :: x) ++ t := ht
  rw [hr'] at ht2 ⊢
  simp only [List.cons_append, List.cons.injEq, true_and] at ht2
  simp only [List.drop_succ_cons, List.drop_zero]
  intro a b hab
  rw [hab] at ht2
  cases a with
  | nil => simp at ht2
  | cons a0 a =>
    simp only [List.cons_append, List.append_assoc, List.cons.injEq] at ht2
    obtain ⟨rfl, ht2⟩ := ht2
    obtain ⟨a', rfl⟩ := htext x hx a (b ++ t) ht2
    exact ⟨' ' :: a', rfl⟩

example : reformatMarkdownText 5 (.fin 80) c!"> a \\>\n> b" = .ok c!"> a \\> b\n" := by decide +kernel

end MF
