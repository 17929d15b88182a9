import Verif.Props.Endings
/-!
# C112: headings and blank lines at the start of a document
-/

namespace MF

/-- Lines that are blank or headings with hashes, and what is written for them: an empty line, or the same number of
hashes, a space and the text without white space around it. -/
inductive Outline : List Str → List Str → Prop
  | nil : Outline [] []
  | blank {l : Str} {ls os : List Str} : (∀ c ∈ l, isWs c = true) → Outline ls os → Outline (l :: ls) ([] :: os)
  | head {ws text : Str} {k : Nat} {ls os : List Str} : (∀ c ∈ ws, isWs c = true) → ws.length < 4 → 1 ≤ k → text.head? ≠ some '#' →
      Outline ls os → Outline ((ws ++ List.replicate k '#' ++ text) :: ls) (atxLine k (strip text) :: os)

/-- Lines with line feeds behind them. -/
def fed (ls : List Str) : Str := (ls.map fun l => l ++ ['\n']).flatten

theorem lstrip_hashes {ws text : Str} {k : Nat} (hw : ∀ c ∈ ws, isWs c = true) (hk : 1 ≤ k) :
    lstrip (ws ++ List.replicate k '#' ++ text) = List.replicate k '#' ++ text := by
  obtain ⟨j, rfl⟩ : ∃ j, k = j + 1 := ⟨k - 1, by omega⟩
  unfold lstrip
  rw [List.append_assoc, List.dropWhile_append_of_pos hw, List.replicate_succ, List.cons_append, List.dropWhile_cons_of_neg (by decide)]

theorem atx_line {ws text : Str} {k : Nat} (hw : ∀ c ∈ ws, isWs c = true) (hl : ws.length < 4) (hk : 1 ≤ k) (ht : text.head? ≠ some '#') :
    isAtx (ws ++ List.replicate k '#' ++ text) = true ∧
    fmtAtx [ws ++ List.replicate k '#' ++ text] = .ok (atxLine k (strip text)) := by
  have hs := lstrip_hashes (text := text) hw hk
  have ha : isAtx (ws ++ List.replicate k '#' ++ text) = true := by
    rw [isAtx_iff, hs]
    obtain ⟨j, rfl⟩ : ∃ j, k = j + 1 := ⟨k - 1, by omega⟩
    refine ⟨?_, List.replicate j '#' ++ text, by rw [List.replicate_succ, List.cons_append]⟩
    unfold getIndent
    rw [hs]
    simp only [List.length_append]
    omega
  refine ⟨ha, ?_⟩
  obtain ⟨ws', k', text', h1, h2, _, h4, h5, h6⟩ := C12_atx_normal_form (fun _ _ => .ok []) .inf 0 _ ha
  have hs' := lstrip_hashes (text := text') h2 h4
  rw [← h1, hs] at hs'
  have e := congrArg (lstripBy (· == '#')) hs'
  rw [lstripBy_replicate _ _ _ ht, lstripBy_replicate _ _ _ h5] at e
  subst e
  have := List.append_cancel_right hs'
  have hkk : k = k' := by simpa using congrArg List.length this
  subst hkk
  simpa [fmtSection] using h6

theorem Outline.self {B O : List Str} (h : Outline B O) : Outline O O := by
  induction h with
  | nil => exact .nil
  | blank _ _ ih => exact .blank (by simp) ih
  | @head ws text k ls os hw hl hk ht _ ih =>
    have := Outline.head (ws := []) (text := ' ' :: strip text) (k := k) (by simp) (by simp) hk (by simp) ih
    have e : strip (' ' :: strip text) = strip text := by
      rw [show strip (' ' :: strip text) = rstrip (lstrip (' ' :: strip text)) from rfl, show lstrip (' ' :: strip text) = lstrip (strip text) from rfl,
        lstrip_strip, rstrip_strip]
    rw [e] at this
    exact this

theorem Outline.noLB {B O : List Str} (h : Outline B O) (hB : ∀ l ∈ B, NoLB l) : ∀ l ∈ O, NoLB l := by
  induction h with
  | nil => intro l hl; cases hl
  | blank _ _ ih =>
    intro l hl
    rcases List.mem_cons.1 hl with rfl | hl
    · intro c hc; cases hc
    · exact ih (fun l hl => hB l (by simp [hl])) l hl
  | @head ws text k ls os hw hl hk ht _ ih =>
    intro l hl
    rcases List.mem_cons.1 hl with rfl | hl
    · have h0 := hB (ws ++ List.replicate k '#' ++ text) (by simp)
      intro c hc
      simp only [atxLine, List.mem_append, List.mem_cons] at hc
      rcases hc with hc | rfl | hc
      · rw [List.eq_of_mem_replicate hc]; decide
      · decide
      · exact h0 c (by simp [mem_of_mem_strip hc])
    · exact ih (fun l hl => hB l (by simp [hl])) l hl

/-- The sections of opening lines. -/
def openSecs (B : List Str) : List (Sec × List Str) := B.map fun l => (if isBlankLine l then .blank else .atx, [l])

theorem parse_atx_cons {n : Nat} {l : Str} (h : isAtx l = true) (L : List Str) :
    parse n (l :: L) = (parse n L).map fun S => (.atx, [l]) :: S := by
  have hf : firstSection (splitters (splitQuote n)) (l :: L) = .ok (.atx, [l], L) := by
    unfold splitters
    exact firstSection_take (by simp [splitAtx, h]) (by simp)
  simp only [parse, parseWith, List.length_cons, parseLoop, hf, bind, Except.bind]
  cases parseLoop (splitQuote n) L.length L <;> rfl

theorem Outline.parse {n : Nat} {B O : List Str} (h : Outline B O) (L : List Str) :
    MF.parse n (B ++ L) = (MF.parse n L).map fun S => openSecs B ++ S := by
  induction h with
  | nil => cases h : MF.parse n L <;> simp [openSecs, h, Except.map]
  | @blank l ls os hl _ ih =>
    have hb : isBlankLine l = true := by
      simp only [isBlankLine, List.isEmpty_iff, strip_eq_nil]
      exact hl
    rw [List.cons_append, parse_blank_cons hb, ih]
    cases MF.parse n L <;> simp [Except.map, openSecs, hb]
  | @head ws text k ls os hw hl hk ht _ ih =>
    obtain ⟨ha, _⟩ := atx_line hw hl hk ht
    have hb : isBlankLine (ws ++ List.replicate k '#' ++ text) = false := by
      cases hb : isBlankLine (ws ++ List.replicate k '#' ++ text) with
      | false => rfl
      | true => rw [blank_not_atx hb] at ha; cases ha
    generalize ws ++ List.replicate k '#' ++ text = l at *
    rw [List.cons_append, parse_atx_cons ha, ih]
    cases MF.parse n L <;> simp [Except.map, openSecs, hb]

theorem Outline.build {sub : Width → Str → Except Err Str} {w : Width} (T : List (Sec × List Str)) {B O : List Str} (h : Outline B O) :
    ∀ i last, last ≠ some .quote → ∃ F : List Fmt, ∃ j last', fmtAll sub w F = .ok O ∧ last' ≠ some .quote ∧
      buildFmts i last (openSecs B ++ T) = (buildFmts j last' T).map (F ++ ·) := by
  induction h with
  | nil =>
    intro i last hl
    exact ⟨[], i, last, rfl, hl, by cases h : buildFmts i last T <;> simp [openSecs, h, Except.map]⟩
  | @blank l ls os hl _ ih =>
    intro i last _
    obtain ⟨F, j, last', h1, h2, h3⟩ := ih (i + 1) (some .blank) (by simp)
    have hb : isBlankLine l = true := by
      simp only [isBlankLine, List.isEmpty_iff, strip_eq_nil]
      exact hl
    refine ⟨⟨i, .blank, [l]⟩ :: F, j, last', ?_, h2, ?_⟩
    · simp only [fmtAll, fmtSection, fmtBlank, Except.mapError, bind, Except.bind, h1]
    · have : openSecs (l :: ls) = (.blank, [l]) :: openSecs ls := by simp [openSecs, hb]
      rw [this]
      simp only [List.cons_append, buildFmts, reprCheck, bind, Except.bind, List.length_singleton, h3]
      cases buildFmts j last' T <;> rfl
  | @head ws text k ls os hw hl hk ht _ ih =>
    intro i last _
    obtain ⟨F, j, last', h1, h2, h3⟩ := ih (i + 1) (some .atx) (by simp)
    obtain ⟨ha, hf⟩ := atx_line hw hl hk ht
    have hb : isBlankLine (ws ++ List.replicate k '#' ++ text) = false := by
      cases hb : isBlankLine (ws ++ List.replicate k '#' ++ text) with
      | false => rfl
      | true => rw [blank_not_atx hb] at ha; cases ha
    generalize hlx : ws ++ List.replicate k '#' ++ text = l at *
    refine ⟨⟨i, .atx, [l]⟩ :: F, j, last', ?_, h2, ?_⟩
    · simp only [fmtAll, fmtSection, hf, Except.mapError, bind, Except.bind, h1]
    · have : openSecs (l :: ls) = (.atx, [l]) :: openSecs ls := by simp [openSecs, hb]
      rw [this]
      simp only [List.cons_append, buildFmts, reprCheck, bind, Except.bind, List.length_singleton, h3]
      cases buildFmts j last' T <;> rfl

theorem pyJoin_fed {P : List Str} (hP : P ≠ []) (O : List Str) : pyJoin ['\n'] (O ++ P) = fed O ++ pyJoin ['\n'] P := by
  induction O with
  | nil => rfl
  | cons o O ih =>
    rw [List.cons_append, pyJoin_cons_ne (by simp [hP]), ih]
    simp [fed]

theorem splitlines_fed {O : List Str} (h : ∀ l ∈ O, NoLB l) (u : Str) : splitlines (fed O ++ u) = O ++ splitlines u := by
  induction O with
  | nil => rfl
  | cons o O ih =>
    have : fed (o :: O) ++ u = o ++ '\n' :: (fed O ++ u) := by simp [fed]
    rw [this, splitlines_line o (h o (by simp)), ih fun l hl => h l (by simp [hl])]
    rfl

/-- C112: a pass formats headings and blank lines in front of a text on their own. -/
theorem C112_pass {n : Nat} {w : Width} {d x : Str} {B O : List Str} (hB : Outline B O)
    (hd : splitlines d = B ++ splitlines x) (hx : splitlines x ≠ []) :
    Same (reformatText (n + 1) w d) ((reformatText (n + 1) w x).map (fed O ++ ·)) := by
  simp only [reformatText, reformatBody, hd, hB.parse]
  cases hS : parse n (splitlines x) with
  | error e => exact Same.refl _
  | ok S =>
    have hSne : S ≠ [] := by
      rintro rfl
      exact hx (C08_parse_partition _ _ _ hS).1.symm
    simp only [Except.map, bind, Except.bind]
    obtain ⟨F, j, last', f1, f3, f4⟩ := hB.build (sub := reformatText n) (w := w) S 0 none (by simp)
    rw [f4]
    have hk := build_start S j 0 last' none (by simp [f3])
    cases ha : buildFmts j last' S with
    | error e =>
      cases hb : buildFmts 0 none S with
      | error e' => rw [ha, hb] at hk; cases hk; exact Same.refl _
      | ok G' => rw [ha, hb] at hk; cases hk
    | ok G =>
      cases hb : buildFmts 0 none S with
      | error e' => rw [ha, hb] at hk; cases hk
      | ok G' =>
        rw [ha, hb] at hk
        simp only [Except.map]
        rw [fmtAll_bind, f1]
        have hs : Same (fmtAll (reformatText n) w G) (fmtAll (reformatText n) w G') := fmtAll_same G G' (Except.ok.inj hk)
        simp only [Except.bind]
        rcases hs.cases with ⟨P, h1, h2⟩ | ⟨e, e', h1, h2, h3⟩
        · rw [h1, h2]
          simp only
          rw [pyJoin_fed (fmtAll_nonempty hSne hb h2), List.append_assoc]
          exact Same.refl _
        · rw [h1, h2]
          exact Same.error h3

theorem rstrip_fed (f u : Str) : rstrip (f ++ u) ++ ['\n'] =
    if rstrip u ++ ['\n'] = ['\n'] then rstrip f ++ ['\n'] else f ++ (rstrip u ++ ['\n']) := by
  by_cases h : rstrip u = []
  · rw [rstrip_append_ws _ _ ((rstrip_eq_nil u).1 h)]
    simp [h]
  · rw [if_neg (by simpa using h), rstrip_append_of_ne _ _ h, List.append_assoc]

/-- C112: so does the program. -/
theorem C112_program {n : Nat} {w : Width} {d x : Str} {B O : List Str} (hB : Outline B O)
    (hd : splitlines d = B ++ splitlines x) (hx : splitlines x ≠ []) :
    Same (reformatMarkdownText (n + 1) w d) ((reformatMarkdownText (n + 1) w x).map fun y =>
      if y = ['\n'] then rstrip (fed O) ++ ['\n'] else fed O ++ y) := by
  simp only [reformatMarkdownText, bind, Except.bind]
  have hO : ∀ l ∈ O, NoLB l := hB.noLB fun l hl => splitlines_noLB d l (by rw [hd]; simp [hl])
  have h1 := C112_pass (n := n) (w := w) hB hd hx
  cases hu : reformatText (n + 1) w x with
  | error e =>
    rw [hu] at h1
    rcases h1.cases with ⟨v, _, h⟩ | ⟨e1, e2, h, h', hl⟩
    · cases h
    · rw [h]
      cases h'
      exact Same.error hl
  | ok u =>
    rw [hu] at h1
    rcases h1.cases with ⟨v, h, hv⟩ | ⟨e1, e2, _, h', _⟩
    · cases hv
      rw [h]
      simp only
      have hne : splitlines u ≠ [] := by
        obtain ⟨a, rfl⟩ := reformatText_lf hu
        exact splitlines_concat_ne a '\n' rfl
      have h2 := C112_pass (n := n) (w := w) hB.self (splitlines_fed hO u) hne
      cases hr : reformatText (n + 1) w u with
      | error e =>
        rw [hr] at h2
        rcases h2.cases with ⟨v, _, h'⟩ | ⟨e1, e2, h', h'', hl⟩
        · cases h'
        · rw [h']
          cases h''
          exact Same.error hl
      | ok r =>
        rw [hr] at h2
        rcases h2.cases with ⟨v, h', hv⟩ | ⟨e1, e2, _, h', _⟩
        · cases hv
          rw [h']
          simp only
          by_cases hru : r = u
          · simp only [hru, bne_self_eq_false, Bool.false_eq_true, if_false, Except.map, rstrip_fed]
            exact Same.refl _
          · have e1 : (r != u) = true := by simpa using hru
            have e2 : (fed O ++ r != fed O ++ u) = true := by simpa using hru
            simp only [e1, e2, if_true]
            exact Same.refl _
        · cases h'
    · cases h'

/-- C112: a document of headings and blank lines is formatted line by line. -/
theorem C112_outline {n : Nat} {w : Width} {d : Str} {O : List Str} (hB : Outline (splitlines d) O) (hne : O ≠ []) :
    reformatText (n + 1) w d = .ok (fed O) ∧ reformatMarkdownText (n + 1) w d = .ok (rstrip (fed O) ++ ['\n']) := by
  have key : ∀ {t : Str}, Outline (splitlines t) O → reformatText (n + 1) w t = .ok (fed O) := by
    intro t ht
    have hp := ht.parse (n := n) []
    rw [List.append_nil, show parse n [] = .ok [] from rfl] at hp
    simp only [Except.map, List.append_nil] at hp
    obtain ⟨F, j, last', f1, _, f4⟩ := ht.build (sub := reformatText n) (w := w) [] 0 none (by simp)
    simp only [List.append_nil, buildFmts, Except.map] at f4
    simp only [reformatText, reformatBody, hp, bind, Except.bind, f4, f1]
    rcases List.eq_nil_or_concat O with rfl | ⟨A, b, rfl⟩
    · exact absurd rfl hne
    · rw [List.concat_eq_append, pyJoin_fed (by simp)]
      simp [fed, pyJoin]
  have h1 := key hB
  have hs : splitlines (fed O) = O := by
    have := splitlines_fed (hB.noLB fun l hl => splitlines_noLB d l hl) []
    rw [List.append_nil] at this
    rw [this]
    simp [splitlines]
  have h2 := key (t := fed O) (by rw [hs]; exact hB.self)
  refine ⟨h1, ?_⟩
  simp only [reformatMarkdownText, bind, Except.bind, h1, h2]
  simp

/-- C112: the conditions met: three opening lines before a list. -/
theorem C112_example :
    Outline [c!" ##a b ", c!"\t", c!"#"] [c!"## a b", [], c!"# "] ∧
    splitlines c!" ##a b \n\t\n#\n* x\n  y\n" = [c!" ##a b ", c!"\t", c!"#"] ++ splitlines c!"* x\n  y\n" ∧
    reformatMarkdownText 5 (.fin 3) c!"* x\n  y\n" = .ok c!"* x\n  y\n" ∧
    reformatMarkdownText 5 (.fin 3) c!" ##a b \n\t\n#\n* x\n  y\n" = .ok c!"## a b\n\n# \n* x\n  y\n" ∧
    reformatMarkdownText 5 (.fin 3) c!" ##a b \n\t\n#\n\n" = .ok c!"## a b\n\n#\n" := by
  refine ⟨?_, by decide +kernel, by decide +kernel, by decide +kernel, by decide +kernel⟩
  have h1 := Outline.head (ws := []) (text := []) (k := 1) (by simp) (by simp) (by simp) (by simp) .nil
  have h2 := Outline.blank (l := c!"\t") (by decide) h1
  exact Outline.head (ws := c!" ") (text := c!"a b ") (k := 2) (by decide) (by decide) (by decide) (by decide) h2

end MF
