import Verif.Props.Chunks
/-!
# C110, C111: line endings and blank lines around a document
-/

namespace MF

/-! ## C110: line endings -/

/-- The text of lines with their terminators. -/
def ended (xs : List (Str × Str)) : Str := (xs.map fun p => p.1 ++ p.2).flatten

/-- Line terminators: carriage return and line feed, or a single separator. -/
def IsEnd (e : Str) : Prop := e = c!"\r\n" ∨ ∃ c, isLB c = true ∧ e = [c]

/-- A lone carriage return cannot be told from the first half of a terminator, so it is not used together with lone line feeds. -/
def NoMix (xs : List (Str × Str)) : Prop := (∀ p ∈ xs, p.2 ≠ ['\r']) ∨ ∀ p ∈ xs, p.2 ≠ ['\n']

theorem splitlines_body {l : Str} (h : NoLB l) {s : Str} {r : List Str} (hs : splitlines s = [] :: r) : splitlines (l ++ s) = l :: r := by
  induction l with
  | nil => exact hs
  | cons c l ih =>
    have hc : isLB c = false := h c (by simp)
    have hcr : (c == '\r') = false := by
      rw [beq_eq_false_iff_ne]; intro h0; subst h0; cases hc
    simp only [List.cons_append, splitlines, hcr, Bool.false_and, Bool.false_eq_true, if_false, hc]
    rw [ih fun x hx => h x (by simp [hx])]
    rfl

theorem splitlines_end {e : Str} (he : IsEnd e) {s : Str} (h : e = ['\r'] → s.head? ≠ some '\n') : splitlines (e ++ s) = [] :: splitlines s := by
  rcases he with rfl | ⟨c, hc, rfl⟩
  · rfl
  · simp only [List.singleton_append, splitlines]
    by_cases hr : c = '\r'
    · subst hr
      rw [if_neg, if_pos hc]
      simpa using h rfl
    · rw [if_neg, if_pos hc]
      simp [hr]

theorem splitlines_ended {rest : Str} : ∀ (xs : List (Str × Str)), (∀ p ∈ xs, NoLB p.1 ∧ IsEnd p.2) → NoMix xs → NoLB rest →
    splitlines (ended xs ++ rest) = xs.map (·.1) ++ splitlines rest := by
  intro xs
  induction xs with
  | nil => intro _ _ _; rfl
  | cons p xs ih =>
    intro h hm hr
    have hm' : NoMix xs := hm.imp (fun h q hq => h q (by simp [hq])) fun h q hq => h q (by simp [hq])
    have ih := ih (fun q hq => h q (by simp [hq])) hm' hr
    obtain ⟨h1, h2⟩ := h p (by simp)
    have : ended (p :: xs) ++ rest = p.1 ++ (p.2 ++ (ended xs ++ rest)) := by simp [ended]
    rw [this, splitlines_body h1 (splitlines_end h2 ?_), ih]
    · rfl
    · intro e hh
      have hm : ∀ q ∈ p :: xs, q.2 ≠ ['\n'] := by
        rcases hm with hm | hm
        · exact absurd e (hm p (by simp))
        · exact hm
      have hx : ∀ s : Str, s.head? = some '\n' → ¬ NoLB s := by
        intro s hs hn
        cases s with
        | nil => cases hs
        | cons c s =>
          simp only [List.head?_cons, Option.some.injEq] at hs
          subst hs
          have := hn '\n' (by simp)
          cases this
      cases xs with
      | nil => exact hx _ hh hr
      | cons q ys =>
        obtain ⟨h3, h4⟩ := h q (by simp)
        cases hq : q.1 with
        | nil =>
          simp only [ended, List.map_cons, hq, List.nil_append, List.flatten_cons, List.append_assoc] at hh
          rcases h4 with h4 | ⟨c, _, h4⟩
          · rw [h4] at hh; cases hh
          · rw [h4] at hh
            simp only [List.singleton_append, List.head?_cons, Option.some.injEq] at hh
            exact hm q (by simp) (by rw [h4, hh])
        | cons c l =>
          simp only [ended, List.map_cons, hq, List.flatten_cons, List.append_assoc, List.cons_append, List.head?_cons,
            Option.some.injEq] at hh
          exact hx q.1 (by rw [hq, hh]; rfl) h3

/-- C110: texts with the same lines have the same outcome. -/
theorem C110_lines {a b : Str} (h : splitlines a = splitlines b) (n : Nat) (w : Width) :
    reformatMarkdownText n w a = reformatMarkdownText n w b := by
  simp only [reformatMarkdownText, reformatText_lines n w h]

/-- C110: how lines are terminated makes no difference. -/
theorem C110_endings {xs ys : List (Str × Str)} (h : xs.map (·.1) = ys.map (·.1)) (hx : ∀ p ∈ xs, NoLB p.1 ∧ IsEnd p.2)
    (hy : ∀ p ∈ ys, NoLB p.1 ∧ IsEnd p.2) (mx : NoMix xs) (my : NoMix ys) (n : Nat) (w : Width) :
    reformatMarkdownText n w (ended xs) = reformatMarkdownText n w (ended ys) := by
  apply C110_lines
  have h1 := splitlines_ended (rest := []) xs hx mx (by intro c hc; cases hc)
  have h2 := splitlines_ended (rest := []) ys hy my (by intro c hc; cases hc)
  rw [List.append_nil] at h1 h2
  rw [h1, h2, h]

/-- C110: nor does it whether a last line that is not empty is terminated. -/
theorem C110_last {xs : List (Str × Str)} {l e : Str} (hx : ∀ p ∈ xs ++ [(l, e)], NoLB p.1 ∧ IsEnd p.2) (mx : NoMix (xs ++ [(l, e)])) (hl : l ≠ [])
    (n : Nat) (w : Width) : reformatMarkdownText n w (ended xs ++ l) = reformatMarkdownText n w (ended (xs ++ [(l, e)])) := by
  apply C110_lines
  have hl' : NoLB l := (hx (l, e) (by simp)).1
  have h1 := splitlines_ended (rest := l) xs (fun p hp => hx p (by simp [hp]))
    (mx.imp (fun h q hq => h q (by simp [hq])) fun h q hq => h q (by simp [hq])) hl'
  have h2 := splitlines_ended (rest := []) _ hx mx (by intro c hc; cases hc)
  rw [List.append_nil] at h2
  rw [h1, h2, splitlines_single l hl' hl]
  simp [splitlines]

theorem C110_example : ended [(c!"a", c!"\r\n"), ([], c!"\n"), (c!"* b", c!"\r\n")] = c!"a\r\n\n* b\r\n" ∧
    NoMix [(c!"a", c!"\r\n"), ([], c!"\n"), (c!"* b", c!"\r\n")] ∧
    (∀ p ∈ [(c!"a", c!"\r\n"), ([], c!"\n"), (c!"* b", c!"\r\n")], NoLB p.1 ∧ IsEnd p.2) ∧
    reformatMarkdownText 5 (.fin 9) c!"a\r\n\n* b\r\n" = .ok c!"a\n\n* b\n" ∧
    reformatMarkdownText 5 (.fin 9) c!"a\u2028\u2028* b" = .ok c!"a\n\n* b\n" ∧
    reformatMarkdownText 5 (.fin 9) c!"a\r\n* b\r\n" = .ok c!"a\n* b\n" := by
  refine ⟨by decide, .inl (by decide), ?_, by decide +kernel, by decide +kernel, by decide +kernel⟩
  intro p hp
  simp only [List.mem_cons, List.not_mem_nil, or_false] at hp
  rcases hp with rfl | rfl | rfl
  · exact ⟨(by decide : ∀ c ∈ c!"a", isLB c = false), .inl rfl⟩
  · exact ⟨(by decide : ∀ c ∈ [], isLB c = false), .inr ⟨'\n', by decide, rfl⟩⟩
  · exact ⟨(by decide : ∀ c ∈ c!"* b", isLB c = false), .inl rfl⟩

/-! ## C111: blank lines around a document -/

theorem parse_blank_cons {n : Nat} {b : Str} (hb : isBlankLine b = true) (L : List Str) :
    parse n (b :: L) = (parse n L).map fun S => (.blank, [b]) :: S := by
  have hf : firstSection (splitters (splitQuote n)) (b :: L) = .ok (.blank, [b], L) := by
    unfold splitters
    rw [firstSection_skip (splitAtx_eq_nil _ (blank_not_atx hb))]
    exact firstSection_take (by simp [splitBlank, hb]) (by simp)
  simp only [parse, parseWith, List.length_cons, parseLoop, hf, bind, Except.bind]
  cases parseLoop (splitQuote n) L.length L <;> rfl

theorem parse_blanks {n : Nat} (B : List Str) (hB : ∀ b ∈ B, isBlankLine b = true) (L : List Str) :
    parse n (B ++ L) = (parse n L).map fun S => blankSecs B ++ S := by
  induction B with
  | nil => cases h : parse n L <;> simp [blankSecs, h, Except.map]
  | cons b B ih =>
    rw [List.cons_append, parse_blank_cons (hB b (by simp)), ih fun x hx => hB x (by simp [hx])]
    cases parse n L <;> rfl

theorem build_last {T : List (Sec × List Str)} (hT : ∀ s ∈ T, s.1 = .blank) : ∀ (S : List (Sec × List Str)) i last,
    ∃ F : List Fmt, (∀ f ∈ F, f.ty = .blank) ∧ F.length = T.length ∧
      buildFmts i last (S ++ T) = (buildFmts i last S).map (· ++ F) := by
  intro S
  induction S with
  | nil =>
    intro i last
    have : ∀ (T : List (Sec × List Str)) i last, (∀ s ∈ T, s.1 = .blank) → ∃ F : List Fmt, (∀ f ∈ F, f.ty = .blank) ∧
        F.length = T.length ∧ buildFmts i last T = .ok F := by
      intro T
      induction T with
      | nil => intro i last _; exact ⟨[], by simp, rfl, rfl⟩
      | cons s T ih =>
        intro i last h
        obtain ⟨ty, c⟩ := s
        obtain ⟨F, h1, h2, h3⟩ := ih (i + c.length) (some ty) fun s hs => h s (by simp [hs])
        have hty : ty = .blank := h (ty, c) (by simp)
        subst hty
        refine ⟨{ lineIndex := i, ty := .blank, lines := c } :: F, ?_, by simp [h2], ?_⟩
        · intro f hf
          rcases List.mem_cons.1 hf with rfl | hf
          · rfl
          · exact h1 f hf
        · simp [buildFmts, h3, reprCheck, bind, Except.bind]
    obtain ⟨F, h1, h2, h3⟩ := this T i last hT
    exact ⟨F, h1, h2, by rw [List.nil_append, h3]; rfl⟩
  | cons s S ih =>
    intro i last
    obtain ⟨ty, c⟩ := s
    obtain ⟨F, h1, h2, h3⟩ := ih (i + c.length) (some ty)
    refine ⟨F, h1, h2, ?_⟩
    simp only [List.cons_append, buildFmts, bind, Except.bind, h3]
    cases reprCheck ty c with
    | error e => rfl
    | ok u =>
      simp only
      cases buildFmts (i + c.length) (some ty) S with
      | error e => rfl
      | ok fs =>
        simp only [Except.map]
        split <;> rfl

theorem fmtAll_blank_list {sub : Width → Str → Except Err Str} {w : Width} : ∀ (F : List Fmt), (∀ f ∈ F, f.ty = .blank) →
    fmtAll sub w F = .ok (List.replicate F.length []) := by
  intro F
  induction F with
  | nil => intro _; rfl
  | cons f F ih =>
    intro h
    simp only [fmtAll, bind, Except.bind, h f (by simp), fmtSection, fmtBlank, Except.mapError, ih fun x hx => h x (by simp [hx])]
    rfl

theorem parse_after {n : Nat} {x : Str} (hx : Piece n x) (k : Nat) : ∃ S, S ≠ [] ∧ parse n (splitlines x) = .ok S ∧
    parse n (splitlines (x ++ List.replicate k '\n')) = .ok (S ++ List.replicate k (.blank, [[]])) := by
  obtain ⟨S, h1, h2, h3, h4, _⟩ := hx.sections
  refine ⟨S, h2, h1, ?_⟩
  cases k with
  | zero => simpa using h1
  | succ k =>
    rw [List.replicate_succ, splitlines_two hx.lf, splitlines_nls, List.replicate_succ]
    refine C50_sections (B1 := [[]]) rfl h3 (C08_parse_partition _ _ _ h1).1 (by simp) noIndent_blank ?_ h4 ?_
    · induction k with
      | zero => exact fun _ _ _ h => by simp at h
      | succ k ih => rw [List.replicate_succ]; exact ih.cons rfl
    · have := parse_blanks (n := n) (List.replicate k []) (by intro b hb; rw [List.eq_of_mem_replicate hb]; rfl) []
      rw [List.append_nil] at this
      rw [this]
      simp [parse, parseWith, parseLoop, Except.map, blankSecs]

/-- C111: a pass keeps blank lines after a text. -/
theorem C111_after_pass {n : Nat} {w : Width} {x : Str} (hx : Piece n x) (k : Nat) :
    reformatText (n + 1) w (x ++ List.replicate k '\n') = (reformatText (n + 1) w x).map (· ++ List.replicate k '\n') := by
  obtain ⟨S, hne, h1, h2⟩ := parse_after hx k
  obtain ⟨F, b1, b2, b3⟩ := build_last (T := List.replicate k (.blank, [[]])) (by intro s hs; rw [List.eq_of_mem_replicate hs]) S 0 none
  simp only [reformatText, reformatBody, h1, h2, bind, Except.bind, b3]
  cases hG : buildFmts 0 none S with
  | error e => rfl
  | ok G =>
    simp only [Except.map]
    rw [fmtAll_bind, fmtAll_blank_list F b1]
    cases hP : fmtAll (reformatText n) w G with
    | error e => rfl
    | ok P =>
      have hPne := fmtAll_nonempty hne hG hP
      simp only [Except.bind, b2, List.length_replicate]
      rw [pyJoin_blanks P hPne k, List.append_assoc, List.append_assoc, ← List.replicate_succ', List.singleton_append, ← List.replicate_succ]

/-- C111: blank lines after a text make no difference. -/
theorem C111_after {n : Nat} {w : Width} {x : Str} (hx : Piece n x) (hu : ∀ u, reformatText (n + 1) w x = .ok u → Piece n u) (k : Nat) :
    reformatMarkdownText (n + 1) w (x ++ List.replicate k '\n') = reformatMarkdownText (n + 1) w x := by
  simp only [reformatMarkdownText, bind, Except.bind, C111_after_pass hx k]
  cases h : reformatText (n + 1) w x with
  | error e => rfl
  | ok u =>
    simp only [Except.map]
    rw [C111_after_pass (hu u h) k]
    cases reformatText (n + 1) w u with
    | error e => rfl
    | ok r =>
      simp only [Except.map]
      rw [rstrip_append_ws _ _ (by intro c hc; rw [List.eq_of_mem_replicate hc]; decide)]
      by_cases hr : r = u
      · simp [hr]
      · simp [hr]

theorem build_start : ∀ (T : List (Sec × List Str)) i j last last', (last = some .quote ↔ last' = some .quote) →
    (buildFmts i last T).map (List.map Fmt.key) = (buildFmts j last' T).map (List.map Fmt.key) := by
  intro T
  induction T with
  | nil => intros; rfl
  | cons s T ih =>
    intro i j last last' hl
    obtain ⟨ty, c⟩ := s
    have hi := ih (i + c.length) (j + c.length) (some ty) (some ty) Iff.rfl
    have hc : (ty == .setext && last == some .quote) = (ty == .setext && last' == some .quote) := by
      congr 1
      rw [Bool.eq_iff_iff]
      simp [hl]
    simp only [buildFmts, bind, Except.bind, hc]
    cases reprCheck ty c with
    | error e => rfl
    | ok u =>
      cases ha : buildFmts (i + c.length) (some ty) T with
      | error e =>
        cases hb : buildFmts (j + c.length) (some ty) T with
        | error e' => rw [ha, hb] at hi; exact hi
        | ok G' => rw [ha, hb] at hi; cases hi
      | ok G =>
        cases hb : buildFmts (j + c.length) (some ty) T with
        | error e' => rw [ha, hb] at hi; cases hi
        | ok G' =>
          rw [ha, hb] at hi
          have hk : G.map Fmt.key = G'.map Fmt.key := Except.ok.inj hi
          simp only
          split <;> simp [Except.map, hk, Fmt.key]

theorem build_first (T : List (Sec × List Str)) : ∀ (B : List Str) i last, last ≠ some .quote →
    ∃ F : List Fmt, ∃ j last', (∀ f ∈ F, f.ty = .blank) ∧ F.length = B.length ∧ last' ≠ some .quote ∧
      buildFmts i last (blankSecs B ++ T) = (buildFmts j last' T).map (F ++ ·) := by
  intro B
  induction B with
  | nil =>
    intro i last hl
    exact ⟨[], i, last, by simp, rfl, hl, by cases h : buildFmts i last T <;> simp [blankSecs, h, Except.map]⟩
  | cons b B ih =>
    intro i last hl
    obtain ⟨F, j, last', h1, h2, h3, h4⟩ := ih (i + 1) (some .blank) (by simp)
    refine ⟨⟨i, .blank, [b]⟩ :: F, j, last', ?_, by simp [h2], h3, ?_⟩
    · intro f hf
      rcases List.mem_cons.1 hf with rfl | hf
      · rfl
      · exact h1 f hf
    · have : blankSecs (b :: B) = (.blank, [b]) :: blankSecs B := rfl
      rw [this]
      simp only [List.cons_append, buildFmts, reprCheck, bind, Except.bind, List.length_singleton, h4]
      cases buildFmts j last' T <;> rfl

theorem pyJoin_front {P : List Str} (hP : P ≠ []) : ∀ k, pyJoin ['\n'] (List.replicate k [] ++ P) = List.replicate k '\n' ++ pyJoin ['\n'] P := by
  intro k
  induction k with
  | zero => rfl
  | succ k ih =>
    rw [List.replicate_succ, List.cons_append, pyJoin_cons_ne (by simp [hP]), ih, List.replicate_succ]
    rfl

/-- C111: a pass keeps blank lines in front of a text, as empty ones. -/
theorem C111_before_pass {n : Nat} {w : Width} {d x : Str} {B : List Str} (hB : ∀ b ∈ B, isBlankLine b = true)
    (hd : splitlines d = B ++ splitlines x) (hx : splitlines x ≠ []) :
    Same (reformatText (n + 1) w d) ((reformatText (n + 1) w x).map (List.replicate B.length '\n' ++ ·)) := by
  simp only [reformatText, reformatBody, hd, parse_blanks B hB]
  cases hS : parse n (splitlines x) with
  | error e => exact Same.refl _
  | ok S =>
    have hSne : S ≠ [] := by
      rintro rfl
      exact hx (C08_parse_partition _ _ _ hS).1.symm
    simp only [Except.map, bind, Except.bind]
    obtain ⟨F, j, last', f1, f2, f3, f4⟩ := build_first S B 0 none (by simp)
    rw [f4]
    have hk := build_start S j 0 last' none (by simp [f3])
    cases ha : buildFmts j last' S with
    | error e =>
      cases hb : buildFmts 0 none S with
      | error e' => rw [ha, hb] at hk; cases hk; exact Same.refl _
      | ok G' => rw [ha, hb] at hk; cases hk
    | ok G =>
      cases hb : buildFmts 0 none S with
      | error e' => rw [ha, hb] at hk; cases hk
      | ok G' =>
        rw [ha, hb] at hk
        simp only [Except.map]
        rw [fmtAll_bind, fmtAll_blank_list F f1]
        have hs : Same (fmtAll (reformatText n) w G) (fmtAll (reformatText n) w G') := fmtAll_same G G' (Except.ok.inj hk)
        simp only [Except.bind]
        rcases hs.cases with ⟨P, h1, h2⟩ | ⟨e, e', h1, h2, h3⟩
        · rw [h1, h2]
          simp only [f2]
          rw [pyJoin_front (fmtAll_nonempty hSne hb h2), List.append_assoc]
          exact Same.refl _
        · rw [h1, h2]
          exact Same.error h3

theorem splitlines_front (k : Nat) (u : Str) : splitlines (List.replicate k '\n' ++ u) = List.replicate k [] ++ splitlines u := by
  induction k with
  | zero => rfl
  | succ k ih =>
    rw [List.replicate_succ, List.replicate_succ, List.cons_append, List.cons_append, ← ih]
    exact splitlines_nl_append [] _

theorem rstrip_front (k : Nat) (u : Str) : rstrip (List.replicate k '\n' ++ u) ++ ['\n'] =
    if rstrip u ++ ['\n'] = ['\n'] then ['\n'] else List.replicate k '\n' ++ (rstrip u ++ ['\n']) := by
  by_cases h : rstrip u = []
  · have h1 : rstrip (List.replicate k '\n' ++ u) = [] := by
      rw [rstrip_append_ws _ _ ((rstrip_eq_nil u).1 h), rstrip_eq_nil]
      intro c hc
      rw [List.eq_of_mem_replicate hc]
      decide
    simp [h, h1]
  · rw [if_neg (by simpa using h), rstripBy_append_of_ne isWs _ _ h |> (fun e : rstrip _ = _ => e), List.append_assoc]
    rfl

/-- C111: blank lines in front of a text are kept, as empty ones, unless the text has nothing but blank lines. -/
theorem C111_before {n : Nat} {w : Width} {d x : Str} {B : List Str} (hB : ∀ b ∈ B, isBlankLine b = true)
    (hd : splitlines d = B ++ splitlines x) (hx : splitlines x ≠ []) :
    Same (reformatMarkdownText (n + 1) w d) ((reformatMarkdownText (n + 1) w x).map fun y =>
      if y = ['\n'] then ['\n'] else List.replicate B.length '\n' ++ y) := by
  simp only [reformatMarkdownText, bind, Except.bind]
  have h1 := C111_before_pass (n := n) (w := w) hB hd hx
  cases hu : reformatText (n + 1) w x with
  | error e =>
    rw [hu] at h1
    rcases h1.cases with ⟨v, _, h⟩ | ⟨e1, e2, h, h', hl⟩
    · cases h
    · rw [h]
      cases h'
      exact Same.error hl
  | ok u =>
    rw [hu] at h1
    rcases h1.cases with ⟨v, h, hv⟩ | ⟨e1, e2, _, h', _⟩
    · cases hv
      rw [h]
      simp only
      have hne : splitlines u ≠ [] := by
        obtain ⟨a, rfl⟩ := reformatText_lf hu
        exact splitlines_concat_ne a '\n' rfl
      have h2 := C111_before_pass (n := n) (w := w) (B := List.replicate B.length [])
        (by intro b hb; rw [List.eq_of_mem_replicate hb]; rfl) (splitlines_front B.length u) hne
      rw [List.length_replicate] at h2
      cases hr : reformatText (n + 1) w u with
      | error e =>
        rw [hr] at h2
        rcases h2.cases with ⟨v, _, h'⟩ | ⟨e1, e2, h', h'', hl⟩
        · cases h'
        · rw [h']
          cases h''
          exact Same.error hl
      | ok r =>
        rw [hr] at h2
        rcases h2.cases with ⟨v, h', hv⟩ | ⟨e1, e2, _, h', _⟩
        · cases hv
          rw [h']
          simp only
          by_cases hru : r = u
          · simp only [hru, bne_self_eq_false, Bool.false_eq_true, if_false, Except.map, rstrip_front]
            exact Same.refl _
          · have e1 : (r != u) = true := by simpa using hru
            have e2 : (List.replicate B.length '\n' ++ r != List.replicate B.length '\n' ++ u) = true := by simpa using hru
            simp only [e1, e2, if_true]
            exact Same.refl _
        · cases h'
    · cases h'

/-- C111: a document with blank lines before and after it. -/
theorem C111_example :
    reformatMarkdownText 20 (.fin 80) c!"\n \t\na\nb\n\n\n\n" = .ok c!"\n\na b\n" ∧
    reformatMarkdownText 20 (.fin 80) c!"a\nb\n" = .ok c!"a b\n" ∧
    splitlines c!"\n \t\na\nb\n" = [[], c!" \t"] ++ splitlines c!"a\nb\n" := by
  decide +kernel

/-- Any number of empty lines after a list. -/
theorem C111_after_example (k : Nat) :
    reformatMarkdownText 4 (.fin 10) (c!"* x\n  y\n" ++ List.replicate k '\n') = .ok c!"* x y\n" := by
  rw [C111_after (C105_pieces.before _ (by simp)) fun u hu => (C105_pieces.after _ (by simp) u hu).1]
  decide +kernel

/-- A definition is no piece: without a line behind it, it is a paragraph and is wrapped, and the second pass then fails on the label. -/
theorem C111_definition :
    reformatMarkdownText 4 (.fin 6) c!"[a]: bcde\n" = .error .stopIteration ∧
    reformatMarkdownText 4 (.fin 6) c!"[a]: bcde\n\n" = .ok c!"[a]: bcde\n" := by
  decide +kernel

end MF
