import Verif.Lemmas.NoStop
import Verif.Lemmas.Sections
import Verif.Props.CodeDoc
import Verif.Props.TrailingAll
/-!
# C99: quoting and formatting commute
-/

namespace MF

/-- A line in a block quote. -/
def quoteLine : Str → Str
  | [] => c!">"
  | x => c!"> " ++ x

/-- A text in a block quote. -/
def quoteText (t : Str) : Str := pyJoin ['\n'] ((splitlines t).map quoteLine) ++ ['\n']

/-- No line of the text ends in a space or has a link label with a colon in it. -/
def Quiet (t : Str) : Prop := ∀ l ∈ splitlines t, l.getLast? ≠ some ' ' ∧ ¬ c!"]:" <:+: l

/-- Some line of the text starts with a character other than whitespace. -/
def Flush (t : Str) : Prop := ∃ c r, c :: r ∈ splitlines t ∧ isWs c = false

theorem quoteLine_cons (c : Char) (r : Str) : quoteLine (c :: r) = '>' :: ' ' :: c :: r := rfl

theorem quoteLine_marked (x : Str) : isQuote (quoteLine x) = true := by
  cases x with
  | nil => exact (marked_cons []).isQuote
  | cons c r => exact (marked_cons _).isQuote

theorem quoteLine_noLB {x : Str} (h : NoLB x) : NoLB (quoteLine x) := by
  cases x with
  | nil => exact (by decide : ∀ c ∈ c!">", isLB c = false)
  | cons c r => exact NoLB.append (by exact (by decide : ∀ c ∈ c!"> ", isLB c = false)) h

theorem Flush.ne {t : Str} (h : Flush t) : splitlines t ≠ [] := by
  obtain ⟨c, r, h, _⟩ := h
  exact List.ne_nil_of_mem h

theorem splitlines_quoteText {t : Str} (h : splitlines t ≠ []) : splitlines (quoteText t) = (splitlines t).map quoteLine := by
  refine splitlines_join_nl _ ?_ (by simpa using h)
  intro l hl
  obtain ⟨x, hx, rfl⟩ := List.mem_map.1 hl
  exact quoteLine_noLB (splitlines_noLB _ x hx)

/-- Formatting reads nothing but the lines of its text. -/
theorem reformatText_lines (n : Nat) (w : Width) {a b : Str} (h : splitlines a = splitlines b) :
    reformatText n w a = reformatText n w b := by
  cases n with
  | zero => rfl
  | succ n => simp only [reformatText, reformatBody, h]

theorem unquote_quoteLine (x : Str) : unquote (quoteLine x) = if x = [] then [] else ' ' :: x := by
  cases x with
  | nil => exact unquote_marked (marked_cons [])
  | cons c r => exact unquote_marked (marked_cons (' ' :: c :: r))

theorem hasSpace_unquoted (xs : List Str) (h : ∃ x ∈ xs, strip x ≠ [] ∧ getIndent x = 0) :
    hasSpace (xs.map fun x => if x = [] then [] else ' ' :: x) = true := by
  rw [← hasSpace_quoted xs h]
  clear h
  induction xs with
  | nil => rfl
  | cons x xs ih =>
    simp only [List.map_cons, hasSpace, ih]
    cases x with
    | nil => rfl
    | cons c r => rfl

theorem inner_quoteLine (xs : List Str) (h : ∃ x ∈ xs, strip x ≠ [] ∧ getIndent x = 0) :
    quoteInner (xs.map quoteLine) = (xs, true) := by
  have h1 : (fullyQuote 0 (xs.map quoteLine)).map unquote = xs.map fun x => if x = [] then [] else ' ' :: x := by
    rw [fullyQuote_marked, List.map_map]
    · exact List.map_congr_left fun x _ => unquote_quoteLine x
    · intro l hl
      obtain ⟨x, _, rfl⟩ := List.mem_map.1 hl
      exact quoteLine_marked x
  simp only [quoteInner, h1, hasSpace_unquoted xs h, if_true, List.map_map]
  congr 1
  conv => rhs; rw [← List.map_id xs]
  apply List.map_congr_left
  intro x _
  cases x with
  | nil => rfl
  | cons c r => rfl

theorem strip_quoteLine (l : Str) : strip (c!"> " ++ l) = quoteLine (rstrip l) := by
  have h : strip (c!"> " ++ l) = rstrip (c!"> " ++ l) := by
    unfold strip
    rw [show c!"> " ++ l = '>' :: (' ' :: l) from rfl, lstrip_cons_of_not _ _ (by decide)]
  rw [h]
  by_cases hl : rstrip l = []
  · rw [hl, show c!"> " ++ l = c!">" ++ (' ' :: l) from rfl, rstrip_append_ws]
    · rfl
    · intro x hx
      rcases List.mem_cons.1 hx with rfl | hx
      · decide
      · exact (rstrip_eq_nil l).1 hl x hx
  · rw [rstrip_append_of_ne _ _ hl]
    cases hr : rstrip l with
    | nil => exact absurd hr hl
    | cons c r => rfl

theorem Flush.inner {t : Str} (h : Flush t) : ∃ x ∈ splitlines t, strip x ≠ [] ∧ getIndent x = 0 := by
  obtain ⟨c, r, h1, h2⟩ := h
  refine ⟨_, h1, ?_, getIndent_not_ws h2⟩
  obtain ⟨r', h3⟩ := strip_cons_head (r := r) h2
  rw [h3]
  simp

theorem fmt_quoteLines (n : Nat) (w : Width) {t : Str} (h : Flush t) :
    fmtSection (reformatText n) w 0 .quote ((splitlines t).map quoteLine) =
      (reformatText n (w.sub 2) t).map fun p => pyJoin ['\n'] ((splitlines p).map fun l => quoteLine (rstrip l)) := by
  have hi := inner_quoteLine _ h.inner
  have hne := h.ne
  have hs : splitlines (pyJoin ['\n'] (splitlines t) ++ ['\n']) = splitlines t :=
    splitlines_join_nl _ (fun l hl => splitlines_noLB _ l hl) hne
  rw [← reformatText_lines n (w.sub 2) hs]
  generalize splitlines t = xs at *
  obtain ⟨y, ys, rfl⟩ := List.exists_cons_of_ne_nil hne
  have hl : lstrip (quoteLine y) = quoteLine y := by
    cases y with
    | nil => decide
    | cons c r => exact lstrip_cons_of_not _ _ (by decide)
  simp only [fmtSection, List.map_cons, fmtQuote, bind, Except.bind]
  rw [List.map_cons] at hi
  simp only [hi, hl, Int.sub_self, sub_zero, sub_sub_two, if_true, reformatLines]
  cases reformatText n (w.sub 2) (pyJoin ['\n'] (y :: ys) ++ ['\n']) with
  | error e => rfl
  | ok text =>
    simp only [Except.map]
    congr 2
    apply List.map_congr_left
    intro l _
    exact strip_quoteLine l

theorem splitQuote_quoted {n : Nat} {q : List Str} (hq : ∀ l ∈ q, isQuote l = true) (hne : q ≠ []) :
    splitQuote n q = .ok (q, []) ∨ ∃ e, splitQuote n q = .error e := by
  cases n with
  | zero => exact .inr ⟨_, rfl⟩
  | succ n =>
    cases he : endsWithPar (parseWith (splitQuote n)) n q with
    | ok o =>
      have := splitQuote_take (rest := []) hne hq he (by simp) (by simp)
      rw [List.append_nil] at this
      exact .inl this
    | error e =>
      refine .inr ⟨e, ?_⟩
      obtain ⟨l, ls, rfl⟩ := List.exists_cons_of_ne_nil hne
      have hl := hq l (by simp)
      have ht : (l :: ls).takeWhile isQuote = l :: ls := by
        have := (takeWhile_append_all isQuote (l :: ls) [] hq (by simp)).1
        rwa [List.append_nil] at this
      simp only [splitQuote, quoteLoop, hl, List.nil_append, ht, he, bind, Except.bind]
      rfl

theorem parse_quoted {n : Nat} {q : List Str} (hq : ∀ l ∈ q, isQuote l = true) (hne : q ≠ [])
    (h : splitQuote n q = .ok (q, [])) : parse n q = .ok [(.quote, q)] := by
  have := parse_of_first (n := n) [(.quote, q)] (by
    intro a b c hd
    cases a with
    | cons x a => simp at hd
    | nil =>
      obtain ⟨rfl, rfl⟩ : b = (.quote, q) ∧ c = [] := by simpa [eq_comm] using hd
      refine ⟨hne, ?_⟩
      obtain ⟨l, ls, rfl⟩ := List.exists_cons_of_ne_nil hne
      exact firstSection_quote (rest := []) (hq l (by simp)) (by simpa using h))
  simpa [linesOf] using this

theorem Quiet.calm {t : Str} (h : Quiet t) : Calm ((splitlines t).map quoteLine) := by
  intro l hl
  obtain ⟨x, hx, rfl⟩ := List.mem_map.1 hl
  obtain ⟨h1, h2⟩ := h x hx
  cases x with
  | nil => exact ⟨by decide, by decide⟩
  | cons c r =>
    rw [quoteLine_cons]
    constructor
    · cases hb : hardBreak ('>' :: ' ' :: c :: r) with
      | false => rfl
      | true =>
        rw [hardBreak, endsWith_iff] at hb
        obtain ⟨a, ha⟩ := hb
        have := congrArg List.getLast? ha
        simp [List.getLast?_cons] at this
        simp [List.getLast?_cons, this] at h1
    · intro hi
      rcases List.infix_cons_iff.1 hi with hi | hi
      · simp at hi
      rcases List.infix_cons_iff.1 hi with hi | hi
      · simp at hi
      exact h2 hi

/-- Recursion depth that suffices for telling that the quoted text is a quote. -/
def quoteDepth (t : Str) : Nat := mu (longest (splitlines (quoteText t))) (splitlines (quoteText t))

theorem OnlySpaces.quote {t : Str} (h : OnlySpaces t) : OnlySpaces (quoteText t) := by
  intro c hc hw
  rcases List.mem_append.1 hc with hc | hc
  · rcases mem_pyJoin hc with hc | ⟨l, hl, hc⟩
    · exact .inr (by simp at hc; subst hc; decide)
    · obtain ⟨x, hx, rfl⟩ := List.mem_map.1 hl
      cases x with
      | nil => simp [quoteLine] at hc; subst hc; revert hw; decide
      | cons d r =>
        rw [quoteLine_cons] at hc
        rcases List.mem_cons.1 hc with rfl | hc
        · revert hw; decide
        · rcases List.mem_cons.1 hc with rfl | hc
          · exact .inl rfl
          · exact h c (splitlines_mem t _ hx c hc) hw
  · exact .inr (by simp at hc; subst hc; decide)

/-- A text whose lines are all quoted is one block quote. -/
theorem parse_quoteText {n : Nat} {t : Str} (ho : OnlySpaces t) (hq : Quiet t) (hne : splitlines t ≠ [])
    (hn : quoteDepth t ≤ n) : parse n (splitlines (quoteText t)) = .ok [(.quote, (splitlines t).map quoteLine)] := by
  have hd := hn
  rw [quoteDepth] at hd
  have hsp := ho.quote.sp
  generalize longest (splitlines (quoteText t)) = M at hd hsp
  rw [splitlines_quoteText hne] at *
  have hm : ∀ l ∈ (splitlines t).map quoteLine, isQuote l = true := by
    intro l hl
    obtain ⟨x, _, rfl⟩ := List.mem_map.1 hl
    exact quoteLine_marked x
  have hne' : (splitlines t).map quoteLine ≠ [] := by simpa using hne
  refine parse_quoted hm hne' ?_
  rcases splitQuote_quoted (n := n) hm hne' with h | ⟨e, h⟩
  · exact h
  · have h1 := splitQuote_nr n _ hsp hd
    obtain ⟨l, ls, hl⟩ := List.exists_cons_of_ne_nil hne'
    have h2 := splitQuote_calm n l ls (by rw [← hl]; exact hq.calm) e (by rw [← hl]; exact h)
    rw [h, h2] at h1
    exact absurd rfl h1

/-- C99: one pass over a quoted text formats the text two columns narrower and quotes the result, trimmed. -/
theorem C99_pass {n : Nat} {w : Width} {t : Str} (ho : OnlySpaces t) (hq : Quiet t) (hf : Flush t) (hn : quoteDepth t ≤ n) :
    reformatText (n + 1) w (quoteText t) = ((reformatText n (w.sub 2) t).mapError genError).map
      fun p => pyJoin ['\n'] ((splitlines p).map fun l => quoteLine (rstrip l)) ++ ['\n'] := by
  have hp := parse_quoteText ho hq hf.ne hn
  have hr : reprCheck .quote ((splitlines t).map quoteLine) = .ok () := by
    obtain ⟨l, ls, hl⟩ := List.exists_cons_of_ne_nil hf.ne
    rw [hl]
    rfl
  have hfm := fmt_quoteLines n w hf
  rw [reformatText]
  simp only [reformatBody, bind, Except.bind, hp, buildFmts, hr]
  rw [if_neg (by simp)]
  simp only [fmtAll, bind, Except.bind, hfm]
  cases reformatText n (w.sub 2) t <;> rfl

theorem Quiet.trimmed {t : Str} (hq : Quiet t) (ho : OnlySpaces t) : ∀ l ∈ splitlines t, rstrip l = l := by
  intro l hl
  rcases List.eq_nil_or_concat l with rfl | ⟨r, c, rfl⟩
  · rfl
  rw [List.concat_eq_append] at *
  apply rstrip_concat_of_not
  cases hw : isWs c with
  | false => rfl
  | true =>
    rcases ho c (splitlines_mem t _ hl c (by simp)) hw with rfl | h
    · exact absurd (by simp) (hq _ hl).1
    · rw [splitlines_noLB t _ hl c (by simp)] at h
      cases h

theorem quote_trimmed {t : Str} (h : ∀ l ∈ splitlines t, rstrip l = l) :
    pyJoin ['\n'] ((splitlines t).map fun l => quoteLine (rstrip l)) ++ ['\n'] = quoteText t := by
  rw [quoteText]
  congr 2
  apply List.map_congr_left
  intro l hl
  rw [h l hl]

theorem quoteLine_inj {a b : Str} (h : quoteLine a = quoteLine b) : a = b := by
  cases a <;> cases b <;> simp_all [quoteLine]

theorem quoteLine_inj_list {a b : List Str} (h : a.map quoteLine = b.map quoteLine) : a = b := by
  induction a generalizing b with
  | nil => cases b with
    | nil => rfl
    | cons y b => cases h
  | cons x a ih =>
    cases b with
    | nil => cases h
    | cons y b =>
      simp only [List.map_cons, List.cons.injEq] at h
      rw [quoteLine_inj h.1, ih h.2]

/-- The program's answer for a text, in terms of its two passes. -/
theorem reformat_two {n : Nat} {w : Width} {t p r : Str} (h1 : reformatText n w t = .ok p) (h2 : reformatText n w p = .ok r) :
    reformatMarkdownText n w t = if r = p then .ok (rstrip p ++ ['\n']) else .error .inconsistent := by
  simp only [reformatMarkdownText, bind, Except.bind, h1, h2]
  by_cases h : r = p <;> simp [h]

theorem quoteLine_last (x : Str) (h : rstrip x = x) : ∃ c, (quoteLine x).getLast? = some c ∧ isWs c = false := by
  cases x with
  | nil => exact ⟨'>', rfl, by decide⟩
  | cons a r =>
    rcases rstrip_last (a :: r) with h0 | ⟨b, c, h1, h2⟩
    · rw [h] at h0; cases h0
    · rw [h] at h1
      refine ⟨c, ?_, h2⟩
      rw [quoteLine_cons, h1, List.getLast?_cons, List.getLast?_cons]
      simp

theorem rstrip_quoteText {p : Str} (hne : splitlines p ≠ []) (ht : ∀ l ∈ splitlines p, rstrip l = l) :
    rstrip (quoteText p) ++ ['\n'] = quoteText p := by
  rw [quoteText, rstrip_append_ws _ ['\n'] (by decide)]
  congr 1
  rcases List.eq_nil_or_concat (splitlines p) with h0 | ⟨a, x, hx⟩
  · exact absurd h0 hne
  rw [List.concat_eq_append] at hx
  rw [hx] at ht ⊢
  obtain ⟨c, h1, h2⟩ := quoteLine_last x (ht x (by simp))
  rw [List.map_append, List.map_singleton]
  exact rstrip_ends (pyJoin_getLast h1) h2

/-- C99: formatting a quoted text is quoting the text formatted two columns narrower. -/
theorem C99_accepted {n : Nat} {w : Width} {t p : Str} (ho : OnlySpaces t) (hq : Quiet t) (hf : Flush t) (hqp : Quiet p)
    (hfp : Flush p) (h1 : reformatText n (w.sub 2) t = .ok p) (h2 : reformatText n (w.sub 2) p = .ok p) :
    ∃ N, ∀ m, N ≤ m → reformatMarkdownText m w (quoteText t) = .ok (quoteText p) := by
  have hop : OnlySpaces p := ho.reformatText h1
  refine ⟨n + quoteDepth t + quoteDepth p + 1, fun m hm => ?_⟩
  obtain ⟨m, rfl⟩ : ∃ k, m = k + 1 := ⟨m - 1, by omega⟩
  have e1 := C07_budget_irrelevant n m (w.sub 2) t (by omega) (by rw [h1]; simp)
  have e2 := C07_budget_irrelevant n m (w.sub 2) p (by omega) (by rw [h2]; simp)
  have p1 := C99_pass (w := w) ho hq hf (n := m) (by omega)
  have p2 := C99_pass (w := w) hop hqp hfp (n := m) (by omega)
  rw [e1, h1] at p1
  rw [e2, h2] at p2
  simp only [Except.map, Except.mapError, quote_trimmed (hqp.trimmed hop)] at p1 p2
  rw [reformat_two p1 p2, if_pos rfl, rstrip_quoteText hfp.ne (hqp.trimmed hop)]

/-- C99: a text the program refuses, because a second pass changes some line, it refuses quoted too. -/
theorem C99_refused {n : Nat} {w : Width} {t p r : Str} (ho : OnlySpaces t) (hq : Quiet t) (hf : Flush t) (hqp : Quiet p)
    (hfp : Flush p) (h1 : reformatText n (w.sub 2) t = .ok p) (h2 : reformatText n (w.sub 2) p = .ok r)
    (h3 : (splitlines r).map rstrip ≠ splitlines p) :
    ∃ N, ∀ m, N ≤ m → reformatMarkdownText m w (quoteText t) = .error .inconsistent := by
  have hop : OnlySpaces p := ho.reformatText h1
  refine ⟨n + quoteDepth t + quoteDepth p + 1, fun m hm => ?_⟩
  obtain ⟨m, rfl⟩ : ∃ k, m = k + 1 := ⟨m - 1, by omega⟩
  have e1 := C07_budget_irrelevant n m (w.sub 2) t (by omega) (by rw [h1]; simp)
  have e2 := C07_budget_irrelevant n m (w.sub 2) p (by omega) (by rw [h2]; simp)
  have p1 := C99_pass (w := w) ho hq hf (n := m) (by omega)
  have p2 := C99_pass (w := w) hop hqp hfp (n := m) (by omega)
  rw [e1, h1] at p1
  rw [e2, h2] at p2
  simp only [Except.map, Except.mapError, quote_trimmed (hqp.trimmed hop)] at p1 p2
  rw [reformat_two p1 p2, if_neg]
  intro e
  have e' := congrArg splitlines e
  rw [splitlines_quoteText hfp.ne, ← Function.comp_def quoteLine rstrip, ← List.map_map] at e'
  by_cases hr : splitlines r = []
  · rw [hr] at e'
    have : splitlines (pyJoin ['\n'] (([] : List Str).map rstrip |>.map quoteLine) ++ ['\n']) = [[]] := by decide
    rw [this] at e'
    obtain ⟨c, r', hm, _⟩ := hfp
    have : quoteLine (c :: r') ∈ (splitlines p).map quoteLine := List.mem_map.2 ⟨_, hm, rfl⟩
    rw [← e'] at this
    simp [quoteLine] at this
  · rw [splitlines_join_nl] at e'
    · exact h3 (quoteLine_inj_list e')
    · intro l hl
      obtain ⟨y, hy, rfl⟩ := List.mem_map.1 hl
      obtain ⟨x, hx, rfl⟩ := List.mem_map.1 hy
      exact quoteLine_noLB ((splitlines_noLB _ x hx).of_mem fun c hc => mem_of_mem_rstrip hc)
    · simpa using hr

/-- C99: a text on which the program raises, it raises on quoted too, with the same exception but that StopIteration
becomes RuntimeError. -/
theorem C99_error {n : Nat} {w : Width} {t : Str} {e : Err} (ho : OnlySpaces t) (hq : Quiet t) (hf : Flush t)
    (h1 : reformatText n (w.sub 2) t = .error e) (he : e ≠ .recursion) :
    ∃ N, ∀ m, N ≤ m → reformatMarkdownText m w (quoteText t) = .error (genError e) := by
  refine ⟨n + quoteDepth t + 1, fun m hm => ?_⟩
  obtain ⟨m, rfl⟩ : ∃ k, m = k + 1 := ⟨m - 1, by omega⟩
  have e1 := C07_budget_irrelevant n m (w.sub 2) t (by omega) (by rw [h1]; simpa using he)
  have p1 := C99_pass (w := w) ho hq hf (n := m) (by omega)
  rw [e1, h1] at p1
  simp only [Except.map, Except.mapError] at p1
  simp only [reformatMarkdownText, bind, Except.bind, p1]

/-- The text inside `k` block quotes. -/
def quoteDeep : Nat → Str → Str
  | 0, t => t
  | k + 1, t => quoteText (quoteDeep k t)

theorem Flush.quote {t : Str} (h : Flush t) : Flush (quoteText t) := by
  obtain ⟨c, r, h1, h2⟩ := h
  refine ⟨'>', ' ' :: c :: r, ?_, by decide⟩
  rw [splitlines_quoteText (List.ne_nil_of_mem h1)]
  exact List.mem_map.2 ⟨_, h1, rfl⟩

theorem Quiet.quote {t : Str} (h : Quiet t) (hne : splitlines t ≠ []) : Quiet (quoteText t) := by
  have hc := h.calm
  intro l hl
  rw [splitlines_quoteText hne] at hl
  refine ⟨?_, (hc l hl).2⟩
  obtain ⟨x, hx, rfl⟩ := List.mem_map.1 hl
  cases x with
  | nil => simp [quoteLine]
  | cons c r =>
    have := (h _ hx).1
    simpa [quoteLine_cons, List.getLast?_cons] using this

theorem sub_add (w : Width) (a b : Int) : (w.sub a).sub b = w.sub (a + b) := by
  cases w with
  | fin n => simp only [Width.sub, Width.fin.injEq]; omega
  | inf => rfl

/-- C99: and so for any number of quotes. -/
theorem C99_nested {n : Nat} {w : Width} {t p : Str} (k : Nat) (ho : OnlySpaces t) (hq : Quiet t) (hf : Flush t) (hqp : Quiet p)
    (hfp : Flush p) (h1 : reformatText n (w.sub (2 * k)) t = .ok p) (h2 : reformatText n (w.sub (2 * k)) p = .ok p) (hk : 0 < k) :
    ∃ N, ∀ m, N ≤ m → reformatMarkdownText m w (quoteDeep k t) = .ok (quoteDeep k p) := by
  have hop : OnlySpaces p := ho.reformatText h1
  have step : ∀ {t p : Str} {n : Nat} {w : Width}, OnlySpaces t → Quiet t → Flush t → Quiet p → OnlySpaces p →
      reformatText n (w.sub 2) t = .ok p → ∃ m, reformatText m w (quoteText t) = .ok (quoteText p) := by
    intro t p n w ho hq hf hqp hop h1
    have e1 := C07_budget_irrelevant n (n + quoteDepth t) (w.sub 2) t (by omega) (by rw [h1]; simp)
    have p1 := C99_pass (w := w) ho hq hf (n := n + quoteDepth t) (by omega)
    rw [e1, h1] at p1
    simp only [Except.map, Except.mapError, quote_trimmed (hqp.trimmed hop)] at p1
    exact ⟨_, p1⟩
  have deep : ∀ j, OnlySpaces t → ∀ {t : Str}, OnlySpaces t → Quiet t → Flush t →
      OnlySpaces (quoteDeep j t) ∧ Quiet (quoteDeep j t) ∧ Flush (quoteDeep j t) := by
    intro j _
    induction j with
    | zero => intro t a b c; exact ⟨a, b, c⟩
    | succ j ih =>
      intro t a b c
      obtain ⟨a, b, c⟩ := ih a b c
      exact ⟨a.quote, b.quote c.ne, c.quote⟩
  have key : ∀ {q : Str}, OnlySpaces q → Quiet q → Flush q → reformatText n (w.sub (2 * k)) q = .ok p →
      ∀ j, j ≤ k → ∃ m, reformatText m (w.sub (2 * k - 2 * j)) (quoteDeep j q) = .ok (quoteDeep j p) := by
    intro q a b c h j
    induction j with
    | zero => intro _; exact ⟨n, by simpa [quoteDeep] using h⟩
    | succ j ih =>
      intro hj
      obtain ⟨m, hm⟩ := ih (by omega)
      obtain ⟨a1, a2, a3⟩ := deep j ho a b c
      obtain ⟨b1, b2, b3⟩ := deep j ho hop hqp hfp
      refine step a1 a2 a3 b2 b1 (n := m) ?_
      rw [sub_add, show (2 * (k : Int) - 2 * ((j + 1 : Nat) : Int) + 2) = 2 * (k : Int) - 2 * (j : Int) by omega]
      exact hm
  obtain ⟨j, rfl⟩ : ∃ j, k = j + 1 := ⟨k - 1, by omega⟩
  obtain ⟨a1, a2, a3⟩ := deep j ho ho hq hf
  obtain ⟨_, b2, b3⟩ := deep j ho hop hqp hfp
  obtain ⟨m1, e1⟩ := key ho hq hf h1 j (by omega)
  obtain ⟨m2, e2⟩ := key hop hqp hfp h2 j (by omega)
  rw [show (2 * ((j + 1 : Nat) : Int) - 2 * (j : Int)) = 2 by omega] at e1 e2
  have f1 := C07_budget_irrelevant m1 (m1 + m2) _ _ (by omega) (by rw [e1]; simp)
  have f2 := C07_budget_irrelevant m2 (m1 + m2) _ _ (by omega) (by rw [e2]; simp)
  exact C99_accepted a1 a2 a3 b2 b3 (f1.trans e1) (f2.trans e2)

instance (t : Str) : Decidable (Quiet t) := by unfold Quiet; infer_instance

/-- The marker's space is the author's only where some line is flush: an indented paragraph loses it. -/
theorem C99_flush_needed : OnlySpaces c!"  a" ∧ Quiet c!"  a" ∧ ¬ Flush c!"  a" ∧ reformatText 5 (.fin 8) c!"  a" = .ok c!"a\n" ∧
    reformatMarkdownText 5 (.fin 10) (quoteText c!"  a") = .ok c!">a\n" := by
  refine ⟨by unfold OnlySpaces; decide, by decide, ?_, by decide +kernel, by decide +kernel⟩
  rintro ⟨c, r, h, hc⟩
  rw [show splitlines c!"  a" = [c!"  a"] by decide] at h
  simp at h
  obtain ⟨rfl, rfl⟩ := h
  revert hc; decide

/-- A case for every theorem: a text with a list, a paragraph, code and a quote; its quotation; its quotation twice; a
text that is refused. -/
theorem C99_example :
    OnlySpaces c!"* a b c d\n  e f\n\nx y z u\nv\n\n```\nq  r\n```\n> s\nt" ∧
    Quiet c!"* a b c d\n  e f\n\nx y z u\nv\n\n```\nq  r\n```\n> s\nt" ∧
    Flush c!"* a b c d\n  e f\n\nx y z u\nv\n\n```\nq  r\n```\n> s\nt" ∧
    Quiet c!"* a b c\n  d e f\n\nx y z u\nv\n\n```\nq  r\n```\n> s t\n" ∧
    Flush c!"* a b c\n  d e f\n\nx y z u\nv\n\n```\nq  r\n```\n> s t\n" ∧
    reformatText 6 (.fin 8) c!"* a b c d\n  e f\n\nx y z u\nv\n\n```\nq  r\n```\n> s\nt" =
      .ok c!"* a b c\n  d e f\n\nx y z u\nv\n\n```\nq  r\n```\n> s t\n" ∧
    reformatText 6 (.fin 8) c!"* a b c\n  d e f\n\nx y z u\nv\n\n```\nq  r\n```\n> s t\n" =
      .ok c!"* a b c\n  d e f\n\nx y z u\nv\n\n```\nq  r\n```\n> s t\n" ∧
    quoteText c!"* a b c\n  d e f\n\nx y z u\nv\n\n```\nq  r\n```\n> s t\n" =
      c!"> * a b c\n>   d e f\n>\n> x y z u\n> v\n>\n> ```\n> q  r\n> ```\n> > s t\n" ∧
    quoteDeep 2 c!"a\n\nb" = c!"> > a\n> >\n> > b\n" := by
  refine ⟨by unfold OnlySpaces; decide +kernel, by decide +kernel, ⟨'*', c!" a b c d", by decide +kernel, by decide⟩,
    by decide +kernel, ⟨'*', c!" a b c", by decide +kernel, by decide⟩, by decide +kernel, by decide +kernel, by decide +kernel,
    by decide +kernel⟩

/-- A text that is refused, and its quotation. -/
theorem C99_refused_example : OnlySpaces c!"~~~ ~x\na\n~~~" ∧ Quiet c!"~~~ ~x\na\n~~~" ∧ Flush c!"~~~ ~x\na\n~~~" ∧
    (∃ p r, reformatText 5 (.fin 78) c!"~~~ ~x\na\n~~~" = .ok p ∧ reformatText 5 (.fin 78) p = .ok r ∧ Quiet p ∧ Flush p ∧
      (splitlines r).map rstrip ≠ splitlines p) ∧
    reformatMarkdownText 6 (.fin 80) (quoteText c!"~~~ ~x\na\n~~~") = .error .inconsistent := by
  refine ⟨by unfold OnlySpaces; decide +kernel, by decide +kernel, ⟨'a', [], by decide +kernel, by decide⟩,
    ⟨c!"~~~~x\na\n~~~\n", c!"~~~~x\na\n~~~~\n", by decide +kernel, by decide +kernel, by decide +kernel, ⟨'a', [], by decide +kernel, by decide⟩, by decide +kernel⟩,
    by decide +kernel⟩

/-- A text on which the program raises, and its quotation. -/
theorem C99_error_example : OnlySpaces c!"foo\n~~~" ∧ Quiet c!"foo\n~~~" ∧ Flush c!"foo\n~~~" ∧
    reformatText 5 (.fin 78) c!"foo\n~~~" = .error .indexError ∧
    reformatMarkdownText 6 (.fin 80) (quoteText c!"foo\n~~~") = .error .indexError := by
  refine ⟨by unfold OnlySpaces; decide +kernel, by decide +kernel, ⟨'f', c!"oo", by decide +kernel, by decide⟩,
    by decide +kernel, by decide +kernel⟩

end MF
