import Verif.Props.QuoteDoc
/-!
# C106, C107: lazy lines and indentation of block quotes
-/

namespace MF

/-! ## C106: lines of a quote without a marker -/

/-- How many markers a line starts with. -/
def levels (l : Str) : Nat := ((l.filter fun c => !isWs c).takeWhile (· == '>')).length

/-- The lines of a quote with markers before the lines that have none: as many as the last line with markers has. -/
def markFrom (prev : Str) : List Str → List Str
  | [] => []
  | l :: ls => if quotedLine l then l :: markFrom l ls else (List.replicate (levels prev) '>' ++ l) :: markFrom prev ls

def markLazy (ls : List Str) : List Str := markFrom [] ls

theorem markFrom_get : ∀ (ls : List Str) (prev : Str) (i : Nat), (markFrom prev ls)[i]? = ls[i]?.map fun l =>
    if quotedLine l then l else List.replicate (levels (((ls.take i).filter quotedLine).getLastD prev)) '>' ++ l := by
  intro ls
  induction ls with
  | nil => intro prev i; rfl
  | cons l ls ih =>
    intro prev i
    unfold markFrom
    cases i with
    | zero =>
      by_cases hq : quotedLine l = true
      · simp [hq]
      · simp [hq]
    | succ i =>
      by_cases hq : quotedLine l = true
      · rw [if_pos hq, List.getElem?_cons_succ, ih, List.getElem?_cons_succ, List.take_succ_cons, List.filter_cons, if_pos hq]
        congr 1
        funext x
        cases hf : List.filter quotedLine (List.take i ls) with
        | nil => rfl
        | cons a b => rfl
      · rw [if_neg hq, List.getElem?_cons_succ, ih, List.getElem?_cons_succ, List.take_succ_cons, List.filter_cons, if_neg hq]

/-- C106: what the lines with markers are, line by line. -/
theorem C106_line (ls : List Str) (i : Nat) : (markLazy ls)[i]? = ls[i]?.map fun l =>
    if quotedLine l then l else List.replicate (levels (((ls.take i).filter quotedLine).getLastD [])) '>' ++ l :=
  markFrom_get ls [] i

theorem levels_eq (l : Str) : (spaceless l).length - (lstripBy (· == '>') (spaceless l)).length = levels l := by
  rw [spaceless_eq]
  unfold levels lstripBy
  have := congrArg List.length (List.takeWhile_append_dropWhile (p := (· == '>')) (l := l.filter fun c => !isWs c))
  rw [List.length_append] at this
  omega

theorem levels_pos {l : Str} (h : quotedLine l = true) : 0 < levels l := by
  unfold quotedLine at h
  simp only [Bool.and_eq_true, beq_iff_eq] at h
  have : ∀ l : Str, (l.dropWhile isWs).head? = some '>' → 0 < levels l := by
    intro l
    induction l with
    | nil => intro h; cases h
    | cons c r ih =>
      intro h
      cases hc : isWs c with
      | true =>
        rw [List.dropWhile_cons, if_pos hc] at h
        have := ih h
        unfold levels at this ⊢
        rwa [List.filter_cons, if_neg (by simp [hc])]
      | false =>
        rw [List.dropWhile_cons, if_neg (by simp [hc])] at h
        cases h
        unfold levels
        rw [List.filter_cons, if_pos (by decide)]
        simp
  exact this l h.2

theorem quoted_marked (k : Nat) (hk : 0 < k) (l : Str) : isQuote (List.replicate k '>' ++ l) = true := by
  obtain ⟨j, rfl⟩ : ∃ j, k = j + 1 := ⟨k - 1, by omega⟩
  rw [List.replicate_succ, List.cons_append, ← quotedLine_eq]
  unfold quotedLine
  rw [getIndent_not_ws (by decide), List.dropWhile_cons, if_neg (by decide)]
  rfl

theorem fullyQuote_markFrom : ∀ (ls : List Str) (prev : Str), fullyQuote (levels prev) ls = markFrom prev ls := by
  intro ls
  induction ls with
  | nil => intro prev; rfl
  | cons l ls ih =>
    intro prev
    unfold fullyQuote markFrom
    rw [← quotedLine_eq]
    by_cases hq : quotedLine l = true
    · rw [if_pos hq, if_pos hq]
      simp only [levels_eq]
      rw [ih]
    · rw [if_neg hq, if_neg hq, ih]

theorem markFrom_quoted : ∀ (ls : List Str) (prev : Str), 0 < levels prev → ∀ x ∈ markFrom prev ls, isQuote x = true := by
  intro ls
  induction ls with
  | nil => intro prev _ x hx; cases hx
  | cons l ls ih =>
    intro prev hp x hx
    unfold markFrom at hx
    split at hx
    · rename_i hq
      rcases List.mem_cons.1 hx with rfl | hx
      · rw [← quotedLine_eq]; exact hq
      · exact ih l (levels_pos hq) x hx
    · rcases List.mem_cons.1 hx with rfl | hx
      · exact quoted_marked _ hp l
      · exact ih prev hp x hx

theorem markLazy_cons {l : Str} (h : quotedLine l = true) (ls : List Str) : markLazy (l :: ls) = l :: markFrom l ls := by
  rw [markLazy, markFrom, if_pos h]

theorem markLazy_quoted {l : Str} (h : quotedLine l = true) (ls : List Str) : ∀ x ∈ markLazy (l :: ls), isQuote x = true := by
  rw [markLazy_cons h]
  intro x hx
  rcases List.mem_cons.1 hx with rfl | hx
  · rw [← quotedLine_eq]; exact h
  · exact markFrom_quoted ls l (levels_pos h) x hx

/-- C106: a quote is formatted as if every line had its markers. -/
theorem C106_format {sub : Width → Str → Except Err Str} {w : Width} {i : Nat} {l : Str} {ls : List Str} (h : quotedLine l = true) :
    fmtSection sub w i .quote (l :: ls) = fmtSection sub w i .quote (markLazy (l :: ls)) := by
  have h1 : quoteInner (l :: ls) = quoteInner (markLazy (l :: ls)) := by
    unfold quoteInner
    rw [fullyQuote_marked (markLazy (l :: ls)) 0 (markLazy_quoted h ls)]
    rw [show (0 : Nat) = levels [] from rfl, fullyQuote_markFrom]
    rfl
  rw [markLazy_cons h] at h1 ⊢
  simp only [fmtSection, fmtQuote, h1]

theorem markFrom_noLB : ∀ (ls : List Str) (prev : Str), (∀ l ∈ ls, NoLB l) → ∀ x ∈ markFrom prev ls, NoLB x := by
  intro ls
  induction ls with
  | nil => intro prev _ x hx; cases hx
  | cons l ls ih =>
    intro prev h x hx
    unfold markFrom at hx
    split at hx
    · rcases List.mem_cons.1 hx with rfl | hx
      · exact h _ (by simp)
      · exact ih l (fun y hy => h y (by simp [hy])) x hx
    · rcases List.mem_cons.1 hx with rfl | hx
      · intro c hc
        rcases List.mem_append.1 hc with hc | hc
        · rw [List.eq_of_mem_replicate hc]; decide
        · exact h l (by simp) c hc
      · exact ih prev (fun y hy => h y (by simp [hy])) x hx

theorem parse_quote_error {n : Nat} {l : Str} {ls : List Str} {e : Err} (hq : isQuote l = true) (h : splitQuote n (l :: ls) = .error e) :
    parse n (l :: ls) = .error e := by
  obtain ⟨p1, _, _, _, _, _, _, _, p9⟩ := false_of_first (isQuote_first hq)
  have : firstSection (splitters (splitQuote n)) (l :: ls) = .error e := by
    unfold splitters
    rw [firstSection_skip (splitAtx_eq_nil _ (p1 (by decide))), firstSection_skip (splitBlank_eq_nil _ p9)]
    simp only [firstSection, h, bind, Except.bind]
  simp only [parse, parseWith, List.length_cons, parseLoop, this, bind, Except.bind]

/-- C106: the program's answer for a document that is one quote is its answer for the quote with all markers, unless the
markers make telling sections apart fail. -/
theorem C106_document {n : Nat} {w : Width} {text : Str} {ls : List Str} (h : parse n (splitlines text) = .ok [(.quote, ls)])
    (hm : ∀ e, parse n (markLazy ls) ≠ .error e) :
    reformatMarkdownText (n + 1) w text = reformatMarkdownText (n + 1) w (pyJoin ['\n'] (markLazy ls) ++ ['\n']) := by
  have hpart := C08_parse_partition _ _ _ h
  have hls : ls = splitlines text := by simpa using hpart.1
  obtain ⟨h1, _, _⟩ := C52_extent (pre := []) (post := []) h
  have hne : ls ≠ [] := hpart.2 (.quote, ls) (by simp)
  obtain ⟨l, rest, rfl⟩ := List.exists_cons_of_ne_nil hne
  have hq : quotedLine l = true := h1 l rfl
  have hall := markLazy_quoted hq rest
  have hmne : markLazy (l :: rest) ≠ [] := by rw [markLazy_cons hq]; simp
  have hsl : splitlines (pyJoin ['\n'] (markLazy (l :: rest)) ++ ['\n']) = markLazy (l :: rest) := by
    refine splitlines_join_nl _ ?_ hmne
    refine markFrom_noLB _ _ ?_
    rw [hls]
    exact splitlines_noLB text
  have hp : parse n (markLazy (l :: rest)) = .ok [(.quote, markLazy (l :: rest))] := by
    rcases splitQuote_quoted (n := n) hall hmne with h2 | ⟨e, h2⟩
    · exact parse_quoted hall hmne h2
    · exfalso
      cases hp : parse n (markLazy (l :: rest)) with
      | error e => exact hm e hp
      | ok secs =>
        have := parse_quote_error (n := n) (l := l) (ls := markFrom l rest) (by rw [← quotedLine_eq]; exact hq)
          (by rw [← markLazy_cons hq]; exact h2)
        rw [← markLazy_cons hq, hp] at this
        cases this
  have key : reformatText (n + 1) w text = reformatText (n + 1) w (pyJoin ['\n'] (markLazy (l :: rest)) ++ ['\n']) := by
    have hr1 : reprCheck .quote (l :: rest) = .ok () := rfl
    have hr2 : reprCheck .quote (markLazy (l :: rest)) = .ok () := by rw [markLazy_cons hq]; rfl
    rw [reformatText, reformatText]
    simp only [reformatBody, hsl, hp, h, bind, Except.bind, buildFmts, hr1, hr2]
    rw [if_neg (by simp), if_neg (by simp)]
    simp only [fmtAll, bind, Except.bind, C106_format (sub := reformatText n) (w := w) (i := 0) hq (ls := rest)]
  simp only [reformatMarkdownText, key]

/-- A quote whose inner quote ends before its last lines, the last of which has no marker. -/
theorem C106_example : parse 9 (splitlines c!">> a\n>\n> b\nc\n") = .ok [(.quote, [c!">> a", c!">", c!"> b", c!"c"])] ∧
    markLazy [c!">> a", c!">", c!"> b", c!"c"] = [c!">> a", c!">", c!"> b", c!">c"] ∧
    (∀ e, parse 9 (markLazy [c!">> a", c!">", c!"> b", c!"c"]) ≠ .error e) ∧
    reformatMarkdownText 10 (.fin 20) c!">> a\n>\n> b\nc\n" = .ok c!">> a\n>\n>b c\n" ∧
    markLazy [c!"> a", c!"> > b", c!"c", c!"d", c!">e", c!" f"] = [c!"> a", c!"> > b", c!">>c", c!">>d", c!">e", c!"> f"] := by
  refine ⟨by decide +kernel, by decide +kernel, fun e h => ?_, by decide +kernel, by decide +kernel⟩
  rw [show parse 9 (markLazy [c!">> a", c!">", c!"> b", c!"c"]) = .ok [(.quote, [c!">> a", c!">", c!"> b", c!">c"])] by
    decide +kernel] at h
  cases h

/-! ## C107: an indented quote -/

/-- `d` is the text `t` in a block quote whose lines are indented by up to three spaces. -/
def Indented (d t : Str) : Prop :=
  (splitlines d).map (fun l => l.dropWhile (· == ' ')) = (splitlines t).map quoteLine ∧
    ∀ l ∈ splitlines d, (l.takeWhile (· == ' ')).length ≤ 3

/-- How far the first line of a text is indented. -/
def firstIndent (d : Str) : Nat := (((splitlines d).headD []).takeWhile (· == ' ')).length

theorem spaces_split (l : Str) : l = List.replicate (l.takeWhile (· == ' ')).length ' ' ++ l.dropWhile (· == ' ') := by
  conv => lhs; rw [← List.takeWhile_append_dropWhile (p := (· == ' ')) (l := l)]
  congr 1
  rw [List.eq_replicate_iff]
  refine ⟨rfl, fun c hc => ?_⟩
  simpa using List.all_eq_true.1 List.all_takeWhile c hc

theorem Indented.line {d t : Str} (h : Indented d t) : ∀ l ∈ splitlines d, ∃ k x, k ≤ 3 ∧ x ∈ splitlines t ∧
    l = List.replicate k ' ' ++ quoteLine x := by
  intro l hl
  have h1 : l.dropWhile (· == ' ') ∈ (splitlines d).map (fun l => l.dropWhile (· == ' ')) := List.mem_map.2 ⟨l, hl, rfl⟩
  rw [h.1] at h1
  obtain ⟨x, hx, e⟩ := List.mem_map.1 h1
  exact ⟨_, x, h.2 l hl, hx, by rw [e]; exact spaces_split l⟩

theorem quoteLine_tail (x : Str) : quoteLine x = '>' :: (if x = [] then [] else ' ' :: x) := by
  cases x <;> rfl

theorem Indented.marked {d t : Str} (h : Indented d t) : ∀ l ∈ splitlines d, isQuote l = true := by
  intro l hl
  obtain ⟨k, x, hk, _, rfl⟩ := h.line l hl
  exact Marked.isQuote ⟨k, hk, by rw [quoteLine_tail]⟩

theorem Indented.unquoted {d t : Str} (h : Indented d t) :
    (splitlines d).map unquote = (splitlines t).map fun x => if x = [] then [] else ' ' :: x := by
  have key : ∀ (ls xs : List Str), ls.map (fun l => l.dropWhile (· == ' ')) = xs.map quoteLine →
      (∀ l ∈ ls, (l.takeWhile (· == ' ')).length ≤ 3) → ls.map unquote = xs.map fun x => if x = [] then [] else ' ' :: x := by
    intro ls
    induction ls with
    | nil => intro xs h1 _; cases xs with
      | nil => rfl
      | cons => cases h1
    | cons l ls ih =>
      intro xs h1 h2
      cases xs with
      | nil => cases h1
      | cons x xs =>
        simp only [List.map_cons, List.cons.injEq] at h1 ⊢
        refine ⟨unquote_marked ⟨_, h2 l (by simp), ?_⟩, ih xs h1.2 fun y hy => h2 y (by simp [hy])⟩
        rw [← quoteLine_tail, ← h1.1]
        exact spaces_split l
  exact key _ _ h.1 h.2

theorem Indented.inner {d t : Str} (h : Indented d t) (hf : Flush t) : quoteInner (splitlines d) = (splitlines t, true) := by
  rw [← inner_quoteLine _ hf.inner]
  have : (fullyQuote 0 ((splitlines t).map quoteLine)).map unquote = (fullyQuote 0 (splitlines d)).map unquote := by
    rw [fullyQuote_marked (splitlines d) 0 h.marked, h.unquoted, fullyQuote_marked, List.map_map]
    · exact List.map_congr_left fun x _ => unquote_quoteLine x
    · intro l hl
      obtain ⟨x, _, rfl⟩ := List.mem_map.1 hl
      exact quoteLine_marked x
  simp only [quoteInner, this]

theorem Indented.length {d t : Str} (h : Indented d t) : (splitlines d).length = (splitlines t).length := by
  simpa using congrArg List.length h.1

theorem Indented.spaces {d t : Str} (h : Indented d t) (ho : OnlySpaces t) : Sp (longest (splitlines d)) (splitlines d) := by
  intro l hl
  refine ⟨longest_ge _ l hl, fun c hc hw => ?_⟩
  obtain ⟨k, x, _, hx, rfl⟩ := h.line l hl
  rcases List.mem_append.1 hc with hc | hc
  · exact List.eq_of_mem_replicate hc
  · rw [quoteLine_tail] at hc
    rcases List.mem_cons.1 hc with rfl | hc
    · revert hw; decide
    · split at hc
      · cases hc
      · rcases List.mem_cons.1 hc with rfl | hc
        · rfl
        · rcases ho c (splitlines_mem t _ hx c hc) hw with h1 | h1
          · exact h1
          · rw [splitlines_noLB t _ hx c hc] at h1; cases h1

theorem Indented.calm {d t : Str} (h : Indented d t) (hq : Quiet t) : Calm (splitlines d) := by
  intro l hl
  obtain ⟨k, x, hk, hx, rfl⟩ := h.line l hl
  clear hk
  obtain ⟨h1, h2⟩ := hq.calm (quoteLine x) (List.mem_map.2 ⟨x, hx, rfl⟩)
  constructor
  · cases hb : hardBreak (List.replicate k ' ' ++ quoteLine x) with
    | false => rfl
    | true =>
      rw [hardBreak, endsWith_iff] at hb
      obtain ⟨a, ha⟩ := hb
      cases x with
      | nil =>
        have := congrArg List.getLast? ha
        simp [quoteLine] at this
      | cons c r =>
        have := congrArg List.getLast? ha
        have h3 := (hq _ hx).1
        simp [quoteLine_cons, List.getLast?_cons] at this h3
        exact absurd this h3
  · intro hi
    apply h2
    clear hl
    induction k with
    | zero => exact hi
    | succ k ih =>
      rw [List.replicate_succ, List.cons_append] at hi
      rcases List.infix_cons_iff.1 hi with hi | hi
      · simp at hi
      · exact ih hi

/-- Recursion depth that suffices for telling that a text is a quote. -/
def indentDepth (d : Str) : Nat := mu (longest (splitlines d)) (splitlines d)

theorem Indented.parse {n : Nat} {d t : Str} (h : Indented d t) (ho : OnlySpaces t) (hq : Quiet t) (hne : splitlines t ≠ [])
    (hn : indentDepth d ≤ n) : parse n (splitlines d) = .ok [(.quote, splitlines d)] := by
  have hd : splitlines d ≠ [] := by
    have := h.length
    intro e
    rw [e] at this
    exact hne (List.eq_nil_of_length_eq_zero this.symm)
  refine parse_quoted h.marked hd ?_
  rcases splitQuote_quoted (n := n) h.marked hd with h0 | ⟨e, h0⟩
  · exact h0
  · have h1 := splitQuote_nr n _ (h.spaces ho) hn
    obtain ⟨l, ls, hl⟩ := List.exists_cons_of_ne_nil hd
    have h2 := splitQuote_calm n l ls (by rw [← hl]; exact h.calm hq) e (by rw [← hl]; exact h0)
    rw [h0, h2] at h1
    exact absurd rfl h1

theorem Indented.fmt {d t : Str} (h : Indented d t) (n : Nat) (w : Width) (hf : Flush t) :
    fmtSection (reformatText n) w 0 .quote (splitlines d) =
      (reformatText n (w.sub (2 - firstIndent d)) t).map fun p => pyJoin ['\n'] ((splitlines p).map fun l => quoteLine (rstrip l)) := by
  have hi := h.inner hf
  have hne := hf.ne
  have hs : splitlines (pyJoin ['\n'] (splitlines t) ++ ['\n']) = splitlines t :=
    splitlines_join_nl _ (fun l hl => splitlines_noLB _ l hl) hne
  rw [← reformatText_lines n _ hs]
  have hk : ∀ l ls, splitlines d = l :: ls → ((lstrip l).length : Int) - l.length = - (firstIndent d : Int) := by
    intro l ls hl
    have h0 : firstIndent d = (l.takeWhile (· == ' ')).length := by rw [firstIndent, hl]; rfl
    obtain ⟨x, _, hx⟩ : ∃ x ∈ splitlines t, quoteLine x = l.dropWhile (· == ' ') := by
      have : l.dropWhile (· == ' ') ∈ (splitlines t).map quoteLine := by
        rw [← h.1, hl]; simp
      simpa using this
    have h1 : lstrip l = quoteLine x := by
      conv => lhs; rw [spaces_split l]
      rw [lstrip_append_ws _ _ (by intro x hx; rw [List.eq_of_mem_replicate hx]; decide), ← hx, quoteLine_tail]
      exact lstrip_cons_of_not _ _ (by decide)
    have h2 := congrArg List.length (spaces_split l)
    rw [List.length_append, List.length_replicate, ← hx, ← h0] at h2
    rw [h1]
    omega
  cases hl : splitlines d with
  | nil =>
    exfalso
    have := h.length
    rw [hl] at this
    exact hne (List.eq_nil_of_length_eq_zero this.symm)
  | cons l ls =>
    rw [hl] at hi
    have hw : ((w.sub (-(firstIndent d : Int))).sub 1).sub 1 = w.sub (2 - firstIndent d) := by
      rw [sub_add, sub_add]
      congr 1
      omega
    have hm : mul ' ' (-(firstIndent d : Int)) = [] := by
      unfold mul
      rw [show (-(firstIndent d : Int)).toNat = 0 by omega]
      rfl
    simp only [fmtSection, fmtQuote, bind, Except.bind, hi, hk l ls hl, if_true, reformatLines, hw, hm, List.nil_append]
    cases reformatText n (w.sub (2 - firstIndent d)) (pyJoin ['\n'] (splitlines t) ++ ['\n']) with
    | error e => rfl
    | ok text =>
      simp only [Except.map]
      congr 2
      apply List.map_congr_left
      intro l _
      exact strip_quoteLine l

/-- C107: one pass over a quote indented by `k` spaces formats its contents `2 - k` columns narrower, so wider than it
should, and writes them without the indentation. -/
theorem C107_pass {n : Nat} {w : Width} {d t : Str} (h : Indented d t) (ho : OnlySpaces t) (hq : Quiet t) (hf : Flush t)
    (hn : indentDepth d ≤ n) :
    reformatText (n + 1) w d = ((reformatText n (w.sub (2 - firstIndent d)) t).mapError genError).map
      fun p => pyJoin ['\n'] ((splitlines p).map fun l => quoteLine (rstrip l)) ++ ['\n'] := by
  have hp := h.parse ho hq hf.ne hn
  have hr : reprCheck .quote (splitlines d) = .ok () := by
    cases hl : splitlines d with
    | nil =>
      exfalso
      have := h.length
      rw [hl] at this
      exact hf.ne (List.eq_nil_of_length_eq_zero this.symm)
    | cons l ls => rfl
  have hfm := h.fmt n w hf
  rw [reformatText]
  simp only [reformatBody, bind, Except.bind, hp, buildFmts, hr]
  rw [if_neg (by simp)]
  simp only [fmtAll, bind, Except.bind, hfm]
  cases reformatText n (w.sub (2 - firstIndent d)) t <;> rfl

/-- C107: an indented quote is accepted exactly if its contents, formatted at the wider width, stay as they are when
formatted at the proper width. -/
theorem C107_exact {n : Nat} {w : Width} {d t p r : Str} (h : Indented d t) (ho : OnlySpaces t) (hq : Quiet t) (hf : Flush t)
    (hqp : Quiet p) (hfp : Flush p) (h1 : reformatText n (w.sub (2 - firstIndent d)) t = .ok p)
    (h2 : reformatText n (w.sub 2) p = .ok r) :
    ∃ N, ∀ m, N ≤ m → reformatMarkdownText m w d =
      if (splitlines r).map rstrip = splitlines p then .ok (quoteText p) else .error .inconsistent := by
  have hop : OnlySpaces p := ho.reformatText h1
  refine ⟨n + indentDepth d + quoteDepth p + 1, fun m hm => ?_⟩
  obtain ⟨m, rfl⟩ : ∃ k, m = k + 1 := ⟨m - 1, by omega⟩
  have e1 := C07_budget_irrelevant n m _ t (by omega) (by rw [h1]; simp)
  have e2 := C07_budget_irrelevant n m (w.sub 2) p (by omega) (by rw [h2]; simp)
  have p1 := C107_pass (w := w) h ho hq hf (n := m) (by omega)
  have p2 := C99_pass (w := w) hop hqp hfp (n := m) (by omega)
  rw [e1, h1] at p1
  rw [e2, h2] at p2
  simp only [Except.map, Except.mapError, quote_trimmed (hqp.trimmed hop)] at p1 p2
  rw [reformat_two p1 p2]
  by_cases he : (splitlines r).map rstrip = splitlines p
  · rw [if_pos he, if_pos, rstrip_quoteText hfp.ne (hqp.trimmed hop)]
    rw [← Function.comp_def quoteLine rstrip, ← List.map_map, he, quoteText]
  · rw [if_neg he, if_neg]
    intro e
    have e' := congrArg splitlines e
    rw [splitlines_quoteText hfp.ne, ← Function.comp_def quoteLine rstrip, ← List.map_map] at e'
    by_cases hr : splitlines r = []
    · rw [hr] at e'
      have : splitlines (pyJoin ['\n'] (([] : List Str).map rstrip |>.map quoteLine) ++ ['\n']) = [[]] := by decide
      rw [this] at e'
      obtain ⟨c, r', hm, _⟩ := hfp
      have : quoteLine (c :: r') ∈ (splitlines p).map quoteLine := List.mem_map.2 ⟨_, hm, rfl⟩
      rw [← e'] at this
      simp [quoteLine] at this
    · rw [splitlines_join_nl] at e'
      · exact he (quoteLine_inj_list e')
      · intro l hl
        obtain ⟨y, hy, rfl⟩ := List.mem_map.1 hl
        obtain ⟨x, hx, rfl⟩ := List.mem_map.1 hy
        exact quoteLine_noLB ((splitlines_noLB _ x hx).of_mem fun c hc => mem_of_mem_rstrip hc)
      · simpa using hr

/-- C107: an exception while formatting the contents is the program's answer. -/
theorem C107_error {n : Nat} {w : Width} {d t : Str} {e : Err} (h : Indented d t) (ho : OnlySpaces t) (hq : Quiet t) (hf : Flush t)
    (h1 : reformatText n (w.sub (2 - firstIndent d)) t = .error e) (he : e ≠ .recursion) :
    ∃ N, ∀ m, N ≤ m → reformatMarkdownText m w d = .error (genError e) := by
  refine ⟨n + indentDepth d + 1, fun m hm => ?_⟩
  obtain ⟨m, rfl⟩ : ∃ k, m = k + 1 := ⟨m - 1, by omega⟩
  have e1 := C07_budget_irrelevant n m _ t (by omega) (by rw [h1]; simpa using he)
  have p1 := C107_pass (w := w) h ho hq hf (n := m) (by omega)
  rw [e1, h1] at p1
  simp only [Except.map, Except.mapError] at p1
  simp only [reformatMarkdownText, bind, Except.bind, p1]

instance (d t : Str) : Decidable (Indented d t) := by unfold Indented; infer_instance

/-- A quote indented by three spaces: accepted if wrapping three columns wider makes no difference. -/
theorem C107_example : Indented c!"   > aaa bbb\n > ccc ddd" c!"aaa bbb\nccc ddd" ∧ firstIndent c!"   > aaa bbb\n > ccc ddd" = 3 ∧
    OnlySpaces c!"aaa bbb\nccc ddd" ∧ Quiet c!"aaa bbb\nccc ddd" ∧ Flush c!"aaa bbb\nccc ddd" ∧
    reformatText 5 ((Width.fin 10).sub (2 - (3 : Nat))) c!"aaa bbb\nccc ddd" = .ok c!"aaa bbb ccc\nddd\n" ∧
    Quiet c!"aaa bbb ccc\nddd\n" ∧ Flush c!"aaa bbb ccc\nddd\n" ∧
    reformatText 5 ((Width.fin 10).sub 2) c!"aaa bbb ccc\nddd\n" = .ok c!"aaa bbb\nccc ddd\n" ∧
    reformatMarkdownText 9 (.fin 10) c!"   > aaa bbb\n > ccc ddd" = .error .inconsistent ∧
    reformatMarkdownText 9 (.fin 20) c!"   > aaa bbb\n > ccc ddd" = .ok c!"> aaa bbb ccc ddd\n" := by
  refine ⟨by decide +kernel, by decide +kernel, ?_, by decide +kernel, ⟨'a', c!"aa bbb", by decide, by decide⟩, by decide +kernel,
    by decide +kernel, ⟨'a', c!"aa bbb ccc", by decide, by decide⟩, by decide +kernel, by decide +kernel, by decide +kernel⟩
  exact (by decide : ∀ c ∈ c!"aaa bbb\nccc ddd", isWs c = true → c = ' ' ∨ isLB c = true)

end MF
