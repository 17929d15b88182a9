import Verif.Lemmas.LinksApart
/-!
# C23–C28: wrapping text

`wrap text width` is `markflow._utils.textwrap.wrap(text, width)`; its lines are `splitlines` of the result. The
specification used here: `nw` (a string without its whitespace), `splitWs` (the words of a string, Python's
`str.split()`), `Greedy` (greedy filling), `CodeSpans` (the closed code spans of a text), `LinksApart` (links that do
not touch or nest), `IsBr` (the ways to write a line break tag) and `wrapInput` (the text as one line: its lines
trimmed and joined with spaces).
-/

namespace MF

/-! ## C23: wrapping changes only whitespace -/

/-- Full statement of C23: false of the code, see `C23_refuted_nested` and `C23_refuted_overlap`. -/
def C23_statement : Prop := ∀ text width s, wrap text width = .ok s → nw s = nw text

theorem wrap_nw {text : Str} {width : Width} {s : Str} (h : wrap text width = .ok s)
    (hl : ∀ u, u <:+: wrapInput text → LinksSound u) : nw s = nw text := by
  obtain ⟨t, ht, rfl⟩ := wrap_ok h
  obtain ⟨t1, h1, _, t2, h2, h3⟩ := ht.code
  obtain ⟨w1, a1, n1⟩ := codeSplit_all h1
  rw [nw_pyJoin (by intro c hc; simp at hc; rw [hc]; decide), joinPairs_nw,
    List.map_fst_zip (by rw [ht.wf.1]; exact Nat.le_refl _), h3,
    splitPass_nw (Qin := CodeTok (wrapInput text)) ?_ w1 a1 h2, n1, nw_wrapInput]
  intro s l t hs hst
  exact linkSplit_nw (hl s (hs.2.2.1 rfl).infix) hst

/-- C23 for texts whose links do not touch or nest: any number of inline links and references, inline code, tags and
words. Missing: texts where links nest or overlap, for which C23 is false. -/
theorem C23_wrap_partial {text : Str} {width : Width} {s : Str} (h : wrap text width = .ok s)
    (hl : LinksApart (wrapInput text)) : nw s = nw text :=
  wrap_nw h fun _ hu => linksSound_of_apart (hl.infix hu)

/-- C23 for texts without `[`. -/
theorem C23_wrap_no_links_partial {text : Str} {width : Width} {s : Str} (h : wrap text width = .ok s)
    (hb : '[' ∉ text) : nw s = nw text :=
  wrap_nw h fun _ hu => linksSound_of_no_bracket fun hm => wrapInput_not_mem hb (by decide) (hu.subset hm)

/-- a way to check `LinksApart` by computation, for the example below -/
def linksApartCheck (text : Str) : Bool :=
  let n := text.length
  let sep (i : Nat) (c : Char) : Bool :=
    text[i]? == some ']' && (text[i + 1]? == some '(' && c == ')' || text[i + 1]? == some '[' && c == ']')
  (List.range n).all fun i => (List.range n).all fun j => [')', ']'].all fun c => [')', ']'].all fun d =>
    !(decide (i < j) && sep i c && sep j d) ||
      (List.range n).any fun k => (List.range n).any fun o =>
        decide (i + 1 < k) && decide (k < o) && decide (o < j) && text[k]? == some c && text[o]? == some '[' &&
          (c == d || (List.range n).any fun w => decide (k < w) && decide (w < o) && (text[w]?).any isWs)

theorem linksApart_of_check {text : Str} (h : linksApartCheck text = true) : LinksApart text := by
  intro i j c d hij h1 h2
  have hc : ∀ {i c}, SepAt text i c → c = ')' ∨ c = ']' := fun h => h.2.imp (·.2) (·.2)
  have hsep : ∀ {i c}, SepAt text i c → (text[i]? == some ']' && (text[i + 1]? == some '(' && c == ')' ||
      text[i + 1]? == some '[' && c == ']')) = true := by
    intro i c h
    obtain ⟨e1, ⟨e2, e3⟩ | ⟨e2, e3⟩⟩ := h <;> simp [e1, e2, e3]
  simp only [linksApartCheck, List.all_eq_true, List.mem_range] at h
  have := h i (by have := h1.lt; omega) j (by have := h2.lt; omega) c (by rcases hc h1 with h | h <;> simp [h])
    d (by rcases hc h2 with h | h <;> simp [h])
  rw [hsep h1, hsep h2] at this
  simp only [hij, decide_true, Bool.and_true, Bool.not_true, Bool.false_or, List.any_eq_true, List.mem_range,
    Bool.and_eq_true, decide_eq_true_eq, beq_iff_eq, Bool.or_eq_true] at this
  obtain ⟨k, _, o, _, ⟨⟨⟨⟨e1, e2⟩, e3⟩, e4⟩, e5⟩, e6⟩ := this
  refine ⟨k, o, e1, e2, e3, e4, e5, ?_⟩
  intro hcd
  rcases e6 with e6 | ⟨w, _, ⟨f1, f2⟩, f3⟩
  · exact absurd e6 hcd
  · cases hw : text[w]? with
    | none => rw [hw] at f3; cases f3
    | some x => rw [hw] at f3; exact ⟨w, x, f1, f2, hw, f3⟩

/-- inline links next to each other, a reference, code and a tag: C23 applies -/
example : LinksApart (wrapInput c!"see [a b](c)[d](e) and\n [f][g] <br> `x  y`.") ∧
    wrap c!"see [a b](c)[d](e) and\n [f][g] <br> `x  y`." (.fin 9) =
      .ok c!"see [a\nb](c)[d](\ne) and\n[f][g]\n<br>\n`x  y`." :=
  ⟨linksApart_of_check (by decide +kernel), by decide +kernel⟩

/-- A link inside a link loses its target. -/
theorem C23_refuted_nested : ¬ C23_statement := by
  intro h
  have := h c!"[![img](src)](href)" (.fin 80) c!"[![img](src)" (by decide +kernel)
  revert this; decide +kernel

/-- An inline link and a reference with text glued between them: the text is doubled. -/
theorem C23_refuted_overlap : ¬ C23_statement := by
  intro h
  have := h c!"[a](b)c[d][e]" (.fin 80) c!"[a](b)cc[d][e]" (by decide +kernel)
  revert this; decide +kernel

/-! ## C24: lines fit the width -/

/-- What `wrap` never breaks: a stretch of code, with periods after it; the part of a link behind the middle, with
periods after it; a line break tag; or a string without spaces. -/
def Unbreakable (text s : Str) : Prop := CodePiece text s ∨ LinkPiece text s ∨ IsBr s ∨ ' ' ∉ s

/-- C24: a line longer than the (positive) width is a single unbreakable piece of the text. -/
theorem C24_wrap {text s : Str} {w : Nat} (hw : 0 < w) (h : wrap text (.fin w) = .ok s) :
    ∀ l ∈ splitlines s, l.length ≤ w ∨ Unbreakable (wrapInput text) l := by
  obtain ⟨t, ht, h1, _⟩ := wrap_splitlines h
  intro l hl
  rw [h1] at hl
  rcases joinPairs_width _ _ l hl with h2 | h2 | ⟨b, h2⟩
  · left; simpa [Width.ge] using h2
  · simp [Width.nonpos] at h2; omega
  · exact .inr (ht.pair h2).2.2.1

/-- C24 for plain text: a line longer than the width is a single word of the text. -/
theorem C24_wrap_plain {text s : Str} {w : Nat} (hw : 0 < w) (hp : Plain text) (h : wrap text (.fin w) = .ok s) :
    ∀ l ∈ splitlines s, l.length ≤ w ∨ l ∈ splitWs text := by
  obtain ⟨t, ht, h1, _⟩ := wrap_splitlines h
  obtain ⟨lines, hg, h2⟩ := wrap_plain hp (.fin w)
  rw [h] at h2
  cases h2
  intro l hl
  have hj : splitlines (pyJoin ['\n'] (lines.map (pyJoin [' ']))) = lines.map (pyJoin [' ']) := by
    have hmem : ∀ x ∈ lines, ∀ y ∈ x, y ∈ splitWs text := fun x hx y hy => by
      rw [← hg.all]; exact List.mem_flatten.2 ⟨x, hx, hy⟩
    apply splitlines_join
    · intro x hx
      obtain ⟨ws, hws, rfl⟩ := List.mem_map.1 hx
      intro c hc
      rcases mem_pyJoin hc with hc | ⟨y, hy, hc⟩
      · simp at hc; rw [hc]; decide
      · have := (splitWs_word (hmem ws hws y hy)).2.1 c hc
        cases hlb : isLB c with
        | false => rfl
        | true => rw [isLB_ws hlb] at this; cases this
    · intro hn
      obtain ⟨ws, hws, hn⟩ := List.mem_map.1 (getLast?_mem hn)
      exact pyJoin_ne_nil (hg.ne ws hws) (fun y hy => (splitWs_word (hmem ws hws y hy)).1) hn
  rw [hj] at hl
  obtain ⟨ws, hws, rfl⟩ := List.mem_map.1 hl
  rcases hg.fits ws hws with h3 | h3 | h3
  · left; simpa [Width.ge] using h3
  · simp [Width.nonpos] at h3; omega
  · right
    match ws, h3 with
    | [x], _ => rw [← hg.all]; exact List.mem_flatten.2 ⟨[x], hws, by simp [pyJoin]⟩

/-- long words, code and link targets stand alone -/
example : wrap c!"a bb `c  dd ee` [f](g hh ii) jjjjjjjjjj k" (.fin 5) =
    .ok c!"a bb\n`c  dd ee`\n[f](\ng hh ii)\njjjjjjjjjj\nk" := by decide +kernel

/-! ## C25: wrapping is greedy -/

/-- C25: plain text is filled greedily. The words go onto lines in order, separated by single spaces; a line of several
words fits, and the first word of a line would not have fitted on the line before. `Greedy.unique` says there is only
one such way to fill lines. -/
theorem C25_wrap_greedy {text : Str} (h : Plain text) (width : Width) :
    ∃ lines, Greedy width (splitWs text) lines ∧
      wrap text width = .ok (pyJoin ['\n'] (lines.map (pyJoin [' ']))) :=
  wrap_plain h width

theorem plain_example : Plain c!"The quick\n  brown fox. (jumps) over" where
  noTick := by decide
  noBracket := by decide
  noTag := by decide
  spaces := by unfold OnlySpaces; decide
  noDot := by
    intro w ws h
    have : splitWs c!"The quick\n  brown fox. (jumps) over" =
      [c!"The", c!"quick", c!"brown", c!"fox.", c!"(jumps)", c!"over"] := by decide
    rw [this] at h
    cases h
    decide

example : wrap c!"The quick\n  brown fox. (jumps) over" (.fin 10) = .ok c!"The quick\nbrown fox.\n(jumps)\nover" := by
  decide +kernel

/-! ## C26: inline code -/

/-- C26: every closed code span of the text is on one line of the result, character for character. -/
theorem C26_code_verbatim {text s : Str} {width : Width} {spans : List Str} (h : wrap text width = .ok s)
    (hs : CodeSpans (wrapInput text) spans) : ∀ c ∈ spans, ∃ l ∈ splitlines s, c <:+: l := by
  obtain ⟨t, ht, h1, _⟩ := wrap_splitlines h
  obtain ⟨t1, h2, h3, _⟩ := ht.code
  have hsp := codeSplit_spans h2 hs
  have hw1 := (codeSplit_all h2).1
  intro c hc
  obtain ⟨⟨x, e⟩, hx, he, hcx⟩ := hsp c hc
  dsimp only at he hcx
  subst he
  rw [← triples_evals t1 hw1] at hx
  obtain ⟨⟨y, l, e⟩, hy, hxy⟩ := List.mem_map.1 hx
  obtain ⟨rfl, rfl⟩ := Prod.mk.inj hxy
  dsimp only at hcx
  have h4 := h3 y l hy
  have hpair : (y, l) ∈ t.split.zip t.lead := by
    rw [← triples_pairs t ht.wf]
    exact List.mem_map.2 ⟨_, h4, rfl⟩
  have hne : y ≠ [] := by
    rintro rfl
    obtain ⟨k, body, hk, hb, _, hcl⟩ := hs.closed c hc
    rw [List.prefix_nil.1 hcx] at hcl
    have := congrArg List.length hcl
    simp at this; omega
  obtain ⟨l', hl', hin⟩ := joinPairs_token _ width hpair hne
  exact ⟨l', by rw [h1]; exact hl', hcx.isInfix.trans hin⟩

/-- C26 for a text on one line: its closed code spans are taken from the text itself. -/
theorem C26_code_verbatim_line {text s : Str} {width : Width} {spans : List Str} (h : wrap text width = .ok s)
    (hl : NoLB text) (hst : Stripped text) (hs : CodeSpans text spans) :
    ∀ c ∈ spans, ∃ l ∈ splitlines s, c <:+: l := by
  have : wrapInput text = text := by
    unfold wrapInput
    rw [splitlines_single text hl hst.1]
    exact hst.2
  exact C26_code_verbatim h (by rw [this]; exact hs)

/-- a span with runs of spaces and other backticks inside -/
example : CodeSpans c!"a ``b  ` c`` d" [c!"``b  ` c``"] ∧
    wrap c!"a ``b  ` c`` d" (.fin 4) = .ok c!"a\n``b  ` c``\nd" := by
  refine ⟨CodeSpans.span (a := c!"a ") (k := 2) (body := c!"b  ` c") (rest := c!" d") (by decide) (by decide) (by decide)
    (by decide) (by decide) ?_ (by decide) (.none (by decide)), by decide +kernel⟩
  rintro ⟨a, b, h, ha, hb⟩
  have hc := congrArg (List.count '`') h
  have h1 : List.count '`' c!"b  ` c" = 1 := by decide
  rw [h1] at hc
  simp [ticks] at hc
  omega

/-! ## C27: wrapping never fails -/

/-- Full statement of C27: false of the code, see `C27_refuted`. -/
def C27_statement : Prop := ∀ text width, ∃ s, wrap text width = .ok s

/-- C27, the part that holds: `wrap` can fail only with an `IndexError`, and only if the text has a period at the start
of a word or right behind a backtick that is not followed by another period. Missing: those texts, for which `wrap`
often fails (`C27_leading_dot`). -/
theorem C27_wrap_partial {text : Str} {width : Width} {e : Err} (h : wrap text width = .error e) :
    e = .indexError ∧ ∃ a r, wrapInput text = a ++ '.' :: r ∧ r.head? ≠ some '.' ∧
      (a = [] ∨ ∃ a' c, a = a' ++ [c] ∧ (isWs c = true ∨ c = '`')) := by
  simp only [wrap, bind, Except.bind] at h
  cases ht : wrapToks (wrapInput text) with
  | error e' => rw [ht] at h; cases h; exact wrapToks_error ht
  | ok t => rw [ht] at h; cases h

/-- C27 for texts in which no word starts with a period and no word has a period right behind a backtick. -/
theorem C27_wrap_no_dots_partial {text : Str} (width : Width)
    (hw : ∀ w ∈ splitWs text, w.head? ≠ some '.' ∧ ¬ c!"`." <:+: w) : ∃ s, wrap text width = .ok s := by
  cases h : wrap text width with
  | ok s => exact ⟨s, rfl⟩
  | error e =>
    exfalso
    obtain ⟨_, a, r, hi, _, ha⟩ := C27_wrap_partial h
    obtain ⟨w, hm, a', u, v, h1, h2, h3, h4⟩ := splitWs_around a '.' r (by decide)
    rw [← hi, splitWs_wrapInput] at hm
    obtain ⟨g1, g2⟩ := hw w hm
    rcases List.eq_nil_or_concat u with hu | ⟨u', d, hu⟩
    · rw [h2, hu] at g1; exact g1 rfl
    · rw [List.concat_eq_append] at hu
      rcases ha with ha | ⟨a'', c, ha, hc⟩
      · rw [ha, hu] at h1; simp at h1
      · rw [ha, hu, ← List.append_assoc] at h1
        have hcd : c = d := by simpa using (List.append_inj' h1 rfl).2
        rcases hc with hc | hc
        · rw [hcd, h3 d (by rw [hu]; simp)] at hc; cases hc
        · apply g2
          rw [h2, hu, ← hcd, hc]
          exact ⟨u', v, by simp⟩

/-- For texts without inline code and links `wrap` fails exactly if the first word starts with a single period. -/
theorem C27_wrap_no_code_no_links {text : Str} (width : Width) (h1 : '`' ∉ text) (h2 : '[' ∉ text) :
    wrap text width = .error .indexError ↔ ∃ w ws, splitWs text = w :: ws ∧ startsSingleDot w = true := by
  have hi := wrapToks_dot (wrapInput_not_mem h1 (by decide)) (wrapInput_not_mem h2 (by decide))
  rw [startsSingleDot_first (strip_idem _), splitWs_strip, splitWs_wrapInput] at hi
  rw [← hi]
  simp only [wrap, bind, Except.bind]
  cases wrapToks (wrapInput text) <;> simp

theorem C27_refuted : ¬ C27_statement := by
  intro h
  obtain ⟨s, hs⟩ := h c!".bashrc" (.fin 80)
  rw [show wrap c!".bashrc" (.fin 80) = .error .indexError by decide +kernel] at hs
  cases hs

/-- Text that begins with a file name such as `.gitignore` cannot be wrapped, nor can text with such a name behind
inline code. -/
example : wrap c!".gitignore is a file" .inf = .error .indexError ∧ wrap c!"`x` .gitignore" .inf = .error .indexError :=
  by decide +kernel

example : ∀ w ∈ splitWs c!"`x`, [a](b) <br> c.", w.head? ≠ some '.' ∧ ¬ c!"`." <:+: w := by
  intro w hw
  have : splitWs c!"`x`, [a](b) <br> c." = [c!"`x`,", c!"[a](b)", c!"<br>", c!"c."] := by decide
  rw [this] at hw
  simp only [List.mem_cons, List.not_mem_nil, or_false] at hw
  rcases hw with rfl | rfl | rfl | rfl <;> decide

/-! ## C28: no width, no breaks -/

/-- C28: with infinite or non-positive width, a line ends only behind a line break tag. -/
theorem C28_wrap_one_line {text s : Str} {width : Width} (hw : width = .inf ∨ ∃ i, width = .fin i ∧ i ≤ 0)
    (h : wrap text width = .ok s) :
    ∀ a l m b, splitlines s = a ++ l :: m :: b → ∃ u tag v, l = u ++ tag ++ v ∧ IsBr tag := by
  obtain ⟨t, ht, h1, _⟩ := wrap_splitlines h
  intro a l m b hs
  rw [h1] at hs
  rcases joinPairs_breaks _ _ a l m b hs with ⟨u, w, rfl, hb⟩ | ⟨w, lead, r, _, _, h2, h3⟩
  · obtain ⟨tag, v, rfl, ht⟩ := br_prefix hb
    exact ⟨u, tag, v, by simp, ht⟩
  · exfalso
    rcases hw with rfl | ⟨i, rfl, hi⟩
    · simp [Width.ge] at h3
    · simp [Width.nonpos] at h2; omega

/-- C28 for text without tags: the result is one line. -/
theorem C28_wrap_no_tags {text s : Str} {width : Width} (hw : width = .inf ∨ ∃ i, width = .fin i ∧ i ≤ 0)
    (h : wrap text width = .ok s) (ht : '<' ∉ text) : NoLB s := by
  obtain ⟨hl, hj, _⟩ := wrap_shape h
  match hs : splitlines s with
  | [] => rw [hj, hs]; intro c hc; cases hc
  | [l] => rw [hj, hs]; exact (hl l (by rw [hs]; simp)).2
  | l :: m :: b =>
    exfalso
    obtain ⟨u, tag, v, rfl, hb⟩ := C28_wrap_one_line hw h [] l m b hs
    obtain ⟨t, hto, h1, _⟩ := wrap_splitlines h
    have hlt : '<' ∈ u ++ tag ++ v := by
      rcases hb with hb | hb | hb | hb <;> rw [hb] <;> simp
    have hin : u ++ tag ++ v ∈ joinPairs (t.split.zip t.lead) width := by rw [← h1, hs]; simp
    rcases joinPairs_mem _ _ _ hin _ hlt with ⟨h0, _⟩ | ⟨w, b, hw, hc⟩
    · cases h0
    · exact wrapInput_not_mem ht (by decide) ((hto.pair hw).2.1 _ hc)

/-- C28 for plain text: the words with single spaces between them. -/
theorem C28_wrap_plain {text : Str} {width : Width} (hw : width = .inf ∨ ∃ i, width = .fin i ∧ i ≤ 0)
    (hp : Plain text) : wrap text width = .ok (pyJoin [' '] (splitWs text)) := by
  obtain ⟨lines, hg, h⟩ := wrap_plain hp width
  rw [h]
  match lines, hg with
  | [], hg => rw [← hg.all]; rfl
  | [l], hg => rw [← hg.all]; simp [pyJoin]
  | l :: m :: b, hg =>
    exfalso
    obtain ⟨h2, h3⟩ := hg.greedy [] l m b rfl
    rcases hw with rfl | ⟨i, rfl, hi⟩
    · cases m with
      | nil => exact hg.ne [] (by simp) rfl
      | cons w m => have := h3 w rfl; simp [Width.ge] at this
    · simp [Width.nonpos] at h2; omega

example : wrap c!"a `b  c`\n d<br>e\n<br/> f" .inf = .ok c!"a `b  c` d<br>\ne <br/>\nf" ∧
    wrap c!"a `b  c`\n d<br>e\n<br/> f" (.fin (-3)) = .ok c!"a `b  c` d<br>\ne <br/>\nf" := by
  decide +kernel

end MF
