import Verif.Model.Reformat
import Verif.Lemmas.Join
/-!
# C12–C15: headings, thematic breaks and code blocks
-/

namespace MF

/-- the character is neither invented nor whitespace-only padding: `lstripBy` removes exactly the leading run -/
theorem lstripBy_replicate (c : Char) (k : Nat) (r : Str) (hr : r.head? ≠ some c) :
    lstripBy (· == c) (List.replicate k c ++ r) = r := by
  unfold lstripBy
  rw [dropWhile_append_all _ _ _ (by intro x hx; simp [List.eq_of_mem_replicate hx])]
  cases r with
  | nil => rfl
  | cons d r =>
    apply dropWhile_eq_self
    simp only [List.head?_cons, ne_eq, Option.some.injEq] at hr
    simpa using hr

theorem lstripBy_run (c : Char) (s : Str) :
    s = List.replicate (s.length - (lstripBy (· == c) s).length) c ++ lstripBy (· == c) s ∧
      (lstripBy (· == c) s).head? ≠ some c := by
  unfold lstripBy
  constructor
  · have h := @List.takeWhile_append_dropWhile _ (· == c) s
    have hlen : s.length - (s.dropWhile (· == c)).length = (s.takeWhile (· == c)).length := by
      have := congrArg List.length h
      simp only [List.length_append] at this
      omega
    have hrep : s.takeWhile (· == c) = List.replicate (s.takeWhile (· == c)).length c := by
      apply List.eq_replicate_iff.2
      exact ⟨rfl, fun b hb => by simpa using takeWhile_all _ _ b hb⟩
    rw [hlen, ← hrep, h]
  · rcases dropWhile_head (· == c) s with h | ⟨d, r, h, hd⟩
    · rw [h]; simp
    · rw [h]
      simpa using hd

theorem rstrip_append_of_ne (a b : Str) (h : rstrip b ≠ []) : rstrip (a ++ b) = a ++ rstrip b :=
  rstripBy_append_of_ne isWs a b h

/-! ## C12 -/

/-- A heading line in normal form: `k` hashes, a space and a text without surrounding whitespace. -/
def atxLine (k : Nat) (text : Str) : Str := List.replicate k '#' ++ ' ' :: text

theorem isAtx_iff (l : Str) : isAtx l = true ↔ getIndent l < 4 ∧ ∃ r, lstrip l = '#' :: r := by
  unfold isAtx isIndentedStart
  simp only [Bool.and_eq_true, Bool.not_eq_true', startsWith_single]
  constructor
  · rintro ⟨h1, r, hr⟩
    refine ⟨?_, r, hr⟩
    obtain ⟨r', hr'⟩ := strip_head_eq_lstrip_head l hr
    rw [hr'] at h1
    simpa using h1
  · rintro ⟨h1, r, hr⟩
    refine ⟨?_, r, hr⟩
    simp only [ge_iff_le, Bool.and_eq_false_iff, decide_eq_false_iff_not]
    right; omega

/-- C12: a heading line, which is white space of fewer than four characters followed by `k ≥ 1` hashes and text that
does not begin with a hash, becomes the normal form line with the same `k` and the trimmed text. -/
theorem C12_atx_normal_form (sub : Width → Str → Except Err Str) (w : Width) (i : Nat) (l : Str) (h : isAtx l = true) :
    ∃ ws k text, l = ws ++ List.replicate k '#' ++ text ∧ (∀ c ∈ ws, isWs c = true) ∧ ws.length < 4 ∧ 1 ≤ k ∧
      text.head? ≠ some '#' ∧ fmtSection sub w i .atx [l] = .ok (atxLine k (strip text)) := by
  obtain ⟨hind, r, hr⟩ := (isAtx_iff l).1 h
  obtain ⟨ws, hl, hws⟩ := lstrip_split l
  obtain ⟨hrun, hhead⟩ := lstripBy_run '#' (lstrip l)
  generalize hk : (lstrip l).length - (lstripBy (· == '#') (lstrip l)).length = k at hrun
  generalize htext : lstripBy (· == '#') (lstrip l) = text at hrun hhead hk
  have hk1 : 1 ≤ k := by
    cases k with
    | zero =>
      exfalso
      rw [hr] at hrun
      simp only [List.replicate_zero, List.nil_append] at hrun
      rw [← hrun] at hhead; simp at hhead
    | succ k => omega
  have hstrip : strip l = List.replicate k '#' ++ rstrip text := by
    unfold strip
    rw [hrun]
    by_cases ht : rstrip text = []
    · rw [ht, rstrip_append_ws _ _ ((rstrip_eq_nil text).1 ht)]
      obtain ⟨j, rfl⟩ : ∃ j, k = j + 1 := ⟨k - 1, by omega⟩
      rw [List.replicate_succ']
      simp only [List.append_nil]
      exact rstrip_concat_of_not _ '#' (by decide)
    · exact rstrip_append_of_ne _ _ ht
  have hhead' : (rstrip text).head? ≠ some '#' := by
    intro h0
    obtain ⟨t, ht, _⟩ := rstripBy_split isWs text
    apply hhead
    rw [ht]
    cases hrs : rstripBy isWs text with
    | nil => rw [rstrip, hrs] at h0; cases h0
    | cons x xs => rw [rstrip, hrs] at h0; simpa using h0
  refine ⟨ws, k, text, ?_, hws, ?_, hk1, hhead, ?_⟩
  · rw [List.append_assoc, ← hrun]; exact hl
  · have h2 : getIndent l = ws.length := by
      unfold getIndent
      have := congrArg List.length hl
      simp only [List.length_append] at this
      omega
    omega
  · simp only [fmtSection, fmtAtx, atxDepth, atxContent, hstrip, lstripBy_replicate '#' k _ hhead', atxLine]
    simp only [List.length_append, List.length_replicate, Nat.add_sub_cancel, strip_rstrip, List.append_assoc,
      List.singleton_append]

/-- C12: the normal form is recognised as a heading and formats to itself, so level and text can be read off the
result. -/
theorem C12_atx_fixed_point (sub : Width → Str → Except Err Str) (w : Width) (i : Nat) (k : Nat) (text : Str)
    (hk : 1 ≤ k) (ht : strip text = text) :
    isAtx (atxLine k text) = true ∧ fmtSection sub w i .atx [atxLine k text] = .ok (atxLine k text) := by
  obtain ⟨j, rfl⟩ : ∃ j, k = j + 1 := ⟨k - 1, by omega⟩
  have hls : lstrip (atxLine (j + 1) text) = atxLine (j + 1) text := by
    simp only [atxLine, List.replicate_succ, List.cons_append]
    exact lstrip_cons_of_not _ _ (by decide)
  refine ⟨(isAtx_iff _).2 ⟨?_, ?_⟩, ?_⟩
  · simp [getIndent, hls]
  · rw [hls]; exact ⟨List.replicate j '#' ++ ' ' :: text, by simp [atxLine, List.replicate_succ]⟩
  · have hs : strip (atxLine (j + 1) text) = List.replicate (j + 1) '#' ++ rstrip (' ' :: text) := by
      unfold strip
      rw [hls]
      by_cases h0 : rstrip (' ' :: text) = []
      · rw [atxLine, rstrip_append_ws _ _ ((rstrip_eq_nil _).1 h0), h0, List.replicate_succ', List.append_nil]
        exact rstrip_concat_of_not _ '#' (by decide)
      · exact rstrip_append_of_ne _ _ h0
    have hh : (rstrip (' ' :: text)).head? ≠ some '#' := by
      by_cases h0 : rstrip text = []
      · have : rstrip (' ' :: text) = [] := by
          rw [rstrip_eq_nil] at h0 ⊢
          intro x hx
          rcases List.mem_cons.1 hx with rfl | hx
          · decide
          · exact h0 x hx
        rw [this]; simp
      · have := rstrip_append_of_ne [' '] text h0
        simp only [List.singleton_append] at this
        rw [this]; simp
    simp only [fmtSection, fmtAtx, atxDepth, atxContent, hs, lstripBy_replicate '#' _ _ hh]
    simp only [List.length_append, List.length_replicate, Nat.add_sub_cancel, strip_rstrip, List.append_assoc,
      List.singleton_append]
    have : strip (' ' :: text) = text := by
      have := strip_lstrip (' ' :: text)
      rw [show lstrip (' ' :: text) = lstrip text from lstrip_append_ws [' '] text (by decide), strip_lstrip] at this
      rw [← this, ht]
    rw [this]; rfl

/-- the two halves of C12 apply to a heading with odd spacing -/
theorem C12_example : isAtx c!"  ##Title  two " = true ∧
    fmtSection (fun _ _ => .error .runtime) (.fin 80) 0 .atx [c!"  ##Title  two "] = .ok c!"## Title  two" ∧
    atxLine 2 c!"Title  two" = c!"## Title  two" := by decide +kernel

/-! ## C13 -/

/-- C13: a thematic break is rewritten to as many copies of its own character as the width says, three for an infinite
width. -/
theorem C13_thematic (sub : Width → Str → Except Err Str) (w : Width) (i : Nat) (l : Str) (h : isThematic l = true) :
    ∃ c, (c = '*' ∨ c = '_' ∨ c = '-') ∧ (∀ x ∈ l, isWs x = true ∨ x = c) ∧
      fmtSection sub w i .thematic [l] = .ok (match w with
        | .fin n => List.replicate n.toNat c
        | .inf => [c, c, c]) := by
  obtain ⟨_, c, hc, h3, hall⟩ := (isThematic_iff l).1 h
  refine ⟨c, hc, ?_, ?_⟩
  · intro x hx
    cases hw : isWs x with
    | true => exact .inl rfl
    | false => exact .inr (hall x hx hw)
  · rcases strip_head l with h0 | ⟨d, r, hd, hdw⟩
    · exfalso
      have : l.filter (fun x => !isWs x) = [] := by
        rw [List.filter_eq_nil_iff]
        intro x hx
        simp [(strip_eq_nil l).1 h0 x hx]
      rw [this] at h3; simp at h3
    · have hdc : d = c := hall d (mem_of_mem_strip (by rw [hd]; simp)) hdw
      subst hdc
      cases w <;> simp [fmtSection, fmtThematic, hd, mul]

/-- C13: a run of at least three of these characters is a thematic break again and formats to itself at its own
width. -/
theorem C13_thematic_fixed_point (sub : Width → Str → Except Err Str) (i : Nat) (n : Int) (c : Char)
    (hc : c = '*' ∨ c = '_' ∨ c = '-') (hn : 3 ≤ n) :
    isThematic (List.replicate n.toNat c) = true ∧
      fmtSection sub (.fin n) i .thematic [List.replicate n.toNat c] = .ok (List.replicate n.toNat c) := by
  have hw : isWs c = false := by rcases hc with rfl | rfl | rfl <;> decide
  have hws : ∀ x ∈ List.replicate n.toNat c, isWs x = false := by
    intro x hx; rw [List.eq_of_mem_replicate hx]; exact hw
  obtain ⟨j, hj⟩ : ∃ j, n.toNat = j + 3 := ⟨n.toNat - 3, by omega⟩
  have hth : isThematic (List.replicate n.toNat c) = true := by
    rw [isThematic_iff]
    refine ⟨?_, c, hc, ?_, fun x hx _ => List.eq_of_mem_replicate hx⟩
    · have : getIndent (List.replicate n.toNat c) = 0 := by
        rw [hj, List.replicate_succ]
        simp [getIndent, lstrip_cons_of_not _ _ hw]
      simp [isIndentedStart, this]
    · rw [List.filter_eq_self.2 (by intro x hx; simp [hws x hx])]
      simp; omega
  refine ⟨hth, ?_⟩
  obtain ⟨d, _, hall, hf⟩ := C13_thematic sub (.fin n) i _ hth
  rw [hf]
  have : c = d := by
    rcases hall c (by rw [hj, List.replicate_succ]; simp) with h0 | h0
    · rw [hw] at h0; cases h0
    · exact h0
  rw [this]

theorem C13_example : isThematic c!" -- - -" = true ∧
    fmtSection (fun _ _ => .error .runtime) (.fin 5) 0 .thematic [c!" -- - -"] = .ok c!"-----" := by decide +kernel

/-! ## C14 -/

/-- C14, for a fenced block that ends with a closing fence, and whose information string after trimming does not begin
with the fence character again.

The lines are an opening line (white space, `k` fence characters and an information string), the content and a last
line. The result consists of the opening fence with the trimmed information string, the content lines without trailing
white space, and the same fence.

Missing from the full claim, and refuted below: a block that is not closed loses its last content line, and an
information string such as `` ~x`` after a fence of tildes lengthens the opening fence. -/
theorem C14_fenced_partial (sub : Width → Str → Except Err Str) (w : Width) (i : Nat) (ws info last : Str)
    (content : List Str) (f : Char) (k : Nat) (hf : f = '`' ∨ f = '~') (hws : ∀ c ∈ ws, isWs c = true) (hk : 1 ≤ k)
    (hinfo : info.head? ≠ some f) :
    fmtSection sub w i .fenced ((ws ++ List.replicate k f ++ info) :: content ++ [last]) =
      .ok (pyJoin ['\n'] ((List.replicate k f ++ strip info) :: content.map rstrip ++ [List.replicate k f])) := by
  obtain ⟨j, rfl⟩ : ∃ j, k = j + 1 := ⟨k - 1, by omega⟩
  have hfw : isWs f = false := by rcases hf with rfl | rfl <;> decide
  have hstrip : strip (ws ++ List.replicate (j + 1) f ++ info) = List.replicate (j + 1) f ++ rstrip info := by
    unfold strip
    rw [List.append_assoc, lstrip_append_ws _ _ hws]
    have : lstrip (List.replicate (j + 1) f ++ info) = List.replicate (j + 1) f ++ info := by
      rw [List.replicate_succ, List.cons_append]; exact lstrip_cons_of_not _ _ hfw
    rw [this]
    by_cases h0 : rstrip info = []
    · rw [rstrip_append_ws _ _ ((rstrip_eq_nil _).1 h0), h0, List.replicate_succ', List.append_nil]
      exact rstrip_concat_of_not _ f hfw
    · exact rstrip_append_of_ne _ _ h0
  have hh : (rstrip info).head? ≠ some f := by
    intro h0
    obtain ⟨t, ht, _⟩ := rstripBy_split isWs info
    apply hinfo
    rw [ht]
    cases hrs : rstripBy isWs info with
    | nil => rw [rstrip, hrs] at h0; cases h0
    | cons x xs => rw [rstrip, hrs] at h0; simpa using h0
  have hrun : rstrip (List.replicate (j + 1) f) = List.replicate (j + 1) f := by
    rw [List.replicate_succ']; exact rstrip_concat_of_not _ f hfw
  have hopen : rstrip (List.replicate (j + 1) f ++ strip info) = List.replicate (j + 1) f ++ strip info := by
    by_cases h0 : strip info = []
    · rw [h0, List.append_nil]; exact hrun
    · rw [rstrip_append_of_ne _ _ (by rw [rstrip_strip]; exact h0), rstrip_strip]
  simp only [fmtSection, fmtFenced, List.cons_append, hstrip]
  rw [show List.replicate (j + 1) f ++ rstrip info = f :: (List.replicate j f ++ rstrip info) by
    simp [List.replicate_succ]] at hstrip ⊢
  simp only [inner, List.drop_succ_cons, List.drop_zero, List.dropLast_concat, List.map_append, List.map_cons,
    List.map_nil, List.nil_append]
  rw [show f :: (List.replicate j f ++ rstrip info) = List.replicate (j + 1) f ++ rstrip info by
    simp [List.replicate_succ]]
  rw [lstripBy_replicate f _ _ hh]
  simp only [List.length_append, List.length_replicate, Nat.add_sub_cancel, strip_rstrip, hopen, hrun]

/-- C14: the opening line of the result opens a fence with the same characters, provided there were at least three and
the trimmed information string does not begin with the fence character. -/
theorem C14_opening_kept (info : Str) (f : Char) (k : Nat) (hf : f = '`' ∨ f = '~') (hk : 3 ≤ k)
    (hinfo : (strip info).head? ≠ some f) :
    openFence (List.replicate k f ++ strip info) = some (List.replicate k f) := by
  obtain ⟨j, rfl⟩ : ∃ j, k = j + 3 := ⟨k - 3, by omega⟩
  have hfw : isWs f = false := by rcases hf with rfl | rfl <;> decide
  have hl : lstrip (List.replicate (j + 3) f ++ strip info) = List.replicate (j + 3) f ++ strip info := by
    rw [List.replicate_succ, List.cons_append]; exact lstrip_cons_of_not _ _ hfw
  have hs : strip (List.replicate (j + 3) f ++ strip info) = List.replicate (j + 3) f ++ strip info := by
    unfold strip at hl ⊢
    rw [hl]
    by_cases h0 : rstrip (lstrip info) = []
    · rw [h0, List.append_nil, List.replicate_succ']; exact rstrip_concat_of_not _ f hfw
    · rw [rstrip_append_of_ne _ _ (by rw [rstrip_idem]; exact h0), rstrip_idem]
  have hst : startsWith (List.replicate (j + 3) f ++ strip info) (List.replicate 3 f) = true := by
    rw [startsWith_iff]
    refine ⟨List.replicate j f ++ strip info, ?_⟩
    rw [← List.append_assoc, List.replicate_append_replicate, Nat.add_comm 3 j]
  unfold openFence
  rw [hs, hl]
  rcases hf with rfl | rfl
  · simp only [List.findSome?_cons, hst, if_true, lstripBy_replicate _ _ _ hinfo]
    simp
  · have hno : startsWith (List.replicate (j + 3) '~' ++ strip info) (List.replicate 3 '`') = false := by
      rw [Bool.eq_false_iff]
      intro h0
      obtain ⟨r, hr⟩ := (startsWith_iff _ _).1 h0
      simp [List.replicate_succ] at hr
    simp only [List.findSome?_cons, hno, Bool.false_eq_true, if_false, hst, if_true, lstripBy_replicate _ _ _ hinfo]
    simp

theorem fenceLoop_closed (F : Str) (content rest : List Str) (close : Str) (h : ∀ c ∈ content, strip c ≠ F)
    (hc : strip close = F) : ∀ i, fenceLoop F i (content ++ close :: rest) = (content ++ [close], i + content.length + 1) := by
  induction content with
  | nil => intro i; simp [fenceLoop, hc]
  | cons c content ih =>
    intro i
    have h0 : (strip c == F) = false := by simpa using h c (by simp)
    simp only [List.cons_append, fenceLoop, h0, Bool.false_eq_true, if_false,
      ih (fun x hx => h x (by simp [hx])) (i + 1), List.length_cons, Prod.mk.injEq, true_and]
    omega

theorem fenceLoop_open (F : Str) (ls : List Str) (h : ∀ c ∈ ls, strip c ≠ F) :
    ∀ i, fenceLoop F i ls = (ls, i + ls.length) := by
  induction ls with
  | nil => intro i; rfl
  | cons c ls ih =>
    intro i
    have h0 : (strip c == F) = false := by simpa using h c (by simp)
    simp only [fenceLoop, h0, Bool.false_eq_true, if_false, ih (fun x hx => h x (by simp [hx])) (i + 1),
      List.length_cons, Prod.mk.injEq, true_and]
    omega

/-- C14: where a fenced block ends. It is closed by the first later line that is the fence, up to white space around
it, and runs to the end of the text when there is none. -/
theorem C14_extent (l : Str) (ls : List Str) (F : Str) (hF : openFence l = some F) :
    (∀ content close rest, ls = content ++ close :: rest → (∀ c ∈ content, strip c ≠ F) → strip close = F →
      splitFenced (l :: ls) = .ok (l :: content ++ [close], rest)) ∧
    ((∀ c ∈ ls, strip c ≠ F) → splitFenced (l :: ls) = .ok (l :: ls, [])) := by
  constructor
  · rintro content close rest rfl h hc
    simp only [splitFenced, hF, fenceLoop_closed F content rest close h hc, Nat.zero_add, List.drop_succ_cons,
      List.cons_append]
    rw [show content.length + 1 = (content ++ [close]).length by simp,
      show content ++ close :: rest = (content ++ [close]) ++ rest by simp, List.drop_left]
  · intro h
    simp only [splitFenced, hF, fenceLoop_open F ls h, Nat.zero_add, List.drop_succ_cons, List.drop_length]

/-- C14: the formatted block, put in front of any other lines, is recognised as one fenced block again, with the same
fence and the same content lines. The hypothesis on the content says that it is the content of a closed block. -/
theorem C14_result_recognised (info : Str) (content rest : List Str) (f : Char) (k : Nat) (hf : f = '`' ∨ f = '~')
    (hk : 3 ≤ k) (hinfo : (strip info).head? ≠ some f) (hcontent : ∀ c ∈ content, strip c ≠ List.replicate k f) :
    splitFenced ((List.replicate k f ++ strip info) :: content.map rstrip ++ [List.replicate k f] ++ rest) =
      .ok ((List.replicate k f ++ strip info) :: content.map rstrip ++ [List.replicate k f], rest) := by
  have hfw : isWs f = false := by rcases hf with rfl | rfl <;> decide
  have := (C14_extent _ (content.map rstrip ++ List.replicate k f :: rest) _
    (C14_opening_kept info f k hf hk hinfo)).1 (content.map rstrip) (List.replicate k f) rest rfl
    (by
      intro c hc
      obtain ⟨c', hc', rfl⟩ := List.mem_map.1 hc
      rw [strip_rstrip]; exact hcontent c' hc')
    (strip_noWs _ (by intro c hc; rw [List.eq_of_mem_replicate hc]; exact hfw))
  simpa using this

theorem C14_example : fmtSection (fun _ _ => .error .runtime) (.fin 5) 0 .fenced
    [c!" ```` py x ", c!"  keep  this line ", c!"```", c!"````"] =
    .ok c!"````py x\n  keep  this line\n```\n````" := by decide +kernel

/-- C14 fails for a fence that is never closed: the last line of the content is gone, and the result is accepted. -/
theorem C14_refuted_unclosed :
    (parse 3 [c!"```", c!"a", c!"b"]).map (·.map (·.1)) = .ok [.fenced] ∧
    reformatMarkdownText 3 (.fin 80) c!"```\na\nb" = .ok c!"```\na\n```\n" := by decide +kernel

/-- C14 fails for an information string that begins with the fence character: the opening fence gets longer than the
closing one. The text after the block becomes part of the block when the result is formatted again. -/
theorem C14_refuted_info :
    fmtSection (fun _ _ => .error .runtime) (.fin 80) 0 .fenced [c!"~~~ ~x", c!"a", c!"~~~"] =
      .ok c!"~~~~x\na\n~~~" ∧
    reformatMarkdownText 3 (.fin 80) c!"~~~ ~x\na\n~~~\n\ntext\n" = .error .inconsistent := by decide +kernel

/-! ## C15 -/

/-- C15: an indented code block is kept line by line; only white space at the ends of lines goes. Splitting the result
at newlines gives as many lines, each of them the original line without its trailing white space. -/
theorem C15_indented (sub : Width → Str → Except Err Str) (w : Width) (i : Nat) (lines : List Str) (hne : lines ≠ [])
    (hlb : ∀ l ∈ lines, '\n' ∉ l) :
    ∃ out, fmtSection sub w i .indented lines = .ok out ∧
      splitChar '\n' out = lines.map rstrip ∧ (splitChar '\n' out).length = lines.length ∧
      ∀ l ∈ lines, ∃ ws, l = rstrip l ++ ws ∧ ∀ c ∈ ws, isWs c = true := by
  refine ⟨pyJoin ['\n'] (lines.map rstrip), rfl, ?_, ?_, fun l _ => rstripBy_split isWs l⟩
  · apply splitChar_join
    · intro l hl h0
      obtain ⟨l', hl', rfl⟩ := List.mem_map.1 hl
      exact hlb l' hl' (mem_of_mem_rstrip h0)
    · simpa using hne
  · rw [splitChar_join]
    · simp
    · intro l hl h0
      obtain ⟨l', hl', rfl⟩ := List.mem_map.1 hl
      exact hlb l' hl' (mem_of_mem_rstrip h0)
    · simpa using hne

/-- C15: the indentation of a line that is not blank is unchanged. -/
theorem C15_indentation_kept (l : Str) (h : isBlankLine l = false) : getIndent (rstrip l) = getIndent l := by
  obtain ⟨ws, hl, hw⟩ := lstrip_split l
  have hne : lstrip l ≠ [] := by
    intro h0; rw [isBlankLine, (lstrip_eq_nil_iff_strip l).1 h0] at h; cases h
  have hr : rstrip (lstrip l) ≠ [] := by
    intro h0
    have : strip l = [] := h0
    rw [isBlankLine, this] at h; cases h
  have h1 : rstrip l = ws ++ rstrip (lstrip l) := by
    conv => lhs; rw [hl]
    exact rstrip_append_of_ne ws _ hr
  have h2 : lstrip (rstrip l) = rstrip (lstrip l) := lstrip_rstrip l
  unfold getIndent
  rw [h2, h1]
  have := congrArg List.length hl
  simp only [List.length_append] at this ⊢
  omega

theorem C15_example : fmtSection (fun _ _ => .error .runtime) (.fin 5) 0 .indented
    [c!"      a  b ", c!" ", c!"    c"] = .ok c!"      a  b\n\n    c" := by decide +kernel

end MF
