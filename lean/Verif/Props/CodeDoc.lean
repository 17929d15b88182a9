import Verif.Props.ParDoc
/-!
# C98: exactly what happens to an indented code block
-/

namespace MF

/-- One pass over a document, section by section. -/
theorem reformat_sections {n : Nat} {w : Width} {t : Str} {S : List (Sec × List Str)} (out : Sec × List Str → List Str)
    (hp : parse n (splitlines t) = .ok S) (h : ∀ b ∈ S, b.1 ≠ .setext ∧ reprCheck b.1 b.2 = .ok () ∧
      (∀ i, fmtSection (reformatText n) w i b.1 b.2 = .ok (pyJoin ['\n'] (out b))) ∧ out b ≠ []) :
    reformatText (n + 1) w t = .ok (pyJoin ['\n'] (S.map out).flatten ++ ['\n']) := by
  have hb : ∀ S : List (Sec × List Str), (∀ b ∈ S, b.1 ≠ .setext ∧ reprCheck b.1 b.2 = .ok () ∧
      (∀ i, fmtSection (reformatText n) w i b.1 b.2 = .ok (pyJoin ['\n'] (out b))) ∧ out b ≠ []) → ∀ i last,
      ∃ fs, buildFmts i last S = .ok fs ∧ fmtAll (reformatText n) w fs = .ok (S.map fun b => pyJoin ['\n'] (out b)) := by
    intro S
    induction S with
    | nil => intro _ i last; exact ⟨[], rfl, rfl⟩
    | cons b S ih =>
      intro h i last
      obtain ⟨h1, h2, h3, _⟩ := h b (by simp)
      obtain ⟨ty, ls⟩ := b
      obtain ⟨fs, e1, e2⟩ := ih (fun b hb => h b (by simp [hb])) (i + ls.length) (some ty)
      refine ⟨⟨i, ty, ls⟩ :: fs, ?_, ?_⟩
      · simp only [buildFmts, bind, Except.bind, h2, e1]
        rw [if_neg (by simp only [Bool.and_eq_true, beq_iff_eq]; exact fun hh => h1 hh.1)]
      · simp only [fmtAll, bind, Except.bind, h3, e2, Except.mapError]
        rfl
  obtain ⟨fs, e1, e2⟩ := hb S h 0 none
  rw [reformatText]
  simp only [reformatBody, bind, Except.bind, hp, e1, e2]
  have := join_linesOf (S.map fun b => (b.1, out b)) (by
    intro b hb
    obtain ⟨a, ha, rfl⟩ := List.mem_map.1 hb
    exact (h a ha).2.2.2)
  simp only [linesOf, List.map_map, Function.comp_def] at this
  rw [this]

/-- A line that is indented, and has text. -/
def codeStart (l : Str) : Bool := !emptyLine l && decide (4 ≤ getIndent l)

/-- A line that may stand in an indented code block. -/
def codeLine (l : Str) : Bool := emptyLine l || decide (4 ≤ getIndent l)

theorem codeStart_eq (l : Str) : codeStart l = isIndentedStart l := by
  rw [codeStart, isIndentedStart, emptyLine_eq]
  rfl

theorem indentLoop_empty {tail : List Str} (ht : ∀ l, tail.head? = some l → codeLine l = false) : ∀ (empty : List Str),
    (∀ l ∈ empty, emptyLine l = true) → ∀ i c, indentLoop i c (empty ++ tail) = c := by
  intro empty he
  induction empty with
  | nil =>
    intro i c
    cases tail with
    | nil => rfl
    | cons l tail =>
      have := ht l rfl
      simp only [codeLine, Bool.or_eq_false_iff, decide_eq_false_iff_not, emptyLine_eq, isBlankLine] at this
      simp [indentLoop, this.1, this.2]
  | cons l empty ih =>
    intro i c
    have := he l (by simp)
    rw [emptyLine_eq, isBlankLine] at this
    simp only [List.cons_append, indentLoop, this, if_true]
    exact ih (fun l hl => he l (by simp [hl])) _ _

theorem indentLoop_code (body empty tail : List Str) {last : Str} (hl : codeStart last = true) (he : ∀ l ∈ empty, emptyLine l = true)
    (ht : ∀ l, tail.head? = some l → codeLine l = false) : (∀ l ∈ body, codeLine l = true) → ∀ i c,
      indentLoop i c (body ++ last :: (empty ++ tail)) = i + body.length := by
  induction body with
  | nil =>
    intro _ i c
    rw [codeStart_eq, isIndentedStart, Bool.and_eq_true, decide_eq_true_eq, Bool.not_eq_true'] at hl
    simp only [List.nil_append, indentLoop, hl.1, hl.2, Bool.false_eq_true, if_true, if_false, indentLoop_empty ht _ he]
    rfl
  | cons l body ih =>
    intro hb i c
    have hl := hb l (by simp)
    have ih := ih fun l hl => hb l (by simp [hl])
    simp only [codeLine, Bool.or_eq_true, decide_eq_true_eq, emptyLine_eq, isBlankLine] at hl
    simp only [List.cons_append, indentLoop, List.length_cons]
    rcases hl with hl | hl
    · rw [if_pos hl, ih]; omega
    · split
      · rw [ih]; omega
      · rw [ih]; omega

theorem firstSection_codeStart {n : Nat} {l : Str} {ls a b : List Str} (h : codeStart l = true) (hf : fenceLine l = false)
    (hs : splitIndented (l :: ls) = .ok (a, b)) (ha : a ≠ []) :
    firstSection (splitters (splitQuote (n + 1))) (l :: ls) = .ok (.indented, a, b) := by
  rw [codeStart_eq] at h
  have hb : isBlankLine l = false := by
    rw [isIndentedStart, Bool.and_eq_true, Bool.not_eq_true'] at h
    exact h.1
  unfold splitters
  rw [firstSection_skip (splitAtx_eq_nil _ (by simp [isAtx, h])), firstSection_skip (splitBlank_eq_nil _ hb),
    firstSection_skip (splitQuote_unquoted n _ (by simp [isQuote, h])),
    firstSection_skip (splitBullet_eq_nil _ (by simp [isBulletStart, h])),
    firstSection_skip (splitFenced_eq_nil _ (by rw [← fenceLine_eq]; exact hf))]
  exact firstSection_take hs ha

/-- A code block ends in front of its last line. -/
theorem firstSection_code {n : Nat} {l last : Str} {body empty tail : List Str} (h : codeStart l = true)
    (hf : fenceLine l = false) (hb : ∀ l ∈ body, codeLine l = true) (hl : codeStart last = true)
    (he : ∀ l ∈ empty, emptyLine l = true) (ht : ∀ l, tail.head? = some l → codeLine l = false) :
    firstSection (splitters (splitQuote (n + 1))) (l :: body ++ last :: (empty ++ tail)) =
      .ok (.indented, l :: body, last :: (empty ++ tail)) := by
  refine firstSection_codeStart h hf ?_ (by simp)
  rw [codeStart_eq, isIndentedStart] at h
  have hi := indentLoop_code body empty tail hl he ht hb 1 1
  show splitIndented (l :: (body ++ last :: (empty ++ tail))) = _
  simp only [splitIndented, h, if_true, hi]
  rw [Nat.add_comm, List.take_succ_cons, List.drop_succ_cons, List.take_left' rfl, List.drop_left' rfl]

/-- The last line is a code block of its own. -/
theorem firstSection_codeLine {n : Nat} {l : Str} {empty tail : List Str} (h : codeStart l = true)
    (hf : fenceLine l = false) (he : ∀ l ∈ empty, emptyLine l = true) (ht : ∀ l, tail.head? = some l → codeLine l = false) :
    firstSection (splitters (splitQuote (n + 1))) (l :: (empty ++ tail)) = .ok (.indented, [l], empty ++ tail) := by
  refine firstSection_codeStart h hf ?_ (by simp)
  rw [codeStart_eq, isIndentedStart] at h
  simp only [splitIndented, h, if_true, indentLoop_empty ht _ he]
  rfl

/-- An indented code block: it starts and ends with indented text. -/
structure CodeBlk (ls : List Str) : Prop where
  ne : ls ≠ []
  first : ∀ l, ls.head? = some l → codeStart l = true
  last : ∀ l, ls.getLast? = some l → codeStart l = true
  lines : ∀ l ∈ ls, codeLine l = true

/-- The sections of a code block with empty lines behind it. -/
def codeSecs (ls empty : List Str) : List (Sec × List Str) :=
  (match ls with
    | [] => []
    | [l] => [(.indented, [l])]
    | _ => [(.indented, ls.dropLast), (.indented, ls.getLast?.toList)]) ++ empty.map fun l => (.blank, [l])

theorem codeSecs_lines (ls empty : List Str) : linesOf (codeSecs ls empty) = ls ++ empty := by
  have h : linesOf (empty.map fun l => ((.blank, [l]) : Sec × List Str)) = empty := by
    induction empty with
    | nil => rfl
    | cons l empty ih => rw [List.map_cons, linesOf_cons, ih]; rfl
  unfold codeSecs
  rw [linesOf_append, h]
  rcases ls with _ | ⟨a, _ | ⟨b, r⟩⟩
  · rfl
  · rfl
  · rcases List.eq_nil_or_concat (a :: b :: r) with h0 | ⟨zs, z, h0⟩
    · cases h0
    · rw [List.concat_eq_append] at h0
      simp only [linesOf, List.map_cons, List.map_nil, List.flatten_cons, List.flatten_nil]
      rw [h0, List.dropLast_concat, List.getLast?_concat]
      simp

/-- Every section is the first one of the rest of the document. -/
def Steps (n : Nat) (doc : List (Sec × List Str)) : Prop := ∀ a b c, doc = a ++ b :: c →
  b.2 ≠ [] ∧ firstSection (splitters (splitQuote n)) (b.2 ++ linesOf c) = .ok (b.1, b.2, linesOf c)

theorem steps_nil (n : Nat) : Steps n [] := by
  intro a b c e
  cases a <;> cases e

theorem steps_cons {n : Nat} {b : Sec × List Str} {c : List (Sec × List Str)} (h1 : b.2 ≠ [])
    (h2 : firstSection (splitters (splitQuote n)) (b.2 ++ linesOf c) = .ok (b.1, b.2, linesOf c)) (h : Steps n c) :
    Steps n (b :: c) := by
  intro a b' c' e
  cases a with
  | nil => cases e; exact ⟨h1, h2⟩
  | cons x a =>
    obtain ⟨_, e⟩ := List.cons.inj e
    exact h a b' c' e

theorem steps_blanks {n : Nat} {T : List (Sec × List Str)} (h : Steps n T) : ∀ {empty : List Str}, (∀ l ∈ empty, emptyLine l = true) →
    Steps n ((empty.map fun l => ((.blank, [l]) : Sec × List Str)) ++ T) := by
  intro empty
  induction empty with
  | nil => intro _; exact h
  | cons l empty ih =>
    intro he
    refine steps_cons (by simp) ?_ (ih fun l hl => he l (by simp [hl]))
    exact firstSection_blank _ (by rw [← emptyLine_eq]; exact he l (by simp))

theorem linesOf_blanks (empty : List Str) (T : List (Sec × List Str)) :
    linesOf ((empty.map fun l => ((.blank, [l]) : Sec × List Str)) ++ T) = empty ++ linesOf T := by
  induction empty with
  | nil => rfl
  | cons l empty ih => rw [List.map_cons, List.cons_append, linesOf_cons, ih]; rfl

/-- A code block in front of other sections. -/
theorem steps_code {n : Nat} {ls empty : List Str} {T : List (Sec × List Str)} (h : CodeBlk ls)
    (hf : ∀ l, ls.head? = some l → fenceLine l = false) (hl : ∀ l, ls.getLast? = some l → fenceLine l = false)
    (he : ∀ l ∈ empty, emptyLine l = true) (ht : ∀ l, (linesOf T).head? = some l → codeLine l = false) (hT : Steps (n + 1) T) :
    Steps (n + 1) (codeSecs ls empty ++ T) := by
  have hb := steps_blanks hT he
  have hlb := linesOf_blanks empty T
  rcases ls with _ | ⟨a, _ | ⟨b, r⟩⟩
  · exact absurd rfl h.ne
  · refine steps_cons (b := (.indented, [a])) (c := (empty.map fun l => ((.blank, [l]) : Sec × List Str)) ++ T) (by simp) ?_ hb
    rw [hlb]
    exact firstSection_codeLine (empty := empty) (tail := linesOf T) (h.first a rfl) (hf a rfl) he ht
  · rcases List.eq_nil_or_concat (b :: r) with h0 | ⟨zs, z, h0⟩
    · cases h0
    rw [List.concat_eq_append] at h0
    rw [h0] at h hf hl ⊢
    have hlast : (a :: (zs ++ [z])).getLast? = some z := by rw [← List.cons_append, List.getLast?_concat]
    have hz := h.last z hlast
    have e : codeSecs (a :: (zs ++ [z])) empty ++ T = (.indented, a :: zs) :: (.indented, [z]) ::
        ((empty.map fun l => ((.blank, [l]) : Sec × List Str)) ++ T) := by
      cases zs with
      | nil => rfl
      | cons y zs =>
        show (Sec.indented, (a :: y :: (zs ++ [z])).dropLast) :: (Sec.indented, (a :: y :: (zs ++ [z])).getLast?.toList) :: _ = _
        rw [show a :: y :: (zs ++ [z]) = (a :: y :: zs) ++ [z] from rfl, List.dropLast_concat, List.getLast?_concat]
        rfl
    rw [e]
    refine steps_cons (by simp) ?_ (steps_cons (by simp) ?_ hb)
    · rw [linesOf_cons, hlb]
      exact firstSection_code (empty := empty) (tail := linesOf T) (h.first a rfl) (hf a rfl) (fun l hl => h.lines l (by simp [hl])) hz he ht
    · rw [hlb]
      exact firstSection_codeLine (empty := empty) (tail := linesOf T) hz (hl z hlast) he ht

theorem codeSecs_mem {ls empty : List Str} (he : ∀ l ∈ empty, emptyLine l = true) : ∀ b ∈ codeSecs ls empty,
    b.2 ≠ [] → (b.1 = .indented ∨ b.1 = .blank) ∧ b.1 ≠ .setext ∧ reprCheck b.1 b.2 = .ok () ∧
      (∀ sub w i, fmtSection sub w i b.1 b.2 = .ok (pyJoin ['\n'] (b.2.map rstrip))) := by
  have hind : ∀ ls : List Str, ls ≠ [] → reprCheck .indented ls = .ok () ∧
      (∀ sub w i, fmtSection sub w i .indented ls = .ok (pyJoin ['\n'] (ls.map rstrip))) := by
    intro ls hne
    obtain ⟨l, ls, rfl⟩ := List.exists_cons_of_ne_nil hne
    exact ⟨rfl, fun _ _ _ => rfl⟩
  intro b hb hne
  unfold codeSecs at hb
  rcases List.mem_append.1 hb with hb | hb
  · have h1 : b.1 = .indented := by
      split at hb
      · cases hb
      · simp at hb; rw [hb]
      · simp at hb; rcases hb with rfl | rfl <;> rfl
    refine ⟨.inl h1, ?_, ?_, ?_⟩
    · rw [h1]; decide
    · rw [h1]; exact (hind _ hne).1
    · rw [h1]; exact (hind _ hne).2
  · obtain ⟨l, hl, rfl⟩ := List.mem_map.1 hb
    refine ⟨.inr rfl, by simp, rfl, fun _ _ _ => ?_⟩
    show Except.ok [] = Except.ok (rstrip l)
    rw [(rstrip_eq_nil l).2 (by simpa [emptyLine] using he l hl)]

theorem emptyLine_rstrip (l : Str) : emptyLine (rstrip l) = emptyLine l := by
  rw [emptyLine_eq, emptyLine_eq, isBlankLine, isBlankLine, strip_rstrip]

theorem getIndent_rstrip {l : Str} (h : emptyLine l = false) : getIndent (rstrip l) = getIndent l := by
  obtain ⟨a, b, e, ha, hb⟩ := strip_split l
  rcases strip_head l with h0 | ⟨c, r, h0, hc⟩
  · rw [emptyLine_eq, isBlankLine, h0] at h; cases h
  rcases strip_last l with h1 | ⟨r', c', h1, hc'⟩
  · rw [h1] at h0; cases h0
  have e1 : rstrip l = a ++ strip l := by
    rw [h1] at e ⊢
    rw [e, ← List.append_assoc, rstrip_append_ws _ _ hb, ← List.append_assoc, rstrip_concat_of_not _ _ hc']
  rw [e1]
  rw (occs := .pos [2]) [e]
  rw [h0, getIndent_ws_append ha, getIndent_ws_append ha, getIndent_not_ws hc, List.cons_append, getIndent_not_ws hc]

theorem codeStart_rstrip {l : Str} (h : codeStart l = true) : codeStart (rstrip l) = true := by
  rw [codeStart, Bool.and_eq_true, Bool.not_eq_true', decide_eq_true_eq] at h ⊢
  exact ⟨by rw [emptyLine_rstrip]; exact h.1, by rw [getIndent_rstrip h.1]; exact h.2⟩

theorem codeLine_rstrip {l : Str} (h : codeLine l = true) : codeLine (rstrip l) = true := by
  cases he : emptyLine l with
  | true => rw [codeLine, emptyLine_rstrip, he]; rfl
  | false =>
    have hs : codeStart l = true := by rw [codeLine, he] at h; rw [codeStart, he]; exact h
    have := codeStart_rstrip hs
    rw [codeStart, Bool.and_eq_true] at this
    rw [codeLine, this.2, Bool.or_true]

theorem CodeBlk.rstrip {ls : List Str} (h : CodeBlk ls) : CodeBlk (ls.map rstrip) := by
  refine ⟨by simpa using h.ne, ?_, ?_, ?_⟩
  · intro l hl
    rw [List.head?_map, Option.map_eq_some_iff] at hl
    obtain ⟨a, ha, rfl⟩ := hl
    exact codeStart_rstrip (h.first a ha)
  · intro l hl
    rw [List.getLast?_map, Option.map_eq_some_iff] at hl
    obtain ⟨a, ha, rfl⟩ := hl
    exact codeStart_rstrip (h.last a ha)
  · intro l hl
    obtain ⟨a, ha, rfl⟩ := List.mem_map.1 hl
    exact codeLine_rstrip (h.lines a ha)

theorem fenceLine_rstrip (l : Str) : fenceLine (rstrip l) = fenceLine l := by
  rw [fenceLine_eq, fenceLine_eq, isFenceStart, isFenceStart, strip_rstrip]

/-- One pass over a code block with other sections behind it. -/
theorem code_pass {n : Nat} {w : Width} {text : Str} {ls empty : List Str} {T : List (Sec × List Str)}
    {out : Sec × List Str → List Str} (h : CodeBlk ls)
    (hf : ∀ l, ls.head? = some l → fenceLine l = false) (hl : ∀ l, ls.getLast? = some l → fenceLine l = false)
    (he : ∀ l ∈ empty, emptyLine l = true) (ht : ∀ l, (linesOf T).head? = some l → codeLine l = false) (hT : Steps (n + 1) T)
    (hs : splitlines text = ls ++ empty ++ linesOf T) (hout : ∀ b ∈ T, b.1 ≠ .indented ∧ b.1 ≠ .blank ∧ b.1 ≠ .setext ∧
      reprCheck b.1 b.2 = .ok () ∧ (∀ i, fmtSection (reformatText (n + 1)) w i b.1 b.2 = .ok (pyJoin ['\n'] (out b))) ∧ out b ≠ []) :
    reformatText (n + 2) w text =
      .ok (pyJoin ['\n'] ((ls ++ empty).map MF.rstrip ++ (T.map out).flatten) ++ ['\n']) := by
  have hst := steps_code h hf hl he ht hT
  have hp := parse_of_first _ hst
  rw [linesOf_append, codeSecs_lines, ← hs] at hp
  have hne : ∀ b ∈ codeSecs ls empty, b.2 ≠ [] := by
    intro b hb
    obtain ⟨x, y, e⟩ := List.append_of_mem (List.mem_append_left T hb)
    exact (hst x b y e).1
  have key := reformat_sections (w := w) (fun b => if b.1 = .indented ∨ b.1 = .blank then b.2.map MF.rstrip else out b) hp (by
    intro b hb
    rcases List.mem_append.1 hb with hb | hb
    · obtain ⟨h1, h2, h3, h4⟩ := codeSecs_mem he b hb (hne b hb)
      refine ⟨h2, h3, fun i => ?_, ?_⟩
      · simp only [h1, if_true]; exact h4 _ _ _
      · simp only [h1, if_true]; simpa using hne b hb
    · obtain ⟨h1, h2, h3, h4, h5, h6⟩ := hout b hb
      refine ⟨h3, h4, fun i => ?_, ?_⟩
      · simp only [h1, h2, or_false, if_false]; exact h5 i
      · simp only [h1, h2, or_false, if_false]; exact h6)
  rw [key]
  congr 3
  rw [List.map_append, List.flatten_append]
  congr 1
  · have : ∀ S : List (Sec × List Str), (∀ b ∈ S, b.1 = .indented ∨ b.1 = .blank) →
        (S.map fun b => if b.1 = .indented ∨ b.1 = .blank then b.2.map MF.rstrip else out b).flatten =
          (linesOf S).map MF.rstrip := by
      intro S hS
      induction S with
      | nil => rfl
      | cons b S ih =>
        rw [List.map_cons, List.flatten_cons, ih fun b hb => hS b (by simp [hb]), linesOf_cons, List.map_append,
          if_pos (hS b (by simp))]
    rw [this _ fun b hb => (codeSecs_mem he b hb (hne b hb)).1, codeSecs_lines]
  · congr 1
    refine List.map_congr_left fun b hb => ?_
    obtain ⟨h1, h2, _⟩ := hout b hb
    simp [h1, h2]

theorem head_rstrip {ls : List Str} (hf : ∀ l, ls.head? = some l → fenceLine l = false) :
    ∀ l, (ls.map rstrip).head? = some l → fenceLine l = false := by
  intro l hl
  rw [List.head?_map, Option.map_eq_some_iff] at hl
  obtain ⟨a, ha, rfl⟩ := hl
  rw [fenceLine_rstrip]
  exact hf a ha

theorem last_rstrip {ls : List Str} (hf : ∀ l, ls.getLast? = some l → fenceLine l = false) :
    ∀ l, (ls.map rstrip).getLast? = some l → fenceLine l = false := by
  intro l hl
  rw [List.getLast?_map, Option.map_eq_some_iff] at hl
  obtain ⟨a, ha, rfl⟩ := hl
  rw [fenceLine_rstrip]
  exact hf a ha

theorem map_rstrip_idem (ls : List Str) : (ls.map rstrip).map rstrip = ls.map rstrip := by
  rw [List.map_map]
  exact List.map_congr_left fun l _ => rstrip_idem l

/-- C98: a document that is an indented code block is accepted if neither its first nor its last line looks like a fence,
and its lines are kept, up to trailing whitespace. The lines between may look like anything. -/
theorem C98_kept (n : Nat) (w : Width) (text : Str) (ls empty : List Str) (h : CodeBlk ls)
    (hf : ∀ l, ls.head? = some l → fenceLine l = false) (hl : ∀ l, ls.getLast? = some l → fenceLine l = false)
    (he : ∀ l ∈ empty, emptyLine l = true) (hs : splitlines text = ls ++ empty) :
    reformatMarkdownText (n + 2) w text = .ok (pyJoin ['\n'] (ls.map rstrip) ++ ['\n']) := by
  have hnl := splitlines_noLB text
  rw [hs] at hnl
  have h1 := code_pass (n := n) (w := w) (T := []) (out := fun _ => []) h hf hl he (by simp [linesOf]) (steps_nil _)
    (by rw [hs]; simp [linesOf]) (by simp)
  rw [List.map_nil, List.flatten_nil, List.append_nil] at h1
  have hsl : splitlines (pyJoin ['\n'] ((ls ++ empty).map rstrip) ++ ['\n']) = (ls ++ empty).map rstrip := by
    refine splitlines_join_nl _ ?_ (by have := h.ne; simp [this])
    intro l hl
    obtain ⟨a, ha, rfl⟩ := List.mem_map.1 hl
    exact (hnl a ha).of_mem fun c hc => mem_of_mem_rstrip hc
  have h2 := code_pass (n := n) (w := w) (T := []) (out := fun _ => []) (empty := empty.map rstrip) h.rstrip (head_rstrip hf)
    (last_rstrip hl) (by
      intro l hl
      obtain ⟨a, ha, rfl⟩ := List.mem_map.1 hl
      rw [emptyLine_rstrip]; exact he a ha) (by simp [linesOf]) (steps_nil _) (by rw [hsl]; simp [linesOf]) (by simp)
  rw [List.map_nil, List.flatten_nil, List.append_nil, ← List.map_append, map_rstrip_idem] at h2
  simp only [reformatMarkdownText, bind, Except.bind, h1, h2]
  rw [if_neg (by simp)]
  have hr : rstrip (pyJoin ['\n'] ((ls ++ empty).map rstrip) ++ ['\n']) = pyJoin ['\n'] (ls.map rstrip) := by
    rw [rstrip_append_ws _ _ (by decide)]
    have h0 : ∀ k : Nat, rstrip (pyJoin ['\n'] (ls.map rstrip ++ List.replicate k [])) = rstrip (pyJoin ['\n'] (ls.map rstrip)) := by
      intro k
      induction k with
      | zero => simp
      | succ k ih => rw [List.replicate_succ', ← List.append_assoc, rstrip_join_blank, ih]
    have he' : empty.map rstrip = List.replicate empty.length [] := by
      rw [List.eq_replicate_iff]
      refine ⟨by simp, fun b hb => ?_⟩
      obtain ⟨a, ha, rfl⟩ := List.mem_map.1 hb
      exact (rstrip_eq_nil a).2 (by simpa [emptyLine] using he a ha)
    rw [List.map_append, he', h0]
    rcases List.eq_nil_or_concat ls with h0 | ⟨zs, z, h0⟩
    · exact absurd h0 h.ne
    rw [List.concat_eq_append] at h0
    have hz := h.last z (by rw [h0, List.getLast?_concat])
    rw [h0, List.map_append]
    rcases rstrip_last z with h1 | ⟨r, c, h1, hc⟩
    · rw [codeStart, ← emptyLine_rstrip, h1] at hz; cases hz
    · refine rstrip_ends (pyJoin_getLast (ls := zs.map rstrip) (l := rstrip z) (c := c) (by rw [h1, List.getLast?_concat])) hc
  rw [hr]

theorem fence_codeStart {ws info : Str} {f : Char} {k : Nat} (hf : f = '`' ∨ f = '~') (hk : 3 ≤ k)
    (hws : ∀ c ∈ ws, isWs c = true) : emptyLine (ws ++ List.replicate k f ++ info) = false ∧
      getIndent (ws ++ List.replicate k f ++ info) = ws.length := by
  have hfw : isWs f = false := by rcases hf with rfl | rfl <;> decide
  obtain ⟨j, rfl⟩ : ∃ j, k = j + 1 := ⟨k - 1, by omega⟩
  constructor
  · rw [emptyLine, List.all_eq_false]
    exact ⟨f, by simp, by rw [hfw]; simp⟩
  · rw [List.append_assoc, getIndent_ws_append hws, List.replicate_succ, List.cons_append, getIndent_not_ws hfw]
    rfl

/-- The lines that the first pass reads: the code block, and a fenced block that starts at its last line. -/
theorem swallow_steps {n : Nat} {pre rest : List Str} {ws info : Str} {f : Char} {k : Nat} (hf : f = '`' ∨ f = '~') (hk : 3 ≤ k)
    (hws : ∀ c ∈ ws, isWs c = true) (hi : 4 ≤ ws.length) (hne : pre ≠ []) (hfirst : ∀ l, pre.head? = some l → codeStart l = true ∧ fenceLine l = false)
    (hpre : ∀ l ∈ pre, codeLine l = true) (hr : ∀ l, (rest.dropWhile emptyLine).head? = some l → codeLine l = false)
    (hT : Steps (n + 1) [(.fenced, (ws ++ List.replicate k f ++ info) :: rest)]) :
    Steps (n + 1) [(.indented, pre), (.fenced, (ws ++ List.replicate k f ++ info) :: rest)] := by
  refine steps_cons hne ?_ hT
  obtain ⟨l, body, rfl⟩ := List.exists_cons_of_ne_nil hne
  obtain ⟨h1, h2⟩ := hfirst l rfl
  obtain ⟨h3, h4⟩ := fence_codeStart (info := info) hf hk hws
  have key := firstSection_code (n := n) (body := body) (last := ws ++ List.replicate k f ++ info)
    (empty := rest.takeWhile emptyLine) (tail := rest.dropWhile emptyLine) h1 h2
    (fun l hl => hpre l (by simp [hl])) (by rw [codeStart, h3, h4]; simpa using hi)
    (fun l hl => List.all_eq_true.1 List.all_takeWhile l hl) hr
  rw [List.takeWhile_append_dropWhile] at key
  simpa [linesOf] using key

/-- C98: an indented code block, however, whose last line looks like a fence: everything behind it is read as code inside
this fence, and the last line of the document is left out if it does not close the fence. This is accepted. -/
theorem C98_swallowed (n : Nat) (w : Width) (text ws info last : Str) (ls empty body : List Str) (f : Char) (k : Nat)
    (hf : f = '`' ∨ f = '~') (hk : 3 ≤ k) (hws : ∀ c ∈ ws, isWs c = true) (hi : 4 ≤ ws.length) (hinfo : info.head? ≠ some f)
    (hinfo2 : (strip info).head? ≠ some f) (h : CodeBlk ls) (hfst : ∀ l, ls.head? = some l → fenceLine l = false)
    (hl : ∀ l, ls.getLast? = some l → fenceLine l = false) (he : ∀ l ∈ empty, emptyLine l = true)
    (hr : ∀ l, ((body ++ [last]).dropWhile emptyLine).head? = some l → codeLine l = false)
    (hb : ∀ x ∈ body, strip x ≠ List.replicate k f)
    (hs : splitlines text = ls ++ empty ++ (ws ++ List.replicate k f ++ info) :: (body ++ [last])) :
    reformatMarkdownText (n + 2) w text =
      .ok (pyJoin ['\n'] ((ls ++ empty).map rstrip ++ fenceLines (List.replicate k f) info body) ++ ['\n']) := by
  have hfw : isWs f = false := by rcases hf with rfl | rfl <;> decide
  have hF := openFence_line (ws := ws) hf hws hk hinfo
  have hT : Steps (n + 1) [(.fenced, (ws ++ List.replicate k f ++ info) :: (body ++ [last]))] := by
    refine steps_cons (by simp) ?_ (steps_nil _)
    have := (parse_at (pre := []) (post := []) (parse_fence n body last hF hb)).1
    simpa [linesOf] using this
  have hst := swallow_steps (pre := ls ++ empty) hf hk hws hi (by have := h.ne; simp [this]) (by
    intro l hl
    obtain ⟨a, r, rfl⟩ := List.exists_cons_of_ne_nil h.ne
    cases hl
    exact ⟨h.first _ rfl, hfst _ rfl⟩) (by
    intro l hl
    rcases List.mem_append.1 hl with hl | hl
    · exact h.lines l hl
    · rw [codeLine, he l hl]; rfl) hr hT
  have hp := parse_of_first _ hst
  rw [show linesOf [(.indented, ls ++ empty), (.fenced, (ws ++ List.replicate k f ++ info) :: (body ++ [last]))] = splitlines text by
    rw [hs]; simp [linesOf]] at hp
  have h1 := reformat_sections (w := w) (fun b => if b.1 = .indented then b.2.map rstrip else fenceLines (List.replicate k f) info body)
    hp (by
      intro b hb
      simp only [List.mem_cons, List.not_mem_nil, or_false] at hb
      rcases hb with rfl | rfl
      · obtain ⟨a, r, rfl⟩ := List.exists_cons_of_ne_nil h.ne
        exact ⟨by simp, rfl, fun _ => rfl, by simp⟩
      · exact ⟨by simp, repr_fence hf hk, fun _ => C14_fenced_partial (reformatText (n + 1)) w 0 ws info last body f k hf hws (by omega) hinfo,
          by simp [fenceLines]⟩)
  have hnl : ∀ l ∈ (ls ++ empty).map rstrip ++ fenceLines (List.replicate k f) info body, NoLB l := by
    have h0 := splitlines_noLB text
    rw [hs] at h0
    have hfl := h0 (ws ++ List.replicate k f ++ info) (by simp)
    intro l hl
    rcases List.mem_append.1 hl with hl | hl
    · obtain ⟨a, ha, rfl⟩ := List.mem_map.1 hl
      exact (h0 a (List.mem_append_left _ ha)).of_mem fun c hc => mem_of_mem_rstrip hc
    · simp only [fenceLines, List.cons_append, List.mem_cons, List.mem_append, List.mem_map, List.not_mem_nil, or_false] at hl
      have hFn : NoLB (List.replicate k f) := hfl.of_mem (by intro c hc; simp [hc])
      rcases hl with rfl | ⟨b, hb, rfl⟩ | rfl
      · exact hFn.append (hfl.of_mem fun c hc => by have := mem_of_mem_strip hc; simp [this])
      · exact (h0 b (by simp [hb])).of_mem fun c hc => mem_of_mem_rstrip hc
      · exact hFn
  have e1 : (List.map (fun b : Sec × List Str => if b.1 = .indented then b.2.map rstrip else fenceLines (List.replicate k f) info body)
      [(.indented, ls ++ empty), (.fenced, (ws ++ List.replicate k f ++ info) :: (body ++ [last]))]).flatten =
      (ls ++ empty).map rstrip ++ fenceLines (List.replicate k f) info body := by simp
  rw [e1] at h1
  have hsl := splitlines_join_nl _ hnl (by simp [fenceLines])
  have hF2 := openFence_line (ws := []) (info := strip info) hf (by simp) hk hinfo2
  have hb2 : ∀ x ∈ body.map rstrip, strip x ≠ List.replicate k f := by
    intro x hx
    obtain ⟨b, hb', rfl⟩ := List.mem_map.1 hx
    rw [strip_rstrip]
    exact hb b hb'
  have hT2 : Steps (n + 1) [(.fenced, fenceLines (List.replicate k f) info body)] := by
    refine steps_cons (by simp [fenceLines]) ?_ (steps_nil _)
    have := (parse_at (pre := []) (post := []) (parse_fence n (body.map rstrip) (List.replicate k f) hF2 hb2)).1
    simpa [linesOf, fenceLines] using this
  have h2 := code_pass (n := n) (w := w) (ls := ls.map rstrip) (empty := empty.map rstrip)
    (text := pyJoin ['\n'] ((ls ++ empty).map rstrip ++ fenceLines (List.replicate k f) info body) ++ ['\n'])
    (out := fun _ => fenceLines (List.replicate k f) info body) h.rstrip (head_rstrip hfst) (last_rstrip hl) (by
      intro l hl
      obtain ⟨a, ha, rfl⟩ := List.mem_map.1 hl
      rw [emptyLine_rstrip]; exact he a ha) (by
      intro l hl
      cases hl
      obtain ⟨h3, h4⟩ := fence_codeStart (ws := []) (info := strip info) hf hk (by simp)
      rw [List.nil_append] at h3 h4
      rw [codeLine, h3, h4]; rfl) hT2 (by rw [hsl]; simp [linesOf]) (by
      intro b hb
      simp only [List.mem_cons, List.not_mem_nil, or_false] at hb
      subst hb
      refine ⟨by simp, by simp, by simp, ?_, ?_, by simp [fenceLines]⟩
      · have := repr_fence (ws := []) (info := strip info) (last := List.replicate k f) (body := body.map rstrip) hf hk
        simpa [fenceLines] using this
      · intro i
        have := C14_fenced_partial (reformatText (n + 1)) w 0 [] (strip info) (List.replicate k f) (body.map rstrip) f k hf
          (by simp) (by omega) hinfo2
        rw [strip_idem, map_rstrip_idem] at this
        exact this)
  rw [← List.map_append, map_rstrip_idem] at h2
  simp only [List.map_cons, List.map_nil, List.flatten_cons, List.flatten_nil, List.append_nil] at h2
  simp only [reformatMarkdownText, bind, Except.bind, h1, h2]
  rw [if_neg (by simp)]
  rw [rstrip_append_ws _ _ (by decide)]
  have hend : rstrip (pyJoin ['\n'] ((ls ++ empty).map rstrip ++ fenceLines (List.replicate k f) info body)) =
      pyJoin ['\n'] ((ls ++ empty).map rstrip ++ fenceLines (List.replicate k f) info body) := by
    rw [fenceLines, ← List.append_assoc]
    exact rstrip_ends (pyJoin_getLast (replicate_getLast (by omega))) hfw
  rw [hend]

/-- C98: if this last line of the code block is the last line of the document, formatting fails. -/
theorem C98_error (n : Nat) (w : Width) (text ws info : Str) (pre : List Str) (f : Char) (k : Nat)
    (hf : f = '`' ∨ f = '~') (hk : 3 ≤ k) (hws : ∀ c ∈ ws, isWs c = true) (hi : 4 ≤ ws.length) (hinfo : info.head? ≠ some f)
    (hne : pre ≠ []) (hfst : ∀ l, pre.head? = some l → codeStart l = true ∧ fenceLine l = false)
    (hpre : ∀ l ∈ pre, codeLine l = true) (hs : splitlines text = pre ++ [ws ++ List.replicate k f ++ info]) :
    reformatMarkdownText (n + 2) w text = .error .indexError := by
  have hF := openFence_line (ws := ws) hf hws hk hinfo
  have hT : Steps (n + 1) [(.fenced, [ws ++ List.replicate k f ++ info])] := by
    refine steps_cons (by simp) ?_ (steps_nil _)
    have := (parse_at (pre := []) (post := []) (parse_fence_all n [] hF ((C14_extent _ [] _ hF).2 (by simp)))).1
    simpa [linesOf] using this
  have hst := swallow_steps hf hk hws hi hne hfst hpre (rest := []) (by simp) hT
  have hp := parse_of_first _ hst
  rw [show linesOf [(.indented, pre), (.fenced, [ws ++ List.replicate k f ++ info])] = splitlines text by
    rw [hs]; simp [linesOf]] at hp
  have h1 : reformatText (n + 2) w text = .error .indexError := by
    rw [reformatText]
    obtain ⟨a, r, rfl⟩ := List.exists_cons_of_ne_nil hne
    simp only [reformatBody, bind, Except.bind, hp, buildFmts, reprCheck]
    rfl
  simp only [reformatMarkdownText, bind, Except.bind, h1]

theorem C98_code : CodeBlk [c!"    a  ", c!" ", c!"    ```", c!"    # b", c!"        | c"] :=
  ⟨by simp, by intro l hl; cases hl; decide, by intro l hl; cases hl; decide, by decide⟩

/-- Inner lines may look like anything; a fence at the end takes the rest of the document, and the last line is lost. -/
theorem C98_example :
    reformatMarkdownText 3 (.fin 10) c!"    a  \n \n    ```\n    # b\n        | c\n\n" =
      .ok c!"    a\n\n    ```\n    # b\n        | c\n" ∧
    reformatMarkdownText 3 (.fin 80) c!"    a\n    ```\n\n# Title\n\ntext\n" = .ok c!"    a\n```\n\n# Title\n\n```\n" ∧
    reformatMarkdownText 3 (.fin 80) c!"    a\n    ```\n" = .error .indexError := by decide +kernel

end MF
