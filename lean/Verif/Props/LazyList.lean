import Verif.Props.ListDoc
import Verif.Props.Chunks
/-!
# C113: lines of a list entry that are indented too little
-/

namespace MF

/-- The lines of two lists behind their first line. They only differ in lines that start no entry: such a line may be
indented by any number of spaces up to where the text of its entry starts. `p` is where the marker of the entry ends. -/
inductive Reindented : Nat → List Str → List Str → Prop
  | nil {p : Nat} : Reindented p [] []
  | entry {p : Nat} {l ws m r : Str} {ls ls' : List Str} : MarkerAt l ws m r → ws.length ≤ p →
      Reindented (ws.length + m.length) ls ls' → Reindented p (l :: ls) (l :: ls')
  | same {p : Nat} {l : Str} {ls ls' : List Str} : (∀ ws m r, MarkerAt l ws m r → p < ws.length) → fenceLine l = false →
      Reindented p ls ls' → Reindented p (l :: ls) (l :: ls')
  | text {p : Nat} {c : Char} {t : Str} {j j' : Nat} {ls ls' : List Str} : isWs c = false → (∀ ws m r, ¬ MarkerAt (c :: t) ws m r) →
      fenceLine (c :: t) = false → j ≤ p + 1 → j' ≤ p + 1 → Reindented p ls ls' →
      Reindented p ((List.replicate j ' ' ++ c :: t) :: ls) ((List.replicate j' ' ' ++ c :: t) :: ls')

theorem MarkerAt.unindented {j : Nat} {c : Char} {t ws m r : Str} (hc : isWs c = false) (h : MarkerAt (List.replicate j ' ' ++ c :: t) ws m r) :
    MarkerAt (c :: t) [] m r := by
  have h1 : MF.lstrip (List.replicate j ' ' ++ c :: t) = c :: t := by
    unfold MF.lstrip
    rw [List.dropWhile_append_of_pos (spaces_ws j), List.dropWhile_cons_of_neg (by simp [hc])]
  rw [h.lstrip] at h1
  exact ⟨h1.symm, by simp, h.marker, h.rest⟩

theorem dedent_spaces {p j : Nat} {c : Char} {t : Str} (hc : isWs c = false) (hj : j ≤ p + 1) :
    lstrip ((List.replicate j ' ' ++ c :: t).take (p + 1)) ++ (List.replicate j ' ' ++ c :: t).drop (p + 1) = c :: t := by
  by_cases he : j = p + 1
  · subst he
    rw [List.take_left' (by simp), List.drop_left' (by simp)]
    rw [show lstrip (List.replicate (p + 1) ' ') = [] from by
      unfold lstrip
      exact (dropWhile_eq_nil _ _).2 (spaces_ws _)]
    rfl
  · obtain ⟨k, hk⟩ : ∃ k, p + 1 = j + (k + 1) := ⟨p - j, by omega⟩
    rw [hk]
    have e1 : (List.replicate j ' ' ++ c :: t).take (j + (k + 1)) = List.replicate j ' ' ++ c :: t.take k := by
      rw [List.take_append]; simp [List.take_of_length_le]
    have e2 : (List.replicate j ' ' ++ c :: t).drop (j + (k + 1)) = t.drop k := by
      rw [List.drop_append]; simp
    rw [e1, e2]
    unfold lstrip
    rw [List.dropWhile_append_of_pos (spaces_ws j), List.dropWhile_cons_of_neg (by simp [hc])]
    simp

theorem dedentEntry_concat {l : Str} {r : List Str} {p : Nat} (hl : markerEnd? l = some p) (x : Str) :
    dedentEntry (l :: r ++ [x]) = (dedentEntry (l :: r)).map (· ++ [lstrip (x.take (p + 1)) ++ x.drop (p + 1)]) := by
  simp [dedentEntry, listMarkerEndPos, hl, bind, Except.bind, Except.map]

theorem dedentEntries_concat (pre : List (List Str)) (e : List Str) :
    dedentEntries (pre ++ [e]) = (dedentEntries pre).bind fun ds => (dedentEntry e).map fun d => ds ++ [d] := by
  simp only [dedentEntries, List.mapM_append, List.mapM_cons, List.mapM_nil, bind, Except.bind]
  cases pre.mapM dedentEntry with
  | error e => rfl
  | ok ds => cases dedentEntry e <;> rfl

theorem step_text {ce : Str} {p : Nat} {pre : List (List Str)} {e : List Str} {l : Str} (hl : ∀ ws m r, MarkerAt l ws m r → p < ws.length)
    (hf : fenceLine l = false) : splitListStep ⟨false, ce, p, pre ++ [e]⟩ l = .ok ⟨false, ce, p, pre ++ [e ++ [l]]⟩ := by
  have hf' : ¬ FenceLine l := by
    intro h
    rw [fenceLine_eq, (fenceLine_iff l).1 h] at hf
    cases hf
  simp only [splitListStep, fenceTrack_none hf', bind, Except.bind, appendToLast, List.getLast?_concat, List.dropLast_concat]
  cases hm : markerEnd? l with
  | none => rfl
  | some k =>
    obtain ⟨ws, m, r, h1, h2⟩ := markerEnd_sound hm
    have := hl ws m r h1
    have hi : getIndent l = ws.length := h1.indent
    simp only [hi]
    rw [if_neg (by simp; omega)]

theorem step_entry {ce : Str} {p : Nat} {pre : List (List Str)} {l ws m r : Str} (hl : MarkerAt l ws m r) (hp : ws.length ≤ p) :
    splitListStep ⟨false, ce, p, pre⟩ l = .ok ⟨false, ce, ws.length + m.length, pre ++ [[l]]⟩ := by
  have hf' : ¬ FenceLine l := hl.not_fence
  simp only [splitListStep, fenceTrack_none hf', bind, Except.bind, markerEnd_intro hl, hl.indent]
  rw [if_pos (by simpa using hp)]

theorem Reindented.split {p : Nat} {ls ls' : List Str} (h : Reindented p ls ls') : ∀ {ce ce' : Str} {pre pre' : List (List Str)}
    {l : Str} {r r' : List Str}, markerEnd? l = some p → dedentEntries pre = dedentEntries pre' → pre.length = pre'.length →
    dedentEntry (l :: r) = dedentEntry (l :: r') →
    ∃ st st', ls.foldlM splitListStep ⟨false, ce, p, pre ++ [l :: r]⟩ = .ok st ∧
      ls'.foldlM splitListStep ⟨false, ce', p, pre' ++ [l :: r']⟩ = .ok st' ∧
      dedentEntries st.entries = dedentEntries st'.entries ∧ st.entries.length = st'.entries.length := by
  induction h with
  | nil =>
    intro ce ce' pre pre' l r r' _ h1 h2 h3
    exact ⟨_, _, rfl, rfl, by simp only [dedentEntries_concat, h1, h3], by simp [h2]⟩
  | entry hm hp _ ih =>
    intro ce ce' pre pre' l r r' hl h1 h2 h3
    simp only [List.foldlM_cons, bind, Except.bind, step_entry hm hp]
    refine ih (markerEnd_intro hm) ?_ (by simp [h2]) rfl
    simp only [dedentEntries_concat, h1, h3]
  | same hm hf _ ih =>
    intro ce ce' pre pre' l r r' hl h1 h2 h3
    simp only [List.foldlM_cons, bind, Except.bind, step_text hm hf]
    refine ih hl h1 h2 ?_
    refine (dedentEntry_concat (r := r) hl _).trans (Eq.trans ?_ (dedentEntry_concat (r := r') hl _).symm)
    rw [h3]
  | @text p c t j j' ls ls' hc hm hf hj hj' _ ih =>
    intro ce ce' pre pre' l r r' hl h1 h2 h3
    have hs : ∀ k, splitListStep ⟨false, ce, p, pre ++ [l :: r]⟩ (List.replicate k ' ' ++ c :: t) = _ := fun k =>
      step_text (fun ws m r h => absurd (h.unindented hc) (hm _ _ _)) (by
        cases hfl : fenceLine (List.replicate k ' ' ++ c :: t) with
        | false => rfl
        | true =>
          rw [fenceLine_eq, ← fenceLine_iff] at hfl
          rw [(fenceLine_indented k _).1 hfl] at hf
          cases hf)
    have hs' : ∀ k, splitListStep ⟨false, ce', p, pre' ++ [l :: r']⟩ (List.replicate k ' ' ++ c :: t) = _ := fun k =>
      step_text (fun ws m r h => absurd (h.unindented hc) (hm _ _ _)) (by
        cases hfl : fenceLine (List.replicate k ' ' ++ c :: t) with
        | false => rfl
        | true =>
          rw [fenceLine_eq, ← fenceLine_iff] at hfl
          rw [(fenceLine_indented k _).1 hfl] at hf
          cases hf)
    simp only [List.foldlM_cons, bind, Except.bind, hs, hs']
    refine ih hl h1 h2 ?_
    have e1 := dedentEntry_concat (r := r) hl (List.replicate j ' ' ++ c :: t)
    have e2 := dedentEntry_concat (r := r') hl (List.replicate j' ' ' ++ c :: t)
    rw [dedent_spaces hc hj] at e1
    rw [dedent_spaces hc hj', ← h3] at e2
    exact e1.trans e2.symm

theorem Reindented.lists {l ws m r : Str} (hm : MarkerAt l ws m r) {ls ls' : List Str} (h : Reindented (ws.length + m.length) ls ls') :
    ∃ es es', splitList (l :: ls) = .ok es ∧ splitList (l :: ls') = .ok es' ∧ dedentEntries es = dedentEntries es' ∧
      es.length = es'.length := by
  obtain ⟨st, st', h1, h2, h3, h4⟩ := h.split (ce := []) (ce' := []) (pre := []) (pre' := []) (l := l) (r := []) (r' := [])
    (markerEnd_intro hm) rfl rfl rfl
  refine ⟨st.entries, st'.entries, ?_, ?_, h3, h4⟩
  · simp only [splitList, listMarkerEndPos, markerEnd_intro hm, bind, Except.bind, List.foldlM_cons, step_entry hm (Nat.le_add_right _ _)]
    simp only [h1]
  · simp only [splitList, listMarkerEndPos, markerEnd_intro hm, bind, Except.bind, List.foldlM_cons, step_entry hm (Nat.le_add_right _ _)]
    simp only [h2]

/-- C113: the formatters of lists do not care. -/
theorem C113_format {sub : Width → Str → Except Err Str} {w : Width} {l ws m r : Str} (hm : MarkerAt l ws m r) {ls ls' : List Str}
    (h : Reindented (ws.length + m.length) ls ls') :
    fmtBullet sub w (l :: ls) = fmtBullet sub w (l :: ls') ∧ fmtOrdered sub w (l :: ls) = fmtOrdered sub w (l :: ls') := by
  obtain ⟨es, es', h1, h2, h3, h4⟩ := h.lists hm
  constructor
  · simp only [fmtBullet, h1, h2, bind, Except.bind, h3]
  · simp only [fmtOrdered, h1, h2, bind, Except.bind, h3, h4]

theorem parse_first_rest {n : Nat} {x : Str} {xs a r : List Str} {ty : Sec} (h : firstSection (splitters (splitQuote n)) (x :: xs) = .ok (ty, a, r))
    (ha : a ≠ []) (hr : a ++ r = x :: xs) : parse n (x :: xs) = (parse n r).map fun S => (ty, a) :: S := by
  have hlen : r.length ≤ xs.length := by
    have := congrArg List.length hr
    cases a with
    | nil => exact absurd rfl ha
    | cons => simp at this; omega
  simp only [parse, parseWith, List.length_cons, parseLoop, h, bind, Except.bind]
  rw [parseLoop_fuel n xs.length r.length r hlen (Nat.le_refl _)]
  cases parseLoop (splitQuote n) r.length r <;> rfl

theorem Reindented.length {p : Nat} {ls ls' : List Str} (h : Reindented p ls ls') : ls.length = ls'.length := by
  induction h <;> simp_all

/-- C113: a pass does not care either: how far the lines of an entry are indented makes no difference, up to where its
text starts. -/
theorem C113_pass {n : Nat} {w : Width} {d d' l ws m r : Str} {ls ls' R : List Str} (hm : MarkerAt l ws m (' ' :: r)) (hi : ws.length < 4)
    (h : Reindented (ws.length + m.length) ls ls') (hl : ∀ x ∈ ls, listEnd x = false) (hl' : ∀ x ∈ ls', listEnd x = false)
    (hR : ∀ x, R.head? = some x → listEnd x = true) (hd : splitlines d = l :: ls ++ R) (hd' : splitlines d' = l :: ls' ++ R) :
    reformatText (n + 2) w d = reformatText (n + 2) w d' := by
  have hlen := h.length
  have hni : isIndentedStart l = false := by
    simp [isIndentedStart, hm.indent]; omega
  obtain ⟨f1, f2⟩ := C113_format (sub := reformatText (n + 1)) (w := w) hm h
  have key : ∃ ty, (∀ xs, (∀ x ∈ xs, listEnd x = false) →
      firstSection (splitters (splitQuote (n + 1))) (l :: xs ++ R) = .ok (ty, l :: xs, R)) ∧
      reprCheck ty (l :: ls) = reprCheck ty (l :: ls') ∧ ty ≠ .setext ∧
      ∀ i, fmtSection (reformatText (n + 1)) w i ty (l :: ls) = fmtSection (reformatText (n + 1)) w i ty (l :: ls') := by
    have hb : ∀ c, (c = '*' ∨ c = '+' ∨ c = '-') → m = [c] → isBulletStart l = true := by
      intro c hc e
      unfold isBulletStart
      rw [hni, (isBulletStart_iff _).2]
      · rfl
      · exact ⟨c, r, by rw [hm.lstrip, e]; rfl, hc⟩
    have bullet : isBulletStart l = true → ∃ ty, (∀ xs, (∀ x ∈ xs, listEnd x = false) →
      firstSection (splitters (splitQuote (n + 1))) (l :: xs ++ R) = .ok (ty, l :: xs, R)) ∧
      reprCheck ty (l :: ls) = reprCheck ty (l :: ls') ∧ ty ≠ .setext ∧
      ∀ i, fmtSection (reformatText (n + 1)) w i ty (l :: ls) = fmtSection (reformatText (n + 1)) w i ty (l :: ls') := fun hb =>
      ⟨.bullet, fun xs hx => firstSection_bullet xs R hb hx hR, rfl, by simp, fun i => f1⟩
    rcases hm.marker with e | e | e | ⟨ds, d1, d2, e⟩
    · exact bullet (hb '*' (by simp) e)
    · exact bullet (hb '-' (by simp) e)
    · exact bullet (hb '+' (by simp) e)
    · have ho : isOrderedStart l = true := by
        unfold isOrderedStart
        rw [hni, (isOrderedStart_iff _).2]
        · rfl
        · exact ⟨ds, r, by rw [hm.lstrip, e]; simp, d1, d2⟩
      exact ⟨.ordered, fun xs hx => firstSection_ordered xs R ho hx hR, rfl, by simp, fun i => f2⟩
  obtain ⟨ty, k1, k2, k3, k4⟩ := key
  have p1 := parse_first_rest (k1 ls hl) (by simp) rfl
  have p2 := parse_first_rest (k1 ls' hl') (by simp) rfl
  rw [reformatText, reformatText]
  simp only [reformatBody, hd, hd', bind, Except.bind]
  rw [show parse (n + 1) (l :: ls ++ R) = _ from p1, show parse (n + 1) (l :: ls' ++ R) = _ from p2]
  cases parse (n + 1) R with
  | error e => rfl
  | ok S =>
    simp only [Except.map, buildFmts, k2, bind, Except.bind]
    cases reprCheck ty (l :: ls') with
    | error e => rfl
    | ok u =>
      simp only [List.length_cons, hlen]
      cases buildFmts (0 + (ls'.length + 1)) (some ty) S with
      | error e => rfl
      | ok F =>
        have : (ty == Sec.setext) = false := by simpa using k3
        simp only [this, Bool.false_and, Bool.false_eq_true, if_false, fmtAll, bind, k4]

/-- C113: nor does the program. -/
theorem C113_program {n : Nat} {w : Width} {d d' l ws m r : Str} {ls ls' R : List Str} (hm : MarkerAt l ws m (' ' :: r)) (hi : ws.length < 4)
    (h : Reindented (ws.length + m.length) ls ls') (hl : ∀ x ∈ ls, listEnd x = false) (hl' : ∀ x ∈ ls', listEnd x = false)
    (hR : ∀ x, R.head? = some x → listEnd x = true) (hd : splitlines d = l :: ls ++ R) (hd' : splitlines d' = l :: ls' ++ R) :
    reformatMarkdownText (n + 2) w d = reformatMarkdownText (n + 2) w d' := by
  simp only [reformatMarkdownText, C113_pass (n := n) (w := w) hm hi h hl hl' hR hd hd']

/-- C113: headings, quotes and text directly after a list are taken into it. -/
theorem C113_example :
    Reindented 1 [c!"# T", c!"* b", c!" > q", c!"* c", c!"text"] [c!"  # T", c!"* b", c!"  > q", c!"* c", c!"  text"] ∧
    MarkerAt c!"* a" [] c!"*" c!" a" ∧
    (∀ x ∈ [c!"# T", c!"* b", c!" > q", c!"* c", c!"text"], listEnd x = false) ∧
    (∀ x ∈ [c!"  # T", c!"* b", c!"  > q", c!"* c", c!"  text"], listEnd x = false) ∧
    reformatMarkdownText 9 (.fin 80) c!"* a\n# T\n* b\n > q\n* c\ntext\n\nx\n" = .ok c!"* a\n  # T\n* b\n  > q\n* c text\n\nx\n" := by
  refine ⟨?_, ⟨rfl, by simp, .inl rfl, .inr (.inr ⟨_, rfl⟩)⟩, by decide, by decide, by decide +kernel⟩
  have e0 : Reindented 1 [c!"text"] [c!"  text"] :=
    .text (c := 't') (t := c!"ext") (j := 0) (j' := 2) (by decide) (markerEnd_none.1 (by decide +kernel)) (by decide) (by decide) (by decide) .nil
  have e1 : Reindented 1 [c!"* c", c!"text"] [c!"* c", c!"  text"] :=
    .entry (ws := []) (m := c!"*") (r := c!" c") ⟨rfl, by simp, .inl rfl, .inr (.inr ⟨_, rfl⟩)⟩ (by simp) e0
  have e2 : Reindented 1 [c!" > q", c!"* c", c!"text"] [c!"  > q", c!"* c", c!"  text"] :=
    .text (c := '>') (t := c!" q") (j := 1) (j' := 2) (by decide) (markerEnd_none.1 (by decide +kernel)) (by decide) (by decide) (by decide) e1
  have e3 := Reindented.entry (p := 1) (l := c!"* b") (ws := []) (m := c!"*") (r := c!" b") ⟨rfl, by simp, .inl rfl, .inr (.inr ⟨_, rfl⟩)⟩ (by simp) e2
  exact .text (c := '#') (t := c!" T") (j := 0) (j' := 2) (by decide) (markerEnd_none.1 (by decide +kernel)) (by decide) (by decide) (by decide) e3

end MF
