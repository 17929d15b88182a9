import Verif.Props.Trailing
import Verif.Lemmas.ListMark
/-!
# Lists: C17, C18, C19
-/

namespace MF

/-! ## Splitting a list into entries -/

/-- Fence tracking sees a fence on this line: its first three characters after the indentation are backticks or
tildes. -/
def FenceLine (l : Str) : Prop := ∃ r, lstrip l = '`' :: '`' :: '`' :: r ∨ lstrip l = '~' :: '~' :: '~' :: r

theorem startsWith_three (s : Str) (f : Char) :
    startsWith s (List.replicate 3 f) = true ↔ ∃ r, s = f :: f :: f :: r := by
  simp only [startsWith, List.replicate]
  constructor
  · intro h
    obtain ⟨t, ht⟩ := List.isPrefixOf_iff_prefix.1 h
    exact ⟨t, ht.symm⟩
  · rintro ⟨r, rfl⟩
    exact List.isPrefixOf_iff_prefix.2 ⟨r, rfl⟩

theorem fenceTrack_none {ic : Bool} {ce l : Str} (h : ¬ FenceLine l) : fenceTrack ic ce l = (ic, ce) := by
  unfold fenceTrack
  rw [if_neg]
  intro h1
  simp only [List.any_cons, List.any_nil, Bool.or_false, Bool.or_eq_true, startsWith_three] at h1
  rcases h1 with ⟨r, hr⟩ | ⟨r, hr⟩
  · exact h ⟨r, .inl hr⟩
  · exact h ⟨r, .inr hr⟩

theorem MarkerAt.not_fence {l ws m r : Str} (h : MarkerAt l ws m r) : ¬ FenceLine l := by
  rintro ⟨s, hs⟩
  rw [h.lstrip] at hs
  have hm := h.marker
  have hd : isDigit '`' = false ∧ isDigit '~' = false := by decide
  rcases hm with rfl | rfl | rfl | ⟨ds, hne, hdig, rfl⟩
  · rcases hs with hs | hs <;> simp at hs
  · rcases hs with hs | hs <;> simp at hs
  · rcases hs with hs | hs <;> simp at hs
  · cases ds with
    | nil => exact hne rfl
    | cons d ds =>
      have := hdig d (by simp)
      rcases hs with hs | hs <;> simp at hs
      · rw [hs.1, hd.1] at this; cases this
      · rw [hs.1, hd.2] at this; cases this

/-- Specification of the entries of a list without fences. An entry is a line with a marker and the lines after it
that have no marker or are indented beyond the end of the marker. `k` is where the previous marker ends: the next
entry's marker starts at `k` or before. -/
def EntriesFrom : Nat → List (List Str) → Prop
  | _, [] => True
  | k, e :: es => ∃ head conts ws m r, e = head :: conts ∧ MarkerAt head ws m r ∧ ws.length ≤ k ∧
      (∀ l ∈ conts, ∀ ws' m' r', MarkerAt l ws' m' r' → ws.length + m.length < ws'.length) ∧
      EntriesFrom (ws.length + m.length) es

/-- An entry starts with a line that carries a marker. -/
def StartsWithMarker (e : List Str) : Prop := ∃ l ls ws m r, e = l :: ls ∧ MarkerAt l ws m r

theorem appendToLast_concat (pre : List (List Str)) (e : List Str) (x : Str) :
    appendToLast (pre ++ [e]) x = .ok (pre ++ [e ++ [x]]) := by
  simp [appendToLast]

theorem splitListStep_cases (st : SplitListSt) (line : Str) (pre : List (List Str)) (e : List Str)
    (he : st.entries = pre ++ [e]) :
    ∃ st', splitListStep st line = .ok st' ∧ (st'.inCode, st'.codeEnd) = fenceTrack st.inCode st.codeEnd line ∧
      ((st'.entries = pre ++ [e ++ [line]] ∧ st'.maxIndent = st.maxIndent ∧
          (st'.inCode = false → ∀ ws m r, MarkerAt line ws m r → st.maxIndent < ws.length)) ∨
        ∃ ws m r, MarkerAt line ws m r ∧ st'.entries = pre ++ [e] ++ [[line]] ∧
          st'.maxIndent = ws.length + m.length ∧ st'.inCode = false ∧ ws.length ≤ st.maxIndent) := by
  simp only [splitListStep, bind, Except.bind]
  cases hm : markerEnd? line with
  | none =>
    simp only [he, appendToLast_concat]
    exact ⟨_, rfl, rfl, .inl ⟨rfl, rfl, fun _ ws m r h => absurd h (markerEnd_none.1 hm ws m r)⟩⟩
  | some n =>
    obtain ⟨ws, m, r, hmk, hn⟩ := markerEnd_sound hm
    simp only
    split
    · rename_i hc
      simp only [Bool.and_eq_true, Bool.not_eq_true', decide_eq_true_eq] at hc
      exact ⟨_, rfl, rfl, .inr ⟨ws, m, r, hmk, by rw [he], hn, hc.1, by rw [← hmk.indent]; exact hc.2⟩⟩
    · rename_i hc
      simp only [he, appendToLast_concat]
      refine ⟨_, rfl, rfl, .inl ⟨rfl, rfl, fun hic ws' m' r' h' => ?_⟩⟩
      simp only [Bool.and_eq_true, Bool.not_eq_true', decide_eq_true_eq, not_and] at hc
      have := hc hic
      rw [h'.indent] at this
      omega

theorem splitList_fold (lines : List Str) : ∀ (st : SplitListSt) (pre : List (List Str)) (e : List Str),
    st.entries = pre ++ [e] →
    ∃ st' t more, lines.foldlM splitListStep st = .ok st' ∧ st'.entries = pre ++ (e ++ t) :: more ∧
      t ++ more.flatten = lines ∧ (∀ x ∈ more, StartsWithMarker x) ∧
      (st.inCode = false → (∀ l ∈ lines, ¬ FenceLine l) →
        (∀ l ∈ t, ∀ ws m r, MarkerAt l ws m r → st.maxIndent < ws.length) ∧ EntriesFrom st.maxIndent more) := by
  induction lines with
  | nil =>
    intro st pre e he
    exact ⟨st, [], [], rfl, by simp [he], rfl, by simp, fun _ _ => ⟨by simp, trivial⟩⟩
  | cons l ls ih =>
    intro st pre e he
    obtain ⟨st1, h1, hf, hc⟩ := splitListStep_cases st l pre e he
    rcases hc with ⟨he1, hm1, hd1⟩ | ⟨ws, m, r, hmk, he1, hm1, hic1, hle⟩
    · obtain ⟨st', t, more, h2, h3, h4, h5, h6⟩ := ih st1 pre _ he1
      refine ⟨st', l :: t, more, ?_, by rw [h3]; simp, by rw [← h4]; simp, h5, ?_⟩
      · rw [List.foldlM_cons, h1]; exact h2
      · intro hic hnf
        have hic1 : st1.inCode = false := by
          rw [fenceTrack_none (hnf l (by simp))] at hf
          have := congrArg Prod.fst hf
          exact this.trans hic
        obtain ⟨h7, h8⟩ := h6 hic1 (fun x hx => hnf x (by simp [hx]))
        rw [hm1] at h7 h8
        refine ⟨fun x hx ws m r h => ?_, h8⟩
        rcases List.mem_cons.1 hx with rfl | hx
        · exact hd1 hic1 ws m r h
        · exact h7 x hx ws m r h
    · obtain ⟨st', t, more, h2, h3, h4, h5, h6⟩ := ih st1 (pre ++ [e]) [l] he1
      refine ⟨st', [], (l :: t) :: more, ?_, by rw [h3]; simp, by rw [← h4]; simp, ?_, ?_⟩
      · rw [List.foldlM_cons, h1]; exact h2
      · intro x hx
        rcases List.mem_cons.1 hx with rfl | hx
        · exact ⟨l, t, ws, m, r, rfl, hmk⟩
        · exact h5 x hx
      · intro hic hnf
        obtain ⟨h7, h8⟩ := h6 hic1 (fun x hx => hnf x (by simp [hx]))
        rw [hm1] at h7 h8
        exact ⟨by simp, l, t, ws, m, r, rfl, hmk, hle, h7, h8⟩

/-- What `splitList` gives for lines of which the first has a marker. -/
theorem splitList_spec (l : Str) (ls : List Str) (ws m r : Str) (hmk : MarkerAt l ws m r) :
    ∃ es, splitList (l :: ls) = .ok es ∧ es ≠ [] ∧ es.flatten = l :: ls ∧ (∀ e ∈ es, StartsWithMarker e) ∧
      ((∀ x ∈ ls, ¬ FenceLine x) → EntriesFrom ws.length es) := by
  have hpos : listMarkerEndPos l = .ok (ws.length + m.length) := by
    simp only [listMarkerEndPos, markerEnd_intro hmk]
  have hstep : splitListStep { inCode := false, codeEnd := [], maxIndent := ws.length + m.length, entries := [] } l =
      .ok { inCode := false, codeEnd := [], maxIndent := ws.length + m.length, entries := [[l]] } := by
    simp only [splitListStep, fenceTrack_none hmk.not_fence, markerEnd_intro hmk, bind, Except.bind, hmk.indent]
    rw [if_pos]
    · rfl
    · simp
  obtain ⟨st', t, more, h1, h2, h3, h4, h5⟩ := splitList_fold ls
    { inCode := false, codeEnd := [], maxIndent := ws.length + m.length, entries := [[l]] } [] [l] rfl
  refine ⟨(l :: t) :: more, ?_, by simp, by simp [← h3], ?_, ?_⟩
  · simp only [splitList, bind, Except.bind, hpos, List.foldlM_cons, hstep]
    rw [h1]
    simp only [h2]
    rfl
  · intro e he
    rcases List.mem_cons.1 he with rfl | he
    · exact ⟨l, t, ws, m, r, rfl, hmk⟩
    · exact h4 e he
  · intro hnf
    obtain ⟨h6, h7⟩ := h5 rfl hnf
    exact ⟨l, t, ws, m, r, rfl, hmk, Nat.le_refl _, h6, h7⟩

/-- The specification determines the entries. -/
theorem EntriesFrom.unique (es : List (List Str)) : ∀ (es' : List (List Str)) (k : Nat), EntriesFrom k es → EntriesFrom k es' →
    es.flatten = es'.flatten → es = es' := by
  induction es with
  | nil =>
    intro es' k _ h' e
    cases es' with
    | nil => rfl
    | cons x xs =>
      obtain ⟨head, conts, _, _, _, rfl, _⟩ := h'
      simp at e
  | cons x xs ih =>
    intro es' k h h' e
    cases es' with
    | nil =>
      obtain ⟨head, conts, _, _, _, rfl, _⟩ := h
      simp at e
    | cons y ys =>
      obtain ⟨hd, ct, ws, m, r, rfl, hmk, hle, hct, hrest⟩ := h
      obtain ⟨hd', ct', ws', m', r', rfl, hmk', hle', hct', hrest'⟩ := h'
      simp only [List.flatten_cons, List.cons_append, List.cons.injEq] at e
      obtain ⟨rfl, e⟩ := e
      obtain ⟨rfl, rfl, _⟩ := hmk.unique hmk'
      -- the continuation lines end at the next head
      have key : ∀ (a b : List Str) (p q : List (List Str)) (k : Nat),
          (∀ l ∈ a, ∀ ws' m' r', MarkerAt l ws' m' r' → k < ws'.length) →
          (∀ l ∈ b, ∀ ws' m' r', MarkerAt l ws' m' r' → k < ws'.length) →
          EntriesFrom k p → EntriesFrom k q → a ++ p.flatten = b ++ q.flatten → a = b ∧ p.flatten = q.flatten := by
        intro a
        induction a with
        | nil =>
          intro b p q k _ hb hp hq e
          cases b with
          | nil => exact ⟨rfl, e⟩
          | cons y b =>
            exfalso
            cases p with
            | nil => simp at e
            | cons x p =>
              obtain ⟨hd, ct, ws, m, r, rfl, hmk, hle, _⟩ := hp
              simp only [List.nil_append, List.flatten_cons, List.cons_append, List.cons.injEq] at e
              have := hb y (by simp) ws m r (e.1 ▸ hmk)
              omega
        | cons x a iha =>
          intro b p q k ha hb hp hq e
          cases b with
          | nil =>
            exfalso
            cases q with
            | nil => simp at e
            | cons y q =>
              obtain ⟨hd, ct, ws, m, r, rfl, hmk, hle, _⟩ := hq
              simp only [List.nil_append, List.flatten_cons, List.cons_append, List.cons.injEq] at e
              have := ha x (by simp) ws m r (e.1 ▸ hmk)
              omega
          | cons y b =>
            simp only [List.cons_append, List.cons.injEq] at e
            obtain ⟨h1, h2⟩ := iha b p q k (fun l hl => ha l (by simp [hl])) (fun l hl => hb l (by simp [hl])) hp hq e.2
            exact ⟨by rw [e.1, h1], h2⟩
      obtain ⟨h1, h2⟩ := key ct ct' xs ys _ hct hct' hrest hrest' e
      rw [h1, ih ys _ hrest hrest' h2]

theorem parse_list_first {n : Nat} {lines : List Str} {secs : List (Sec × List Str)} (h : parse n lines = .ok secs)
    {ty : Sec} {content : List Str} (hm : (ty, content) ∈ secs) (hty : ty = .bullet ∨ ty = .ordered) :
    ∃ l ls ws m r, content = l :: ls ∧ MarkerAt l ws m (' ' :: r) ∧
      (ty = .bullet → ∃ c, (c = '*' ∨ c = '+' ∨ c = '-') ∧ m = [c]) ∧
      (ty = .ordered → ∃ ds, ds ≠ [] ∧ (∀ d ∈ ds, isDigit d = true) ∧ m = ds ++ ['.']) := by
  obtain ⟨f, rest, hf, hne, hfs⟩ := parse_section h hm
  cases content with
  | nil => exact absurd rfl hne
  | cons l ls =>
    have := headPred_of_recognises n hf ⟨_, _, hfs, hne⟩
    rcases hty with rfl | rfl
    · obtain ⟨ws, c, r, hc, hmk⟩ := bulletStart_marker this
      exact ⟨l, ls, ws, [c], r, rfl, hmk, fun _ => ⟨c, hc, rfl⟩, fun h => by cases h⟩
    · obtain ⟨ws, ds, r, hne, hd, hmk⟩ := orderedStart_marker this
      exact ⟨l, ls, ws, _, r, rfl, hmk, (fun h => by cases h), fun _ => ⟨ds, hne, hd, rfl⟩⟩

/-- C19: every list section the parser produces splits into entries without an error; the entries concatenated are
the lines of the list, and each starts with a line that carries a marker. -/
theorem C19_entries_partition (n : Nat) (lines : List Str) (secs : List (Sec × List Str))
    (h : parse n lines = .ok secs) (ty : Sec) (content : List Str) (hm : (ty, content) ∈ secs)
    (hty : ty = .bullet ∨ ty = .ordered) :
    ∃ es, splitList content = .ok es ∧ es ≠ [] ∧ es.flatten = content ∧ ∀ e ∈ es, StartsWithMarker e := by
  obtain ⟨l, ls, ws, m, r, rfl, hmk, _⟩ := parse_list_first h hm hty
  obtain ⟨es, h1, h2, h3, h4, _⟩ := splitList_spec l ls ws m _ hmk
  exact ⟨es, h1, h2, h3, h4⟩

/-- C19 in full for lists without fences: the entries are exactly those of the specification `EntriesFrom`. -/
theorem C19_entries_exact (n : Nat) (lines : List Str) (secs : List (Sec × List Str))
    (h : parse n lines = .ok secs) (ty : Sec) (content : List Str) (hm : (ty, content) ∈ secs)
    (hty : ty = .bullet ∨ ty = .ordered) (hnf : ∀ l ∈ content, ¬ FenceLine l) (es : List (List Str)) (k : Nat)
    (hk : ∀ l, content.head? = some l → getIndent l = k) :
    splitList content = .ok es ↔ es.flatten = content ∧ EntriesFrom k es := by
  obtain ⟨l, ls, ws, m, r, rfl, hmk, _⟩ := parse_list_first h hm hty
  obtain ⟨es0, h1, h2, h3, h4, h5⟩ := splitList_spec l ls ws m _ hmk
  have h6 := h5 fun x hx => hnf x (by simp [hx])
  have hk' : ws.length = k := by rw [← hk l rfl, hmk.indent]
  rw [hk'] at h6
  constructor
  · intro h
    rw [h1] at h
    cases h
    exact ⟨h3, h6⟩
  · rintro ⟨h7, h8⟩
    rw [h1, EntriesFrom.unique _ _ _ h6 h8 (by rw [h3, h7])]

/-! ## The shape of a rewritten entry -/

/-- `t` is written as `marker`, a space and text; all further lines are indented by `indent` spaces. -/
def EntryText (marker : Str) (indent : Nat) (t : Str) : Prop :=
  ∃ (first : Str) (conts : List Str), '\n' ∉ first ∧ (∀ c ∈ conts, '\n' ∉ c) ∧
    t = pyJoin ['\n'] ((marker ++ ' ' :: first) :: conts.map (List.replicate indent ' ' ++ ·))

theorem join_indented (p : Str) (ind : Str) (xs : List Str) : ∀ x,
    p ++ pyJoin (['\n'] ++ ind) (x :: xs) = pyJoin ['\n'] ((p ++ x) :: xs.map (ind ++ ·)) := by
  induction xs generalizing p with
  | nil => intro x; simp [pyJoin]
  | cons y ys ih =>
    intro x
    simp only [pyJoin, List.map_cons]
    have := ih ind y
    rw [← this]
    simp only [List.append_assoc]

theorem fmtEntry_text {sub : Width → Str → Except Err Str} {w : Width} {indent : Nat} {marker : Str}
    {entry : List Str} {t : Str} (h : fmtEntry sub w indent marker entry = .ok t) :
    EntryText marker indent t ∧ ∃ body, sub (w.sub indent) (pyJoin ['\n'] entry ++ ['\n']) = .ok body ∧
      t = marker ++ ' ' :: pyJoin ('\n' :: List.replicate indent ' ') (splitChar '\n' (rstripBy (· == '\n') body)) := by
  simp only [fmtEntry, reformatLines, bind, Except.bind] at h
  split at h
  · cases h
  · rename_i body hb
    cases h
    refine ⟨?_, body, hb, by simp⟩
    have hnl : ∀ l ∈ splitChar '\n' (rstripBy (· == '\n') body), '\n' ∉ l := fun l hl hm =>
      (splitChar_mem _ _ l hl _ hm).2 rfl
    have hne := splitChar_ne_nil '\n' (rstripBy (· == '\n') body)
    generalize splitChar '\n' (rstripBy (· == '\n') body) = ls at hnl hne
    cases ls with
    | nil => exact absurd rfl hne
    | cons x xs =>
      exact ⟨x, xs, hnl x (by simp), fun c hc => hnl c (by simp [hc]), by rw [join_indented]; simp⟩

/-- Numbers of digits grow with the number. -/
theorem digitsAux_length_mono : ∀ fuel a b, a ≤ b → b < fuel → (digitsAux fuel a).length ≤ (digitsAux fuel b).length := by
  intro fuel
  induction fuel with
  | zero => intro a b _ h; omega
  | succ fuel ih =>
    intro a b hab hb
    simp only [digitsAux]
    by_cases h1 : b < 10
    · rw [if_pos h1, if_pos (by omega)]; simp
    · rw [if_neg h1]
      by_cases h2 : a < 10
      · rw [if_pos h2]; simp
      · rw [if_neg h2]
        simp only [List.length_append, List.length_singleton]
        have := ih (a / 10) (b / 10) (Nat.div_le_div_right hab) (by omega)
        omega

theorem digitsAux_fuel : ∀ fuel n, n < fuel → digitsAux fuel n = digitsAux (n + 1) n := by
  intro fuel
  induction fuel using Nat.strongRecOn with
  | _ fuel ih =>
    intro n h
    cases fuel with
    | zero => omega
    | succ fuel =>
      simp only [digitsAux]
      by_cases h1 : n < 10
      · rw [if_pos h1, if_pos h1]
      · rw [if_neg h1, if_neg h1]
        congr 1
        by_cases h2 : n = fuel
        · rw [h2]
        · rw [ih fuel (by omega) (n / 10) (by omega), ih n (by omega) (n / 10) (by omega)]

theorem natStr_length_mono {a b : Nat} (h : a ≤ b) : (natStr a).length ≤ (natStr b).length := by
  unfold natStr
  rw [← digitsAux_fuel (b + 1) a (by omega)]
  exact digitsAux_length_mono _ _ _ h (by omega)

theorem digit_ofNat (d : Nat) (h : d < 10) : isDigit (Char.ofNat (48 + d)) = true ∧ (Char.ofNat (48 + d)).toNat - 48 = d := by
  have : ∀ d < 10, isDigit (Char.ofNat (48 + d)) = true ∧ (Char.ofNat (48 + d)).toNat - 48 = d := by decide
  exact this d h

theorem natStr_spec (n : Nat) : natStr n ≠ [] ∧ (∀ c ∈ natStr n, isDigit c = true) ∧ parseNat (natStr n) = n := by
  have key : ∀ fuel n, n < fuel → digitsAux fuel n ≠ [] ∧ (∀ c ∈ digitsAux fuel n, isDigit c = true) ∧
      parseNat (digitsAux fuel n) = n := by
    intro fuel
    induction fuel with
    | zero => intro n h; omega
    | succ fuel ih =>
      intro n h
      simp only [digitsAux]
      split
      · rename_i h1
        obtain ⟨h2, h3⟩ := digit_ofNat n h1
        exact ⟨by simp, by simpa using h2, by simpa [parseNat] using h3⟩
      · rename_i h1
        obtain ⟨h2, h3⟩ := digit_ofNat (n % 10) (Nat.mod_lt _ (by decide))
        obtain ⟨h4, h5, h6⟩ := ih (n / 10) (by omega)
        refine ⟨by simp, ?_, ?_⟩
        · intro c hc
          rcases List.mem_append.1 hc with hc | hc
          · exact h5 c hc
          · simp at hc; rw [hc]; exact h2
        · simp only [parseNat] at h6
          simp only [parseNat, List.foldl_append, List.foldl_cons, List.foldl_nil, h3, h6]
          omega
  exact key (n + 1) n (by omega)

/-- `xs` and `ys` have the same length and `R k x y` holds for the elements `x`, `y` at position `k`. -/
def PairedFrom {α β : Type} (R : Nat → α → β → Prop) : Nat → List α → List β → Prop
  | _, [], [] => True
  | k, x :: xs, y :: ys => R k x y ∧ PairedFrom R (k + 1) xs ys
  | _, _, _ => False

theorem PairedFrom.length {α β : Type} {R : Nat → α → β → Prop} (xs : List α) : ∀ {k : Nat} {ys : List β},
    PairedFrom R k xs ys → xs.length = ys.length := by
  induction xs with
  | nil => intro k ys h; cases ys with | nil => rfl | cons => exact h.elim
  | cons x xs ih =>
    intro k ys h
    cases ys with
    | nil => exact h.elim
    | cons y ys => simp [ih h.2]

theorem PairedFrom.imp {α β : Type} {R S : Nat → α → β → Prop} (xs : List α) : ∀ {k : Nat} {ys : List β},
    (∀ j x y, k ≤ j → j < k + xs.length → R j x y → S j x y) → PairedFrom R k xs ys → PairedFrom S k xs ys := by
  induction xs with
  | nil => intro k ys _ h; cases ys with | nil => trivial | cons => exact h.elim
  | cons x xs ih =>
    intro k ys hi h
    cases ys with
    | nil => exact h.elim
    | cons y ys =>
      exact ⟨hi k x y (Nat.le_refl _) (by simp) h.1,
        ih (fun j a b h1 h2 => hi j a b (by omega) (by simp only [List.length_cons]; omega)) h.2⟩

/-- What a rewritten entry is made of: the source entry `e` (with its marker and one character after it taken off,
and the continuation lines moved left accordingly) is rewritten on its own, to width `w` less `indent`; the text is
the marker, a space and the result, whose further lines are indented by `indent`. -/
def Rewrites (sub : Width → Str → Except Err Str) (w : Width) (indent : Nat) (marker : Str) (e : List Str)
    (t : Str) : Prop :=
  EntryText marker indent t ∧ ∃ d body, dedentEntry e = .ok d ∧
    sub (w.sub indent) (pyJoin ['\n'] d ++ ['\n']) = .ok body ∧
    t = marker ++ ' ' :: pyJoin ('\n' :: List.replicate indent ' ') (splitChar '\n' (rstripBy (· == '\n') body))

theorem dedentEntries_paired (es : List (List Str)) : ∀ ds, dedentEntries es = .ok ds →
    ∀ k, PairedFrom (fun _ e d => dedentEntry e = .ok d) k es ds := by
  induction es with
  | nil => intro ds h k; cases h; trivial
  | cons e es ih =>
    intro ds h k
    obtain ⟨d, ds', h1, h2, rfl⟩ := mapM_cons_ok h
    exact ⟨h1, ih ds' h2 _⟩

theorem PairedFrom.comp {α β γ : Type} {R : Nat → α → β → Prop} {S : Nat → β → γ → Prop} (xs : List α) :
    ∀ {k : Nat} {ys : List β} {zs : List γ}, PairedFrom R k xs ys → PairedFrom S k ys zs →
      PairedFrom (fun j x z => ∃ y, R j x y ∧ S j y z) k xs zs := by
  induction xs with
  | nil =>
    intro k ys zs h1 h2
    cases ys with
    | nil => cases zs with | nil => trivial | cons => exact h2.elim
    | cons => exact h1.elim
  | cons x xs ih =>
    intro k ys zs h1 h2
    cases ys with
    | nil => exact h1.elim
    | cons y ys =>
      cases zs with
      | nil => exact h2.elim
      | cons z zs => exact ⟨⟨y, h1.1, h2.1⟩, ih h1.2 h2.2⟩

/-- C18: a rewritten bullet list is made of one text for every entry of the source list, in order; each starts with
the marker of the first entry and a space, and its further lines are indented by two spaces. -/
theorem C18_bullet_list (sub : Width → Str → Except Err Str) (w : Width) (i : Nat) (l : Str) (ls : List Str)
    (out : Str) (hfirst : isBulletStart l = true) (h : fmtSection sub w i .bullet (l :: ls) = .ok out) :
    ∃ (ws : Str) (c : Char) (r : Str) (es : List (List Str)) (texts : List Str),
      l = ws ++ c :: ' ' :: r ∧ (∀ x ∈ ws, isWs x = true) ∧ (c = '*' ∨ c = '+' ∨ c = '-') ∧
      splitList (l :: ls) = .ok es ∧ out = pyJoin ['\n'] texts ∧
      PairedFrom (fun _ e t => Rewrites sub w 2 [c] e t) 0 es texts := by
  obtain ⟨ws, c, r, hc, hmk⟩ := bulletStart_marker hfirst
  have hl := hmk.lstrip
  simp only [fmtSection, fmtBullet, bind, Except.bind] at h
  split at h
  · cases h
  · rename_i es hes
    split at h
    · cases h
    · rename_i ds hds
      rw [hl] at h
      simp only [List.singleton_append] at h
      split at h
      · cases h
      · rename_i ts hts
        cases h
        refine ⟨ws, c, r, es, ts, by simpa using hmk.eq, hmk.ws, hc, hes, rfl, ?_⟩
        have hp : ∀ ds ts k, fmtBulletEntries sub w [c] ds = .ok ts →
            PairedFrom (fun _ d t => fmtEntry sub w 2 [c] d = .ok t) k ds ts := by
          intro ds
          induction ds with
          | nil => intro ts k h; cases h; trivial
          | cons d ds ih =>
            intro ts k h
            simp only [fmtBulletEntries, bind, Except.bind] at h
            split at h
            · cases h
            · rename_i t1 h1
              split at h
              · cases h
              · rename_i ts1 h2
                cases h
                exact ⟨h1, ih ts1 _ h2⟩
        refine PairedFrom.imp _ ?_ ((dedentEntries_paired es ds hds 0).comp _ (hp ds ts 0 hts))
        rintro j e t _ _ ⟨d, h1, h2⟩
        obtain ⟨h3, body, h4, h5⟩ := fmtEntry_text h2
        exact ⟨h3, d, body, h1, h4, h5⟩

/-- C17: a rewritten ordered list is made of one text for every entry of the source list, in order. With `first` the
number of the first entry, the `k`-th text (from 0) starts with the decimal form of `first + k`, a full stop and a
space; all further lines of all texts are indented by the same number of spaces, which is the length of the longest
such marker with its space. -/
theorem C17_ordered_list (sub : Width → Str → Except Err Str) (w : Width) (i : Nat) (l : Str) (ls : List Str)
    (out : Str) (hfirst : isOrderedStart l = true) (h : fmtSection sub w i .ordered (l :: ls) = .ok out) :
    ∃ (ws digits r : Str) (es : List (List Str)) (texts : List Str) (indent : Nat),
      l = ws ++ (digits ++ '.' :: ' ' :: r) ∧ (∀ x ∈ ws, isWs x = true) ∧ digits ≠ [] ∧
      (∀ d ∈ digits, isDigit d = true) ∧
      splitList (l :: ls) = .ok es ∧ out = pyJoin ['\n'] texts ∧
      PairedFrom (fun k e t => Rewrites sub w indent (natStr (parseNat digits + k) ++ ['.']) e t) 0 es texts ∧
      (∀ k < es.length, (natStr (parseNat digits + k) ++ c!". ").length ≤ indent) ∧
      (∃ k < es.length, (natStr (parseNat digits + k) ++ c!". ").length = indent) := by
  obtain ⟨ws, digits, r, hdne, hd, hmk⟩ := orderedStart_marker hfirst
  have hl := hmk.lstrip
  obtain ⟨es, hes, hesne, _⟩ := splitList_spec l ls _ _ _ hmk
  have hfn : firstNumber l = .ok (parseNat digits) := by
    simp only [firstNumber, hl]
    have h1 : lstripBy isDigit (digits ++ ['.'] ++ ' ' :: r) = '.' :: ' ' :: r := by
      unfold lstripBy
      rw [List.append_assoc, dropWhile_append_all _ _ _ hd]
      rfl
    have h2 : (digits ++ ['.'] ++ ' ' :: r).length - ('.' :: ' ' :: r).length = digits.length := by
      simp
    rw [h1, h2]
    have h3 : (digits ++ ['.'] ++ ' ' :: r).take digits.length = digits := by simp
    rw [h3, if_neg]
    simpa using hdne
  have hpos : 0 < es.length := by cases es with | nil => exact absurd rfl hesne | cons => simp
  simp only [fmtSection, fmtOrdered, bind, Except.bind, hes, hfn] at h
  split at h
  · cases h
  · rename_i ds hds
    split at h
    · cases h
    · rename_i ts hts
      cases h
      refine ⟨ws, digits, r, es, ts, (natStr (parseNat digits + es.length - 1)).length + 2, by simpa using hmk.eq,
        hmk.ws, hdne, hd, hes, rfl, ?_, ?_, es.length - 1, by omega, ?_⟩
      · have hp : ∀ ind ds ts k, fmtOrderedEntries sub w ind (parseNat digits + k) ds = .ok ts →
            PairedFrom (fun j d t => fmtEntry sub w ind (natStr (parseNat digits + j) ++ ['.']) d = .ok t) k ds ts := by
          intro ind ds
          induction ds with
          | nil => intro ts k h; cases h; trivial
          | cons d ds ih =>
            intro ts k h
            simp only [fmtOrderedEntries, bind, Except.bind] at h
            split at h
            · cases h
            · rename_i t1 h1
              split at h
              · cases h
              · rename_i ts1 h2
                cases h
                exact ⟨h1, ih ts1 _ h2⟩
        refine PairedFrom.imp _ ?_ ((dedentEntries_paired es ds hds 0).comp _ (hp _ ds ts 0 hts))
        rintro j e t _ _ ⟨d, h1, h2⟩
        obtain ⟨h3, body, h4, h5⟩ := fmtEntry_text h2
        exact ⟨h3, d, body, h1, h4, h5⟩
      · intro k hk
        have := natStr_length_mono (a := parseNat digits + k) (b := parseNat digits + es.length - 1) (by omega)
        simp only [List.length_append, List.length_cons, List.length_nil]
        omega
      · have : parseNat digits + (es.length - 1) = parseNat digits + es.length - 1 := by omega
        rw [this]
        simp

/-! ## Splitting the rewritten list again -/

theorem EntryText.lines {marker : Str} {indent : Nat} {t : Str} (hm : '\n' ∉ marker) (h : EntryText marker indent t) :
    ∃ (first : Str) (conts : List Str), splitChar '\n' t = (marker ++ ' ' :: first) :: conts.map (List.replicate indent ' ' ++ ·) := by
  obtain ⟨first, conts, h1, h2, rfl⟩ := h
  refine ⟨first, conts, splitChar_join _ _ ?_ (by simp)⟩
  intro l hl
  rcases List.mem_cons.1 hl with rfl | hl
  · simp only [List.mem_append, List.mem_cons, not_or]
    exact ⟨hm, by decide, h1⟩
  · obtain ⟨c, hc, rfl⟩ := List.mem_map.1 hl
    simp only [List.mem_append, not_or]
    exact ⟨fun h => absurd (List.eq_of_mem_replicate h) (by decide), h2 c hc⟩

theorem splitChar_pyJoin (sep : Char) (ts : List Str) (h : ts ≠ []) :
    splitChar sep (pyJoin [sep] ts) = (ts.map (splitChar sep)).flatten := by
  induction ts with
  | nil => exact absurd rfl h
  | cons t ts ih =>
    cases ts with
    | nil => simp [pyJoin]
    | cons u us =>
      have := ih (by simp)
      simp only [pyJoin, List.append_assoc, List.singleton_append]
      rw [splitChar_append, this]
      simp

/-- Texts of entries, each with its own marker shorter than the common indentation, are the entries of what they
make up together. -/
theorem entries_of_texts (mk : Nat → Str) (indent : Nat) (hmk : ∀ k, IsMarker (mk k)) (hnl : ∀ k, '\n' ∉ mk k)
    (texts : List Str) : ∀ (n : Nat) (es : List (List Str)) (b : Nat),
    (∀ k, n ≤ k → k < n + es.length → (mk k).length < indent) →
    PairedFrom (fun k _ t => EntryText (mk k) indent t) n es texts →
    EntriesFrom b (texts.map (splitChar '\n')) := by
  induction texts with
  | nil => intro n es b _ _; trivial
  | cons t ts ih =>
    intro n es b hlen h
    cases es with
    | nil => exact h.elim
    | cons e es =>
      obtain ⟨first, conts, hl⟩ := h.1.lines (hnl n)
      refine ⟨_, _, [], mk n, ' ' :: first, hl, ⟨rfl, by simp, hmk n, .inr (.inr ⟨_, rfl⟩)⟩, by simp, ?_, ?_⟩
      · intro l hl ws' m' r' hm'
        obtain ⟨c, hc, rfl⟩ := List.mem_map.1 hl
        have h1 := hlen n (Nat.le_refl _) (by simp)
        have h2 := hm'.indent
        have h3 : indent ≤ getIndent (List.replicate indent ' ' ++ c) := by
          simp only [getIndent]
          rw [lstrip_append_ws _ _ (fun x hx => by rw [List.eq_of_mem_replicate hx]; decide)]
          have : (lstrip c).length ≤ c.length := by
            obtain ⟨t, ht, _⟩ := lstrip_split c
            have := congrArg List.length ht
            simp at this
            omega
          simp
          omega
        simp
        omega
      · exact ih (n + 1) es _ (fun k h1 h2 => hlen k (by omega) (by simp only [List.length_cons]; omega)) h.2

theorem splitlines_of_nl {s : Str} (hn : ∀ c ∈ s, isLB c = true → c = '\n')
    (hlast : (splitChar '\n' s).getLast? ≠ some []) : splitlines s = splitChar '\n' s := by
  have hparts : ∀ x ∈ splitChar '\n' s, NoLB x := by
    intro x hx c hc
    obtain ⟨h1, h2⟩ := splitChar_mem _ _ x hx c hc
    cases h3 : isLB c with
    | false => rfl
    | true => exact absurd (hn c h1 h3) h2
  have hj := pyJoin_splitChar '\n' s
  conv => lhs; rw [← hj]
  exact splitlines_join _ hparts hlast

/-- A list that was put together from texts with markers `mk k` splits into exactly those texts, if no line of it is
taken for a fence. -/
theorem resplit (mk : Nat → Str) (indent : Nat) (hmk : ∀ k, IsMarker (mk k)) (hnl : ∀ k, '\n' ∉ mk k)
    (es : List (List Str)) (texts : List Str) (out : Str) (hne : es ≠ [])
    (hlen : ∀ k < es.length, (mk k).length < indent)
    (h : PairedFrom (fun k _ t => EntryText (mk k) indent t) 0 es texts) (hout : out = pyJoin ['\n'] texts)
    (hlb : ∀ c ∈ out, isLB c = true → c = '\n') (hnf : ∀ l ∈ splitlines out, ¬ FenceLine l) :
    splitList (splitlines out) = .ok (texts.map splitlines) := by
  have hlen' := h.length
  have htne : texts ≠ [] := by intro h0; rw [h0] at hlen'; exact hne (List.length_eq_zero_iff.1 hlen')
  have hent := entries_of_texts mk indent hmk hnl texts 0 es 0 (fun k _ h => hlen k (by omega)) h
  have hsplit := splitChar_pyJoin '\n' texts htne
  rw [← hout] at hsplit
  -- no line is empty
  have hall : ∀ (n : Nat) (es : List (List Str)) (ts : List Str), (∀ k, n ≤ k → k < n + es.length → (mk k).length < indent) →
      PairedFrom (fun k _ t => EntryText (mk k) indent t) n es ts → ∀ t ∈ ts, ∀ l ∈ splitChar '\n' t, l ≠ [] := by
    intro n es ts
    induction ts generalizing n es with
    | nil => intro _ _ t ht; cases ht
    | cons t ts ih =>
      intro hlen h u hu l hl
      cases es with
      | nil => exact h.elim
      | cons e es =>
        rcases List.mem_cons.1 hu with rfl | hu
        · obtain ⟨first, conts, hls⟩ := h.1.lines (hnl n)
          rw [hls] at hl
          rcases List.mem_cons.1 hl with rfl | hl
          · simp
          · obtain ⟨c, _, rfl⟩ := List.mem_map.1 hl
            have := hlen n (Nat.le_refl _) (by simp)
            have : indent ≠ 0 := by omega
            simp [this]
        · exact ih (n + 1) es (fun k h1 h2 => hlen k (by omega) (by simp only [List.length_cons]; omega)) h.2 u hu l hl
  have hall' := hall 0 es texts (fun k _ h => hlen k (by omega)) h
  have hlast : ∀ ls : List Str, (∀ l ∈ ls, l ≠ []) → ls.getLast? ≠ some [] := by
    intro ls hls h0
    exact hls [] (List.mem_of_getLast? h0) rfl
  have hlines : splitlines out = (texts.map (splitChar '\n')).flatten := by
    rw [← hsplit]
    apply splitlines_of_nl hlb
    apply hlast
    rw [hsplit]
    intro l hl
    obtain ⟨x, hx, hlx⟩ := List.mem_flatten.1 hl
    obtain ⟨t, ht, rfl⟩ := List.mem_map.1 hx
    exact hall' t ht l hlx
  have htexts : texts.map splitlines = texts.map (splitChar '\n') := by
    apply List.map_congr_left
    intro t ht
    refine splitlines_of_nl (fun c hc => hlb c ?_) (hlast _ (hall' t ht))
    rw [hout]
    clear hlb hout hlines hsplit hent h hlen' hall hall'
    induction texts with
    | nil => cases ht
    | cons x xs ih =>
      cases xs with
      | nil => simp at ht; subst ht; simpa [pyJoin] using hc
      | cons y ys =>
        simp only [pyJoin, List.mem_append]
        rcases List.mem_cons.1 ht with rfl | ht
        · exact .inl (.inl hc)
        · exact .inr (ih (by simp) ht)
  rw [htexts]
  cases hts : texts.map (splitChar '\n') with
  | nil => simp at hts; exact absurd hts htne
  | cons x xs =>
    rw [hts] at hent hlines
    have hent0 := hent
    obtain ⟨hd, ct, ws, m, r, rfl, hm, hle, hct, hrest⟩ := hent
    rw [hlines] at hnf ⊢
    simp only [List.flatten_cons, List.cons_append] at hnf ⊢
    obtain ⟨es1, h1, h2, h3, h4, h5⟩ := splitList_spec hd (ct ++ xs.flatten) ws m r hm
    have h6 := h5 fun x hx => hnf x (by simp only [List.mem_cons]; exact .inr hx)
    have hws : ws.length = 0 := by omega
    rw [hws] at h6
    rw [h1, EntriesFrom.unique _ _ _ h6 hent0 (by rw [h3]; simp)]

/-- C18, counted on the rewritten list: split again, it has as many entries as the source list, if no line of it is
taken for a fence. -/
theorem C18_entry_count (sub : Width → Str → Except Err Str) (w : Width) (i : Nat) (l : Str) (ls : List Str)
    (out : Str) (es : List (List Str)) (hfirst : isBulletStart l = true)
    (h : fmtSection sub w i .bullet (l :: ls) = .ok out) (hes : splitList (l :: ls) = .ok es)
    (hlb : ∀ c ∈ out, isLB c = true → c = '\n') (hnf : ∀ l ∈ splitlines out, ¬ FenceLine l) :
    ∃ es', splitList (splitlines out) = .ok es' ∧ es'.length = es.length := by
  obtain ⟨ws, c, r, es1, texts, hl, hws, hc, hes1, hout, hp⟩ := C18_bullet_list sub w i l ls out hfirst h
  rw [hes] at hes1
  cases hes1
  obtain ⟨_, _, _, _, hmk⟩ := bulletStart_marker hfirst
  obtain ⟨es2, h1, h2, _⟩ := splitList_spec l ls _ _ _ hmk
  rw [hes] at h1
  cases h1
  have hmk' : IsMarker [c] := by
    rcases hc with rfl | rfl | rfl
    · exact .inl rfl
    · exact .inr (.inr (.inl rfl))
    · exact .inr (.inl rfl)
  have hnl : '\n' ∉ [c] := by rcases hc with rfl | rfl | rfl <;> decide
  have := resplit (fun _ => [c]) 2 (fun _ => hmk') (fun _ => hnl) es texts out h2 (by simp)
    (PairedFrom.imp _ (fun _ _ _ _ _ h => h.1) hp) hout hlb hnf
  exact ⟨_, this, by simp [hp.length]⟩

/-- C17, counted on the rewritten list. -/
theorem C17_entry_count (sub : Width → Str → Except Err Str) (w : Width) (i : Nat) (l : Str) (ls : List Str)
    (out : Str) (es : List (List Str)) (hfirst : isOrderedStart l = true)
    (h : fmtSection sub w i .ordered (l :: ls) = .ok out) (hes : splitList (l :: ls) = .ok es)
    (hlb : ∀ c ∈ out, isLB c = true → c = '\n') (hnf : ∀ l ∈ splitlines out, ¬ FenceLine l) :
    ∃ es', splitList (splitlines out) = .ok es' ∧ es'.length = es.length := by
  obtain ⟨ws, ds, r, es1, texts, indent, hl, hws, hne, hd, hes1, hout, hp, hle, _⟩ :=
    C17_ordered_list sub w i l ls out hfirst h
  rw [hes] at hes1
  cases hes1
  obtain ⟨_, _, _, _, _, hmk⟩ := orderedStart_marker hfirst
  obtain ⟨es2, h1, h2, _⟩ := splitList_spec l ls _ _ _ hmk
  rw [hes] at h1
  cases h1
  have := resplit (fun k => natStr (parseNat ds + k) ++ ['.']) indent
    (fun k => .inr (.inr (.inr ⟨_, (natStr_spec _).1, (natStr_spec _).2.1, rfl⟩)))
    (fun k hm => by
      rcases List.mem_append.1 hm with hm | hm
      · exact natStr_no_nl _ hm
      · revert hm; decide) es texts out h2
    (fun k hk => by
      have := hle k hk
      simp only [List.length_append, List.length_cons, List.length_nil] at this ⊢
      omega)
    (PairedFrom.imp _ (fun _ _ _ _ _ h => h.1) hp) hout hlb hnf
  exact ⟨_, this, by simp [hp.length]⟩

/-! ## Concrete cases -/

/-- A list with nesting, as the parser produces it, and its entries (C19). -/
example : parse 3 (splitlines c!"- a\n  - b\n - c\nd\n") = .ok [(.bullet, [c!"- a", c!"  - b", c!" - c", c!"d"])] ∧
    splitList [c!"- a", c!"  - b", c!" - c", c!"d"] = .ok [[c!"- a", c!"  - b"], [c!" - c", c!"d"]] := by decide +kernel

/-- Misnumbered entries across a power of ten (C17): both continuation lines are indented by four. -/
example : reformatMarkdownText 5 (.fin 80) c!"9. a\n   - x\n9. b\n   - y\n" =
    .ok c!"9. a\n    - x\n10. b\n    - y\n" := by decide +kernel

/-- Mixed markers (C18). -/
example : reformatMarkdownText 5 (.fin 80) c!"* a\n  - x\n+ b\n- c\n" = .ok c!"* a\n  - x\n* b\n* c\n" := by decide +kernel

/-- The condition on fences in `C18_entry_count` and `C19_entries_exact` is needed: a fence on the line of the marker
is not seen, so its end is taken for a start and the next entry is swallowed. The rewritten list nests `b` under the
first entry, without an error. -/
theorem C18_fence_swallows_entry :
    splitList [c!"- ```", c!"  x", c!"  ```", c!"- b"] = .ok [[c!"- ```", c!"  x", c!"  ```", c!"- b"]] ∧
    reformatMarkdownText 5 (.fin 80) c!"- ```\n  x\n  ```\n- b\n" = .ok c!"- ```\n  x\n  ```\n  - b\n" := by
  decide +kernel

end MF
