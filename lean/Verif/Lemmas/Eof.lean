import Verif.Lemmas.Splits
/-!
# Blank lines at the end of a document

Where sections begin and end does not depend on whether the document stops or blank lines follow, except that an
unclosed fence takes the blank lines and a link reference definition looks at them.
-/

namespace MF

/-- Lines whose last line is neither blank nor a hard break. -/
def Good (L : List Str) : Prop :=
  ∃ front last, L = front ++ [last] ∧ isBlankLine last = false ∧ endsWith last c!"  " = false

/-- Blank lines, at least one. -/
def Blanks (B : List Str) : Prop := B ≠ [] ∧ ∀ b ∈ B, isBlankLine b = true

theorem Good.ne {L : List Str} (h : Good L) : L ≠ [] := by
  obtain ⟨f, l, rfl, _⟩ := h; simp

theorem Good.suffix {a b : List Str} (h : Good (a ++ b)) (hb : b ≠ []) : Good b := by
  obtain ⟨f, l, e, h1, h2⟩ := h
  refine ⟨b.dropLast, b.getLast hb, (List.dropLast_concat_getLast hb).symm, ?_⟩
  have : (a ++ b).getLast? = some l := by rw [e]; simp
  rw [List.getLast?_append, List.getLast?_eq_some_getLast hb] at this
  have := Option.some.inj this
  rw [this]
  exact ⟨h1, h2⟩

theorem Blanks.cons {B : List Str} (h : Blanks B) : ∃ b B', B = b :: B' ∧ isBlankLine b = true := by
  obtain ⟨h1, h2⟩ := h
  cases B with
  | nil => exact absurd rfl h1
  | cons b B' => exact ⟨b, B', rfl, h2 b (by simp)⟩

theorem blank_preds {b : Str} (h : isBlankLine b = true) :
    isTableStart b = false ∧ isSetextUnderline b = false ∧ isQuote b = false ∧ strip b = [] := by
  have hn := (firstCh_none b).2 h
  refine ⟨?_, ?_, ?_, by simpa [isBlankLine] using h⟩
  · cases hq : isTableStart b with
    | false => rfl
    | true => have := isTableStart_first.1 hq; rw [hn] at this; cases this
  · cases hq : isSetextUnderline b with
    | false => rfl
    | true =>
      have hs : strip b = [] := by simpa [isBlankLine] using h
      simp [isSetextUnderline, hs] at hq
  · cases hq : isQuote b with
    | false => rfl
    | true => have := isQuote_first hq; rw [hn] at this; cases this

/-- The two ways a splitter treats blank lines after `L`: it stops inside `L`, the same way without them, or it takes
everything. -/
def Eof (f : List Str → Split) : Prop :=
  ∀ L B a r, Good L → Blanks B → f (L ++ B) = .ok (a, r) →
    (∃ b, a ++ b = L ∧ r = b ++ B ∧ f L = .ok (a, b)) ∨ (a = L ++ B ∧ r = [] ∧ f L = .ok (L, []))

/-- splitters that never take the blank lines -/
def EofS (f : List Str → Split) : Prop :=
  ∀ L B a r, Good L → Blanks B → f (L ++ B) = .ok (a, r) → ∃ b, a ++ b = L ∧ r = b ++ B ∧ f L = .ok (a, b)

theorem EofS.eof {f : List Str → Split} (h : EofS f) : Eof f :=
  fun L B a r hL hB hf => .inl (h L B a r hL hB hf)

theorem single_eofS {p : Str → Bool} {f : List Str → Split}
    (hf : ∀ l ls, f (l :: ls) = if p l then .ok ([l], ls) else .ok ([], l :: ls)) : EofS f := by
  intro L B a r hL hB h
  cases L with
  | nil => exact absurd rfl hL.ne
  | cons l ls =>
    rw [List.cons_append, hf] at h
    rw [hf]
    split at h
    · rename_i hp; cases h; exact ⟨ls, rfl, rfl, by rw [if_pos hp]⟩
    · rename_i hp; cases h; exact ⟨l :: ls, rfl, rfl, by rw [if_neg hp]⟩

theorem splitAtx_eof : EofS splitAtx := single_eofS (fun _ _ => rfl)
theorem splitBlank_eof : EofS splitBlank := single_eofS (fun _ _ => rfl)
theorem splitThematic_eof : EofS splitThematic := single_eofS (fun _ _ => rfl)

theorem listLoop_eof {B : List Str} (hB : Blanks B) (ls : List Str) : ∀ i, listLoop i (ls ++ B) = listLoop i ls := by
  obtain ⟨b, B', rfl, hb⟩ := hB.cons
  induction ls with
  | nil => intro i; simp [listLoop, hb]
  | cons l ls ih => intro i; rw [List.cons_append, listLoop, listLoop, ih]

theorem tableLoop_eof {B : List Str} (hB : Blanks B) (ls : List Str) : ∀ i, tableLoop i (ls ++ B) = tableLoop i ls := by
  obtain ⟨b, B', rfl, hb⟩ := hB.cons
  induction ls with
  | nil => intro i; simp [tableLoop, (blank_preds hb).1]
  | cons l ls ih => intro i; rw [List.cons_append, tableLoop, tableLoop, ih]

theorem indentLoop_eof {B : List Str} (hB : Blanks B) (ls : List Str) : ∀ i c, indentLoop i c (ls ++ B) = indentLoop i c ls := by
  have hnil : ∀ B : List Str, (∀ b ∈ B, isBlankLine b = true) → ∀ i c, indentLoop i c B = c := by
    intro B
    induction B with
    | nil => intro _ i c; rfl
    | cons b B ih =>
      intro h i c
      have hs : strip b = [] := (blank_preds (h b (by simp))).2.2.2
      rw [indentLoop, hs]
      exact ih (fun x hx => h x (by simp [hx])) _ _
  induction ls with
  | nil => intro i c; rw [List.nil_append, hnil B hB.2]; rfl
  | cons l ls ih => intro i c; rw [List.cons_append, indentLoop, indentLoop, ih, ih]

/-- a splitter that cuts at an index inside `L` -/
theorem cut_eof {L B a r : List Str} {k : Nat} (hk : k ≤ L.length) (h1 : a = L.take k) (h2 : r = (L ++ B).drop k) :
    a ++ L.drop k = L ∧ r = L.drop k ++ B := by
  subst h1 h2
  exact ⟨List.take_append_drop .., by rw [List.drop_append_of_le_length hk]⟩

theorem list_eofS {p : Str → Bool} {f : List Str → Split}
    (hf : ∀ l ls, f (l :: ls) = if !p l then .ok ([], l :: ls) else
      .ok (l :: (listLoop 0 ls).1, (l :: ls).drop (listLoop 0 ls).2)) : EofS f := by
  intro L B a r hL hB h
  cases L with
  | nil => exact absurd rfl hL.ne
  | cons l ls =>
    rw [List.cons_append, hf, listLoop_eof hB] at h
    rw [hf]
    split at h
    · rename_i hp; cases h; exact ⟨l :: ls, rfl, rfl, by rw [if_pos hp]⟩
    · rename_i hp
      cases h
      obtain ⟨k, hk, hk2⟩ := listLoop_eq ls 0
      rw [hk, if_neg hp]
      have e : 0 + 1 + k = k + 1 := by omega
      simp only [e]
      refine ⟨(l :: ls).drop (k + 1), ?_, ?_, rfl⟩
      · simp
      · rw [← List.cons_append, List.drop_append_of_le_length (by simp; omega)]

theorem splitBullet_eof : EofS splitBullet := list_eofS (fun _ _ => rfl)
theorem splitOrdered_eof : EofS splitOrdered := list_eofS (fun _ _ => rfl)

theorem splitTable_eof : EofS splitTable := by
  intro L B a r hL hB h
  cases L with
  | nil => exact absurd rfl hL.ne
  | cons l ls =>
    rw [List.cons_append] at h
    simp only [splitTable, tableLoop_eof hB] at h ⊢
    split at h
    · rename_i hp
      cases h
      obtain ⟨k, hk, hk2⟩ := tableLoop_eq ls 0
      rw [hk, if_pos hp]
      have e : 0 + 1 + k = k + 1 := by omega
      simp only [e]
      refine ⟨(l :: ls).drop (k + 1), ?_, ?_, rfl⟩
      · simp
      · rw [← List.cons_append, List.drop_append_of_le_length (by simp; omega)]
    · rename_i hp; cases h; exact ⟨l :: ls, rfl, rfl, by rw [if_neg hp]; rfl⟩

theorem splitIndented_eof : EofS splitIndented := by
  intro L B a r hL hB h
  cases L with
  | nil => exact absurd rfl hL.ne
  | cons l ls =>
    rw [List.cons_append] at h
    simp only [splitIndented, indentLoop_eof hB] at h ⊢
    split at h
    · rename_i hp
      rw [if_pos hp]
      cases h
      have hk : indentLoop 1 1 ls ≤ (l :: ls).length := by
        have : ∀ (ls : List Str) i c, c ≤ i → indentLoop i c ls ≤ i + ls.length := by
          intro ls
          induction ls with
          | nil => intro i c h; exact h
          | cons x xs ih =>
            intro i c h
            rw [indentLoop]
            split
            · have := ih (i + 1) c (by omega); simp; omega
            · split
              · have := ih (i + 1) i (by omega); simp; omega
              · simp; omega
        have := this ls 1 1 (Nat.le_refl _)
        simp; omega
      refine ⟨(l :: ls).drop (indentLoop 1 1 ls), ?_, ?_, ?_⟩
      · rw [← List.cons_append, List.take_append_of_le_length hk, List.take_append_drop]
      · rw [← List.cons_append, List.drop_append_of_le_length hk]
      · rw [← List.cons_append, List.take_append_of_le_length hk]
    · rename_i hp; cases h; exact ⟨l :: ls, rfl, rfl, by rw [if_neg hp]⟩

theorem fenceLoop_eof {F : Str} (hF : F ≠ []) {B : List Str} (hB : Blanks B) (ls : List Str) : ∀ i,
    (∃ k, k ≤ ls.length ∧ fenceLoop F i (ls ++ B) = (ls.take k, i + k) ∧ fenceLoop F i ls = (ls.take k, i + k)) ∨
    (fenceLoop F i (ls ++ B) = (ls ++ B, i + (ls ++ B).length) ∧ fenceLoop F i ls = (ls, i + ls.length)) := by
  have hnil : ∀ B : List Str, (∀ b ∈ B, isBlankLine b = true) → ∀ i, fenceLoop F i B = (B, i + B.length) := by
    intro B
    induction B with
    | nil => intro _ i; rfl
    | cons b B ih =>
      intro h i
      have hs : strip b = [] := (blank_preds (h b (by simp))).2.2.2
      rw [fenceLoop, hs, ih (fun x hx => h x (by simp [hx]))]
      have : (([] : Str) == F) = false := by
        cases F with
        | nil => exact absurd rfl hF
        | cons => rfl
      rw [this]
      simp
      omega
  induction ls with
  | nil => intro i; right; exact ⟨by rw [List.nil_append, hnil B hB.2], rfl⟩
  | cons l ls ih =>
    intro i
    rw [List.cons_append, fenceLoop, fenceLoop]
    by_cases hl : strip l == F
    · left
      refine ⟨1, by simp, ?_, ?_⟩ <;> rw [if_pos hl] <;> simp
    · rw [if_neg hl, if_neg hl]
      rcases ih (i + 1) with ⟨k, hk, h1, h2⟩ | ⟨h1, h2⟩
      · left
        refine ⟨k + 1, by simp; omega, ?_, ?_⟩
        · rw [h1]; simp; omega
        · rw [h2]; simp; omega
      · right
        rw [h1, h2]
        simp
        omega

theorem openFence_ne {l F : Str} (h : openFence l = some F) : F ≠ [] := by
  have key : ∀ f : Char, isWs f = false → startsWith (strip l) (List.replicate 3 f) = true →
      List.replicate ((lstrip l).length - (lstripBy (· == f) (lstrip l)).length) f ≠ [] := by
    intro f hf hs
    obtain ⟨r, hr⟩ := (startsWith_iff _ _).1 hs
    have hne : lstrip l ≠ [] := by
      intro e
      rw [(lstrip_eq_nil_iff_strip l).1 e] at hr
      simp [List.replicate] at hr
    rcases lstrip_head l with h0 | ⟨c, r', h0, hc⟩
    · exact absurd h0 hne
    · have hfc := firstCh_strip l
      rw [hr] at hfc
      unfold firstCh at hfc
      rw [h0] at hfc
      have : c = f := by simpa [List.replicate] using hfc.symm
      subst this
      rw [h0]
      have hlen : (lstripBy (· == c) (c :: r')).length ≤ r'.length := by
        unfold lstripBy
        rw [List.dropWhile_cons_of_pos (by simp)]
        exact (List.dropWhile_suffix _).length_le
      intro e
      have := congrArg List.length e
      simp at this
      omega
  unfold openFence at h
  simp only [List.findSome?_cons, List.findSome?_nil] at h
  split at h
  · rename_i x hx
    split at hx
    · rename_i hs
      cases hx
      cases h
      exact key _ (by decide) hs
    · cases hx
  · split at h
    · rename_i x hx
      split at hx
      · rename_i hs
        cases hx
        cases h
        exact key _ (by decide) hs
      · cases hx
    · cases h

theorem splitFenced_eof : Eof splitFenced := by
  intro L B a r hL hB h
  cases L with
  | nil => exact absurd rfl hL.ne
  | cons l ls =>
    rw [List.cons_append] at h
    simp only [splitFenced] at h ⊢
    cases hF : openFence l with
    | none =>
      rw [hF] at h
      cases h
      exact .inl ⟨l :: ls, rfl, rfl, rfl⟩
    | some F =>
      rw [hF] at h
      simp only at h ⊢
      rcases fenceLoop_eof (openFence_ne hF) hB ls 0 with ⟨k, hk, h1, h2⟩ | ⟨h1, h2⟩
      · rw [h1] at h
        cases h
        left
        rw [h2]
        refine ⟨(l :: ls).drop (0 + k + 1), ?_, ?_, rfl⟩
        · simp
        · rw [← List.cons_append, List.drop_append_of_le_length (by simp; omega)]
      · rw [h1] at h
        cases h
        right
        rw [h2]
        refine ⟨rfl, ?_, ?_⟩
        · simp
        · simp


/-! ## Paragraphs -/

theorem anySplits_eof {fs : List (List Str → Split)} (hfs : ∀ f ∈ fs, Eof f) {L B : List Str} (hL : Good L)
    (hB : Blanks B) {v : Bool} (h : anySplits (L ++ B) fs = .ok v) : anySplits L fs = .ok v := by
  induction fs with
  | nil => exact h
  | cons f fs ih =>
    simp only [anySplits, bind, Except.bind] at h ⊢
    cases hf : f (L ++ B) with
    | error e => rw [hf] at h; cases h
    | ok p =>
      obtain ⟨a, r⟩ := p
      rw [hf] at h
      rcases hfs f (by simp) L B a r hL hB hf with ⟨b, h1, h2, h3⟩ | ⟨h1, h2, h3⟩
      · rw [h3]
        simp only at h ⊢
        split at h
        · rename_i hp; rw [if_pos hp]; exact h
        · rename_i hp; rw [if_neg hp]; exact ih (fun g hg => hfs g (by simp [hg])) h
      · rw [h3]
        have e1 : (!(a.isEmpty)) = true := by
          rw [h1]
          cases L with
          | nil => exact absurd rfl hL.ne
          | cons => rfl
        have e2 : (!(L.isEmpty)) = true := by
          cases L with
          | nil => exact absurd rfl hL.ne
          | cons => rfl
        simp only [e1, e2, if_true] at h ⊢
        exact h

theorem isParCont_eof {sbq : List Str → Split} (hs : Eof sbq) {L B : List Str} (hL : Good L) (hB : Blanks B) {v : Bool}
    (h : isParCont sbq (L ++ B) = .ok v) : isParCont sbq L = .ok v := by
  simp only [isParCont, bind, Except.bind] at h ⊢
  split at h
  · cases h
  · rename_i u hu
    rw [anySplits_eof (by
      intro f hf
      simp only [List.mem_cons, List.not_mem_nil, or_false] at hf
      rcases hf with rfl | rfl | rfl | rfl | rfl | rfl | rfl | rfl
      · exact splitAtx_eof.eof
      · exact splitBlank_eof.eof
      · exact hs
      · exact splitBullet_eof.eof
      · exact splitFenced_eof
      · exact splitOrdered_eof.eof
      · exact splitTable_eof.eof
      · exact splitThematic_eof.eof) hL hB hu]
    cases L with
    | nil => exact absurd rfl hL.ne
    | cons l ls => exact h

theorem isParCont_blank {sbq : List Str → Split} {B : List Str} (hB : Blanks B) {v : Bool}
    (h : isParCont sbq B = .ok v) : v = false := by
  obtain ⟨b, B', rfl, hb⟩ := hB.cons
  have hatx : isAtx b = false := by
    cases hq : isAtx b with
    | false => rfl
    | true =>
      have := isAtx_first hq
      rw [(firstCh_none b).2 hb] at this; cases this
  simp only [isParCont, anySplits, splitAtx, splitBlank, hatx, hb, bind, Except.bind] at h
  cases h
  rfl

theorem parLoop_eof {sbq : List Str → Split} (hs : Eof sbq) {B : List Str} (hB : Blanks B) (ls : List Str)
    (hls : ls = [] ∨ Good ls) : ∀ a r, parLoop sbq (ls ++ B) = .ok (a, r) →
      ∃ b, a ++ b = ls ∧ r = b ++ B ∧ parLoop sbq ls = .ok (a, b) := by
  induction ls with
  | nil =>
    intro a r h
    obtain ⟨b, B', rfl, hb⟩ := hB.cons
    rw [List.nil_append] at h
    simp only [parLoop, bind, Except.bind] at h
    split at h
    · cases h
    · rename_i v hv
      rw [isParCont_blank hB hv] at h
      cases h
      exact ⟨[], rfl, rfl, rfl⟩
  | cons l ls ih =>
    intro a r h
    have hg : Good (l :: ls) := by
      rcases hls with h0 | h0
      · cases h0
      · exact h0
    rw [List.cons_append] at h
    simp only [parLoop, bind, Except.bind] at h ⊢
    split at h
    · cases h
    · rename_i v hv
      rw [isParCont_eof hs hg hB (by rw [List.cons_append]; exact hv)]
      simp only
      split at h
      · rename_i hvt
        rw [if_pos hvt]
        split at h
        · rename_i he
          rw [if_pos he]
          cases ls with
          | nil =>
            obtain ⟨f, last, e, _, h2⟩ := hg
            have : [l].getLast? = some last := by rw [e]; simp
            have : l = last := Option.some.inj this
            rw [this, h2] at he
            cases he
          | cons m ms =>
            simp only [List.cons_append] at h
            cases h
            exact ⟨m :: ms, rfl, rfl, rfl⟩
        · rename_i he
          rw [if_neg he]
          split at h
          · cases h
          · rename_i p hp
            cases h
            have hls' : ls = [] ∨ Good ls := by
              by_cases e : ls = []
              · exact .inl e
              · exact .inr (Good.suffix (a := [l]) hg e)
            obtain ⟨b, h1, h2, h3⟩ := ih hls' p.1 p.2 hp
            rw [h3]
            exact ⟨b, by rw [← h1]; rfl, h2, rfl⟩
      · rename_i hvt
        rw [if_neg hvt]
        cases h
        exact ⟨l :: ls, rfl, rfl, rfl⟩

theorem splitParIgn_eof {sbq : List Str → Split} (hs : Eof sbq) : EofS (splitParIgn sbq) := by
  intro L B a r hL hB h
  cases L with
  | nil => exact absurd rfl hL.ne
  | cons l ls =>
    rw [List.cons_append] at h
    simp only [splitParIgn, bind, Except.bind] at h ⊢
    split at h
    · rename_i hp
      rw [if_pos hp]
      split at h
      · rename_i he
        rw [if_pos he]
        cases h
        exact ⟨ls, rfl, rfl, rfl⟩
      · rename_i he
        rw [if_neg he]
        split at h
        · cases h
        · rename_i p hp2
          cases h
          have hls' : ls = [] ∨ Good ls := by
            by_cases e : ls = []
            · exact .inl e
            · exact .inr (Good.suffix (a := [l]) hL e)
          obtain ⟨b, h1, h2, h3⟩ := parLoop_eof hs hB ls hls' p.1 p.2 hp2
          rw [h3]
          exact ⟨b, by rw [← h1]; rfl, h2, rfl⟩
    · rename_i hp
      rw [if_neg hp]
      cases h
      exact ⟨l :: ls, rfl, rfl, rfl⟩

theorem splitPar_eof {sbq : List Str → Split} (hs : Eof sbq) : EofS (splitPar sbq) := by
  intro L B a r hL hB h
  simp only [splitPar, bind, Except.bind] at h ⊢
  split at h
  · cases h
  · rename_i p hp
    obtain ⟨b, h1, h2, h3⟩ := splitParIgn_eof hs L B p.1 p.2 hL hB hp
    rw [h3]
    rw [h2] at h
    cases b with
    | nil =>
      obtain ⟨c, B', rfl, hc⟩ := hB.cons
      simp only [List.nil_append, (blank_preds hc).2.1] at h
      cases h
      exact ⟨[], h1, rfl, rfl⟩
    | cons c b =>
      simp only [List.cons_append] at h ⊢
      split at h
      · rename_i hc
        rw [if_pos hc]
        cases h
        exact ⟨c :: b, h1, rfl, rfl⟩
      · rename_i hc
        rw [if_neg hc]
        cases h
        exact ⟨L, rfl, rfl, rfl⟩

theorem splitSetext_eof {sbq : List Str → Split} (hs : Eof sbq) : EofS (splitSetext sbq) := by
  intro L B a r hL hB h
  simp only [splitSetext, bind, Except.bind] at h ⊢
  split at h
  · cases h
  · rename_i p hp
    obtain ⟨b, h1, h2, h3⟩ := splitParIgn_eof hs L B p.1 p.2 hL hB hp
    rw [h3]
    simp only [h2] at h ⊢
    cases ha : p.1 with
    | nil =>
      rw [ha] at h
      cases h
      exact ⟨L, rfl, rfl, by cases b <;> rfl⟩
    | cons q qs =>
      rw [ha] at h
      cases b with
      | nil =>
        obtain ⟨c, B', rfl, hc⟩ := hB.cons
        simp only [List.nil_append, (blank_preds hc).2.1] at h
        cases h
        exact ⟨L, rfl, rfl, rfl⟩
      | cons c b =>
        simp only [List.cons_append] at h ⊢
        split at h
        · rename_i hc
          rw [if_pos hc]
          cases h
          refine ⟨b, ?_, rfl, rfl⟩
          rw [← h1, ha]
          simp
        · rename_i hc
          rw [if_neg hc]
          cases h
          exact ⟨L, rfl, rfl, rfl⟩

/-! ## Block quotes -/

theorem isQuoteCont_eof {sbq : List Str → Split} (hs : Eof sbq) {L B : List Str} (hL : Good L) (hB : Blanks B) {v : Bool}
    (h : isQuoteCont sbq (L ++ B) = .ok v) : isQuoteCont sbq L = .ok v := by
  simp only [isQuoteCont, bind, Except.bind] at h ⊢
  split at h
  · cases h
  · rename_i u hu
    rw [anySplits_eof (by
      intro f hf
      simp only [List.mem_cons, List.not_mem_nil, or_false] at hf
      rcases hf with rfl | rfl | rfl | rfl | rfl | rfl | rfl | rfl
      · exact splitAtx_eof.eof
      · exact splitBlank_eof.eof
      · exact splitBullet_eof.eof
      · exact splitFenced_eof
      · exact splitOrdered_eof.eof
      · exact (splitSetext_eof hs).eof
      · exact splitTable_eof.eof
      · exact splitThematic_eof.eof) hL hB hu]
    cases L with
    | nil => exact absurd rfl hL.ne
    | cons l ls => exact h

theorem isQuoteCont_blank {sbq : List Str → Split} {B : List Str} (hB : Blanks B) {v : Bool}
    (h : isQuoteCont sbq B = .ok v) : v = false := by
  obtain ⟨b, B', rfl, hb⟩ := hB.cons
  have hatx : isAtx b = false := by
    cases hq : isAtx b with
    | false => rfl
    | true =>
      have := isAtx_first hq
      rw [(firstCh_none b).2 hb] at this; cases this
  simp only [isQuoteCont, anySplits, splitAtx, splitBlank, hatx, hb, bind, Except.bind] at h
  cases h
  rfl

theorem contLoop_eof {sbq : List Str → Split} (hs : Eof sbq) {B : List Str} (hB : Blanks B) (ls : List Str)
    (hls : ls = [] ∨ Good ls) : ∀ first a r, contLoop sbq first (ls ++ B) = .ok (a, r) →
      ∃ b, a ++ b = ls ∧ r = b ++ B ∧ contLoop sbq first ls = .ok (a, b) := by
  induction ls with
  | nil =>
    intro first a r h
    obtain ⟨b, B', rfl, hb⟩ := hB.cons
    rw [List.nil_append] at h
    simp only [contLoop, bind, Except.bind] at h
    split at h
    · cases h
    · rename_i v hv
      rw [isQuoteCont_blank hB hv] at h
      cases h
      exact ⟨[], rfl, rfl, rfl⟩
  | cons l ls ih =>
    intro first a r h
    have hg : Good (l :: ls) := by
      rcases hls with h0 | h0
      · cases h0
      · exact h0
    rw [List.cons_append] at h
    simp only [contLoop, bind, Except.bind] at h ⊢
    split at h
    · cases h
    · rename_i v hv
      rw [isQuoteCont_eof hs hg hB (by rw [List.cons_append]; exact hv)]
      simp only
      split at h
      · rename_i hvt
        rw [if_pos hvt]
        split at h
        · rename_i he
          rw [if_pos he]
          cases h
          exact ⟨l :: ls, rfl, rfl, rfl⟩
        · rename_i he
          rw [if_neg he]
          split at h
          · cases h
          · rename_i p hp
            cases h
            have hls' : ls = [] ∨ Good ls := by
              by_cases e : ls = []
              · exact .inl e
              · exact .inr (Good.suffix (a := [l]) hg e)
            obtain ⟨b, h1, h2, h3⟩ := ih hls' false p.1 p.2 hp
            rw [h3]
            exact ⟨b, by rw [← h1]; rfl, h2, rfl⟩
      · rename_i hvt
        rw [if_neg hvt]
        cases h
        exact ⟨l :: ls, rfl, rfl, rfl⟩

theorem quote_takeWhile {B : List Str} (hB : Blanks B) (ls : List Str) :
    (ls ++ B).takeWhile isQuote = ls.takeWhile isQuote ∧ (ls ++ B).dropWhile isQuote = ls.dropWhile isQuote ++ B := by
  obtain ⟨b, B', rfl, hb⟩ := hB.cons
  have hq := (blank_preds hb).2.2.1
  induction ls with
  | nil => simp [hq]
  | cons l ls ih =>
    rw [List.cons_append, List.takeWhile_cons, List.takeWhile_cons, List.dropWhile_cons, List.dropWhile_cons]
    split
    · exact ⟨by rw [ih.1], ih.2⟩
    · exact ⟨rfl, rfl⟩

theorem quoteLoop_eof {ends : List Str → Except Err Bool} {sbq : List Str → Split} (hs : Eof sbq) {B : List Str}
    (hB : Blanks B) : ∀ fuel fuel' bq ls a r, (ls = [] ∨ Good ls) → ls.length < fuel' →
      quoteLoop ends sbq fuel bq (ls ++ B) = .ok (a, r) →
      ∃ b, a ++ b = bq ++ ls ∧ r = b ++ B ∧ quoteLoop ends sbq fuel' bq ls = .ok (a, b) := by
  intro fuel
  induction fuel with
  | zero => intro fuel' bq ls a r _ _ h; cases h
  | succ fuel ih =>
    intro fuel' bq ls a r hls hf h
    cases fuel' with
    | zero => omega
    | succ fuel' =>
      cases ls with
      | nil =>
        obtain ⟨b, B', rfl, hb⟩ := hB.cons
        rw [List.nil_append] at h
        simp only [quoteLoop, (blank_preds hb).2.2.1] at h
        cases h
        exact ⟨[], by simp, rfl, rfl⟩
      | cons l ls =>
        have hg : Good (l :: ls) := by
          rcases hls with h0 | h0
          · cases h0
          · exact h0
        obtain ⟨t1, t2⟩ := quote_takeWhile hB (l :: ls)
        rw [List.cons_append] at h t1 t2
        simp only [quoteLoop, bind, Except.bind] at h ⊢
        split at h
        · rename_i hq
          rw [if_pos hq]
          cases h
          exact ⟨l :: ls, rfl, rfl, rfl⟩
        · rename_i hq
          rw [if_neg hq]
          rw [t1, t2] at h
          have hdrop : (l :: ls).dropWhile isQuote = [] ∨ Good ((l :: ls).dropWhile isQuote) := by
            by_cases e : (l :: ls).dropWhile isQuote = []
            · exact .inl e
            · refine .inr (Good.suffix (a := (l :: ls).takeWhile isQuote) ?_ e)
              rw [List.takeWhile_append_dropWhile]
              exact hg
          have hlq : isQuote l = true := by simpa using hq
          have hlen : ((l :: ls).dropWhile isQuote).length ≤ ls.length := by
            rw [List.dropWhile_cons, if_pos hlq]
            exact (List.dropWhile_suffix _).length_le
          split at h
          · cases h
          · rename_i v hv
            split at h
            · rename_i hvt
              rw [if_pos hvt]
              split at h
              · cases h
              · rename_i p hp
                obtain ⟨b, h1, h2, h3⟩ := contLoop_eof hs hB _ hdrop true p.1 p.2 hp
                rw [h3]
                simp only
                rw [h2] at h
                have hb : b = [] ∨ Good b := by
                  by_cases e : b = []
                  · exact .inl e
                  · refine .inr ?_
                    rcases hdrop with hd | hd
                    · rw [hd] at h1
                      exact absurd (List.append_eq_nil_iff.1 h1).2 e
                    · rw [← h1] at hd
                      exact hd.suffix e
                have hblen : b.length < fuel' := by
                  have := congrArg List.length h1
                  rw [List.length_append] at this
                  rw [List.length_cons] at hf
                  omega
                obtain ⟨b', g1, g2, g3⟩ := ih fuel' _ b a r hb hblen h
                refine ⟨b', ?_, g2, g3⟩
                rw [g1, List.append_assoc, List.append_assoc, h1, List.takeWhile_append_dropWhile]
            · rename_i hvt
              rw [if_neg hvt]
              cases h
              refine ⟨_, ?_, rfl, rfl⟩
              rw [List.append_assoc, List.takeWhile_append_dropWhile]

theorem splitQuote_eof (n : Nat) : EofS (splitQuote n) := by
  induction n with
  | zero => intro L B a r _ _ h; cases h
  | succ n ih =>
    intro L B a r hL hB h
    obtain ⟨b, h1, h2, h3⟩ := quoteLoop_eof ih.eof hB _ (L.length + 1) [] L a r (.inr hL) (by omega) h
    exact ⟨b, h1, h2, h3⟩

/-! ## Link reference definitions -/

/-- a splitter that agrees whenever it stops before the end of `L` -/
def EofW (f : List Str → Split) : Prop :=
  ∀ L B a r, Good L → Blanks B → f (L ++ B) = .ok (a, r) →
    (∃ b, a ++ b = L ∧ r = b ++ B ∧ f L = .ok (a, b)) ∨ L.length ≤ a.length

theorem closing_nil (q : Char) : (closingRx q).search [] = none := rfl

theorem titleLoop_blanks (q : Char) (c : Bool) (B : List Str) (hB : ∀ b ∈ B, isBlankLine b = true) : ∀ i b,
    isBlankLine b = true → titleLoop q c i b B = (c, i + B.length) := by
  induction B with
  | nil =>
    intro i b hb
    have hs : rstrip b = [] := (rstrip_eq_nil b).2 ((strip_eq_nil b).1 (blank_preds hb).2.2.2)
    rw [titleLoop, hs, closing_nil]
    rfl
  | cons b' B ih =>
    intro i b hb
    have hs : rstrip b = [] := (rstrip_eq_nil b).2 ((strip_eq_nil b).1 (blank_preds hb).2.2.2)
    rw [titleLoop, hs, closing_nil]
    simp only
    rw [ih (fun x hx => hB x (by simp [hx])) _ _ (hB b' (by simp)), List.length_cons]
    simp; omega

theorem titleLoop_eof (q : Char) (c : Bool) {B : List Str} (hB : Blanks B) (gen : List Str) : ∀ i line,
    titleLoop q c i line (gen ++ B) = titleLoop q c i line gen ∨
    (titleLoop q c i line (gen ++ B) = (c, i + gen.length + B.length) ∧
      titleLoop q c i line gen = (c, i + gen.length)) := by
  obtain ⟨b, B', rfl, hb⟩ := hB.cons
  induction gen with
  | nil =>
    intro i line
    rw [List.nil_append]
    simp only [titleLoop]
    split
    · exact .inl rfl
    · right
      refine ⟨?_, rfl⟩
      rw [titleLoop_blanks q c B' (fun x hx => hB.2 x (by simp [hx])) _ _ hb]
      simp; omega
  | cons g gen ih =>
    intro i line
    rw [List.cons_append]
    simp only [titleLoop]
    split
    · exact .inl rfl
    · rcases ih (i + 1) g with h | ⟨h1, h2⟩
      · exact .inl h
      · right
        rw [h1, h2]
        simp; omega

theorem lrdFinish_eof {L B gen : List Str} {c : Bool} {i : Nat} {t : Str} (hB : Blanks B)
    (hi : L.length ≤ i + gen.length + 1) (a r : List Str)
    (h : lrdFinish (L ++ B) c i t (gen ++ B) = .ok (a, r)) :
    (∃ b, a ++ b = L ∧ r = b ++ B ∧ lrdFinish L c i t gen = .ok (a, b)) ∨ L.length ≤ a.length := by
  have hBl : 1 ≤ B.length := by
    obtain ⟨b, B', rfl, hb⟩ := hB.cons
    simp
  have key : ∀ x x' : Bool × Nat, (x = x' ∨ (x = (c, i + gen.length + B.length) ∧ x' = (c, i + gen.length))) →
      (if x.1 then (.ok ((L ++ B).take x.2, (L ++ B).drop x.2) : Split) else .ok ([], L ++ B)) = .ok (a, r) →
      (∃ b, a ++ b = L ∧ r = b ++ B ∧
        (if x'.1 then (.ok (L.take x'.2, L.drop x'.2) : Split) else .ok ([], L)) = .ok (a, b)) ∨
        L.length ≤ a.length := by
    intro x x' hx h
    rcases hx with rfl | ⟨rfl, rfl⟩
    · split at h
      · rename_i hp
        cases h
        by_cases hk : x.2 ≤ L.length
        · left
          rw [if_pos hp, List.take_append_of_le_length hk, List.drop_append_of_le_length hk]
          exact ⟨_, List.take_append_drop _ _, rfl, rfl⟩
        · right
          simp
          omega
      · rename_i hp
        cases h
        rw [if_neg hp]
        exact .inl ⟨L, rfl, rfl, rfl⟩
    · split at h
      · cases h
        right
        simp
        omega
      · rename_i hp
        cases h
        rw [if_neg hp]
        exact .inl ⟨L, rfl, rfl, rfl⟩
  unfold lrdFinish at h ⊢
  refine key _ _ ?_ h
  cases t with
  | nil => exact .inl rfl
  | cons q rest =>
    simp only
    split
    · exact titleLoop_eof q c hB gen i rest
    · exact .inl rfl

theorem splitLrd_eof : EofW splitLrd := by
  intro L B a r hL hB h
  cases L with
  | nil => exact absurd rfl hL.ne
  | cons l0 tail0 =>
    obtain ⟨b, B', rfl, hb⟩ := hB.cons
    have hbs : strip b = [] := (blank_preds hb).2.2.2
    rw [List.cons_append] at h
    simp only [splitLrd] at h ⊢
    split at h
    · rename_i hp
      rw [if_pos hp]
      cases h
      exact .inl ⟨_, rfl, rfl, rfl⟩
    · rename_i hp
      rw [if_neg hp]
      split at h
      · cases h
        exact .inl ⟨_, rfl, rfl, rfl⟩
      · split at h
        · exact lrdFinish_eof (L := l0 :: tail0) hB (by simp) a r h
        · cases tail0 with
          | nil =>
            right
            simp only [List.nil_append, lrdFinish, hbs] at h
            cases b with
            | nil => cases h; simp
            | cons => cases h; simp
          | cons l1 tail1 => exact lrdFinish_eof (L := l0 :: l1 :: tail1) hB (by simp; omega) a r h
        · cases tail0 with
          | nil =>
            right
            simp only [List.nil_append, List.headD_cons, hbs] at h
            simp at h
            cases h.1
            simp
          | cons l1 tail1 =>
            by_cases hq : (startsWith l1 c!"[" || (strip l1).isEmpty) = true
            · rw [if_pos (show (startsWith ((l1 :: tail1 ++ b :: B').headD []) c!"[" ||
                (strip ((l1 :: tail1 ++ b :: B').headD [])).isEmpty) = true from hq)] at h
              rw [if_pos (show (startsWith ((l1 :: tail1).headD []) c!"[" ||
                (strip ((l1 :: tail1).headD [])).isEmpty) = true from hq)]
              cases h
              exact .inl ⟨_, rfl, rfl, rfl⟩
            · rw [if_neg (show ¬(startsWith ((l1 :: tail1 ++ b :: B').headD []) c!"[" ||
                (strip ((l1 :: tail1 ++ b :: B').headD [])).isEmpty) = true from hq)] at h
              rw [if_neg (show ¬(startsWith ((l1 :: tail1).headD []) c!"[" ||
                (strip ((l1 :: tail1).headD [])).isEmpty) = true from hq)]
              simp only [List.cons_append, List.headD_cons] at h ⊢
              split at h
              · cases tail1 with
                | nil =>
                  right
                  simp only [List.nil_append, List.drop_succ_cons, List.drop_zero, lrdFinish, hbs] at h
                  cases b with
                  | nil => cases h; simp
                  | cons => cases h; simp
                | cons l2 tail2 => exact lrdFinish_eof (L := l0 :: l1 :: l2 :: tail2) hB (by simp; omega) a r h
              · exact lrdFinish_eof (L := l0 :: l1 :: tail1) hB (by simp; omega) a r h
              · cases h

/-- as `EofW`; in addition the splitter agrees when it takes exactly `L`, and takes `L` on its own -/
def EofX (f : List Str → Split) : Prop :=
  ∀ L B a r, Good L → Blanks B → f (L ++ B) = .ok (a, r) →
    (∃ b, a ++ b = L ∧ r = b ++ B ∧ f L = .ok (a, b)) ∨ (L.length ≤ a.length ∧ (Good a → splitLrd a ≠ .ok (a, [])))

theorem splitLrd_eofX : EofX splitLrd := by
  intro L B a r hL hB h
  rcases splitLrd_eof L B a r hL hB h with h0 | h0
  · exact .inl h0
  · by_cases hc : Good a ∧ splitLrd a = .ok (a, [])
    · obtain ⟨hg, hs⟩ := hc
      have hk : a ++ r = L ++ B := by
        cases L with
        | nil => exact absurd rfl hL.ne
        | cons l ls => exact splitLrd_keeps l (ls ++ B) a r h
      have ha : a = L ++ B.take (a.length - L.length) := by
        have e := congrArg (List.take a.length) hk
        rw [List.take_left, List.take_append] at e
        rw [e, List.take_of_length_le h0]
        simp
      have hnil : B.take (a.length - L.length) = [] := by
        by_cases e : B.take (a.length - L.length) = []
        · exact e
        · exfalso
          rw [ha] at hg
          obtain ⟨f, l, e1, e2, _⟩ := hg.suffix e
          have : l ∈ B.take (a.length - L.length) := by rw [e1]; simp
          have := hB.2 l (List.mem_of_mem_take this)
          rw [e2] at this
          cases this
      rw [hnil, List.append_nil] at ha
      subst ha
      exact .inl ⟨[], by simp, by rw [List.nil_append]; exact List.append_cancel_left hk, hs⟩
    · exact .inr ⟨h0, fun hg hs => hc ⟨hg, hs⟩⟩

/-! ## Sections -/

theorem firstSection_eof (fs : List (Sec × (List Str → Split)))
    (hfs : ∀ p ∈ fs, EofS p.2 ∨ (p.1 = .fenced ∧ Eof p.2) ∨ (p.1 = .lrd ∧ EofX p.2)) {L B : List Str} (hL : Good L)
    (hB : Blanks B) {ty : Sec} {a r : List Str} (h : firstSection fs (L ++ B) = .ok (ty, a, r)) :
    (∃ b, a ++ b = L ∧ r = b ++ B ∧ firstSection fs L = .ok (ty, a, b)) ∨
    (ty = .fenced ∧ a = L ++ B ∧ r = []) ∨ (ty = .lrd ∧ L.length ≤ a.length ∧ (Good a → splitLrd a ≠ .ok (a, []))) := by
  induction fs with
  | nil => cases h
  | cons p fs ih =>
    obtain ⟨ty', f⟩ := p
    simp only [firstSection, bind, Except.bind] at h ⊢
    cases hf : f (L ++ B) with
    | error e => rw [hf] at h; cases h
    | ok q =>
      obtain ⟨x, y⟩ := q
      rw [hf] at h
      simp only at h
      have hor : (∃ b, x ++ b = L ∧ y = b ++ B ∧ f L = .ok (x, b)) ∨
          (ty' = .fenced ∧ x = L ++ B ∧ y = []) ∨ (ty' = .lrd ∧ L.length ≤ x.length ∧ (Good x → splitLrd x ≠ .ok (x, []))) := by
        rcases hfs (ty', f) (by simp) with h0 | ⟨h1, h0⟩ | ⟨h1, h0⟩
        · exact .inl (h0 L B x y hL hB hf)
        · rcases h0 L B x y hL hB hf with h2 | ⟨h2, h3, _⟩
          · exact .inl h2
          · exact .inr (.inl ⟨h1, h2, h3⟩)
        · rcases h0 L B x y hL hB hf with h2 | h2
          · exact .inl h2
          · exact .inr (.inr ⟨h1, h2⟩)
      rcases hor with ⟨b, h1, h2, h3⟩ | ⟨h1, h2, h3⟩ | ⟨h1, h2, h4⟩
      · rw [h3]
        simp only
        split at h
        · rename_i hx
          rw [if_pos hx]
          cases h
          exact .inl ⟨b, h1, h2, rfl⟩
        · rename_i hx
          rw [if_neg hx]
          have hx0 : x = [] := by simpa using hx
          rw [hx0, List.nil_append] at h1
          subst h1
          rw [h2] at h
          exact ih (fun p hp => hfs p (by simp [hp])) h
      · split at h
        · cases h
          exact .inr (.inl ⟨h1, h2, h3⟩)
        · rename_i hx
          have hx0 : x = [] := by simpa using hx
          rw [hx0] at h2
          exact absurd (List.append_eq_nil_iff.1 h2.symm).1 hL.ne
      · split at h
        · cases h
          exact .inr (.inr ⟨h1, h2, h4⟩)
        · rename_i hx
          have hx0 : x = [] := by simpa using hx
          rw [hx0] at h2
          exact absurd (List.length_eq_zero_iff.1 (Nat.le_zero.1 h2)) hL.ne

theorem splitters_eof (n : Nat) : ∀ p ∈ splitters (splitQuote n),
    EofS p.2 ∨ (p.1 = .fenced ∧ Eof p.2) ∨ (p.1 = .lrd ∧ EofX p.2) := by
  have hq := (splitQuote_eof n).eof
  intro p hp
  simp only [splitters, List.mem_cons, List.not_mem_nil, or_false] at hp
  rcases hp with rfl | rfl | rfl | rfl | rfl | rfl | rfl | rfl | rfl | rfl | rfl | rfl
  · exact .inl splitAtx_eof
  · exact .inl splitBlank_eof
  · exact .inl (splitQuote_eof n)
  · exact .inl splitBullet_eof
  · exact .inr (.inl ⟨rfl, splitFenced_eof⟩)
  · exact .inl splitIndented_eof
  · exact .inr (.inr ⟨rfl, splitLrd_eofX⟩)
  · exact .inl splitOrdered_eof
  · exact .inl (splitPar_eof hq)
  · exact .inl (splitSetext_eof hq)
  · exact .inl splitTable_eof
  · exact .inl splitThematic_eof

/-- the sections of blank lines -/
def blankSecs (B : List Str) : List (Sec × List Str) := B.map fun b => (.blank, [b])

theorem parseLoop_blanks (sbq : List Str → Split) (B : List Str) (hB : ∀ b ∈ B, isBlankLine b = true) : ∀ fuel secs,
    parseLoop sbq fuel B = .ok secs → secs = blankSecs B := by
  induction B with
  | nil => intro fuel secs h; cases fuel <;> cases h <;> rfl
  | cons b B ih =>
    intro fuel secs h
    cases fuel with
    | zero => cases h
    | succ fuel =>
      simp only [parseLoop, firstSection_blank B (hB b (by simp)), bind, Except.bind] at h
      split at h
      · cases h
      · rename_i rest hr
        cases h
        rw [ih (fun x hx => hB x (by simp [hx])) fuel rest hr]
        rfl

/-- **Blank lines at the end.** The sections of a document followed by blank lines are its own sections followed by the
blank lines, unless its last section is an unclosed fence or a link reference definition
that is none when the document stops. -/
theorem parseLoop_eof (n : Nat) {B : List Str} (hB : Blanks B) : ∀ fuel fuel' L secs, L = [] ∨ Good L → L.length ≤ fuel' →
    parseLoop (splitQuote n) fuel (L ++ B) = .ok secs →
    (∃ S, parseLoop (splitQuote n) fuel' L = .ok S ∧ secs = S ++ blankSecs B) ∨
    (∃ S a, secs = S ++ [(.fenced, a)]) ∨
    (∃ S a T, secs = S ++ (.lrd, a) :: blankSecs T ∧ (Good a → splitLrd a ≠ .ok (a, []))) := by
  intro fuel
  induction fuel with
  | zero =>
    intro fuel' L secs hL hf h
    obtain ⟨b, B', rfl, hb⟩ := hB.cons
    cases L <;> cases h
  | succ fuel ih =>
    intro fuel' L secs hL hf h
    cases L with
    | nil =>
      left
      exact ⟨[], by cases fuel' <;> rfl, parseLoop_blanks _ B hB.2 _ _ h⟩
    | cons l ls =>
      have hg : Good (l :: ls) := by
        rcases hL with h0 | h0
        · cases h0
        · exact h0
      cases fuel' with
      | zero => simp at hf
      | succ fuel' =>
        rw [List.cons_append] at h
        simp only [parseLoop, bind, Except.bind] at h ⊢
        cases hs : firstSection (splitters (splitQuote n)) (l :: (ls ++ B)) with
        | error e => rw [hs] at h; cases h
        | ok q =>
          obtain ⟨ty, a, r⟩ := q
          rw [hs] at h
          simp only at h
          have hne : a ≠ [] := (firstSection_keeps (splitters_keep n) hs).2.1
          rcases firstSection_eof _ (splitters_eof n) hg hB (by rw [List.cons_append]; exact hs) with
            ⟨b, h1, h2, h3⟩ | ⟨h1, h2, h3⟩ | ⟨h1, h2, h4⟩
          · rw [h3]
            simp only
            rw [h2] at h
            split at h
            · cases h
            · rename_i rest hr
              cases h
              have hb : b = [] ∨ Good b := by
                by_cases e : b = []
                · exact .inl e
                · rw [← h1] at hg
                  exact .inr (hg.suffix e)
              have hlen : b.length ≤ fuel' := by
                have := congrArg List.length h1
                rw [List.length_append] at this
                have := List.length_pos_iff.2 hne
                simp only [List.length_cons] at *
                omega
              rcases ih fuel' b rest hb hlen hr with ⟨S, g1, g2⟩ | ⟨S, x, g1⟩ | ⟨S, x, T, g1, g2⟩
              · left
                rw [g1]
                exact ⟨(ty, a) :: S, rfl, by rw [g2]; rfl⟩
              · exact .inr (.inl ⟨(ty, a) :: S, x, by rw [g1]; rfl⟩)
              · exact .inr (.inr ⟨(ty, a) :: S, x, T, by rw [g1]; rfl, g2⟩)
          · rw [h3] at h
            right; left
            refine ⟨[], a, ?_⟩
            cases fuel <;> (cases h; rw [h1]; rfl)
          · right; right
            have hk := (firstSection_keeps (splitters_keep n) hs).1
            have hr : ∃ T, r = T ∧ ∀ b ∈ T, isBlankLine b = true := by
              refine ⟨r, rfl, ?_⟩
              intro x hx
              have : r = B.drop (a.length - (l :: ls).length) := by
                have e := congrArg (List.drop a.length) hk
                rw [List.drop_left, ← List.cons_append, List.drop_append] at e
                rw [e, List.drop_of_length_le h2, List.nil_append]
              rw [this] at hx
              exact hB.2 x (List.mem_of_mem_drop hx)
            obtain ⟨T, rfl, hT⟩ := hr
            split at h
            · cases h
            · rename_i rest hr
              cases h
              exact ⟨[], a, _, by rw [parseLoop_blanks _ _ hT _ _ hr, h1]; rfl, h4⟩

end MF
