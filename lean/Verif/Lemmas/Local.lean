import Verif.Lemmas.Eof
/-!
# What follows a blank line does not influence what precedes it

Two documents that agree up to and including a blank line are cut into the same sections up to that line. Exceptions: a
fence or a title that is still open at the blank line, and indented code that goes on after it.
-/

namespace MF

/-- A splitter stops before the blank line `b` in the same way whatever follows it. -/
def Loc (b : Str) (B1 B2 : List Str) (f : List Str → Split) : Prop :=
  ∀ L a r, L ≠ [] → f (L ++ b :: B1) = .ok (a, r) →
    ∃ r', a ++ r' = L ∧ r = r' ++ b :: B1 ∧ f (L ++ b :: B2) = .ok (a, r' ++ b :: B2)

/-- as `Loc`, or the splitter takes the blank line and recognises its section in both documents -/
def LocW (b : Str) (B1 B2 : List Str) (f : List Str → Split) : Prop :=
  ∀ L a r, L ≠ [] → f (L ++ b :: B1) = .ok (a, r) →
    (∃ r', a ++ r' = L ∧ r = r' ++ b :: B1 ∧ f (L ++ b :: B2) = .ok (a, r' ++ b :: B2)) ∨
    (L.length < a.length ∧ ∃ a' r', f (L ++ b :: B2) = .ok (a', r') ∧ a' ≠ [])

variable {b : Str} {B1 B2 : List Str}

theorem Loc.w {f : List Str → Split} (h : Loc b B1 B2 f) : LocW b B1 B2 f :=
  fun L a r hL hf => .inl (h L a r hL hf)

theorem single_loc {p : Str → Bool} {f : List Str → Split}
    (hf : ∀ l ls, f (l :: ls) = if p l then .ok ([l], ls) else .ok ([], l :: ls)) : Loc b B1 B2 f := by
  intro L a r hL h
  cases L with
  | nil => exact absurd rfl hL
  | cons l ls =>
    rw [List.cons_append, hf] at h
    rw [List.cons_append, hf]
    split at h
    · rename_i hp; cases h; exact ⟨ls, rfl, rfl, by rw [if_pos hp]⟩
    · rename_i hp; cases h; exact ⟨l :: ls, rfl, rfl, by rw [if_neg hp]; rfl⟩

theorem splitAtx_loc : Loc b B1 B2 splitAtx := single_loc (fun _ _ => rfl)
theorem splitBlank_loc : Loc b B1 B2 splitBlank := single_loc (fun _ _ => rfl)
theorem splitThematic_loc : Loc b B1 B2 splitThematic := single_loc (fun _ _ => rfl)

theorem listLoop_loc (hb : isBlankLine b = true) (B ls : List Str) : ∀ i, listLoop i (ls ++ b :: B) = listLoop i ls := by
  induction ls with
  | nil => intro i; simp [listLoop, hb]
  | cons l ls ih => intro i; rw [List.cons_append, listLoop, listLoop, ih]

theorem tableLoop_loc (hb : isBlankLine b = true) (B ls : List Str) :
    ∀ i, tableLoop i (ls ++ b :: B) = tableLoop i ls := by
  induction ls with
  | nil => intro i; simp [tableLoop, (blank_preds hb).1]
  | cons l ls ih => intro i; rw [List.cons_append, tableLoop, tableLoop, ih]

theorem list_loc (hb : isBlankLine b = true) {p : Str → Bool} {f : List Str → Split}
    (hf : ∀ l ls, f (l :: ls) = if !p l then .ok ([], l :: ls) else
      .ok (l :: (listLoop 0 ls).1, (l :: ls).drop (listLoop 0 ls).2)) : Loc b B1 B2 f := by
  intro L a r hL h
  cases L with
  | nil => exact absurd rfl hL
  | cons l ls =>
    rw [List.cons_append, hf, listLoop_loc hb] at h
    rw [List.cons_append, hf, listLoop_loc hb]
    split at h
    · rename_i hp; cases h; exact ⟨l :: ls, rfl, rfl, by rw [if_pos hp]; rfl⟩
    · rename_i hp
      cases h
      obtain ⟨k, hk, hk2⟩ := listLoop_eq ls 0
      rw [hk, if_neg hp]
      have e : 0 + 1 + k = k + 1 := by omega
      simp only [e]
      refine ⟨(l :: ls).drop (k + 1), ?_, ?_, ?_⟩
      · simp
      · rw [← List.cons_append, List.drop_append_of_le_length (by simp; omega)]
      · rw [← List.cons_append, List.drop_append_of_le_length (by simp; omega)]

theorem splitBullet_loc (hb : isBlankLine b = true) : Loc b B1 B2 splitBullet := list_loc hb (fun _ _ => rfl)
theorem splitOrdered_loc (hb : isBlankLine b = true) : Loc b B1 B2 splitOrdered := list_loc hb (fun _ _ => rfl)

theorem splitTable_loc (hb : isBlankLine b = true) : Loc b B1 B2 splitTable := by
  intro L a r hL h
  cases L with
  | nil => exact absurd rfl hL
  | cons l ls =>
    rw [List.cons_append] at h ⊢
    simp only [splitTable, tableLoop_loc hb] at h ⊢
    split at h
    · rename_i hp
      cases h
      obtain ⟨k, hk, hk2⟩ := tableLoop_eq ls 0
      rw [hk, if_pos hp]
      have e : 0 + 1 + k = k + 1 := by omega
      simp only [e]
      refine ⟨(l :: ls).drop (k + 1), ?_, ?_, ?_⟩
      · simp
      · rw [← List.cons_append, List.drop_append_of_le_length (by simp; omega)]
      · rw [← List.cons_append, List.drop_append_of_le_length (by simp; omega)]
    · rename_i hp; cases h; exact ⟨l :: ls, rfl, rfl, by rw [if_neg hp]; rfl⟩

/-- The first line that is not blank is not indented by four or more. -/
def NoIndentFirst (B : List Str) : Prop :=
  ∀ pre l post, B = pre ++ l :: post → (∀ p ∈ pre, isBlankLine p = true) → isBlankLine l = false → getIndent l < 4

theorem NoIndentFirst.tail {b : Str} {B : List Str} (h : NoIndentFirst (b :: B)) (hb : isBlankLine b = true) :
    NoIndentFirst B := by
  intro pre l post e hp hl
  exact h (b :: pre) l post (by rw [e]; rfl) (by
    intro p hq
    rcases List.mem_cons.1 hq with rfl | hq
    · exact hb
    · exact hp p hq) hl

theorem NoIndentFirst.cons {b : Str} {B : List Str} (h : NoIndentFirst B) (hb : isBlankLine b = true) :
    NoIndentFirst (b :: B) := by
  intro pre l post e hp hl
  cases pre with
  | nil => cases e; rw [hb] at hl; cases hl
  | cons p pre => cases e; exact h pre l post rfl (fun q hq => hp q (by simp [hq])) hl

theorem indentLoop_stop {B : List Str} (h : NoIndentFirst B) : ∀ i c, indentLoop i c B = c := by
  induction B with
  | nil => intro i c; rfl
  | cons l B ih =>
    intro i c
    cases hb : isBlankLine l with
    | true =>
      have hs : strip l = [] := (blank_preds hb).2.2.2
      rw [indentLoop, hs]
      exact ih (h.tail hb) _ _
    | false =>
      have h4 := h [] l B rfl (by intro p hp; cases hp) hb
      rw [indentLoop, if_neg, if_neg (by omega)]
      intro e
      rw [isBlankLine, e] at hb
      cases hb

theorem indentLoop_loc {B : List Str} (hB : NoIndentFirst B) (ls : List Str) :
    ∀ i c, indentLoop i c (ls ++ B) = indentLoop i c ls := by
  induction ls with
  | nil => intro i c; rw [List.nil_append, indentLoop_stop hB]; rfl
  | cons l ls ih => intro i c; rw [List.cons_append, indentLoop, indentLoop, ih, ih]

theorem indentLoop_le (ls : List Str) : ∀ i c, c ≤ i → indentLoop i c ls ≤ i + ls.length := by
  induction ls with
  | nil => intro i c h; exact h
  | cons x xs ih =>
    intro i c h
    rw [indentLoop]
    split
    · have := ih (i + 1) c (by omega); simp; omega
    · split
      · have := ih (i + 1) i (by omega); simp; omega
      · simp; omega

theorem splitIndented_loc (hb : isBlankLine b = true) (h1 : NoIndentFirst B1) (h2 : NoIndentFirst B2) :
    Loc b B1 B2 splitIndented := by
  intro L a r hL h
  cases L with
  | nil => exact absurd rfl hL
  | cons l ls =>
    rw [List.cons_append] at h ⊢
    simp only [splitIndented, indentLoop_loc (h1.cons hb), indentLoop_loc (h2.cons hb)] at h ⊢
    split at h
    · rename_i hp
      rw [if_pos hp]
      cases h
      have hk : indentLoop 1 1 ls ≤ (l :: ls).length := by
        have := indentLoop_le ls 1 1 (Nat.le_refl _)
        simp; omega
      refine ⟨(l :: ls).drop (indentLoop 1 1 ls), ?_, ?_, ?_⟩
      · rw [← List.cons_append, List.take_append_of_le_length hk, List.take_append_drop]
      · rw [← List.cons_append, List.drop_append_of_le_length hk]
      · rw [← List.cons_append, ← List.cons_append, List.take_append_of_le_length hk,
          List.take_append_of_le_length hk, List.drop_append_of_le_length hk]
    · rename_i hp; cases h; exact ⟨l :: ls, rfl, rfl, by rw [if_neg hp]; rfl⟩

theorem fenceLoop_loc {F : Str} (hF : F ≠ []) (hb : isBlankLine b = true) (ls : List Str) : ∀ i,
    (∃ k, k ≤ ls.length ∧ ∀ B, fenceLoop F i (ls ++ b :: B) = (ls.take k, i + k)) ∨
    (∀ B, ∃ c k, fenceLoop F i (ls ++ b :: B) = (ls ++ b :: c, k)) := by
  induction ls with
  | nil =>
    intro i
    right
    intro B
    have hs : strip b = [] := (blank_preds hb).2.2.2
    rw [List.nil_append, fenceLoop, hs]
    have : (([] : Str) == F) = false := by
      cases F with
      | nil => exact absurd rfl hF
      | cons => rfl
    rw [this]
    exact ⟨_, _, rfl⟩
  | cons l ls ih =>
    intro i
    by_cases hl : strip l == F
    · left
      refine ⟨1, by simp, ?_⟩
      intro B
      rw [List.cons_append, fenceLoop, if_pos hl]
      simp
    · rcases ih (i + 1) with ⟨k, hk, h1⟩ | h1
      · left
        refine ⟨k + 1, by simp; omega, ?_⟩
        intro B
        rw [List.cons_append, fenceLoop, if_neg hl, h1 B]
        simp; omega
      · right
        intro B
        obtain ⟨c, k, e⟩ := h1 B
        rw [List.cons_append, fenceLoop, if_neg hl, e]
        exact ⟨c, k, rfl⟩

theorem splitFenced_loc (hb : isBlankLine b = true) : LocW b B1 B2 splitFenced := by
  intro L a r hL h
  cases L with
  | nil => exact absurd rfl hL
  | cons l ls =>
    rw [List.cons_append] at h ⊢
    simp only [splitFenced] at h ⊢
    cases hF : openFence l with
    | none =>
      rw [hF] at h
      cases h
      exact .inl ⟨l :: ls, rfl, rfl, rfl⟩
    | some F =>
      rw [hF] at h
      simp only at h ⊢
      rcases fenceLoop_loc (openFence_ne hF) hb ls 0 with ⟨k, hk, h1⟩ | h1
      · rw [h1] at h
        cases h
        left
        rw [h1]
        refine ⟨(l :: ls).drop (0 + k + 1), ?_, ?_, ?_⟩
        · simp
        · rw [← List.cons_append, List.drop_append_of_le_length (by simp; omega)]
        · rw [← List.cons_append, List.drop_append_of_le_length (by simp; omega)]
      · obtain ⟨c, k, e⟩ := h1 B1
        rw [e] at h
        cases h
        right
        exact ⟨by simp, _, _, rfl, by simp⟩

/-! ## Paragraphs -/

theorem anySplits_loc {fs : List (List Str → Split)} (hfs : ∀ f ∈ fs, LocW b B1 B2 f) {L : List Str} (hL : L ≠ [])
    {v : Bool} (h : anySplits (L ++ b :: B1) fs = .ok v) : anySplits (L ++ b :: B2) fs = .ok v := by
  induction fs with
  | nil => exact h
  | cons f fs ih =>
    simp only [anySplits, bind, Except.bind] at h ⊢
    cases hf : f (L ++ b :: B1) with
    | error e => rw [hf] at h; cases h
    | ok p =>
      obtain ⟨a, r⟩ := p
      rw [hf] at h
      rcases hfs f (by simp) L a r hL hf with ⟨r', h1, h2, h3⟩ | ⟨h1, a', r', h2, h3⟩
      · rw [h3]
        simp only at h ⊢
        split at h
        · rename_i hp; rw [if_pos hp]; exact h
        · rename_i hp; rw [if_neg hp]; exact ih (fun g hg => hfs g (by simp [hg])) h
      · rw [h2]
        have e1 : (!(a.isEmpty)) = true := by
          cases a with
          | nil => simp at h1
          | cons => rfl
        have e2 : (!(a'.isEmpty)) = true := by
          cases a' with
          | nil => exact absurd rfl h3
          | cons => rfl
        simp only [e1, e2, if_true] at h ⊢
        exact h

theorem isParCont_loc (hb : isBlankLine b = true) {sbq : List Str → Split} (hs : LocW b B1 B2 sbq) {L : List Str}
    (hL : L ≠ []) {v : Bool} (h : isParCont sbq (L ++ b :: B1) = .ok v) : isParCont sbq (L ++ b :: B2) = .ok v := by
  simp only [isParCont, bind, Except.bind] at h ⊢
  split at h
  · cases h
  · rename_i u hu
    rw [anySplits_loc (by
      intro f hf
      simp only [List.mem_cons, List.not_mem_nil, or_false] at hf
      rcases hf with rfl | rfl | rfl | rfl | rfl | rfl | rfl | rfl
      · exact splitAtx_loc.w
      · exact splitBlank_loc.w
      · exact hs
      · exact (splitBullet_loc hb).w
      · exact splitFenced_loc hb
      · exact (splitOrdered_loc hb).w
      · exact (splitTable_loc hb).w
      · exact splitThematic_loc.w) hL hu]
    cases L with
    | nil => exact absurd rfl hL
    | cons l ls => exact h

theorem blank_not_atx (hb : isBlankLine b = true) : isAtx b = false := by
  cases hq : isAtx b with
  | false => rfl
  | true =>
    have := isAtx_first hq
    rw [(firstCh_none b).2 hb] at this; cases this

theorem isParCont_at_blank (hb : isBlankLine b = true) {sbq : List Str → Split} (B : List Str) :
    isParCont sbq (b :: B) = .ok false := by
  simp only [isParCont, anySplits, splitAtx, splitBlank, blank_not_atx hb, hb, bind, Except.bind]
  rfl

theorem isQuoteCont_at_blank (hb : isBlankLine b = true) {sbq : List Str → Split} (B : List Str) :
    isQuoteCont sbq (b :: B) = .ok false := by
  simp only [isQuoteCont, anySplits, splitAtx, splitBlank, blank_not_atx hb, hb, bind, Except.bind]
  rfl

theorem parLoop_loc (hb : isBlankLine b = true) {sbq : List Str → Split} (hs : LocW b B1 B2 sbq) (ls : List Str) :
    ∀ a r, parLoop sbq (ls ++ b :: B1) = .ok (a, r) →
      ∃ r', a ++ r' = ls ∧ r = r' ++ b :: B1 ∧ parLoop sbq (ls ++ b :: B2) = .ok (a, r' ++ b :: B2) := by
  induction ls with
  | nil =>
    intro a r h
    rw [List.nil_append] at h ⊢
    simp only [parLoop, isParCont_at_blank hb, bind, Except.bind] at h ⊢
    cases h
    exact ⟨[], rfl, rfl, rfl⟩
  | cons l ls ih =>
    intro a r h
    rw [List.cons_append] at h ⊢
    simp only [parLoop, bind, Except.bind] at h ⊢
    split at h
    · cases h
    · rename_i v hv
      rw [← List.cons_append, isParCont_loc hb hs (by simp) (L := l :: ls) (by rw [List.cons_append]; exact hv)]
      simp only
      split at h
      · rename_i hvt
        rw [if_pos hvt]
        split at h
        · rename_i he
          rw [if_pos he]
          cases ls with
          | nil =>
            simp only [List.nil_append] at h ⊢
            cases h
            exact ⟨[], rfl, rfl, rfl⟩
          | cons m ms =>
            simp only [List.cons_append] at h ⊢
            cases h
            exact ⟨m :: ms, rfl, rfl, rfl⟩
        · rename_i he
          rw [if_neg he]
          split at h
          · cases h
          · rename_i p hp
            cases h
            obtain ⟨r', h1, h2, h3⟩ := ih p.1 p.2 hp
            rw [h3]
            exact ⟨r', by rw [← h1]; rfl, h2, rfl⟩
      · rename_i hvt
        rw [if_neg hvt]
        cases h
        exact ⟨l :: ls, rfl, rfl, rfl⟩

theorem splitParIgn_loc (hb : isBlankLine b = true) {sbq : List Str → Split} (hs : LocW b B1 B2 sbq) :
    Loc b B1 B2 (splitParIgn sbq) := by
  intro L a r hL h
  cases L with
  | nil => exact absurd rfl hL
  | cons l ls =>
    rw [List.cons_append] at h ⊢
    simp only [splitParIgn, bind, Except.bind] at h ⊢
    split at h
    · rename_i hp
      rw [if_pos hp]
      split at h
      · rename_i he
        rw [if_pos he]
        cases h
        exact ⟨ls, rfl, rfl, rfl⟩
      · rename_i he
        rw [if_neg he]
        split at h
        · cases h
        · rename_i p hp2
          cases h
          obtain ⟨r', h1, h2, h3⟩ := parLoop_loc hb hs ls p.1 p.2 hp2
          rw [h3]
          exact ⟨r', by rw [← h1]; rfl, h2, rfl⟩
    · rename_i hp
      rw [if_neg hp]
      cases h
      exact ⟨l :: ls, rfl, rfl, rfl⟩

theorem splitPar_loc (hb : isBlankLine b = true) {sbq : List Str → Split} (hs : LocW b B1 B2 sbq) :
    Loc b B1 B2 (splitPar sbq) := by
  intro L a r hL h
  simp only [splitPar, bind, Except.bind] at h ⊢
  split at h
  · cases h
  · rename_i p hp
    obtain ⟨r', h1, h2, h3⟩ := splitParIgn_loc hb hs L p.1 p.2 hL hp
    rw [h3]
    rw [h2] at h
    cases r' with
    | nil =>
      simp only [List.nil_append, (blank_preds hb).2.1] at h ⊢
      cases h
      exact ⟨[], h1, rfl, rfl⟩
    | cons c r' =>
      simp only [List.cons_append] at h ⊢
      split at h
      · rename_i hc
        rw [if_pos hc]
        cases h
        exact ⟨c :: r', h1, rfl, rfl⟩
      · rename_i hc
        rw [if_neg hc]
        cases h
        exact ⟨L, rfl, rfl, rfl⟩

theorem splitSetext_loc (hb : isBlankLine b = true) {sbq : List Str → Split} (hs : LocW b B1 B2 sbq) :
    Loc b B1 B2 (splitSetext sbq) := by
  intro L a r hL h
  simp only [splitSetext, bind, Except.bind] at h ⊢
  split at h
  · cases h
  · rename_i p hp
    obtain ⟨r', h1, h2, h3⟩ := splitParIgn_loc hb hs L p.1 p.2 hL hp
    rw [h3]
    simp only [h2] at h ⊢
    cases ha : p.1 with
    | nil =>
      rw [ha] at h
      cases h
      exact ⟨L, rfl, rfl, rfl⟩
    | cons q qs =>
      rw [ha] at h
      cases r' with
      | nil =>
        simp only [List.nil_append, (blank_preds hb).2.1] at h ⊢
        cases h
        exact ⟨L, rfl, rfl, rfl⟩
      | cons c r' =>
        simp only [List.cons_append] at h ⊢
        split at h
        · rename_i hc
          rw [if_pos hc]
          cases h
          refine ⟨r', ?_, rfl, rfl⟩
          rw [← h1, ha]
          simp
        · rename_i hc
          rw [if_neg hc]
          cases h
          exact ⟨L, rfl, rfl, rfl⟩

/-! ## Block quotes -/

theorem isQuoteCont_loc (hb : isBlankLine b = true) {sbq : List Str → Split} (hs : LocW b B1 B2 sbq) {L : List Str}
    (hL : L ≠ []) {v : Bool} (h : isQuoteCont sbq (L ++ b :: B1) = .ok v) :
    isQuoteCont sbq (L ++ b :: B2) = .ok v := by
  simp only [isQuoteCont, bind, Except.bind] at h ⊢
  split at h
  · cases h
  · rename_i u hu
    rw [anySplits_loc (by
      intro f hf
      simp only [List.mem_cons, List.not_mem_nil, or_false] at hf
      rcases hf with rfl | rfl | rfl | rfl | rfl | rfl | rfl | rfl
      · exact splitAtx_loc.w
      · exact splitBlank_loc.w
      · exact (splitBullet_loc hb).w
      · exact splitFenced_loc hb
      · exact (splitOrdered_loc hb).w
      · exact (splitSetext_loc hb hs).w
      · exact (splitTable_loc hb).w
      · exact splitThematic_loc.w) hL hu]
    cases L with
    | nil => exact absurd rfl hL
    | cons l ls => exact h

theorem contLoop_loc (hb : isBlankLine b = true) {sbq : List Str → Split} (hs : LocW b B1 B2 sbq) (ls : List Str) :
    ∀ first a r, contLoop sbq first (ls ++ b :: B1) = .ok (a, r) →
      ∃ r', a ++ r' = ls ∧ r = r' ++ b :: B1 ∧ contLoop sbq first (ls ++ b :: B2) = .ok (a, r' ++ b :: B2) := by
  induction ls with
  | nil =>
    intro first a r h
    rw [List.nil_append] at h ⊢
    simp only [contLoop, isQuoteCont_at_blank hb, bind, Except.bind] at h ⊢
    cases h
    exact ⟨[], rfl, rfl, rfl⟩
  | cons l ls ih =>
    intro first a r h
    rw [List.cons_append] at h ⊢
    simp only [contLoop, bind, Except.bind] at h ⊢
    split at h
    · cases h
    · rename_i v hv
      rw [← List.cons_append, isQuoteCont_loc hb hs (by simp) (L := l :: ls) (by rw [List.cons_append]; exact hv)]
      simp only
      split at h
      · rename_i hvt
        rw [if_pos hvt]
        split at h
        · rename_i he
          rw [if_pos he]
          cases h
          exact ⟨l :: ls, rfl, rfl, rfl⟩
        · rename_i he
          rw [if_neg he]
          split at h
          · cases h
          · rename_i p hp
            cases h
            obtain ⟨r', h1, h2, h3⟩ := ih false p.1 p.2 hp
            rw [h3]
            exact ⟨r', by rw [← h1]; rfl, h2, rfl⟩
      · rename_i hvt
        rw [if_neg hvt]
        cases h
        exact ⟨l :: ls, rfl, rfl, rfl⟩

theorem quote_takeWhile_loc (hb : isBlankLine b = true) (B ls : List Str) :
    (ls ++ b :: B).takeWhile isQuote = ls.takeWhile isQuote ∧
    (ls ++ b :: B).dropWhile isQuote = ls.dropWhile isQuote ++ b :: B := by
  have hq := (blank_preds hb).2.2.1
  induction ls with
  | nil => simp [hq]
  | cons l ls ih =>
    rw [List.cons_append, List.takeWhile_cons, List.takeWhile_cons, List.dropWhile_cons, List.dropWhile_cons]
    split
    · exact ⟨by rw [ih.1], ih.2⟩
    · exact ⟨rfl, rfl⟩

theorem quoteLoop_loc (hb : isBlankLine b = true) {ends : List Str → Except Err Bool} {sbq : List Str → Split}
    (hs : LocW b B1 B2 sbq) : ∀ fuel fuel' bq ls a r, ls.length < fuel' →
      quoteLoop ends sbq fuel bq (ls ++ b :: B1) = .ok (a, r) →
      ∃ r', a ++ r' = bq ++ ls ∧ r = r' ++ b :: B1 ∧
        quoteLoop ends sbq fuel' bq (ls ++ b :: B2) = .ok (a, r' ++ b :: B2) := by
  intro fuel
  induction fuel with
  | zero => intro fuel' bq ls a r _ h; cases h
  | succ fuel ih =>
    intro fuel' bq ls a r hf h
    cases fuel' with
    | zero => omega
    | succ fuel' =>
      cases ls with
      | nil =>
        rw [List.nil_append] at h ⊢
        simp only [quoteLoop, (blank_preds hb).2.2.1] at h ⊢
        cases h
        exact ⟨[], by simp, rfl, rfl⟩
      | cons l ls =>
        obtain ⟨t1, t2⟩ := quote_takeWhile_loc hb B1 (l :: ls)
        obtain ⟨u1, u2⟩ := quote_takeWhile_loc hb B2 (l :: ls)
        rw [List.cons_append] at h t1 t2 u1 u2 ⊢
        simp only [quoteLoop, bind, Except.bind] at h ⊢
        split at h
        · rename_i hq
          rw [if_pos hq]
          cases h
          exact ⟨l :: ls, rfl, rfl, rfl⟩
        · rename_i hq
          rw [if_neg hq]
          rw [t1, t2] at h
          rw [u1, u2]
          have hlq : isQuote l = true := by simpa using hq
          have hlen : ((l :: ls).dropWhile isQuote).length ≤ ls.length := by
            rw [List.dropWhile_cons, if_pos hlq]
            exact (List.dropWhile_suffix _).length_le
          split at h
          · cases h
          · rename_i v hv
            split at h
            · rename_i hvt
              rw [if_pos hvt]
              split at h
              · cases h
              · rename_i p hp
                obtain ⟨r', h1, h2, h3⟩ := contLoop_loc hb hs _ true p.1 p.2 hp
                rw [h3]
                simp only
                rw [h2] at h
                have hblen : r'.length < fuel' := by
                  have := congrArg List.length h1
                  rw [List.length_append] at this
                  rw [List.length_cons] at hf
                  omega
                obtain ⟨b', g1, g2, g3⟩ := ih fuel' _ r' a r hblen h
                refine ⟨b', ?_, g2, g3⟩
                rw [g1, List.append_assoc, List.append_assoc, h1, List.takeWhile_append_dropWhile]
            · rename_i hvt
              rw [if_neg hvt]
              cases h
              refine ⟨_, ?_, rfl, rfl⟩
              rw [List.append_assoc, List.takeWhile_append_dropWhile]

theorem splitQuote_loc (hb : isBlankLine b = true) (n : Nat) : Loc b B1 B2 (splitQuote n) := by
  induction n with
  | zero => intro L a r _ h; cases h
  | succ n ih =>
    intro L a r hL h
    obtain ⟨r', h1, h2, h3⟩ := quoteLoop_loc hb ih.w _ ((L ++ b :: B2).length + 1) [] L a r (by simp; omega) h
    exact ⟨r', h1, h2, h3⟩

/-! ## Link reference definitions -/

theorem titleLoop_index (q : Char) (c : Bool) (gen : List Str) : ∀ i line, i ≤ (titleLoop q c i line gen).2 := by
  induction gen with
  | nil =>
    intro i line
    simp only [titleLoop]
    split
    · split <;> simp
    · simp
  | cons g gen ih =>
    intro i line
    simp only [titleLoop]
    split
    · split <;> simp
    · have := ih (i + 1) g; omega

theorem titleLoop_loc (q : Char) (c : Bool) (hb : isBlankLine b = true) (gen : List Str) : ∀ i line,
    (∃ v : Bool × Nat, v.2 ≤ i + gen.length + 1 ∧ ∀ B, titleLoop q c i line (gen ++ b :: B) = v) ∨
    (∀ B, B ≠ [] → i + gen.length + 2 ≤ (titleLoop q c i line (gen ++ b :: B)).2) := by
  induction gen with
  | nil =>
    intro i line
    cases hs : (closingRx q).search (rstrip line) with
    | some m =>
      left
      by_cases hm : (m.stop == (rstrip line).length) = true
      · refine ⟨(true, i + 1), by simp, ?_⟩
        intro B
        simp only [List.nil_append, titleLoop, hs, hm, if_true]
      · refine ⟨(c, i), by simp, ?_⟩
        intro B
        simp only [List.nil_append, titleLoop, hs]
        rw [if_neg hm]
    | none =>
      right
      intro B hB
      have hr : rstrip b = [] := (rstrip_eq_nil b).2 ((strip_eq_nil b).1 (blank_preds hb).2.2.2)
      cases B with
      | nil => exact absurd rfl hB
      | cons x B =>
        simp only [List.nil_append, titleLoop, hs, hr, closing_nil]
        have := titleLoop_index q c B (i + 1 + 1) x
        simp only [List.length_nil]; omega
  | cons g gen ih =>
    intro i line
    cases hs : (closingRx q).search (rstrip line) with
    | some m =>
      left
      by_cases hm : (m.stop == (rstrip line).length) = true
      · refine ⟨(true, i + 1), by simp, ?_⟩
        intro B
        simp only [List.cons_append, titleLoop, hs, hm, if_true]
      · refine ⟨(c, i), by simp; omega, ?_⟩
        intro B
        simp only [List.cons_append, titleLoop, hs]
        rw [if_neg hm]
    | none =>
      rcases ih (i + 1) g with ⟨v, h1, h2⟩ | h1
      · left
        refine ⟨v, by rw [List.length_cons]; omega, ?_⟩
        intro B
        simp only [List.cons_append, titleLoop, hs, h2]
      · right
        intro B hB
        have := h1 B hB
        simp only [List.cons_append, titleLoop, hs, List.length_cons]
        omega

/-- as `Loc`; or the splitter takes the blank line; or it recognises nothing -/
def LrdLoc (L : List Str) (b : Str) (B1 B2 : List Str) (f2 : Split) (a r : List Str) : Prop :=
  (∃ r', a ++ r' = L ∧ r = r' ++ b :: B1 ∧ f2 = .ok (a, r' ++ b :: B2)) ∨ L.length < a.length ∨ a = []

theorem lrdFinish_loc (hb : isBlankLine b = true) (hB1 : B1 ≠ []) {L gen : List Str} {c : Bool} {i : Nat} {t : Str}
    (hi : L.length = i + gen.length + 1) (a r : List Str)
    (h : lrdFinish (L ++ b :: B1) c i t (gen ++ b :: B1) = .ok (a, r)) :
    LrdLoc L b B1 B2 (lrdFinish (L ++ b :: B2) c i t (gen ++ b :: B2)) a r := by
  have key : ∀ x : Bool × Nat, x.2 ≤ L.length →
      (if x.1 then (.ok ((L ++ b :: B1).take x.2, (L ++ b :: B1).drop x.2) : Split) else .ok ([], L ++ b :: B1)) =
        .ok (a, r) →
      LrdLoc L b B1 B2
        (if x.1 then (.ok ((L ++ b :: B2).take x.2, (L ++ b :: B2).drop x.2) : Split) else .ok ([], L ++ b :: B2)) a r := by
    intro x hx h
    split at h
    · rename_i hp
      cases h
      left
      rw [if_pos hp]
      simp only [List.take_append_of_le_length hx, List.drop_append_of_le_length hx]
      exact ⟨_, List.take_append_drop _ _, rfl, rfl⟩
    · cases h
      exact .inr (.inr rfl)
  unfold lrdFinish at h ⊢
  cases t with
  | nil => exact key (c, i) (by simp; omega) h
  | cons q rest =>
    simp only at h ⊢
    split at h
    · rename_i hp
      simp only [hp, if_true]
      rcases titleLoop_loc (b := b) q c hb gen i rest with ⟨v, h1, h2⟩ | h1
      · rw [h2] at h
        rw [h2]
        exact key v (by omega) h
      · have := h1 B1 hB1
        split at h
        · cases h
          right; left
          have : 1 ≤ B1.length := by
            cases B1 with
            | nil => exact absurd rfl hB1
            | cons => simp
          simp
          omega
        · cases h; exact .inr (.inr rfl)
    · rename_i hp
      simp only [hp]
      exact key (c, i) (by simp; omega) h

theorem splitLrd_loc (hb : isBlankLine b = true) (hB1 : B1 ≠ []) (L a r : List Str) (hL : L ≠ [])
    (h : splitLrd (L ++ b :: B1) = .ok (a, r)) :
    (∃ r', a ++ r' = L ∧ r = r' ++ b :: B1 ∧ splitLrd (L ++ b :: B2) = .ok (a, r' ++ b :: B2)) ∨ L.length < a.length ∨
    (a = [] ∧ lrdFirstRx.match? (lstrip (L.headD [])) ≠ none) := by
  cases L with
  | nil => exact absurd rfl hL
  | cons l0 tail0 =>
    have hbs : strip b = [] := (blank_preds hb).2.2.2
    rw [List.cons_append] at h ⊢
    simp only [splitLrd] at h ⊢
    by_cases hp : getIndent l0 ≥ 4
    · rw [if_pos hp] at h
      rw [if_pos hp]
      cases h
      exact .inl ⟨_, rfl, rfl, rfl⟩
    rw [if_neg hp] at h
    rw [if_neg hp]
    cases hm : lrdFirstRx.match? (lstrip l0) with
    | none =>
      rw [hm] at h
      cases h
      exact .inl ⟨_, rfl, rfl, rfl⟩
    | some m =>
      rw [hm] at h
      simp only at h ⊢
      have fin : ∀ {c : Bool} {i : Nat} {t : Str} {gen : List Str}, (l0 :: tail0).length = i + gen.length + 1 →
          lrdFinish (l0 :: tail0 ++ b :: B1) c i t (gen ++ b :: B1) = .ok (a, r) →
          (∃ r', a ++ r' = l0 :: tail0 ∧ r = r' ++ b :: B1 ∧
            lrdFinish (l0 :: tail0 ++ b :: B2) c i t (gen ++ b :: B2) = .ok (a, r' ++ b :: B2)) ∨
          (l0 :: tail0).length < a.length ∨
          (a = [] ∧ lrdFirstRx.match? (lstrip ((l0 :: tail0).headD [])) ≠ none) := by
        intro c i t gen hi h
        rcases lrdFinish_loc (B2 := B2) hb hB1 hi a r h with h | h | h
        · exact .inl h
        · exact .inr (.inl h)
        · refine .inr (.inr ⟨h, ?_⟩)
          show lrdFirstRx.match? (lstrip l0) ≠ none
          rw [hm]; simp
      split at h
      · exact fin (by simp) h
      · cases tail0 with
        | nil =>
          left
          simp only [List.nil_append, lrdFinish, hbs] at h ⊢
          cases b with
          | nil => cases h; exact ⟨[], rfl, rfl, rfl⟩
          | cons => cases h; exact ⟨[], rfl, rfl, rfl⟩
        | cons l1 tail1 => exact fin (by simp; omega) h
      · cases tail0 with
        | nil =>
          left
          simp only [List.nil_append, List.headD_cons, hbs] at h ⊢
          simp at h
          refine ⟨[], by simp [h.1], by simp [h.2], ?_⟩
          simp [h.1]
        | cons l1 tail1 =>
          by_cases hq : (startsWith l1 c!"[" || (strip l1).isEmpty) = true
          · rw [if_pos (show (startsWith ((l1 :: tail1 ++ b :: B1).headD []) c!"[" ||
              (strip ((l1 :: tail1 ++ b :: B1).headD [])).isEmpty) = true from hq)] at h
            rw [if_pos (show (startsWith ((l1 :: tail1 ++ b :: B2).headD []) c!"[" ||
              (strip ((l1 :: tail1 ++ b :: B2).headD [])).isEmpty) = true from hq)]
            cases h
            exact .inl ⟨_, rfl, rfl, rfl⟩
          · rw [if_neg (show ¬(startsWith ((l1 :: tail1 ++ b :: B1).headD []) c!"[" ||
              (strip ((l1 :: tail1 ++ b :: B1).headD [])).isEmpty) = true from hq)] at h
            rw [if_neg (show ¬(startsWith ((l1 :: tail1 ++ b :: B2).headD []) c!"[" ||
              (strip ((l1 :: tail1 ++ b :: B2).headD [])).isEmpty) = true from hq)]
            simp only [List.cons_append, List.headD_cons] at h ⊢
            split at h
            · cases tail1 with
              | nil =>
                left
                simp only [List.nil_append, List.drop_succ_cons, List.drop_zero, lrdFinish, hbs] at h ⊢
                cases b with
                | nil => cases h; exact ⟨[], rfl, rfl, rfl⟩
                | cons => cases h; exact ⟨[], rfl, rfl, rfl⟩
              | cons l2 tail2 => exact fin (by simp; omega) h
            · exact fin (by simp; omega) h
            · cases h


/-! ## Sections -/

theorem firstSection_mem {fs : List (Sec × (List Str → Split))} : ∀ {L : List Str} {ty : Sec} {a r : List Str},
    firstSection fs L = .ok (ty, a, r) → ∃ f, (ty, f) ∈ fs := by
  induction fs with
  | nil => intro L ty a r h; cases h
  | cons p fs ih =>
    intro L ty a r h
    obtain ⟨ty', f⟩ := p
    simp only [firstSection, bind, Except.bind] at h
    split at h
    · cases h
    · split at h
      · cases h; exact ⟨f, by simp⟩
      · obtain ⟨g, hg⟩ := ih h
        exact ⟨g, by simp [hg]⟩

theorem firstSection_locW {pre : List (Sec × (List Str → Split))} (hpre : ∀ p ∈ pre, LocW b B1 B2 p.2)
    (rest : List (Sec × (List Str → Split))) {L : List Str} (hL : L ≠ []) {ty : Sec} {a r : List Str}
    (h : firstSection (pre ++ rest) (L ++ b :: B1) = .ok (ty, a, r)) (ha : a.length ≤ L.length) :
    (∃ r', a ++ r' = L ∧ r = r' ++ b :: B1 ∧
      firstSection (pre ++ rest) (L ++ b :: B2) = .ok (ty, a, r' ++ b :: B2)) ∨
    (firstSection rest (L ++ b :: B1) = .ok (ty, a, r) ∧
      firstSection (pre ++ rest) (L ++ b :: B2) = firstSection rest (L ++ b :: B2)) := by
  induction pre with
  | nil => exact .inr ⟨h, rfl⟩
  | cons p pre ih =>
    obtain ⟨ty', f⟩ := p
    rw [List.cons_append] at h ⊢
    simp only [firstSection, bind, Except.bind] at h ⊢
    cases hf : f (L ++ b :: B1) with
    | error e => rw [hf] at h; cases h
    | ok q =>
      obtain ⟨a', r'⟩ := q
      rw [hf] at h
      simp only at h
      rcases hpre (ty', f) (by simp) L a' r' hL hf with ⟨s, h1, h2, h3⟩ | ⟨h1, a'', r'', h2, h3⟩
      · rw [show f (L ++ b :: B2) = _ from h3]
        simp only
        split at h
        · rename_i hp
          rw [if_pos hp]
          cases h
          exact .inl ⟨s, h1, h2, rfl⟩
        · rename_i hp
          rw [if_neg hp]
          have ha' : a' = [] := by simpa using hp
          subst ha'
          simp only [List.nil_append] at h1
          subst h1
          rw [h2] at h
          exact ih (fun p hp => hpre p (by simp [hp])) h
      · exfalso
        split at h
        · cases h; omega
        · rename_i hp
          have ha' : a' = [] := by simpa using hp
          subst ha'
          simp at h1

theorem firstSection_loc (hb : isBlankLine b = true) (h1 : NoIndentFirst B1) (h2 : NoIndentFirst B2) (hB1 : B1 ≠ [])
    (n : Nat) {L : List Str} (hL : L ≠ []) {ty : Sec} {a r : List Str}
    (hfs : firstSection (splitters (splitQuote n)) (L ++ b :: B1) = .ok (ty, a, r)) (ha : a.length ≤ L.length)
    (hlab : ty ≠ .lrd → lrdFirstRx.match? (lstrip (L.headD [])) = none) :
    ∃ r', a ++ r' = L ∧ r = r' ++ b :: B1 ∧
      firstSection (splitters (splitQuote n)) (L ++ b :: B2) = .ok (ty, a, r' ++ b :: B2) := by
  have e : splitters (splitQuote n) =
      [(Sec.atx, splitAtx), (.blank, splitBlank), (.quote, splitQuote n), (.bullet, splitBullet), (.fenced, splitFenced),
        (.indented, splitIndented)] ++ (.lrd, splitLrd) :: ([(.ordered, splitOrdered), (.par, splitPar (splitQuote n)),
        (.setext, splitSetext (splitQuote n)), (.table, splitTable), (.thematic, splitThematic)] ++ []) := rfl
  rw [e] at hfs ⊢
  rcases firstSection_locW (B2 := B2) (by
      intro p hp
      simp only [List.mem_cons, List.not_mem_nil, or_false] at hp
      rcases hp with rfl | rfl | rfl | rfl | rfl | rfl
      · exact splitAtx_loc.w
      · exact splitBlank_loc.w
      · exact (splitQuote_loc hb n).w
      · exact (splitBullet_loc hb).w
      · exact splitFenced_loc hb
      · exact (splitIndented_loc hb h1 h2).w) _ hL hfs ha with h | ⟨h, e⟩
  · exact h
  rw [e]
  simp only [firstSection, bind, Except.bind] at h ⊢
  cases hf : splitLrd (L ++ b :: B1) with
  | error e => rw [hf] at h; cases h
  | ok q =>
    obtain ⟨a', r'⟩ := q
    rw [hf] at h
    simp only at h
    rcases splitLrd_loc (B2 := B2) hb hB1 L a' r' hL hf with ⟨s, g1, g2, g3⟩ | g1 | ⟨g1, g2⟩
    · rw [g3]
      simp only
      split at h
      · rename_i hp
        rw [if_pos hp]
        cases h
        exact ⟨s, g1, g2, rfl⟩
      · rename_i hp
        rw [if_neg hp]
        have ha' : a' = [] := by simpa using hp
        subst ha'
        simp only [List.nil_append] at g1
        subst g1
        rw [g2] at h
        rcases firstSection_locW (B2 := B2) (by
          intro p hp
          simp only [List.mem_cons, List.not_mem_nil, or_false] at hp
          rcases hp with rfl | rfl | rfl | rfl | rfl
          · exact (splitOrdered_loc hb).w
          · exact (splitPar_loc hb (splitQuote_loc hb n).w).w
          · exact (splitSetext_loc hb (splitQuote_loc hb n).w).w
          · exact (splitTable_loc hb).w
          · exact splitThematic_loc.w) [] hL h ha with h | ⟨h, _⟩
        · exact h
        · cases h
    · exfalso
      split at h
      · cases h; omega
      · rename_i hp
        have ha' : a' = [] := by simpa using hp
        subst ha'
        simp at g1
    · exfalso
      subst g1
      simp only [List.isEmpty_nil, Bool.not_true] at h
      refine g2 (hlab ?_)
      obtain ⟨f, hf⟩ := firstSection_mem h
      rintro rfl
      simp at hf

end MF
