import Verif.Props.DefSpec
import Verif.Lemmas.Refs
/-!
# C115: which lines a link definition takes
-/

namespace MF

/-! ## The closing quotation mark -/

theorem pairs_step {st st' : MS} {mn : Nat} {mx : Option Nat}
    (h : RepStep (Rx.grp 1 (.seqs [.chr (· == '\\'), .chr (· == '\\')])).Step mn mx st st') :
    ∃ k, st.Consumes st' (List.replicate (2 * k) '\\') := by
  induction h with
  | stop mx st => exact ⟨0, .refl _⟩
  | more _ h1 _ _ ih =>
    obtain ⟨k, hk⟩ := ih
    obtain ⟨m, h2, rfl⟩ := h1
    simp only [Rx.seqs] at h2
    obtain ⟨m1, ⟨c, cs, e1, e2, rfl⟩, ⟨c', cs', e1', e2', rfl⟩⟩ := h2
    have hc : c = '\\' := by simpa using e2
    have hc' : c' = '\\' := by simpa using e2'
    subst hc hc'
    refine ⟨k + 1, ?_⟩
    rw [show 2 * (k + 1) = 2 + 2 * k by omega, ← List.replicate_append_replicate]
    refine MS.Consumes.trans ⟨?_, ?_⟩ hk
    · simp only at e1' ⊢
      rw [e1, e1']; rfl
    · rfl

theorem pairs_intro (k : Nat) : ∀ (pre post : Str) (caps : List (Nat × Str × Nat)),
    ∃ caps', RepStep (Rx.grp 1 (.seqs [.chr (· == '\\'), .chr (· == '\\')])).Step 0 none
      ⟨pre, List.replicate (2 * k) '\\' ++ post, caps⟩
      ⟨List.replicate (2 * k) '\\' ++ pre, post, caps'⟩ := by
  induction k with
  | zero => intro pre post caps; exact ⟨caps, RepStep.stop _ _⟩
  | succ k ih =>
    intro pre post caps
    have e : ∀ x : Str, List.replicate (2 * (k + 1)) '\\' ++ x = '\\' :: '\\' :: (List.replicate (2 * k) '\\' ++ x) := by
      intro x; rw [show 2 * (k + 1) = 2 * k + 1 + 1 by omega, List.replicate_succ, List.replicate_succ]; rfl
    have e' : List.replicate (2 * (k + 1)) '\\' ++ pre = List.replicate (2 * k) '\\' ++ ('\\' :: '\\' :: pre) := by
      rw [show 2 * (k + 1) = 2 * k + 2 by omega, ← List.replicate_append_replicate, List.append_assoc]; rfl
    obtain ⟨caps', h⟩ := ih ('\\' :: '\\' :: pre) post
      ((1, ('\\' :: '\\' :: (List.replicate (2 * k) '\\' ++ post)).take
        (('\\' :: '\\' :: (List.replicate (2 * k) '\\' ++ post)).length - (List.replicate (2 * k) '\\' ++ post).length),
        ('\\' :: '\\' :: pre).length) :: caps)
    refine ⟨caps', ?_⟩
    rw [e, e']
    refine RepStep.more (st1 := ⟨'\\' :: '\\' :: pre, List.replicate (2 * k) '\\' ++ post, _⟩) (by simp) ?_
      (by simp only [List.length_cons]; omega) h
    refine ⟨_, ⟨_, ⟨'\\', _, rfl, rfl, rfl⟩, ⟨'\\', _, rfl, rfl, rfl⟩⟩, rfl⟩

/-- A match of the closing pattern: no backslash before, an even number of backslashes, the mark. -/
theorem closing_match {q : Char} {pre post : Str} {m : Match} (h : (closingRx q).matchAt pre post = some m) :
    pre.head? ≠ some '\\' ∧ ∃ k r, post = List.replicate (2 * k) '\\' ++ q :: r ∧
      m.stop + r.length = pre.length + post.length := by
  obtain ⟨st, hst, _, hstop, _⟩ := Rx.matchAt_sound h
  simp only [closingRx, Rx.seqs] at hst
  obtain ⟨s1, ⟨hb, rfl⟩, s2, h2, ⟨c, cs, e1, e2, rfl⟩⟩ := hst
  obtain ⟨k, hk1, hk2⟩ := pairs_step h2
  have hc : c = q := by simpa using e2
  subst hc
  simp only at hb hk1 hk2 hstop
  constructor
  · intro h0
    cases pre with
    | nil => simp at h0
    | cons x xs =>
      simp only [List.head?_cons, Option.some.injEq] at h0
      have := hb x xs rfl
      rw [h0] at this
      exact absurd this (by decide)
  · refine ⟨k, cs, by rw [hk1, e1], ?_⟩
    rw [hstop, hk1, hk2, e1]
    simp only [List.length_cons, List.length_append, List.length_reverse, List.length_replicate]
    omega

theorem closing_match_intro {q : Char} {pre : Str} (k : Nat) (r : Str) (h : pre.head? ≠ some '\\') :
    ((closingRx q).matchAt pre (List.replicate (2 * k) '\\' ++ q :: r)).isSome = true := by
  obtain ⟨caps', hs⟩ := pairs_intro k pre (q :: r) []
  refine Rx.matchAt_isSome (st' := ⟨q :: (List.replicate (2 * k) '\\' ++ pre), r, caps'⟩) ?_
  simp only [closingRx, Rx.seqs]
  refine ⟨_, ⟨?_, rfl⟩, _, hs, q, r, rfl, by simp, rfl⟩
  intro c cs e
  simp only at e
  simp only [beq_eq_false_iff_ne, ne_eq]
  rintro rfl
  exact h (by rw [e]; rfl)

theorem closing_search_cons {q : Char} {pre : Str} {c : Char} {cs : Str} (h : (closingRx q).matchAt pre (c :: cs) = none) :
    (closingRx q).searchFrom pre (c :: cs) = (closingRx q).searchFrom (c :: pre) cs := by
  rw [Rx.searchFrom, h]

/-- Right behind a backslash nothing matches. -/
theorem closing_behind {q : Char} {pre : Str} (post : Str) (h : pre.head? = some '\\') :
    (closingRx q).matchAt pre post = none := by
  cases hm : (closingRx q).matchAt pre post with
  | none => rfl
  | some m => exact absurd h (closing_match hm).1

theorem closing_search_run {q : Char} (m : Nat) : ∀ (pre post : Str), pre.head? = some '\\' →
    (closingRx q).searchFrom pre (List.replicate m '\\' ++ post) =
      (closingRx q).searchFrom (List.replicate m '\\' ++ pre) post := by
  induction m with
  | zero => intro pre post _; rfl
  | succ m ih =>
    intro pre post h
    have e : List.replicate (m + 1) '\\' ++ pre = List.replicate m '\\' ++ ('\\' :: pre) := by
      rw [← List.replicate_append_replicate (n := m) (m := 1), List.append_assoc]; rfl
    rw [e, List.replicate_succ, List.cons_append, closing_search_cons (closing_behind _ h)]
    exact ih _ _ rfl

theorem closeAfter_run {q : Char} (hq : q ≠ '\\') (m : Nat) : ∀ (b : Bool) (post : Str),
    closeAfter q b (List.replicate m '\\' ++ post) = closeAfter q (if m % 2 = 0 then b else !b) post := by
  induction m with
  | zero => intro b post; rfl
  | succ m ih =>
    intro b post
    have hb : ('\\' == q) = false := by simpa using fun h => hq h.symm
    rw [List.replicate_succ, List.cons_append, closeAfter, hb, Bool.false_and]
    simp only [Bool.false_eq_true, if_false, BEq.rfl, Bool.true_and]
    rw [ih]
    congr 1
    rcases Nat.mod_two_eq_zero_or_one m with h | h
    · rw [if_pos h, if_neg (by omega)]
    · rw [if_neg (by omega), if_pos (by omega), Bool.not_not]

theorem backslashes (s : Str) : ∃ m t, s = List.replicate m '\\' ++ t ∧ t.head? ≠ some '\\' := by
  induction s with
  | nil => exact ⟨0, [], rfl, by simp⟩
  | cons c s ih =>
    by_cases hc : c = '\\'
    · obtain ⟨m, t, rfl, ht⟩ := ih
      exact ⟨m + 1, t, by rw [hc]; rfl, ht⟩
    · exact ⟨0, c :: s, rfl, by simpa using hc⟩

theorem backslashes_inj {a b : Nat} {s t : Str} (hs : s.head? ≠ some '\\') (ht : t.head? ≠ some '\\')
    (h : List.replicate a '\\' ++ s = List.replicate b '\\' ++ t) : a = b ∧ s = t := by
  induction a generalizing b with
  | zero =>
    cases b with
    | zero => exact ⟨rfl, h⟩
    | succ b =>
      exfalso; apply hs
      have : s = List.replicate (b + 1) '\\' ++ t := h
      rw [this]; rfl
  | succ a ih =>
    cases b with
    | zero =>
      exfalso; apply ht
      have : List.replicate (a + 1) '\\' ++ s = t := h
      rw [← this]; rfl
    | succ b =>
      rw [List.replicate_succ, List.replicate_succ, List.cons_append, List.cons_append] at h
      obtain ⟨h1, h2⟩ := ih (List.cons.inj h).2
      exact ⟨by omega, h2⟩

/-- The search for the closing mark, by scanning. -/
theorem closing_search {q : Char} (hq : q ≠ '\\') : ∀ (k : Nat) (pre post : Str), post.length ≤ k → pre.head? ≠ some '\\' →
    match closeAfter q false post with
    | none => (closingRx q).searchFrom pre post = none
    | some r => ∃ m, (closingRx q).searchFrom pre post = some m ∧ m.stop + r.length = pre.length + post.length := by
  intro k
  induction k with
  | zero =>
    intro pre post hl hp
    have : post = [] := List.length_eq_zero_iff.1 (by omega)
    subst this
    simp only [closeAfter, Rx.searchFrom]
    cases hm : (closingRx q).matchAt pre [] with
    | none => rfl
    | some m =>
      obtain ⟨_, k, r, e, _⟩ := closing_match hm
      have := congrArg List.length e
      simp at this
  | succ k ih =>
    intro pre post hl hp
    obtain ⟨m, t, rfl, ht⟩ := backslashes post
    -- a match here
    have here : ∀ M, (closingRx q).matchAt pre (List.replicate m '\\' ++ t) = some M →
        m % 2 = 0 ∧ ∃ r, t = q :: r ∧ M.stop + r.length = pre.length + (List.replicate m '\\' ++ t).length := by
      intro M hM
      obtain ⟨_, k', r, e, es⟩ := closing_match hM
      obtain ⟨e1, e2⟩ := backslashes_inj ht (by simpa using hq) e
      exact ⟨by omega, r, e2, es⟩
    cases t with
    | nil =>
      have hn : (closingRx q).matchAt pre (List.replicate m '\\' ++ []) = none := by
        cases hm : (closingRx q).matchAt pre (List.replicate m '\\' ++ []) with
        | none => rfl
        | some M =>
          obtain ⟨_, r, e, _⟩ := here M hm
          cases e
      rw [closeAfter_run hq]
      simp only [closeAfter]
      cases m with
      | zero => simpa [Rx.searchFrom] using hn
      | succ m =>
        rw [List.replicate_succ, List.cons_append] at hn ⊢
        rw [closing_search_cons hn, closing_search_run m _ _ rfl, Rx.searchFrom]
        apply closing_behind
        cases m with
        | zero => rfl
        | succ m => rfl
    | cons c cs =>
      have hc : c ≠ '\\' := by simpa using ht
      rw [closeAfter_run hq, closeAfter]
      by_cases hcq : c = q ∧ m % 2 = 0
      · obtain ⟨rfl, h2⟩ := hcq
        simp only [h2, if_true, BEq.rfl, Bool.not_false, Bool.and_self]
        obtain ⟨j, rfl⟩ : ∃ j, m = 2 * j := ⟨m / 2, by omega⟩
        obtain ⟨M, hM⟩ := Option.isSome_iff_exists.1 (closing_match_intro j cs hp)
        obtain ⟨_, r, e, hs⟩ := here M hM
        cases e
        refine ⟨M, ?_, hs⟩
        cases hx : List.replicate (2 * j) '\\' ++ c :: cs with
        | nil => simp at hx
        | cons a b => rw [hx] at hM; rw [Rx.searchFrom, hM]
      · have hb : (c == q && !(if m % 2 = 0 then false else !false)) = false := by
          rcases Nat.mod_two_eq_zero_or_one m with h | h
          · have : c ≠ q := fun e => hcq ⟨e, h⟩
            simp [this]
          · rw [if_neg (by omega)]; simp
        have hb2 : (c == '\\' && !(if m % 2 = 0 then false else !false)) = false := by simp [hc]
        rw [hb, hb2]
        simp only [Bool.false_eq_true, if_false]
        have hn : (closingRx q).matchAt pre (List.replicate m '\\' ++ c :: cs) = none := by
          cases hm : (closingRx q).matchAt pre (List.replicate m '\\' ++ c :: cs) with
          | none => rfl
          | some M =>
            obtain ⟨h1, r, e, _⟩ := here M hm
            cases e
            exact absurd ⟨rfl, h1⟩ hcq
        have hgo : (closingRx q).searchFrom pre (List.replicate m '\\' ++ c :: cs) =
            (closingRx q).searchFrom (c :: (List.replicate m '\\' ++ pre)) cs := by
          cases m with
          | zero => exact closing_search_cons hn
          | succ m =>
            have e : List.replicate (m + 1) '\\' ++ pre = List.replicate m '\\' ++ ('\\' :: pre) := by
              rw [← List.replicate_append_replicate (n := m) (m := 1), List.append_assoc]; rfl
            rw [e]
            rw [List.replicate_succ, List.cons_append] at hn ⊢
            rw [closing_search_cons hn, closing_search_run m _ _ rfl]
            apply closing_search_cons
            apply closing_behind
            cases m with
            | zero => rfl
            | succ m => rfl
        have := ih (c :: (List.replicate m '\\' ++ pre)) cs (by simp at hl; omega) (by simpa using hc)
        rw [hgo]
        cases hca : closeAfter q false cs with
        | none => rw [hca] at this; exact this
        | some r =>
          rw [hca] at this
          obtain ⟨M, h1, h2⟩ := this
          refine ⟨M, h1, ?_⟩
          simp only [List.length_append, List.length_cons, List.length_replicate] at h2 ⊢
          omega

theorem closeAfter_append {q : Char} {ws : Str} (hws : ∀ c ∈ ws, c ≠ q) : ∀ (s : Str) (b : Bool),
    closeAfter q b (s ++ ws) = (closeAfter q b s).map (· ++ ws) := by
  intro s
  induction s with
  | nil =>
    intro b
    rw [List.nil_append]
    show closeAfter q b ws = none
    induction ws generalizing b with
    | nil => rfl
    | cons c ws ih =>
      have : (c == q) = false := by simpa using hws c List.mem_cons_self
      rw [closeAfter, this, Bool.false_and]
      simp only [Bool.false_eq_true, if_false]
      exact ih (fun d hd => hws d (List.mem_cons_of_mem _ hd)) _
  | cons c s ih =>
    intro b
    rw [List.cons_append, closeAfter, closeAfter]
    split
    · rfl
    · exact ih _

/-- What the loop over a title's lines looks at. -/
theorem closing_line {q : Char} (hq : q ≠ '\\') (hw : isWs q = false) (line : Str) :
    match closeAfter q false line with
    | none => (closingRx q).search (rstrip line) = none
    | some r => ∃ m, (closingRx q).search (rstrip line) = some m ∧ (m.stop == (rstrip line).length) = r.all isWs := by
  obtain ⟨ws, e, hws⟩ := rstripBy_split isWs line
  have e' : line = rstrip line ++ ws := e
  have h := closing_search hq _ [] (rstrip line) (Nat.le_refl _) (by simp)
  have hne : ∀ c ∈ ws, c ≠ q := by
    rintro c hc rfl
    rw [hws c hc] at hw
    cases hw
  have hca : closeAfter q false line = (closeAfter q false (rstrip line)).map (· ++ ws) := by
    rw [← closeAfter_append hne, ← e']
  rw [hca]
  cases hr : closeAfter q false (rstrip line) with
  | none => rw [hr] at h; exact h
  | some r =>
    rw [hr] at h
    obtain ⟨m, h1, h2⟩ := h
    refine ⟨m, h1, ?_⟩
    simp only [List.length_nil, Nat.zero_add] at h2
    have hwall : ws.all isWs = true := by rw [List.all_eq_true]; exact hws
    rw [List.all_append, hwall, Bool.and_true]
    -- what is behind the mark is a tail of the stripped line
    have hsuf : ∀ (s : Str) (b : Bool) (r : Str), closeAfter q b s = some r → ∃ u, s = u ++ r := by
      intro s
      induction s with
      | nil => intro b r h; cases h
      | cons c s ih =>
        intro b r h
        rw [closeAfter] at h
        split at h
        · cases h; exact ⟨[c], rfl⟩
        · obtain ⟨u, rfl⟩ := ih _ _ h
          exact ⟨c :: u, rfl⟩
    obtain ⟨u, hu⟩ := hsuf _ _ _ hr
    rcases List.eq_nil_or_concat r with rfl | ⟨r', c, rfl⟩
    · simp only [List.length_nil, Nat.add_zero] at h2
      simp [h2]
    · rw [List.concat_eq_append] at hu h2 ⊢
      have hc : isWs c = false := by
        rcases rstrip_last line with h0 | ⟨x, d, h0, hd⟩
        · rw [h0] at hu; simp at hu
        · rw [h0, ← List.append_assoc] at hu
          have := List.append_inj_right' hu rfl
          simp only [List.cons.injEq, and_true] at this
          rw [← this]; exact hd
      have h3 : (m.stop == (rstrip line).length) = false := by
        simp only [List.length_append, List.length_cons, List.length_nil] at h2
        simp only [beq_eq_false_iff_ne, ne_eq]
        omega
      rw [h3]
      simp [hc]

theorem titleLoop_run {q : Char} (hq : q ≠ '\\') (hw : isWs q = false) : ∀ (more : List Str) (line : Str) (b : Bool) (i : Nat),
    titleLoop q b i line more = ((titleRun q line more).2 || b, i + (titleRun q line more).1) := by
  intro more
  induction more with
  | nil =>
    intro line b i
    have h := closing_line hq hw line
    rw [titleLoop, titleRun]
    cases hc : closeAfter q false line with
    | none => rw [hc] at h; simp only at h; rw [h]; simp
    | some r =>
      rw [hc] at h
      obtain ⟨m, h1, h2⟩ := h
      rw [h1]
      simp only [h2]
      split <;> simp
  | cons next more ih =>
    intro line b i
    have h := closing_line hq hw line
    rw [titleLoop, titleRun]
    cases hc : closeAfter q false line with
    | none =>
      rw [hc] at h; simp only at h; rw [h]
      simp only
      rw [ih]
      congr 1
      omega
    | some r =>
      rw [hc] at h
      obtain ⟨m, h1, h2⟩ := h
      rw [h1]
      simp only [h2]
      split <;> simp

/-! ## The parts of a definition -/

theorem labelRest_spec (l : Str) (h4 : getIndent l < 4) :
    match labelRest l with
    | none => lrdFirstRx.match? (lstrip l) = none
    | some r => ∃ m, lrdFirstRx.match? (lstrip l) = some m ∧ (lstrip l).drop m.stop = r := by
  have hn : labelRest l = none → lrdFirstRx.match? (lstrip l) = none := by
    intro h
    cases hm : lrdFirstRx.match? (lstrip l) with
    | none => rfl
    | some m =>
      exfalso
      obtain ⟨name, r, e, h1, h2, h3⟩ := lrdFirst_shape hm
      have hp : ∀ c ∈ name, (c != ']') = true := by
        intro c hc
        simp only [bne_iff_ne, ne_eq]
        rintro rfl
        exact h3 hc
      have e' : l.dropWhile isWs = '[' :: (name ++ ']' :: ':' :: r) := e
      rw [labelRest, if_neg (by omega), e'] at h
      have e5 : (']' :: ':' :: r).dropWhile (· != ']') = ']' :: ':' :: r := rfl
      have e6 := takeWhile_append_stop (· != ']') name (':' :: r) ']' hp (by simp)
      simp only [dropWhile_append_all _ _ _ hp, e5, e6] at h
      rw [if_pos ⟨List.length_pos_iff.2 h1, h2⟩] at h
      cases h
  cases hl : labelRest l with
  | none => exact hn hl
  | some r =>
    rw [labelRest, if_neg (by omega)] at hl
    split at hl
    · rename_i s hs
      split at hl
      · rename_i r' hd
        split at hl
        · rename_i hlen
          cases hl
          have e : lstrip l = '[' :: (s.takeWhile (· != ']') ++ (']' :: ':' :: r)) := by
            have : s = s.takeWhile (· != ']') ++ s.dropWhile (· != ']') := (List.takeWhile_append_dropWhile).symm
            rw [hd] at this
            rw [← this]
            exact hs
          have hnot : ']' ∉ s.takeWhile (· != ']') := by
            intro h
            have := takeWhile_all _ _ _ h
            simp at this
          obtain ⟨m, h1, h2⟩ := lrdFirst_intro (r := r) (List.length_pos_iff.1 hlen.1) hlen.2 hnot
          refine ⟨m, by rw [e]; exact h1, ?_⟩
          rw [e, h2]
          rw [show '[' :: (s.takeWhile (· != ']') ++ ']' :: ':' :: r) = ('[' :: (s.takeWhile (· != ']') ++ [']', ':'])) ++ r by simp]
          rw [List.drop_append_of_le_length (by simp)]
          rw [List.drop_eq_nil_of_le (by simp)]
          rfl
        · cases hl
      · cases hl
    · cases hl

theorem splitMax1_word (s : Str) :
    match behindWord s with
    | none => splitMax1 s = []
    | some [] => ∃ w, splitMax1 s = [w]
    | some (c :: t) => ∃ w, splitMax1 s = [w, c :: t] := by
  rw [behindWord, splitMax1]
  have : lstrip s = s.dropWhile isWs := rfl
  rw [this]
  cases s.dropWhile isWs with
  | nil => rfl
  | cons c r =>
    simp only
    have : lstrip ((c :: r).dropWhile fun x => !isWs x) = ((c :: r).dropWhile fun x => !isWs x).dropWhile isWs := rfl
    rw [this]
    cases ((c :: r).dropWhile fun x => !isWs x).dropWhile isWs with
    | nil => exact ⟨_, rfl⟩
    | cons d r' => exact ⟨_, rfl⟩

/-- Cutting off the first `k` lines. -/
def cutAt (lines : List Str) (k : Nat) : List Str × List Str := (lines.take k, lines.drop k)

theorem isQuoteMark {q : Char} (h : (q == '\'' || q == '"') = true) : q ≠ '\\' ∧ isWs q = false := by
  simp only [Bool.or_eq_true, beq_iff_eq] at h
  rcases h with rfl | rfl <;> decide

theorem quoteMark_strip {q : Char} (rest : Str) (h : (q == '\'' || q == '"') = true) :
    (!(strip (q :: rest)).isEmpty && (q == '\'' || q == '"')) = true := by
  obtain ⟨r', h'⟩ := strip_cons_head (c := q) (r := rest) (isQuoteMark h).2
  rw [h', h]; rfl

theorem lrdFinish_needed (lines : List Str) (i : Nat) (title : Str) (gen : List Str) :
    lrdFinish lines false i title gen = .ok (cutAt lines (titleNeeded i title gen)) := by
  cases title with
  | nil => simp only [lrdFinish, titleNeeded, cutAt]; rfl
  | cons q rest =>
    rw [lrdFinish, titleNeeded]
    cases hq : (q == '\'' || q == '"') with
    | false => simp only [Bool.and_false, Bool.false_and, Bool.false_eq_true, if_false]; rfl
    | true =>
      have := quoteMark_strip rest hq
      rw [hq] at this
      rw [this]
      simp only [if_true]
      rw [titleLoop_run (isQuoteMark hq).1 (isQuoteMark hq).2]
      cases (titleRun q rest gen).2 <;> simp [cutAt]

theorem lrdFinish_maybe (lines : List Str) (i : Nat) (title : Str) (gen : List Str) :
    lrdFinish lines true i title gen = .ok (cutAt lines (titleMaybe i title gen)) := by
  cases title with
  | nil => simp only [lrdFinish, titleMaybe, cutAt]; rfl
  | cons q rest =>
    rw [lrdFinish, titleMaybe]
    cases hq : (q == '\'' || q == '"') with
    | false => simp only [Bool.and_false, Bool.false_eq_true, if_false]; rfl
    | true =>
      have := quoteMark_strip rest hq
      rw [hq] at this
      rw [this]
      simp only [if_true]
      rw [titleLoop_run (isQuoteMark hq).1 (isQuoteMark hq).2]
      simp [cutAt]

/-- C115: the lines that detection takes as a link definition are exactly those of the specification; the detection
stops with `StopIteration` exactly where the specification says so. -/
theorem C115_definition (lines : List Str) : splitLrd lines = (defLines lines).map (cutAt lines) := by
  cases lines with
  | nil => rfl
  | cons l more =>
    simp only [splitLrd, defLines]
    by_cases h4 : 4 ≤ getIndent l
    · have : labelRest l = none := by rw [labelRest, if_pos h4]
      rw [this]
      simp only
      rw [if_pos h4]
      rfl
    · rw [if_neg h4]
      have hl := labelRest_spec l (by omega)
      cases hr : labelRest l with
      | none =>
        rw [hr] at hl
        simp only at hl
        rw [hl]
        rfl
      | some r =>
        rw [hr] at hl
        obtain ⟨m, h1, h2⟩ := hl
        rw [h1]
        simp only [h2]
        have hw := splitMax1_word r
        cases hb : behindWord r with
        | none =>
          rw [hb] at hw
          simp only at hw
          rw [hw]
          simp only
          cases more with
          | nil => rfl
          | cons l1 more1 =>
            simp only [List.headD_cons, List.drop_succ_cons, List.drop_zero]
            have hw1 := splitMax1_word l1
            by_cases hbr : l1.head? = some '['
            · obtain ⟨x, rfl⟩ : ∃ x, l1 = '[' :: x := by
                cases l1 with
                | nil => simp at hbr
                | cons c x => simp only [List.head?_cons, Option.some.injEq] at hbr; exact ⟨x, by rw [hbr]⟩
              rw [if_pos hbr]
              rfl
            · rw [if_neg hbr]
              have hsw : startsWith l1 c!"[" = false := by
                cases l1 with
                | nil => rfl
                | cons c x =>
                  have : c ≠ '[' := by simpa using hbr
                  simp only [startsWith, List.isPrefixOf, Bool.and_true, beq_eq_false_iff_ne, ne_eq]
                  exact fun e => this e.symm
              rw [hsw, Bool.false_or]
              cases hb1 : behindWord l1 with
              | none =>
                have : lstrip l1 = [] := by
                  rw [behindWord] at hb1
                  split at hb1
                  · assumption
                  · cases hb1
                have hst : strip l1 = [] := (lstrip_eq_nil_iff_strip l1).1 this
                rw [hst]
                rfl
              | some t =>
                have hst : (strip l1).isEmpty = false := by
                  cases hs : strip l1 with
                  | cons => rfl
                  | nil =>
                    have : lstrip l1 = [] := (lstrip_eq_nil_iff_strip l1).2 hs
                    have : l1.dropWhile isWs = [] := this
                    rw [behindWord, this] at hb1
                    cases hb1
                rw [hst]
                simp only [Bool.false_eq_true, if_false]
                rw [hb1] at hw1
                cases t with
                | nil =>
                  obtain ⟨w, hw1⟩ := hw1
                  rw [hw1]
                  simp only
                  cases more1 with
                  | nil => rfl
                  | cons l2 more2 => exact lrdFinish_maybe _ _ _ _
                | cons c t =>
                  obtain ⟨w, hw1⟩ := hw1
                  rw [hw1]
                  simp only
                  exact lrdFinish_needed _ _ _ _
        | some t =>
          rw [hb] at hw
          cases t with
          | nil =>
            obtain ⟨w, hw⟩ := hw
            rw [hw]
            simp only
            cases more with
            | nil => rfl
            | cons l1 more1 => exact lrdFinish_maybe _ _ _ _
          | cons c t =>
            obtain ⟨w, hw⟩ := hw
            rw [hw]
            simp only
            exact lrdFinish_needed _ _ _ _

/-- A definition over three lines: an escaped mark does not close the title, a mark behind an escaped backslash does. An
unclosed title that begins a line of its own takes its lines but the last; text behind a title on the link's line leaves
no definition. A label with one word on the last line is stuck. -/
theorem C115_example :
    defLines [c!" [a]: b 'c", c!"d \\' e", c!"f\\\\'  ", c!"g"] = .ok 3 ∧
    defLines [c!"[a]:", c!"b", c!"'c", c!"d"] = .ok 3 ∧
    defLines [c!"[a]: b \"c\" d", c!"e"] = .ok 0 ∧
    defLines [c!"[a]:", c!"b"] = .error .stopIteration ∧
    splitLrd [c!" [a]: b 'c", c!"d \\' e", c!"f\\\\'  ", c!"g"] =
      .ok ([c!" [a]: b 'c", c!"d \\' e", c!"f\\\\'  "], [c!"g"]) := by
  refine ⟨by decide +kernel, by decide +kernel, by decide +kernel, by decide +kernel, by decide +kernel⟩

end MF
