import Verif.Lemmas.Rx
import Verif.Model.Lines
/-!
# What the line predicates say about the first characters of a line
-/

namespace MF

theorem startsWith_iff (s p : Str) : startsWith s p = true ↔ ∃ r, s = p ++ r := by
  unfold startsWith
  rw [List.isPrefixOf_iff_prefix]
  constructor
  · rintro ⟨r, h⟩; exact ⟨r, h.symm⟩
  · rintro ⟨r, h⟩; exact ⟨r, h.symm⟩

theorem startsWith_single (s : Str) (c : Char) : startsWith s [c] = true ↔ ∃ r, s = c :: r := by
  rw [startsWith_iff]; rfl

theorem endsWith_iff (s p : Str) : endsWith s p = true ↔ ∃ r, s = r ++ p := by
  unfold endsWith
  rw [List.isSuffixOf_iff_suffix]
  constructor
  · rintro ⟨r, h⟩; exact ⟨r, h.symm⟩
  · rintro ⟨r, h⟩; exact ⟨r, h.symm⟩

theorem Rx.search_bol {r : Rx} {l : Str} {m : Match} (h : (Rx.seq .bol r).search l = some m) :
    (Rx.seq .bol r).matchAt [] l = some m := by
  obtain ⟨u, post, h1, h2⟩ := Rx.searchFrom_sound l h
  obtain ⟨st, hst, _⟩ := Rx.matchAt_sound h2
  obtain ⟨m', ⟨hb, _⟩, _⟩ := hst
  have hu : u = [] := by simpa using hb
  subst hu
  have : post = l := by simpa using h1.symm
  subst this
  simpa using h2

theorem Rx.search_of_matchAt {r : Rx} {l : Str} {m : Match} (h : r.matchAt [] l = some m) : r.search l = some m := by
  unfold Rx.search
  cases l with
  | nil => exact h
  | cons c cs => simp only [Rx.searchFrom, h]

theorem Rx.search_bol_eq (r : Rx) (l : Str) : (Rx.seq .bol r).search l = (Rx.seq .bol r).matchAt [] l := by
  cases h : (Rx.seq .bol r).matchAt [] l with
  | some m => exact Rx.search_of_matchAt h
  | none =>
    cases h2 : (Rx.seq .bol r).search l with
    | none => rfl
    | some m => rw [Rx.search_bol h2] at h; cases h

theorem digit_not_ws {c : Char} (h : isDigit c = true) : isWs c = false := by
  unfold isDigit at h
  unfold isWs
  simp only [Bool.and_eq_true, decide_eq_true_eq] at h
  obtain ⟨h1, h2⟩ := h
  simp only [Bool.or_eq_false_iff, Bool.and_eq_false_iff, decide_eq_false_iff_not, beq_eq_false_iff_ne]
  refine ⟨⟨⟨⟨⟨⟨⟨⟨⟨⟨?_, ?_⟩, ?_⟩, ?_⟩, ?_⟩, ?_⟩, ?_⟩, ?_⟩, ?_⟩, ?_⟩, ?_⟩ <;> omega

theorem isBulletStart_iff (l : Str) : (bulletStartRx.search l).isSome = true ↔
    ∃ c r, lstrip l = c :: ' ' :: r ∧ (c = '*' ∨ c = '+' ∨ c = '-') := by
  have hws : ∀ c, (c = '*' ∨ c = '+' ∨ c = '-') → isWs c = false := by
    rintro c (rfl | rfl | rfl) <;> decide
  unfold bulletStartRx
  simp only [Rx.seqs]
  rw [Rx.search_bol_eq]
  constructor
  · intro h
    obtain ⟨m, hm⟩ := Option.isSome_iff_exists.1 h
    obtain ⟨st, hst, _⟩ := Rx.matchAt_sound hm
    obtain ⟨m1, ⟨_, rfl⟩, m2, h2, m3, ⟨c, cs, hc1, hc2, rfl⟩, ⟨d, ds, hd1, hd2, rfl⟩⟩ := hst
    obtain ⟨u, hu, hall, _⟩ := repStep_chr h2
    simp only at hd1 hc1 hd2
    have hd : d = ' ' := by simpa using hd2
    have hc : c = '*' ∨ c = '+' ∨ c = '-' := by simpa [or_assoc] using hc2
    refine ⟨c, ds, ?_, hc⟩
    have h1 := hu.1
    simp only at h1
    rw [h1, hc1, hd1, hd, lstrip_append_ws _ _ hall, lstrip_cons_of_not _ _ (hws c hc)]
  · rintro ⟨c, r, h, hc⟩
    obtain ⟨t, ht, hall⟩ := lstrip_split l
    refine Rx.matchAt_isSome (st' := ⟨' ' :: c :: (t.reverse ++ []), r, []⟩) ?_
    refine ⟨_, ⟨rfl, rfl⟩, ⟨t.reverse ++ [], c :: ' ' :: r, []⟩, ?_,
      ⟨c :: (t.reverse ++ []), ' ' :: r, []⟩, ?_, ?_⟩
    · have := repStep_chr_intro (p := isWs) t hall (mn := 0) (mx := none) (pre := []) (post := lstrip l) (caps := [])
        (Nat.zero_le _) (by intro m hm; cases hm)
      rw [h] at this
      rw [ht, h]
      exact this
    · exact ⟨c, ' ' :: r, rfl, by rcases hc with rfl | rfl | rfl <;> decide, rfl⟩
    · exact ⟨' ', r, rfl, by decide, rfl⟩

theorem isOrderedStart_iff (l : Str) : (orderedStartRx.search l).isSome = true ↔
    ∃ d r, lstrip l = d ++ '.' :: ' ' :: r ∧ d ≠ [] ∧ ∀ c ∈ d, isDigit c = true := by
  unfold orderedStartRx
  simp only [Rx.seqs]
  rw [Rx.search_bol_eq]
  constructor
  · intro h
    obtain ⟨m, hm⟩ := Option.isSome_iff_exists.1 h
    obtain ⟨st, hst, _⟩ := Rx.matchAt_sound hm
    obtain ⟨m1, ⟨_, rfl⟩, m2, h2, m3, ⟨m4, ⟨m5, h5, ⟨e, es, he1, he2, rfl⟩⟩, rfl⟩, ⟨c, cs, hc1, hc2, rfl⟩⟩ := hst
    obtain ⟨u, hu, hall, _⟩ := repStep_chr h2
    obtain ⟨d, hd, hdall, hdlen, _⟩ := repStep_chr h5
    simp only at he1 he2 hc1 hc2
    have he : e = '.' := by simpa using he2
    have hc : c = ' ' := by simpa using hc2
    have hdne : d ≠ [] := by intro h0; rw [h0] at hdlen; simp at hdlen
    refine ⟨d, cs, ?_, hdne, hdall⟩
    have h1 := hu.1
    simp only at h1
    rw [h1, hd.1, he1, hc1, he, hc, lstrip_append_ws _ _ hall]
    cases d with
    | nil => exact absurd rfl hdne
    | cons x d => exact lstrip_cons_of_not _ _ (digit_not_ws (hdall x (by simp)))
  · rintro ⟨d, r, h, hdne, hd⟩
    obtain ⟨t, ht, hall⟩ := lstrip_split l
    suffices hex : ∃ st', Rx.Step _ ⟨[], l, []⟩ st' by
      obtain ⟨st', h'⟩ := hex
      exact Rx.matchAt_isSome h'
    refine ⟨_, _, ⟨rfl, rfl⟩, ⟨t.reverse ++ [], d ++ '.' :: ' ' :: r, []⟩, ?_, _,
      ⟨⟨'.' :: (d.reverse ++ (t.reverse ++ [])), ' ' :: r, []⟩,
        ⟨⟨d.reverse ++ (t.reverse ++ []), '.' :: ' ' :: r, []⟩, ?_, ?_⟩, rfl⟩, ' ', r, rfl, by decide, rfl⟩
    · have := repStep_chr_intro (p := isWs) t hall (mn := 0) (mx := none) (pre := []) (post := lstrip l) (caps := [])
        (Nat.zero_le _) (by intro m hm; cases hm)
      rw [h] at this
      rw [ht, h]
      exact this
    · exact repStep_chr_intro (p := isDigit) d hd (by cases d; exact absurd rfl hdne; simp) (by intro m hm; cases hm)
    · exact ⟨'.', ' ' :: r, rfl, by decide, rfl⟩

/-- first character that is not whitespace -/
def firstCh (l : Str) : Option Char := (lstrip l).head?

theorem firstCh_none (l : Str) : firstCh l = none ↔ isBlankLine l = true := by
  unfold firstCh isBlankLine
  rw [List.head?_eq_none_iff, lstrip_eq_nil_iff_strip]
  simp

theorem firstCh_strip (l : Str) : (strip l).head? = firstCh l := by
  unfold firstCh
  cases h : lstrip l with
  | nil => rw [(lstrip_eq_nil_iff_strip l).1 h]
  | cons c r =>
    obtain ⟨r', h'⟩ := strip_head_eq_lstrip_head l h
    rw [h']; rfl

theorem isAtx_first {l : Str} (h : isAtx l = true) : firstCh l = some '#' := by
  unfold isAtx at h
  simp only [Bool.and_eq_true] at h
  obtain ⟨r, hr⟩ := (startsWith_single _ _).1 h.2
  unfold firstCh; rw [hr]; rfl

theorem isQuote_first {l : Str} (h : isQuote l = true) : firstCh l = some '>' := by
  unfold isQuote at h
  simp only [Bool.and_eq_true] at h
  obtain ⟨r, hr⟩ := (startsWith_single _ _).1 h.2
  unfold firstCh; rw [hr]; rfl

theorem isTableStart_first {l : Str} : isTableStart l = true ↔ firstCh l = some '|' := by
  unfold isTableStart firstCh
  rw [startsWith_single]
  constructor
  · rintro ⟨r, hr⟩; rw [hr]; rfl
  · intro h
    cases hl : lstrip l with
    | nil => rw [hl] at h; cases h
    | cons c r => rw [hl] at h; cases h; exact ⟨r, rfl⟩

theorem isFenceStart_first {l : Str} (h : isFenceStart l = true) : firstCh l = some '`' ∨ firstCh l = some '~' := by
  unfold isFenceStart at h
  rw [← firstCh_strip]
  simp only [List.any_cons, List.any_nil, Bool.or_false, Bool.or_eq_true] at h
  rcases h with h | h
  · obtain ⟨r, hr⟩ := (startsWith_iff _ _).1 h; rw [hr]; left; rfl
  · obtain ⟨r, hr⟩ := (startsWith_iff _ _).1 h; rw [hr]; right; rfl

theorem isBulletStart_first {l : Str} (h : isBulletStart l = true) :
    ∃ c, firstCh l = some c ∧ (c = '*' ∨ c = '+' ∨ c = '-') := by
  unfold isBulletStart at h
  simp only [Bool.and_eq_true] at h
  obtain ⟨c, r, hr, hc⟩ := (isBulletStart_iff l).1 h.2
  exact ⟨c, by unfold firstCh; rw [hr]; rfl, hc⟩

theorem isOrderedStart_first {l : Str} (h : isOrderedStart l = true) : ∃ c, firstCh l = some c ∧ isDigit c = true := by
  unfold isOrderedStart at h
  simp only [Bool.and_eq_true] at h
  obtain ⟨d, r, hr, hne, hd⟩ := (isOrderedStart_iff l).1 h.2
  cases d with
  | nil => exact absurd rfl hne
  | cons c d => exact ⟨c, by unfold firstCh; rw [hr]; rfl, hd c (by simp)⟩

theorem splitWs_flatten (l : Str) : (splitWs l).flatten = l.filter (fun c => !isWs c) := by
  induction l with
  | nil => rfl
  | cons c r ih =>
    simp only [splitWs]
    by_cases hc : isWs c = true
    · simp [hc, ih]
    · have hc' : isWs c = false := Bool.eq_false_iff.2 hc
      cases r with
      | nil => simp [hc']
      | cons d r =>
        by_cases hd : isWs d = true
        · simp only [hc', hd, if_true, Bool.false_eq_true, if_false, List.flatten_cons, ih]
          simp [hc']
        · simp only [hc', hd, if_false, Bool.false_eq_true]
          have hcons : ∀ ss : List Str, (consHead c ss).flatten = c :: ss.flatten := by
            intro ss; cases ss <;> rfl
          rw [hcons, ih]
          simp [hc', hd]

theorem spaceless_eq (l : Str) : spaceless l = l.filter (fun c => !isWs c) := splitWs_flatten l

theorem strip_noWs (s : Str) (h : ∀ c ∈ s, isWs c = false) : strip s = s := by
  apply strip_eq_self_of
  · intro c r hs; exact h c (by rw [hs]; simp)
  · intro r c hs; exact h c (by rw [hs]; simp)

theorem isThematic_iff (l : Str) : isThematic l = true ↔ isIndentedStart l = false ∧
    ∃ c, (c = '*' ∨ c = '_' ∨ c = '-') ∧ 3 ≤ (l.filter (fun x => !isWs x)).length ∧
      ∀ x ∈ l, isWs x = false → x = c := by
  unfold isThematic
  rw [spaceless_eq]
  have hstrip : strip (l.filter (fun x => !isWs x)) = l.filter (fun x => !isWs x) := by
    apply strip_noWs
    intro c hc
    simpa using (List.mem_filter.1 hc).2
  simp only [hstrip]
  by_cases hi : isIndentedStart l = true
  · simp [hi]
  · simp only [hi, Bool.false_eq_true, if_false, true_and]
    split
    · rename_i hlt
      constructor
      · intro h; cases h
      · rintro ⟨c, _, h3, _⟩; omega
    · rename_i hge
      simp only [List.any_cons, List.any_nil, Bool.or_false, Bool.or_eq_true, List.all_eq_true, List.mem_filter,
        Bool.not_eq_true', beq_iff_eq, and_imp]
      constructor
      · rintro (h | h | h)
        · exact ⟨'*', by simp, by omega, h⟩
        · exact ⟨'_', by simp, by omega, h⟩
        · exact ⟨'-', by simp, by omega, h⟩
      · rintro ⟨c, hc, _, h⟩
        rcases hc with rfl | rfl | rfl
        · exact .inl h
        · exact .inr (.inl h)
        · exact .inr (.inr h)

theorem isThematic_first {l : Str} (h : isThematic l = true) :
    ∃ c, firstCh l = some c ∧ (c = '*' ∨ c = '_' ∨ c = '-') := by
  obtain ⟨_, c, hc, h3, hall⟩ := (isThematic_iff l).1 h
  unfold firstCh
  rcases lstrip_head l with h0 | ⟨d, r, hd, hdw⟩
  · have := (lstrip_eq_nil l).1 h0
    have hz : l.filter (fun x => !isWs x) = [] := by
      rw [List.filter_eq_nil_iff]; intro x hx; simp [this x hx]
    rw [hz] at h3; simp at h3
  · have hmem : d ∈ l := mem_of_mem_lstrip (by rw [hd]; simp)
    have := hall d hmem hdw
    subst this
    exact ⟨d, by rw [hd]; rfl, hc⟩

theorem firstCh_not_ws {l : Str} {c : Char} (h : firstCh l = some c) : isWs c = false := by
  unfold firstCh at h
  rcases lstrip_head l with h0 | ⟨d, r, hd, hdw⟩
  · rw [h0] at h; cases h
  · rw [hd] at h; cases h; exact hdw

theorem getIndent_ws_append {ws l : Str} (h : ∀ c ∈ ws, isWs c = true) : getIndent (ws ++ l) = ws.length + getIndent l := by
  unfold getIndent
  rw [lstrip_append_ws _ _ h]
  have : (lstrip l).length ≤ l.length := by
    obtain ⟨t, ht, _⟩ := lstrip_split l
    rw [ht, lstrip_append_ws t _ (by assumption), lstrip_idem]; simp
  simp; omega

theorem getIndent_not_ws {c : Char} {r : Str} (h : isWs c = false) : getIndent (c :: r) = 0 := by
  unfold getIndent
  rw [lstrip_cons_of_not c r h]; simp

end MF
