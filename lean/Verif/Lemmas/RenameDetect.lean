import Verif.Lemmas.Rename
import Verif.Model.Detect
/-!
# Renaming of characters: section detection
-/

namespace MF

/-- The renamed result of a splitter. -/
def splitRn (f : Char → Char) (r : Split) : Split := r.map fun p => (p.1.map (List.map f), p.2.map (List.map f))

/-- A splitter does not see a renaming. -/
def Carries (f : Char → Char) (s : List Str → Split) : Prop := ∀ ls, s (ls.map (List.map f)) = splitRn f (s ls)

/-- The renamed sections. -/
def secsRn (f : Char → Char) (xs : List (Sec × List Str)) : List (Sec × List Str) := xs.map fun p => (p.1, p.2.map (List.map f))

/-- What `parse` returns does not see a renaming. -/
def CarriesP (f : Char → Char) (prs : List Str → Except Err (List (Sec × List Str))) : Prop :=
  ∀ ls, prs (ls.map (List.map f)) = (prs ls).map (secsRn f)

section
variable {f : Char → Char} [Mask f]

local notation "ρ" => List.map f
local notation "ρs" => List.map (List.map f)

theorem ren_splitAtx : Carries f splitAtx := by
  intro ls
  cases ls with
  | nil => rfl
  | cons l ls => simp only [List.map_cons, splitAtx, ren_isAtx]; split <;> rfl

theorem ren_splitBlank : Carries f splitBlank := by
  intro ls
  cases ls with
  | nil => rfl
  | cons l ls => simp only [List.map_cons, splitBlank, ren_isBlankLine]; split <;> rfl

theorem ren_splitThematic : Carries f splitThematic := by
  intro ls
  cases ls with
  | nil => rfl
  | cons l ls => simp only [List.map_cons, splitThematic, ren_isThematic]; split <;> rfl

theorem ren_listLoop (i : Nat) (ls : List Str) : listLoop i (ρs ls) = (ρs (listLoop i ls).1, (listLoop i ls).2) := by
  induction ls generalizing i with
  | nil => rfl
  | cons l ls ih =>
    simp only [List.map_cons, listLoop, ren_isBlankLine, ren_isTableStart, ren_isThematic, ih]
    split <;> rfl

theorem ren_splitBullet : Carries f splitBullet := by
  intro ls
  cases ls with
  | nil => rfl
  | cons l ls =>
    simp only [List.map_cons, splitBullet, ren_isBulletStart, ren_listLoop]
    split
    · rfl
    · simp only [splitRn, Except.map, List.map_cons, List.map_drop]

theorem ren_splitOrdered : Carries f splitOrdered := by
  intro ls
  cases ls with
  | nil => rfl
  | cons l ls =>
    simp only [List.map_cons, splitOrdered, ren_isOrderedStart, ren_listLoop]
    split
    · rfl
    · simp only [splitRn, Except.map, List.map_cons, List.map_drop]

theorem ren_openFence (l : Str) : openFence (ρ l) = openFence l := by
  simp only [openFence, List.findSome?_cons, List.findSome?_nil, ren_strip, ren_lstrip,
    ren_startsWith (p := List.replicate 3 '`') (by decide), ren_startsWith (p := List.replicate 3 '~') (by decide), List.length_map,
    ren_lstripBy (f := f) (p := (· == '`')) (q := (· == '`')) (fun c => ren_beq (by decide) c),
    ren_lstripBy (f := f) (p := (· == '~')) (q := (· == '~')) (fun c => ren_beq (by decide) c)]

theorem openFence_marks {l s : Str} (h : openFence l = some s) : s.all isMark = true := by
  simp only [openFence, List.findSome?_cons, List.findSome?_nil] at h
  split at h
  · rename_i x hx
    split at hx
    · cases hx; cases h; simp [List.all_replicate, show isMark '`' = true by decide]
    · cases hx
  · split at h
    · rename_i x hx
      split at hx
      · cases hx; cases h; simp [List.all_replicate, show isMark '~' = true by decide]
      · cases hx
    · cases h

theorem ren_fenceLoop {full : Str} (hf : full.all isMark = true) (i : Nat) (ls : List Str) :
    fenceLoop full i (ρs ls) = (ρs (fenceLoop full i ls).1, (fenceLoop full i ls).2) := by
  induction ls generalizing i with
  | nil => rfl
  | cons l ls ih =>
    have h := ren_mark_beq (f := f) hf (strip l)
    simp only [List.map_cons, fenceLoop, ren_strip, h, ih]
    split <;> rfl

theorem ren_splitFenced : Carries f splitFenced := by
  intro ls
  cases ls with
  | nil => rfl
  | cons l ls =>
    simp only [List.map_cons, splitFenced, ren_openFence]
    cases h : openFence l with
    | none => rfl
    | some full =>
      simp only [ren_fenceLoop (openFence_marks h), splitRn, Except.map, List.map_cons, List.map_drop]

theorem ren_indentLoop (i c : Nat) (ls : List Str) : indentLoop i c (ρs ls) = indentLoop i c ls := by
  induction ls generalizing i c with
  | nil => rfl
  | cons l ls ih => simp only [List.map_cons, indentLoop, ren_strip, ren_isEmpty, ren_getIndent, ih]

theorem ren_splitIndented : Carries f splitIndented := by
  intro ls
  cases ls with
  | nil => rfl
  | cons l ls =>
    simp only [List.map_cons, splitIndented, ren_strip, ren_isEmpty, ren_getIndent, ren_indentLoop]
    split
    · simp only [splitRn, Except.map, List.map_take, List.map_drop, List.map_cons]
    · rfl

theorem ren_tableLoop (i : Nat) (ls : List Str) : tableLoop i (ρs ls) = (ρs (tableLoop i ls).1, (tableLoop i ls).2) := by
  induction ls generalizing i with
  | nil => rfl
  | cons l ls ih =>
    simp only [List.map_cons, tableLoop, ren_isTableStart, ih]
    split <;> rfl

theorem ren_splitTable : Carries f splitTable := by
  intro ls
  cases ls with
  | nil => rfl
  | cons l ls =>
    simp only [List.map_cons, splitTable, ren_isTableStart, ren_tableLoop]
    split
    · simp only [splitRn, Except.map, List.map_cons, List.map_drop]
    · rfl

theorem inv_lrdFirst : lrdFirstRx.Inv f := by
  simp only [lrdFirstRx, Rx.seqs, Rx.Inv, bne, ren_lits, implies_true, and_self]

theorem inv_closing {q : Char} (hq : isMark q = true) : (closingRx q).Inv f := by
  simp only [closingRx, Rx.seqs, Rx.star, Rx.Inv, ren_lits, ren_beq hq, implies_true, and_self]

theorem ren_titleLoop {q : Char} (hq : isMark q = true) (b : Bool) (i : Nat) (l : Str) (ls : List Str) :
    titleLoop q b i (ρ l) (ρs ls) = titleLoop q b i l ls := by
  induction ls generalizing i l with
  | nil =>
    simp only [List.map_nil, titleLoop, ren_rstrip, ren_search (inv_closing hq), List.length_map]
    cases (closingRx q).search (rstrip l) <;> rfl
  | cons x ls ih =>
    simp only [List.map_cons, titleLoop, ren_rstrip, ren_search (inv_closing hq), List.length_map, ih]
    cases (closingRx q).search (rstrip l) <;> rfl

theorem ren_lrdFinish (ls : List Str) (b : Bool) (i : Nat) (t : Str) (gen : List Str) :
    lrdFinish (ρs ls) b i (ρ t) (ρs gen) = splitRn f (lrdFinish ls b i t gen) := by
  have key : ∀ r : Bool × Nat, (if r.1 then (Except.ok ((ρs ls).take r.2, (ρs ls).drop r.2) : Split) else .ok ([], ρs ls)) =
      splitRn f (if r.1 then .ok (ls.take r.2, ls.drop r.2) else .ok ([], ls)) := by
    intro r
    split <;> simp only [splitRn, Except.map, List.map_take, List.map_drop, List.map_nil]
  unfold lrdFinish
  cases t with
  | nil => exact key _
  | cons q rest =>
    have hs := ren_strip (f := f) (q :: rest)
    rw [List.map_cons] at hs
    simp only [List.map_cons, hs, ren_isEmpty, ren_lits]
    by_cases hq : (!(strip (q :: rest)).isEmpty && (q == '\'' || q == '"')) = true
    · have hm : isMark q = true := by
        simp only [Bool.and_eq_true, Bool.or_eq_true, beq_iff_eq] at hq
        rcases hq.2 with rfl | rfl <;> decide
      simp only [hq, if_true, Mask.fix (f := f) hm, ren_titleLoop hm]
      exact key _
    · simp only [hq]
      exact key _

theorem ren_splitLrd : Carries f splitLrd := by
  intro ls
  cases ls with
  | nil => rfl
  | cons l0 tail0 =>
    simp only [List.map_cons, splitLrd, ren_getIndent, ren_lstrip, ren_match? inv_lrdFirst]
    split
    · rfl
    · cases hm : lrdFirstRx.match? (lstrip l0) with
      | none => rfl
      | some m =>
        simp only [Option.map_some, Match.rn, ← List.map_drop, ren_splitMax1]
        match hw : splitMax1 (List.drop m.stop (lstrip l0)) with
        | [_, title] =>
          simp only [List.map_cons, List.map_nil]
          exact ren_lrdFinish (l0 :: _) _ _ _ _
        | [_] =>
          simp only [List.map_cons, List.map_nil]
          cases tail0 with
          | nil => exact ren_lrdFinish [l0] true 0 [] []
          | cons l1 tail1 => exact ren_lrdFinish (l0 :: _) _ _ _ _
        | [] =>
          simp only [List.map_nil]
          have hh : (ρs tail0).headD [] = ρ (tail0.headD []) := by cases tail0 <;> rfl
          simp only [hh, ren_startsWith (p := ['[']) (by decide), ren_strip, ren_isEmpty, ren_splitMax1]
          split
          · rfl
          · match splitMax1 (tail0.headD []) with
            | [] => rfl
            | [_] =>
              simp only [List.map_cons, List.map_nil]
              cases tail0.drop 1 with
              | nil => rfl
              | cons l2 tail2 => exact ren_lrdFinish (l0 :: _) _ _ _ _
            | _ :: t :: r =>
              simp only [List.map_cons]
              exact ren_lrdFinish (l0 :: _) _ _ _ _
        | a :: b :: c :: r =>
          exfalso
          revert hw
          unfold splitMax1
          split
          · simp
          · split <;> simp

omit [Mask f] in
theorem ren_anySplits (ls : List Str) (fs : List (List Str → Split)) (h : ∀ s ∈ fs, Carries f s) :
    anySplits (ρs ls) fs = anySplits ls fs := by
  induction fs with
  | nil => rfl
  | cons s fs ih =>
    simp only [anySplits, h s (by simp) ls, ih (fun t ht => h t (by simp [ht]))]
    cases s ls with
    | error e => rfl
    | ok r => obtain ⟨a, b⟩ := r; cases a <;> rfl

variable {sbq : List Str → Split}

theorem ren_isParCont (hs : Carries f sbq) (ls : List Str) : isParCont sbq (ρs ls) = isParCont sbq ls := by
  unfold isParCont
  rw [ren_anySplits]
  · cases anySplits ls [splitAtx, splitBlank, sbq, splitBullet, splitFenced, splitOrdered, splitTable, splitThematic] with
    | error e => rfl
    | ok b =>
      cases b with
      | true => rfl
      | false =>
        cases ls with
        | nil => rfl
        | cons l ls => simp [bind, Except.bind, ren_isSetextUnderline]
  · intro s h
    simp only [List.mem_cons, List.not_mem_nil, or_false] at h
    rcases h with rfl | rfl | rfl | rfl | rfl | rfl | rfl | rfl
    · exact ren_splitAtx
    · exact ren_splitBlank
    · exact hs
    · exact ren_splitBullet
    · exact ren_splitFenced
    · exact ren_splitOrdered
    · exact ren_splitTable
    · exact ren_splitThematic

theorem ren_parLoop (hs : Carries f sbq) : Carries f (parLoop sbq) := by
  intro ls
  induction ls with
  | nil => rfl
  | cons l ls ih =>
    have h := ren_isParCont hs (l :: ls)
    rw [List.map_cons] at h
    simp only [List.map_cons, parLoop, h, ren_endsWith (p := [' ', ' ']) (by decide), ih]
    cases isParCont sbq (l :: ls) with
    | error e => rfl
    | ok b =>
      cases b with
      | false => rfl
      | true =>
        simp only [bind, Except.bind, if_true]
        split
        · cases ls <;> rfl
        · cases parLoop sbq ls <;> rfl

theorem ren_splitParIgn (hs : Carries f sbq) : Carries f (splitParIgn sbq) := by
  intro ls
  cases ls with
  | nil => rfl
  | cons l ls =>
    simp only [List.map_cons, splitParIgn, ren_isParStart, ren_endsWith (p := [' ', ' ']) (by decide), ren_parLoop hs ls]
    split
    · split
      · rfl
      · cases parLoop sbq ls <;> rfl
    · rfl

theorem ren_splitPar (hs : Carries f sbq) : Carries f (splitPar sbq) := by
  intro ls
  simp only [splitPar, ren_splitParIgn hs ls]
  cases splitParIgn sbq ls with
  | error e => rfl
  | ok r =>
    obtain ⟨a, b⟩ := r
    cases b with
    | nil => rfl
    | cons l ls => simp only [splitRn, Except.map, bind, Except.bind, List.map_cons, ren_isSetextUnderline]; split <;> rfl

theorem ren_splitSetext (hs : Carries f sbq) : Carries f (splitSetext sbq) := by
  intro ls
  simp only [splitSetext, ren_splitParIgn hs ls]
  cases splitParIgn sbq ls with
  | error e => rfl
  | ok r =>
    obtain ⟨a, b⟩ := r
    cases a with
    | nil => rfl
    | cons p ps =>
      cases b with
      | nil => rfl
      | cons l ls =>
        simp only [splitRn, Except.map, bind, Except.bind, List.map_cons, ren_isSetextUnderline]
        split <;> simp

omit [Mask f] in
theorem ren_firstSection (fs : List (Sec × (List Str → Split))) (h : ∀ s ∈ fs, Carries f s.2) (ls : List Str) :
    firstSection fs (ρs ls) = (firstSection fs ls).map fun r => (r.1, ρs r.2.1, ρs r.2.2) := by
  induction fs generalizing ls with
  | nil => rfl
  | cons s fs ih =>
    obtain ⟨ty, s⟩ := s
    have h1 : s (ρs ls) = splitRn f (s ls) := h (ty, s) (by simp) ls
    simp only [firstSection, h1]
    cases s ls with
    | error e => rfl
    | ok r =>
      obtain ⟨a, b⟩ := r
      cases a with
      | nil => exact ih (fun t ht => h t (by simp [ht])) b
      | cons x a => rfl

theorem carries_splitters (hs : Carries f sbq) : ∀ s ∈ splitters sbq, Carries f s.2 := by
  intro s h
  simp only [splitters, List.mem_cons, List.not_mem_nil, or_false] at h
  rcases h with rfl | rfl | rfl | rfl | rfl | rfl | rfl | rfl | rfl | rfl | rfl | rfl
  · exact ren_splitAtx
  · exact ren_splitBlank
  · exact hs
  · exact ren_splitBullet
  · exact ren_splitFenced
  · exact ren_splitIndented
  · exact ren_splitLrd
  · exact ren_splitOrdered
  · exact ren_splitPar hs
  · exact ren_splitSetext hs
  · exact ren_splitTable
  · exact ren_splitThematic

theorem ren_parseLoop (hs : Carries f sbq) (fuel : Nat) : CarriesP f (parseLoop sbq fuel) := by
  induction fuel with
  | zero => intro ls; cases ls <;> rfl
  | succ fuel ih =>
    intro ls
    cases ls with
    | nil => rfl
    | cons l ls =>
      have h := ren_firstSection (splitters sbq) (carries_splitters hs) (l :: ls)
      rw [List.map_cons] at h
      simp only [List.map_cons, parseLoop, h]
      cases firstSection (splitters sbq) (l :: ls) with
      | error e => rfl
      | ok r =>
        simp only [Except.map, bind, Except.bind, ih r.2.2]
        cases parseLoop sbq fuel r.2.2 <;> rfl

theorem ren_parseWith (hs : Carries f sbq) : CarriesP f (parseWith sbq) := by
  intro ls
  simp only [parseWith, List.length_map, ren_parseLoop hs _ ls]

theorem inv_leadingQuote : leadingQuoteRx.Inv f := by
  simp only [leadingQuoteRx, Rx.seqs, Rx.Inv, ren_lits, implies_true, and_self]

theorem ren_unquote (l : Str) : unquote (ρ l) = ρ (unquote l) := ren_subEmpty inv_leadingQuote l

theorem ren_endsWithPar {prs : List Str → Except Err (List (Sec × List Str))} (hp : CarriesP f prs) (n : Nat) (ls : List Str) :
    endsWithPar prs n (ρs ls) = endsWithPar prs n ls := by
  induction n generalizing ls with
  | zero => rfl
  | succ n ih =>
    have h : (ρs ls).map unquote = ρs (ls.map unquote) := by
      simp only [List.map_map]; congr 1; funext l; exact ren_unquote l
    simp only [endsWithPar, h, hp (ls.map unquote)]
    cases prs (ls.map unquote) with
    | error e => rfl
    | ok secs =>
      simp only [Except.map, bind, Except.bind, secsRn, List.getLast?_map]
      cases secs.getLast? with
      | none => rfl
      | some s =>
        obtain ⟨ty, c⟩ := s
        cases ty <;> first | rfl | exact ih c

theorem ren_isQuoteCont (hs : Carries f sbq) (ls : List Str) : isQuoteCont sbq (ρs ls) = isQuoteCont sbq ls := by
  unfold isQuoteCont
  rw [ren_anySplits]
  · cases anySplits ls [splitAtx, splitBlank, splitBullet, splitFenced, splitOrdered, splitSetext sbq, splitTable, splitThematic] with
    | error e => rfl
    | ok b =>
      cases b with
      | true => rfl
      | false =>
        cases ls with
        | nil => rfl
        | cons l ls => simp [bind, Except.bind, ren_isSetextUnderline]
  · intro s h
    simp only [List.mem_cons, List.not_mem_nil, or_false] at h
    rcases h with rfl | rfl | rfl | rfl | rfl | rfl | rfl | rfl
    · exact ren_splitAtx
    · exact ren_splitBlank
    · exact ren_splitBullet
    · exact ren_splitFenced
    · exact ren_splitOrdered
    · exact ren_splitSetext hs
    · exact ren_splitTable
    · exact ren_splitThematic

theorem ren_contLoop (hs : Carries f sbq) (b : Bool) : Carries f (contLoop sbq b) := by
  intro ls
  induction ls generalizing b with
  | nil => rfl
  | cons l ls ih =>
    have h := ren_isQuoteCont hs (l :: ls)
    rw [List.map_cons] at h
    simp only [List.map_cons, contLoop, h, ren_isSetextUnderline, ren_isThematic, ih]
    cases isQuoteCont sbq (l :: ls) with
    | error e => rfl
    | ok c =>
      cases c with
      | false => rfl
      | true =>
        simp only [bind, Except.bind, if_true]
        split
        · rfl
        · cases contLoop sbq false ls <;> rfl

omit [Mask f] in
theorem ren_takeWhileLines {p : Str → Bool} (h : ∀ l, p (ρ l) = p l) (ls : List Str) :
    (ρs ls).takeWhile p = ρs (ls.takeWhile p) ∧ (ρs ls).dropWhile p = ρs (ls.dropWhile p) := by
  induction ls with
  | nil => exact ⟨rfl, rfl⟩
  | cons l ls ih =>
    simp only [List.map_cons, List.takeWhile_cons, List.dropWhile_cons, h]
    split
    · simp [ih.1, ih.2]
    · simp

theorem ren_quoteLoop {ends : List Str → Except Err Bool} (he : ∀ ls, ends (ρs ls) = ends ls) (hs : Carries f sbq) (fuel : Nat)
    (bq ls : List Str) : quoteLoop ends sbq fuel (ρs bq) (ρs ls) = splitRn f (quoteLoop ends sbq fuel bq ls) := by
  induction fuel generalizing bq ls with
  | zero => rfl
  | succ fuel ih =>
    cases ls with
    | nil => rfl
    | cons l ls =>
      have h := ren_takeWhileLines (f := f) ren_isQuote (l :: ls)
      rw [List.map_cons] at h
      simp only [List.map_cons, quoteLoop, ren_isQuote, h.1, h.2, ← List.map_append, he]
      split
      · rfl
      · cases ends (bq ++ (l :: ls).takeWhile isQuote) with
        | error e => rfl
        | ok b =>
          cases b with
          | false => rfl
          | true =>
            simp only [bind, Except.bind, if_true, ren_contLoop hs true _]
            cases contLoop sbq true ((l :: ls).dropWhile isQuote) with
            | error e => rfl
            | ok r => simp only [splitRn, Except.map, ← List.map_append]; exact ih _ _

theorem ren_splitQuote (n : Nat) : Carries f (splitQuote n) := by
  induction n with
  | zero => intro ls; rfl
  | succ n ih =>
    intro ls
    simp only [splitQuote, List.length_map]
    exact ren_quoteLoop (fun ls => ren_endsWithPar (ren_parseWith ih) n ls) ih _ [] ls

/-- The sections of a renamed text are the renamed sections. -/
theorem ren_parse (n : Nat) : CarriesP f (parse n) := ren_parseWith (ren_splitQuote n)

end

end MF
