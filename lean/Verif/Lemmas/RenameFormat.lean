import Verif.Lemmas.RenameDetect
import Verif.Lemmas.RenameWrap
import Verif.Model.Reformat
import Verif.Props.Lists
/-!
# Renaming of characters: formatters
-/

namespace MF

/-- A formatter of texts does not see a renaming. -/
def CarriesW (f : Char → Char) (sub : Width → Str → Except Err Str) : Prop :=
  ∀ w s, sub w (s.map f) = (sub w s).map (List.map f)

/-- A formatter of texts does not see the renaming of these lines. -/
def CarriesL (f : Char → Char) (sub : Width → Str → Except Err Str) (ls : List Str) : Prop :=
  ∀ w, reformatLines sub (ls.map (List.map f)) w = (reformatLines sub ls w).map (List.map f)

/-- Nor that of the lines nested in these. -/
structure CarriesIn (f : Char → Char) (sub : Width → Str → Except Err Str) (ls : List Str) : Prop where
  quote : CarriesL f sub (quoteInner ls).1
  list : ∀ es ds, splitList ls = .ok es → dedentEntries es = .ok ds → ∀ e ∈ ds, CarriesL f sub e

section
variable {f : Char → Char} [Mask f]

local notation "ρ" => List.map f
local notation "ρs" => List.map (List.map f)

theorem ren_nl : ρ ['\n'] = ['\n'] := ren_fixed (by decide)
theorem ren_sp : ρ [' '] = [' '] := ren_fixed (by decide)

variable {sub : Width → Str → Except Err Str}

theorem ren_reformatLines (h : CarriesW f sub) (ls : List Str) : CarriesL f sub ls := by
  intro w
  simp only [reformatLines, ren_pyJoin (f := f) ren_nl, ← h w, List.map_append, ren_nl]

theorem CarriesW.inside (h : CarriesW f sub) (ls : List Str) : CarriesIn f sub ls :=
  ⟨ren_reformatLines h _, fun _ _ _ _ e _ => ren_reformatLines h e⟩

theorem ren_hash (s : Str) : lstripBy (· == '#') (ρ s) = ρ (lstripBy (· == '#') s) := 
  ren_lstripBy (f := f) (p := (· == '#')) (q := (· == '#')) (fun c => ren_beq (by decide) c) s

theorem ren_atxContent (l : Str) : atxContent (ρ l) = ρ (atxContent l) := by simp only [atxContent, ren_strip, ren_hash]

theorem ren_atxDepth (l : Str) : atxDepth (ρ l) = atxDepth l := by simp only [atxDepth, ren_strip, ren_hash, List.length_map]

theorem ren_fmtAtx (ls : List Str) : fmtAtx (ρs ls) = (fmtAtx ls).map ρ := by
  cases ls with
  | nil => rfl
  | cons l ls =>
    rw [List.map_cons]
    simp only [fmtAtx, ren_atxContent, ren_atxDepth, Except.map, List.map_append, ren_sp,
      ren_repl (f := f) _ (show isMark '#' = true by decide)]

theorem ren_fullyQuote (d : Nat) (ls : List Str) : fullyQuote d (ρs ls) = ρs (fullyQuote d ls) := by
  have hg : ∀ s, lstripBy (· == '>') (ρ s) = ρ (lstripBy (· == '>') s) := fun s =>
    ren_lstripBy (f := f) (p := (· == '>')) (q := (· == '>')) (fun c => ren_beq (by decide) c) s
  induction ls generalizing d with
  | nil => rfl
  | cons l ls ih =>
    simp only [List.map_cons, fullyQuote, ren_isQuote, ren_spaceless, hg, List.length_map, ih]
    split
    · rfl
    · simp only [List.map_cons, List.map_append, ren_repl (f := f) _ (show isMark '>' = true by decide)]

theorem ren_hasSpace (ls : List Str) : hasSpace (ρs ls) = hasSpace ls := by
  induction ls with
  | nil => rfl
  | cons l ls ih => simp only [List.map_cons, hasSpace, ren_strip, ren_isEmpty, ren_getIndent, ih]

theorem ren_dropSpace (l : Str) : dropSpace (ρ l) = ρ (dropSpace l) := by
  cases l with
  | nil => rfl
  | cons c l => simp only [List.map_cons, dropSpace, ren_lits]; split <;> rfl

omit [Mask f] in
theorem ren_mapLines {g : Str → Str} (h : ∀ l, g (ρ l) = ρ (g l)) (ls : List Str) : (ρs ls).map g = ρs (ls.map g) := by
  simp only [List.map_map]; congr 1; funext l; exact h l

theorem ren_quoteInner (ls : List Str) : quoteInner (ρs ls) = (ρs (quoteInner ls).1, (quoteInner ls).2) := by
  simp only [quoteInner, ren_fullyQuote, ren_mapLines (f := f) ren_unquote, ren_hasSpace, ren_mapLines (f := f) ren_dropSpace]
  split <;> rfl

theorem ren_mul (n : Int) {c : Char} (hc : isMark c = true) : ρ (mul c n) = mul c n := ren_repl _ hc

theorem ren_fmtQuote (w : Width) (ls : List Str) (h : CarriesL f sub (quoteInner ls).1) : fmtQuote sub w (ρs ls) = (fmtQuote sub w ls).map ρ := by
  cases ls with
  | nil => rfl
  | cons l ls =>
    have hq := ren_quoteInner (f := f) (l :: ls)
    rw [List.map_cons] at hq
    simp only [List.map_cons, fmtQuote, hq, ren_lstrip, List.length_map, h _]
    generalize hr : (if (quoteInner (l :: ls)).2 = true then _ else _ : Width × Str) = r
    obtain ⟨w', p⟩ := r
    have hp : ρ p = p := by
      split at hr <;> cases hr <;> simp only [List.map_append, ren_sp, ren_mul (f := f) _ (show isMark ' ' = true by decide),
        ren_fixed (f := f) (s := ['>']) (by decide)]
    simp only
    cases reformatLines sub (quoteInner (l :: ls)).1 w' with
    | error e => rfl
    | ok t =>
      simp only [Except.map, bind, Except.bind, ren_splitlines]
      rw [ren_mapLines (f := f) (g := fun line => strip (p ++ line))
        (fun l => by rw [← ren_strip, List.map_append, hp]), ren_pyJoin (f := f) ren_nl]

theorem ren_fmtFenced (ls : List Str) (hi : ∀ l ∈ ls.head?, ∀ c ∈ (strip l).head?, ∀ d, (f d == f c) = (d == c)) :
    fmtFenced (ρs ls) = (fmtFenced ls).map ρ := by
  cases ls with
  | nil => rfl
  | cons l ls =>
    have hi := hi l rfl
    revert hi
    simp only [List.map_cons, fmtFenced, ren_strip]
    cases strip l with
    | nil => intro _; rfl
    | cons c r =>
      intro hi
      have h1 := ren_lstripBy (f := f) (p := (· == f c)) (q := (· == c)) (hi c rfl) (c :: r)
      have h2 := ren_inner (List.map f) (l :: ls)
      rw [List.map_cons] at h1 h2
      simp only [List.map_cons, h1, h2, List.length_cons, List.length_map, Except.map]
      rw [← ren_pyJoin (f := f) ren_nl, ← ren_mapLines (f := f) ren_rstrip]
      simp only [List.map_append, List.map_cons, List.map_nil, List.map_replicate, ren_strip]

theorem ren_fmtIndented (ls : List Str) : fmtIndented (ρs ls) = (fmtIndented ls).map ρ := by
  simp only [fmtIndented, Except.map, ← ren_pyJoin (f := f) ren_nl, ren_mapLines (f := f) ren_rstrip]

theorem inv_lrd : lrdRx.Inv f := by
  simp only [lrdRx, Rx.seqs, Rx.star, Rx.Inv, bne, ren_isWs, ren_lits, implies_true, and_self]

theorem ren_lrdParts (ls : List Str) : lrdParts (ρs ls) = (lrdParts ls).map fun r => (ρ r.1, ρ r.2.1, ρ r.2.2) := by
  simp only [lrdParts, ren_pyJoin (f := f) ren_sp, ren_search inv_lrd]
  cases lrdRx.search (pyJoin [' '] ls) with
  | none => rfl
  | some m =>
    have hg : ∀ n, ((m.group n).map ρ).getD [] = ρ ((m.group n).getD []) := fun n => by cases m.group n <;> rfl
    simp only [Option.map_some, ren_group, hg, ren_splitWs, ren_pyJoin (f := f) ren_sp, Except.map]

omit [Mask f] in
theorem ren_fmtLrd [Ren f] (w : Width) (ls : List Str) : fmtLrd w (ρs ls) = (fmtLrd w ls).map ρ := by
  have hb : ρ ['['] = ['['] := ren_fixed (by decide)
  have hc : ρ [']', ':'] = [']', ':'] := ren_fixed (by decide)
  simp only [fmtLrd, ren_lrdParts]
  cases lrdParts ls with
  | error e => rfl
  | ok r =>
    obtain ⟨name, link, title⟩ := r
    have hstr : ['['] ++ ρ name ++ [']', ':'] = ρ (['['] ++ name ++ [']', ':']) := by simp only [List.map_append, hb, hc]
    simp only [Except.map, bind, Except.bind, ren_isEmpty, hstr]
    generalize ['['] ++ name ++ [']', ':'] = str
    split
    · rfl
    · cases ls with
      | nil => rfl
      | cons l0 rest =>
        have h1 : (if isIn link l0 = true then ρ str ++ [' '] ++ ρ link else ρ str ++ ['\n'] ++ ρ link) =
            ρ (if isIn link l0 = true then str ++ [' '] ++ link else str ++ ['\n'] ++ link) := by
          split <;> simp only [List.map_append, ren_sp, ren_nl]
        simp only [List.map_cons, ren_isIn, h1]
        generalize (if isIn link l0 = true then str ++ [' '] ++ link else str ++ ['\n'] ++ link) = str2
        split
        · rfl
        · have h2 : (if isIn link l0 = true then some (ρ l0) else (ρs rest).head?) =
              (if isIn link l0 = true then some l0 else rest.head?).map ρ := by
            split
            · rfl
            · cases rest <;> rfl
          simp only [h2, ren_splitWs]
          cases (if isIn link l0 = true then some l0 else rest.head?) with
          | none => rfl
          | some last =>
            cases splitWs title with
            | nil => rfl
            | cons word ws =>
              have hl : ∀ xs : List Str, (ρs xs).getLastD [] = ρ (xs.getLastD []) := fun xs => by
                rw [List.getLastD_eq_getLast?, List.getLastD_eq_getLast?, List.getLast?_map]
                cases xs.getLast? <;> rfl
              simp only [Option.map_some, List.map_cons, ren_isIn, ren_splitlines, hl, List.length_map, ren_wrap]
              split
              · split
                · have h3 : ρ ((splitlines str2).getLastD []) ++ [' '] ++ ρ title = ρ ((splitlines str2).getLastD [] ++ [' '] ++ title) := by
                    simp only [List.map_append, ren_sp]
                  rw [h3, ren_wrap]
                  cases wrap ((splitlines str2).getLastD [] ++ [' '] ++ title) w with
                  | error e => rfl
                  | ok t =>
                    simp only [Except.map, ← ren_pyJoin (f := f) ren_nl, List.map_append, List.map_dropLast, List.map_cons, List.map_nil]
                · cases wrap title w with
                  | error e => rfl
                  | ok t => simp only [Except.map, List.map_append, ren_nl]
              · cases wrap title w with
                | error e => rfl
                | ok t => simp only [Except.map, List.map_append, ren_nl]

theorem inv_marker : markerRx.Inv f := by
  simp only [markerRx, Rx.seqs, Rx.star, Rx.plus, Rx.Inv, ren_isWs, ren_isDigit, ren_lits, implies_true, and_self]

theorem ren_markerEnd? (l : Str) : markerEnd? (ρ l) = markerEnd? l := by
  simp only [markerEnd?, ren_match? inv_marker, Option.map_map]
  congr 1
  funext m
  simp only [Function.comp, ren_groupEnd]

theorem ren_listMarkerEndPos (l : Str) : listMarkerEndPos (ρ l) = listMarkerEndPos l := by
  simp only [listMarkerEndPos, ren_markerEnd?]

omit [Mask f] in
theorem ren_appendToLast (xs : List (List Str)) (x : Str) :
    appendToLast (xs.map ρs) (ρ x) = (appendToLast xs x).map (List.map ρs) := by
  simp only [appendToLast, List.getLast?_map]
  cases xs.getLast? with
  | none => rfl
  | some e => simp [Except.map, List.map_dropLast]

theorem ren_fenceTrack (b : Bool) (ce l : Str) : fenceTrack b (ρ ce) (ρ l) = ((fenceTrack b ce l).1, ρ (fenceTrack b ce l).2) := by
  simp only [fenceTrack, ren_lstrip, List.any_cons, List.any_nil, ren_startsWith (p := List.replicate 3 '`') (by decide),
    ren_startsWith (p := List.replicate 3 '~') (by decide)]
  by_cases hg : (startsWith (lstrip l) (List.replicate 3 '`') || (startsWith (lstrip l) (List.replicate 3 '~') || false)) = true
  · simp only [hg, if_true]
    revert hg
    cases lstrip l with
    | nil => intro _; rfl
    | cons c r =>
      intro hg
      have hc : isMark c = true := by
        simp only [startsWith, List.replicate_succ, List.replicate_zero, List.isPrefixOf_cons_cons, Bool.or_eq_true, Bool.and_eq_true,
          beq_iff_eq, Bool.false_eq_true, or_false] at hg
        rcases hg with hg | hg <;> rw [← hg.1] <;> decide
      have h1 := ren_lstripBy (f := f) (p := (· == c)) (q := (· == c)) (fun d => ren_beq hc d) l
      have h2 : ∀ n : Int, ρ (mul c n) = mul c n := fun n => ren_mul n hc
      have h3 : ∀ n : Int, (mul c n).all isMark = true := fun n => by simp [mul, List.all_replicate, hc]
      simp only [List.map_cons, Mask.fix (f := f) hc, h1, List.length_cons, List.length_map, ren_mark_beq (h3 _)]
      cases b with
      | false => simp [h2]
      | true => simp only [if_true]; split <;> rfl
  · simp only [hg, Bool.false_eq_true, if_false]

/-- The renamed state of `_split_list`. -/
def SplitListSt.rn (f : Char → Char) (st : SplitListSt) : SplitListSt :=
  { inCode := st.inCode, codeEnd := st.codeEnd.map f, maxIndent := st.maxIndent, entries := st.entries.map (List.map (List.map f)) }

theorem ren_splitListStep (st : SplitListSt) (l : Str) :
    splitListStep (st.rn f) (ρ l) = (splitListStep st l).map (SplitListSt.rn f) := by
  obtain ⟨ic, ce, mi, es⟩ := st
  simp only [splitListStep, SplitListSt.rn, ren_fenceTrack, ren_markerEnd?, ren_getIndent, ren_appendToLast]
  cases markerEnd? l with
  | none => cases appendToLast es l <;> rfl
  | some n =>
    simp only
    split
    · simp [Except.map, SplitListSt.rn]
    · cases appendToLast es l <;> rfl

theorem ren_splitList (ls : List Str) : splitList (ρs ls) = (splitList ls).map (List.map ρs) := by
  have h : ∀ (xs : List Str) (st : SplitListSt), (ρs xs).foldlM splitListStep (st.rn f) =
      (xs.foldlM splitListStep st).map (SplitListSt.rn f) := by
    intro xs
    induction xs with
    | nil => intro st; rfl
    | cons x xs ih =>
      intro st
      simp only [List.map_cons, List.foldlM_cons, ren_splitListStep]
      cases splitListStep st x with
      | error e => rfl
      | ok r => exact ih r
  cases ls with
  | nil => rfl
  | cons l ls =>
    simp only [List.map_cons, splitList, ren_listMarkerEndPos]
    cases listMarkerEndPos l with
    | error e => rfl
    | ok n =>
      have h' := h (l :: ls) { inCode := false, codeEnd := [], maxIndent := n, entries := [] }
      simp only [SplitListSt.rn, List.map_nil, List.map_cons] at h'
      simp only [bind, Except.bind] at h' ⊢
      rw [h']
      cases (l :: ls).foldlM splitListStep { inCode := false, codeEnd := [], maxIndent := n, entries := [] } <;> rfl

theorem ren_dedentEntry (e : List Str) : dedentEntry (ρs e) = (dedentEntry e).map ρs := by
  cases e with
  | nil => rfl
  | cons l ls =>
    simp only [List.map_cons, dedentEntry, ren_listMarkerEndPos]
    cases listMarkerEndPos l with
    | error e => rfl
    | ok n =>
      simp only [Except.map, bind, Except.bind, List.map_cons, ← List.map_drop]
      rw [ren_mapLines (f := f) (g := fun line => lstrip (line.take (n + 1)) ++ line.drop (n + 1))
        (fun l => by simp only [← List.map_take, ← List.map_drop, ren_lstrip, List.map_append])]

theorem ren_dedentEntries (es : List (List Str)) : dedentEntries (es.map ρs) = (dedentEntries es).map (List.map ρs) := by
  unfold dedentEntries
  induction es with
  | nil => rfl
  | cons e es ih =>
    simp only [List.map_cons, List.mapM_cons, ren_dedentEntry, ih]
    cases dedentEntry e with
    | error e => rfl
    | ok x => cases List.mapM dedentEntry es <;> rfl

theorem ren_fmtEntry (w : Width) (n : Nat) (mk : Str) (e : List Str) (h : CarriesL f sub e) :
    fmtEntry sub w n (ρ mk) (ρs e) = (fmtEntry sub w n mk e).map ρ := by
  simp only [fmtEntry, h _]
  cases reformatLines sub e (w.sub n) with
  | error e => rfl
  | ok t =>
    have h1 : rstripBy (· == '\n') (ρ t) = ρ (rstripBy (· == '\n') t) := 
      ren_rstripBy (f := f) (p := (· == '\n')) (q := (· == '\n')) (fun c => ren_beq (by decide) c) t
    have h2 : ρ (['\n'] ++ List.replicate n ' ') = ['\n'] ++ List.replicate n ' ' := by
      simp only [List.map_append, ren_nl, ren_repl (f := f) _ (show isMark ' ' = true by decide)]
    simp only [Except.map, bind, Except.bind, h1, ren_splitChar (f := f) (show isMark '\n' = true by decide), ren_pyJoin (f := f) h2,
      List.map_append, ren_sp]

theorem ren_fmtBulletEntries (w : Width) (mk : Str) (es : List (List Str)) (h : ∀ e ∈ es, CarriesL f sub e) :
    fmtBulletEntries sub w (ρ mk) (es.map ρs) = (fmtBulletEntries sub w mk es).map ρs := by
  induction es with
  | nil => rfl
  | cons e es ih =>
    simp only [List.map_cons, fmtBulletEntries, ren_fmtEntry _ _ _ _ (h e (by simp)), ih fun e he => h e (by simp [he])]
    cases fmtEntry sub w 2 mk e with
    | error e => rfl
    | ok t => cases fmtBulletEntries sub w mk es <;> rfl

theorem ren_fmtBullet (w : Width) (ls : List Str) (h : CarriesIn f sub ls) : fmtBullet sub w (ρs ls) = (fmtBullet sub w ls).map ρ := by
  cases ls with
  | nil => rfl
  | cons l ls =>
    have hs := ren_splitList (f := f) (l :: ls)
    rw [List.map_cons] at hs
    simp only [List.map_cons, fmtBullet, hs]
    cases hes : splitList (l :: ls) with
    | error e => rfl
    | ok es =>
      simp only [Except.map, bind, Except.bind, ren_dedentEntries]
      cases hds : dedentEntries es with
      | error e => rfl
      | ok ds =>
        simp only [ren_lstrip]
        cases lstrip l with
        | nil => rfl
        | cons c r =>
          have hf := ren_fmtBulletEntries w [c] ds (h.list _ _ hes hds)
          simp only [List.map_cons, List.map_nil] at hf ⊢
          rw [hf]
          cases fmtBulletEntries sub w [c] ds with
          | error e => rfl
          | ok ts => simp only [Except.map, ren_pyJoin (f := f) ren_nl]

theorem take_digits (s : Str) : s.take (s.length - (lstripBy isDigit s).length) = s.takeWhile isDigit := by
  have h : s = s.takeWhile isDigit ++ lstripBy isDigit s := (List.takeWhile_append_dropWhile).symm
  have hl : s.length - (lstripBy isDigit s).length = (s.takeWhile isDigit).length := by
    have := congrArg List.length h
    rw [List.length_append] at this
    omega
  rw [hl]
  have := List.take_left (l₁ := s.takeWhile isDigit) (l₂ := lstripBy isDigit s)
  rwa [← h] at this

theorem isDigit_mark {c : Char} (h : isDigit c = true) : isMark c = true := by
  have hc : c = Char.ofNat c.toNat := (Char.ofNat_toNat c).symm
  simp only [isDigit, Bool.and_eq_true, decide_eq_true_eq] at h
  have : c.toNat = 48 ∨ c.toNat = 49 ∨ c.toNat = 50 ∨ c.toNat = 51 ∨ c.toNat = 52 ∨ c.toNat = 53 ∨ c.toNat = 54 ∨ c.toNat = 55 ∨
    c.toNat = 56 ∨ c.toNat = 57 := by omega
  rcases this with h | h | h | h | h | h | h | h | h | h <;> rw [h] at hc <;> rw [hc] <;> decide

theorem ren_firstNumber (l : Str) : firstNumber (ρ l) = firstNumber l := by
  simp only [firstNumber, take_digits, ren_lstrip, ren_takeWhile (f := f) ren_isDigit]
  rw [ren_fixed (f := f) (s := (lstrip l).takeWhile isDigit) (by
    rw [List.all_eq_true]
    intro c hc
    exact isDigit_mark (List.all_eq_true.1 (List.all_takeWhile (p := isDigit)) c hc))]

theorem ren_natStr (n : Nat) : ρ (natStr n) = natStr n :=
  ren_fixed (by rw [List.all_eq_true]; exact fun c hc => isDigit_mark ((natStr_spec n).2.1 c hc))

theorem ren_fmtOrderedEntries (w : Width) (i n : Nat) (es : List (List Str)) (h : ∀ e ∈ es, CarriesL f sub e) :
    fmtOrderedEntries sub w i n (es.map ρs) = (fmtOrderedEntries sub w i n es).map ρs := by
  induction es generalizing n with
  | nil => rfl
  | cons e es ih =>
    have hf := ren_fmtEntry w i (natStr n ++ ['.']) e (h e (by simp))
    rw [List.map_append, ren_natStr, ren_fixed (f := f) (s := ['.']) (by decide)] at hf
    simp only [List.map_cons, fmtOrderedEntries, hf, ih _ fun e he => h e (by simp [he])]
    cases fmtEntry sub w i (natStr n ++ ['.']) e with
    | error e => rfl
    | ok t => cases fmtOrderedEntries sub w i (n + 1) es <;> rfl

theorem ren_fmtOrdered (w : Width) (ls : List Str) (h : CarriesIn f sub ls) : fmtOrdered sub w (ρs ls) = (fmtOrdered sub w ls).map ρ := by
  cases ls with
  | nil => rfl
  | cons l ls =>
    have hs := ren_splitList (f := f) (l :: ls)
    rw [List.map_cons] at hs
    simp only [List.map_cons, fmtOrdered, hs, ren_firstNumber]
    cases hes : splitList (l :: ls) with
    | error e => rfl
    | ok es =>
      cases firstNumber l with
      | error e => rfl
      | ok n =>
        simp only [Except.map, bind, Except.bind, ren_dedentEntries, List.length_map]
        cases hds : dedentEntries es with
        | error e => rfl
        | ok es' =>
          simp only [Except.map, ren_fmtOrderedEntries _ _ _ _ (h.list _ _ hes hds)]
          cases fmtOrderedEntries sub w ((natStr (n + es.length - 1)).length + 2) n es' with
          | error e => rfl
          | ok ts => simp only [ren_pyJoin (f := f) ren_nl]

theorem ren_parContent (ls : List Str) : parContent (ρs ls) = ρ (parContent ls) := by
  simp only [parContent, ren_mapLines (f := f) ren_strip, ren_pyJoin (f := f) ren_sp]

theorem ren_fmtPar (w : Width) (ls : List Str) : fmtPar w (ρs ls) = (fmtPar w ls).map ρ := by
  simp only [fmtPar, ren_parContent, ren_wrap, List.getLast?_map]
  cases wrap (parContent ls) w with
  | error e => rfl
  | ok t =>
    cases ls.getLast? with
    | none => rfl
    | some l =>
      simp only [Except.map, bind, Except.bind, Option.map_some, ren_endsWith (p := [' ', ' ']) (by decide)]
      split
      · simp only [List.map_append, ren_fixed (f := f) (s := [' ', ' ']) (by decide)]
      · rfl

omit [Mask f] in
theorem ren_maxLen (ls : List Str) : maxLen (ρs ls) = maxLen ls := by
  cases ls with
  | nil => rfl
  | cons l ls =>
    simp only [List.map_cons, maxLen, List.length_map, List.foldl_map]

omit [Mask f] in
theorem ren_getLastD (ls : List Str) : (ρs ls).getLastD [] = ρ (ls.getLastD []) := by
  rw [List.getLastD_eq_getLast?, List.getLastD_eq_getLast?, List.getLast?_map]
  cases ls.getLast? <;> rfl

theorem ren_fmtSetext (w : Width) (ls : List Str) : fmtSetext w (ρs ls) = (fmtSetext w ls).map ρ := by
  simp only [fmtSetext, List.length_map, ← List.map_dropLast, ren_parContent, ren_wrap, ren_getLastD, ren_strip]
  split
  · rfl
  · cases wrap (parContent ls.dropLast) w with
    | error e => rfl
    | ok t =>
      simp only [Except.map, bind, Except.bind, ren_splitlines, ren_maxLen]
      cases maxLen (splitlines t) with
      | error e => rfl
      | ok n =>
        cases strip (ls.getLastD []) with
        | nil => rfl
        | cons c r => rw [List.map_cons]; simp only [List.map_append, ren_nl, List.map_replicate]

theorem inv_column : columnRx.Inv f := by
  simp only [columnRx, Rx.seqs, Rx.Inv, ren_lits, implies_true, and_self]

theorem ren_rowCols (l : Str) : rowCols (ρ l) = ρs (rowCols l) := by
  simp only [rowCols, ren_split inv_column, ren_inner, ren_mapLines (f := f) ren_strip]

theorem ren_dividerAlign (l : Str) : dividerAlign (ρ l) = dividerAlign l := by
  simp only [dividerAlign, ren_strip, ren_startsWith (p := [':']) (by decide), ren_endsWith (p := [':']) (by decide)]

theorem ren_tableAligns (l : Str) : tableAligns (ρ l) = tableAligns l := by
  simp only [tableAligns, ren_strip, ren_inner, ren_splitChar (f := f) (show isMark '|' = true by decide), List.map_map]
  congr 1
  funext l
  exact ren_dividerAlign l

omit [Mask f] in
theorem ren_checkRows (a b i : Nat) (rs : List (List Str)) : checkRows a b i (rs.map ρs) = checkRows a b i rs := by
  induction rs generalizing i with
  | nil => rfl
  | cons r rs ih => simp only [List.map_cons, checkRows, List.length_map, ih]

omit [Mask f] in
theorem ren_columnWidths (h : List Str) (rs : List (List Str)) : columnWidths (ρs h) (rs.map ρs) = columnWidths h rs := by
  unfold columnWidths
  rw [← List.map_cons (f := ρs), List.foldl_map, List.map_map]
  congr 1
  funext ws r
  rw [List.zipWith_map_right]
  simp only [List.length_map]

theorem ren_centerAlign (s : Str) (n : Nat) : centerAlign (ρ s) n = ρ (centerAlign s n) := by
  simp only [centerAlign, List.length_map, List.map_append, ren_mul (f := f) _ (show isMark ' ' = true by decide)]

theorem ren_leftAlign (s : Str) (n : Nat) : leftAlign (ρ s) n = ρ (leftAlign s n) := by
  simp only [leftAlign, List.length_map, List.map_append, ren_mul (f := f) _ (show isMark ' ' = true by decide)]

theorem ren_rightAlign (s : Str) (n : Nat) : rightAlign (ρ s) n = ρ (rightAlign s n) := by
  simp only [rightAlign, List.length_map, List.map_append, ren_mul (f := f) _ (show isMark ' ' = true by decide)]

theorem ren_headerCell (s : Str) (n : Nat) (a : Align) : headerCell (ρ s) n a = ρ (headerCell s n a) := by
  cases a <;> simp only [headerCell, ren_strip, ren_centerAlign, ren_leftAlign, ren_rightAlign, List.map_append, ren_sp]

theorem ren_bodyCell (s : Str) (n : Nat) (a : Align) : bodyCell (ρ s) n a = ρ (bodyCell s n a) := by
  cases a <;> simp only [bodyCell, ren_strip, ren_centerAlign, ren_leftAlign, ren_rightAlign, List.map_append, ren_sp]

theorem dividerCell_marks (n : Nat) (a : Align) : (dividerCell n a).all isMark = true := by
  have h1 : isMark '-' = true := by decide
  have h2 : isMark ':' = true := by decide
  cases a <;> simp [dividerCell, List.all_replicate, h1, h2]

omit [Mask f] in
theorem ren_zipCells {g : Str → Nat → Align → Str} (hg : ∀ s n a, g (ρ s) n a = ρ (g s n a)) (cs : List Str) (ws : List Nat)
    (as : List Align) : zipCells g (ρs cs) ws as = ρs (zipCells g cs ws as) := by
  induction cs generalizing ws as with
  | nil => rfl
  | cons c cs ih =>
    cases ws with
    | nil => rfl
    | cons w ws =>
      cases as with
      | nil => rfl
      | cons a as => simp only [List.map_cons, zipCells, hg, ih]

theorem ren_tableRow (cs : List Str) : tableRow (ρs cs) = ρ (tableRow cs) := by
  have h : ρ ['|'] = ['|'] := ren_fixed (by decide)
  simp only [tableRow, ren_pyJoin (f := f) h, List.map_append, h]

theorem ren_fmtTable (i : Nat) (ls : List Str) : fmtTable i (ρs ls) = (fmtTable i ls).map ρ := by
  match ls with
  | [] => rfl
  | [_] => rfl
  | h :: d :: body =>
    have hb : (ρs body).map rowCols = (body.map rowCols).map ρs := by
      simp only [List.map_map]; congr 1; funext l; exact ren_rowCols l
    simp only [List.map_cons, fmtTable, ren_rowCols, hb, ren_tableAligns, List.length_map, ren_checkRows, ren_columnWidths]
    cases checkRows i (rowCols h).length 2 (body.map rowCols) with
    | error e => rfl
    | ok u =>
      simp only [Except.map, bind, Except.bind, ren_split inv_column, ren_inner, ren_zipCells (f := f) ren_headerCell, ren_tableRow]
      rw [← ren_pyJoin (f := f) ren_nl, List.map_cons, List.map_cons]
      rw [ren_mapLines (f := f) (g := fun line => tableRow (zipCells bodyCell (inner (splitChar '|' line))
        (columnWidths (rowCols h) (body.map rowCols)) (tableAligns d)))
        (fun l => by
          rw [ren_splitChar (f := f) (show isMark '|' = true by decide), ren_inner, ren_zipCells (f := f) ren_bodyCell, ren_tableRow])]
      rw [← ren_tableRow (f := f) (((columnWidths (rowCols h) (body.map rowCols)).zip (tableAligns d)).map fun p => dividerCell p.1 p.2)]
      rw [List.map_map (l := (columnWidths (rowCols h) (body.map rowCols)).zip (tableAligns d))]
      have : ((List.map f) ∘ fun p : Nat × Align => dividerCell p.1 p.2) = fun p => dividerCell p.1 p.2 := by
        funext p
        exact ren_fixed (dividerCell_marks p.1 p.2)
      rw [this]

omit [Mask f] in
theorem ren_thematicLine (w : Width) (c : Char) : (match w with
      | .inf => Except.ok (List.replicate 3 (f c))
      | .fin n => Except.ok (mul (f c) n) : Except Err Str) =
    (match w with
      | .inf => Except.ok (List.replicate 3 c)
      | .fin n => Except.ok (mul c n) : Except Err Str).map ρ := by
  cases w <;> simp only [Except.map, mul, List.map_replicate]

theorem ren_fmtThematic (w : Width) (ls : List Str) : fmtThematic w (ρs ls) = (fmtThematic w ls).map ρ := by
  cases ls with
  | nil => rfl
  | cons l ls =>
    simp only [List.map_cons, fmtThematic, ren_strip]
    cases strip l with
    | nil => rfl
    | cons c r => exact ren_thematicLine w c

theorem ren_reprCheck (ty : Sec) (ls : List Str) : reprCheck ty (ρs ls) = reprCheck ty ls := by
  cases ty
  case lrd =>
    simp only [reprCheck, ren_lrdParts]
    cases lrdParts ls <;> rfl
  case setext =>
    simp only [reprCheck, ren_getLastD, ren_strip, ren_isEmpty, List.length_map]
  all_goals
    cases ls with
    | nil => rfl
    | cons l ls => simp only [List.map_cons, reprCheck, ren_strip, ren_lstrip, ren_isEmpty, ren_emptyList, ren_firstNumber]

/-- The two kinds of sections whose formatters compare characters of the section with each other. -/
structure Distinct (f : Char → Char) (ty : Sec) (ls : List Str) : Prop where
  fence : ty = .fenced → ∀ l ∈ ls.head?, ∀ c ∈ (strip l).head?, ∀ d, (f d == f c) = (d == c)
  defn : ty = .lrd → ∀ w, fmtLrd w (ls.map (List.map f)) = (fmtLrd w ls).map (List.map f)

omit [Mask f] in
theorem Distinct.ren [Ren f] (ty : Sec) (ls : List Str) : Distinct f ty ls :=
  ⟨fun _ _ _ c _ d => ren_inj_beq d c, fun _ w => ren_fmtLrd w ls⟩

theorem ren_fmtSection (w : Width) (i : Nat) (ty : Sec) (ls : List Str) (h : CarriesIn f sub ls) (hd : Distinct f ty ls) :
    fmtSection sub w i ty (ρs ls) = (fmtSection sub w i ty ls).map ρ := by
  cases ty
  · exact ren_fmtAtx ls
  · rfl
  · exact ren_fmtQuote w ls h.quote
  · exact ren_fmtBullet w ls h
  · exact ren_fmtFenced ls (hd.fence rfl)
  · exact ren_fmtIndented ls
  · exact hd.defn rfl w
  · exact ren_fmtOrdered w ls h
  · exact ren_fmtPar w ls
  · exact ren_fmtSetext w ls
  · exact ren_fmtTable i ls
  · exact ren_fmtThematic w ls

/-- The renamed formatter. -/
def Fmt.rn (f : Char → Char) (x : Fmt) : Fmt := { lineIndex := x.lineIndex, ty := x.ty, lines := x.lines.map (List.map f) }

theorem ren_buildFmts (i : Nat) (last : Option Sec) (xs : List (Sec × List Str)) :
    buildFmts i last (secsRn f xs) = (buildFmts i last xs).map (List.map (Fmt.rn f)) := by
  induction xs generalizing i last with
  | nil => rfl
  | cons x xs ih =>
    obtain ⟨ty, c⟩ := x
    have ih' := ih (i + c.length) (some ty)
    simp only [secsRn] at ih'
    simp only [secsRn, List.map_cons, buildFmts, ren_reprCheck, List.length_map, ih']
    cases reprCheck ty c with
    | error e => rfl
    | ok u =>
      simp only [bind, Except.bind]
      cases buildFmts (i + c.length) (some ty) xs with
      | error e => rfl
      | ok fs => simp only [Except.map]; split <;> rfl

theorem ren_fmtAll (w : Width) (fs : List Fmt) (h : ∀ x ∈ fs, CarriesIn f sub x.lines ∧ Distinct f x.ty x.lines) :
    fmtAll sub w (fs.map (Fmt.rn f)) = (fmtAll sub w fs).map ρs := by
  induction fs with
  | nil => rfl
  | cons x fs ih =>
    have hx := h x (by simp)
    simp only [List.map_cons, fmtAll, Fmt.rn, ren_fmtSection _ _ _ _ hx.1 hx.2] at ih ⊢
    rw [ih fun y hy => h y (by simp [hy])]
    cases fmtSection sub w x.lineIndex x.ty x.lines with
    | error e => rfl
    | ok t => cases fmtAll sub w fs <;> rfl

theorem ren_reformatBody {prs : List Str → Except Err (List (Sec × List Str))} (hp : CarriesP f prs) (w : Width) (s : Str)
    (h : ∀ xs fs, prs (splitlines s) = .ok xs → buildFmts 0 none xs = .ok fs →
      ∀ x ∈ fs, CarriesIn f sub x.lines ∧ Distinct f x.ty x.lines) :
    reformatBody prs sub w (ρ s) = (reformatBody prs sub w s).map ρ := by
  simp only [reformatBody, ren_splitlines, hp (splitlines s)]
  cases hxs : prs (splitlines s) with
  | error e => rfl
  | ok xs =>
    simp only [Except.map, bind, Except.bind, ren_buildFmts]
    cases hfs : buildFmts 0 none xs with
    | error e => rfl
    | ok fs =>
      simp only [Except.map, ren_fmtAll w fs (h xs fs hxs hfs)]
      cases fmtAll sub w fs with
      | error e => rfl
      | ok ts => simp only [ren_pyJoin (f := f) ren_nl, List.map_append, ren_nl]

omit [Mask f] in
/-- One pass does not see a renaming. -/
theorem ren_reformatText [Ren f] (n : Nat) : CarriesW f (reformatText n) := by
  induction n with
  | zero => intro w s; rfl
  | succ n ih =>
    intro w s
    exact ren_reformatBody (ren_parse n) w s fun _ _ _ _ x _ => ⟨ih.inside _, Distinct.ren _ _⟩

end

end MF
