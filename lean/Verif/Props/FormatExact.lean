import Verif.Props.FormatRef
import Verif.Props.WrapExact
import Verif.Props.Errors
import Verif.Props.Termination
/-!
# C119: how every document is formatted

The program and the reference (`Props/FormatRef.lean`) agree.
-/

namespace MF

/-! ## Parts without documents inside -/

theorem takeWhile_length_eq {α : Type} (p : α → Bool) (s : List α) :
    s.length - (s.dropWhile p).length = (s.takeWhile p).length := by
  have := congrArg List.length (List.takeWhile_append_dropWhile (p := p) (l := s))
  simp only [List.length_append] at this
  omega

theorem takeWhile_replicate (c : Char) (s : Str) :
    List.replicate (s.takeWhile (· == c)).length c = s.takeWhile (· == c) := by
  symm
  apply List.eq_replicate_iff.2
  exact ⟨rfl, fun b hb => by simpa using takeWhile_all _ _ b hb⟩

theorem margin_eq (l : Str) : margin l = getIndent l := (takeWhile_length_eq isWs l).symm

theorem firstMark_of {l r : Str} {c : Char} (h : strip l = c :: r) : firstMark l = c := by
  unfold firstMark
  rcases lstrip_head l with hl | ⟨d, r', hl, _⟩
  · rw [(lstrip_eq_nil_iff_strip l).1 hl] at h; cases h
  · obtain ⟨r'', h2⟩ := strip_head_eq_lstrip_head l hl
    rw [h] at h2
    cases h2
    show (lstrip l).headD ' ' = c
    rw [hl]; rfl

theorem heading_ref (l : Str) (ls : List Str) : fmtAtx (l :: ls) = .ok (headingRef l) := by
  simp only [fmtAtx, headingRef, atxDepth, atxContent, lstripBy]
  rw [takeWhile_length_eq, takeWhile_replicate]
  simp

theorem rule_ref (w : Width) {l : Str} (ls : List Str) (h : strip l ≠ []) : fmtThematic w (l :: ls) = .ok (ruleRef w l) := by
  cases hs : strip l with
  | nil => exact absurd hs h
  | cons c r =>
    simp only [fmtThematic, hs, ruleRef, firstMark_of hs]
    cases w <;> rfl

theorem fenceRun_of {l r : Str} {c : Char} (h : strip l = c :: r) : fenceRun l = (strip l).takeWhile (· == c) := by
  rcases lstrip_head l with hl | ⟨d, r', hl, hd⟩
  · rw [(lstrip_eq_nil_iff_strip l).1 hl] at h; cases h
  · obtain ⟨r'', h2⟩ := strip_head_eq_lstrip_head l hl
    rw [h] at h2
    cases h2
    have e : fenceRun l = (lstrip l).takeWhile (· == c) := by
      unfold fenceRun
      show (match lstrip l with | [] => [] | c :: r => (c :: r).takeWhile (· == c)) = _
      rw [hl]
    rw [e]
    obtain ⟨b, hb, hbw⟩ := rstrip_split (lstrip l)
    have hb' : lstrip l = strip l ++ b := hb
    rw [hb']
    rcases List.eq_nil_or_concat b with rfl | _
    · simp
    · symm
      cases b with
      | nil => simp
      | cons x xs =>
        have hx : (x == c) = false := by
          have := hbw x List.mem_cons_self
          cases hxc : x == c with
          | false => rfl
          | true => rw [eq_of_beq hxc] at this; rw [hd] at this; cases this
        generalize strip l = s
        induction s with
        | nil => simp [hx]
        | cons y ys ih =>
          simp only [List.cons_append, List.takeWhile_cons]
          split
          · rw [ih]
          · rfl

theorem fence_ref {l : Str} (ls : List Str) (h : strip l ≠ []) : fmtFenced (l :: ls) = .ok (fenceRef (l :: ls)) := by
  rcases strip_head l with hs | ⟨c, r, hs, hc⟩
  · exact absurd hs h
  · have hrun := fenceRun_of hs
    simp only [fmtFenced, hs, fenceRef, List.headD_cons, lstripBy, inner]
    rw [takeWhile_length_eq, takeWhile_replicate, hrun, hs]
    have hd : (c :: r).drop ((c :: r).takeWhile (· == c)).length = (c :: r).dropWhile (· == c) := by
      conv => lhs; rw [← List.takeWhile_append_dropWhile (p := (· == c)) (l := c :: r)]
      rw [List.drop_left' (by simp)]
    rw [hd]
    generalize hf : (c :: r).takeWhile (· == c) = f
    have hfe : ∃ f' : Str, f = f' ++ [c] := by
      have : f ≠ [] := by rw [← hf]; simp
      rcases List.eq_nil_or_concat f with rfl | ⟨f', x, rfl⟩
      · exact absurd rfl this
      · have : x ∈ (c :: r).takeWhile (· == c) := by rw [hf]; simp
        have := takeWhile_all _ _ x this
        simp at this
        exact ⟨f', by rw [this]; simp⟩
    have hfn : rstrip f = f := by
      obtain ⟨f', e⟩ := hfe
      rw [e]
      exact rstrip_concat_of_not _ _ hc
    have h1 : rstrip (f ++ strip ((c :: r).dropWhile (· == c))) = f ++ strip ((c :: r).dropWhile (· == c)) := by
      generalize (c :: r).dropWhile (· == c) = v
      by_cases hv : strip v = []
      · rw [hv]; simpa using hfn
      · rw [rstrip_append_of_ne _ _ (by rw [rstrip_strip]; exact hv), rstrip_strip]
    generalize (c :: r).dropWhile (· == c) = v at h1 ⊢
    simp [h1, hfn]

theorem par_ref (w : Width) {lines : List Str} (h : lines ≠ []) : fmtPar w lines = parRef w lines := by
  simp only [fmtPar, parRef, parContent, C118_wrap, bind, Except.bind]
  cases wrapRef (pyJoin [' '] (lines.map strip)) w with
  | error e => rfl
  | ok t =>
    rcases List.eq_nil_or_concat lines with rfl | ⟨ls, l, rfl⟩
    · exact absurd rfl h
    · simp only [List.concat_eq_append, List.getLast?_concat, List.getLastD_concat]
      split <;> simp

theorem maxLen_foldl (ls : List Str) : ∀ (k : Nat), ls.foldl (fun n s => max n s.length) k = (ls.map List.length).foldl max k := by
  induction ls with
  | nil => intro k; rfl
  | cons l ls ih => intro k; exact ih _

theorem underlined_ref {w : Width} {lines : List Str} (hs : SecShape .setext lines) :
    fmtSetext w lines = underlinedRef w lines := by
  obtain ⟨body, under, rfl, hb, hu⟩ := hs.setext rfl
  have h2 : ¬ (body ++ [under]).length < 2 := by
    cases body with
    | nil => exact absurd rfl hb
    | cons x xs => simp
  have he : strip under ≠ [] := by
    intro he
    rcases reprCheck_shape hs with h | ⟨h, _⟩
    · simp only [reprCheck, List.getLastD_concat, he, List.isEmpty_nil, if_true] at h
      split at h <;> cases h
    · cases h
  have hv : ∀ e, fmtSetext w (body ++ [under]) = .error e → e = .indexError := by
    intro e h
    rcases fmtSection_leaf_error (sub := fun _ _ => .error .runtime) (w := w) (i := 0) hs h (by decide) (by decide) (by decide) with h | ⟨h, _⟩
    · exact h.1
    · cases h
  simp only [fmtSetext, if_neg h2, underlinedRef, parContent, C118_wrap, bind, Except.bind, List.dropLast_concat,
    List.getLastD_concat] at hv ⊢
  cases hw : wrapRef (pyJoin [' '] (body.map strip)) w with
  | error e => rfl
  | ok t =>
    rw [hw] at hv
    dsimp only at hv ⊢
    cases hl : splitlines t with
    | nil =>
      rw [hl] at hv
      have := hv .valueError rfl
      cases this
    | cons x xs =>
      cases hu : strip under with
      | nil => exact absurd hu he
      | cons c r =>
        simp only [maxLen, firstMark_of hu, List.map_cons, List.foldl_cons, Nat.zero_max]
        rw [maxLen_foldl]
        simp

theorem list_splitWs_lstrip (s : Str) : splitWs (lstrip s) = splitWs s := by
  obtain ⟨t, e, ht⟩ := lstrip_split s
  conv => rhs; rw [e]
  rw [splitWs_prepend_all ht]

theorem takeWhile_noNl {s : Str} (h : NoLB s) : s.takeWhile (· != '\n') = s := by
  induction s with
  | nil => rfl
  | cons c s ih =>
    have hc : (c != '\n') = true := by
      have := h c List.mem_cons_self
      simp only [bne_iff_ne, ne_eq]
      rintro rfl
      revert this; decide
    rw [List.takeWhile_cons, if_pos hc, ih fun x hx => h x (List.mem_cons_of_mem _ hx)]

/-- the parts of a definition -/
theorem definition_parts {content : List Str} (h : StartsLabel content) (hlb : ∀ l ∈ content, NoLB l) :
    let text := (pyJoin [' '] content).dropWhile isWs
    let name := (text.drop 1).takeWhile (· != ']')
    let body := (text.drop (name.length + 3)).dropWhile isWs
    let link := body.takeWhile (!isWs ·)
    lrdParts content = .ok (name, link, pyJoin [' '] (splitWs (body.drop link.length))) := by
  intro text name body link
  obtain ⟨l0, more, ws, name0, r, rfl, rfl, hws, h1, h2, h3⟩ := h
  obtain ⟨b, hb⟩ := join_cons (ws ++ '[' :: (name0 ++ ']' :: ':' :: r)) more
  have hjoin : pyJoin [' '] ((ws ++ '[' :: (name0 ++ ']' :: ':' :: r)) :: more) =
      ws ++ ('[' :: (name0 ++ (']' :: ':' :: (r ++ b)))) := by rw [hb]; simp
  have hnolb : NoLB (pyJoin [' '] ((ws ++ '[' :: (name0 ++ ']' :: ':' :: r)) :: more)) := by
    intro c hc
    rcases mem_pyJoin hc with h | ⟨l, hl, hc⟩
    · simp at h; rw [h]; decide
    · exact hlb l hl c hc
  have hnb : '[' ∉ ws := fun hm => by have := hws _ hm; revert this; decide
  rw [lrdParts_of_shape hjoin hnb h1 h2 h3]
  have ht : text = '[' :: (name0 ++ (']' :: ':' :: (r ++ b))) := by
    show lstrip (pyJoin [' '] _) = _
    rw [hjoin, lstrip_append_ws _ _ hws, lstrip_cons_of_not _ _ (by decide)]
  have hn : name = name0 := by
    show (text.drop 1).takeWhile (· != ']') = name0
    rw [ht]
    show (name0 ++ (']' :: ':' :: (r ++ b))).takeWhile (· != ']') = name0
    refine takeWhile_append_stop _ _ _ _ (fun x hx => ?_) (by decide)
    simp only [bne_iff_ne, ne_eq]
    rintro rfl; exact h3 hx
  have hbody : body = lstrip (r ++ b) := by
    show lstrip (text.drop (name.length + 3)) = _
    rw [hn, ht]
    congr 1
    have : '[' :: (name0 ++ (']' :: ':' :: (r ++ b))) = ('[' :: (name0 ++ [']', ':'])) ++ (r ++ b) := by simp
    rw [this, List.drop_left' (by simp)]
  have hlink : link = (lstrip (r ++ b)).takeWhile (!isWs ·) := by
    show body.takeWhile _ = _
    rw [hbody]
  have hrest : body.drop link.length = (lstrip (r ++ b)).dropWhile (!isWs ·) := by
    rw [hlink, hbody]
    generalize lstrip (r ++ b) = v
    conv => lhs; rw [← List.takeWhile_append_dropWhile (p := (!isWs ·)) (l := v)]
    rw [List.drop_left' (by simp)]
  have hnl : NoLB (lstrip ((lstrip (r ++ b)).dropWhile (!isWs ·))) := by
    refine NoLB.of_mem hnolb fun c hc => ?_
    rw [hjoin]
    have h1 := (List.dropWhile_suffix _).subset hc
    have h2 := (List.dropWhile_suffix _).subset h1
    have h3 := (List.dropWhile_suffix _).subset h2
    simp only [List.mem_append, List.mem_cons]
    exact .inr (.inr (.inr (.inr (.inr (by simpa using h3)))))
  rw [hrest, hlink, hn, takeWhile_noNl hnl, list_splitWs_lstrip]

theorem definition_ref (w : Width) {content : List Str} (hlabel : StartsLabel content) (hlb : ∀ l ∈ content, NoLB l) :
    fmtLrd w content = definitionRef w content := by
  have hp := definition_parts hlabel hlb
  obtain ⟨name', link', title', hp', hn, _, _, hlink, htitle, htlb, hlt, _⟩ := lrd_parts hlabel hlb
  simp only at hp
  have hp2 := hp
  rw [hp'] at hp2
  simp only [Except.ok.injEq, Prod.mk.injEq] at hp2
  obtain ⟨en, el, et⟩ := hp2
  unfold definitionRef
  rw [← en] at el et
  simp only [← en]
  rw [← el] at et
  simp only [← el]
  generalize hws : splitWs (List.drop link'.length _) = words at et ⊢
  have hsw : splitWs title' = words := by rw [et, ← hws, splitWs_join_words]
  have hlinkLB : NoLB link' := fun c hc => by
    cases hc2 : isLB c with
    | false => rfl
    | true => have := hlink c hc; rw [isLB_ws hc2] at this; cases this
  have hheadLB : NoLB ('[' :: (name' ++ c!"]:")) :=
    NoLB.cons (by decide) (hn.append (by intro c hc; exact (by decide : ∀ c ∈ c!"]:", isLB c = false) c hc))
  obtain ⟨l0, more, ws0, name0, r0, hcon, _⟩ := hlabel
  subst hcon
  have hfirst : more = [] → isIn link' l0 = true := by
    rintro rfl
    obtain ⟨pre, body, h1, _, _, _, h2, _⟩ := lrdParts_shape hp'
    rw [isIn_iff]
    have h1 : l0 = pre ++ ('[' :: (name' ++ (']' :: ':' :: body))) := h1
    have e1 := List.takeWhile_append_dropWhile (p := fun c => !isWs c) (l := lstrip body)
    have e2 := List.takeWhile_append_dropWhile (p := isWs) (l := body)
    refine ⟨pre ++ ('[' :: (name' ++ (']' :: ':' :: body.takeWhile isWs))),
      (lstrip body).dropWhile (fun c => !isWs c), ?_⟩
    rw [h2, e1, h1]
    conv => lhs; rw [← e2]
    simp [lstrip]
  have hlab : ['['] ++ name' ++ c!"]:" = '[' :: (name' ++ c!"]:") := by simp
  simp only [fmtLrd, bind, Except.bind, hp', List.headD_cons, List.drop_succ_cons, List.drop_zero, hsw, C118_wrap, hlab]
  have hne : '[' :: (name' ++ c!"]:") ≠ [] := by simp
  clear hp hp' en el hws hlab htitle
  generalize '[' :: (name' ++ c!"]:") = label at hheadLB hne
  by_cases he : link' = []
  · simp [he]
  · rw [if_neg (by simpa using he), if_neg he]
    have hstrLB : NoLB (label ++ [' '] ++ link') :=
      (hheadLB.append (by intro c hc; simp at hc; rw [hc]; decide)).append hlinkLB
    have hsl1 : splitlines (label ++ ' ' :: link') = [label ++ ' ' :: link'] := by
      have := splitlines_single _ hstrLB (by simp)
      simpa using this
    have hsl : splitlines (label ++ '\n' :: link') = [label, link'] := by
      rw [splitlines_line _ hheadLB, splitlines_single _ hlinkLB he]
    have e1 : label ++ [' '] ++ link' = label ++ ' ' :: link' := by simp
    have e2 : label ++ ['\n'] ++ link' = label ++ '\n' :: link' := by simp
    simp only [e1, e2]
    cases hwd : words with
    | nil =>
      have : title' = [] := by rw [et, hwd]; rfl
      simp only [this, List.isEmpty_nil, if_true]
      by_cases hon : isIn link' l0 = true
      · simp [hon]
      · simp [hon]
    | cons word rest =>
      have htne : title'.isEmpty = false := by
        cases title' with
        | nil => rw [hwd] at hsw; cases hsw
        | cons => rfl
      rw [htne]
      simp only [Bool.false_eq_true, if_false]
      rw [hwd] at et
      rw [← et]
      clear et
      by_cases hon : isIn link' l0 = true
      · simp only [hon, if_true, hsl1, List.getLastD_cons, List.getLastD_nil, List.dropLast_singleton, List.nil_append, pyJoin]
        repeat' split
        all_goals simp_all
      · cases hm : more with
        | nil => exact absurd (hfirst hm) hon
        | cons l1 ls =>
          simp only [hon, Bool.false_eq_true, if_false, hsl, List.getLastD_cons, List.getLastD_nil, List.dropLast_cons_cons,
            List.dropLast_singleton, List.cons_append, List.nil_append, pyJoin, List.head?_cons, List.headD_cons]
          repeat' split
          all_goals simp_all

/-! ## Tables -/

theorem center_ref (s : Str) (n : Nat) :
    [' '] ++ centerAlign s n ++ [' '] = padRef .center s n := by
  simp only [centerAlign, mul, padRef]
  have e1 : (((n : Int) - s.length) / 2).toNat = (n - s.length) / 2 := by omega
  have e2 : (-((-((n : Int) - s.length)) / 2)).toNat = (n - s.length) - (n - s.length) / 2 := by omega
  rw [e1, e2]
  simp

theorem left_ref (s : Str) (n : Nat) (a : Align) (h : a = .left ∨ a = .none) :
    [' '] ++ leftAlign s n ++ [' '] = padRef a s n := by
  have e1 : ((n : Int) - s.length).toNat = n - s.length := by omega
  rcases h with rfl | rfl <;> simp [leftAlign, mul, padRef, e1]

theorem right_ref (s : Str) (n : Nat) : [' '] ++ rightAlign s n ++ [' '] = padRef .right s n := by
  have e1 : ((n : Int) - s.length).toNat = n - s.length := by omega
  simp [rightAlign, mul, padRef, e1]

theorem headerCell_ref (c : Str) (n : Nat) (a : Align) :
    headerCell c n a = padRef (if a = .none then .center else a) (strip c) n := by
  cases a
  · exact center_ref _ _
  · exact center_ref _ _
  · exact left_ref _ _ _ (.inl rfl)
  · exact right_ref _ _

theorem bodyCell_ref (c : Str) (n : Nat) (a : Align) : bodyCell c n a = padRef a (strip c) n := by
  cases a
  · exact left_ref _ _ _ (.inr rfl)
  · exact center_ref _ _
  · exact left_ref _ _ _ (.inl rfl)
  · exact right_ref _ _

theorem dividerCell_ref (n : Nat) (a : Align) : dividerCell n a = dividerRef a n := by
  cases a <;> simp [dividerCell, dividerRef]

theorem tableRow_ref (cells : List Str) : tableRow cells = rowRef cells := by
  simp [tableRow, rowRef]

theorem starts_colon (s : Str) : startsWith s c!":" = (s.head? == some ':') := by
  rw [Bool.eq_iff_iff, startsWith_single, beq_iff_eq]
  cases s with
  | nil => simp
  | cons c r => simp

theorem ends_colon (s : Str) : endsWith s c!":" = (s.getLast? == some ':') := by
  rw [Bool.eq_iff_iff, endsWith_iff, beq_iff_eq, List.getLast?_eq_some_iff]

theorem align_ref (s : Str) : dividerAlign s = alignRef s := by
  simp only [dividerAlign, alignRef, starts_colon, ends_colon]
  cases (strip s).head? == some ':' <;> cases (strip s).getLast? == some ':' <;> rfl

theorem zipCells_ref (f : Str → Nat → Align → Str) : ∀ (cs : List Str) (ws : List Nat) (as : List Align),
    zipCells f cs ws as = ((cs.zip ws).zip as).map fun c => f c.1.1 c.1.2 c.2
  | [], _, _ => by simp [zipCells]
  | _ :: _, [], _ => by simp [zipCells]
  | _ :: _, _ :: _, [] => by simp [zipCells]
  | c :: cs, w :: ws, a :: as => by simp [zipCells, zipCells_ref f cs ws as]

theorem checkRows_ref (li n : Nat) : ∀ (rows : List (List Str)) (i : Nat),
    checkRows li n i rows = match (List.range rows.length).find? fun k => (rows.getD k []).length != n with
      | some k => .error (.format (li + (i + k) + 1) n (rows.getD k []).length)
      | none => .ok ()
  | [], i => rfl
  | r :: rs, i => by
    simp only [checkRows, List.length_cons, List.range_succ_eq_map, List.find?_cons, List.getD_cons_zero]
    cases hr : r.length != n with
    | true => simp
    | false =>
      simp only [Bool.false_eq_true, if_false]
      rw [checkRows_ref li n rs (i + 1), List.find?_map]
      have : ((fun k => ((r :: rs).getD k []).length != n) ∘ Nat.succ) = fun k => (rs.getD k []).length != n := by
        funext k; simp
      rw [this]
      cases (List.range rs.length).find? fun k => (rs.getD k []).length != n with
      | none => rfl
      | some k => simp; omega

theorem getD_getElem {α : Type} {xs : List α} {j : Nat} (d : α) (h : j < xs.length) : xs.getD j d = xs[j] := by
  rw [List.getD_eq_getElem?_getD, List.getElem?_eq_getElem h]; rfl

theorem columns_ref (n : Nat) : ∀ (rows : List (List Str)) (ws : List Nat), ws.length = n → (∀ r ∈ rows, r.length = n) →
    rows.foldl (fun ws r => ws.zipWith (fun w c => if c.length > w then c.length else w) r) ws =
      (List.range n).map fun j => (rows.map fun r => (r.getD j []).length).foldl max (ws.getD j 0)
  | [], ws, hw, _ => by
    apply List.ext_getElem
    · simp [hw]
    · intro i h1 h2
      have h3 : i < ws.length := h1
      simp [List.getElem?_eq_getElem h3]
  | r :: rs, ws, hw, h => by
    have hr := h r List.mem_cons_self
    rw [List.foldl_cons, columns_ref n rs _ (by simp [hw, hr]) fun r' hr' => h r' (List.mem_cons_of_mem _ hr')]
    apply List.map_congr_left
    intro j hj
    rw [List.mem_range] at hj
    rw [List.map_cons, List.foldl_cons]
    congr 1
    rw [getD_getElem _ (by simp [hw, hr, hj]), getD_getElem _ (by rw [hw]; exact hj),
      getD_getElem _ (by rw [hr]; exact hj), List.getElem_zipWith]
    split <;> omega

theorem rowCols_ref (l : Str) : rowCols l = (between (splitBars none l)).map strip := by
  unfold rowCols
  rw [columnRx_split]; rfl

theorem table_ref (i : Nat) (lines : List Str) : fmtTable i lines = tableRef i lines := by
  match lines with
  | [] => rfl
  | [_] => rfl
  | head :: rule :: rows =>
    simp only [fmtTable, tableRef, bind, Except.bind]
    have hget : ∀ k, (rows.map rowCols).getD k [] = (between (splitBars none (rows.getD k []))).map strip := by
      intro k
      have : rowCols [] = [] := by rw [rowCols_ref]; rfl
      rw [← rowCols_ref, List.getD_eq_getElem?_getD, List.getD_eq_getElem?_getD, List.getElem?_map]
      cases rows[k]? <;> simp [this]
    rw [checkRows_ref]
    simp only [List.length_map, hget, rowCols_ref, List.length_map]
    generalize hf : (List.range rows.length).find? _ = o
    cases o with
    | some k => simp; omega
    | none =>
      have hall : ∀ r ∈ (head :: rows).map rowCols, r.length = (between (splitBars none head)).length := by
        intro r hr
        rw [List.map_cons] at hr
        rcases List.mem_cons.1 hr with rfl | hr
        · rw [rowCols_ref, List.length_map]
        · obtain ⟨l, hl, rfl⟩ := List.mem_map.1 hr
          obtain ⟨k, hk, e⟩ := List.getElem_of_mem hl
          rw [List.find?_eq_none] at hf
          have := hf k (List.mem_range.2 hk)
          rw [getD_getElem _ hk, e] at this
          rw [rowCols_ref, List.length_map]
          simpa using this
      have hw : columnWidths ((between (splitBars none head)).map strip) (rows.map rowCols) =
          (List.range (between (splitBars none head)).length).map fun j =>
            ((head :: rows).map fun l => (((between (splitBars none l)).map strip).getD j []).length).foldl max 0 := by
        unfold columnWidths
        rw [← rowCols_ref, ← List.map_cons, columns_ref _ _ _ (by rw [List.length_map, rowCols_ref, List.length_map]) hall]
        apply List.map_congr_left
        intro j hj
        have h0 : ((rowCols head).map fun _ => 0).getD j 0 = 0 := by
          rw [List.getD_eq_getElem?_getD, List.getElem?_map]
          cases (rowCols head)[j]? <;> rfl
        rw [h0, List.map_map]
        simp only [Function.comp_def, rowCols_ref]
      simp only [hw, (funext align_ref : dividerAlign = alignRef), tableRow_ref, zipCells_ref, columnRx_split, headerCell_ref, bodyCell_ref, dividerCell_ref,
        tableAligns]
      rfl

/-! ## Lists -/

theorem markLen_intro {l ws m r : Str} (h : MarkerAt l ws m r) (hl : NoLB l) : markLen l = some (ws.length + m.length) := by
  have hd : l.drop ws.length = m ++ r := by rw [h.eq, List.drop_left' rfl]
  have hm : margin l = ws.length := by rw [margin_eq, h.indent]
  have hr : r.head?.getD ' ' = ' ' := by
    rcases h.rest with rfl | rfl | ⟨r', rfl⟩
    · rfl
    · exfalso
      have := hl '\n' (by rw [h.eq]; simp)
      revert this; decide
    · rfl
  have hlen : markerLen (m ++ r) = m.length := by
    unfold markerLen
    rcases h.marker with rfl | rfl | rfl | ⟨ds, hne, hds, rfl⟩
    · simp
    · simp
    · simp
    · obtain ⟨d, ds', rfl⟩ := List.exists_cons_of_ne_nil hne
      have h1 : ((d :: ds') ++ ['.'] ++ r).takeWhile isDigit = d :: ds' := by
        rw [List.append_assoc]
        exact takeWhile_append_stop _ _ _ _ hds (by decide)
      have hb : ¬ (((d :: ds') ++ ['.'] ++ r).head? = some '*' ∨ ((d :: ds') ++ ['.'] ++ r).head? = some '-' ∨
          ((d :: ds') ++ ['.'] ++ r).head? = some '+') := by
        have := hds d List.mem_cons_self
        simp only [List.cons_append, List.head?_cons, Option.some.injEq]
        rintro (rfl | rfl | rfl) <;> revert this <;> decide
      have h2 : ((d :: ds') ++ ['.'] ++ r).drop (d :: ds').length = '.' :: r := by
        rw [List.append_assoc, List.drop_left' rfl]; rfl
      dsimp only
      rw [h1, if_neg hb, h2, if_pos ⟨by simp, rfl⟩]
      simp
  have hne : m.length ≠ 0 := by
    obtain ⟨c, t, rfl, _⟩ := h.marker.head
    simp
  unfold markLen
  simp only [hm, hd, hlen]
  rw [List.drop_left' rfl, if_pos ⟨hne, hr⟩]

theorem markLen_sound {l : Str} {k : Nat} (h : markLen l = some k) : ∃ ws m r, MarkerAt l ws m r := by
  have hs : l = l.takeWhile isWs ++ l.drop (margin l) := by
    unfold margin
    conv => rhs; rhs; rhs; rw [← List.takeWhile_append_dropWhile (p := isWs) (l := l)]
    rw [List.drop_left' rfl, List.takeWhile_append_dropWhile]
  have hrest : ∀ r : Str, r.head?.getD ' ' = ' ' → r = [] ∨ r = ['\n'] ∨ ∃ r', r = ' ' :: r' := by
    intro r hr
    cases r with
    | nil => exact .inl rfl
    | cons c r => simp at hr; exact .inr (.inr ⟨r, by rw [hr]⟩)
  have hws : ∀ c ∈ l.takeWhile isWs, isWs c = true := takeWhile_all _ _
  unfold markLen at h
  dsimp only at h
  generalize l.drop (margin l) = s at h hs
  by_cases hn : markerLen s ≠ 0 ∧ ((s.drop (markerLen s)).head?.getD ' ' = ' ')
  · obtain ⟨h0, hr⟩ := hn
    clear h
    unfold markerLen at h0 hr
    dsimp only at h0 hr
    by_cases hb : s.head? = some '*' ∨ s.head? = some '-' ∨ s.head? = some '+'
    · rw [if_pos hb] at hr
      cases s with
      | nil => simp at hb
      | cons c r =>
        refine ⟨_, [c], r, hs, hws, ?_, hrest _ hr⟩
        simp only [List.head?_cons, Option.some.injEq] at hb
        rcases hb with rfl | rfl | rfl
        · exact .inl rfl
        · exact .inr (.inl rfl)
        · exact .inr (.inr (.inl rfl))
    · rw [if_neg hb] at h0 hr
      by_cases hd : (s.takeWhile isDigit).length ≠ 0 ∧ (s.drop (s.takeWhile isDigit).length).head? = some '.'
      · rw [if_pos hd] at hr
        have e := List.takeWhile_append_dropWhile (p := isDigit) (l := s)
        have e2 : s.drop (s.takeWhile isDigit).length = s.dropWhile isDigit := by
          conv => lhs; rhs; rw [← e]
          rw [List.drop_left' rfl]
        have e3 : s.drop ((s.takeWhile isDigit).length + 1) = (s.dropWhile isDigit).drop 1 := by
          rw [← e2, List.drop_drop]
        rw [e2] at hd
        rw [e3] at hr
        cases hdw : s.dropWhile isDigit with
        | nil => rw [hdw] at hd; simp at hd
        | cons c r =>
          rw [hdw] at hd hr e
          have hc : c = '.' := by simpa using hd.2
          subst hc
          refine ⟨_, s.takeWhile isDigit ++ ['.'], r, ?_, hws,
            .inr (.inr (.inr ⟨_, ?_, takeWhile_all _ _, rfl⟩)), hrest _ hr⟩
          · conv => lhs; rw [hs, ← e]
            simp
          · intro h; rw [h] at hd; simp at hd
      · rw [if_neg hd] at h0
        exact absurd rfl h0
  · rw [if_neg hn] at h; cases h

theorem markLen_eq {l : Str} (h : NoLB l) : markLen l = markerEnd? l := by
  cases hm : markLen l with
  | some k =>
    obtain ⟨ws, m, r, hw⟩ := markLen_sound hm
    rw [markLen_intro hw h] at hm
    rw [markerEnd_intro hw, ← hm]
  | none =>
    symm
    rw [markerEnd_none]
    intro ws m r hw
    rw [markLen_intro hw h] at hm
    cases hm

theorem starts_run (t : Str) :
    (['`', '~'].any fun f => startsWith t (List.replicate 3 f)) = true ↔
      ∃ c r, t = c :: r ∧ 3 ≤ ((c :: r).takeWhile (· == c)).length ∧ (c = '`' ∨ c = '~') := by
  have key : ∀ f, startsWith t (List.replicate 3 f) = true ↔
      ∃ r, t = f :: r ∧ 3 ≤ ((f :: r).takeWhile (· == f)).length := by
    intro f
    rw [startsWith_iff]
    constructor
    · rintro ⟨r, rfl⟩
      refine ⟨f :: f :: r, rfl, ?_⟩
      simp
    · rintro ⟨r, rfl, h⟩
      rw [List.takeWhile_cons_of_pos (by simp)] at h
      match r with
      | [] => simp at h
      | [a] =>
        rw [List.takeWhile_cons] at h
        split at h <;> simp at h
      | a :: b :: r =>
        rw [List.takeWhile_cons] at h
        split at h
        · rename_i ha
          rw [List.takeWhile_cons] at h
          split at h
          · rename_i hb
            rw [eq_of_beq ha, eq_of_beq hb]
            exact ⟨r, rfl⟩
          · simp at h
        · simp at h
  simp only [List.any_cons, List.any_nil, Bool.or_false, Bool.or_eq_true, key]
  constructor
  · rintro (⟨r, e, h⟩ | ⟨r, e, h⟩)
    · exact ⟨_, r, e, h, .inl rfl⟩
    · exact ⟨_, r, e, h, .inr rfl⟩
  · rintro ⟨c, r, e, h, rfl | rfl⟩
    · exact .inl ⟨r, e, h⟩
    · exact .inr ⟨r, e, h⟩

/-- what is open, from the two variables of the program -/
def fenceState (inCode : Bool) (codeEnd : Str) : Option Str := if inCode then some codeEnd else none

theorem fence_track (b : Bool) (e l : Str) :
    fenceState (fenceTrack b e l).1 (fenceTrack b e l).2 = fenceAfter (fenceState b e) l := by
  unfold fenceTrack fenceAfter
  have hrun : ∀ c r, lstrip l = c :: r → fenceRun l = (c :: r).takeWhile (· == c) ∧ firstMark l = c := by
    intro c r h
    unfold fenceRun firstMark
    rw [show l.dropWhile isWs = c :: r from h]
    exact ⟨rfl, rfl⟩
  by_cases ha : (['`', '~'].any fun f => startsWith (lstrip l) (List.replicate 3 f)) = true
  · rw [if_pos ha]
    obtain ⟨c, r, hl, h3, hc⟩ := (starts_run _).1 ha
    obtain ⟨h1, h2⟩ := hrun c r hl
    have hm : mul c ((lstrip l).length - (lstripBy (· == c) l).length) = if margin l = 0 then fenceRun l else [] := by
      split
      · rename_i hz
        have e1 : lstrip l = l := by
          obtain ⟨t, ht, _⟩ := lstrip_split l
          rw [margin_eq] at hz
          unfold getIndent at hz
          have := congrArg List.length ht
          rw [List.length_append] at this
          cases t with
          | nil => exact ht.symm
          | cons x xs => rw [List.length_cons] at this; omega
        rw [e1] at hl ⊢
        rw [h1, ← hl]
        unfold mul lstripBy
        have e2 := takeWhile_length_eq (· == c) l
        have e3 : (l.dropWhile (· == c)).length ≤ l.length := (List.dropWhile_suffix _).length_le
        have : ((l.length : Int) - (l.dropWhile (· == c)).length).toNat = (l.takeWhile (· == c)).length := by omega
        rw [this, takeWhile_replicate]
      · rename_i hz
        cases l with
        | nil => cases hl
        | cons x xs =>
          have hx : isWs x = true := by
            cases hx : isWs x with
            | true => rfl
            | false => exfalso; apply hz; unfold margin; rw [List.takeWhile_cons, hx]; rfl
          have hne : (x == c) = false := by
            cases hxc : x == c with
            | false => rfl
            | true =>
              rw [eq_of_beq hxc] at hx
              rcases hc with rfl | rfl <;> revert hx <;> decide
          have e1 : lstripBy (· == c) (x :: xs) = x :: xs := by
            unfold lstripBy; rw [List.dropWhile_cons, hne]; rfl
          rw [e1]
          have e3 : (lstrip (x :: xs)).length ≤ (x :: xs).length := (List.dropWhile_suffix _).length_le
          unfold mul
          have : (((lstrip (x :: xs)).length : Int) - (x :: xs).length).toNat = 0 := by omega
          rw [this]; rfl
    rw [if_pos ⟨by rw [h1]; exact h3, by rw [h2]; exact hc⟩]
    generalize (if margin l = 0 then fenceRun l else []) = mk at hm
    simp only [hl] at hm ⊢
    rw [hm]
    cases b with
    | false => rfl
    | true =>
      simp only [if_true, fenceState]
      by_cases he : e = mk
      · simp [he]
      · simp [he]
  · rw [if_neg ha, if_neg]
    rintro ⟨h1, h2⟩
    apply ha
    rcases lstrip_head l with hl | ⟨c, r, hl, _⟩
    · have : fenceRun l = [] := by
        unfold fenceRun; rw [show l.dropWhile isWs = [] from hl]
      rw [this] at h1; simp at h1
    · obtain ⟨h3, h4⟩ := hrun c r hl
      rw [h3] at h1
      rw [h4] at h2
      exact (starts_run _).2 ⟨c, r, hl, h1, h2⟩

theorem splitLoop_ref : ∀ (ls : List Str), (∀ l ∈ ls, NoLB l) → ∀ (b : Bool) (c : Str) (k : Nat) (es : List (List Str)) (e : List Str),
    ∃ st, ls.foldlM splitListStep { inCode := b, codeEnd := c, maxIndent := k, entries := es ++ [e] } = .ok st ∧
      st.entries = es ++ (e ++ (entriesRef (fenceState b c) k ls).1) :: (entriesRef (fenceState b c) k ls).2
  | [], _, b, c, k, es, e => ⟨_, rfl, by simp [entriesRef]⟩
  | l :: ls, h, b, c, k, es, e => by
    have ih := splitLoop_ref ls fun x hx => h x (List.mem_cons_of_mem _ hx)
    have hl := markLen_eq (h l List.mem_cons_self)
    have hf := fence_track b c l
    rw [List.foldlM_cons]
    simp only [splitListStep, bind, Except.bind, appendToLast_concat]
    generalize fenceTrack b c l = f at hf
    obtain ⟨b', c'⟩ := f
    simp only [entriesRef, ← hf, hl, margin_eq]
    dsimp only at hf ⊢
    cases hm : markerEnd? l with
    | none =>
      dsimp only
      obtain ⟨st, h1, h2⟩ := ih b' c' k es (e ++ [l])
      refine ⟨st, h1, ?_⟩
      rw [h2]; simp
    | some n =>
      dsimp only
      by_cases hc : (!b' && decide (getIndent l ≤ k)) = true
      · rw [if_pos hc]
        have hc' : fenceState b' c' = none ∧ getIndent l ≤ k := by
          simp only [Bool.and_eq_true, Bool.not_eq_true', decide_eq_true_eq] at hc
          obtain ⟨rfl, h2⟩ := hc
          exact ⟨rfl, h2⟩
        rw [if_pos hc']
        obtain ⟨st, h1, h2⟩ := ih b' c' n (es ++ [e]) [l]
        refine ⟨st, h1, ?_⟩
        rw [h2]; simp
      · rw [if_neg hc]
        have hc' : ¬ (fenceState b' c' = none ∧ getIndent l ≤ k) := by
          rintro ⟨h1, h2⟩
          apply hc
          cases b' with
          | true => cases h1
          | false => simpa using h2
        rw [if_neg hc']
        obtain ⟨st, h1, h2⟩ := ih b' c' k es (e ++ [l])
        refine ⟨st, h1, ?_⟩
        rw [h2]; simp

theorem dedent_line (x : Str) (k : Nat) : lstrip (x.take k) ++ x.drop k = x.drop (min k (margin x)) := by
  have e : x = x.takeWhile isWs ++ lstrip x := (List.takeWhile_append_dropWhile (p := isWs) (l := x)).symm
  by_cases h : k ≤ margin x
  · rw [Nat.min_eq_left h]
    have : lstrip (x.take k) = [] := by
      rw [lstrip_eq_nil]
      intro c hc
      rw [e, List.take_append_of_le_length h] at hc
      exact takeWhile_all _ _ c (List.mem_of_mem_take hc)
    rw [this]; rfl
  · have h : margin x < k := by omega
    rw [Nat.min_eq_right (Nat.le_of_lt h)]
    have h1 : x.drop (margin x) = lstrip x := by
      conv => lhs; rhs; rw [e]
      exact List.drop_left' rfl
    rw [h1]
    have h2 : x.take k = x.takeWhile isWs ++ (lstrip x).take (k - margin x) := by
      conv => lhs; rw [e]
      rw [List.take_append, List.take_of_length_le (Nat.le_of_lt h)]; rfl
    have h3 : x.drop k = (lstrip x).drop (k - margin x) := by
      conv => lhs; rw [e]
      rw [List.drop_append, List.drop_of_length_le (Nat.le_of_lt h)]; rfl
    rw [h2, h3, lstrip_append_ws _ _ (takeWhile_all _ _)]
    have h4 : lstrip ((lstrip x).take (k - margin x)) = (lstrip x).take (k - margin x) := by
      rcases lstrip_head x with hl | ⟨c, r, hl, hc⟩
      · rw [hl]; simp [lstrip]
      · rw [hl]
        obtain ⟨m, hm⟩ : ∃ m, k - margin x = m + 1 := ⟨k - margin x - 1, by omega⟩
        rw [hm, List.take_succ_cons, lstrip_cons_of_not _ _ hc]
    rw [h4, List.take_append_drop]

theorem dedent_ref {l : Str} {ls : List Str} (h : (markerEnd? l).isSome = true) (hl : NoLB l) :
    dedentEntry (l :: ls) = .ok (contentsRef (l :: ls)) := by
  obtain ⟨k, hk⟩ := Option.isSome_iff_exists.1 h
  simp only [dedentEntry, listMarkerEndPos, hk, bind, Except.bind, contentsRef, markLen_eq hl, Option.getD_some, dedent_line]

/-- entries begin with their markers -/
def MarkedEntry (e : List Str) : Prop := ∃ l ls, e = l :: ls ∧ (markerEnd? l).isSome = true ∧ NoLB l

theorem entriesRef_marked : ∀ (ls : List Str), (∀ l ∈ ls, NoLB l) → ∀ f k, ∀ e ∈ (entriesRef f k ls).2, MarkedEntry e
  | [], _, _, _, e, he => by simp [entriesRef] at he
  | l :: ls, h, f, k, e, he => by
    have ih := entriesRef_marked ls fun x hx => h x (List.mem_cons_of_mem _ hx)
    have hl := h l List.mem_cons_self
    simp only [entriesRef] at he
    cases hm : markLen l with
    | none => rw [hm] at he; exact ih _ _ e he
    | some n =>
      rw [hm] at he
      dsimp only at he
      split at he
      · rcases List.mem_cons.1 he with rfl | he
        · exact ⟨_, _, rfl, by rw [← markLen_eq hl, hm]; rfl, hl⟩
        · exact ih _ _ e he
      · exact ih _ _ e he

theorem dedents_ref : ∀ (es : List (List Str)), (∀ e ∈ es, MarkedEntry e) → dedentEntries es = .ok (es.map contentsRef)
  | [], _ => rfl
  | e :: es, h => by
    obtain ⟨l, ls, rfl, h1, h2⟩ := h e List.mem_cons_self
    have ih := dedents_ref es fun x hx => h x (List.mem_cons_of_mem _ hx)
    unfold dedentEntries at ih ⊢
    rw [List.mapM_cons, dedent_ref h1 h2, ih]
    rfl

/-- the entries of a list -/
theorem entries_ref {l ws m r : Str} {ls : List Str} (hm : MarkerAt l ws m r) (h : ∀ x ∈ l :: ls, NoLB x) :
    ∃ es, splitList (l :: ls) = .ok es ∧ es.length = (entriesIn (l :: ls)).length ∧
      dedentEntries es = .ok (entriesIn (l :: ls)) := by
  have hl := h l List.mem_cons_self
  have hk := markerEnd_intro hm
  have hnf : fenceTrack false [] l = (false, []) := by
    unfold fenceTrack
    rw [if_neg]
    intro ha
    obtain ⟨c, t, e, _, hc⟩ := (starts_run _).1 ha
    rw [hm.lstrip] at e
    rcases hm.marker with rfl | rfl | rfl | ⟨ds, hne, hds, rfl⟩
    · cases e; rcases hc with hc | hc <;> revert hc <;> decide
    · cases e; rcases hc with hc | hc <;> revert hc <;> decide
    · cases e; rcases hc with hc | hc <;> revert hc <;> decide
    · cases ds with
      | nil => exact hne rfl
      | cons d ds =>
        cases e
        have := hds c List.mem_cons_self
        rcases hc with rfl | rfl <;> revert this <;> decide
  obtain ⟨st, h1, h2⟩ := splitLoop_ref ls (fun x hx => h x (List.mem_cons_of_mem _ hx)) false [] (ws.length + m.length) [] [l]
  refine ⟨st.entries, ?_, ?_, ?_⟩
  · simp only [splitList, listMarkerEndPos, hk, bind, Except.bind]
    rw [List.foldlM_cons]
    simp only [splitListStep, hnf, hk, bind, Except.bind, hm.indent]
    rw [if_pos (by simp)]
    simp only [List.nil_append] at h1 ⊢
    rw [h1]
  · rw [h2]
    simp [entriesIn, markLen_eq hl, hk, fenceState]
  · have hmk : (markerEnd? l).isSome = true := by rw [hk]; rfl
    rw [dedents_ref]
    · rw [h2]
      simp [entriesIn, markLen_eq hl, hk, fenceState]
    · rw [h2]
      intro e he
      simp only [List.nil_append, List.mem_cons] at he
      rcases he with rfl | he
      · exact ⟨l, _, rfl, hmk, hl⟩
      · exact entriesRef_marked ls (fun x hx => h x (List.mem_cons_of_mem _ hx)) _ _ e he

theorem entry_ref (sub : Width → Str → Except Err Str) (w : Width) (k : Nat) (m : Str) (e : List Str) :
    fmtEntry sub w k m e = entryRef sub w k m e := by
  simp only [fmtEntry, entryRef, reformatLines, unlines, bind, Except.bind]
  cases sub (w.sub k) (pyJoin ['\n'] e ++ ['\n']) with
  | error e => rfl
  | ok t => simp

theorem bullets_ref (sub : Width → Str → Except Err Str) (w : Width) (m : Str) : ∀ (es : List (List Str)),
    fmtBulletEntries sub w m es = allRef (entryRef sub w 2 m) es
  | [] => rfl
  | e :: es => by
    simp only [fmtBulletEntries, allRef, entry_ref, bullets_ref sub w m es]

theorem numbers_ref (sub : Width → Str → Except Err Str) (w : Width) (k first : Nat) : ∀ (es : List (List Str)) (i : Nat),
    fmtOrderedEntries sub w k (first + i) es =
      allRef (fun e => entryRef sub w k (natStr (first + e.2) ++ ['.']) e.1) (es.zipIdx i)
  | [], _ => rfl
  | e :: es, i => by
    have := numbers_ref sub w k first es (i + 1)
    rw [← Nat.add_assoc] at this
    simp only [fmtOrderedEntries, List.zipIdx_cons, allRef, entry_ref, this]

theorem bulletList_ref (sub : Width → Str → Except Err Str) (w : Width) {lines : List Str} (hs : SecShape .bullet lines) :
    fmtBullet sub w lines = bulletRef sub w lines := by
  obtain ⟨l, ls, ws, m, r, rfl, hm, hb, _⟩ := hs.list (.inl rfl)
  obtain ⟨c, _, rfl⟩ := hb rfl
  obtain ⟨es, h1, _, h3⟩ := entries_ref hm hs.lines
  have hf : firstMark l = c := by
    unfold firstMark
    rw [show l.dropWhile isWs = [c] ++ ' ' :: r from hm.lstrip]; rfl
  simp only [fmtBullet, h1, h3, bind, Except.bind, hm.lstrip, bulletRef, List.headD_cons, bullets_ref, hf,
    List.cons_append]

theorem numberedList_ref (sub : Width → Str → Except Err Str) (w : Width) {lines : List Str} (hs : SecShape .ordered lines) :
    fmtOrdered sub w lines = numberedRef sub w lines := by
  obtain ⟨l, ls, ws, m, r, rfl, hm, _, hb⟩ := hs.list (.inr rfl)
  obtain ⟨ds, hne, hds, rfl⟩ := hb rfl
  obtain ⟨es, h1, h2, h3⟩ := entries_ref hm hs.lines
  have hf : (l.dropWhile isWs).takeWhile isDigit = ds := by
    rw [show l.dropWhile isWs = (ds ++ ['.']) ++ ' ' :: r from hm.lstrip, List.append_assoc]
    exact takeWhile_append_stop _ _ _ _ hds (by decide)
  have hn := numbers_ref sub w ((natStr (parseNat ds + es.length - 1)).length + 2) (parseNat ds) (entriesIn (l :: ls)) 0
  rw [show parseNat ds + 0 = parseNat ds from rfl, h2] at hn
  simp only [fmtOrdered, h1, h3, bind, Except.bind, firstNumber_marker hm hne hds, numberedRef, List.headD_cons, hf, hn, h2]

/-! ## Quotes -/

theorem remark_ref : ∀ (ls : List Str) (d : Nat), fullyQuote d ls = remark d ls
  | [], _ => rfl
  | l :: ls, d => by
    simp only [fullyQuote, remark, quotedLine_eq, spaceless_eq, lstripBy, takeWhile_length_eq, remark_ref ls]

theorem spaced_ref : ∀ (ls : List Str), hasSpace ls = spacedQuote ls
  | [] => rfl
  | l :: ls => by
    have ih := spaced_ref ls
    unfold spacedQuote at ih ⊢
    simp only [hasSpace, List.find?_cons, margin_eq] at ih ⊢
    by_cases h : strip l = []
    · simp [h, ih]
    · by_cases h1 : getIndent l = 1
      · simp [h, h1]
      · by_cases h0 : getIndent l = 0
        · simp [h, h0]
        · have : ¬ getIndent l ≤ 1 := by omega
          simp [h, h1, h0, this, ih]

theorem dropSpace_ref (l : Str) : dropSpace l = if l.head? = some ' ' then l.drop 1 else l := by
  cases l with
  | nil => rfl
  | cons c r => simp [dropSpace]

theorem quote_ref (sub : Width → Str → Except Err Str) (w : Width) {lines : List Str} (h : lines ≠ []) :
    fmtQuote sub w lines = quoteRef sub w lines := by
  obtain ⟨l, ls, rfl⟩ := List.exists_cons_of_ne_nil h
  have hu : (unquote : Str → Str) = unmark := funext fun x => (unmark_eq x).symm
  have hle : (lstrip l).length ≤ l.length := (List.dropWhile_suffix _).length_le
  have hi : ((lstrip l).length : Int) - l.length = - (margin l : Int) := by
    rw [margin_eq]; unfold getIndent; omega
  have hmul : mul ' ' (- (margin l : Int)) = [] := by
    unfold mul
    have : (- (margin l : Int)).toNat = 0 := by omega
    rw [this]; rfl
  have hds : (dropSpace : Str → Str) = fun l => if l.head? = some ' ' then l.drop 1 else l := funext dropSpace_ref
  simp only [fmtQuote, quoteInner, quoteRef, reformatLines, unlines, remark_ref, hu, spaced_ref, hi, hmul, List.headD_cons,
    bind, Except.bind, hds]
  cases spacedQuote ((remark 0 (l :: ls)).map unmark) with
  | true =>
    have hw : ((w.sub (-(margin l : Int))).sub 1).sub 1 = w.sub (((c!"> ").length : Int) - margin l) := by
      cases w with
      | inf => rfl
      | fin n => simp only [Width.sub, List.length_cons, List.length_nil]; congr 1; omega
    simp only [if_true]
    rw [hw]
    rfl
  | false =>
    have hw : (w.sub (-(margin l : Int))).sub 1 = w.sub (((c!">").length : Int) - margin l) := by
      cases w with
      | inf => rfl
      | fin n => simp only [Width.sub, List.length_cons, List.length_nil]; congr 1; omega
    simp only [Bool.false_eq_true, if_false]
    rw [hw]
    rfl

/-! ## Documents -/

theorem part_ref (sub : Width → Str → Except Err Str) (w : Width) (i : Nat) {ty : Sec} {lines : List Str}
    (hs : SecShape ty lines) : fmtSection sub w i ty lines = partRef sub w i ty lines := by
  obtain ⟨l, ls, e, hne⟩ := hs.first
  cases ty with
  | blank => rfl
  | atx => rw [e]; exact heading_ref l ls
  | thematic => rw [e]; exact rule_ref w ls (hne (by decide))
  | fenced => rw [e]; exact fence_ref ls (hne (by decide))
  | indented => rfl
  | par => exact par_ref w (by rw [e]; simp)
  | setext => exact underlined_ref hs
  | lrd => exact definition_ref w (hs.lrd rfl) hs.lines
  | table => exact table_ref i lines
  | bullet => exact bulletList_ref sub w hs
  | ordered => exact numberedList_ref sub w hs
  | quote => exact quote_ref sub w (by rw [e]; simp)

/-- a fence alone -/
def loneFence (s : Sec × List Str) : Bool := s.1 == .fenced && s.2.length == 1

theorem repr_ref {s : Sec × List Str} (hs : SecShape s.1 s.2) :
    reprCheck s.1 s.2 = if loneFence s then .error .indexError else .ok () := by
  obtain ⟨ty, lines⟩ := s
  unfold loneFence
  rcases reprCheck_shape hs with hr | ⟨hty, hlen, hr⟩
  · rw [hr, if_neg]
    simp only [Bool.and_eq_true, beq_iff_eq]
    rintro ⟨rfl, hx⟩
    match lines, hx with
    | [l], _ => simp [reprCheck] at hr
  · dsimp only at hty hlen
    subst hty
    rw [hr, if_pos (by simp [hlen])]

theorem fmts_fail : ∀ (secs : List (Sec × List Str)), (∀ s ∈ secs, SecShape s.1 s.2) → secs.any loneFence = true →
    ∀ (i : Nat) (last : Option Sec), buildFmts i last secs = .error .indexError
  | [], _, h, _, _ => by cases h
  | s :: secs, h, ha, i, last => by
    have hr := repr_ref (h _ List.mem_cons_self)
    obtain ⟨ty, lines⟩ := s
    dsimp only at hr
    simp only [buildFmts, bind, Except.bind, hr]
    by_cases hs : loneFence (ty, lines) = true
    · rw [if_pos hs]
    · rw [if_neg hs]
      rw [List.any_cons, Bool.or_eq_true] at ha
      rw [fmts_fail secs (fun s hs => h s (List.mem_cons_of_mem _ hs)) (ha.resolve_left hs)]

theorem fmts_ref (sub : Width → Str → Except Err Str) (w : Width) : ∀ (secs : List (Sec × List Str)),
    (∀ s ∈ secs, SecShape s.1 s.2) → secs.any loneFence = false → ∀ (i : Nat) (last : Option Sec),
    ∃ fs, buildFmts i last secs = .ok fs ∧ fmtAll sub w fs = partsRef sub w i (decide (last = some .quote)) secs
  | [], _, _, _, _ => ⟨_, rfl, rfl⟩
  | s :: secs, h, ha, i, last => by
    have hr := repr_ref (h _ List.mem_cons_self)
    rw [List.any_cons, Bool.or_eq_false_iff] at ha
    have hp := part_ref sub w i (h _ List.mem_cons_self)
    obtain ⟨ty, lines⟩ := s
    dsimp only at hr hp
    obtain ⟨fs, h1, h2⟩ := fmts_ref sub w secs (fun s hs => h s (List.mem_cons_of_mem _ hs)) ha.2 (i + lines.length) (some ty)
    have hone : fmtAll sub w (⟨i, ty, lines⟩ :: fs) = (do
        let t ← (match partRef sub w i ty lines with
          | .error .stopIteration => .error .genStop
          | r => r)
        let ts ← partsRef sub w (i + lines.length) (decide (ty = .quote)) secs
        .ok (t :: ts)) := by
      simp only [fmtAll, hp, h2, Option.some.injEq]
      cases partRef sub w i ty lines with
      | ok t => rfl
      | error e => cases e <;> rfl
    simp only [buildFmts, bind, Except.bind, hr, ha.1, Bool.false_eq_true, if_false, h1]
    by_cases hc : (ty == .setext && last == some .quote) = true
    · rw [if_pos hc]
      refine ⟨_, rfl, ?_⟩
      have hb : ∀ fs, fmtAll sub w (⟨i, .blank, [[]]⟩ :: fs) = (do let ts ← fmtAll sub w fs; .ok ([] :: ts)) := fun _ => rfl
      rw [hb, hone]
      simp only [Bool.and_eq_true, beq_iff_eq] at hc
      obtain ⟨rfl, rfl⟩ := hc
      simp only [partsRef, bind, Except.bind]
      cases partRef sub w i .setext lines with
      | ok t =>
        dsimp only
        cases partsRef sub w (i + lines.length) (decide (Sec.setext = .quote)) secs <;> simp
      | error e => cases e <;> rfl
    · rw [if_neg hc]
      refine ⟨_, rfl, ?_⟩
      rw [hone]
      have hc' : ¬ (decide (last = some .quote) = true ∧ ty = .setext) := by
        rintro ⟨h3, rfl⟩
        apply hc
        have h3 := of_decide_eq_true h3
        rw [h3]; rfl
      simp only [partsRef, bind, Except.bind, if_neg hc']
      cases partRef sub w i ty lines with
      | ok t => rfl
      | error e => cases e <;> rfl

theorem body_ref (sub : Width → Str → Except Err Str) (w : Width) {secs : List (Sec × List Str)}
    (h : ∀ s ∈ secs, SecShape s.1 s.2) :
    (do let fmts ← buildFmts 0 none secs
        let parts ← fmtAll sub w fmts
        (.ok (pyJoin ['\n'] parts ++ ['\n']) : Except Err Str)) =
      if secs.any fun s => s.1 == .fenced && s.2.length == 1 then .error .indexError
      else (do
        let ts ← partsRef sub w 0 false secs
        .ok (unlines ts)) := by
  have he : (secs.any fun s => s.1 == .fenced && s.2.length == 1) = secs.any loneFence := rfl
  rw [he]
  by_cases ha : secs.any loneFence = true
  · rw [if_pos ha, fmts_fail secs h ha]; rfl
  · rw [if_neg ha]
    obtain ⟨fs, h1, h2⟩ := fmts_ref sub w secs h (by simpa using ha) 0 none
    rw [h1]
    simp only [bind, Except.bind, h2]
    rfl

theorem format_below : ∀ (n : Nat) (w : Width) (text : Str), Refines (reformatText n w text) (formatRef n w text)
  | 0, _, _ => .inl rfl
  | n + 1, w, text => by
    simp only [reformatText, reformatBody, formatRef]
    by_cases hr : parse n (splitlines text) = .error .recursion
    · rw [hr]; exact .inl rfl
    · rw [← C117_division n _ hr]
      cases hp : parse n (splitlines text) with
      | error e => exact .inr rfl
      | ok secs =>
        have hsh : ∀ s ∈ secs, SecShape s.1 s.2 := fun s hs => parse_shape hp (splitlines_noLB _) hs
        show Refines (do let fmts ← buildFmts 0 none secs
                         let parts ← fmtAll (reformatText n) w fmts
                         (.ok (pyJoin ['\n'] parts ++ ['\n']) : Except Err Str)) _
        refine Refines.trans ?_ (.inr (body_ref (formatRef n) w hsh))
        exact .bind .rfl fun fmts => .bind (fmtAll_refines (format_below n) w fmts) fun _ => .rfl

theorem format_above : ∀ (n : Nat) (w : Width) (text : Str), Refines (formatRef n w text) (reformatText (n + 1) w text)
  | 0, _, _ => .inl rfl
  | n + 1, w, text => by
    rw [reformatText, reformatBody, formatRef]
    by_cases hr : divideQ n (splitlines text) = .error .recursion
    · rw [hr]; exact .inl rfl
    · rw [C117_enough n _ hr]
      cases hp : divideQ n (splitlines text) with
      | error e => exact .inr rfl
      | ok secs =>
        have hp' : parse (n + 1) (splitlines text) = .ok secs := by rw [C117_enough n _ hr, hp]
        have hsh : ∀ s ∈ secs, SecShape s.1 s.2 := fun s hs => parse_shape hp' (splitlines_noLB _) hs
        show Refines _ (do let fmts ← buildFmts 0 none secs
                           let parts ← fmtAll (reformatText (n + 1)) w fmts
                           (.ok (pyJoin ['\n'] parts ++ ['\n']) : Except Err Str))
        refine Refines.trans (.inr (body_ref (formatRef n) w hsh).symm) ?_
        exact .bind .rfl fun fmts => .bind (fmtAll_refines (format_above n) w fmts) fun _ => .rfl

/-! ## C119 -/

/-- Every document that the recursion limit is enough for is formatted as the reference says, or fails as it says. -/
theorem C119_format (n : Nat) (w : Width) (text : Str) (h : reformatText n w text ≠ .error .recursion) :
    reformatText n w text = formatRef n w text := (format_below n w text).resolve_left h

/-- If the reference does not run out, the program with one level more does not either. -/
theorem C119_enough (n : Nat) (w : Width) (text : Str) (h : formatRef n w text ≠ .error .recursion) :
    reformatText (n + 1) w text = formatRef n w text := ((format_above n w text).resolve_left h).symm

/-- Documents whose only white space within lines is spaces never run out, however wide. -/
theorem C119_spaces (text : Str) (h : OnlySpaces text) (w : Width) (n : Nat) (hn : depthOf text ≤ n) :
    reformatText n w text = formatRef n w text ∧ formatRef n w text ≠ .error .recursion := by
  have ht := C06_terminates text h w n hn
  have he := C119_format n w text ht
  exact ⟨he, he ▸ ht⟩

theorem call_below (n : Nat) (w : Width) (text : Str) : Refines (reformatMarkdownText n w text) (callRef n w text) := by
  unfold reformatMarkdownText callRef
  refine .bind (format_below n w text) fun t => .bind (format_below n w t) fun t' => .inr ?_
  by_cases ht : t' = t
  · simp [ht]
  · rw [if_neg ht, if_pos (by simpa using ht)]

theorem call_above (n : Nat) (w : Width) (text : Str) : Refines (callRef n w text) (reformatMarkdownText (n + 1) w text) := by
  unfold reformatMarkdownText callRef
  refine .bind (format_above n w text) fun t => .bind (format_above n w t) fun t' => .inr ?_
  by_cases ht : t' = t
  · simp [ht]
  · rw [if_neg ht, if_pos (by simpa using ht)]

/-- The call of the API. -/
theorem C119_call (n : Nat) (w : Width) (text : Str) (h : reformatMarkdownText n w text ≠ .error .recursion) :
    reformatMarkdownText n w text = callRef n w text := (call_below n w text).resolve_left h

theorem C119_call_enough (n : Nat) (w : Width) (text : Str) (h : callRef n w text ≠ .error .recursion) :
    reformatMarkdownText (n + 1) w text = callRef n w text := ((call_above n w text).resolve_left h).symm

theorem C119_example :
    formatRef 6 (.fin 20) (c!" >  a *b* c d e f g h i j k l m n o\n> 7.  x y\n>\n>     ~~~ q\n>      code  \n>     ~~~\n> 3. z\ng\n===\n" ++
        c!"| a | b\\|c |\n|:-|-:|\n| dd | |\n[foo]: /url  \"ti tle\"\n\n*  u\n   - v\n") =
      .ok (c!"> a *b* c d e f g h i\n> j k l m n o\n> 7. x y\n>\n> ~~~q\n>      code\n> ~~~\n> 3. z\n\ng\n=\n" ++
        c!"| a  | b\\|c |\n|:---|-----:|\n| dd |      |\n[foo]: /url \"ti tle\"\n\n* u\n  - v\n") ∧
    callRef 6 (.fin 20) c!" > a *b* c d e f g h i j k l m n o\n" = .error .inconsistent ∧
    callRef 6 (.fin 20) c!"##a\n\n1) b\n* c\n\n" = .ok c!"## a\n\n1) b\n* c\n" ∧
    callRef 6 (.fin 20) c!"|a|b|\n|-|-|\n|c|\n" = .error (.format 3 2 1) ∧
    callRef 6 (.fin 20) c!"> ~~~\n" = .error .indexError ∧
    callRef 6 (.fin 20) c!"- foo\n  bar  " = .error .genStop := by decide +kernel

end MF
