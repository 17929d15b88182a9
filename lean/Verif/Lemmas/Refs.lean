import Verif.Props.RefSpec
import Verif.Props.Lrd
import Verif.Props.Prose
/-!
# Dividing and formatting link definitions
-/

namespace MF

/-! ## The patterns -/

theorem lrdFirst_intro {label r : Str} (h1 : label ≠ []) (h2 : label.length ≤ 999) (h3 : ']' ∉ label) :
    ∃ m, lrdFirstRx.match? ('[' :: (label ++ (']' :: ':' :: r))) = some m ∧ m.stop = label.length + 3 := by
  have hstep : ∃ st, lrdFirstRx.Step ⟨[], '[' :: (label ++ (']' :: ':' :: r)), []⟩ st := by
    simp only [lrdFirstRx, Rx.seqs]
    refine ⟨_, _, ⟨'[', _, rfl, by decide, rfl⟩, _, repStep_chr_intro label ?_ (List.length_pos_iff.2 h1) ?_,
      _, ⟨']', _, rfl, by decide, rfl⟩, ⟨':', _, rfl, by decide, rfl⟩⟩
    · intro c hc
      simp only [bne_iff_ne, ne_eq]
      intro h0
      exact h3 (h0 ▸ hc)
    · intro m hm
      cases hm
      exact h2
  obtain ⟨st, hst⟩ := hstep
  obtain ⟨m, hm⟩ := Option.isSome_iff_exists.1 (Rx.matchAt_isSome hst)
  refine ⟨m, hm, ?_⟩
  obtain ⟨st, hst, _, hstop, _⟩ := Rx.matchAt_sound hm
  simp only [lrdFirstRx, Rx.seqs] at hst
  obtain ⟨s1, ⟨c1, cs1, e1, e2, rfl⟩, s2, e3, s3, ⟨c3, cs3, e9, e10, rfl⟩, ⟨c4, cs4, e11, e12, rfl⟩⟩ := hst
  obtain ⟨nm, e4, e5, e6, e7, e8⟩ := repStep_chr e3
  have d1 : '[' :: (label ++ (']' :: ':' :: r)) = c1 :: cs1 := e1
  have d2 : cs1 = nm ++ s2.post := e4.1
  have d3 : s2.post = c3 :: cs3 := e9
  have b3 : c3 = ']' := by simpa using e10
  have hnm : ']' ∉ nm := by
    intro hm
    have := e5 _ hm
    simp at this
  injection d1 with _ d1
  rw [d2, d3, b3] at d1
  obtain ⟨rfl, _⟩ := name_unique h3 hnm d1
  rw [hstop, show s2.pre = label.reverse ++ [c1] from e4.2]
  simp

theorem closing_title {q : Char} {body : Str} (hq : q ≠ '\\') (h1 : q ∉ body) (h2 : body.getLast? ≠ some '\\') :
    ∃ m, (closingRx q).search (body ++ [q]) = some m ∧ m.stop = (body ++ [q]).length := by
  cases hs : (closingRx q).search (body ++ [q]) with
  | none =>
    exfalso
    have := Rx.searchFrom_none _ hs body [q] rfl
    refine Rx.matchAt_none this ⟨q :: (body.reverse ++ []), [], []⟩ ?_
    simp only [closingRx, Rx.seqs]
    refine ⟨_, ⟨?_, rfl⟩, _, RepStep.stop _ _, q, [], rfl, by simp, rfl⟩
    intro c cs e
    simp only [beq_eq_false_iff_ne, ne_eq]
    rintro rfl
    apply h2
    have := congrArg List.reverse e
    simp at this
    rw [this]; simp
  | some m =>
    refine ⟨m, rfl, ?_⟩
    obtain ⟨u, post', e1, hm⟩ := Rx.searchFrom_sound _ hs
    obtain ⟨st, hst, _, hstop, _⟩ := Rx.matchAt_sound hm
    obtain ⟨v, hv1, hv2⟩ := Rx.Step.consumes _ hst
    simp only [closingRx, Rx.seqs] at hst
    obtain ⟨s1, _, s2, _, c, cs, e3, e4, rfl⟩ := hst
    have hc : c = q := by simpa using e4
    subst hc
    simp only at hv1 hv2 hstop
    have h3 : (s2.pre.reverse ++ [c]) ++ cs = body ++ [c] := by
      have := congrArg List.reverse hv2
      simp at this
      rw [e1, hv1, this, List.append_assoc]
    have : cs = [] := by
      rcases List.eq_nil_or_concat cs with rfl | ⟨cs', x, rfl⟩
      · rfl
      · exfalso
        rw [List.concat_eq_append, ← List.append_assoc] at h3
        have := List.append_inj_left' h3 rfl
        apply h1
        rw [← this]; simp
    subst this
    rw [hstop, ← h3]
    simp

/-! ## Dividing -/

theorem RefAt.lstrip {l label link title : Str} (h : RefAt l label link title) :
    ∃ r, lstrip l = '[' :: r ∧ getIndent l < 4 ∧ firstCh l = some '[' ∧ isIndentedStart l = false := by
  obtain ⟨ws, g, g', e, rfl, hw, _, hi, _⟩ := h
  have hl := lstrip_append_ws ws ('[' :: (label ++ (']' :: ':' :: (g ++ (link ++ (g' ++ (title ++ e))))))) (hw ws (by simp))
  rw [lstrip_cons_of_not _ _ (by decide)] at hl
  have hg : getIndent (ws ++ '[' :: (label ++ (']' :: ':' :: (g ++ (link ++ (g' ++ (title ++ e))))))) < 4 := by
    rw [getIndent_ws_append (hw ws (by simp)), getIndent_not_ws (by decide)]; exact hi
  refine ⟨_, hl, hg, ?_, ?_⟩
  · unfold firstCh; rw [hl]; rfl
  · simp [isIndentedStart]; intro _; exact hg

theorem takeWhile_dropWhile_append {p : Char → Bool} {a b : Str} (ha : ∀ c ∈ a, p c = true)
    (hb : ∀ c, b.head? = some c → p c = false) : (a ++ b).takeWhile p = a ∧ (a ++ b).dropWhile p = b := by
  induction a with
  | nil =>
    cases b with
    | nil => exact ⟨rfl, rfl⟩
    | cons c b => simp [hb c rfl]
  | cons c a ih =>
    obtain ⟨h1, h2⟩ := ih fun x hx => ha x (by simp [hx])
    simp [ha c (by simp), h1, h2]

theorem IsTitle.ends {title : Str} (h : IsTitle title) : ∃ q body, (q = '"' ∨ q = '\'') ∧ isWs q = false ∧ q ≠ '\\' ∧
    title = q :: (body ++ [q]) ∧ q ∉ body ∧ body.getLast? ≠ some '\\' := by
  obtain ⟨q, body, hq, h⟩ := h
  refine ⟨q, body, hq, ?_, ?_, h⟩ <;> rcases hq with rfl | rfl <;> decide

/-- the words of the rest of the line -/
theorem ref_words {label link title ws g g' e : Str} (hr : Ref label link title)
    (hw : ∀ x ∈ [ws, g, g', e], ∀ c ∈ x, isWs c = true) (hg : title ≠ [] → g' ≠ []) :
    (MF.lstrip (g ++ (link ++ (g' ++ (title ++ e))))).takeWhile (fun c => !isWs c) = link ∧
    (MF.lstrip (g ++ (link ++ (g' ++ (title ++ e))))).dropWhile (fun c => !isWs c) = g' ++ (title ++ e) ∧
    MF.lstrip (g' ++ (title ++ e)) = (if title = [] then [] else title ++ e) := by
  obtain ⟨c, r, hlink⟩ := List.exists_cons_of_ne_nil hr.linkOk.1
  have hc : isWs c = false := hr.linkOk.2 c (by rw [hlink]; simp)
  have h0 : MF.lstrip (g ++ (link ++ (g' ++ (title ++ e)))) = link ++ (g' ++ (title ++ e)) := by
    rw [lstrip_append_ws g _ (hw g (by simp)), hlink, List.cons_append, lstrip_cons_of_not _ _ hc]
  have h1 := takeWhile_dropWhile_append (p := fun c => !isWs c) (a := link) (b := g' ++ (title ++ e))
    (by intro c hc; simp [hr.linkOk.2 c hc]) (by
      intro c hc
      have : c ∈ g' ∨ c ∈ e := by
        cases g' with
        | cons x g' => simp at hc; left; simp [hc]
        | nil =>
          have : title = [] := by
            rcases hr.titleOk with h | h
            · exact h
            · exact absurd rfl (hg (by obtain ⟨q, b, _, rfl, _⟩ := h; simp))
          rw [this] at hc
          right
          exact List.mem_of_mem_head? (by simpa using hc)
      have : isWs c = true := by
        rcases this with h | h
        · exact hw g' (by simp) c h
        · exact hw e (by simp) c h
      simp [this])
  rw [h0]
  refine ⟨h1.1, h1.2, ?_⟩
  rw [lstrip_append_ws g' _ (hw g' (by simp))]
  rcases hr.titleOk with rfl | h
  · rw [if_pos rfl, List.nil_append]; exact (lstrip_eq_nil _).2 (hw e (by simp))
  · obtain ⟨q, body, _, hqw, _, rfl, _⟩ := h.ends
    rw [if_neg (by simp), List.cons_append, lstrip_cons_of_not _ _ hqw]

theorem ref_splitMax1 {label link title ws g g' e : Str} (hr : Ref label link title)
    (hw : ∀ x ∈ [ws, g, g', e], ∀ c ∈ x, isWs c = true) (hg : title ≠ [] → g' ≠ []) :
    splitMax1 (g ++ (link ++ (g' ++ (title ++ e)))) = link :: (if title = [] then [] else [title ++ e]) := by
  obtain ⟨h1, h2, h3⟩ := ref_words hr hw hg
  unfold splitMax1
  cases e0 : MF.lstrip (g ++ (link ++ (g' ++ (title ++ e)))) with
  | nil => rw [e0] at h1; exact absurd h1.symm hr.linkOk.1
  | cons c r =>
    simp only
    rw [← e0, h1, h2, h3]
    by_cases ht : title = []
    · simp [ht]
    · rw [if_neg ht, if_neg ht]
      obtain ⟨x, xs, e1⟩ := List.exists_cons_of_ne_nil ht
      rw [e1]
      rfl

/-- a definition without a title, and more lines after it -/
theorem splitLrd_untitled {l label link x : Str} {rest : List Str} (hr : Ref label link []) (h : RefAt l label link [])
    (hx : ∀ q ∈ c!"'\"", x.head? ≠ some q) : splitLrd (l :: x :: rest) = .ok ([l], x :: rest) := by
  obtain ⟨_, _, hi, _⟩ := h.lstrip
  obtain ⟨ws, g, g', e, rfl, hw, _, _, hg⟩ := h
  have hl := lstrip_append_ws ws ('[' :: (label ++ (']' :: ':' :: (g ++ (link ++ (g' ++ ([] ++ e))))))) (hw ws (by simp))
  rw [lstrip_cons_of_not _ _ (by decide)] at hl
  obtain ⟨m, hm, hstop⟩ := lrdFirst_intro (r := g ++ (link ++ (g' ++ ([] ++ e)))) hr.labelOk.1 hr.labelOk.2.1 hr.labelOk.2.2
  have hd : ('[' :: (label ++ (']' :: ':' :: (g ++ (link ++ (g' ++ ([] ++ e))))))).drop m.stop =
      g ++ (link ++ (g' ++ ([] ++ e))) := by
    rw [hstop, show label.length + 3 = label.length + 2 + 1 by omega, List.drop_succ_cons, List.drop_append]
    simp
  have hsm := ref_splitMax1 hr hw hg
  rw [if_pos rfl] at hsm
  simp only [splitLrd]
  rw [if_neg (by omega), hl]
  simp only [hm, hd, hsm, lrdFinish]
  cases x with
  | nil => rfl
  | cons q x =>
    have h1 : q ≠ '\'' := fun h => hx '\'' (by simp) (by rw [h]; rfl)
    have h2 : q ≠ '"' := fun h => hx '"' (by simp) (by rw [h]; rfl)
    have : (q == '\'' || q == '"') = false := by simp [h1, h2]
    simp only [this, Bool.and_false]
    rfl

/-- a definition without a title on the last line is not recognised -/
theorem splitLrd_tail {l label link : Str} (hr : Ref label link []) (h : RefAt l label link []) :
    splitLrd [l] = .ok ([], [l]) := by
  obtain ⟨_, _, hi, _⟩ := h.lstrip
  obtain ⟨ws, g, g', e, rfl, hw, _, _, hg⟩ := h
  have hl := lstrip_append_ws ws ('[' :: (label ++ (']' :: ':' :: (g ++ (link ++ (g' ++ ([] ++ e))))))) (hw ws (by simp))
  rw [lstrip_cons_of_not _ _ (by decide)] at hl
  obtain ⟨m, hm, hstop⟩ := lrdFirst_intro (r := g ++ (link ++ (g' ++ ([] ++ e)))) hr.labelOk.1 hr.labelOk.2.1 hr.labelOk.2.2
  have hd : ('[' :: (label ++ (']' :: ':' :: (g ++ (link ++ (g' ++ ([] ++ e))))))).drop m.stop =
      g ++ (link ++ (g' ++ ([] ++ e))) := by
    rw [hstop, show label.length + 3 = label.length + 2 + 1 by omega, List.drop_succ_cons, List.drop_append]
    simp
  have hsm := ref_splitMax1 hr hw hg
  rw [if_pos rfl] at hsm
  simp only [splitLrd]
  rw [if_neg (by omega), hl]
  simp only [hm, hd, hsm, lrdFinish]
  rfl

/-- a definition with a title -/
theorem splitLrd_titled {l label link title : Str} {rest : List Str} (hr : Ref label link title) (h : RefAt l label link title)
    (ht : title ≠ []) : splitLrd (l :: rest) = .ok ([l], rest) := by
  obtain ⟨_, _, hi, _⟩ := h.lstrip
  obtain ⟨ws, g, g', e, rfl, hw, _, _, hg⟩ := h
  have hl := lstrip_append_ws ws ('[' :: (label ++ (']' :: ':' :: (g ++ (link ++ (g' ++ (title ++ e))))))) (hw ws (by simp))
  rw [lstrip_cons_of_not _ _ (by decide)] at hl
  obtain ⟨m, hm, hstop⟩ := lrdFirst_intro (r := g ++ (link ++ (g' ++ (title ++ e)))) hr.labelOk.1 hr.labelOk.2.1 hr.labelOk.2.2
  have hd : ('[' :: (label ++ (']' :: ':' :: (g ++ (link ++ (g' ++ (title ++ e))))))).drop m.stop =
      g ++ (link ++ (g' ++ (title ++ e))) := by
    rw [hstop, show label.length + 3 = label.length + 2 + 1 by omega, List.drop_succ_cons, List.drop_append]
    simp
  have hsm := ref_splitMax1 hr hw hg
  rw [if_neg ht] at hsm
  simp only [splitLrd]
  rw [if_neg (by omega), hl]
  simp only [hm, hd, hsm, lrdFinish]
  obtain ⟨q, body, hq, hqw, hqb, rfl, hb1, hb2⟩ := (hr.titleOk.resolve_left ht).ends
  obtain ⟨m', hm', hstop'⟩ := closing_title hqb hb1 hb2
  have hrs : rstrip (body ++ (q :: e)) = body ++ [q] := by
    rw [show body ++ q :: e = (body ++ [q]) ++ e by simp, rstrip_append_ws _ _ (hw e (by simp)), rstrip_concat_of_not _ _ hqw]
  have hloop : titleLoop q false 0 (body ++ (q :: e)) rest = (true, 1) := by
    cases rest <;> simp only [titleLoop, hrs, hm', hstop', BEq.rfl, if_true]
  have hst : strip (q :: (body ++ (q :: e))) ≠ [] := by
    obtain ⟨r', h'⟩ := strip_cons_head (c := q) (r := body ++ (q :: e)) hqw
    rw [h']; simp
  have hqq : (q == '\'' || q == '"') = true := by rcases hq with rfl | rfl <;> decide
  have hemp : (!(strip (q :: (body ++ (q :: e)))).isEmpty) = true := by
    cases h0 : strip (q :: (body ++ (q :: e))) with
    | nil => exact absurd h0 hst
    | cons => rfl
  simp only [List.cons_append, List.append_assoc, List.nil_append]
  rw [hemp, hqq]
  simp only [Bool.and_self, if_true, hloop]
  rfl

/-! ## Formatting -/

theorem refAt_noLB {l label link title : Str} (hr : Ref label link title) (h : RefAt l label link title) : NoLB l := by
  obtain ⟨ws, g, g', e, rfl, _, hn, _⟩ := h
  obtain ⟨n1, n2, n3⟩ := hr.noLB
  intro c hc
  simp only [List.mem_append, List.mem_cons] at hc
  rcases hc with hc | rfl | hc | rfl | rfl | hc | hc | hc | hc | hc
  · exact hn ws (by simp) c hc
  · decide
  · exact n1 c hc
  · decide
  · decide
  · exact hn g (by simp) c hc
  · exact n2 c hc
  · exact hn g' (by simp) c hc
  · exact n3 c hc
  · exact hn e (by simp) c hc

theorem refAt_parts {l label link title : Str} (hr : Ref label link title) (h : RefAt l label link title) :
    lrdParts [l] = .ok (label, link, title) := by
  have hnl := refAt_noLB hr h
  obtain ⟨ws, g, g', e, rfl, hw, _, _, hg⟩ := h
  obtain ⟨h1, h2, h3⟩ := ref_words hr hw hg
  rw [lrdParts_of_shape (lines := [_]) (ws := ws) (name := label) (body := g ++ (link ++ (g' ++ (title ++ e)))) rfl ?_
    hr.labelOk.1 hr.labelOk.2.1 hr.labelOk.2.2, h1, h2, h3]
  · congr 3
    by_cases ht : title = []
    · subst ht; rfl
    · rw [if_neg ht, takeWhile_eq_self]
      · rw [splitWs_append_all (hw e (by simp))]; exact hr.single
      · intro c hc
        have : c ∈ ws ++ '[' :: (label ++ (']' :: ':' :: (g ++ (link ++ (g' ++ (title ++ e)))))) := by
          simp only [List.mem_append, List.mem_cons] at hc ⊢
          rcases hc with hc | hc <;> simp [hc]
        have := hnl c this
        simp only [bne_iff_ne, ne_eq]
        rintro rfl
        exact absurd this (by decide)
  · intro hc
    have := hw ws (by simp) _ hc
    exact absurd this (by decide)

theorem lay_fits (w : Width) : ∀ (ts cur : List Tok), (∀ t ∈ ts, t.isBr = false) → cur ++ ts ≠ [] →
    fitsIn w (lineText (cur ++ ts)).length = true → lay w cur ts = [cur ++ ts] := by
  intro ts
  induction ts with
  | nil =>
    intro cur _ hne _
    rw [List.append_nil] at hne ⊢
    cases cur with
    | nil => exact absurd rfl hne
    | cons => rfl
  | cons t ts ih =>
    intro cur hb hne hf
    have h1 : fitsIn w (lineText (cur ++ [t])).length = true := by
      have := lineText_prefix_le (cur ++ [t]) ts
      rw [List.append_assoc] at this
      unfold fitsIn at hf ⊢
      rw [Bool.or_eq_true] at hf ⊢
      rcases hf with hf | hf
      · exact .inl hf
      · exact .inr (ge_mono this hf)
    rw [lay, h1, Bool.or_true, if_pos rfl, hb t (by simp)]
    have := ih (cur ++ [t]) (fun u hu => hb u (by simp [hu])) (by simp) (by simpa using hf)
    simpa using this

theorem PlainWord.noBrTok {g : Gap} {v : Str} (h : PlainWord v) : Tok.isBr ⟨g, v⟩ = false := by
  cases e : Tok.isBr ⟨g, v⟩ with
  | false => rfl
  | true =>
    exfalso
    have hb := h.noBr
    simp only [Tok.isBr, List.contains_eq_mem, List.mem_cons, List.not_mem_nil, or_false, decide_eq_true_eq] at e
    rcases e with rfl | rfl | rfl | rfl
    · exact hb ⟨[], c!">", rfl⟩
    · exact hb ⟨[], c!"/>", rfl⟩
    · exact hb ⟨[], c!" >", rfl⟩
    · exact hb ⟨[], c!" />", rfl⟩

theorem lineText_plain (ws : List Str) : lineText (plainToks ws) = pyJoin [' '] ws := by
  cases ws with
  | nil => rfl
  | cons v ws =>
    rw [plainToks, lineText]
    induction ws generalizing v with
    | nil => simp [pyJoin]
    | cons u ws ih =>
      have := ih u
      simp only [List.map_cons, List.flatten_cons, pyJoin] at this ⊢
      rw [← this]
      simp [Tok.spaced]

/-- plain words that fit are put on one line -/
theorem plain_wrap {s L : Str} {w : Width} (hL : PlainLine L) (hw : splitWs s = splitWs L) (hne : L ≠ []) (hs : strip s = s)
    (hsp : ∀ c ∈ s, isWs c = true → c = ' ') (hd : startsSingleDot s = false) (hf : fitsIn w L.length = true) :
    wrap s w = .ok L := by
  have hne' : splitWs L ≠ [] := by
    intro e
    have := hL.single
    rw [e] at this
    exact hne this.symm
  have hr := runs_words s.length s (Nat.le_refl _) (by rw [hw]; exact hL.plain)
  have hin : Inline s (plainToks (splitWs L)) := by
    refine ⟨?_, hs, hsp, hd⟩
    rw [hw] at hr
    obtain ⟨v, vs, e⟩ := List.exists_cons_of_ne_nil hne'
    rw [e] at hr ⊢
    have h0 : s.takeWhile isWs = [] := by
      have h1 : lstrip s = s := by rw [← hs]; exact lstrip_strip s
      cases s with
      | nil => rfl
      | cons c r =>
        rcases lstrip_head (c :: r) with h2 | ⟨c', r', h2, hc⟩
        · rw [h1] at h2; cases h2
        · rw [h1] at h2; cases h2; simp [hc]
    simp only [h0] at hr
    exact hr
  have hbr : ∀ t ∈ plainToks (splitWs L), t.isBr = false := by
    intro t ht
    exact (hL.plain _ (plainToks_text t ht)).noBrTok (g := t.gap)
  have hnt : plainToks (splitWs L) ≠ [] := by
    obtain ⟨v, vs, e⟩ := List.exists_cons_of_ne_nil hne'
    rw [e]; simp [plainToks]
  rw [wrap_fill (ts := plainToks (splitWs L)) (by rw [wrapInput_line (spaces_noLB hsp) hs]; exact hin)]
  have hlt : lineText (plainToks (splitWs L)) = L := (lineText_plain _).trans hL.single
  rw [layLines, lay_fits w _ [] hbr (by simpa using hnt) (by rw [List.nil_append, hlt]; exact hf)]
  simp only [List.nil_append, List.map_cons, List.map_nil, hlt]
  rfl

theorem plainLine_spaces {L : Str} (h : PlainLine L) : ∀ c ∈ L, isWs c = true → c = ' ' := by
  intro c hc hw
  rw [← h.single] at hc
  rcases mem_pyJoin hc with hc | ⟨v, hv, hc⟩
  · simpa using hc
  · rw [(splitWs_word hv).2.1 c hc] at hw; cases hw

theorem refLine_ne (label link title : Str) : refLine label link title ≠ [] := by simp [refLine]

theorem refLine_noLB {label link title : Str} (hr : Ref label link title) : NoLB (refLine label link title) := by
  obtain ⟨n1, n2, n3⟩ := hr.noLB
  intro c hc
  unfold refLine at hc
  simp only [List.mem_append, List.mem_cons, List.not_mem_nil, or_false] at hc
  rcases hc with rfl | hc | (rfl | rfl | rfl) | hc | hc
  · decide
  · exact n1 c hc
  · decide
  · decide
  · decide
  · exact n2 c hc
  · split at hc
    · cases hc
    · rcases List.mem_cons.1 hc with rfl | hc
      · decide
      · exact n3 c hc

theorem refLine_last {label link title : Str} (hr : Ref label link title) :
    ∃ r c, refLine label link title = r ++ [c] ∧ isWs c = false := by
  unfold refLine
  rcases hr.titleOk with rfl | h
  · rw [if_pos rfl]
    obtain ⟨r, c, e⟩ : ∃ r c, link = r ++ [c] := ⟨_, _, (List.dropLast_concat_getLast hr.linkOk.1).symm⟩
    exact ⟨'[' :: (label ++ (c!"]: " ++ r)), c, by rw [e]; simp, hr.linkOk.2 c (by rw [e]; simp)⟩
  · obtain ⟨q, body, _, hqw, _, rfl, _⟩ := h.ends
    rw [if_neg (by simp)]
    exact ⟨'[' :: (label ++ (c!"]: " ++ (link ++ (' ' :: q :: body)))), q, by simp, hqw⟩

theorem refLine_strip {label link title : Str} (hr : Ref label link title) : strip (refLine label link title) = refLine label link title := by
  obtain ⟨r, c, e, hc⟩ := refLine_last hr
  have h1 : lstrip (refLine label link title) = refLine label link title := by
    unfold refLine; rw [lstrip_cons_of_not _ _ (by decide)]
  rw [strip, h1, e, rstrip_concat_of_not _ _ hc]

theorem isIn_intro {p s : Str} (h : p <:+: s) : isIn p s = true := by
  obtain ⟨a, b, e⟩ := h
  exact (isIn_iff p s).2 ⟨a, b, by rw [← e]; simp⟩

/-- a definition is written on one line -/
theorem fmtLrd_ref {l label link title : Str} {w : Width} (hr : Ref label link title) (h : RefAt l label link title)
    (hp : title ≠ [] → PlainLine (refLine label link title) ∧ w.ge (refLine label link title).length = true) :
    fmtLrd w [l] = .ok (refLine label link title) := by
  have hparts := refAt_parts hr h
  obtain ⟨ws, g, g', e, rfl, hw, _, _, hg⟩ := h
  have hlink : link.isEmpty = false := by
    obtain ⟨c, r, hc⟩ := List.exists_cons_of_ne_nil hr.linkOk.1
    rw [hc]; rfl
  have hon : isIn link (ws ++ '[' :: (label ++ (']' :: ':' :: (g ++ (link ++ (g' ++ (title ++ e))))))) = true :=
    isIn_intro ⟨ws ++ '[' :: (label ++ (']' :: ':' :: g)), g' ++ (title ++ e), by simp⟩
  simp only [fmtLrd, hparts, bind, Except.bind, hlink, hon, if_true]
  by_cases ht : title = []
  · subst ht
    simp [refLine]
  · have hte : title.isEmpty = false := by
      obtain ⟨c, r, hc⟩ := List.exists_cons_of_ne_nil ht
      rw [hc]; rfl
    obtain ⟨hpl, hwd⟩ := hp ht
    have hsw : splitWs title ≠ [] := by
      intro h0
      have := hr.single
      rw [h0] at this
      exact ht this.symm
    obtain ⟨v, vs, hv⟩ := List.exists_cons_of_ne_nil hsw
    have hvin : v <:+: title := (splitWs_word (by rw [hv]; simp : v ∈ splitWs title)).2.2
    have hvl : v.length ≤ title.length := hvin.length_le
    have hin : isIn v (ws ++ '[' :: (label ++ (']' :: ':' :: (g ++ (link ++ (g' ++ (title ++ e))))))) = true := by
      refine isIn_intro ?_
      obtain ⟨a, b, e1⟩ := hvin
      exact ⟨ws ++ '[' :: (label ++ (']' :: ':' :: (g ++ (link ++ (g' ++ a))))), b ++ e, by rw [← e1]; simp⟩
    have hnb := refLine_noLB hr
    have hline : refLine label link title = ['['] ++ label ++ c!"]:" ++ [' '] ++ link ++ [' '] ++ title := by
      unfold refLine; rw [if_neg ht]; simp
    have hsl : splitlines (['['] ++ label ++ c!"]:" ++ [' '] ++ link) = [['['] ++ label ++ c!"]:" ++ [' '] ++ link] := by
      refine splitlines_single _ ?_ (by simp)
      intro c hc
      refine hnb c ?_
      rw [hline, List.append_assoc]
      exact List.mem_append_left _ hc
    have hlen : w.ge (v.length + (['['] ++ label ++ c!"]:" ++ [' '] ++ link).length) = true := by
      refine ge_mono ?_ hwd
      rw [hline]
      simp only [List.length_append, List.length_cons, List.length_nil]
      omega
    have hwrap : wrap (refLine label link title) w = .ok (refLine label link title) :=
      plain_wrap hpl rfl (refLine_ne _ _ _) (refLine_strip hr) (plainLine_spaces hpl) (by unfold refLine; rfl) (by
        unfold fitsIn; rw [hwd]; simp)
    simp only [hte, hv, Bool.false_eq_true, if_false, hin, if_true, hsl, List.getLastD_cons, List.getLastD_nil, hlen]
    rw [← hline, hwrap]
    rfl

/-! ## The last line of a text -/

theorem TailAt.refAt {l label link : Str} (h : TailAt l label link) : RefAt l label link [] := by
  obtain ⟨ws, g, e, rfl, hw, hi, _, _⟩ := h
  refine ⟨ws, g, [], e, by simp, ?_, ?_, hi, by simp⟩
  · intro x hx c hc
    simp only [List.mem_cons, List.not_mem_nil, or_false] at hx
    rcases hx with rfl | rfl | rfl | rfl
    · rw [hw _ (by simp) c hc]; decide
    · rw [hw _ (by simp) c hc]; decide
    · cases hc
    · rw [hw _ (by simp) c hc]; decide
  · intro x hx c hc
    simp only [List.mem_cons, List.not_mem_nil, or_false] at hx
    rcases hx with rfl | rfl | rfl | rfl
    · rw [hw _ (by simp) c hc]; decide
    · rw [hw _ (by simp) c hc]; decide
    · cases hc
    · rw [hw _ (by simp) c hc]; decide

theorem TailAt.noBreak {l label link : Str} (hr : Ref label link []) (h : TailAt l label link) : endsWith l c!"  " = false := by
  obtain ⟨ws, g, e, rfl, hw, _, _, he⟩ := h
  cases h0 : endsWith (ws ++ '[' :: (label ++ (']' :: ':' :: (g ++ (link ++ e))))) c!"  " with
  | false => rfl
  | true =>
    exfalso
    obtain ⟨r, hr0⟩ := (endsWith_iff _ _).1 h0
    obtain ⟨r', c, e1⟩ : ∃ r c, link = r ++ [c] := ⟨_, _, (List.dropLast_concat_getLast hr.linkOk.1).symm⟩
    have hc : isWs c = false := hr.linkOk.2 c (by rw [e1]; simp)
    rw [e1] at hr0
    match e, he with
    | [], _ =>
      have h2 : (ws ++ '[' :: (label ++ (']' :: ':' :: (g ++ r')))) ++ [c] = (r ++ [' ']) ++ [' '] := by simpa using hr0
      have := List.append_inj_right' h2 rfl
      cases this; cases hc
    | [x], _ =>
      have h2 : ((ws ++ '[' :: (label ++ (']' :: ':' :: (g ++ r')))) ++ [c]) ++ [x] = (r ++ [' ']) ++ [' '] := by
        simpa using hr0
      have := List.append_inj_right' (List.append_inj_left' h2 rfl) rfl
      cases this; cases hc

theorem splitWs_sep {a b g : Str} (hg : ∀ c ∈ g, isWs c = true) (hne : g ≠ []) : splitWs (a ++ (g ++ b)) = splitWs a ++ splitWs b := by
  obtain ⟨c, r, rfl⟩ := List.exists_cons_of_ne_nil hne
  rw [List.cons_append, splitWs_append_ws _ _ _ (hg c (by simp)), splitWs_prepend_all fun x hx => hg x (by simp [hx])]

theorem TailAt.words {l label link : Str} (hr : Ref label link []) (h : TailAt l label link) :
    splitWs (MF.strip l) = splitWs (refLine label link []) ∧ (∀ c ∈ MF.strip l, isWs c = true → c ∈ label ∨ c = ' ') ∧
      ∃ r, MF.strip l = '[' :: r := by
  obtain ⟨ws, g, e, rfl, hw, _, hg, _⟩ := h
  have hsp : ∀ x ∈ [ws, g, e], ∀ c ∈ x, isWs c = true := fun x hx c hc => by rw [hw x hx c hc]; decide
  obtain ⟨r', c, e1⟩ : ∃ r c, link = r ++ [c] := ⟨_, _, (List.dropLast_concat_getLast hr.linkOk.1).symm⟩
  have hc : isWs c = false := hr.linkOk.2 c (by rw [e1]; simp)
  have hst : MF.strip (ws ++ '[' :: (label ++ (']' :: ':' :: (g ++ (link ++ e))))) = '[' :: (label ++ (']' :: ':' :: (g ++ link))) := by
    rw [MF.strip, lstrip_append_ws ws _ (hsp ws (by simp)), lstrip_cons_of_not _ _ (by decide),
      show '[' :: (label ++ (']' :: ':' :: (g ++ (link ++ e)))) = ('[' :: (label ++ (']' :: ':' :: (g ++ link)))) ++ e by simp,
      rstrip_append_ws _ _ (hsp e (by simp)), e1,
      show '[' :: (label ++ (']' :: ':' :: (g ++ (r' ++ [c])))) = ('[' :: (label ++ (']' :: ':' :: (g ++ r')))) ++ [c] by simp,
      rstrip_concat_of_not _ _ hc]
  rw [hst]
  refine ⟨?_, ?_, _, rfl⟩
  · have h1 := splitWs_sep (a := '[' :: (label ++ c!"]:")) (b := link) (hsp g (by simp)) hg
    have h2 := splitWs_sep (a := '[' :: (label ++ c!"]:")) (b := link) (g := [' ']) (by decide) (by simp)
    rw [refLine, if_pos rfl]
    simp only [List.cons_append, List.append_assoc, List.nil_append, List.append_nil] at h1 h2 ⊢
    rw [h1, h2]
  · intro x hx hxw
    simp only [List.mem_cons, List.mem_append] at hx
    rcases hx with rfl | hx | rfl | rfl | hx | hx
    · exact absurd hxw (by decide)
    · exact .inl hx
    · exact absurd hxw (by decide)
    · exact absurd hxw (by decide)
    · exact .inr (hw g (by simp) x hx)
    · rw [hr.linkOk.2 x hx] at hxw; cases hxw

theorem fmtPar_tail {l label link : Str} {w : Width} (hr : Ref label link []) (hp : PlainLine (refLine label link []))
    (h : TailAt l label link) (hw : w.ge (refLine label link []).length = true) : fmtPar w [l] = .ok (refLine label link []) := by
  obtain ⟨h1, h2, r, h3⟩ := h.words hr
  have hwrap : wrap (parContent [l]) w = .ok (refLine label link []) := by
    refine plain_wrap hp h1 (refLine_ne _ _ _) (strip_idem l) ?_ ?_ (by unfold fitsIn; rw [hw]; simp)
    · intro c hc hcw
      rcases h2 c hc hcw with h0 | h0
      · exact plainLine_spaces hp c (by unfold refLine; simp [h0]) hcw
      · exact h0
    · show startsSingleDot (strip l) = false
      rw [h3]; rfl
  simp only [fmtPar, hwrap, bind, Except.bind, List.getLast?_singleton, h.noBreak hr]
  rfl

theorem refLine_refAt (label link title : Str) : RefAt (refLine label link title) label link title := by
  refine ⟨[], [' '], if title = [] then [] else [' '], [], ?_, ?_, ?_, by simp, ?_⟩
  · unfold refLine
    by_cases h : title = []
    · simp [h]
    · simp [h]
  · intro x hx c hc
    simp only [List.mem_cons, List.not_mem_nil, or_false] at hx
    rcases hx with rfl | rfl | rfl | rfl
    · cases hc
    · simp at hc; rw [hc]; decide
    · split at hc
      · cases hc
      · simp at hc; rw [hc]; decide
    · cases hc
  · intro x hx c hc
    simp only [List.mem_cons, List.not_mem_nil, or_false] at hx
    rcases hx with rfl | rfl | rfl | rfl
    · cases hc
    · simp at hc; rw [hc]; decide
    · split at hc
      · cases hc
      · simp at hc; rw [hc]; decide
    · cases hc
  · intro h; rw [if_neg h]; simp

theorem refLine_tailAt (label link : Str) : TailAt (refLine label link []) label link :=
  ⟨[], [' '], [], by simp [refLine], by simp, by simp, by simp, by simp⟩

end MF
