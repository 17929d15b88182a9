import Verif.Lemmas.Refs
import Verif.Lemmas.Sections
import Verif.Props.ParDoc
import Verif.Props.CodeDoc
import Verif.Props.QuoteDoc
/-!
# C100, C101: exactly what happens to a link reference definition
-/

namespace MF

/-- The lines that the words of a text fill. -/
def fill (w : Width) (s : Str) : List Str := layLines w (plainToks (splitWs s))

/-! ## Lines of plain words -/

theorem word_stripped {s v : Str} (h : v ∈ splitWs s) : Stripped v := by
  obtain ⟨h1, h2, _⟩ := splitWs_word h
  refine (stripped_iff v).2 ⟨h1, ?_, ?_⟩
  · rintro c r rfl; exact h2 c (by simp)
  · rintro r c rfl; exact h2 c (by simp)

theorem plain_inline {s L : Str} (h : PlainLine L) (hw : splitWs s = splitWs L) (hst : strip s = s)
    (hsp : ∀ c ∈ s, isWs c = true → c = ' ') (hd : startsSingleDot s = false) : Inline s (plainToks (splitWs L)) := by
  refine ⟨?_, hst, hsp, hd⟩
  have hr := runs_words s.length s (Nat.le_refl _) (by rw [hw]; exact h.plain)
  rw [hw] at hr
  cases e : splitWs L with
  | nil => rw [e] at hr; exact hr
  | cons v vs =>
    rw [e] at hr
    have h0 : s.takeWhile isWs = [] := by
      have h1 : lstrip s = s := by rw [← hst]; exact lstrip_strip s
      cases s with
      | nil => rfl
      | cons c r =>
        rcases lstrip_head (c :: r) with h2 | ⟨c', r', h2, hc⟩
        · rw [h1] at h2; cases h2
        · rw [h1] at h2; cases h2; simp [hc]
    simp only [h0] at hr
    exact hr

theorem PlainLine.inline {L : Str} (h : PlainLine L) (hd : startsSingleDot L = false) : Inline L (plainToks (splitWs L)) := by
  refine plain_inline h rfl ?_ (plainLine_spaces h) hd
  rw [← h.single]
  cases e : splitWs L with
  | nil => rfl
  | cons v vs =>
    rw [← e]
    exact (pyJoin_stripped (by rw [e]; simp) fun v hv => word_stripped hv).2

theorem lay_prefix (w : Width) (T : List Tok) : ∀ (P cur : List Tok), (∀ t ∈ P, t.isBr = false) →
    fitsIn w (lineText (cur ++ P)).length = true → lay w cur (P ++ T) = lay w (cur ++ P) T := by
  intro P
  induction P with
  | nil => intro cur _ _; simp
  | cons t P ih =>
    intro cur hb hf
    have h1 : fitsIn w (lineText (cur ++ [t])).length = true := by
      have := lineText_prefix_le (cur ++ [t]) P
      rw [List.append_assoc] at this
      unfold fitsIn at hf ⊢
      rw [Bool.or_eq_true] at hf ⊢
      rcases hf with hf | hf
      · exact .inl hf
      · exact .inr (ge_mono this hf)
    rw [List.cons_append, lay, h1, Bool.or_true, if_pos rfl, hb t (by simp)]
    have := ih (cur ++ [t]) (fun u hu => hb u (by simp [hu])) (by simpa using hf)
    simpa using this

theorem lay_groups (w : Width) (T P : List Tok) (hP : P ≠ []) : ∃ a ls, lay w P T = (P ++ a) :: ls ∧ T = a ++ ls.flatten ∧
    ∀ x ∈ ls, x ≠ [] := by
  obtain ⟨a, ls, e, _⟩ := (relay w T).2.2 P hP
  refine ⟨a, ls, e, ?_, ?_⟩
  · have := lay_flatten w T P
    rw [e] at this
    simpa using this.symm
  · intro x hx
    exact lay_ne w T P x (by rw [e]; simp [hx])

theorem lineText_words : ∀ {ts : List Tok}, (∀ t ∈ ts.tail, t.gap = .space) → lineText ts = pyJoin [' '] (ts.map (·.text)) := by
  intro ts h
  cases ts with
  | nil => rfl
  | cons t ts =>
    rw [lineText]
    induction ts generalizing t with
    | nil => simp [pyJoin]
    | cons u ts ih =>
      have := ih u (fun x hx => h x (List.mem_cons_of_mem _ hx))
      simp only [List.map_cons, List.flatten_cons, pyJoin] at this ⊢
      rw [← this]
      have hg := h u (by simp)
      simp [Tok.spaced, hg]

theorem lay_cur (w : Width) (T : List Tok) : ∀ {cur cur' : List Tok}, cur ≠ [] → cur' ≠ [] → lineText cur = lineText cur' →
    (lay w cur T).map lineText = (lay w cur' T).map lineText := by
  induction T with
  | nil =>
    intro cur cur' h h' e
    cases cur <;> cases cur' <;> simp_all [lay]
  | cons t T ih =>
    intro cur cur' h h' e
    have hs : lineText (cur ++ [t]) = lineText (cur' ++ [t]) := by rw [lineText_snoc h, lineText_snoc h', e]
    have h1 : cur.isEmpty = false := by simpa using h
    have h2 : cur'.isEmpty = false := by simpa using h'
    rw [lay, lay, h1, h2, hs]
    split
    · split
      · simp [hs]
      · exact ih (by simp) (by simp) hs
    · simp [e]

theorem plainToks_append {H V : List Str} (h : H ≠ []) : plainToks (H ++ V) = plainToks H ++ V.map fun v => ⟨.space, v⟩ := by
  cases H with
  | nil => exact absurd rfl h
  | cons x H => simp [plainToks]

theorem plainToks_gap (ws : List Str) : ∀ t ∈ (plainToks ws).tail, t.gap = .space := by
  cases ws with
  | nil => intro t ht; cases ht
  | cons x ws =>
    intro t ht
    simp only [plainToks, List.tail_cons, List.mem_map] at ht
    obtain ⟨v, _, rfl⟩ := ht
    rfl

/-- The words of a definition: those of its label and link, and those of its title. -/
theorem ref_lineWords {label link title : Str} (hr : Ref label link title) (ht : title ≠ [])
    (hp : PlainLine (refLine label link title)) :
    splitWs (refLine label link title) = splitWs (refLine label link []) ++ splitWs title ∧
      pyJoin [' '] (splitWs (refLine label link [])) = refLine label link [] ∧ splitWs (refLine label link []) ≠ [] ∧
      PlainLine title ∧ splitWs title ≠ [] := by
  have hline : refLine label link title = refLine label link [] ++ ([' '] ++ title) := by
    simp [refLine, ht]
  have h1 : splitWs (refLine label link title) = splitWs (refLine label link []) ++ splitWs title := by
    rw [hline, splitWs_sep (by decide) (by decide)]
  have hV : splitWs title ≠ [] := by
    intro h0
    have := hr.single
    rw [h0] at this
    exact ht this.symm
  have hH : splitWs (refLine label link []) ≠ [] := splitWs_ne_nil (by decide)
  refine ⟨h1, ?_, hH, ⟨hr.single, fun v hv => hp.plain v (by rw [h1]; simp [hv])⟩, hV⟩
  have h2 := hp.single
  rw [h1, pyJoin_append hH hV, hr.single, hline, List.append_assoc] at h2
  exact List.append_cancel_right h2

/-- How the words of a definition are laid out, if its label and its link fit on a line. -/
theorem ref_fill {w : Width} {label link title : Str} (hr : Ref label link title) (ht : title ≠ [])
    (hp : PlainLine (refLine label link title)) (hf : fitsIn w (refLine label link []).length = true) :
    ∃ (Va : List Str) (G : List (List Str)), splitWs title = Va ++ G.flatten ∧ (∀ g ∈ G, g ≠ []) ∧
      fill w (refLine label link title) = pyJoin [' '] (splitWs (refLine label link []) ++ Va) :: G.map (pyJoin [' ']) ∧
      (Va = [] → fill w title = G.map (pyJoin [' '])) := by
  obtain ⟨h1, h2, h3, h4, h5⟩ := ref_lineWords hr ht hp
  generalize hH : splitWs (refLine label link []) = H at h1 h2 h3
  generalize hV : splitWs title = V at h1 h5
  have hplain : ∀ v ∈ H ++ V, PlainWord v := fun v hv => hp.plain v (by rw [h1]; exact hv)
  have hbr : ∀ t ∈ plainToks H, t.isBr = false := fun t htk =>
    (hplain _ (List.mem_append_left _ (plainToks_text t htk))).noBrTok (g := t.gap)
  have hP : plainToks H ≠ [] := by
    obtain ⟨v, vs, e⟩ := List.exists_cons_of_ne_nil h3
    rw [e]; simp [plainToks]
  have hlay : lay w [] (plainToks (H ++ V)) = lay w (plainToks H) (V.map fun v => ⟨.space, v⟩) := by
    rw [plainToks_append h3, lay_prefix w _ _ _ hbr (by rw [List.nil_append, lineText_plain, h2]; exact hf)]
    rfl
  obtain ⟨a, ls, e1, e2, e3⟩ := lay_groups w (V.map fun v => (⟨.space, v⟩ : Tok)) (plainToks H) hP
  have hmem : ∀ t ∈ a ++ ls.flatten, t.gap = .space := by
    intro t htk
    rw [← e2] at htk
    obtain ⟨v, _, rfl⟩ := List.mem_map.1 htk
    rfl
  have htext : V = a.map (·.text) ++ (ls.map (List.map (·.text))).flatten := by
    have := congrArg (List.map (·.text)) e2
    rw [List.map_map, List.map_append, List.map_flatten] at this
    simpa [Function.comp_def] using this
  have htoks : (plainToks H).map (·.text) = H := by
    cases H with
    | nil => rfl
    | cons x H => simp [plainToks, Function.comp_def]
  have hl0 : lineText (plainToks H ++ a) = pyJoin [' '] (H ++ a.map (·.text)) := by
    rw [lineText_words, List.map_append, htoks]
    intro t htk
    rw [List.tail_append_of_ne_nil hP] at htk
    rcases List.mem_append.1 htk with htk | htk
    · exact plainToks_gap H t htk
    · exact hmem t (List.mem_append_left _ htk)
  have hls : ls.map lineText = (ls.map (List.map (·.text))).map (pyJoin [' ']) := by
    rw [List.map_map]
    refine List.map_congr_left fun g hg => ?_
    exact lineText_words fun t htk => hmem t (List.mem_append_right _ (List.mem_flatten.2 ⟨g, hg, List.mem_of_mem_tail htk⟩))
  refine ⟨a.map (·.text), ls.map (List.map (·.text)), htext, ?_, ?_, ?_⟩
  · intro g hg
    obtain ⟨x, hx, rfl⟩ := List.mem_map.1 hg
    intro h0
    exact e3 x hx (List.map_eq_nil_iff.1 h0)
  · rw [fill, h1, layLines, hlay, e1, List.map_cons, hl0, hls]
  · intro h0
    have ha : a = [] := List.map_eq_nil_iff.1 h0
    subst ha
    obtain ⟨v, vs, rfl⟩ := List.exists_cons_of_ne_nil h5
    have hvb : ∀ g, Tok.isBr ⟨g, v⟩ = false := fun g => (hplain v (by simp)).noBrTok
    rw [← hls, fill, hV, layLines]
    have hPe : (plainToks H).isEmpty = false := by simpa using hP
    rw [List.map_cons, lay, hPe, Bool.false_or] at e1
    split at e1
    · rw [hvb] at e1
      obtain ⟨a', ls', e4, _⟩ := lay_groups w (vs.map fun v => (⟨.space, v⟩ : Tok)) (plainToks H ++ [⟨.space, v⟩]) (by simp)
      simp only [Bool.false_eq_true, if_false] at e1
      rw [e4] at e1
      have := congrArg List.length (List.cons.inj e1).1
      simp at this
    · rw [hvb] at e1
      simp only [Bool.false_eq_true, if_false, List.append_nil, List.cons.injEq, true_and] at e1
      rw [← e1, plainToks, lay]
      simp only [List.isEmpty_nil, Bool.true_or, if_true, hvb, Bool.false_eq_true, if_false, List.nil_append]
      exact lay_cur w _ (by simp) (by simp) rfl

/-! ## Reading it again -/

theorem closing_none {q : Char} {s : Str} (h : q ∉ s) : (closingRx q).search s = none := by
  cases hs : (closingRx q).search s with
  | none => rfl
  | some m =>
    exfalso
    obtain ⟨u, post', e1, hm⟩ := Rx.searchFrom_sound _ hs
    obtain ⟨st, hst, _⟩ := Rx.matchAt_sound hm
    simp only [closingRx, Rx.seqs] at hst
    obtain ⟨s1, h1, s2, h2, c, cs, e3, e4, rfl⟩ := hst
    have hc : c = q := by simpa using e4
    subst hc
    obtain ⟨v1, hv1, _⟩ := Rx.Step.consumes _ h1
    obtain ⟨v2, hv2, _⟩ := Rx.Step.consumes (.star (.grp 1 (.seqs [.chr (· == '\\'), .chr (· == '\\')]))) h2
    apply h
    simp only at hv1
    rw [e1, hv1, hv2, e3]
    simp

theorem title_loop {q : Char} (hqw : isWs q = false) (hqb : q ≠ '\\') : ∀ (ls : List Str) (line body : Str) (b : Bool) (i : Nat),
    pyJoin [' '] (line :: ls) = body ++ [q] → q ∉ body → body.getLast? ≠ some '\\' →
    titleLoop q b i line ls = (true, i + ls.length + 1) := by
  intro ls
  induction ls with
  | nil =>
    intro line body b i h h1 h2
    simp only [pyJoin] at h
    subst h
    obtain ⟨m, hm, hstop⟩ := closing_title hqb h1 h2
    simp only [titleLoop, rstrip_concat_of_not _ _ hqw, hm, hstop, BEq.rfl, if_true, List.length_nil, Nat.add_zero]
  | cons x ls ih =>
    intro line body b i h h1 h2
    rw [pyJoin_cons_ne (by simp)] at h
    rcases List.eq_nil_or_concat (pyJoin [' '] (x :: ls)) with h0 | ⟨r, c, h0⟩
    · rw [h0, List.append_nil] at h
      have := (List.append_inj_right' h rfl)
      simp only [List.cons.injEq, and_true] at this
      rw [← this] at hqw
      exact absurd hqw (by decide)
    · rw [List.concat_eq_append] at h0
      rw [h0, ← List.append_assoc] at h
      have e1 := List.append_inj_right' h rfl
      have e2 := List.append_inj_left' h rfl
      simp only [List.cons.injEq, and_true] at e1
      subst e1
      have hnl : c ∉ rstrip line := by
        intro hc
        apply h1
        rw [← e2]
        obtain ⟨t, ht⟩ := rstrip_prefix line
        rw [← ht]
        simp [hc]
      have hnr : c ∉ r := by
        intro hc; apply h1; rw [← e2]; simp [hc]
      have hlast : r.getLast? ≠ some '\\' := by
        intro hc
        apply h2
        rw [← e2, List.getLast?_append, hc]; rfl
      simp only [titleLoop, closing_none hnl]
      rw [ih x r b (i + 1) h0 hnr hlast]
      simp only [List.length_cons, Prod.mk.injEq, true_and]
      omega

theorem lrdFinish_title {title tt : Str} (h : IsTitle title) {lines gen : List Str} {b : Bool} {i : Nat} (hne : tt ≠ [])
    (hj : pyJoin [' '] (tt :: gen) = title) (hi : i + gen.length + 1 = lines.length) :
    lrdFinish lines b i tt gen = .ok (lines, []) := by
  obtain ⟨q, body, hq, hqw, hqb, rfl, hb1, hb2⟩ := h.ends
  obtain ⟨c, rest, rfl⟩ := List.exists_cons_of_ne_nil hne
  have hj' : c = q ∧ pyJoin [' '] (rest :: gen) = body ++ [q] := by
    cases gen with
    | nil => simpa [pyJoin] using hj
    | cons x gen =>
      rw [pyJoin_cons_ne (by simp)] at hj ⊢
      simpa using hj
  obtain ⟨rfl, hj'⟩ := hj'
  have hqq : (c == '\'' || c == '"') = true := by rcases hq with rfl | rfl <;> decide
  have hst : (!(strip (c :: rest)).isEmpty) = true := by
    obtain ⟨r', h'⟩ := strip_cons_head (c := c) (r := rest) hqw
    rw [h']; rfl
  simp only [lrdFinish, hst, hqq, Bool.and_self, if_true, title_loop hqw hqb _ _ _ b i hj' hb1 hb2, hi]
  simp

theorem splitLrd_head {label link x : Str} (hr : Ref label link []) (hx : x = [] ∨ ∃ y, x = ' ' :: y) (ls : List Str) :
    splitLrd ((refLine label link [] ++ x) :: ls) =
      match lstrip x with
      | [] =>
        match ls with
        | l1 :: tail1 => lrdFinish ((refLine label link [] ++ x) :: ls) true 1 l1 tail1
        | [] => lrdFinish ((refLine label link [] ++ x) :: ls) true 0 [] []
      | t => lrdFinish ((refLine label link [] ++ x) :: ls) false 0 t ls := by
  have hline : refLine label link [] ++ x = '[' :: (label ++ (']' :: ':' :: (' ' :: (link ++ x)))) := by
    simp [refLine]
  obtain ⟨m, hm, hstop⟩ := lrdFirst_intro (r := ' ' :: (link ++ x)) hr.labelOk.1 hr.labelOk.2.1 hr.labelOk.2.2
  have hd : ('[' :: (label ++ (']' :: ':' :: (' ' :: (link ++ x))))).drop m.stop = ' ' :: (link ++ x) := by
    rw [hstop, show label.length + 3 = label.length + 2 + 1 by omega, List.drop_succ_cons, List.drop_append]
    simp
  have hxh : ∀ c, x.head? = some c → (!isWs c) = false := by
    rcases hx with rfl | ⟨y, rfl⟩
    · intro c hc; cases hc
    · intro c hc; cases hc; decide
  obtain ⟨t1, t2⟩ := takeWhile_dropWhile_append (p := fun c => !isWs c) (a := link) (b := x)
    (fun c hc => by simp [hr.linkOk.2 c hc]) hxh
  have hsm : splitMax1 (' ' :: (link ++ x)) = link :: (if lstrip x = [] then [] else [lstrip x]) := by
    obtain ⟨c, r, e⟩ := List.exists_cons_of_ne_nil hr.linkOk.1
    have h2 : lstrip (link ++ x) = link ++ x := by
      rw [e, List.cons_append]
      exact lstrip_cons_of_not c _ (hr.linkOk.2 c (by rw [e]; simp))
    have h1 : lstrip (' ' :: (link ++ x)) = link ++ x := (lstrip_append_ws [' '] (link ++ x) (by decide)).trans h2
    unfold splitMax1
    rw [h1]
    rw [e] at t1 t2 ⊢
    rw [List.cons_append] at t1 t2 ⊢
    simp only [t1, t2]
    cases e0 : lstrip x with
    | nil => rfl
    | cons d r' => rfl
  rw [hline]
  simp only [splitLrd]
  rw [if_neg (by simp [getIndent, lstrip_cons_of_not, show isWs '[' = false by decide]), lstrip_cons_of_not _ _ (by decide)]
  simp only [hm, hd, hsm]
  cases e0 : lstrip x with
  | nil => cases ls <;> rfl
  | cons d r' => rfl

theorem Ref.untitled {label link title : Str} (hr : Ref label link title) : Ref label link [] :=
  ⟨hr.labelOk, hr.linkOk, .inl rfl, rfl, hr.noLB.1, hr.noLB.2.1, by intro c hc; cases hc⟩

theorem title_head {title : Str} (h : IsTitle title) : ∃ q r, title = q :: r ∧ (q = '"' ∨ q = '\'') ∧ isWs q = false := by
  obtain ⟨q, body, hq, hqw, _, e, _⟩ := h.ends
  exact ⟨q, body ++ [q], e, hq, hqw⟩

theorem title_dot {title : Str} (h : IsTitle title) : startsSingleDot title = false := by
  obtain ⟨q, r, rfl, hq, _⟩ := title_head h
  rcases hq with rfl | rfl <;> rfl

theorem refLine_dot (label link title : Str) : startsSingleDot (refLine label link title) = false := rfl

theorem wrap_plainLine {w : Width} {L : Str} (h : PlainLine L) (hd : startsSingleDot L = false) :
    wrap L w = .ok (pyJoin ['\n'] (fill w L)) := wrap_line (h.inline hd) w

/-- What the program writes for a definition with a title. -/
theorem fmtLrd_plain {w : Width} {label link title l0 v : Str} {more vs : List Str} (hr : Ref label link title) (ht : title ≠ [])
    (hp : PlainLine (refLine label link title)) (hparts : lrdParts (l0 :: more) = .ok (label, link, title))
    (hon : isIn link l0 = true) (hv : splitWs title = v :: vs) :
    fmtLrd w (l0 :: more) = .ok (pyJoin ['\n'] (
      if isIn v l0 then
        if w.ge (v.length + (refLine label link []).length) then fill w (refLine label link title) else [] :: fill w title
      else refLine label link [] :: fill w title)) := by
  obtain ⟨h1, h2, h3, h4, h5⟩ := ref_lineWords hr ht hp
  have hlink : link.isEmpty = false := by
    obtain ⟨c, r, hc⟩ := List.exists_cons_of_ne_nil hr.linkOk.1
    rw [hc]; rfl
  have hte : title.isEmpty = false := by
    obtain ⟨c, r, hc⟩ := List.exists_cons_of_ne_nil ht
    rw [hc]; rfl
  have htl := hr.titleOk.resolve_left ht
  have hhead : ['['] ++ label ++ c!"]:" ++ [' '] ++ link = refLine label link [] := by simp [refLine]
  have hline : refLine label link [] ++ [' '] ++ title = refLine label link title := by simp [refLine, ht]
  have hsl : splitlines (refLine label link []) = [refLine label link []] :=
    splitlines_single _ (refLine_noLB hr.untitled) (refLine_ne _ _ _)
  have hw1 := wrap_plainLine (w := w) hp (refLine_dot _ _ _)
  have hw2 := wrap_plainLine (w := w) h4 (title_dot htl)
  have hfne : fill w title ≠ [] := by
    refine layLines_nonempty ?_
    rw [hv]; simp [plainToks]
  simp only [fmtLrd, hparts, bind, Except.bind, hlink, hon, hte, hv, if_true, hhead, hsl, List.getLastD_cons, List.getLastD_nil,
    List.dropLast_singleton, List.nil_append, hline, Bool.false_eq_true, if_false, hw1, hw2]
  by_cases hi : isIn v l0 = true
  · rw [if_pos hi, if_pos hi]
    by_cases hg : w.ge (v.length + (refLine label link []).length) = true
    · rw [if_pos hg, if_pos hg]; rfl
    · rw [if_neg hg, if_neg hg, pyJoin_cons_ne hfne]; rfl
  · rw [if_neg hi, if_neg hi, pyJoin_cons_ne hfne]

theorem join_groups {G : List (List Str)} (h : ∀ g ∈ G, g ≠ []) : ∀ {H : List Str}, H ≠ [] →
    pyJoin [' '] (pyJoin [' '] H :: G.map (pyJoin [' '])) = pyJoin [' '] (H ++ G.flatten) := by
  induction G with
  | nil => intro H _; simp [pyJoin]
  | cons g G ih =>
    intro H hH
    have hg := h g (by simp)
    rw [pyJoin_cons_ne (by simp), List.map_cons, ih (fun x hx => h x (by simp [hx])) hg, List.flatten_cons,
      pyJoin_append (a := H) hH (by simp [hg])]

theorem mem_infix_pyJoin {sep v : Str} : ∀ {ls : List Str}, v ∈ ls → v <:+: pyJoin sep ls := by
  intro ls h
  obtain ⟨a, b, rfl⟩ := List.append_of_mem h
  have hb : v <+: pyJoin sep (v :: b) := by
    cases b with
    | nil => exact ⟨[], by simp [pyJoin]⟩
    | cons x b => rw [pyJoin_cons_ne (by simp), List.append_assoc]; exact ⟨_, rfl⟩
  cases a with
  | nil => exact hb.isInfix
  | cons x a =>
    rw [pyJoin_append (by simp) (by simp)]
    exact hb.isInfix.trans (List.suffix_append _ _).isInfix

/-- The lines of a definition, laid out, are read as the definition. -/
theorem ref_reread {w : Width} {label link title : Str} (hr : Ref label link title) (ht : title ≠ [])
    (hp : PlainLine (refLine label link title)) (hf : fitsIn w (refLine label link []).length = true) :
    ∃ l0 more, fill w (refLine label link title) = l0 :: more ∧ splitLrd (l0 :: more) = .ok (l0 :: more, []) ∧
      lrdParts (l0 :: more) = .ok (label, link, title) ∧ isIn link l0 = true ∧ (∃ t, RefAt l0 label link t) ∧
      (∀ v vs, splitWs title = v :: vs → isIn v l0 = false → l0 :: more = refLine label link [] :: fill w title) := by
  obtain ⟨h1, h2, h3, h4, h5⟩ := ref_lineWords hr ht hp
  obtain ⟨Va, G, e1, e2, e3, e4⟩ := ref_fill hr ht hp hf
  have htl := hr.titleOk.resolve_left ht
  have hgs : ∀ g : List Str, g ≠ [] → (∀ v ∈ g, v ∈ splitWs title) → Stripped (pyJoin [' '] g) :=
    fun g hg h => pyJoin_stripped hg fun v hv => word_stripped (h v hv)
  have hparts : lrdParts (pyJoin [' '] (splitWs (refLine label link []) ++ Va) :: G.map (pyJoin [' '])) =
      .ok (label, link, title) := by
    rw [← refAt_parts hr (refLine_refAt label link title)]
    unfold lrdParts
    rw [join_groups e2 (by simp [h3]), List.append_assoc, ← e1, ← h1, hp.single]
    rfl
  have hpre : ∃ x, pyJoin [' '] (splitWs (refLine label link []) ++ Va) = refLine label link [] ++ x := by
    cases Va with
    | nil => exact ⟨[], by rw [List.append_nil, List.append_nil, h2]⟩
    | cons v Va => exact ⟨_, by rw [pyJoin_append h3 (by simp), h2, List.append_assoc]⟩
  have hat : ∃ t, RefAt (pyJoin [' '] (splitWs (refLine label link []) ++ Va)) label link t := by
    cases Va with
    | nil => exact ⟨[], by rw [List.append_nil, h2]; exact refLine_refAt label link []⟩
    | cons v Va =>
      have hsp := (hgs (v :: Va) (by simp) (fun x hx => by rw [e1]; exact List.mem_append_left _ hx)).1
      refine ⟨pyJoin [' '] (v :: Va), ?_⟩
      have : pyJoin [' '] (splitWs (refLine label link []) ++ v :: Va) = refLine label link (pyJoin [' '] (v :: Va)) := by
        rw [pyJoin_append h3 (by simp), h2]
        unfold refLine
        rw [if_pos rfl, if_neg hsp]
        simp
      rw [this]
      exact refLine_refAt label link _
  refine ⟨_, _, e3, ?_, hparts, ?_, ?_, ?_⟩
  · cases hVa : Va with
    | nil =>
      rw [hVa, List.nil_append] at e1
      rw [List.append_nil, h2]
      have := splitLrd_head (x := []) hr.untitled (.inl rfl) (G.map (pyJoin [' ']))
      rw [List.append_nil] at this
      rw [this]
      cases G with
      | nil => exact absurd e1 h5
      | cons g G =>
        have hg := e2 g (by simp)
        show lrdFinish _ true 1 _ _ = _
        refine lrdFinish_title htl ?_ ?_ (by simp; omega)
        · exact (hgs g hg (fun v hv => by rw [e1]; simp [hv])).1
        · rw [join_groups (fun x hx => e2 x (by simp [hx])) hg, ← hr.single, e1]; rfl
    | cons v Va' =>
      have hsp := hgs Va (by rw [hVa]; simp) (fun x hx => by rw [e1]; simp [hx])
      rw [← hVa, pyJoin_append h3 (by rw [hVa]; simp), h2, List.append_assoc]
      have hls : lstrip ([' '] ++ pyJoin [' '] Va) = pyJoin [' '] Va := by
        rw [lstrip_append_ws _ _ (by decide)]
        have := hsp.2
        rw [← this]; exact lstrip_strip _
      rw [splitLrd_head (x := [' '] ++ pyJoin [' '] Va) hr.untitled (.inr ⟨_, rfl⟩), hls]
      obtain ⟨c, r, hc⟩ := List.exists_cons_of_ne_nil hsp.1
      rw [hc]
      show lrdFinish _ false 0 (c :: r) _ = _
      rw [← hc]
      refine lrdFinish_title htl hsp.1 ?_ (by simp)
      rw [join_groups e2 (by rw [hVa]; simp), ← e1, hr.single]
  · refine isIn_intro ?_
    obtain ⟨x, hx⟩ := hpre
    exact ⟨'[' :: (label ++ c!"]: "), x, by rw [hx]; simp [refLine]⟩
  · exact hat
  · intro v vs hv hi
    cases hVa : Va with
    | nil =>
      rw [e4 hVa, List.append_nil, h2]
    | cons u Va' =>
      exfalso
      rw [hVa, hv] at e1
      have e5 := (List.cons.inj e1).1
      subst e5
      have : isIn v (pyJoin [' '] (splitWs (refLine label link []) ++ Va)) = true := by
        refine isIn_intro ?_
        rw [hVa]
        exact mem_infix_pyJoin (by simp)
      rw [this] at hi
      cases hi

theorem refLine_length (label link : Str) : (refLine label link []).length = label.length + link.length + 4 := by
  simp [refLine]; omega

theorem parse_ref {n : Nat} {l0 label link t : Str} {more : List Str} (h : RefAt l0 label link t)
    (hs : splitLrd (l0 :: more) = .ok (l0 :: more, [])) : parse (n + 1) (l0 :: more) = .ok [(.lrd, l0 :: more)] := by
  have hfirst : firstSection (splitters (splitQuote (n + 1))) (l0 :: more) = .ok (.lrd, l0 :: more, []) :=
    firstSection_ref h hs (by simp)
  have := parse_of_first (n := n + 1) [(.lrd, l0 :: more)] (by
    intro a b c e
    cases a with
    | nil =>
      cases e
      refine ⟨by simp, ?_⟩
      simpa [linesOf] using hfirst
    | cons x a => cases a <;> cases e)
  simpa [linesOf] using this

theorem ref_on_line {l label link title : Str} (h : RefAt l label link title) :
    isIn link l = true ∧ ∀ v ∈ splitWs title, isIn v l = true := by
  obtain ⟨ws, g, g', e, rfl, _⟩ := h
  refine ⟨isIn_intro ⟨ws ++ '[' :: (label ++ (']' :: ':' :: g)), g' ++ (title ++ e), by simp⟩, fun v hv => isIn_intro ?_⟩
  obtain ⟨a, b, e1⟩ := (splitWs_word hv).2.2
  exact ⟨ws ++ '[' :: (label ++ (']' :: ':' :: (g ++ (link ++ (g' ++ a))))), b ++ e, by rw [← e1]; simp⟩

theorem reprCheck_ref {lines : List Str} {x : Str × Str × Str} (h : lrdParts lines = .ok x) : reprCheck .lrd lines = .ok () := by
  simp only [reprCheck, bind, Except.bind, h]

/-- The first pass over a definition with a title. -/
theorem C100_pass {n : Nat} {w : Width} {text l label link title word : Str} (hr : Ref label link title) (ht : title ≠ [])
    (hp : PlainLine (refLine label link title)) (hl : RefAt l label link title) (hs : splitlines text = [l])
    (hword : (splitWs title).head? = some word) :
    reformatText (n + 2) w text = .ok (pyJoin ['\n'] (
      if w.ge (word.length + (label.length + link.length + 4)) then fill w (refLine label link title)
      else [] :: fill w title) ++ ['\n']) := by
  have hparts := refAt_parts hr hl
  obtain ⟨v, vs, hv⟩ := List.exists_cons_of_ne_nil (ref_lineWords hr ht hp).2.2.2.2
  rw [hv] at hword
  cases hword
  refine reformat_single (ty := .lrd) (lines := [l]) ?_ (reprCheck_ref hparts) ?_
  · rw [hs]; exact parse_ref hl (splitLrd_titled hr hl ht)
  · show fmtLrd w [l] = _
    rw [fmtLrd_plain hr ht hp hparts (ref_on_line hl).1 hv, if_pos ((ref_on_line hl).2 _ (by rw [hv]; simp)), refLine_length]

/-- C100: a definition whose label, link and first word of the title fit on a line is laid out in lines, the program accepts
that, and the result is read as the same definition. -/
theorem C100_kept (n : Nat) (w : Width) (text l label link title word : Str) (hr : Ref label link title) (ht : title ≠ [])
    (hp : PlainLine (refLine label link title)) (hl : RefAt l label link title) (hs : splitlines text = [l])
    (hword : (splitWs title).head? = some word) (hfit : w.ge (word.length + (label.length + link.length + 4)) = true) :
    let lines := fill w (refLine label link title)
    reformatMarkdownText (n + 2) w text = .ok (pyJoin ['\n'] lines ++ ['\n']) ∧
      parse (n + 1) (splitlines (pyJoin ['\n'] lines ++ ['\n'])) = .ok [(.lrd, lines)] ∧
      lrdParts lines = .ok (label, link, title) := by
  intro lines
  have h1 := C100_pass (n := n) (w := w) hr ht hp hl hs hword
  rw [if_pos hfit] at h1
  have hfh : fitsIn w (refLine label link []).length = true := by
    unfold fitsIn
    rw [refLine_length, ge_mono (by omega) hfit, Bool.or_true]
  obtain ⟨l0, more, e1, e2, e3, e4, ⟨t, e5⟩, e6⟩ := ref_reread hr ht hp hfh
  have hin := hp.inline (refLine_dot label link title)
  have hok : ∀ l ∈ fill w (refLine label link title), NoLB l ∧ Stripped l := layLines_stripped hin w
  have hne : fill w (refLine label link title) ≠ [] := by rw [e1]; simp
  have hsl : splitlines (pyJoin ['\n'] (fill w (refLine label link title)) ++ ['\n']) = fill w (refLine label link title) :=
    splitlines_join_nl _ (fun l hl => (hok l hl).1) hne
  have hparse : parse (n + 1) (fill w (refLine label link title)) = .ok [(.lrd, fill w (refLine label link title))] := by
    rw [e1]; exact parse_ref e5 e2
  obtain ⟨v, vs, hv⟩ := List.exists_cons_of_ne_nil (ref_lineWords hr ht hp).2.2.2.2
  have hvw : v = word := by rw [hv] at hword; exact Option.some.inj hword
  have h2 : reformatText (n + 2) w (pyJoin ['\n'] (fill w (refLine label link title)) ++ ['\n']) =
      .ok (pyJoin ['\n'] (fill w (refLine label link title)) ++ ['\n']) := by
    refine reformat_single (by rw [hsl]; exact hparse) (reprCheck_ref (by rw [e1]; exact e3)) ?_
    show fmtLrd w _ = _
    conv => lhs; rw [e1]
    rw [fmtLrd_plain hr ht hp e3 e4 hv, refLine_length, hvw, if_pos hfit]
    by_cases hi : isIn word l0 = true
    · rw [if_pos hi]
    · rw [if_neg hi, ← e6 v vs hv (by rw [hvw]; simpa using hi), e1]
  refine ⟨?_, by show parse _ (splitlines (pyJoin ['\n'] (fill w _) ++ ['\n'])) = _; rw [hsl]; exact hparse, by show lrdParts (fill w _) = _; rw [e1]; exact e3⟩
  rw [reformat_two h1 h2, if_pos rfl, rstrip_join (fun l hl => (hok l hl).2) hne (by decide)]

/-- C100: otherwise the label and the link are lost. The program accepts this, if the lines of the title look like text. -/
theorem C100_lost (n : Nat) (w : Width) (text l label link title word : Str) (hr : Ref label link title) (ht : title ≠ [])
    (hp : PlainLine (refLine label link title)) (hl : RefAt l label link title) (hs : splitlines text = [l])
    (hword : (splitWs title).head? = some word) (hfit : w.ge (word.length + (label.length + link.length + 4)) = false)
    (hpar : ParLines (fill w title)) :
    reformatMarkdownText (n + 2) w text = .ok ('\n' :: pyJoin ['\n'] (fill w title) ++ ['\n']) ∧
      parse (n + 1) (splitlines ('\n' :: pyJoin ['\n'] (fill w title) ++ ['\n'])) =
        .ok [(.blank, [[]]), (.par, fill w title)] := by
  have h1 := C100_pass (n := n) (w := w) hr ht hp hl hs hword
  rw [if_neg (by rw [hfit]; simp)] at h1
  obtain ⟨_, _, _, h4, h5⟩ := ref_lineWords hr ht hp
  have htl := hr.titleOk.resolve_left ht
  have hin := h4.inline (title_dot htl)
  have hok : ∀ l ∈ fill w title, NoLB l ∧ Stripped l := layLines_stripped hin w
  have hne : fill w title ≠ [] := layLines_nonempty (by
    obtain ⟨v, vs, e⟩ := List.exists_cons_of_ne_nil h5
    rw [e]; simp [plainToks])
  have hnl : pyJoin ['\n'] ([] :: fill w title) = '\n' :: pyJoin ['\n'] (fill w title) := by
    rw [pyJoin_cons_ne hne]; rfl
  have hsl : splitlines ('\n' :: pyJoin ['\n'] (fill w title) ++ ['\n']) = [] :: fill w title := by
    rw [← hnl]
    refine splitlines_join_nl _ ?_ (by simp)
    intro l hl
    rcases List.mem_cons.1 hl with rfl | hl
    · intro c hc; cases hc
    · exact (hok l hl).1
  have hlabel : ∀ t, (plainToks (splitWs title)).head? = some t → t.text.head? ≠ some '[' := by
    obtain ⟨v, vs, e⟩ := List.exists_cons_of_ne_nil h5
    obtain ⟨q, r, e1, hq, _⟩ := title_head htl
    intro t htk
    rw [e] at htk
    cases htk
    intro h0
    obtain ⟨r', hv⟩ : ∃ r', v = '[' :: r' := by
      cases v with
      | nil => cases h0
      | cons c r' => simp at h0; exact ⟨r', by rw [h0]⟩
    have : ∃ r'', title = '[' :: r'' := by
      rw [← hr.single, e, hv]
      cases vs with
      | nil => exact ⟨r', rfl⟩
      | cons x vs => exact ⟨_, by rw [pyJoin_cons_ne (by simp)]; rfl⟩
    obtain ⟨r'', h7⟩ := this
    rw [h7] at e1
    cases e1
    rcases hq with h0 | h0 <;> exact absurd h0 (by decide)
  have hparse1 : parse (n + 1) (fill w title) = .ok [(.par, fill w title)] := by
    refine parse_textBlock ⟨hpar.1, hpar.2, ?_, hne⟩ ?_ ?_
    · intro l hl
      exact hardBreak_stripped (hok l (List.dropLast_subset _ hl)).2
    · intro l hl
      exact noLabel_of_head (hok l (List.mem_of_mem_head? hl)).2 (layLines_label hin w hlabel l hl)
    · intro _ l hl
      exact hardBreak_stripped (hok l (List.mem_of_getLast? hl)).2
  have hfirst := (parse_at (pre := []) (post := []) hparse1).1
  have hparse : parse (n + 1) ([] :: fill w title) = .ok [(.blank, [[]]), (.par, fill w title)] := by
    have hst : Steps (n + 1) [(.blank, [[]]), (.par, fill w title)] := by
      refine steps_cons (by simp) ?_ (steps_cons hne ?_ (steps_nil _))
      · simpa [linesOf] using firstSection_blank (sbq := splitQuote (n + 1)) (fill w title) (by rfl : isBlankLine [] = true)
      · simpa [linesOf] using hfirst
    have := parse_of_first _ hst
    simpa [linesOf] using this
  have h2 : reformatText (n + 2) w ('\n' :: pyJoin ['\n'] (fill w title) ++ ['\n']) =
      .ok (pyJoin ['\n'] ([] :: fill w title) ++ ['\n']) := by
    have hset := settle_line hin w
    have hw := wrap_line hset w
    rw [layLines_settle] at hw
    have hfmt : ∀ i, fmtSection (reformatText (n + 1)) w i .par (fill w title) = .ok (pyJoin ['\n'] (fill w title)) := by
      intro i
      show fmtPar w _ = _
      rcases List.eq_nil_or_concat (fill w title) with h0 | ⟨zs, z, h0⟩
      · exact absurd h0 hne
      rw [List.concat_eq_append] at h0
      have hg : (fill w title).getLast? = some z := by rw [h0, List.getLast?_concat]
      have hz : endsWith z c!"  " = false := hardBreak_stripped (hok z (List.mem_of_getLast? hg)).2
      have hw' : wrap (pyJoin [' '] ((fill w title).map strip)) w = .ok (pyJoin ['\n'] (fill w title)) := hw
      simp only [fmtPar, parContent, hw', bind, Except.bind, hg, hz]
      rfl
    have := reformat_sections (n := n + 1) (w := w) (t := '\n' :: pyJoin ['\n'] (fill w title) ++ ['\n'])
      (fun b => b.2) (by rw [hsl]; exact hparse) (by
        intro b hb
        simp only [List.mem_cons, List.not_mem_nil, or_false] at hb
        rcases hb with rfl | rfl
        · exact ⟨by simp, rfl, fun i => rfl, by simp⟩
        · exact ⟨by simp, rfl, hfmt, hne⟩)
    simpa using this
  rw [hnl] at h1 h2
  refine ⟨?_, by rw [hsl]; exact hparse⟩
  rw [reformat_two h1 h2, if_pos rfl]
  have hrs := rstrip_join (fun l hl => (hok l hl).2) hne (ws := ['\n']) (by decide)
  have hne2 : rstrip (pyJoin ['\n'] (fill w title) ++ ['\n']) ≠ [] := by
    rw [hrs]
    obtain ⟨a, r, e⟩ := List.exists_cons_of_ne_nil hne
    have ha := (hok a (by rw [e]; simp)).2.1
    rw [e]
    cases r with
    | nil => exact ha
    | cons b r => rw [pyJoin_cons_ne (by simp)]; simp
  have := rstrip_append_of_ne ['\n'] (pyJoin ['\n'] (fill w title) ++ ['\n']) hne2
  rw [hrs] at this
  rw [List.cons_append]
  exact congrArg (fun x => Except.ok (x ++ ['\n'])) this

/-- C100: a definition that meets the conditions. -/
theorem C100_ref : Ref c!"a b" c!"https://e.org" c!"\"One two three four five\"" ∧
    PlainLine (refLine c!"a b" c!"https://e.org" c!"\"One two three four five\"") ∧
    RefAt c!"  [a b]:  https://e.org   \"One two three four five\" " c!"a b" c!"https://e.org" c!"\"One two three four five\"" := by
  refine ⟨⟨by decide, by decide, .inr ⟨'"', c!"One two three four five", .inl rfl, by decide, by decide, by decide⟩, by decide, ?_⟩,
    ⟨by decide, ?_⟩, c!"  ", c!"  ", c!"   ", c!" ", by decide, by decide, ?_, by decide, by decide⟩
  · unfold NoLB; decide
  · have : splitWs (refLine c!"a b" c!"https://e.org" c!"\"One two three four five\"") =
        [c!"[a", c!"b]:", c!"https://e.org", c!"\"One", c!"two", c!"three", c!"four", c!"five\""] := by decide +kernel
    intro v hv
    rw [this] at hv
    simp only [List.mem_cons, List.not_mem_nil, or_false] at hv
    rcases hv with rfl | rfl | rfl | rfl | rfl | rfl | rfl | rfl <;>
      exact ⟨by decide, by decide, by decide, by decide, by decide⟩
  · unfold NoLB; decide

/-- C100: three widths. At 30 the title is broken, at 24 it is below the link, at 20 the label and the link are lost. -/
theorem C100_example :
    reformatMarkdownText 2 (.fin 30) c!"  [a b]:  https://e.org   \"One two three four five\" \n" =
        .ok c!"[a b]: https://e.org \"One two\nthree four five\"\n" ∧
      reformatMarkdownText 2 (.fin 24) c!"  [a b]:  https://e.org   \"One two three four five\" \n" =
        .ok c!"[a b]: https://e.org\n\"One two three four\nfive\"\n" ∧
      reformatMarkdownText 2 (.fin 20) c!"  [a b]:  https://e.org   \"One two three four five\" \n" =
        .ok c!"\n\"One two three four\nfive\"\n" := by
  obtain ⟨h1, h2, h3⟩ := C100_ref
  refine ⟨?_, ?_, ?_⟩
  · have := (C100_kept 0 (.fin 30) c!"  [a b]:  https://e.org   \"One two three four five\" \n" _ _ _ _ c!"\"One" h1 (by decide) h2 h3
      (by decide) (by decide) (by decide)).1
    rw [this]; decide +kernel
  · have := (C100_kept 0 (.fin 24) c!"  [a b]:  https://e.org   \"One two three four five\" \n" _ _ _ _ c!"\"One" h1 (by decide) h2 h3
      (by decide) (by decide) (by decide)).1
    rw [this]; decide +kernel
  · have := (C100_lost 0 (.fin 20) c!"  [a b]:  https://e.org   \"One two three four five\" \n" _ _ _ _ c!"\"One" h1 (by decide) h2 h3
      (by decide) (by decide) (by decide) (by decide +kernel)).1
    rw [this]; decide +kernel

/-! ## C101: definitions without a title -/

theorem parse_tail {n : Nat} {l label link : Str} (hr : Ref label link []) (h : TailAt l label link) :
    parse (n + 1) [l] = .ok [(.par, [l])] := by
  have hfirst := firstSection_tail (n := n) hr h
  have := parse_of_first (n := n + 1) [(.par, [l])] (by
    intro a b c e
    cases a with
    | nil =>
      cases e
      exact ⟨by simp, by simpa [linesOf] using hfirst⟩
    | cons x a => cases a <;> cases e)
  simpa [linesOf] using this

/-- The first pass over a definition without a title at the end of a document. -/
theorem C101_pass {n : Nat} {w : Width} {text l label link : Str} (hr : Ref label link [])
    (hp : PlainLine (refLine label link [])) (hl : TailAt l label link) (hs : splitlines text = [l]) :
    reformatText (n + 2) w text = .ok (pyJoin ['\n'] (fill w (refLine label link [])) ++ ['\n']) := by
  refine reformat_single (ty := .par) (lines := [l]) (by rw [hs]; exact parse_tail hr hl) rfl ?_
  show fmtPar w [l] = _
  obtain ⟨h1, h2, r, h3⟩ := hl.words hr
  have hin : Inline (strip l) (plainToks (splitWs (refLine label link []))) := by
    refine plain_inline hp h1 (strip_idem l) ?_ (by rw [h3]; rfl)
    intro c hc hcw
    rcases h2 c hc hcw with h0 | h0
    · exact plainLine_spaces hp c (by unfold refLine; simp [h0]) hcw
    · exact h0
  have hw : wrap (parContent [l]) w = .ok (pyJoin ['\n'] (fill w (refLine label link []))) := wrap_line hin w
  simp only [fmtPar, hw, bind, Except.bind, List.getLast?_singleton, hl.noBreak hr]
  rfl

theorem fill_fits {w : Width} {L : Str} (hL : PlainLine L) (hne : L ≠ []) (hf : fitsIn w L.length = true) : fill w L = [L] := by
  have hne' : splitWs L ≠ [] := by
    intro e
    have := hL.single
    rw [e] at this
    exact hne this.symm
  have hnt : plainToks (splitWs L) ≠ [] := by
    obtain ⟨v, vs, e⟩ := List.exists_cons_of_ne_nil hne'
    rw [e]; simp [plainToks]
  have hlt : lineText (plainToks (splitWs L)) = L := (lineText_plain _).trans hL.single
  rw [fill, layLines, lay_fits w _ [] (fun t ht => (hL.plain _ (plainToks_text t ht)).noBrTok (g := t.gap)) (by simpa using hnt)
    (by rw [List.nil_append, hlt]; exact hf)]
  simp [hlt]

/-- C101: a definition without a title that fits on a line is written on one line, and the program accepts that. -/
theorem C101_fits (n : Nat) (w : Width) (text l label link : Str) (hr : Ref label link []) (hp : PlainLine (refLine label link []))
    (hl : TailAt l label link) (hs : splitlines text = [l]) (hf : fitsIn w (label.length + link.length + 4) = true) :
    reformatMarkdownText (n + 2) w text = .ok (refLine label link [] ++ ['\n']) := by
  have hfill := fill_fits (w := w) hp (refLine_ne _ _ _) (by rw [refLine_length]; exact hf)
  have h1 := C101_pass (n := n) (w := w) hr hp hl hs
  rw [hfill] at h1
  have h2 := C101_pass (n := n) (w := w) (text := refLine label link [] ++ ['\n']) hr hp (refLine_tailAt label link) (by
    have := splitlines_join_nl [refLine label link []] (by
      intro l hl
      rw [List.mem_singleton.1 hl]
      exact refLine_noLB hr) (by simp)
    simpa [pyJoin] using this)
  rw [hfill] at h2
  simp only [pyJoin] at h1 h2
  rw [reformat_two h1 h2, if_pos rfl, rstrip_append_ws _ _ (by decide)]
  obtain ⟨r, c, e, hc⟩ := refLine_last hr
  rw [e, rstrip_concat_of_not _ _ hc]

/-- C101: if only the label fits, or the label is one word, the program cannot read its own first result. -/
theorem C101_error (n : Nat) (w : Width) (text l label link : Str) (hr : Ref label link []) (hp : PlainLine (refLine label link []))
    (hl : TailAt l label link) (hs : splitlines text = [l]) (hf : fitsIn w (label.length + link.length + 4) = false)
    (hlab : fitsIn w (label.length + 3) = true ∨ ∀ c ∈ label, isWs c = false) (hb : link.head? ≠ some '[') :
    reformatText (n + 2) w text = .ok ('[' :: label ++ c!"]:\n" ++ link ++ c!"\n") ∧
      reformatMarkdownText (n + 2) w text = .error .stopIteration := by
  have hline : refLine label link [] = ('[' :: label ++ c!"]:") ++ ([' '] ++ link) := by simp [refLine]
  have hK : splitWs ('[' :: label ++ c!"]:") ≠ [] := splitWs_ne_nil (by decide)
  have hlw : splitWs link = [link] := splitWs_self hr.linkOk.1 hr.linkOk.2
  have hws : splitWs (refLine label link []) = splitWs ('[' :: label ++ c!"]:") ++ [link] := by
    rw [hline, splitWs_sep (by decide) (by decide), hlw]
  have hj : pyJoin [' '] (splitWs ('[' :: label ++ c!"]:")) = '[' :: label ++ c!"]:" := by
    have h2 := hp.single
    rw [hws, pyJoin_append hK (by simp), hline, List.append_assoc] at h2
    exact List.append_cancel_right h2
  have hpl : ∀ v ∈ splitWs ('[' :: label ++ c!"]:") ++ [link], PlainWord v := fun v hv => hp.plain v (by rw [hws]; exact hv)
  generalize hKe : splitWs ('[' :: label ++ c!"]:") = K at hK hws hj hpl
  have hP : plainToks K ≠ [] := by
    obtain ⟨v, vs, e⟩ := List.exists_cons_of_ne_nil hK
    rw [e]; simp [plainToks]
  have hbr : ∀ t ∈ plainToks K, t.isBr = false := fun t htk =>
    (hpl _ (List.mem_append_left _ (plainToks_text t htk))).noBrTok (g := t.gap)
  have hlay : lay w [] (plainToks (K ++ [link])) = lay w (plainToks K) [⟨.space, link⟩] := by
    rw [plainToks_append hK]
    rcases hlab with h0 | h0
    · rw [lay_prefix w _ _ _ hbr (by
        rw [List.nil_append, lineText_plain, hj]
        simpa using h0)]
      rfl
    · have : K = ['[' :: label ++ c!"]:"] := by
        rw [← hKe]
        refine splitWs_self (by simp) ?_
        intro c hc
        simp only [List.cons_append, List.mem_cons, List.mem_append, List.not_mem_nil, or_false] at hc
        rcases hc with rfl | hc | rfl | rfl
        · decide
        · exact h0 c hc
        · decide
        · decide
      rw [this] at hbr ⊢
      have hb1 := hbr _ (List.mem_singleton.2 rfl)
      simp only [plainToks, List.map_nil, List.map_cons, List.cons_append, List.nil_append]
      conv => lhs; rw [lay]
      have hb2 : Tok.isBr ⟨.glue, '[' :: (label ++ c!"]:")⟩ = false := hb1
      simp only [List.isEmpty_nil, Bool.true_or, if_true, hb2, Bool.false_eq_true, if_false, List.nil_append]
  have hnf : fitsIn w (lineText (plainToks K ++ [⟨.space, link⟩])).length = false := by
    rw [lineText_snoc hP, lineText_plain, hj]
    have : ('[' :: label ++ c!"]:" ++ Tok.spaced ⟨.space, link⟩).length = label.length + link.length + 4 := by
      simp [Tok.spaced]; omega
    rw [this, hf]
  have hfill : fill w (refLine label link []) = ['[' :: label ++ c!"]:", link] := by
    have hPe : (plainToks K).isEmpty = false := by simpa using hP
    have hlb : Tok.isBr ⟨.space, link⟩ = false := (hpl link (by simp)).noBrTok
    rw [fill, layLines, hws, hlay, lay, hPe, hnf, hlb]
    simp only [Bool.or_self, Bool.false_eq_true, if_false, lay, List.isEmpty_cons, List.map_cons, List.map_nil, lineText_plain, hj]
    simp [lineText]
  have h1 := C101_pass (n := n) (w := w) hr hp hl hs
  rw [hfill] at h1
  have hp1 : pyJoin ['\n'] ['[' :: label ++ c!"]:", link] ++ ['\n'] = '[' :: label ++ c!"]:\n" ++ link ++ c!"\n" := by
    simp [pyJoin]
  have hsl : splitlines (pyJoin ['\n'] ['[' :: label ++ c!"]:", link] ++ ['\n']) = ['[' :: label ++ c!"]:", link] := by
    refine splitlines_join_nl _ ?_ (by simp)
    intro l hl
    simp only [List.mem_cons, List.not_mem_nil, or_false] at hl
    rcases hl with rfl | rfl
    · intro c hc
      refine refLine_noLB hr c ?_
      rw [hline]; exact List.mem_append_left _ hc
    · exact hr.noLB.2.1
  have hlrd : splitLrd ['[' :: label ++ c!"]:", link] = .error .stopIteration := by
    obtain ⟨m, hm, hstop⟩ := lrdFirst_intro (r := []) hr.labelOk.1 hr.labelOk.2.1 hr.labelOk.2.2
    have hd : ('[' :: (label ++ c!"]:")).drop m.stop = [] := by
      rw [hstop]; apply List.drop_eq_nil_of_le; simp
    have hsw : (startsWith link c!"[" || (strip link).isEmpty) = false := by
      obtain ⟨c, r, e⟩ := List.exists_cons_of_ne_nil hr.linkOk.1
      rw [e] at hb
      obtain ⟨r', h'⟩ := strip_cons_head (c := c) (r := r) (hr.linkOk.2 c (by rw [e]; simp))
      rw [e, h', Bool.or_eq_false_iff]
      refine ⟨?_, rfl⟩
      simp only [startsWith, List.isPrefixOf, Bool.and_true, beq_eq_false_iff_ne, ne_eq]
      intro h0
      exact hb (by rw [← h0]; rfl)
    have hsm : splitMax1 link = [link] := by
      obtain ⟨c, r, e⟩ := List.exists_cons_of_ne_nil hr.linkOk.1
      have hl : lstrip link = link := by rw [e]; exact lstrip_cons_of_not c _ (hr.linkOk.2 c (by rw [e]; simp))
      obtain ⟨t1, t2⟩ := takeWhile_dropWhile_append (p := fun c => !isWs c) (a := link) (b := [])
        (fun c hc => by simp [hr.linkOk.2 c hc]) (by intro c hc; cases hc)
      rw [List.append_nil] at t1 t2
      unfold splitMax1
      rw [hl]
      rw [e] at t1 t2 ⊢
      simp only [t1, t2]
      rfl
    simp only [splitLrd, List.cons_append]
    rw [if_neg (by simp [getIndent, lstrip_cons_of_not, show isWs '[' = false by decide]), lstrip_cons_of_not _ _ (by decide)]
    simp only [hm, hd]
    rw [show splitMax1 [] = [] from rfl]
    simp only [List.headD_cons, hsw, hsm, Bool.false_eq_true, if_false]
    rfl
  have hfirst : firstSection (splitters (splitQuote (n + 1))) ['[' :: label ++ c!"]:", link] = .error .stopIteration := by
    have hat : RefAt ('[' :: label ++ c!"]:") label [] [] :=
      ⟨[], [], [], [], by simp, by simp, by simp [NoLB], by simp, by simp⟩
    have hps := hat.facts.1
    simp only [isParStart, List.any_cons, List.any_nil, Bool.or_false, Bool.not_eq_true', Bool.or_eq_false_iff] at hps
    obtain ⟨p1, p2, p3, p4, p5, p6, p7, p8, p9⟩ := hps
    unfold splitters
    rw [firstSection_skip (splitAtx_eq_nil _ p2), firstSection_skip (splitBlank_eq_nil _ p3),
      firstSection_skip (splitQuote_unquoted n _ p5), firstSection_skip (splitBullet_eq_nil _ p4),
      firstSection_skip (splitFenced_eq_nil _ p6), firstSection_skip (splitIndented_eq_nil _ p1)]
    simp only [firstSection, hlrd, bind, Except.bind]
  have hparse : parse (n + 1) ['[' :: label ++ c!"]:", link] = .error .stopIteration := by
    simp only [parse, parseWith, parseLoop, hfirst, bind, Except.bind, List.length_cons]
  have h2 : reformatText (n + 2) w (pyJoin ['\n'] ['[' :: label ++ c!"]:", link] ++ ['\n']) = .error .stopIteration := by
    rw [reformatText]
    simp only [reformatBody, bind, Except.bind, hsl, hparse]
  refine ⟨by rw [h1, hp1], ?_⟩
  simp only [reformatMarkdownText, bind, Except.bind, h1, h2]

/-- C101: a definition that meets the conditions, where it fits and where it does not. -/
theorem C101_example :
    reformatMarkdownText 2 (.fin 20) c!" [a b]:  https://e.org " = .ok c!"[a b]: https://e.org\n" ∧
      reformatMarkdownText 2 (.fin 19) c!" [a b]:  https://e.org " = .error .stopIteration ∧
      reformatMarkdownText 2 (.fin 5) c!" [a b]:  https://e.org " = .ok c!"[a\nb]:\nhttps://e.org\n" := by
  have h1 := C100_ref.1.untitled
  have h2 : PlainLine (refLine c!"a b" c!"https://e.org" []) := by
    refine ⟨by decide, fun v hv => C100_ref.2.1.plain v ?_⟩
    rw [(ref_lineWords C100_ref.1 (by decide) C100_ref.2.1).1]
    exact List.mem_append_left _ hv
  have h3 : TailAt c!" [a b]:  https://e.org " c!"a b" c!"https://e.org" :=
    ⟨c!" ", c!"  ", c!" ", by decide, by decide, by decide, by decide, by decide⟩
  refine ⟨?_, ?_, by decide +kernel⟩
  · exact C101_fits 0 (.fin 20) _ _ _ _ h1 h2 h3 (by decide) (by decide)
  · exact (C101_error 0 (.fin 19) _ _ _ _ h1 h2 h3 (by decide) (by decide) (.inl (by decide)) (by decide)).2

end MF
