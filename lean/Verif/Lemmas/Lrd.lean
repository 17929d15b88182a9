import Verif.Model.Format
import Verif.Lemmas.Rx
import Verif.Lemmas.Str
/-!
# The parts of a link reference definition
-/

namespace MF

theorem run_chr_cons {p : Char → Bool} {β : Type} (c : Char) (post pre : Str) (caps : List (Nat × Str × Nat))
    (k : MS → Option β) : (Rx.chr p).run ⟨pre, c :: post, caps⟩ k =
      if p c then k ⟨c :: pre, post, caps⟩ else none := rfl

theorem run_seq {β : Type} (a b : Rx) (st : MS) (k : MS → Option β) :
    (Rx.seq a b).run st k = a.run st (fun st' => b.run st' k) := rfl

theorem run_grp {β : Type} (n : Nat) (r : Rx) (st : MS) (k : MS → Option β) :
    (Rx.grp n r).run st k = r.run st (fun st' =>
      k { st' with caps := (n, st.post.take (st.post.length - st'.post.length), st'.pre.length) :: st'.caps }) := rfl

/-- a greedy run of a character class takes as much as it can, if the rest of the pattern goes along with that -/
theorem run_star_chr {p : Char → Bool} {β : Type} {k : MS → Option β} {x : β} :
    ∀ (st : MS), k { st with pre := (st.post.takeWhile p).reverse ++ st.pre, post := st.post.dropWhile p } = some x →
      (Rx.star (.chr p)).run st k = some x := by
  have key : ∀ (post pre : Str) (caps : List (Nat × Str × Nat)) (fuel : Nat), post.length < fuel →
      k ⟨(post.takeWhile p).reverse ++ pre, post.dropWhile p, caps⟩ = some x →
      repRun (fun s k' => (Rx.chr p).run s k') fuel 0 none ⟨pre, post, caps⟩ k = some x := by
    intro post
    induction post with
    | nil =>
      intro pre caps fuel hf h
      obtain ⟨f, rfl⟩ : ∃ f, fuel = f + 1 := ⟨fuel - 1, by simp at hf; omega⟩
      simp only [repRun, Rx.run]
      simpa using h
    | cons c post ih =>
      intro pre caps fuel hf h
      obtain ⟨f, rfl⟩ : ∃ f, fuel = f + 1 := ⟨fuel - 1, by simp at hf; omega⟩
      simp only [repRun, run_chr_cons]
      cases hp : p c with
      | true =>
        have := ih (c :: pre) caps f (by simp at hf ⊢; omega) (by simpa [hp] using h)
        simp [this]
      | false => simpa [hp] using h
  intro st h
  obtain ⟨pre, post, caps⟩ := st
  exact key post pre caps (post.length + 1) (by omega) h

theorem take_takeWhile {p : Char → Bool} (s : Str) : s.take (s.length - (s.dropWhile p).length) = s.takeWhile p := by
  have h : s = s.takeWhile p ++ s.dropWhile p := (List.takeWhile_append_dropWhile).symm
  have hl := congrArg List.length h
  rw [List.length_append] at hl
  conv => lhs; rw [h]
  rw [List.take_append_of_le_length]
  · rw [List.take_of_length_le]
    rw [← h]; omega
  · rw [← h]; omega

theorem lrd_rest (P cs : Str) (caps : List (Nat × Str × Nat)) : ∃ pre' n2 n3,
    (Rx.seq (Rx.star (.chr isWs)) (Rx.seq (.grp 2 (Rx.star (.chr fun c => !isWs c))) (Rx.seq (Rx.star (.chr isWs))
      (.grp 3 (Rx.star (.chr (· != '\n'))))))).run ⟨P, cs, caps⟩ some =
    some (⟨pre', (lstrip ((lstrip cs).dropWhile (fun c => !isWs c))).dropWhile (· != '\n'),
      (3, (lstrip ((lstrip cs).dropWhile (fun c => !isWs c))).takeWhile (· != '\n'), n3) ::
      (2, (lstrip cs).takeWhile (fun c => !isWs c), n2) :: caps⟩ : MS) := by
  let p1 := (cs.takeWhile isWs).reverse ++ P
  let c1 := cs.dropWhile isWs
  let p2 := (c1.takeWhile (fun c => !isWs c)).reverse ++ p1
  let c2 := c1.dropWhile (fun c => !isWs c)
  let p3 := (c2.takeWhile isWs).reverse ++ p2
  let c3 := c2.dropWhile isWs
  let p4 := (c3.takeWhile (· != '\n')).reverse ++ p3
  refine ⟨p4, p2.length, p4.length, ?_⟩
  rw [run_seq]
  apply run_star_chr
  rw [run_seq, run_grp]
  apply run_star_chr
  rw [run_seq]
  apply run_star_chr
  rw [run_grp]
  apply run_star_chr
  simp only [take_takeWhile]
  rfl

/-- what the pattern takes: the name between `[` and `]:`, then the first word, then the rest of the line -/
theorem lrd_matchAt_shape {pre post : Str} {m : Match} (h2 : lrdRx.matchAt pre post = some m) :
    ∃ name body, post = '[' :: (name ++ (']' :: ':' :: body)) ∧ name ≠ [] ∧ name.length ≤ 999 ∧ ']' ∉ name ∧
      m.group 1 = some name ∧ m.group 2 = some ((lstrip body).takeWhile (fun c => !isWs c)) ∧
      m.group 3 = some ((lstrip ((lstrip body).dropWhile (fun c => !isWs c))).takeWhile (· != '\n')) := by
  simp only [Rx.matchAt, Option.map_eq_some_iff] at h2
  obtain ⟨st, hst, rfl⟩ := h2
  simp only [lrdRx, Rx.seqs] at hst
  rw [run_seq] at hst
  obtain ⟨s1, ⟨c1, cs1, e1, e2, rfl⟩, hst⟩ := Rx.run_sound (.chr _) _ _ _ hst
  rw [run_seq] at hst
  obtain ⟨s2, ⟨s2', e3, rfl⟩, hst⟩ := Rx.run_sound (.grp _ _) _ _ _ hst
  obtain ⟨nm, e4, e5, e6, e7, e8⟩ := repStep_chr e3
  rw [run_seq] at hst
  obtain ⟨s3, ⟨c3, cs3, e9, e10, rfl⟩, hst⟩ := Rx.run_sound (.chr _) _ _ _ hst
  rw [run_seq] at hst
  obtain ⟨s4, ⟨c4, cs4, e11, e12, rfl⟩, hst⟩ := Rx.run_sound (.chr _) _ _ _ hst
  have d1 : post = c1 :: cs1 := e1
  have d2 : cs1 = nm ++ s2'.post := e4.1
  have d3 : s2'.post = c3 :: cs3 := e9
  have d4 : cs3 = c4 :: cs4 := e11
  have b1 : c1 = '[' := by simpa using e2
  have b3 : c3 = ']' := by simpa using e10
  have b4 : c4 = ':' := by simpa using e12
  have hname : (cs1.take (cs1.length - s2'.post.length)) = nm := by
    rw [d2]; simp
  -- the rest of the pattern takes all it can
  obtain ⟨pre', n2, n3, hrest⟩ := lrd_rest (c4 :: c3 :: s2'.pre) cs4
    ((1, cs1.take (cs1.length - s2'.post.length), s2'.pre.length) :: s2'.caps)
  have heq := hst.symm.trans hrest
  cases heq
  refine ⟨nm, cs4, ?_, ?_, e7 999 rfl, ?_, ?_, ?_, ?_⟩
  · simp [d1, d2, d3, d4, b1, b3, b4]
  · intro h0
    rw [h0] at e6; simp at e6
  · intro hm
    have := e5 _ hm
    simp at this
  · simp [Match.group, hname]
  · simp [Match.group]
  · simp [Match.group]

/-- name, link and title of a link reference definition: the name between `[` and `]:`, then the first word, then the
other words of the line -/
theorem lrdParts_shape {lines : List Str} {name link title : Str} (h : lrdParts lines = .ok (name, link, title)) :
    ∃ pre body, pyJoin [' '] lines = pre ++ ('[' :: (name ++ (']' :: ':' :: body))) ∧ name ≠ [] ∧ name.length ≤ 999 ∧
      ']' ∉ name ∧ link = (lstrip body).takeWhile (fun c => !isWs c) ∧
      title = pyJoin [' '] (splitWs
        ((lstrip ((lstrip body).dropWhile (fun c => !isWs c))).takeWhile (· != '\n'))) := by
  simp only [lrdParts] at h
  split at h
  · cases h
  · rename_i m hm
    obtain ⟨u, post, h1, h2⟩ := Rx.searchFrom_sound _ hm
    obtain ⟨nm, body, e1, e2, e3, e4, e5, e6, e7⟩ := lrd_matchAt_shape h2
    rw [e5, e6, e7] at h
    simp only [Option.getD_some, Except.ok.injEq, Prod.mk.injEq] at h
    obtain ⟨rfl, rfl, rfl⟩ := h
    exact ⟨u, body, by rw [h1, e1], e2, e3, e4, rfl, rfl⟩

theorem chr_matchAt_none {p : Char → Bool} {r : Rx} {pre post : Str} {c : Char} (h : p c = false) :
    (Rx.seq (.chr p) r).matchAt pre (c :: post) = none := by
  simp [Rx.matchAt, Rx.run, h]

theorem chr_searchFrom_skip {p : Char → Bool} {r : Rx} (u : Str) : ∀ (pre post : Str), (∀ c ∈ u, p c = false) →
    (Rx.seq (.chr p) r).searchFrom pre (u ++ post) = (Rx.seq (.chr p) r).searchFrom (u.reverse ++ pre) post := by
  induction u with
  | nil => intro pre post _; rfl
  | cons c u ih =>
    intro pre post h
    simp only [List.cons_append, Rx.searchFrom]
    rw [chr_matchAt_none (h c (by simp))]
    simp only
    rw [ih _ _ fun x hx => h x (by simp [hx])]
    simp

theorem name_unique {a b x y : Str} (ha : ']' ∉ a) (hb : ']' ∉ b) (h : a ++ ']' :: x = b ++ ']' :: y) : a = b ∧ x = y := by
  induction a generalizing b with
  | nil =>
    cases b with
    | nil => simpa using h
    | cons d b =>
      simp only [List.nil_append, List.cons_append, List.cons.injEq] at h
      rw [← h.1] at hb; simp at hb
  | cons c a ih =>
    cases b with
    | nil =>
      simp only [List.nil_append, List.cons_append, List.cons.injEq] at h
      rw [h.1] at ha; simp at ha
    | cons d b =>
      simp only [List.cons_append, List.cons.injEq] at h
      obtain ⟨rfl, h⟩ := h
      obtain ⟨rfl, rfl⟩ := ih (fun hm => ha (by simp [hm])) (fun hm => hb (by simp [hm])) h
      exact ⟨rfl, rfl⟩

/-- the parts of a definition that starts the text -/
theorem lrdParts_of_shape {lines : List Str} {ws name body : Str}
    (h : pyJoin [' '] lines = ws ++ ('[' :: (name ++ (']' :: ':' :: body)))) (hws : '[' ∉ ws)
    (h1 : name ≠ []) (h2 : name.length ≤ 999) (h3 : ']' ∉ name) :
    lrdParts lines = .ok (name, (lstrip body).takeWhile (fun c => !isWs c),
      pyJoin [' '] (splitWs ((lstrip ((lstrip body).dropWhile (fun c => !isWs c))).takeWhile (· != '\n')))) := by
  have hstep : ∃ st, lrdRx.Step ⟨ws.reverse ++ [], '[' :: (name ++ (']' :: ':' :: body)), []⟩ st := by
    simp only [lrdRx, Rx.seqs]
    refine ⟨_, _, ⟨'[', _, rfl, by decide, rfl⟩, _, ⟨⟨name.reverse ++ '[' :: (ws.reverse ++ []), ']' :: ':' :: body, []⟩, ?_, rfl⟩,
      _, ⟨']', _, rfl, by decide, rfl⟩, _, ⟨':', _, rfl, by decide, rfl⟩, _, RepStep.stop _ _, _,
      ⟨_, RepStep.stop _ _, rfl⟩, _, RepStep.stop _ _, _, RepStep.stop _ _, rfl⟩
    apply repStep_chr_intro
    · intro c hc
      simp only [bne_iff_ne, ne_eq]
      intro h0
      exact h3 (h0 ▸ hc)
    · exact List.length_pos_iff.2 h1
    · intro m hm
      cases hm
      exact h2
  obtain ⟨st, hst⟩ := hstep
  obtain ⟨m, hm⟩ := Option.isSome_iff_exists.1 (Rx.matchAt_isSome hst)
  obtain ⟨nm, bd, e1, _, _, e4, e5, e6, e7⟩ := lrd_matchAt_shape hm
  have hs : lrdRx.search (pyJoin [' '] lines) = some m := by
    rw [h]
    show Rx.searchFrom _ _ _ = _
    rw [show lrdRx = Rx.seq (.chr (· == '[')) (.seqs [.grp 1 (.rep (.chr (· != ']')) 1 (some 999)), .chr (· == ']'),
      .chr (· == ':'), .star (.chr isWs), .grp 2 (.star (.chr fun c => !isWs c)), .star (.chr isWs),
      .grp 3 (.star (.chr (· != '\n')))]) from rfl]
    rw [chr_searchFrom_skip ws [] _ (by
      intro c hc
      simp only [beq_eq_false_iff_ne, ne_eq]
      intro h0
      exact hws (h0 ▸ hc))]
    simp only [Rx.searchFrom]
    have hm' := hm
    rw [show lrdRx = Rx.seq (.chr (· == '[')) (.seqs [.grp 1 (.rep (.chr (· != ']')) 1 (some 999)), .chr (· == ']'),
      .chr (· == ':'), .star (.chr isWs), .grp 2 (.star (.chr fun c => !isWs c)), .star (.chr isWs),
      .grp 3 (.star (.chr (· != '\n')))]) from rfl] at hm'
    rw [hm']
  simp only [List.cons.injEq, true_and] at e1
  obtain ⟨rfl, e8⟩ := name_unique h3 e4 e1
  simp only [List.cons.injEq, true_and] at e8
  subst e8
  simp only [lrdParts, hs, e5, e6, e7, Option.getD_some]

end MF
