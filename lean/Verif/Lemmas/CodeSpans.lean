import Verif.Lemmas.Links
/-!
# `code_split` keeps closed code spans
-/

namespace MF

/-! ## Code markers are maximal runs of backticks -/

theorem codeBody_tick {β : Type} (pre cs : Str) (caps : List (Nat × Str × Nat)) (k : MS → Option β) :
    ∃ caps', (Rx.grp 2 (.seqs [.notAhead (.lit ['<', '\\']), .chr (· == '`')])).run ⟨pre, '`' :: cs, caps⟩ k =
      k ⟨'`' :: pre, cs, caps'⟩ := by
  refine ⟨(2, ('`' :: cs).take (('`' :: cs).length - cs.length), pre.length + 1) :: caps, ?_⟩
  simp only [Rx.run, Rx.seqs, Rx.lit]
  simp

theorem codeBody_other {β : Type} (pre post : Str) (caps : List (Nat × Str × Nat)) (k : MS → Option β)
    (h : ∀ cs, post ≠ '`' :: cs) :
    (Rx.grp 2 (.seqs [.notAhead (.lit ['<', '\\']), .chr (· == '`')])).run ⟨pre, post, caps⟩ k = none := by
  cases post with
  | nil => simp only [Rx.run, Rx.seqs, Rx.lit]
  | cons c cs =>
    have hc : c ≠ '`' := by rintro rfl; exact h cs rfl
    simp only [Rx.run, Rx.seqs, Rx.lit]
    split
    · rfl
    · simp [hc]

theorem repRun_ticks {β : Type} (k : MS → Option β) (hk : ∀ st, (k st).isSome = true) :
    ∀ (post : Str) (fuel mn : Nat) (pre : Str) (caps : List (Nat × Str × Nat)), post.length < fuel →
      mn ≤ (post.takeWhile (· == '`')).length →
      ∃ st', repRun (fun s k' => (Rx.grp 2 (.seqs [.notAhead (.lit ['<', '\\']), .chr (· == '`')])).run s k') fuel mn none
        ⟨pre, post, caps⟩ k = k st' ∧ st'.post = post.dropWhile (· == '`') := by
  intro post
  induction post with
  | nil =>
    intro fuel mn pre caps hf hmn
    obtain ⟨fuel, rfl⟩ : ∃ f, fuel = f + 1 := ⟨fuel - 1, by simp at hf; omega⟩
    have hmn0 : mn = 0 := by simpa using hmn
    refine ⟨⟨pre, [], caps⟩, ?_, rfl⟩
    unfold repRun
    rw [codeBody_other _ _ _ _ (by simp)]
    simp [hmn0]
  | cons c cs ih =>
    intro fuel mn pre caps hf hmn
    obtain ⟨fuel, rfl⟩ : ∃ f, fuel = f + 1 := ⟨fuel - 1, by simp at hf; omega⟩
    by_cases hc : c = '`'
    · subst hc
      unfold repRun
      obtain ⟨caps', hb⟩ := codeBody_tick (β := β) pre cs caps (fun st' =>
          if st'.post.length < ('`' :: cs).length then
            repRun (fun s k' => (Rx.grp 2 (.seqs [.notAhead (.lit ['<', '\\']), .chr (· == '`')])).run s k') fuel (mn - 1)
              ((none : Option Nat).map (· - 1)) st' k else none)
      simp only [hb]
      rw [if_neg (by simp), if_pos (by simp)]
      have hmn' : mn - 1 ≤ (cs.takeWhile (· == '`')).length := by
        simp only [List.takeWhile_cons, beq_self_eq_true, if_true, List.length_cons] at hmn; omega
      obtain ⟨st', h1, h2⟩ := ih fuel (mn - 1) ('`' :: pre) caps' (by simp at hf; omega) hmn'
      refine ⟨st', ?_, by simpa using h2⟩
      simp only [Option.map_none]
      rw [h1]
      have := hk st'
      cases hks : k st' with
      | none => rw [hks] at this; cases this
      | some x => simp
    · have hmn0 : mn = 0 := by
        have : (c :: cs).takeWhile (· == '`') = [] := by simp [hc]
        rw [this] at hmn; simpa using hmn
      refine ⟨⟨pre, c :: cs, caps⟩, ?_, by simp [hc]⟩
      unfold repRun
      rw [codeBody_other _ _ _ _ (by intro cs' h; cases h; exact hc rfl)]
      simp [hmn0]

theorem takeWhile_length_sub (p : Char → Bool) (s : Str) :
    s.take (s.length - (s.dropWhile p).length) = s.takeWhile p := by
  have h := List.takeWhile_append_dropWhile (p := p) (l := s)
  have hl := congrArg List.length h
  simp only [List.length_append] at hl
  rw [show s.length - (s.dropWhile p).length = (s.takeWhile p).length by omega]
  exact (List.prefix_iff_eq_take.1 (List.takeWhile_prefix p)).symm

/-- a code marker takes all the backticks at its position -/
theorem codeMarker_greedy {pre post : Str} {m : Match} (h : codeMarkerRx.matchAt pre post = some m) :
    m.text = post.takeWhile (· == '`') := by
  have hne : m.text ≠ [] := codeMarkerRx_nonEmpty _ _ _ h
  have htick : ∃ cs, post = '`' :: cs := by
    obtain ⟨rest, h1, _⟩ := Rx.matchAt_shape h
    have h2 := codeMarker_text h
    cases hl : m.text.length with
    | zero => simp at hl; exact absurd hl hne
    | succ n =>
      rw [hl, List.replicate_succ] at h2
      exact ⟨List.replicate n '`' ++ rest, by rw [h1, h2]; rfl⟩
  obtain ⟨cs, rfl⟩ := htick
  unfold Rx.matchAt codeMarkerRx at h
  simp only [Rx.run, Rx.plus] at h
  obtain ⟨st', h1, h2⟩ := repRun_ticks (fun st' : MS => some
      { st' with caps := (1, ('`' :: cs).take (('`' :: cs).length - st'.post.length), st'.pre.length) :: st'.caps })
      (fun _ => rfl) ('`' :: cs) (('`' :: cs).length + 1) 1 pre [] (by simp) (by simp)
  have h1' := h1
  simp only [Rx.run] at h1'
  rw [h1'] at h
  simp only [Option.map_some, Option.some.injEq] at h
  rw [← h]
  simp only [h2]
  exact takeWhile_length_sub _ _

/-- before the first code marker there is no backtick, and after it no backtick follows directly -/
theorem codeFinds_step {pre u rest : Str} {m : Match}
    (h1 : ∀ a b c, u = a ++ c :: b → codeMarkerRx.matchAt (a.reverse ++ pre) (c :: b ++ (m.text ++ rest)) = none)
    (h2 : codeMarkerRx.matchAt (u.reverse ++ pre) (m.text ++ rest) = some m) :
    '`' ∉ u ∧ (∀ cs, rest ≠ '`' :: cs) := by
  constructor
  · intro hm
    obtain ⟨a, b, rfl⟩ := List.append_of_mem hm
    have := h1 a b '`' rfl
    have h3 := codeMarker_some (a.reverse ++ pre) (b ++ (m.text ++ rest))
    simp only [List.cons_append] at this
    rw [this] at h3; cases h3
  · rintro cs rfl
    have hg := codeMarker_greedy h2
    have ht := codeMarker_text h2
    have hl := congrArg List.length hg
    have : (m.text ++ '`' :: cs).takeWhile (· == '`') = m.text ++ '`' :: cs.takeWhile (· == '`') := by
      rw [List.takeWhile_append_of_pos]
      · simp
      · intro c hc
        rw [ht] at hc
        rw [List.eq_of_mem_replicate hc]; rfl
    rw [this] at hl
    simp at hl


/-! ## Closed code spans -/

/-- `k` backticks -/
abbrev ticks (k : Nat) : Str := List.replicate k '`'

/-- somewhere in `s` there are exactly `k` backticks in a row -/
def HasRun (k : Nat) (s : Str) : Prop :=
  ∃ a b, s = a ++ (ticks k ++ b) ∧ a.getLast? ≠ some '`' ∧ b.head? ≠ some '`'

/-- `CodeSpans s spans`: `spans` are the closed code spans of `s`, in order. A span opens with a run of `k` backticks
and is closed by the next run of exactly `k` backticks; a run that no run of the same length closes opens nothing, and
ends the search. -/
inductive CodeSpans : Str → List Str → Prop
  | none {s : Str} : '`' ∉ s → CodeSpans s []
  | unclosed {a b : Str} {k : Nat} : '`' ∉ a → 0 < k → b.head? ≠ some '`' → ¬ HasRun k b →
      CodeSpans (a ++ (ticks k ++ b)) []
  | span {a body rest : Str} {k : Nat} {spans : List Str} : '`' ∉ a → 0 < k → body ≠ [] → body.head? ≠ some '`' →
      body.getLast? ≠ some '`' → ¬ HasRun k body → rest.head? ≠ some '`' → CodeSpans rest spans →
      CodeSpans (a ++ (ticks k ++ (body ++ (ticks k ++ rest)))) ((ticks k ++ (body ++ ticks k)) :: spans)

theorem run_unique {u u' r r' : Str} {j j' : Nat} (hu : '`' ∉ u) (hu' : '`' ∉ u') (hj : 0 < j) (hj' : 0 < j')
    (hr : r.head? ≠ some '`') (hr' : r'.head? ≠ some '`') (h : u ++ (ticks j ++ r) = u' ++ (ticks j' ++ r')) :
    u = u' ∧ j = j' ∧ r = r' := by
  have key : ∀ {u r : Str} {j : Nat}, '`' ∉ u → 0 < j → r.head? ≠ some '`' →
      (u ++ (ticks j ++ r)).takeWhile (· != '`') = u ∧
      ((u ++ (ticks j ++ r)).drop u.length).takeWhile (· == '`') = ticks j ∧
      ((u ++ (ticks j ++ r)).drop u.length).dropWhile (· == '`') = r := by
    intro u r j hu hj hr
    obtain ⟨j, rfl⟩ : ∃ i, j = i + 1 := ⟨j - 1, by omega⟩
    have hp : ∀ c ∈ u, (c != '`') = true := by intro c hc; simp; rintro rfl; exact hu hc
    have ht : ∀ c ∈ ticks (j + 1), (c == '`') = true := by intro c hc; rw [List.eq_of_mem_replicate hc]; rfl
    have hr1 : r.takeWhile (· == '`') = [] := by
      cases r with
      | nil => rfl
      | cons c r => simp at hr; simp [hr]
    have hr2 : r.dropWhile (· == '`') = r := by
      cases r with
      | nil => rfl
      | cons c r => simp at hr; simp [hr]
    refine ⟨?_, ?_, ?_⟩
    · rw [List.takeWhile_append_of_pos hp]
      simp [ticks, List.replicate_succ]
    · rw [List.drop_left, List.takeWhile_append_of_pos ht, hr1, List.append_nil]
    · rw [List.drop_left, List.dropWhile_append_of_pos ht, hr2]
  obtain ⟨a1, a2, a3⟩ := key hu hj hr
  obtain ⟨b1, b2, b3⟩ := key hu' hj' hr'
  rw [h] at a1 a2 a3
  have hu1 : u = u' := by rw [← a1, b1]
  subst hu1
  refine ⟨rfl, ?_, by rw [← a3, b3]⟩
  have : ticks j = ticks j' := by rw [← a2, b2]
  simpa using congrArg List.length this

theorem exists_run {s : Str} (h : '`' ∈ s) : ∃ u j r, s = u ++ (ticks j ++ r) ∧ '`' ∉ u ∧ 0 < j ∧ r.head? ≠ some '`' := by
  induction s with
  | nil => cases h
  | cons c s ih =>
    by_cases hc : c = '`'
    · subst hc
      refine ⟨[], (('`' :: s).takeWhile (· == '`')).length, ('`' :: s).dropWhile (· == '`'), ?_, by simp, by simp, ?_⟩
      · have h1 := List.takeWhile_append_dropWhile (p := (· == '`')) (l := '`' :: s)
        have h2 : ('`' :: s).takeWhile (· == '`') = ticks (('`' :: s).takeWhile (· == '`')).length := by
          apply List.eq_replicate_iff.2
          refine ⟨rfl, fun c hc => ?_⟩
          have := List.all_takeWhile (p := (· == '`')) (l := '`' :: s)
          rw [List.all_eq_true] at this
          simpa using this c hc
        rw [List.nil_append, ← h2]
        exact h1.symm
      · intro h0
        cases hd : ('`' :: s).dropWhile (· == '`') with
        | nil => rw [hd] at h0; cases h0
        | cons x xs =>
          rw [hd] at h0
          simp at h0
          subst h0
          have := List.head?_dropWhile_not (p := (· == '`')) (l := '`' :: s)
          rw [hd] at this
          simp at this
    · have hs : '`' ∈ s := by
        rcases List.mem_cons.1 h with h | h
        · exact absurd h.symm hc
        · exact h
      obtain ⟨u, j, r, h1, h2, h3, h4⟩ := ih hs
      refine ⟨c :: u, j, r, by rw [h1]; rfl, ?_, h3, h4⟩
      simp only [List.mem_cons, not_or]
      exact ⟨fun h => hc h.symm, h2⟩

/-- every text has its list of closed code spans -/
theorem codeSpans_total (s : Str) : ∃ spans, CodeSpans s spans := by
  have key : ∀ n (s : Str), s.length ≤ n → ∃ spans, CodeSpans s spans := by
    intro n
    induction n with
    | zero =>
      intro s hs
      have : s = [] := by simpa using hs
      subst this
      exact ⟨[], .none (by simp)⟩
    | succ n ih =>
      intro s hs
      by_cases ht : '`' ∈ s
      · obtain ⟨a, k, b, h1, h2, h3, h4⟩ := exists_run ht
        by_cases hrun : HasRun k b
        · -- the first run of length k in b
          have first : ∀ m (b : Str), b.length ≤ m → b.head? ≠ some '`' → HasRun k b → ∃ body rest, b = body ++ (ticks k ++ rest) ∧
              ¬ HasRun k body ∧ body ≠ [] ∧ body.head? ≠ some '`' ∧ body.getLast? ≠ some '`' ∧ rest.head? ≠ some '`' := by
            intro m
            induction m with
            | zero =>
              intro b hb _ hr
              obtain ⟨x, y, hxy, _⟩ := hr
              have := congrArg List.length hxy
              simp only [List.length_append, List.length_replicate] at this
              omega
            | succ m ihm =>
              intro b hb hh hr
              obtain ⟨x, y, hxy, hx, hy⟩ := hr
              have hxne : x ≠ [] := by
                rintro rfl
                rw [hxy] at hh
                obtain ⟨k, rfl⟩ : ∃ i, k = i + 1 := ⟨k - 1, by omega⟩
                simp [ticks, List.replicate_succ] at hh
              have hxh : x.head? ≠ some '`' := by
                rw [hxy] at hh
                cases x with
                | nil => exact absurd rfl hxne
                | cons c x => simpa using hh
              by_cases hrx : HasRun k x
              · have hlt : x.length ≤ m := by
                  have := congrArg List.length hxy
                  simp at this
                  omega
                obtain ⟨body, rest, h5, h6, h7, h8, h9, h10⟩ := ihm x hlt hxh hrx
                refine ⟨body, rest ++ (ticks k ++ y), by rw [hxy, h5]; simp, h6, h7, h8, h9, ?_⟩
                cases rest with
                | nil =>
                  exfalso
                  apply hx
                  rw [h5]
                  obtain ⟨k, rfl⟩ : ∃ i, k = i + 1 := ⟨k - 1, by omega⟩
                  rw [List.append_nil, List.getLast?_append]
                  simp [ticks, List.getLast?_replicate]
                | cons c rest => simpa using h10
              · exact ⟨x, y, hxy, hrx, hxne, hxh, hx, hy⟩
          obtain ⟨body, rest, h5, h6, h7, h8, h9, h10⟩ := first _ b (Nat.le_refl _) h4 hrun
          have hlen : rest.length ≤ n := by
            have := congrArg List.length h1
            rw [h5] at this
            simp at this
            omega
          obtain ⟨spans, hsp⟩ := ih rest hlen
          rw [h1, h5]
          exact ⟨_, .span h2 h3 h7 h8 h9 h6 h10 hsp⟩
        · exact ⟨[], by rw [h1]; exact .unclosed h2 h3 h4 hrun⟩
      · exact ⟨[], .none ht⟩
  exact key _ s (Nat.le_refl _)

/-! ## One step of `code_split` -/

theorem codeStep_shape {text : Str} {ls : Bool} {pre u rest : Str} {st st' : CodeSt} {m : Match}
    (ht : text = pre.reverse ++ (u ++ (m.text ++ rest))) (hi : CodeInv pre st)
    (hm : m.text = List.replicate m.text.length '`')
    (hs : m.start = pre.length + u.length) (he : m.stop = pre.length + u.length + m.text.length)
    (h : codeStep text ls st m = .ok st') :
    (st.openLen = 0 ∧ st'.openLen = m.text.length ∧ ∃ split' plain', Moved st.toks.split u split' plain' ∧
      ((strip plain' = [] ∧ st'.toks.split = split' ++ [m.text] ∧ st'.toks.eval = st.toks.eval ++ [false]) ∨
       (strip plain' ≠ [] ∧ st'.toks.split = split' ++ [strip plain', m.text] ∧
        st'.toks.eval = st.toks.eval ++ [true, false]))) ∨
    (st.openLen ≠ 0 ∧ (∃ zs z, st.toks.split = zs ++ [z] ∧ st'.toks.split = zs ++ [z ++ (u ++ m.text)] ∧
      st'.toks.eval = st.toks.eval ∧ st'.toks.lead = st.toks.lead) ∧
      st'.openLen = if m.text.length = st.openLen then 0 else st.openLen) := by
  have hslice : slice text st.lastEnd m.start = u := by
    rw [hi.lastEnd, hs, ht]
    have := slice_mid pre.reverse u (m.text ++ rest)
    simpa using this
  have hslice2 : slice text st.lastEnd m.stop = u ++ m.text := by
    rw [hi.lastEnd, he, ht]
    have := slice_mid pre.reverse (u ++ m.text) rest
    simpa [Nat.add_assoc] using this
  unfold codeStep at h
  by_cases hopen : st.openLen = 0
  · left
    rw [if_pos (by simp [hopen]), hslice] at h
    obtain ⟨split', plain', hmd, hmv⟩ := moveDot_ok
      (cond := startsSingleDot u && !st.toks.split.isEmpty) (split := st.toks.split) (text := u)
      (by simp; intro h _; exact h) (by simp)
    simp only [hmd, bind, Except.bind] at h
    refine ⟨hopen, by cases h; rfl, split', plain', hmv, ?_⟩
    by_cases hb : strip plain' = []
    · left
      simp only [hb, List.isEmpty_nil, Bool.not_true, Bool.false_eq_true, if_false] at h
      cases h
      exact ⟨hb, by rw [← hm], rfl⟩
    · right
      have hbe : (strip plain').isEmpty = false := by simpa using hb
      simp only [hbe, Bool.not_false, if_true] at h
      cases h
      exact ⟨hb, by simp only [← hm]; simp, by simp⟩
  · right
    rw [if_neg (by simpa using hopen)] at h
    have hsne : st.toks.split ≠ [] := fun h => hopen (hi.started h).2
    obtain ⟨zs, x, hzs, hev⟩ := hi.last hsne
    refine ⟨hopen, ?_⟩
    by_cases hl : m.text.length = st.openLen
    · rw [if_pos (by simpa using hl)] at h
      simp only [hslice, hzs, appendLast_concat, bind, Except.bind] at h
      cases h
      exact ⟨⟨zs, '`' :: x, hzs, by rw [hm, hl], rfl, rfl⟩, by rw [if_pos hl]⟩
    · rw [if_neg (by simpa using hl)] at h
      simp only [hslice2, hzs, appendLast_concat, bind, Except.bind] at h
      cases h
      exact ⟨⟨zs, '`' :: x, hzs, rfl, rfl, rfl⟩, by rw [if_neg hl]⟩

/-- each span is the beginning of a token that is not evaluated further -/
def HasSpans (spans : List Str) (split : List Str) (eval : List Bool) : Prop :=
  ∀ c ∈ spans, ∃ x ∈ split.zip eval, x.2 = false ∧ c <+: x.1

theorem HasSpans.appendLast {spans zs : List Str} {z y : Str} {eval : List Bool} (h : HasSpans spans (zs ++ [z]) eval)
    (hl : eval.length = zs.length + 1) : HasSpans spans (zs ++ [z ++ y]) eval := by
  obtain ⟨es, e, rfl⟩ : ∃ es e, eval = es ++ [e] := by
    rcases List.eq_nil_or_concat eval with h0 | ⟨ls, l, h0⟩
    · rw [h0] at hl; simp at hl
    · exact ⟨ls, l, by rw [h0, List.concat_eq_append]⟩
  have hl2 : es.length = zs.length := by simpa using hl
  intro c hc
  obtain ⟨x, hx, h1, h2⟩ := h c hc
  rw [zip_concat hl2] at hx ⊢
  rcases List.mem_append.1 hx with hx | hx
  · exact ⟨x, List.mem_append_left _ hx, h1, h2⟩
  · simp only [List.mem_singleton] at hx
    subst hx
    exact ⟨(z ++ y, e), by simp, h1, h2.trans (List.prefix_append ..)⟩

theorem HasSpans.add {spans split ss : List Str} {eval es : List Bool} (h : HasSpans spans split eval)
    (hl : eval.length = split.length) : HasSpans spans (split ++ ss) (eval ++ es) := by
  intro c hc
  obtain ⟨x, hx, h1, h2⟩ := h c hc
  exact ⟨x, by rw [List.zip_append hl.symm]; exact List.mem_append_left _ hx, h1, h2⟩

theorem HasSpans.moved {spans split split' : List Str} {eval : List Bool} {t t' : Str} (h : HasSpans spans split eval)
    (hm : Moved split t split' t') (hl : eval.length = split.length) : HasSpans spans split' eval := by
  rcases hm with ⟨rfl, _⟩ | ⟨zs, z, rfl, rfl, _, _⟩
  · exact h
  · exact h.appendLast (by simpa using hl)

theorem codeStep_spans {text : Str} {ls : Bool} {pre u rest : Str} {st st' : CodeSt} {m : Match} {spans : List Str}
    (ht : text = pre.reverse ++ (u ++ (m.text ++ rest))) (hi : CodeInv pre st)
    (hm : m.text = List.replicate m.text.length '`')
    (hs : m.start = pre.length + u.length) (he : m.stop = pre.length + u.length + m.text.length)
    (h : codeStep text ls st m = .ok st') (hsp : HasSpans spans st.toks.split st.toks.eval) :
    HasSpans spans st'.toks.split st'.toks.eval := by
  rcases codeStep_shape ht hi hm hs he h with ⟨_, _, split', plain', hmv, ⟨_, h1, h2⟩ | ⟨_, h1, h2⟩⟩ |
      ⟨_, ⟨zs, z, h1, h2, h3, _⟩, _⟩
  · rw [h1, h2]
    exact (hsp.moved hmv hi.eval).add (by rw [hmv.length]; exact hi.eval)
  · rw [h1, h2]
    exact (hsp.moved hmv hi.eval).add (by rw [hmv.length]; exact hi.eval)
  · rw [h2, h3]
    have hl := hi.eval
    rw [h1] at hsp hl
    exact hsp.appendLast (by simpa using hl)

theorem codeFold_spans {text : Str} {ls : Bool} {pre post : Str} {ms : List Match} {spans : List Str}
    (hf : Rx.Finds codeMarkerRx pre post ms) : ∀ st st', text = pre.reverse ++ post → CodeInv pre st →
    ms.foldlM (codeStep text ls) st = .ok st' → HasSpans spans st.toks.split st.toks.eval →
    HasSpans spans st'.toks.split st'.toks.eval := by
  induction hf with
  | done => intro st st' _ _ h hsp; cases h; exact hsp
  | step h1 h2 hne hs he hrest ih =>
    intro st st' ht hi h hsp
    obtain ⟨st1, hok, hi1⟩ := codeStep_inv (leadingSpace := ls) ht hi (codeMarker_text h2) hne hs he
    simp only [List.foldlM_cons, hok, bind, Except.bind] at h
    exact ih st1 st' (by rw [ht]; simp) hi1 h (codeStep_spans ht hi (codeMarker_text h2) hs he hok hsp)

/-- From inside a code span of `k` backticks the loop gets to the end of the span. -/
theorem codeFold_inside {text : Str} {ls : Bool} {pre post : Str} {ms : List Match} {k : Nat} (hk : 0 < k)
    (hf : Rx.Finds codeMarkerRx pre post ms) : ∀ st st' zs z body rest, text = pre.reverse ++ post → CodeInv pre st →
    ms.foldlM (codeStep text ls) st = .ok st' → st.openLen = k → st.toks.split = zs ++ [z] →
    post = body ++ (ticks k ++ rest) → body ≠ [] → body.head? ≠ some '`' → body.getLast? ≠ some '`' →
    ¬ HasRun k body → rest.head? ≠ some '`' →
    ∃ st1 pre1 ms1, Rx.Finds codeMarkerRx pre1 rest ms1 ∧ text = pre1.reverse ++ rest ∧ CodeInv pre1 st1 ∧
      ms1.foldlM (codeStep text ls) st1 = .ok st' ∧ st1.openLen = 0 ∧
      st1.toks.split = zs ++ [z ++ (body ++ ticks k)] ∧ st1.toks.eval = st.toks.eval ∧
      st1.toks.lead = st.toks.lead := by
  induction hf with
  | done hn =>
    rename_i pre post
    intro st st' zs z body rest ht hi h ho hz hp hb1 hb2 hb3 hb4 hr
    exfalso
    obtain ⟨k, rfl⟩ : ∃ i, k = i + 1 := ⟨k - 1, by omega⟩
    have := Rx.searchFrom_none _ hn body (ticks (k + 1) ++ rest) hp
    have h2 := codeMarker_some (body.reverse ++ pre) (ticks k ++ rest)
    rw [ticks, List.replicate_succ] at this
    simp only [List.cons_append] at this
    rw [this] at h2; cases h2
  | step h1 h2 hne hs he hrest ih =>
    rename_i pre u rest' m ms
    intro st st' zs z body rest ht hi h ho hz hp hb1 hb2 hb3 hb4 hr
    obtain ⟨hu, hr'⟩ := codeFinds_step h1 h2
    have hmt : m.text = ticks m.text.length := codeMarker_text h2
    have hmpos : 0 < m.text.length := List.length_pos_iff.2 hne
    have hr'' : rest'.head? ≠ some '`' := by
      cases rest' with
      | nil => simp
      | cons c r => intro h0; simp at h0; subst h0; exact hr' r rfl
    obtain ⟨st1, hok, hi1⟩ := codeStep_inv (leadingSpace := ls) ht hi hmt hne hs he
    simp only [List.foldlM_cons, hok, bind, Except.bind] at h
    rcases codeStep_shape ht hi hmt hs he hok with ⟨h0, _⟩ | ⟨_, ⟨zs', z', g1, g2, g3, g5⟩, g4⟩
    · omega
    have hzz : zs' = zs ∧ z' = z := by
      rw [hz] at g1
      have := List.append_inj' g1 rfl
      exact ⟨this.1.symm, by simpa using this.2.symm⟩
    obtain ⟨rfl, rfl⟩ := hzz
    by_cases htb : '`' ∈ body
    · obtain ⟨u', j', r', e1, e2, e3, e4⟩ := exists_run htb
      have hr'ne : r' ≠ [] := by
        rintro rfl
        apply hb3
        rw [e1, List.append_nil, List.getLast?_append]
        obtain ⟨i, rfl⟩ : ∃ i, j' = i + 1 := ⟨j' - 1, by omega⟩
        simp [ticks, List.getLast?_replicate]
      have heq : u ++ (ticks m.text.length ++ rest') = u' ++ (ticks j' ++ (r' ++ (ticks k ++ rest))) := by
        rw [← hmt, hp, e1]; simp
      have hhead : (r' ++ (ticks k ++ rest)).head? ≠ some '`' := by
        cases r' with
        | nil => exact absurd rfl hr'ne
        | cons c r' => simpa using e4
      obtain ⟨rfl, hj, hrest'⟩ := run_unique hu e2 hmpos e3 hr'' hhead heq
      have hjk : m.text.length ≠ k := by
        intro hjk
        apply hb4
        refine ⟨u, r', by rw [e1, ← hj, hjk], ?_, e4⟩
        intro h0
        exact e2 (List.mem_of_getLast? h0)
      rw [if_neg (by omega)] at g4
      have hb4' : ¬ HasRun k r' := by
        rintro ⟨x, y, hxy, hx, hy⟩
        apply hb4
        refine ⟨u ++ (ticks j' ++ x), y, by rw [e1, hxy]; simp, ?_, hy⟩
        have hxne : x ≠ [] := by
          rintro rfl
          apply e4
          rw [hxy]
          obtain ⟨i, rfl⟩ : ∃ i, k = i + 1 := ⟨k - 1, by omega⟩
          simp [ticks, List.replicate_succ]
        rw [List.getLast?_append, List.getLast?_append]
        cases hxl : x.getLast? with
        | none => rw [List.getLast?_eq_none_iff] at hxl; exact absurd hxl hxne
        | some c => rw [hxl] at hx; simpa using hx
      have hb3' : r'.getLast? ≠ some '`' := by
        rw [e1, List.getLast?_append, List.getLast?_append] at hb3
        cases hxl : r'.getLast? with
        | none => simp
        | some c => rw [hxl] at hb3; simpa using hb3
      obtain ⟨st2, pre2, ms2, q1, q2, q3, q4, q5, q6, q7, q8⟩ := ih st1 st' zs' (z' ++ (u ++ m.text)) r' rest
        (by rw [ht]; simp) hi1 h (by omega) g2 hrest' hr'ne e4 hb3' hb4' hr
      refine ⟨st2, pre2, ms2, q1, q2, q3, q4, q5, ?_, by rw [q7, g3], by rw [q8, g5]⟩
      rw [q6, e1, ← hj, ← hmt]
      simp
    · have heq : u ++ (ticks m.text.length ++ rest') = body ++ (ticks k ++ rest) := by rw [← hmt, hp]
      obtain ⟨rfl, hj, rfl⟩ := run_unique hu htb hmpos hk hr'' hr heq
      rw [if_pos (by omega)] at g4
      refine ⟨st1, _, ms, hrest, by rw [ht]; simp, hi1, h, g4, ?_, g3, g5⟩
      rw [g2, ← hj, ← hmt]

/-- the loop of `code_split` keeps all closed code spans -/
theorem codeFold_codeSpans {text : Str} {ls : Bool} {post : Str} {spans : List Str} (hsp : CodeSpans post spans) :
    ∀ {pre ms st st'}, Rx.Finds codeMarkerRx pre post ms → text = pre.reverse ++ post → CodeInv pre st →
    ms.foldlM (codeStep text ls) st = .ok st' → st.openLen = 0 → HasSpans spans st'.toks.split st'.toks.eval := by
  induction hsp with
  | none => intro _ _ _ _ _ _ _ _ _ c hc; cases hc
  | unclosed => intro _ _ _ _ _ _ _ _ _ c hc; cases hc
  | span ha hk hb1 hb2 hb3 hb4 hr hrest ih =>
    rename_i a body rest k spans
    intro pre ms st st' hf ht hi h ho
    generalize hpost : a ++ (ticks k ++ (body ++ (ticks k ++ rest))) = post at hf
    cases hf with
    | done hn =>
      exfalso
      obtain ⟨k, rfl⟩ : ∃ i, k = i + 1 := ⟨k - 1, by omega⟩
      have := Rx.searchFrom_none _ hn a (ticks (k + 1) ++ (body ++ (ticks (k + 1) ++ rest))) hpost.symm
      have h2 := codeMarker_some (a.reverse ++ pre) (ticks k ++ (body ++ (ticks (k + 1) ++ rest)))
      simp only [ticks, List.replicate_succ, List.cons_append] at this h2
      rw [this] at h2; cases h2
    | step h1 h2 hne hs he hrest' =>
      rename_i u rest' m ms
      obtain ⟨hu, hr'⟩ := codeFinds_step h1 h2
      have hmt : m.text = ticks m.text.length := codeMarker_text h2
      have hmpos : 0 < m.text.length := List.length_pos_iff.2 hne
      have hr'' : rest'.head? ≠ some '`' := by
        cases rest' with
        | nil => simp
        | cons c r => intro h0; simp at h0; subst h0; exact hr' r rfl
      have hbh : (body ++ (ticks k ++ rest)).head? ≠ some '`' := by
        cases body with
        | nil => exact absurd rfl hb1
        | cons c r => simpa using hb2
      obtain ⟨rfl, hj, hrest2⟩ := run_unique ha hu hk hmpos hbh hr'' (by rw [← hmt]; exact hpost)
      have ht' : text = pre.reverse ++ (a ++ (m.text ++ rest')) := by rw [ht, hpost]
      obtain ⟨st1, hok, hi1⟩ := codeStep_inv (leadingSpace := ls) ht' hi hmt hne hs he
      simp only [List.foldlM_cons, hok, bind, Except.bind] at h
      have hlast : ∃ zs, st1.toks.split = zs ++ [ticks k] ∧ st1.openLen = k ∧ ∃ es, st1.toks.eval = es ++ [false] := by
        rcases codeStep_shape ht' hi hmt hs he hok with ⟨_, g0, split', plain', hmv, ⟨_, g1, g2⟩ | ⟨_, g1, g2⟩⟩ | ⟨g0, _⟩
        · exact ⟨split', by rw [g1, hmt, hj], by rw [g0, hj], _, g2⟩
        · exact ⟨split' ++ [strip plain'], by rw [g1, hj, ← hmt]; simp, by rw [g0, hj], st.toks.eval ++ [true], by rw [g2]; simp⟩
        · exact absurd ho g0
      obtain ⟨zs, g1, g2, es, g3⟩ := hlast
      obtain ⟨st2, pre2, ms2, q1, q2, q3, q4, q5, q6, q7, _⟩ := codeFold_inside hk hrest' st1 st' zs (ticks k) body rest
        (by rw [ht']; simp) hi1 h g2 g1 hrest2.symm hb1 hb2 hb3 hb4 hr
      intro c hc
      rcases List.mem_cons.1 hc with rfl | hc
      · refine codeFold_spans (spans := [ticks k ++ (body ++ ticks k)]) q1 st2 st' q2 q3 q4 ?_ _ (by simp)
        intro c hc
        simp only [List.mem_singleton] at hc
        subst hc
        rw [q6, q7, g3]
        have hl : es.length = zs.length := by
          have := hi1.eval
          rw [g1, g3] at this
          simpa using this
        rw [zip_concat hl]
        exact ⟨(_, false), by simp, rfl, List.prefix_refl _⟩
      · exact ih q1 q2 q3 q4 q5 c hc


/-- the shape of a closed code span -/
def ClosedSpan (c : Str) : Prop :=
  ∃ k body, 0 < k ∧ body ≠ [] ∧ body.head? ≠ some '`' ∧ c = ticks k ++ (body ++ ticks k)

theorem CodeSpans.closed {s : Str} {spans : List Str} (h : CodeSpans s spans) : ∀ c ∈ spans, ClosedSpan c := by
  induction h with
  | none => intro c hc; cases hc
  | unclosed => intro c hc; cases hc
  | span ha hk hb1 hb2 hb3 hb4 hr hrest ih =>
    intro c hc
    rcases List.mem_cons.1 hc with rfl | hc
    · exact ⟨_, _, hk, hb1, hb2, rfl⟩
    · exact ih c hc

theorem searchFrom_none_tick {pre post : Str} (h : codeMarkerRx.searchFrom pre post = none) : '`' ∉ post := by
  intro hm
  obtain ⟨a, b, rfl⟩ := List.append_of_mem hm
  have := Rx.searchFrom_none _ h a ('`' :: b) rfl
  have h2 := codeMarker_some (a.reverse ++ pre) b
  rw [this] at h2; cases h2

theorem markerCount_closed {c x : Str} (hc : ClosedSpan c) (hx : c <+: x) : markerCount x ≠ 1 := by
  obtain ⟨k, body, hk, hb1, hb2, rfl⟩ := hc
  obtain ⟨y, rfl⟩ := hx
  intro h1
  unfold markerCount at h1
  have hf := Rx.finditer_finds codeMarkerRx_nonEmpty (ticks k ++ (body ++ ticks k) ++ y)
  obtain ⟨m, hm⟩ := List.length_eq_one_iff.1 h1
  rw [hm] at hf
  generalize hpost : ticks k ++ (body ++ ticks k) ++ y = post at hf
  cases hf with
  | step h1 h2 hne hs he hrest =>
    rename_i u rest'
    obtain ⟨hu, hr'⟩ := codeFinds_step h1 h2
    have hmt : m.text = ticks m.text.length := codeMarker_text h2
    have hr'' : rest'.head? ≠ some '`' := by
      cases rest' with
      | nil => simp
      | cons c r => intro h0; simp at h0; subst h0; exact hr' r rfl
    have hbh : (body ++ (ticks k ++ y)).head? ≠ some '`' := by
      cases body with
      | nil => exact absurd rfl hb1
      | cons c r => simpa using hb2
    obtain ⟨_, _, h3⟩ := run_unique (u := []) (by simp) hu hk (List.length_pos_iff.2 hne) hbh hr''
      (by rw [← hmt, ← hpost]; simp)
    cases hrest with
    | done hn =>
      apply searchFrom_none_tick hn
      rw [← h3]
      obtain ⟨k, rfl⟩ : ∃ i, k = i + 1 := ⟨k - 1, by omega⟩
      simp [ticks, List.replicate_succ]

theorem codeInv_start : CodeInv [] { toks := { split := [], lead := [], eval := [] }, openLen := 0, lastEnd := 0 } :=
  ⟨rfl, rfl, rfl, by simp, by simp, by simp, by simp, rfl, by simp⟩

/-- the end of `code_split`: either the last token is an unclosed code span and takes the remaining text, or the
remaining text is a token of its own -/
theorem codeSplit_shape {text : Str} {ls : Bool} {t : Toks} (h : codeSplit text ls = .ok t) :
    ∃ st pre post, (codeMarkerRx.finditer text).foldlM (codeStep text ls)
      { toks := { split := [], lead := [], eval := [] }, openLen := 0, lastEnd := 0 } = .ok st ∧
      text = pre.reverse ++ post ∧ CodeInv pre st ∧ '`' ∉ post ∧
    ((∃ zs z es, st.toks.split = zs ++ [z] ∧ st.toks.eval = es ++ [false] ∧ markerCount z = 1 ∧
        t.eval = es ++ [true] ∧ t.split = zs ++ [z ++ (if strip post = [] then [] else rstrip post)]) ∨
     ((∀ z, st.toks.split.getLast? = some z → markerCount z ≠ 1) ∧
      ∃ split' post', Moved st.toks.split post split' post' ∧
        ((strip post' = [] ∧ t.split = split' ∧ t.eval = st.toks.eval) ∨
         (strip post' ≠ [] ∧ t.split = split' ++ [strip post'] ∧ t.eval = st.toks.eval ++ [true])))) := by
  obtain ⟨st, pre, post, hfold, htext, hi, hpost⟩ := codeFold_inv (leadingSpace := ls) (text := text)
    (Rx.finditer_finds codeMarkerRx_nonEmpty text) _ rfl codeInv_start
  refine ⟨st, pre, post, hfold, htext, hi, hpost, ?_⟩
  have hrest : text.drop st.lastEnd = post := by
    rw [hi.lastEnd, htext]
    simp
  unfold codeSplit at h
  simp only [hfold, bind, Except.bind, hrest] at h
  by_cases hcase : st.toks.split.getLast?.any (fun s => markerCount s == 1) = true
  · left
    rw [if_pos hcase] at h
    have hsne : st.toks.split ≠ [] := by rintro h0; rw [h0] at hcase; cases hcase
    obtain ⟨zs, x, hzs, hev⟩ := hi.last hsne
    obtain ⟨es, e, hes⟩ : ∃ es e, st.toks.eval = es ++ [e] := by
      rcases List.eq_nil_or_concat st.toks.eval with h0 | ⟨es, e, h0⟩
      · rw [h0] at hev; cases hev
      · exact ⟨es, e, by rw [h0, List.concat_eq_append]⟩
    have he : e = false := by rw [hes] at hev; simpa using hev
    subst he
    have hmc : markerCount ('`' :: x) = 1 := by rw [hzs] at hcase; simpa using hcase
    refine ⟨zs, '`' :: x, es, hzs, hes, hmc, ?_⟩
    by_cases hb : strip post = []
    · simp only [hb, List.isEmpty_nil, Bool.not_true, Bool.false_eq_true, if_false] at h
      cases h
      refine ⟨by simp only [hes, List.dropLast_concat], by simp [hb, hzs]⟩
    · have hbe : (strip post).isEmpty = false := by simpa using hb
      simp only [hbe, Bool.not_false, if_true, hzs, appendLast_concat] at h
      cases h
      refine ⟨by simp only [hes, List.dropLast_concat], by simp [hb]⟩
  · right
    rw [if_neg hcase] at h
    refine ⟨?_, ?_⟩
    · intro z hz h1
      apply hcase
      rw [hz]; simp [h1]
    · by_cases hd : startsSingleDot post = true ∧ st.toks.split = []
      · simp only [moveDot, hd.1, hd.2, if_true, appendLast_nil] at h
        cases h
      · obtain ⟨split', rem, hmd, hmv⟩ := moveDot_ok (cond := startsSingleDot post)
          (split := st.toks.split) (text := post) (fun h => h) (fun h h' => hd ⟨h, h'⟩)
        simp only [hmd] at h
        refine ⟨split', rem, hmv, ?_⟩
        by_cases hb : strip rem = []
        · simp only [hb, List.isEmpty_nil, Bool.not_true, Bool.false_eq_true, if_false] at h
          cases h
          exact .inl ⟨hb, rfl, rfl⟩
        · have hbe : (strip rem).isEmpty = false := by simpa using hb
          simp only [hbe, Bool.not_false, if_true] at h
          cases h
          exact .inr ⟨hb, rfl, rfl⟩

/-- every closed code span is the beginning of a token that is passed on unchanged -/
theorem codeSplit_spans {text : Str} {ls : Bool} {t : Toks} {spans : List Str} (h : codeSplit text ls = .ok t)
    (hsp : CodeSpans text spans) : HasSpans spans t.split t.eval := by
  obtain ⟨st, pre, post, hfold, htext, hi, hpost, hcase⟩ := codeSplit_shape h
  have hs := codeFold_codeSpans hsp (Rx.finditer_finds codeMarkerRx_nonEmpty text) rfl codeInv_start hfold rfl
  rcases hcase with ⟨zs, z, es, h1, h2, h3, h4, h5⟩ | ⟨_, split', post', hmv, ⟨_, h2, h3⟩ | ⟨_, h2, h3⟩⟩
  · intro c hc
    obtain ⟨x, hx, hx1, hx2⟩ := hs c hc
    have hl : es.length = zs.length := by
      have := hi.eval
      rw [h1, h2] at this
      simpa using this
    rw [h1, h2, zip_concat hl] at hx
    rw [h4, h5, zip_concat hl]
    rcases List.mem_append.1 hx with hx | hx
    · exact ⟨x, List.mem_append_left _ hx, hx1, hx2⟩
    · simp only [List.mem_singleton] at hx
      subst hx
      exact absurd h3 (markerCount_closed (hsp.closed c hc) hx2)
  · rw [h2, h3]
    exact hs.moved hmv hi.eval
  · rw [h2, h3]
    exact (hs.moved hmv hi.eval).add (by rw [hmv.length]; exact hi.eval)

/-! ## Tokens that are evaluated further are pieces of the text -/

theorem rstrip_prefix (s : Str) : rstrip s <+: s := by
  unfold rstrip rstripBy
  have := List.dropWhile_suffix (l := s.reverse) isWs
  simpa using List.reverse_prefix.2 this

theorem lstrip_suffix (s : Str) : lstrip s <:+ s := List.dropWhile_suffix isWs

theorem strip_infix (s : Str) : strip s <:+: s :=
  (rstrip_prefix _).isInfix.trans (lstrip_suffix s).isInfix

/-- the position after `a` is the start of a word or follows a code span -/
def WordStart (a : Str) : Prop := a = [] ∨ ∃ a' c, a = a' ++ [c] ∧ (isWs c = true ∨ c = '`')

/-- `s` is a stretch of the text; if it starts with a single period then at the start of a word or after code -/
def Placed (text s : Str) : Prop :=
  ∃ a b, text = a ++ (s ++ b) ∧ (startsSingleDot s = true → WordStart a ∧ b.head? ≠ some '.')

/-- `s` is a stretch of the text from one backtick to another, possibly with periods moved to its end -/
def CodePiece (text s : Str) : Prop :=
  ∃ y dots, s = y ++ dots ∧ y <:+: text ∧ y.head? = some '`' ∧ y.getLast? = some '`' ∧ ∀ c ∈ dots, c = '.'

/-- what the tokens of `code_split` are -/
def CodeToks (text : Str) (split : List Str) (eval : List Bool) : Prop :=
  ∀ x ∈ split.zip eval, (x.2 = true → Placed text x.1) ∧ (x.2 = false → CodePiece text x.1)

theorem getLast_concat {α : Type} {xs : List α} {e : α} (h : xs.getLast? = some e) : ∃ ys, xs = ys ++ [e] := by
  rcases List.eq_nil_or_concat xs with h0 | ⟨es, x, h0⟩
  · rw [h0] at h; cases h
  · rw [List.concat_eq_append] at h0
    rw [h0] at h
    have : x = e := by simpa using h
    exact ⟨es, by rw [h0, this]⟩

theorem CodePiece.dot {text s : Str} (h : CodePiece text s) : CodePiece text (s ++ c!".") := by
  obtain ⟨y, dots, rfl, h1, h2, h3, h4⟩ := h
  refine ⟨y, dots ++ c!".", by simp, h1, h2, h3, ?_⟩
  intro c hc
  rcases List.mem_append.1 hc with hc | hc
  · exact h4 c hc
  · simpa using hc

theorem CodeToks.moved {text t t' : Str} {split split' : List Str} {eval : List Bool} (h : CodeToks text split eval)
    (hm : Moved split t split' t') (hl : eval.length = split.length) (hlast : split ≠ [] → eval.getLast? = some false) :
    CodeToks text split' eval := by
  rcases hm with ⟨rfl, _⟩ | ⟨zs, z, rfl, rfl, _⟩
  · exact h
  · obtain ⟨es, rfl⟩ := getLast_concat (hlast (by simp))
    have hl2 : es.length = zs.length := by simpa using hl
    intro x hx
    unfold CodeToks at h
    rw [zip_concat hl2] at hx h
    rcases List.mem_append.1 hx with hx | hx
    · exact h x (List.mem_append_left _ hx)
    · simp only [List.mem_singleton] at hx
      subst hx
      exact ⟨by simp, fun _ => ((h (z, false) (by simp)).2 rfl).dot⟩

theorem CodeToks.add {text : Str} {split ss : List Str} {eval es : List Bool} (h : CodeToks text split eval)
    (hl : eval.length = split.length) (h2 : CodeToks text ss es) : CodeToks text (split ++ ss) (eval ++ es) := by
  intro x hx
  rw [List.zip_append hl.symm] at hx
  rcases List.mem_append.1 hx with hx | hx
  · exact h x hx
  · exact h2 x hx

theorem strip_split (s : Str) : ∃ a b, s = a ++ (strip s ++ b) ∧ (∀ c ∈ a, isWs c = true) ∧
    (∀ c ∈ b, isWs c = true) := by
  obtain ⟨a, ha, hw⟩ := lstrip_split s
  obtain ⟨b, hb, hw'⟩ := rstripBy_split isWs (lstrip s)
  refine ⟨a, b, ?_, hw, hw'⟩
  conv => lhs; rw [ha, hb]
  rfl

theorem placed_strip {text p u q plain' : Str} {split split' : List Str} (ht : text = p ++ (u ++ q)) (hp : WordStart p)
    (hq : q.head? ≠ some '.') (hm : Moved split u split' plain') : Placed text (strip plain') := by
  obtain ⟨a, b, hab, hw, hwb⟩ := strip_split plain'
  have hbq : (b ++ q).head? ≠ some '.' := by
    cases b with
    | nil => simpa using hq
    | cons c b =>
      have := hwb c (by simp)
      intro h
      simp at h
      rw [h] at this
      revert this; decide
  have hlast : ∀ x : Str, a ≠ [] → WordStart (x ++ a) := by
    intro x hne
    rcases List.eq_nil_or_concat a with h0 | ⟨a', c, h0⟩
    · exact absurd h0 hne
    · rw [List.concat_eq_append] at h0
      exact .inr ⟨x ++ a', c, by rw [h0]; simp, .inl (hw c (by rw [h0]; simp))⟩
  rcases hm with ⟨_, rfl⟩ | ⟨zs, z, _, _, rfl, hd⟩
  · refine ⟨p ++ a, b ++ q, (by
      rw [ht]
      conv => lhs; rw [hab]
      simp), fun _ => ⟨?_, hbq⟩⟩
    by_cases hne : a = []
    · subst hne; simpa using hp
    · exact hlast p hne
  · refine ⟨p ++ '.' :: a, b ++ q, (by
      rw [ht]
      conv => lhs; rw [hab]
      simp), fun hs => ⟨?_, hbq⟩⟩
    by_cases hne : a = []
    · subst hne
      exfalso
      obtain ⟨r, hr, _⟩ := (startsSingleDot_iff _).1 hs
      apply hd
      rw [hab, hr]; rfl
    · have := hlast (p ++ ['.']) hne
      simpa using this

structure CodeInv2 (text pre : Str) (st : CodeSt) : Prop where
  toks : CodeToks text st.toks.split st.toks.eval
  last : ∀ zs z, st.toks.split = zs ++ [z] → ∃ a, pre.reverse = a ++ z
  edge : pre ≠ [] → ∃ r, pre = '`' :: r

theorem WordStart.of_edge {pre : Str} (h : pre ≠ [] → ∃ r, pre = '`' :: r) : WordStart pre.reverse := by
  by_cases hp : pre = []
  · subst hp; exact .inl rfl
  · obtain ⟨r, rfl⟩ := h hp
    exact .inr ⟨r.reverse, '`', by simp, .inr rfl⟩

theorem codePiece_ticks {text a b : Str} {k : Nat} (hk : 0 < k) (ht : text = a ++ (ticks k ++ b)) :
    CodePiece text (ticks k) := by
  obtain ⟨k, rfl⟩ : ∃ i, k = i + 1 := ⟨k - 1, by omega⟩
  exact ⟨ticks (k + 1), [], by simp, ⟨a, b, by rw [ht]; simp⟩, rfl, by simp [ticks, List.getLast?_replicate], by simp⟩

theorem codeStep_inv2 {text : Str} {ls : Bool} {pre u rest : Str} {st st' : CodeSt} {m : Match}
    (ht : text = pre.reverse ++ (u ++ (m.text ++ rest))) (hi : CodeInv pre st) (hi2 : CodeInv2 text pre st)
    (hm : m.text = ticks m.text.length) (hne : m.text ≠ [])
    (hs : m.start = pre.length + u.length) (he : m.stop = pre.length + u.length + m.text.length)
    (h : codeStep text ls st m = .ok st') : CodeInv2 text (m.text.reverse ++ (u.reverse ++ pre)) st' := by
  have hpos : 0 < m.text.length := List.length_pos_iff.2 hne
  have hlast : st.toks.split ≠ [] → st.toks.eval.getLast? = some false := fun h0 => by
    obtain ⟨_, _, _, h1⟩ := hi.last h0
    exact h1
  have hedge : m.text.reverse ++ (u.reverse ++ pre) ≠ [] → ∃ r, m.text.reverse ++ (u.reverse ++ pre) = '`' :: r := by
    intro _
    obtain ⟨k, hk⟩ : ∃ i, m.text.length = i + 1 := ⟨m.text.length - 1, by omega⟩
    rw [hm, hk, ticks, List.reverse_replicate, List.replicate_succ]
    exact ⟨_, rfl⟩
  have hhd : (m.text ++ rest).head? ≠ some '.' := by
    obtain ⟨k, hk⟩ : ∃ i, m.text.length = i + 1 := ⟨m.text.length - 1, by omega⟩
    rw [hm, hk, ticks, List.replicate_succ]
    simp
  have hmt : CodePiece text m.text := by
    rw [hm]
    exact codePiece_ticks hpos (a := pre.reverse ++ u) (b := rest) (by rw [← hm, ht]; simp)
  rcases codeStep_shape ht hi hm hs he h with ⟨_, _, split', plain', hmv, ⟨_, h1, h2⟩ | ⟨_, h1, h2⟩⟩ |
      ⟨_, ⟨zs, z, h1, h2, h3, _⟩, _⟩
  · have hmi := hi2.toks.moved hmv hi.eval hlast
    refine ⟨?_, ?_, hedge⟩
    · rw [h1, h2]
      refine hmi.add (by rw [hmv.length]; exact hi.eval) ?_
      intro x hx
      simp only [List.zip_cons_cons, List.zip_nil_right, List.mem_cons, List.not_mem_nil, or_false] at hx
      subst hx
      exact ⟨by simp, fun _ => hmt⟩
    · intro zs z hz
      rw [h1] at hz
      have := (List.append_inj' hz rfl).2
      simp only [List.cons.injEq, and_true] at this
      exact ⟨pre.reverse ++ u, by rw [← this]; simp⟩
  · have hmi := hi2.toks.moved hmv hi.eval hlast
    refine ⟨?_, ?_, hedge⟩
    · rw [h1, h2]
      refine hmi.add (by rw [hmv.length]; exact hi.eval) ?_
      intro x hx
      simp only [List.zip_cons_cons, List.zip_nil_right, List.mem_cons, List.not_mem_nil, or_false] at hx
      rcases hx with rfl | rfl
      · exact ⟨fun _ => placed_strip ht (WordStart.of_edge hi2.edge) hhd hmv, by simp⟩
      · exact ⟨by simp, fun _ => hmt⟩
    · intro zs z hz
      rw [h1, show split' ++ [strip plain', m.text] = (split' ++ [strip plain']) ++ [m.text] by simp] at hz
      have := (List.append_inj' hz rfl).2
      simp only [List.cons.injEq, and_true] at this
      exact ⟨pre.reverse ++ u, by rw [← this]; simp⟩
  · obtain ⟨a, ha⟩ := hi2.last zs z h1
    refine ⟨?_, ?_, hedge⟩
    · obtain ⟨zs', x, hzs', _⟩ := hi.last (by rw [h1]; simp)
      have hzx : z = '`' :: x := by
        rw [h1] at hzs'
        simpa using (List.append_inj' hzs' rfl).2
      have hl := hi.eval
      have hinf := hi2.toks
      rw [h1] at hl
      obtain ⟨es, hes⟩ := getLast_concat (hlast (by rw [h1]; simp))
      have hl2 : es.length = zs.length := by rw [hes] at hl; simpa using hl
      unfold CodeToks at hinf
      rw [h1, hes, zip_concat hl2] at hinf
      unfold CodeToks
      rw [h2, h3, hes, zip_concat hl2]
      intro y hy
      rcases List.mem_append.1 hy with hy | hy
      · exact hinf y (List.mem_append_left _ hy)
      · simp only [List.mem_singleton] at hy
        subst hy
        refine ⟨by simp, fun _ => ⟨z ++ (u ++ m.text), [], by simp, ⟨a, rest, by rw [ht, ha]; simp⟩, ?_, ?_, by simp⟩⟩
        · rw [hzx]; rfl
        · rw [← List.append_assoc, List.getLast?_append]
          obtain ⟨k, hk⟩ : ∃ i, m.text.length = i + 1 := ⟨m.text.length - 1, by omega⟩
          rw [hm, hk]
          simp [ticks, List.getLast?_replicate]
    · intro zs' z' hz
      rw [h2] at hz
      have := (List.append_inj' hz rfl).2
      simp only [List.cons.injEq, and_true] at this
      exact ⟨a, by rw [← this]; simp [ha]⟩

theorem codeFold_inv2 {text : Str} {ls : Bool} {pre post : Str} {ms : List Match}
    (hf : Rx.Finds codeMarkerRx pre post ms) : ∀ st st', text = pre.reverse ++ post → CodeInv pre st →
    CodeInv2 text pre st → ms.foldlM (codeStep text ls) st = .ok st' →
    ∃ pre' post', text = pre'.reverse ++ post' ∧ CodeInv pre' st' ∧ CodeInv2 text pre' st' := by
  induction hf with
  | done => intro st st' ht hi hi2 h; cases h; exact ⟨_, _, ht, hi, hi2⟩
  | step h1 h2 hne hs he hrest ih =>
    intro st st' ht hi hi2 h
    obtain ⟨st1, hok, hi1⟩ := codeStep_inv (leadingSpace := ls) ht hi (codeMarker_text h2) hne hs he
    simp only [List.foldlM_cons, hok, bind, Except.bind] at h
    exact ih st1 st' (by rw [ht]; simp) hi1 (codeStep_inv2 ht hi hi2 (codeMarker_text h2) hne hs he hok) h

/-- the tokens of `code_split`: stretches of the text to be evaluated further, and code -/
theorem codeSplit_toks {text : Str} {ls : Bool} {t : Toks} (h : codeSplit text ls = .ok t) :
    CodeToks text t.split t.eval := by
  obtain ⟨st, pre, post, hfold, htext, hi, hpost, hcase⟩ := codeSplit_shape h
  obtain ⟨pre', post', htext', hi', hi2⟩ := codeFold_inv2 (Rx.finditer_finds codeMarkerRx_nonEmpty text) _ st rfl
    codeInv_start ⟨by intro x hx; simp at hx, by simp, by simp⟩ hfold
  have hpre : pre' = pre ∧ post' = post := by
    have hl : pre'.reverse.length = pre.reverse.length := by
      have h1 := hi'.lastEnd
      rw [hi.lastEnd] at h1
      simpa using h1.symm
    have := List.append_inj (htext'.symm.trans htext) hl
    exact ⟨by simpa using this.1, this.2⟩
  obtain ⟨rfl, rfl⟩ := hpre
  have hlast : st.toks.split ≠ [] → st.toks.eval.getLast? = some false := fun h0 => by
    obtain ⟨_, _, _, h1⟩ := hi.last h0
    exact h1
  rcases hcase with ⟨zs, z, es, h1, h2, h3, h4, h5⟩ | ⟨_, split', post1, hmv, ⟨_, h2, h3⟩ | ⟨_, h2, h3⟩⟩
  · have hl : es.length = zs.length := by
      have := hi.eval
      rw [h1, h2] at this
      simpa using this
    have hinf := hi2.toks
    unfold CodeToks at hinf
    rw [h1, h2, zip_concat hl] at hinf
    unfold CodeToks
    rw [h4, h5, zip_concat hl]
    intro x hx
    rcases List.mem_append.1 hx with hx | hx
    · exact hinf x (List.mem_append_left _ hx)
    · simp only [List.mem_singleton] at hx
      subst hx
      obtain ⟨a, ha⟩ := hi2.last zs z h1
      obtain ⟨zs', y, hzs', _⟩ := hi.last (by rw [h1]; simp)
      have hzx : z = '`' :: y := by
        rw [h1] at hzs'
        simpa using (List.append_inj' hzs' rfl).2
      have hdot : ∀ v, startsSingleDot (z ++ v) = true → False := by
        intro v hs
        obtain ⟨r, hr, _⟩ := (startsSingleDot_iff _).1 hs
        rw [hzx] at hr
        simp at hr
      refine ⟨fun _ => ?_, by simp⟩
      dsimp only
      split
      · exact ⟨a, post', by rw [htext, ha]; simp, fun h => (hdot _ h).elim⟩
      · obtain ⟨b, hb⟩ := rstrip_prefix post'
        exact ⟨a, b, by rw [htext, ha]; simp [hb], fun h => (hdot _ h).elim⟩
  · rw [h2, h3]
    exact hi2.toks.moved hmv hi.eval hlast
  · rw [h2, h3]
    refine (hi2.toks.moved hmv hi.eval hlast).add (by rw [hmv.length]; exact hi.eval) ?_
    intro x hx
    simp only [List.zip_cons_cons, List.zip_nil_right, List.mem_cons, List.not_mem_nil, or_false] at hx
    subst hx
    exact ⟨fun _ => placed_strip (q := []) (by rw [htext]; simp) (WordStart.of_edge hi2.edge) (by simp) hmv, by simp⟩

end MF
