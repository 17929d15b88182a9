import Verif.Lemmas.InlineCode
import Verif.Lemmas.LinkRx
import Verif.Lemmas.WrapLines
/-!
# The text `code_split` passes on to `link_split`
-/

namespace MF

/-- A stretch of text between code spans: a single period that follows a code span directly stays with the span. -/
def plainPiece (after : Bool) (s : Str) : Str := strip (if after && startsSingleDot s then s.drop 1 else s)

/-- `Pieces after s ps`: `ps` are the stretches of `s` outside code spans, in order; `after` says whether `s` follows a
code span. A run of backticks that no run of the same length closes is part of the text behind it if it is the last run,
and otherwise everything up to the last backtick counts as code. -/
inductive Pieces : Bool → Str → List Str → Prop
  | none {b : Bool} {s : Str} : '`' ∉ s → Pieces b s [plainPiece b s]
  | lone {b : Bool} {a rest : Str} {k : Nat} : '`' ∉ a → 0 < k → '`' ∉ rest →
      Pieces b (a ++ (ticks k ++ rest)) [plainPiece b a, ticks k ++ rstrip rest]
  | stray {b : Bool} {a x rest : Str} {k : Nat} : '`' ∉ a → 0 < k → (x ++ '`' :: rest).head? ≠ some '`' →
      ¬ HasRun k (x ++ '`' :: rest) → '`' ∉ rest →
      Pieces b (a ++ (ticks k ++ (x ++ '`' :: rest))) [plainPiece b a, plainPiece true rest]
  | span {b : Bool} {a body rest : Str} {k : Nat} {ps : List Str} : '`' ∉ a → 0 < k → body ≠ [] →
      body.head? ≠ some '`' → body.getLast? ≠ some '`' → ¬ HasRun k body → rest.head? ≠ some '`' → Pieces true rest ps →
      Pieces b (a ++ (ticks k ++ (body ++ (ticks k ++ rest)))) (plainPiece b a :: ps)

/-- a last backtick -/
theorem last_tick {s : Str} (h : '`' ∈ s) : ∃ x rest, s = x ++ '`' :: rest ∧ '`' ∉ rest := by
  induction s with
  | nil => cases h
  | cons c s ih =>
    by_cases hs : '`' ∈ s
    · obtain ⟨x, rest, h1, h2⟩ := ih hs
      exact ⟨c :: x, rest, by rw [h1]; rfl, h2⟩
    · rcases List.mem_cons.1 h with h | h
      · exact ⟨[], s, by rw [← h]; rfl, hs⟩
      · exact absurd h hs

theorem last_tick_unique {x y r s : Str} (h : x ++ '`' :: r = y ++ '`' :: s) (hr : '`' ∉ r) (hs : '`' ∉ s) :
    x = y ∧ r = s := by
  rcases List.append_eq_append_iff.1 h with ⟨a, e1, e2⟩ | ⟨a, e1, e2⟩
  · cases a with
    | nil => simp at e1 e2; exact ⟨e1.symm, e2⟩
    | cons c a =>
      obtain ⟨_, rfl⟩ := List.cons.inj e2
      exact absurd (by simp) hr
  · cases a with
    | nil => simp at e1 e2; exact ⟨e1, e2.symm⟩
    | cons c a =>
      obtain ⟨_, rfl⟩ := List.cons.inj e2
      exact absurd (by simp) hs

/-- every text has its stretches outside code spans -/
theorem pieces_total (b : Bool) (s : Str) : ∃ ps, Pieces b s ps := by
  have key : ∀ n (b : Bool) (s : Str), s.length ≤ n → ∃ ps, Pieces b s ps := by
    intro n
    induction n with
    | zero =>
      intro b s hs
      have : s = [] := by simpa using hs
      subst this
      exact ⟨_, .none (by simp)⟩
    | succ n ih =>
      intro b s hs
      obtain ⟨spans, h⟩ := codeSpans_total s
      generalize hsp : spans = spans' at h
      cases h with
      | none h => exact ⟨_, .none h⟩
      | @unclosed a c k h1 h2 h3 h4 =>
        by_cases hc : '`' ∈ c
        · obtain ⟨x, rest, rfl, h5⟩ := last_tick hc
          exact ⟨_, .stray h1 h2 h3 h4 h5⟩
        · exact ⟨_, .lone h1 h2 hc⟩
      | @span a body rest k spans h1 h2 h3 h4 h5 h6 h7 h8 =>
        have hlen : rest.length ≤ n := by simp at hs; omega
        obtain ⟨ps, hps⟩ := ih true rest hlen
        exact ⟨_, .span h1 h2 h3 h4 h5 h6 h7 hps⟩
  exact key _ b s (Nat.le_refl _)

/-- the tokens that are split further -/
def evs (split : List Str) (eval : List Bool) : List Str := ((split.zip eval).filter (·.2)).map (·.1)

theorem evs_append {s s' : List Str} {e e' : List Bool} (h : e.length = s.length) :
    evs (s ++ s') (e ++ e') = evs s e ++ evs s' e' := by
  unfold evs
  rw [List.zip_append h.symm]
  simp

theorem evs_last {zs : List Str} {z z' : Str} {e : List Bool} (hl : e.length = zs.length + 1)
    (h : e.getLast? = some false) : evs (zs ++ [z]) e = evs (zs ++ [z']) e := by
  obtain ⟨es, x, rfl⟩ : ∃ es x, e = es ++ [x] := by
    rcases List.eq_nil_or_concat e with h0 | ⟨ls, l, h0⟩
    · rw [h0] at hl; simp at hl
    · exact ⟨ls, l, by rw [h0, List.concat_eq_append]⟩
  have hx : x = false := by simpa using h
  subst hx
  have hl2 : es.length = zs.length := by simpa using hl
  rw [evs_append hl2, evs_append hl2]
  rfl

/-- pieces without text are not passed on -/
def nonEmpties (ps : List Str) : List Str := ps.filter (fun p => !p.isEmpty)

theorem evs_moveDot {pre : Str} {st : CodeSt} {cond : Bool} {u u' : Str} {split' : List Str} (hi : CodeInv pre st)
    (h : moveDot cond st.toks.split u = .ok (split', u')) : evs split' st.toks.eval = evs st.toks.split st.toks.eval ∧
      split'.length = st.toks.split.length ∧ u' = if cond then u.drop 1 else u := by
  cases cond with
  | false => cases h; exact ⟨rfl, rfl, rfl⟩
  | true =>
    rcases List.eq_nil_or_concat st.toks.split with h0 | ⟨zs, z, h0⟩
    · rw [h0] at h; cases h
    · rw [List.concat_eq_append] at h0
      rw [h0] at h
      simp only [moveDot, if_true, appendLast_concat, Except.map] at h
      cases h
      have hne : st.toks.split ≠ [] := by rw [h0]; simp
      obtain ⟨_, _, _, hev⟩ := hi.last hne
      have hl := hi.eval
      rw [h0] at hl ⊢
      exact ⟨evs_last (by simpa using hl) hev, by simp, rfl⟩

/-- outside code spans, the text in front of the next backticks is a token to be split further -/
theorem codeStep_evs {text : Str} {ls : Bool} {pre u rest : Str} {st st' : CodeSt} {m : Match}
    (ht : text = pre.reverse ++ (u ++ (m.text ++ rest))) (hi : CodeInv pre st)
    (hm : m.text = List.replicate m.text.length '`') (hs : m.start = pre.length + u.length)
    (ho : st.openLen = 0) (h : codeStep text ls st m = .ok st') :
    evs st'.toks.split st'.toks.eval =
      evs st.toks.split st.toks.eval ++ nonEmpties [plainPiece (!st.toks.split.isEmpty) u] ∧
    st'.openLen = m.text.length ∧ (∃ zs, st'.toks.split = zs ++ [m.text]) := by
  have hslice : slice text st.lastEnd m.start = u := by
    rw [hi.lastEnd, hs, ht]
    have := slice_mid pre.reverse u (m.text ++ rest)
    simpa using this
  unfold codeStep at h
  rw [if_pos (by simp [ho]), hslice] at h
  obtain ⟨split', plain', hmd, hmv⟩ := moveDot_ok
    (cond := startsSingleDot u && !st.toks.split.isEmpty) (split := st.toks.split) (text := u)
    (by simp; intro h _; exact h) (by simp)
  obtain ⟨e1, e2, e3⟩ := evs_moveDot hi hmd
  have hp : strip plain' = plainPiece (!st.toks.split.isEmpty) u := by
    rw [e3]; unfold plainPiece; rw [Bool.and_comm]
  have hl : st.toks.eval.length = split'.length := by rw [e2]; exact hi.eval
  simp only [hmd, bind, Except.bind] at h
  rw [← hp]
  by_cases hb : strip plain' = []
  · simp only [hb, List.isEmpty_nil, Bool.not_true, Bool.false_eq_true, if_false] at h
    cases h
    refine ⟨?_, rfl, split', by simp only [← hm]⟩
    simp only [evs_append hl, e1, hb]
    rfl
  · have hbe : (strip plain').isEmpty = false := by simpa using hb
    simp only [hbe, Bool.not_false, if_true] at h
    cases h
    refine ⟨?_, rfl, split' ++ [strip plain'], by simp only [← hm]⟩
    simp only [List.append_assoc, evs_append hl, e1]
    rw [evs_append rfl]
    simp [evs, nonEmpties, hb]

/-- From inside a code span that nothing closes the loop puts everything up to the last backtick into the token. -/
theorem codeFold_open {text : Str} {ls : Bool} {pre post : Str} {ms : List Match} {k : Nat} (hk : 0 < k)
    (hf : Rx.Finds codeMarkerRx pre post ms) : ∀ st st' zs z, text = pre.reverse ++ post → CodeInv pre st →
    ms.foldlM (codeStep text ls) st = .ok st' → st.openLen = k → st.toks.split = zs ++ [z] →
    post.head? ≠ some '`' → ¬ HasRun k post →
    ∃ x rest, post = x ++ rest ∧ '`' ∉ rest ∧ (x = [] ∨ ∃ y, x = y ++ ['`']) ∧ text.drop st'.lastEnd = rest ∧
      (∃ pre', CodeInv pre' st') ∧ st'.toks.split = zs ++ [z ++ x] ∧ st'.toks.eval = st.toks.eval := by
  induction hf with
  | done hn =>
    rename_i pre post
    intro st st' zs z ht hi h ho hz hh hr
    cases h
    refine ⟨[], post, rfl, searchFrom_none_tick hn, .inl rfl, ?_, ⟨_, hi⟩, by rw [hz]; simp, rfl⟩
    rw [hi.lastEnd, ht]; simp
  | step h1 h2 hne hs he hrest ih =>
    rename_i pre u rest' m ms
    intro st st' zs z ht hi h ho hz hh hr
    obtain ⟨hu, hr'⟩ := codeFinds_step h1 h2
    have hmt : m.text = ticks m.text.length := codeMarker_text h2
    have hmpos : 0 < m.text.length := List.length_pos_iff.2 hne
    have hr'' : rest'.head? ≠ some '`' := by
      cases rest' with
      | nil => simp
      | cons c r => intro h0; simp at h0; subst h0; exact hr' r rfl
    obtain ⟨st1, hok, hi1⟩ := codeStep_inv (leadingSpace := ls) ht hi hmt hne hs he
    simp only [List.foldlM_cons, hok, bind, Except.bind] at h
    rcases codeStep_shape ht hi hmt hs he hok with ⟨h0, _⟩ | ⟨_, ⟨zs', z', g1, g2, g3, g5⟩, g4⟩
    · omega
    have hzz : zs' = zs ∧ z' = z := by
      rw [hz] at g1
      have := List.append_inj' g1 rfl
      exact ⟨this.1.symm, by simpa using this.2.symm⟩
    obtain ⟨rfl, rfl⟩ := hzz
    have hjk : m.text.length ≠ k := by
      intro hjk
      apply hr
      refine ⟨u, rest', by rw [← hjk, ← hmt], ?_, hr''⟩
      intro h0
      exact hu (List.mem_of_getLast? h0)
    rw [if_neg (by omega)] at g4
    have hr3 : ¬ HasRun k rest' := by
      rintro ⟨x, y, hxy, hx, hy⟩
      apply hr
      refine ⟨u ++ (m.text ++ x), y, by rw [hxy]; simp, ?_, hy⟩
      have hxne : x ≠ [] := by
        rintro rfl
        apply hr''
        rw [hxy]
        obtain ⟨i, rfl⟩ : ∃ i, k = i + 1 := ⟨k - 1, by omega⟩
        simp [ticks, List.replicate_succ]
      rw [List.getLast?_append, List.getLast?_append]
      cases hxl : x.getLast? with
      | none => rw [List.getLast?_eq_none_iff] at hxl; exact absurd hxl hxne
      | some c => rw [hxl] at hx; simpa using hx
    obtain ⟨x, rest, q1, q2, q3, q4, q5, q6, q7⟩ := ih st1 st' zs' (z' ++ (u ++ m.text)) (by rw [ht]; simp) hi1 h
      (by omega) g2 hr'' hr3
    refine ⟨u ++ (m.text ++ x), rest, by rw [q1]; simp, q2, .inr ?_, q4, q5, by rw [q6]; simp, by rw [q7, g3]⟩
    rcases q3 with rfl | ⟨y, rfl⟩
    · obtain ⟨i, hi⟩ : ∃ i, m.text.length = i + 1 := ⟨m.text.length - 1, by omega⟩
      refine ⟨u ++ ticks i, ?_⟩
      rw [hmt, hi]
      simp [ticks, List.replicate_succ']
    · exact ⟨u ++ (m.text ++ y), by simp⟩

/-- a token that starts with `k` backticks has one marker exactly if there are no more backticks -/
theorem markerCount_ticks {k : Nat} {w : Str} (hk : 0 < k) (hw : w.head? ≠ some '`') :
    markerCount (ticks k ++ w) = 1 ↔ '`' ∉ w := by
  unfold markerCount
  have hf := Rx.finditer_finds codeMarkerRx_nonEmpty (ticks k ++ w)
  generalize codeMarkerRx.finditer (ticks k ++ w) = ms at hf
  generalize hpost : ticks k ++ w = post at hf
  cases hf with
  | done hn =>
    exfalso
    apply searchFrom_none_tick hn
    rw [← hpost, ticks_cons hk]
    simp
  | step h1 h2 hne hs he hrest =>
    rename_i u rest' m ms
    obtain ⟨hu, hr'⟩ := codeFinds_step h1 h2
    have hmt : m.text = ticks m.text.length := codeMarker_text h2
    have hr'' : rest'.head? ≠ some '`' := by
      cases rest' with
      | nil => simp
      | cons c r => intro h0; simp at h0; subst h0; exact hr' r rfl
    obtain ⟨_, _, h3⟩ := run_unique (u := []) (by simp) hu hk (List.length_pos_iff.2 hne) hw hr''
      (by rw [← hmt, ← hpost]; simp)
    subst h3
    constructor
    · intro hl
      have : ms = [] := by simpa using hl
      subst this
      cases hrest with
      | done hn => exact searchFrom_none_tick hn
    · intro hw
      rw [no_tick_done hrest hw]
      rfl

/-- the end of `code_split` behind a closed code span, or without any -/
theorem codeEnd_evs {text : Str} {ls : Bool} {pre : Str} {st : CodeSt} {t : Toks} (hi : CodeInv pre st)
    (hc : ∀ z, st.toks.split.getLast? = some z → markerCount z ≠ 1) (h : codeEnd text ls st = .ok t) :
    evs t.split t.eval = evs st.toks.split st.toks.eval ++
      nonEmpties [plainPiece (!st.toks.split.isEmpty) (text.drop st.lastEnd)] := by
  unfold codeEnd at h
  simp only at h
  have hcase : ¬ (st.toks.split.getLast?.any (fun s => markerCount s == 1) = true) := by
    cases hz : st.toks.split.getLast? with
    | none => simp
    | some z => simpa using hc z hz
  rw [if_neg hcase] at h
  cases hmd : moveDot (startsSingleDot (text.drop st.lastEnd)) st.toks.split (text.drop st.lastEnd) with
  | error e => simp only [hmd, bind, Except.bind] at h; cases h
  | ok p =>
    obtain ⟨split', rem⟩ := p
    obtain ⟨e1, e2, e3⟩ := evs_moveDot hi hmd
    have hl : st.toks.eval.length = split'.length := by rw [e2]; exact hi.eval
    have hp : strip rem = plainPiece (!st.toks.split.isEmpty) (text.drop st.lastEnd) := by
      rw [e3]; unfold plainPiece
      cases hs : st.toks.split.isEmpty with
      | false => simp
      | true =>
        have hs0 : st.toks.split = [] := by simpa using hs
        cases hd : startsSingleDot (text.drop st.lastEnd) with
        | false => simp
        | true => rw [hs0, hd] at hmd; cases hmd
    rw [← hp]
    simp only [hmd, bind, Except.bind] at h
    by_cases hb : strip rem = []
    · simp only [hb, List.isEmpty_nil, Bool.not_true, Bool.false_eq_true, if_false] at h
      cases h
      simp only [e1, hb]
      simp [nonEmpties]
    · have hbe : (strip rem).isEmpty = false := by simpa using hb
      simp only [hbe, Bool.not_false, if_true] at h
      cases h
      simp only [evs_append hl, e1]
      simp [evs, nonEmpties, hb]

/-- the end of `code_split` behind backticks that are the last ones -/
theorem codeEnd_lone {text : Str} {ls : Bool} {pre : Str} {st : CodeSt} {t : Toks} {zs : List Str} {z : Str}
    (hi : CodeInv pre st) (hz : st.toks.split = zs ++ [z]) (hc : markerCount z = 1) (h : codeEnd text ls st = .ok t) :
    evs t.split t.eval = evs st.toks.split st.toks.eval ++ [z ++ rstrip (text.drop st.lastEnd)] := by
  have hne : st.toks.split ≠ [] := by rw [hz]; simp
  obtain ⟨_, _, _, hev⟩ := hi.last hne
  obtain ⟨es, e, hes⟩ : ∃ es e, st.toks.eval = es ++ [e] := by
    rcases List.eq_nil_or_concat st.toks.eval with h0 | ⟨es, e, h0⟩
    · rw [h0] at hev; cases hev
    · exact ⟨es, e, by rw [h0, List.concat_eq_append]⟩
  have he : e = false := by rw [hes] at hev; simpa using hev
  subst he
  have hl : es.length = zs.length := by
    have := hi.eval
    rw [hz, hes] at this
    simpa using this
  unfold codeEnd at h
  simp only at h
  rw [if_pos (by rw [hz]; simp [hc])] at h
  by_cases hb : strip (text.drop st.lastEnd) = []
  · have hrb : rstrip (text.drop st.lastEnd) = [] := by
      rw [rstrip_eq_nil]; exact (strip_eq_nil _).1 hb
    simp only [hb, List.isEmpty_nil, Bool.not_true, Bool.false_eq_true, if_false] at h
    cases h
    simp only [hz, hes, List.dropLast_concat, evs_append hl, hrb]
    simp [evs]
  · have hbe : (strip (text.drop st.lastEnd)).isEmpty = false := by simpa using hb
    simp only [hbe, Bool.not_false, if_true, hz, appendLast_concat, bind, Except.bind] at h
    cases h
    simp only [hz, hes, List.dropLast_concat, evs_append hl]
    simp [evs]

theorem codeFold_pieces {text : Str} {ls b : Bool} {post : Str} {ps : List Str} (hp : Pieces b post ps) :
    ∀ {pre ms st st' t}, Rx.Finds codeMarkerRx pre post ms → text = pre.reverse ++ post → CodeInv pre st →
    ms.foldlM (codeStep text ls) st = .ok st' → codeEnd text ls st' = .ok t → st.openLen = 0 →
    st.toks.split.isEmpty = !b → (∀ z, st.toks.split.getLast? = some z → markerCount z ≠ 1) →
    evs t.split t.eval = evs st.toks.split st.toks.eval ++ nonEmpties ps := by
  -- the step to the first run of backticks
  have first : ∀ {a w : Str} {k : Nat} {b : Bool} {pre ms st st'}, '`' ∉ a → 0 < k → w.head? ≠ some '`' →
      Rx.Finds codeMarkerRx pre (a ++ (ticks k ++ w)) ms → text = pre.reverse ++ (a ++ (ticks k ++ w)) → CodeInv pre st →
      ms.foldlM (codeStep text ls) st = .ok st' → st.openLen = 0 → st.toks.split.isEmpty = !b →
      ∃ pre1 ms1 st1 zs, Rx.Finds codeMarkerRx pre1 w ms1 ∧ text = pre1.reverse ++ w ∧ CodeInv pre1 st1 ∧
        ms1.foldlM (codeStep text ls) st1 = .ok st' ∧ st1.openLen = k ∧ st1.toks.split = zs ++ [ticks k] ∧
        evs st1.toks.split st1.toks.eval = evs st.toks.split st.toks.eval ++ nonEmpties [plainPiece b a] := by
    intro a w k b pre ms st st' ha hk hw hf ht hi h ho hb
    generalize hpost : a ++ (ticks k ++ w) = post at hf
    cases hf with
    | done hn =>
      exfalso
      apply searchFrom_none_tick hn
      rw [← hpost, ticks_cons hk]
      simp
    | step h1 h2 hne hs he hrest' =>
      rename_i u rest' m ms
      obtain ⟨hu, hr'⟩ := codeFinds_step h1 h2
      have hmt : m.text = ticks m.text.length := codeMarker_text h2
      have hmpos : 0 < m.text.length := List.length_pos_iff.2 hne
      have hr'' : rest'.head? ≠ some '`' := by
        cases rest' with
        | nil => simp
        | cons c r => intro h0; simp at h0; subst h0; exact hr' r rfl
      obtain ⟨rfl, hj, rfl⟩ := run_unique ha hu hk hmpos hw hr'' (by rw [← hmt]; exact hpost)
      have ht' : text = pre.reverse ++ (a ++ (m.text ++ w)) := by rw [ht, hpost]
      obtain ⟨st1, hok, hi1⟩ := codeStep_inv (leadingSpace := ls) ht' hi hmt hne hs he
      simp only [List.foldlM_cons, hok, bind, Except.bind] at h
      obtain ⟨g1, g2, zs, g3⟩ := codeStep_evs ht' hi hmt hs ho hok
      refine ⟨_, ms, st1, zs, hrest', by rw [ht']; simp, hi1, h, by rw [g2, hj], by rw [g3, hj, ← hmt], ?_⟩
      rw [g1, hb]; simp
  have app : ∀ a b : List Str, nonEmpties (a ++ b) = nonEmpties a ++ nonEmpties b := by simp [nonEmpties]
  induction hp with
  | none hs =>
    intro pre ms st st' t hf ht hi h hend ho hb hc
    rw [no_tick_done hf hs] at h
    cases h
    have := codeEnd_evs hi hc hend
    rw [this, hb, hi.lastEnd, ht]
    simp
  | @lone b a rest k ha hk hr =>
    intro pre ms st st' t hf ht hi h hend ho hb hc
    have hw : rest.head? ≠ some '`' := fun h => hr (List.mem_of_mem_head? h)
    obtain ⟨pre1, ms1, st1, zs, q1, q2, q3, q4, q5, q6, q7⟩ := first ha hk hw hf ht hi h ho hb
    rw [no_tick_done q1 hr] at q4
    cases q4
    have hm := (markerCount_ticks (w := []) hk (by simp)).2 (by simp)
    rw [List.append_nil] at hm
    rw [codeEnd_lone q3 q6 hm hend, q7, q3.lastEnd, q2]
    rw [show [plainPiece b a, ticks k ++ rstrip rest] = [plainPiece b a] ++ [ticks k ++ rstrip rest] from rfl, app]
    rw [ticks_cons hk]
    simp [nonEmpties]
  | @stray b a x rest k ha hk hw hrun hr =>
    intro pre ms st st' t hf ht hi h hend ho hb hc
    obtain ⟨pre1, ms1, st1, zs, q1, q2, q3, q4, q5, q6, q7⟩ := first ha hk hw hf ht hi h ho hb
    obtain ⟨x', rest', e1, e2, e3, e4, ⟨pre', e5⟩, e6, e7⟩ := codeFold_open hk q1 st1 st' zs (ticks k) q2 q3 q4 q5 q6 hw hrun
    rcases e3 with rfl | ⟨y, rfl⟩
    · exfalso; apply e2; rw [List.nil_append] at e1; rw [← e1]; simp
    have e1' : x ++ '`' :: rest = y ++ '`' :: rest' := by rw [e1]; simp
    obtain ⟨rfl, rfl⟩ := last_tick_unique e1' hr e2
    have hw' : (x ++ ['`']).head? ≠ some '`' := by
      cases x with
      | nil => simp at hw
      | cons c x => simpa using hw
    have hm : markerCount (ticks k ++ (x ++ ['`'])) ≠ 1 := by
      rw [Ne, markerCount_ticks hk hw']; simp
    have hend' := codeEnd_evs e5 (by intro z hz; rw [e6] at hz; simp at hz; subst hz; exact hm) hend
    have hne : st1.toks.split ≠ [] := by rw [q6]; simp
    obtain ⟨_, _, _, hev⟩ := q3.last hne
    have hl := q3.eval
    rw [q6] at hl
    have hevs : evs st'.toks.split st'.toks.eval = evs st1.toks.split st1.toks.eval := by
      rw [e6, e7, q6]
      exact evs_last (by simpa using hl) hev
    have hne' : st'.toks.split.isEmpty = false := by rw [e6]; simp
    rw [hend', hevs, q7, e4, hne']
    rw [show [plainPiece b a, plainPiece true rest] = [plainPiece b a] ++ [plainPiece true rest] from rfl, app]
    simp
  | @span b a body rest k ps ha hk hb1 hb2 hb3 hb4 hr hrest ih =>
    intro pre ms st st' t hf ht hi h hend ho hb hc
    have hw : (body ++ (ticks k ++ rest)).head? ≠ some '`' := by
      cases body with
      | nil => exact absurd rfl hb1
      | cons c r => simpa using hb2
    obtain ⟨pre1, ms1, st1, zs, q1, q2, q3, q4, q5, q6, q7⟩ := first ha hk hw hf ht hi h ho hb
    obtain ⟨st2, pre2, ms2, r1, r2, r3, r4, r5, r6, r7, _⟩ := codeFold_inside hk q1 st1 st' zs (ticks k) body rest
      q2 q3 q4 q5 q6 rfl hb1 hb2 hb3 hb4 hr
    have hne : st1.toks.split ≠ [] := by rw [q6]; simp
    obtain ⟨_, _, _, hev⟩ := q3.last hne
    have hl := q3.eval
    rw [q6] at hl
    have hevs : evs st2.toks.split st2.toks.eval = evs st1.toks.split st1.toks.eval := by
      rw [r6, r7, q6]
      exact evs_last (by simpa using hl) hev
    have := ih r1 r2 r3 r4 hend r5 (by rw [r6]; simp) (by
      intro z hz
      rw [r6] at hz
      simp only [List.getLast?_append, List.getLast?_singleton, Option.some_or, Option.some.injEq] at hz
      subst hz
      exact markerCount_closed ⟨k, body, hk, hb1, hb2, rfl⟩ (List.prefix_refl _))
    rw [this, hevs, q7, List.append_assoc, ← app]
    rfl

/-- what `code_split` passes on to `link_split` -/
theorem codeSplit_pieces {text : Str} {ls : Bool} {t : Toks} {ps : List Str} (h : codeSplit text ls = .ok t)
    (hp : Pieces false text ps) : evs t.split t.eval = nonEmpties ps := by
  rw [codeSplit_end] at h
  cases hfold : (codeMarkerRx.finditer text).foldlM (codeStep text ls)
      { toks := { split := [], lead := [], eval := [] }, openLen := 0, lastEnd := 0 } with
  | error e => rw [hfold] at h; cases h
  | ok st =>
    rw [hfold] at h
    have := codeFold_pieces hp (Rx.finditer_finds codeMarkerRx_nonEmpty text) rfl codeInv_start hfold h rfl rfl (by simp)
    simpa [evs] using this

/-! ## Links -/

/-- the text has a link or a footnote reference: `[name](target)` or `[name][target]` -/
def HasLink (s : Str) : Prop :=
  ∃ a name target b o c, ((o = '(' ∧ c = ')') ∨ (o = '[' ∧ c = ']')) ∧
    s = a ++ '[' :: (name ++ ']' :: o :: (target ++ c :: b)) ∧ name ≠ [] ∧ '[' ∉ name ∧ target ≠ [] ∧ c ∉ target

theorem linkRx_target {o c : Char} {p post : Str} {m : Match} (h : (linkRx o c).matchAt p post = some m) :
    ∃ pre name target rest, post = pre ++ '[' :: (name ++ ']' :: o :: (target ++ c :: rest)) ∧
      '[' ∉ name ∧ name ≠ [] ∧ c ∉ target ∧ target ≠ [] := by
  obtain ⟨st', hs, _⟩ := Rx.matchAt_sound h
  obtain ⟨s1, h1, s2, h2, s3, h3, s4, h4, s5, h5, s6, h6, s7, h7, h8⟩ := hs
  obtain ⟨u1, c1, a1, _⟩ := repStep_chr h1
  obtain ⟨x2, a2, c2⟩ := chrStep_consumes h2
  obtain ⟨u3, c3, a3, n3, _⟩ := repStep_chr h3
  obtain ⟨x4, a4, c4⟩ := chrStep_consumes h4
  obtain ⟨x5, a5, c5⟩ := chrStep_consumes h5
  obtain ⟨u6, c6, a6, n6, _⟩ := repStep_chr h6
  obtain ⟨x7, a7, c7⟩ := chrStep_consumes h7
  simp only [beq_iff_eq] at a2 a4 a5 a7
  subst a2 a4 a5 a7
  have := (c1.trans (c2.trans (c3.trans (c4.trans (c5.trans (c6.trans c7)))))).1
  simp only at this
  refine ⟨u1, u3, u6, s7.post, ?_, ?_, ?_, ?_, ?_⟩
  · rw [this]; simp
  · intro hm; have := a3 _ hm; simp at this
  · rintro rfl; simp at n3
  · intro hm; have := a6 _ hm; simp at this
  · rintro rfl; simp at n6

theorem linkRx_some {o c : Char} (p : Str) {name target b : Str} (h1 : name ≠ []) (h2 : '[' ∉ name) (h3 : target ≠ [])
    (h4 : c ∉ target) :
    ((linkRx o c).matchAt p ('[' :: (name ++ ']' :: o :: (target ++ c :: b)))).isSome = true := by
  have hn : 1 ≤ name.length := List.length_pos_iff.2 h1
  have ht : 1 ≤ target.length := List.length_pos_iff.2 h3
  have s3 := fun pre post => repStep_chr_intro (p := (· != '[')) name (by intro x hx; simp; rintro rfl; exact h2 hx) hn
    (mx := none) (by intro m hm; cases hm) (pre := pre) (post := post) (caps := [])
  have s6 := fun pre post => repStep_chr_intro (p := (· != c)) target (by intro x hx; simp; rintro rfl; exact h4 hx) ht
    (mx := none) (by intro m hm; cases hm) (pre := pre) (post := post) (caps := [])
  refine Rx.matchAt_isSome (st' := ⟨c :: (target.reverse ++ (o :: (']' :: (name.reverse ++ ('[' :: p))))), b, []⟩) ?_
  refine ⟨_, RepStep.stop _ _, _, ⟨'[', _, rfl, rfl, rfl⟩, _, s3 _ _, _, ⟨']', _, rfl, rfl, rfl⟩, _, ⟨o, _, rfl, by simp, rfl⟩,
    _, s6 _ _, _, ⟨c, _, rfl, by simp, rfl⟩, RepStep.stop _ _⟩

theorem Rx.finditer_nil_iff {r : Rx} (hr : r.NonEmpty) (s : Str) : r.finditer s = [] ↔
    ∀ a b, s = a ++ b → r.matchAt a.reverse b = none := by
  have hf := Rx.finditer_finds hr s
  constructor
  · intro h a b hs
    rw [h] at hf
    cases hf with
    | done hn =>
      have := Rx.searchFrom_none _ hn a b hs
      simpa using this
  · intro h
    generalize r.finditer s = ms at hf
    generalize hpost : s = post at hf
    generalize hpre : ([] : Str) = pre at hf
    cases hf with
    | done => rfl
    | step h1 h2 hne hs he hrest =>
      rename_i u rest m ms
      have := h u _ hpost
      subst hpre
      rw [List.append_nil, this] at h2
      cases h2

theorem linkMatches_nil_iff (s : Str) : linkMatches s = [] ↔ ¬ HasLink s := by
  have hone : ∀ o c, (linkRx o c).finditer s = [] ↔ ¬ ∃ a name target b,
      s = a ++ '[' :: (name ++ ']' :: o :: (target ++ c :: b)) ∧ name ≠ [] ∧ '[' ∉ name ∧ target ≠ [] ∧ c ∉ target := by
    intro o c
    rw [Rx.finditer_nil_iff (linkRx_nonEmpty o c)]
    constructor
    · rintro h ⟨a, name, target, b, hs, h1, h2, h3, h4⟩
      have := h a _ hs
      have h5 := linkRx_some (o := o) a.reverse (b := b) h1 h2 h3 h4
      rw [this] at h5
      cases h5
    · intro h a b hs
      cases hm : (linkRx o c).matchAt a.reverse b with
      | none => rfl
      | some m =>
        exfalso
        obtain ⟨pre, name, target, rest, h1, h2, h3, h4, h5⟩ := linkRx_target hm
        exact h ⟨a ++ pre, name, target, rest, by rw [hs, h1]; simp, h3, h2, h5, h4⟩
  have hms : linkMatches s = [] ↔ footnoteRx.finditer s = [] ∧ urlRx.finditer s = [] := by
    unfold linkMatches
    constructor
    · intro h
      have hall : ∀ m, m ∉ footnoteRx.finditer s ++ urlRx.finditer s := by
        intro m hm
        have := mem_sortMatches.2 hm
        rw [h] at this
        cases this
      have := List.eq_nil_iff_forall_not_mem.2 hall
      exact List.append_eq_nil_iff.1 this
    · rintro ⟨h1, h2⟩
      rw [h1, h2]; rfl
  rw [hms, footnoteRx_eq, urlRx_eq, hone, hone]
  constructor
  · rintro ⟨h1, h2⟩ ⟨a, name, target, b, o, c, hoc | hoc, h⟩
    · obtain ⟨rfl, rfl⟩ := hoc; exact h2 ⟨a, name, target, b, h⟩
    · obtain ⟨rfl, rfl⟩ := hoc; exact h1 ⟨a, name, target, b, h⟩
  · intro h
    exact ⟨fun ⟨a, n, t, b, h'⟩ => h ⟨a, n, t, b, _, _, .inr ⟨rfl, rfl⟩, h'⟩,
      fun ⟨a, n, t, b, h'⟩ => h ⟨a, n, t, b, _, _, .inl ⟨rfl, rfl⟩, h'⟩⟩

/-- when `link_split` fails -/
theorem linkSplit_fails (s : Str) (l : Bool) (e : Err) : linkSplit s l = .error e ↔
    e = .indexError ∧ startsSingleDot s = true ∧ ¬ HasLink s := by
  rw [← linkMatches_nil_iff]
  constructor
  · intro h
    rcases linkSplit_out s l with ⟨t, ht, _⟩ | ⟨h1, h2, h3⟩
    · rw [h] at ht; cases ht
    · rw [h] at h1; cases h1; exact ⟨rfl, h2, h3⟩
  · rintro ⟨rfl, h1, h2⟩
    unfold linkSplit
    rw [show sortMatches (footnoteRx.finditer s ++ urlRx.finditer s) = [] from h2]
    simp [moveDot, h1, appendLast, bind, Except.bind, pure, Except.pure, Except.map]

/-- a pass fails exactly if its function fails on a token to be split -/
theorem splitPass_fails {func : Str → Bool → Except Err Toks} {bad : Str → Prop} {e : Err} {t : Toks} (hw : t.WF)
    (hf : ∀ s l e', func s l = .error e' ↔ e' = e ∧ bad s) (e' : Err) :
    splitPass func t = .error e' ↔ e' = e ∧ ∃ p ∈ evs t.split t.eval, bad p := by
  have key : ∀ ps : List (Str × Bool × Bool), applySplit func ps = .error e' ↔
      e' = e ∧ ∃ x ∈ ps, x.2.2 = true ∧ bad x.1 := by
    intro ps
    induction ps with
    | nil =>
      constructor
      · intro h; cases h
      · rintro ⟨_, x, hx, _⟩; cases hx
    | cons p ps ih =>
      obtain ⟨s, l, ev⟩ := p
      have hrest : ∀ t1 : Toks, (do
          let r ← applySplit func ps
          .ok { split := t1.split ++ r.split, lead := t1.lead ++ r.lead, eval := t1.eval ++ r.eval } : Except Err Toks) =
          .error e' ↔ applySplit func ps = .error e' := by
        intro t1
        cases applySplit func ps with
        | error e2 => exact Iff.rfl
        | ok r => constructor <;> intro h <;> cases h
      unfold applySplit
      cases ev with
      | false =>
        refine (hrest _).trans (ih.trans ?_)
        constructor
        · rintro ⟨h1, x, hx, h2⟩; exact ⟨h1, x, by simp [hx], h2⟩
        · rintro ⟨h1, x, hx, h2⟩
          rcases List.mem_cons.1 hx with rfl | hx
          · cases h2.1
          · exact ⟨h1, x, hx, h2⟩
      | true =>
        simp only [if_true]
        cases hfe : func s l with
        | error e2 =>
          obtain ⟨rfl, hb⟩ := (hf s l e2).1 hfe
          constructor
          · intro h; cases h; exact ⟨rfl, _, List.mem_cons_self .., rfl, hb⟩
          · rintro ⟨rfl, _⟩; rfl
        | ok t1 =>
          refine (hrest t1).trans (ih.trans ?_)
          constructor
          · rintro ⟨h1, x, hx, h2⟩; exact ⟨h1, x, by simp [hx], h2⟩
          · rintro ⟨h1, x, hx, h2⟩
            rcases List.mem_cons.1 hx with rfl | hx
            · have := (hf s l e).2 ⟨rfl, h2.2⟩
              rw [hfe] at this; cases this
            · exact ⟨h1, x, hx, h2⟩
  have htr : ∀ p, (∃ x ∈ t.triples, x.2.2 = true ∧ x.1 = p) ↔ p ∈ evs t.split t.eval := by
    intro p
    unfold evs
    rw [← triples_evals t hw]
    simp only [List.mem_map, List.mem_filter]
    constructor
    · rintro ⟨x, hx, h1, h2⟩
      exact ⟨(x.1, x.2.2), ⟨⟨x, hx, rfl⟩, h1⟩, h2⟩
    · rintro ⟨y, ⟨⟨x, hx, rfl⟩, h1⟩, h2⟩
      exact ⟨x, hx, h1, h2⟩
  refine (key _).trans ?_
  constructor
  · rintro ⟨h1, x, hx, h2, h3⟩
    exact ⟨h1, x.1, (htr _).1 ⟨x, hx, h2, rfl⟩, h3⟩
  · rintro ⟨h1, p, hp, h3⟩
    obtain ⟨x, hx, h2, rfl⟩ := (htr p).2 hp
    exact ⟨h1, x, hx, h2, h3⟩

/-- when splitting a text into words fails -/
theorem wrapToks_fails {text : Str} {ps : List Str} (hp : Pieces false text ps) (e : Err) :
    wrapToks text = .error e ↔ e = .indexError ∧ (('`' ∉ text ∧ startsSingleDot text = true) ∨
      ∃ p ∈ ps, startsSingleDot p = true ∧ ¬ HasLink p) := by
  have hany : ∀ t : Toks, t.All (fun _ => True) := fun _ _ _ => trivial
  simp only [wrapToks, bind, Except.bind]
  rcases codeSplit_out text false with ⟨t1, h1, ho⟩ | ⟨h1, h2, h3⟩
  · have hfirst : splitPass codeSplit { split := [text], lead := [false], eval := [true] } = .ok t1 := by
      simp [splitPass, applySplit, bind, Except.bind, h1]
    rw [hfirst]
    simp only
    obtain ⟨w1, _, _⟩ := codeSplit_all h1
    have hpass := splitPass_fails (t := t1) (bad := fun p => startsSingleDot p = true ∧ ¬ HasLink p) (e := .indexError) w1
      linkSplit_fails
    rw [codeSplit_pieces h1 hp] at hpass
    have hno : ¬ ('`' ∉ text ∧ startsSingleDot text = true) := by
      rintro ⟨h2, h3⟩
      rw [codeSplit_dot h2 h3] at h1
      cases h1
    have hmem : (∃ p ∈ nonEmpties ps, startsSingleDot p = true ∧ ¬ HasLink p) ↔
        ∃ p ∈ ps, startsSingleDot p = true ∧ ¬ HasLink p := by
      constructor
      · rintro ⟨p, hp, h⟩; exact ⟨p, (List.mem_filter.1 hp).1, h⟩
      · rintro ⟨p, hp, h⟩
        refine ⟨p, List.mem_filter.2 ⟨hp, ?_⟩, h⟩
        obtain ⟨r, rfl, _⟩ := (startsSingleDot_iff p).1 h.1
        rfl
    rw [hmem] at hpass
    cases hl : splitPass linkSplit t1 with
    | error e1 =>
      simp only
      obtain ⟨rfl, h⟩ := (hpass e1).1 hl
      constructor
      · intro h'; cases h'; exact ⟨rfl, .inr h⟩
      · rintro ⟨rfl, _⟩; rfl
    | ok t2 =>
      simp only
      have hn : ¬ ∃ p ∈ ps, startsSingleDot p = true ∧ ¬ HasLink p := by
        intro h
        rw [(hpass .indexError).2 ⟨rfl, h⟩] at hl
        cases hl
      constructor
      · intro h
        exfalso
        split at h
        · rename_i e1 h3
          obtain ⟨s, l, _, h3⟩ := splitPass_error (hany _) h3
          obtain ⟨t', h', _⟩ := newlineSplit_out s l
          rw [h3] at h'; cases h'
        · obtain ⟨s, l, _, h3⟩ := splitPass_error (hany _) h
          simp [spaceSplit] at h3
      · rintro ⟨_, h | h⟩
        · exact absurd h hno
        · exact absurd h hn
  · have hfirst : splitPass codeSplit { split := [text], lead := [false], eval := [true] } = .error .indexError := by
      simp [splitPass, applySplit, bind, Except.bind, h1]
    rw [hfirst]
    constructor
    · intro h; cases h; exact ⟨rfl, .inl ⟨h3, h2⟩⟩
    · rintro ⟨rfl, _⟩; rfl

end MF
