import Verif.Lemmas.Inline
/-!
# `code_split` on running text
-/

namespace MF

/-- the gap that a leading-space flag stands for -/
def gapB (l : Bool) : Gap := if l then .space else .glue

/-- Tokens of `wrap` between two passes: finished ones, and text with these tokens that is split further. -/
inductive Cov (R : Str → List Tok → Prop) : List (Str × Bool × Bool) → List Tok → Prop
  | nil : Cov R [] []
  | fixed {s : Str} {l : Bool} {g : Gap} {ps : List (Str × Bool × Bool)} {ts : List Tok} (hg : (g == .space) = l)
      (h : Cov R ps ts) : Cov R ((s, l, false) :: ps) (⟨g, s⟩ :: ts)
  | seg {s t : Str} {l : Bool} {g : Gap} {ps : List (Str × Bool × Bool)} {ts0 ts : List Tok} (hg : (g == .space) = l)
      (hr : R s (⟨.glue, t⟩ :: ts0)) (hs : Stripped s) (hsp : ∀ c ∈ s, isWs c = true → c = ' ') (h : Cov R ps ts) :
      Cov R ((s, l, true) :: ps) (⟨g, t⟩ :: (ts0 ++ ts))

theorem gapB_space (l : Bool) : (gapB l == Gap.space) = l := by cases l <;> rfl

theorem Cov.append {R : Str → List Tok → Prop} {ps qs : List (Str × Bool × Bool)} {ts us : List Tok} (h : Cov R ps ts)
    (h2 : Cov R qs us) : Cov R (ps ++ qs) (ts ++ us) := by
  induction h with
  | nil => exact h2
  | fixed hg h ih => exact .fixed hg ih
  | @seg s t l g ps ts0 ts hg hr hs hsp h ih =>
    have := Cov.seg (l := l) hg hr hs hsp ih
    simpa using this

/-- Text between code spans. -/
def NoCode (s : Str) (ts : List Tok) : Prop := Runs .start s ts ∧ '`' ∉ s ∧ startsSingleDot s = false

/-- the tokens of a list of triples -/
def toksOf (ps : List (Str × Bool × Bool)) : Toks :=
  { split := ps.map (·.1), lead := ps.map (·.2.1), eval := ps.map (·.2.2) }

/-- one token list after the other -/
def Toks.add (t r : Toks) : Toks := { split := t.split ++ r.split, lead := t.lead ++ r.lead, eval := t.eval ++ r.eval }

/-- a period is moved to the last token -/
def Dotted (sp : List Str) (dot : Str) (sp' : List Str) : Prop :=
  (dot = [] ∧ sp' = sp) ∨ (dot = c!"." ∧ ∃ zs z, sp = zs ++ [z] ∧ sp' = zs ++ [z ++ c!"."])

theorem moveDot_dotted {sp sp' : List Str} {dot u : Str} {cond : Bool} (h : Dotted sp dot sp')
    (h0 : dot = [] → cond = false) (h1 : dot = c!"." → cond = true) : moveDot cond sp (dot ++ u) = .ok (sp', u) := by
  rcases h with ⟨rfl, rfl⟩ | ⟨rfl, zs, z, rfl, rfl⟩
  · rw [h0 rfl]; rfl
  · rw [h1 rfl]
    simp only [moveDot, if_true, appendLast_concat, Except.map]
    rfl

theorem no_tick_done {pre post : Str} {ms : List Match} (hf : Rx.Finds codeMarkerRx pre post ms) (h : '`' ∉ post) :
    ms = [] := by
  cases hf with
  | done => rfl
  | step h1 h2 hne hs he hrest =>
    exfalso
    have hmt := codeMarker_text h2
    rename_i u rest m ms
    have : 0 < m.text.length := List.length_pos_iff.2 hne
    apply h
    rw [hmt]
    have h3 := ticks_cons this
    unfold ticks at h3
    rw [h3]
    simp

/-- the end of `code_split` -/
def codeEnd (text : Str) (ls : Bool) (st : CodeSt) : Except Err Toks :=
  let t := st.toks
  let rest := text.drop st.lastEnd
  if t.split.getLast?.any (fun s => markerCount s == 1) then
    let t : Toks := { t with eval := t.eval.dropLast ++ [true] }
    if !(strip rest).isEmpty then do
      let split ← appendLast t.split (rstrip rest)
      .ok { t with split := split }
    else .ok t
  else do
    let (split, remaining) ← moveDot (startsSingleDot rest) t.split rest
    let t : Toks := { t with split := split }
    if !(strip remaining).isEmpty then
      .ok { split := t.split ++ [strip remaining],
            lead := t.lead ++ [if st.lastEnd == 0 then ls else startsWith remaining c!" "],
            eval := t.eval ++ [true] }
    else .ok t

theorem codeSplit_end (text : Str) (ls : Bool) : codeSplit text ls =
    ((codeMarkerRx.finditer text).foldlM (codeStep text ls)
      { toks := { split := [], lead := [], eval := [] }, openLen := 0, lastEnd := 0 }).bind (codeEnd text ls) := rfl

/-- where the loop of `code_split` is between two code spans -/
structure Between (ls : Bool) (st : CodeSt) (dot rest : Str) (sp' : List Str) : Prop where
  dotted : Dotted st.toks.split dot sp'
  head : dot = c!"." → rest.head? ≠ some '.'
  next : startsSingleDot (lstrip rest) = false
  closed : ∀ z, st.toks.split.getLast? = some z → ∃ c, ClosedSpan c ∧ c <+: z
  start : st.toks.split = [] → ls = false ∧ ∀ c, rest.head? = some c → isWs c = false

theorem singleDot_of_lstrip {s : Str} (h : startsSingleDot (lstrip s) = false) : startsSingleDot s = false := by
  cases hs : startsSingleDot s with
  | false => rfl
  | true =>
    obtain ⟨r, rfl, _⟩ := (startsSingleDot_iff s).1 hs
    rw [lstrip_cons_of_not _ _ (by decide), hs] at h
    cases h

theorem Between.move {ls : Bool} {st : CodeSt} {dot u x : Str} {sp' : List Str} (h : Between ls st dot (u ++ x) sp')
    (hx : x.head? ≠ some '.') : startsSingleDot u = false ∧ (dot = c!"." → startsSingleDot (dot ++ u) = true) := by
  refine ⟨?_, ?_⟩
  · by_cases hu : u = []
    · subst hu; rfl
    · rw [← singleDot_append hu hx]; exact singleDot_of_lstrip h.next
  · intro hd
    subst hd
    refine (startsSingleDot_iff _).2 ⟨u, rfl, ?_⟩
    have := h.head rfl
    cases u with
    | nil => simp
    | cons c u => simpa using this

/-- the text in front of a code span, or at the end -/
theorem seg_cov {u x : Str} {t : Tok} {ts : List Tok} (hu : '`' ∉ u) (h : Runs .start u (t :: ts))
    (hsp : ∀ c ∈ u, isWs c = true → c = ' ') (hx : x.head? ≠ some '.') (hd : startsSingleDot (lstrip (u ++ x)) = false) :
    strip u ≠ [] ∧ Cov NoCode [(strip u, startsWith u c!" ", true)] (t :: ts) := by
  refine ⟨h.ne_nil, ?_⟩
  have hst := Stripped.of_strip h.ne_nil
  have h1 : NoCode (strip u) (⟨.glue, t.text⟩ :: ts) := by
    refine ⟨h.strip, fun h => hu (mem_of_mem_strip h), ?_⟩
    have h2 := h.strip.singleDot
    rw [lstrip_strip] at h2
    rw [h2, ← h.singleDot]
    have h3 : lstrip (u ++ x) = lstrip u ++ x := by
      obtain ⟨g, r, hg, hu', _, hst', _⟩ := h.first
      rw [hu', List.append_assoc, lstrip_append_ws _ _ hg, lstrip_append_ws _ _ hg, List.append_assoc,
        lstrip_starts (hst'.starts.append _), lstrip_starts (hst'.starts.append _), List.append_assoc]
    rw [h3, singleDot_append _ hx] at hd
    · exact hd
    · intro h0; exact h.ne_nil ((lstrip_eq_nil_iff_strip u).1 h0)
  have := Cov.seg (gapB_space (startsWith u c!" ")) h1 hst (fun c hc => hsp c (mem_of_mem_strip hc)) .nil
  have hg := h.first_gap hsp
  have ht : t = ⟨gapB (startsWith u c!" "), t.text⟩ := by rw [gapB, ← hg]
  rw [List.append_nil, ← ht] at this
  exact this

theorem strip_blank {k : Ctx} {u : Str} (h : Runs k u []) : strip u = [] := (strip_eq_nil _).2 h.nil_ws

theorem startsWith_nonWs {u : Str} (h : ∀ c, u.head? = some c → isWs c = false) : startsWith u c!" " = false := by
  cases hs : startsWith u c!" " with
  | false => rfl
  | true =>
    obtain ⟨r, rfl⟩ := (startsWith_iff _ _).1 hs
    exact absurd (h ' ' rfl) (by decide)

theorem codeRest {text : Str} {ls : Bool} {k : Ctx} {rest : Str} {ts : List Tok} (hc : Coded k rest ts) : k = .start →
    ∀ {pre dot : Str} {ms : List Match} {st st' : CodeSt} {sp' : List Str}, Rx.Finds codeMarkerRx pre (dot ++ rest) ms →
    text = pre.reverse ++ (dot ++ rest) → CodeInv pre st → st.openLen = 0 → Between ls st dot rest sp' →
    (∀ c ∈ rest, isWs c = true → c = ' ') → ms.foldlM (codeStep text ls) st = .ok st' →
    ∃ ps, codeEnd text ls st' = .ok (Toks.add { st.toks with split := sp' } (toksOf ps)) ∧ Cov NoCode ps ts := by
  induction hc with
  | @last _ u ts hu h =>
    rintro rfl pre dot ms st st' sp' hf ht hi ho hb hsp hfold
    have hdt : '`' ∉ dot ++ u := by
      rcases hb.dotted with ⟨rfl, _⟩ | ⟨rfl, _⟩
      · simpa using hu
      · simpa using hu
    rw [no_tick_done hf hdt] at hfold
    cases hfold
    have hdrop : text.drop st.lastEnd = dot ++ u := by rw [hi.lastEnd, ht]; simp
    have hcase : st.toks.split.getLast?.any (fun s => markerCount s == 1) = false := by
      cases hl : st.toks.split.getLast? with
      | none => rfl
      | some z =>
        obtain ⟨c, hc1, hc2⟩ := hb.closed z hl
        have := markerCount_closed hc1 hc2
        simpa using this
    obtain ⟨hm1, hm2⟩ := Between.move (x := []) (by rw [List.append_nil]; exact hb) (by simp)
    have hmd : moveDot (startsSingleDot (dot ++ u)) st.toks.split (dot ++ u) = .ok (sp', u) :=
      moveDot_dotted hb.dotted (by rintro rfl; exact hm1) hm2
    have hlead : (if st.lastEnd == 0 then ls else startsWith u c!" ") = startsWith u c!" " := by
      by_cases h0 : st.lastEnd = 0
      · rw [if_pos (by simp [h0])]
        have hpre : pre = [] := by rw [hi.lastEnd] at h0; exact List.eq_nil_of_length_eq_zero h0
        have hsplit : st.toks.split = [] := by
          cases hs : st.toks.split with
          | nil => rfl
          | cons z zs =>
            exfalso
            obtain ⟨c, r, hz, _⟩ := (hi.stripped z (by rw [hs]; simp)).starts
            have := hi.chars z (by rw [hs]; simp) c (by rw [hz]; simp)
            rw [hpre] at this; cases this
        obtain ⟨h1, h2⟩ := hb.start hsplit
        rw [h1, startsWith_nonWs h2]
      · rw [if_neg (by simpa using h0)]
    cases ts with
    | nil =>
      refine ⟨[], ?_, .nil⟩
      have hbl : (strip u).isEmpty = true := by rw [strip_blank h]; rfl
      simp only [codeEnd, hcase, Bool.false_eq_true, if_false, hdrop, hmd, bind, Except.bind, hbl, Bool.not_true, toksOf,
        Toks.add, List.map_nil, List.append_nil]
    | cons t ts =>
      obtain ⟨hne, hcov⟩ := seg_cov hu h hsp (x := []) (by simp) (by rw [List.append_nil]; exact hb.next)
      refine ⟨_, ?_, hcov⟩
      have hbl : (strip u).isEmpty = false := by simpa using hne
      simp only [codeEnd, hcase, Bool.false_eq_true, if_false, hdrop, hmd, bind, Except.bind, hbl, Bool.not_false, toksOf,
        Toks.add, List.map_cons, List.map_nil, hlead, if_true]
  | @code _ u body dot2 rest k ts ts2 hu h hs hd hr ih =>
    rintro rfl pre dot ms st st' sp' hf ht hi ho hb hsp hfold
    have hdt : '`' ∉ dot ++ u := by
      rcases hb.dotted with ⟨rfl, _⟩ | ⟨rfl, _⟩
      · simpa using hu
      · simpa using hu
    generalize hpost : dot ++ (u ++ (ticks k ++ (body ++ (ticks k ++ (dot2 ++ rest))))) = post at hf
    cases hf with
    | done hn =>
      exfalso
      apply searchFrom_none_tick hn
      rw [← hpost, ticks_cons hs.pos]
      simp
    | step h1 h2 hne hst hen hrest' =>
      rename_i v rest' m ms
      obtain ⟨hv, hr'⟩ := codeFinds_step h1 h2
      have hmt : m.text = ticks m.text.length := codeMarker_text h2
      have hmpos : 0 < m.text.length := List.length_pos_iff.2 hne
      have hr'' : rest'.head? ≠ some '`' := by
        cases rest' with
        | nil => simp
        | cons c r => intro h0; simp at h0; subst h0; exact hr' r rfl
      have hbh : (body ++ (ticks k ++ (dot2 ++ rest))).head? ≠ some '`' := by
        cases hb0 : body with
        | nil => exact absurd hb0 hs.ne
        | cons c r => have := hs.head; rw [hb0] at this; simpa using this
      have hrest2 : (dot2 ++ rest).head? ≠ some '`' := by
        rcases hd.dot with ⟨rfl, h⟩ | ⟨rfl, h⟩
        · exact h
        · simp
      obtain ⟨hvu, hj, hrr⟩ := run_unique hdt hv hs.pos hmpos hbh hr'' (by rw [← hmt, ← hpost]; simp)
      subst hvu
      have ht' : text = pre.reverse ++ ((dot ++ u) ++ (m.text ++ rest')) := by rw [ht, hpost]
      obtain ⟨st1, hok, hi1⟩ := codeStep_inv (leadingSpace := ls) ht' hi hmt hne hst hen
      simp only [List.foldlM_cons, hok, bind, Except.bind] at hfold
      have hslice : slice text st.lastEnd m.start = dot ++ u := by
        rw [hi.lastEnd, hst, ht']
        have := slice_mid pre.reverse (dot ++ u) (m.text ++ rest')
        simpa using this
      have hx : (ticks k ++ (body ++ (ticks k ++ (dot2 ++ rest)))).head? ≠ some '.' := by
        rw [ticks_cons hs.pos]; simp
      obtain ⟨hm1, hm2⟩ := hb.move hx
      have hmd : moveDot (startsSingleDot (dot ++ u) && !st.toks.split.isEmpty) st.toks.split (dot ++ u) = .ok (sp', u) := by
        refine moveDot_dotted hb.dotted ?_ ?_
        · rintro rfl; simp [hm1]
        · intro h0
          rw [hm2 h0]
          rcases hb.dotted with ⟨h3, _⟩ | ⟨_, zs, z, h3, _⟩
          · rw [h0] at h3; cases h3
          · rw [h3]; simp
      have hsl : st.toks.lead = [] → st.toks.split = [] := by
        intro h0
        have := hi.lead
        rw [h0] at this
        exact List.eq_nil_of_length_eq_zero this.symm
      have huns : st.toks.split = [] → ∀ c, u.head? = some c → isWs c = false := by
        intro h0 c hc
        apply (hb.start h0).2
        cases u with
        | nil => cases hc
        | cons d u => simpa using hc
      -- the state inside the code span
      have hstep : ∃ ps, st1.openLen = k ∧ st1.toks = Toks.add { st.toks with split := sp' }
          (toksOf (ps ++ [(ticks k, endsWith u c!" ", false)])) ∧ Cov NoCode ps ts := by
        unfold codeStep at hok
        rw [if_pos (by simp [ho]), hslice] at hok
        simp only [hmd, bind, Except.bind] at hok
        cases ts with
        | nil =>
          have hbl : (strip u).isEmpty = true := by rw [strip_blank h]; rfl
          simp only [hbl, Bool.not_true, Bool.false_eq_true, if_false, ← hj] at hok
          cases hok
          refine ⟨[], rfl, ?_, .nil⟩
          simp only [Toks.add, toksOf, List.map_cons, List.map_nil, List.nil_append]
          congr 3
          by_cases h0 : st.toks.lead = []
          · rw [if_pos (by simp [h0])]
            have h4 := huns (hsl h0)
            have : u = [] := by
              cases u with
              | nil => rfl
              | cons c u =>
                have h5 := h4 c rfl
                rw [h.nil_ws c (by simp)] at h5; cases h5
            rw [(hb.start (hsl h0)).1, this]
            rfl
          · rw [if_neg (by simpa using h0)]
        | cons t ts =>
          obtain ⟨hne, hcov⟩ := seg_cov hu h (fun c hc => hsp c (by simp [hc])) hx hb.next
          have hbl : (strip u).isEmpty = false := by simpa using hne
          simp only [hbl, Bool.not_false, if_true, ← hj] at hok
          cases hok
          refine ⟨_, rfl, ?_, hcov⟩
          simp only [Toks.add, toksOf, List.map_cons, List.map_nil, List.append_assoc, List.cons_append,
            List.nil_append]
          congr 3
          · by_cases h0 : st.toks.lead = []
            · rw [if_pos (by simp [h0]), (hb.start (hsl h0)).1, startsWith_nonWs (huns (hsl h0))]
            · rw [if_neg (by simpa using h0)]
          · rw [if_neg (by simp)]
      obtain ⟨ps, g2, g1, hcov⟩ := hstep
      have gs : st1.toks.split = (sp' ++ ps.map (·.1)) ++ [ticks k] := by rw [g1]; simp [Toks.add, toksOf]
      obtain ⟨st2, pre2, ms2, q1, q2, q3, q4, q5, q6, q7, q8⟩ := codeFold_inside hs.pos hrest' st1 st' _ (ticks k) body
        (dot2 ++ rest) (by rw [ht']; simp) hi1 hfold g2 gs hrr.symm hs.ne hs.head hs.last hs.noRun hrest2
      -- after the code span
      let z := ticks k ++ (body ++ ticks k)
      have hb2 : Between ls st2 dot2 rest ((sp' ++ ps.map (·.1)) ++ [z ++ dot2]) := by
        refine ⟨?_, ?_, hd.next, ?_, ?_⟩
        · rcases hd.dot with ⟨rfl, _⟩ | ⟨rfl, _⟩
          · exact .inl ⟨rfl, by rw [q6, List.append_nil]⟩
          · exact .inr ⟨rfl, _, z, q6, rfl⟩
        · intro h0
          rcases hd.dot with ⟨rfl, _⟩ | ⟨_, h3⟩
          · cases h0
          · exact h3
        · intro z' hz'
          rw [q6] at hz'
          simp at hz'
          subst hz'
          exact ⟨_, ⟨k, body, hs.pos, hs.ne, hs.head, rfl⟩, List.prefix_refl _⟩
        · intro h0; rw [q6] at h0; simp at h0
      obtain ⟨qs, e1, e2⟩ := ih rfl q1 q2 q3 q5 hb2 (fun c hc => hsp c (by simp [hc])) q4
      refine ⟨ps ++ (z ++ dot2, endsWith u c!" ", false) :: qs, ?_, ?_⟩
      · rw [e1]
        simp only [Toks.add]
        rw [q7, q8, g1]
        simp [Toks.add, toksOf]
      · have := hcov.append (Cov.fixed (s := z ++ dot2) (gapB_space (endsWith u c!" ")) e2)
        simpa [z, gapB] using this

/-- `code_split` on running text -/
theorem codeSplit_cov {s : Str} {ts : List Tok} (h : Inline s ts) :
    ∃ ps, codeSplit s false = .ok (toksOf ps) ∧ Cov NoCode ps ts := by
  obtain ⟨st', pre, post, hfold, _, _, _⟩ := codeFold_inv (leadingSpace := false) (text := s)
    (Rx.finditer_finds codeMarkerRx_nonEmpty s) _ rfl codeInv_start
  have hns : ∀ c, s.head? = some c → isWs c = false := by
    intro c hc
    rcases strip_head s with h0 | ⟨d, r, h0, hd⟩
    · rw [h.stripped] at h0; rw [h0] at hc; cases hc
    · rw [h.stripped] at h0; rw [h0] at hc; cases hc; exact hd
  have hl : lstrip s = s := by rw [← h.stripped]; exact lstrip_strip s
  obtain ⟨ps, h1, h2⟩ := codeRest (text := s) (ls := false) (h.runs.coded h.spaces) rfl (pre := []) (dot := [])
    (sp' := []) (Rx.finditer_finds codeMarkerRx_nonEmpty s) rfl codeInv_start rfl
    ⟨.inl ⟨rfl, rfl⟩, (by intro h; cases h), (by rw [hl]; exact h.noDot), (by intro z hz; cases hz), fun _ => ⟨rfl, hns⟩⟩
    h.spaces hfold
  refine ⟨ps, ?_, h2⟩
  rw [codeSplit_end, hfold]
  exact h1

end MF
