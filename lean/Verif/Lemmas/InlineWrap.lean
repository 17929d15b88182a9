import Verif.Lemmas.InlineLink
/-!
# The other passes of `wrap` on running text
-/

namespace MF

/-! ## One pass -/

theorem toksOf_triples (ps : List (Str × Bool × Bool)) :
    (toksOf ps).split.zip ((toksOf ps).lead.zip (toksOf ps).eval) = ps := by
  induction ps with
  | nil => rfl
  | cons p ps ih =>
    simp only [toksOf, List.map_cons, List.zip_cons_cons] at ih ⊢
    rw [ih]

theorem toksOf_append (ps qs : List (Str × Bool × Bool)) : toksOf (ps ++ qs) = (toksOf ps).add (toksOf qs) := by
  simp [toksOf, Toks.add]

/-- the tokens with the gap that a leading-space flag stands for -/
theorem Cov.gap {R : Str → List Tok → Prop} {l : Bool} {g : Gap} {t : Str} {ps : List (Str × Bool × Bool)} {ts : List Tok}
    (h : Cov R ps (⟨gapB l, t⟩ :: ts)) (hg : (g == .space) = l) : Cov R ps (⟨g, t⟩ :: ts) := by
  generalize hts : (⟨gapB l, t⟩ :: ts : List Tok) = us at h
  cases h with
  | nil => cases hts
  | fixed hg' h =>
    cases hts
    rw [gapB_space] at hg'
    subst hg'
    exact .fixed hg h
  | seg hg' hr hs hsp h =>
    cases hts
    rw [gapB_space] at hg'
    subst hg'
    exact .seg hg hr hs hsp h

/-- a pass that splits every stretch of text splits all of them -/
theorem splitPass_cov {R R' : Str → List Tok → Prop} {func : Str → Bool → Except Err Toks}
    (hf : ∀ s t l ts, R s (⟨.glue, t⟩ :: ts) → Stripped s → (∀ c ∈ s, isWs c = true → c = ' ') →
      ∃ qs, func s l = .ok (toksOf qs) ∧ Cov R' qs (⟨gapB l, t⟩ :: ts))
    {ps : List (Str × Bool × Bool)} {ts : List Tok} (h : Cov R ps ts) :
    ∃ qs, splitPass func (toksOf ps) = .ok (toksOf qs) ∧ Cov R' qs ts := by
  unfold splitPass
  rw [toksOf_triples]
  induction h with
  | nil => exact ⟨[], rfl, .nil⟩
  | @fixed s l g ps ts hg h ih =>
    obtain ⟨qs, h1, h2⟩ := ih
    refine ⟨(s, l, false) :: qs, ?_, .fixed hg h2⟩
    simp only [applySplit, Bool.false_eq_true, if_false, bind, Except.bind, h1]
    rfl
  | @seg s t l g ps ts0 ts hg hr hs hsp h ih =>
    obtain ⟨qs, h1, h2⟩ := ih
    obtain ⟨rs, h3, h4⟩ := hf s t l ts0 hr hs hsp
    refine ⟨rs ++ qs, ?_, ?_⟩
    · simp only [applySplit, if_true, bind, Except.bind, h1, h3, toksOf_append]
      rfl
    · have := (h4.gap hg).append h2
      simpa using this

/-! ## Line breaks -/

theorem br_first {pre b rest : Str} (h : IsBr b) : ∃ m, htmlNewlineRx.matchAt pre (b ++ rest) = some m ∧ m.text = b := by
  have hs : (htmlNewlineRx.matchAt pre (b ++ rest)).isSome = true := by
    rcases h with rfl | rfl | rfl | rfl
    · exact Rx.matchAt_isSome (st' := ⟨'>' :: 'r' :: 'b' :: '<' :: pre, rest, []⟩)
        ⟨_, ⟨_, _, rfl, rfl, rfl⟩, _, ⟨_, _, rfl, rfl, rfl⟩, _, ⟨_, _, rfl, rfl, rfl⟩, _, .stop _ _, _, .stop _ _,
          ⟨_, _, rfl, rfl, rfl⟩⟩
    · exact Rx.matchAt_isSome (st' := ⟨'>' :: '/' :: 'r' :: 'b' :: '<' :: pre, rest, []⟩)
        ⟨_, ⟨_, _, rfl, rfl, rfl⟩, _, ⟨_, _, rfl, rfl, rfl⟩, _, ⟨_, _, rfl, rfl, rfl⟩, _, .stop _ _, _,
          .more (by simp) ⟨_, _, rfl, rfl, rfl⟩ (by simp) (.stop _ _), ⟨_, _, rfl, rfl, rfl⟩⟩
    · exact Rx.matchAt_isSome (st' := ⟨'>' :: ' ' :: 'r' :: 'b' :: '<' :: pre, rest, []⟩)
        ⟨_, ⟨_, _, rfl, rfl, rfl⟩, _, ⟨_, _, rfl, rfl, rfl⟩, _, ⟨_, _, rfl, rfl, rfl⟩, _,
          .more (by simp) ⟨_, _, rfl, rfl, rfl⟩ (by simp) (.stop _ _), _, .stop _ _, ⟨_, _, rfl, rfl, rfl⟩⟩
    · exact Rx.matchAt_isSome (st' := ⟨'>' :: '/' :: ' ' :: 'r' :: 'b' :: '<' :: pre, rest, []⟩)
        ⟨_, ⟨_, _, rfl, rfl, rfl⟩, _, ⟨_, _, rfl, rfl, rfl⟩, _, ⟨_, _, rfl, rfl, rfl⟩, _,
          .more (by simp) ⟨_, _, rfl, rfl, rfl⟩ (by simp) (.stop _ _), _,
          .more (by simp) ⟨_, _, rfl, rfl, rfl⟩ (by simp) (.stop _ _), ⟨_, _, rfl, rfl, rfl⟩⟩
  obtain ⟨m, hm⟩ := Option.isSome_iff_exists.1 hs
  refine ⟨m, hm, ?_⟩
  have h2 := br_text hm
  obtain ⟨r, hr, _⟩ := Rx.matchAt_shape hm
  rcases h with rfl | rfl | rfl | rfl <;> rcases h2 with h2 | h2 | h2 | h2 <;> rw [h2] at hr ⊢ <;> simp at hr

/-- no match where there is no tag -/
theorem br_none {pre post : Str} (h : ¬ c!"<br" <:+: post) : htmlNewlineRx.matchAt pre post = none := by
  cases hm : htmlNewlineRx.matchAt pre post with
  | none => rfl
  | some m =>
    exfalso
    obtain ⟨r, hr, _⟩ := Rx.matchAt_shape hm
    obtain ⟨x, hx⟩ := (br_text hm).tag
    exact h ⟨[], x ++ r, by rw [hr, hx]; simp⟩

/-- The text between line breaks, and the line breaks. -/
inductive Broken : Str → List Tok → Prop
  | last {u : Str} {ts : List Tok} (hu : ¬ c!"<br" <:+: u) (h : Bare u ts) : Broken u ts
  | br {u b rest : Str} {ts ts2 : List Tok} (hu : ¬ c!"<br" <:+: u) (h : Bare u ts) (hb : IsBr b) (hr : Broken rest ts2) :
      Broken (u ++ (b ++ rest)) (ts ++ ⟨if endsWith u c!" " then .space else .glue, b⟩ :: ts2)

theorem ws_noTag {g : Str} (hg : ∀ c ∈ g, isWs c = true) : '<' ∉ g := fun h => by
  have := hg _ h; revert this; decide

/-- the end of a word, in front of a line break -/
theorem WordEnd.cutBr {u b x : Str} (hb : IsBr b) (h : WordEnd (u ++ (b ++ x))) : WordEnd u := by
  cases u with
  | nil => exact .inl rfl
  | cons c u =>
    rcases h with h | ⟨d, r, h, hd⟩ | ⟨b', r, h, hb'⟩
    · cases h
    · cases h; exact .inr (.inl ⟨_, _, rfl, hd⟩)
    · rcases List.append_eq_append_iff.1 h with ⟨a, e1, e2⟩ | ⟨a, e1, e2⟩
      · cases a with
        | nil => exact .inr (.inr ⟨b', [], by simpa using e1.symm, hb'⟩)
        | cons y a =>
          exfalso
          have hy : y = '<' := by
            obtain ⟨z, hz⟩ := hb.tag
            rw [hz] at e2
            exact (List.cons.inj e2).1.symm
          subst hy
          rcases hb' with rfl | rfl | rfl | rfl <;> (simp at e1; have := congrArg ('<' ∈ ·) e1.2; simp at this)
      · exact .inr (.inr ⟨b', a, e1, hb'⟩)

theorem Bare.broken {s : Str} {ts : List Tok} (h : Bare s ts) (hsp : ∀ c ∈ s, isWs c = true → c = ' ') :
    Broken s ts := by
  induction h with
  | nil h => exact .last (fun h0 => ws_noTag h (tag_mem h0)) (.nil h)
  | @word g w rest ts hg hw hr h ih =>
    have key : ∀ u, WordEnd u → ¬ c!"<br" <:+: u → ¬ c!"<br" <:+: g ++ (w ++ u) := by
      intro u hwe hu h0
      rcases tag_append h0 with h0 | h0 | ⟨h0, _⟩
      · exact ws_noTag hg (tag_mem h0)
      · rcases tag_append h0 with h0 | h0 | ⟨_, h0⟩
        · exact hw.noBr h0
        · exact hu h0
        · rcases h0 with h0 | h0
          · have := hwe.head _ h0; revert this; decide
          · have := hwe.head _ h0; revert this; decide
      · exact ws_noTag hg h0
    cases ih fun c hc => hsp c (by simp [hc]) with
    | last hu hu2 => exact .last (key _ hr hu) (.word hg hw hr hu2)
    | @br u b rest ts ts2 hu hu2 hb hr' =>
      have h1 : Bare (g ++ (w ++ u)) (⟨gapOf g, w⟩ :: ts) := .word hg hw (hr.cutBr hb) hu2
      have h2 := Broken.br (key u (hr.cutBr hb) hu) h1 hb hr'
      have e : endsWith (g ++ (w ++ u)) c!" " = endsWith u c!" " := by
        by_cases hu0 : u = []
        · subst hu0
          rw [List.append_nil, endsWith_nonWs ((Stripped.noWs hw.ne hw.noWs).ends.prepend g)]
          rfl
        · rw [← List.append_assoc, endsWith_append hu0]
      rw [e] at h2
      simpa using h2
  | @br g b rest ts hg hb h ih =>
    have h2 := Broken.br (fun h0 => ws_noTag hg (tag_mem h0)) (.nil hg) hb
      (ih fun c hc => hsp c (by simp [hc]))
    have e : gapOf g = if endsWith g c!" " then .space else .glue := by
      rcases List.eq_nil_or_concat g with h0 | ⟨x, c, h0⟩
      · subst h0; rfl
      · have hc := hsp c (by rw [h0]; simp) (hg c (by rw [h0]; simp))
        subst hc
        rw [h0, List.concat_eq_append, (endsWith_iff _ _).2 ⟨x, rfl⟩]
        cases x <;> rfl
    rw [e]
    simpa using h2

/-- Text between line breaks. -/
def NoBr (s : Str) (ts : List Tok) : Prop := Bare s ts ∧ '`' ∉ s ∧ ¬ c!"<br" <:+: s

/-- the first line break found -/
theorem br_find {pre u b rest : Str} {ms : List Match} (hu : ¬ c!"<br" <:+: u) (hb : IsBr b)
    (hf : Rx.Finds htmlNewlineRx pre (u ++ (b ++ rest)) ms) :
    ∃ m ms', ms = m :: ms' ∧ m.text = b ∧ m.start = pre.length + u.length ∧
      m.stop = pre.length + u.length + b.length ∧ Rx.Finds htmlNewlineRx (b.reverse ++ (u.reverse ++ pre)) rest ms' := by
  generalize hpost : u ++ (b ++ rest) = post at hf
  cases hf with
  | done hn =>
    exfalso
    obtain ⟨m, hm, _⟩ := br_first (pre := u.reverse ++ pre) (rest := rest) hb
    rw [Rx.searchFrom_none _ hn u (b ++ rest) hpost.symm] at hm
    cases hm
  | step h1 h2 hne hs he hrest =>
    rename_i v rest' m ms
    have hvu : v = u := by
      rcases List.append_eq_append_iff.1 hpost with ⟨a, e1, e2⟩ | ⟨a, e1, e2⟩
      · cases a with
        | nil => simpa using e1
        | cons c a =>
          exfalso
          obtain ⟨m', hm', _⟩ := br_first (pre := u.reverse ++ pre) (rest := rest) hb
          have := h1 u a c e1
          rw [← e2, hm'] at this
          cases this
      · cases a with
        | nil => simpa using e1.symm
        | cons c a =>
          exfalso
          obtain ⟨z, hz⟩ := (br_text h2).tag
          obtain ⟨y, hy⟩ := hb.tag
          rw [hz, hy] at e2
          have h3 : c!"<br" <:+: (c :: a) ++ (c!"<br" ++ y ++ rest) := ⟨[], z ++ rest', by rw [← e2]; simp⟩
          simp only [List.cons_append, List.nil_append, List.cons.injEq] at e2
          obtain ⟨rfl, e2⟩ := e2
          cases a with
          | nil => simp at e2
          | cons d a =>
            simp only [List.cons_append, List.cons.injEq] at e2
            obtain ⟨rfl, e2⟩ := e2
            cases a with
            | nil => simp at e2
            | cons d a =>
              simp only [List.cons_append, List.cons.injEq] at e2
              obtain ⟨rfl, e2⟩ := e2
              exact hu ⟨v, a, by rw [e1]; simp⟩
    subst hvu
    have hbr := List.append_cancel_left hpost
    obtain ⟨m', hm', hm2⟩ := br_first (pre := v.reverse ++ pre) (rest := rest) hb
    have hmm : m' = m := by
      rw [hbr, h2] at hm'
      exact (Option.some.inj hm').symm
    subst hmm
    rw [hm2] at hbr he hrest
    have hrr := List.append_cancel_left hbr
    subst hrr
    exact ⟨m', ms, rfl, hm2, hs, he, hrest⟩

/-- the end of `newline_split` -/
def brEnd (text : Str) (ls : Bool) (st : LinkSt) : Toks :=
  let t := st.toks
  let rest := text.drop st.lastEnd
  if !(strip rest).isEmpty then
    { split := t.split ++ [strip rest],
      lead := t.lead ++ [if st.lastEnd == 0 then ls else startsWith rest c!" "],
      eval := t.eval ++ [true] }
  else t

theorem newlineSplit_end (text : Str) (ls : Bool) : newlineSplit text ls =
    .ok (brEnd text ls ((htmlNewlineRx.finditer text).foldl (newlineStep text ls)
      { toks := { split := [], lead := [], eval := [] }, lastEnd := 0 })) := by
  unfold newlineSplit brEnd
  dsimp only
  split <;> rfl

/-- the leading-space flag of the next token of `newline_split` -/
def brLead (ls : Bool) (st : LinkSt) (s : Str) : Bool := if st.toks.lead = [] then ls else startsWith s c!" "

theorem seg_cov_br {u : Str} {t : Tok} {ts : List Tok} {l : Bool} (ht : '`' ∉ u) (hu : ¬ c!"<br" <:+: u)
    (h : Bare u (t :: ts)) (hsp : ∀ c ∈ u, isWs c = true → c = ' ') :
    strip u ≠ [] ∧ Cov NoBr [(strip u, l, true)] (⟨gapB l, t.text⟩ :: ts) := by
  refine ⟨h.ne_nil, ?_⟩
  have hq : NoBr (strip u) (⟨.glue, t.text⟩ :: ts) :=
    ⟨h.strip, fun h => ht (mem_of_mem_strip h), fun h => hu (h.trans (strip_infix u))⟩
  have := Cov.seg (gapB_space l) hq (Stripped.of_strip h.ne_nil) (fun c hc => hsp c (mem_of_mem_strip hc)) .nil
  simpa using this

theorem startsWith_append_ne {u x : Str} (hu : u ≠ []) : startsWith (u ++ x) c!" " = startsWith u c!" " := by
  cases u with
  | nil => exact absurd rfl hu
  | cons c u =>
    show ([' '].isPrefixOf (c :: (u ++ x))) = [' '].isPrefixOf (c :: u)
    simp [List.isPrefixOf]

theorem Broken.first_gap {s : Str} {t : Tok} {ts : List Tok} (h : Broken s (t :: ts))
    (hsp : ∀ c ∈ s, isWs c = true → c = ' ') : t.gap = gapB (startsWith s c!" ") := by
  generalize hts : t :: ts = ts' at h
  cases h with
  | last hu h => subst hts; exact h.first_gap hsp
  | @br u b rest ts1 ts2 hu h hb hr =>
    cases ts1 with
    | cons t1 ts1 =>
      cases hts
      have hu0 : u ≠ [] := by rintro rfl; exact h.ne_nil rfl
      rw [startsWith_append_ne hu0]
      exact h.first_gap fun c hc => hsp c (by simp [hc])
    | nil =>
      cases hts
      cases u with
      | nil =>
        obtain ⟨z, rfl⟩ := hb.tag
        rfl
      | cons c u =>
        have hall := h.nil_ws
        have hc := hsp c (by simp) (hall c (by simp))
        subst hc
        have h1 : startsWith (' ' :: u ++ (b ++ rest)) c!" " = true := (startsWith_iff _ _).2 ⟨u ++ (b ++ rest), rfl⟩
        have h2 : endsWith (' ' :: u) c!" " = true := by
          rcases List.eq_nil_or_concat (' ' :: u) with h0 | ⟨x, d, h0⟩
          · cases h0
          · have hd := hsp d (by rw [h0]; simp) (hall d (by rw [h0]; simp))
            subst hd
            rw [h0, List.concat_eq_append]
            exact (endsWith_iff _ _).2 ⟨x, rfl⟩
        show (if endsWith (' ' :: u) c!" " = true then Gap.space else Gap.glue) = _
        rw [h1, h2]; rfl

theorem Broken.regap {s : Str} {ts : List Tok} (h : Broken s ts) (hsp : ∀ c ∈ s, isWs c = true → c = ' ') :
    MF.regap (startsWith s c!" ") ts = ts := by
  cases ts with
  | nil => rfl
  | cons t ts => unfold MF.regap; rw [← h.first_gap hsp]

theorem brRest {text : Str} {ls : Bool} {rest : Str} {ts : List Tok} (hc : Broken rest ts) :
    ∀ {pre : Str} {ms : List Match} {st : LinkSt}, Rx.Finds htmlNewlineRx pre rest ms →
    text = pre.reverse ++ rest → st.lastEnd = pre.length → (st.toks.lead = [] ↔ pre = []) →
    (pre = [] → StartsNonWs rest) →
    '`' ∉ rest → (∀ c ∈ rest, isWs c = true → c = ' ') →
    ∃ ps, brEnd text ls (ms.foldl (newlineStep text ls) st) = st.toks.add (toksOf ps) ∧
      Cov NoBr ps (regap (brLead ls st rest) ts) := by
  induction hc with
  | @last u ts hu h =>
    intro pre ms st hf ht hl hlead hns htk hsp
    have hms : ms = [] := by
      cases hf with
      | done => rfl
      | step h1 h2 hne hs he hrest =>
        exfalso
        obtain ⟨z, hz⟩ := (br_text h2).tag
        rename_i v rest' m ms
        exact hu ⟨v, z ++ rest', by rw [hz]; simp⟩
    subst hms
    have hdrop : text.drop st.lastEnd = u := by rw [hl, ht]; simp
    have hle : (if st.lastEnd == 0 then ls else startsWith u c!" ") = brLead ls st u := by
      unfold brLead
      by_cases h0 : pre = []
      · rw [if_pos (by simp [hl, h0]), if_pos (hlead.2 h0)]
      · rw [if_neg (by simp [hl, h0]), if_neg (fun h => h0 (hlead.1 h))]
    cases ts with
    | nil =>
      have hbl : (strip u).isEmpty = true := by rw [(strip_eq_nil _).2 h.nil_ws]; rfl
      refine ⟨[], ?_, .nil⟩
      simp [brEnd, hdrop, hbl, Toks.add, toksOf]
    | cons t ts =>
      obtain ⟨hne, hcov⟩ := seg_cov_br (l := brLead ls st u) htk hu h hsp
      refine ⟨_, ?_, hcov⟩
      have hbl : (strip u).isEmpty = false := by simpa using hne
      simp only [List.foldl_nil, brEnd, hdrop, hbl, Toks.add, toksOf, hle, Bool.not_false, if_true, List.map_cons, List.map_nil]
  | @br u b rest ts ts2 hu h hb hr ih =>
    intro pre ms st hf ht hl hlead hns htk hsp
    obtain ⟨m, ms', rfl, hmt, hms, hme, hf'⟩ := br_find hu hb hf
    have hslice : slice text st.lastEnd m.start = u := by
      rw [hl, hms, ht]
      have := slice_mid pre.reverse u (b ++ rest)
      simpa using this
    rw [List.foldl_cons]
    have hbne : b ≠ [] := hb.stripped.1
    have hget : text[st.lastEnd]? = (u ++ (b ++ rest)).head? := by
      rw [hl, ht, List.getElem?_append_right (by simp)]
      simp [List.head?_eq_getElem?]
    have hle : (if st.toks.lead.isEmpty then ls else text[st.lastEnd]? == some ' ') = brLead ls st (u ++ (b ++ rest)) := by
      unfold brLead
      rw [hget]
      by_cases h0 : st.toks.lead = []
      · simp [h0]
      · simp only [h0, List.isEmpty_iff, if_false]
        cases hx : u ++ (b ++ rest) with
        | nil => simp at hx; exact absurd hx.2.1 hbne
        | cons c r =>
          by_cases hc : c = ' '
          · subst hc; rw [(startsWith_iff (' ' :: r) c!" ").2 ⟨r, rfl⟩]; rfl
          · have : startsWith (c :: r) c!" " = false := by
              cases h : startsWith (c :: r) c!" " with
              | false => rfl
              | true => obtain ⟨x, hx⟩ := (startsWith_iff _ _).1 h; cases hx; exact absurd rfl hc
            rw [this]; simpa using hc
    have hst2 : (newlineStep text ls st m).lastEnd = (b.reverse ++ (u.reverse ++ pre)).length := by
      have : (newlineStep text ls st m).lastEnd = m.stop := rfl
      rw [this, hme]; simp; omega
    have hb1 : b.getLast? = some '>' := by rcases hb with rfl | rfl | rfl | rfl <;> rfl
    have hprne : b.reverse ++ (u.reverse ++ pre) ≠ [] := by simp [hbne]
    cases ts with
    | nil =>
      have hbl : (strip u).isEmpty = true := by rw [(strip_eq_nil _).2 h.nil_ws]; rfl
      have htoks : (newlineStep text ls st m).toks = st.toks.add (toksOf [(b, brLead ls st (u ++ (b ++ rest)), false)]) := by
        rw [← hle]
        simp [newlineStep, hslice, hbl, hmt, Toks.add, toksOf]
      have hl2 : (newlineStep text ls st m).toks.lead ≠ [] := by rw [htoks]; simp [Toks.add, toksOf]
      obtain ⟨qs, e1, e2⟩ := ih hf' (by rw [ht]; simp) hst2
        ⟨fun h => absurd h hl2, fun h => absurd h hprne⟩ (fun h => absurd h hprne) (fun h => htk (by simp [h]))
        (fun c hc => hsp c (by simp [hc]))
      refine ⟨(b, brLead ls st (u ++ (b ++ rest)), false) :: qs, ?_, ?_⟩
      · rw [e1, htoks]; simp [Toks.add, toksOf]
      · have hb2 : brLead ls (newlineStep text ls st m) rest = startsWith rest c!" " := by
          unfold brLead; rw [if_neg hl2]
        rw [hb2, Broken.regap hr (fun c hc => hsp c (by simp [hc]))] at e2
        exact .fixed (gapB_space _) e2
    | cons t ts =>
      have hu0 : u ≠ [] := by rintro rfl; exact h.ne_nil rfl
      have hu1 : brLead ls st (u ++ (b ++ rest)) = brLead ls st u := by
        unfold brLead; rw [startsWith_append_ne hu0]
      obtain ⟨hne, hcov⟩ := seg_cov_br (l := brLead ls st u) (fun h => htk (by simp [h])) hu h
        (fun c hc => hsp c (by simp [hc]))
      have hbl : (strip u).isEmpty = false := by simpa using hne
      have htoks : (newlineStep text ls st m).toks = st.toks.add
          (toksOf [(strip u, brLead ls st u, true), (b, endsWith u c!" ", false)]) := by
        rw [← hu1, ← hle]
        simp only [newlineStep, hslice, hbl, hmt, Bool.not_false, if_true, Toks.add, toksOf, List.map_cons, List.map_nil,
          List.append_assoc, List.cons_append, List.nil_append]
      have hl2 : (newlineStep text ls st m).toks.lead ≠ [] := by rw [htoks]; simp [Toks.add, toksOf]
      obtain ⟨qs, e1, e2⟩ := ih hf' (by rw [ht]; simp) hst2
        ⟨fun h => absurd h hl2, fun h => absurd h hprne⟩ (fun h => absurd h hprne) (fun h => htk (by simp [h]))
        (fun c hc => hsp c (by simp [hc]))
      have hb2 : brLead ls (newlineStep text ls st m) rest = startsWith rest c!" " := by
        unfold brLead; rw [if_neg hl2]
      rw [hb2, Broken.regap hr (fun c hc => hsp c (by simp [hc]))] at e2
      refine ⟨(strip u, brLead ls st u, true) :: (b, endsWith u c!" ", false) :: qs, ?_, ?_⟩
      · rw [e1, htoks]; simp [Toks.add, toksOf]
      · have := hcov.append (Cov.fixed (s := b) (gapB_space (endsWith u c!" ")) e2)
        rw [hu1]
        simpa [gapB, regap] using this

theorem newlineSplit_cov {s t : Str} {l : Bool} {ts : List Tok} (hq : NoLinks s (⟨.glue, t⟩ :: ts))
    (hs : Stripped s) (hsp : ∀ c ∈ s, isWs c = true → c = ' ') :
    ∃ qs, newlineSplit s l = .ok (toksOf qs) ∧ Cov NoBr qs (⟨gapB l, t⟩ :: ts) := by
  obtain ⟨ps, h1, h2⟩ := brRest (text := s) (ls := l) (hq.1.broken hsp) (pre := [])
    (st := { toks := { split := [], lead := [], eval := [] }, lastEnd := 0 })
    (Rx.finditer_finds htmlNewlineRx_nonEmpty s) rfl rfl ⟨fun _ => rfl, fun _ => rfl⟩ (fun _ => hs.starts) hq.2 hsp
  exact ⟨ps, by rw [newlineSplit_end, h1]; simp [Toks.add], h2⟩

/-! ## Words -/

theorem Bare.words {s : Str} {ts : List Tok} (h : Bare s ts) (hq : '`' ∉ s ∧ ¬ c!"<br" <:+: s) :
    splitWs s = ts.map (·.text) ∧ (∀ t ∈ ts, ∀ c ∈ t.text, isWs c = false) ∧ ∀ t ∈ ts.drop 1, t.gap = .space := by
  induction h with
  | nil h => exact ⟨splitWs_all_ws h, by simp, by simp⟩
  | @word g w rest ts hg hw hr h ih =>
    have hq' : '`' ∉ rest ∧ ¬ c!"<br" <:+: rest := ⟨fun h => hq.1 (by simp [h]), fun h => hq.2 (h.trans ⟨g ++ w, [], by simp⟩)⟩
    obtain ⟨h1, h2, h3⟩ := ih hq'
    have hend : rest = [] ∨ ∃ c r, rest = c :: r ∧ isWs c = true := by
      rcases hr with h0 | ⟨c, r, h0, hc⟩ | ⟨b, r, h0, hb⟩
      · exact .inl h0
      · rcases hc with hc | hc
        · exact .inr ⟨c, r, h0, hc⟩
        · subst hc; exact absurd (by rw [h0]; simp) hq'.1
      · obtain ⟨z, hz⟩ := hb.tag
        exact absurd ⟨[], z ++ r, by rw [h0, hz]; simp⟩ hq'.2
    refine ⟨?_, ?_, ?_⟩
    · rw [splitWs_prepend_all hg, List.map_cons, ← h1]
      rcases hend with rfl | ⟨c, r, rfl, hc⟩
      · rw [List.append_nil, splitWs_self hw.ne hw.noWs]; rfl
      · rw [splitWs_append_ws _ _ _ hc, splitWs_self hw.ne hw.noWs, splitWs_ws _ _ hc]; rfl
    · intro t ht
      rcases List.mem_cons.1 ht with rfl | ht
      · exact hw.noWs
      · exact h2 t ht
    · intro t ht
      simp only [List.drop_succ_cons, List.drop_zero] at ht
      cases ts with
      | nil => cases ht
      | cons t' ts =>
        rcases List.mem_cons.1 ht with rfl | ht
        · obtain ⟨g', r', hg', hrest, hgap, hst⟩ := h.first
          cases g' with
          | cons c g' => rw [hgap]; rfl
          | nil =>
            exfalso
            obtain ⟨c, r, hc, hc2⟩ := hst.starts
            rcases hend with h0 | ⟨d, r2, h0, hd⟩
            · rw [hrest, hc] at h0; cases h0
            · rw [hrest, hc] at h0; cases h0; rw [hc2] at hd; cases hd
        · exact h3 t (by simpa using ht)
  | @br g b rest ts hg hb h ih =>
    exfalso
    obtain ⟨z, hz⟩ := hb.tag
    exact hq.2 ⟨g, z ++ rest, by rw [hz]; simp⟩

theorem strip_word {w : Str} (h : ∀ c ∈ w, isWs c = false) : strip w = w := strip_noWs _ h

theorem spaceSplit_cov {s t : Str} {l : Bool} {ts : List Tok} (hq : NoBr s (⟨.glue, t⟩ :: ts)) (hsp : ∀ c ∈ s, isWs c = true → c = ' ') :
    spaceSplit s l = .ok (toksOf ((t, l, true) :: ts.map fun x => (x.text, x.gap == .space, true))) := by
  obtain ⟨h1, h2, h3⟩ := hq.1.words hq.2
  rw [spaceSplit_eq, pieces_words hsp, h1]
  have e1 : ((⟨.glue, t⟩ :: ts).map fun x : Tok => strip x.text) = (⟨.glue, t⟩ :: ts).map fun x : Tok => x.text :=
    List.map_congr_left fun x hx => strip_word (h2 x hx)
  simp only [List.map_cons, List.cons.injEq] at e1
  simp only [toksOf, List.map_cons, List.map_map, e1.1]
  congr 2
  · have := e1.2
    simp only [Function.comp_def]
    rw [this]
  · simp only [Function.comp_def]
    congr 1
    apply List.map_congr_left
    intro x hx
    have := h3 x (by simpa using hx)
    simp [this]

/-- the tokens of `wrap` -/
theorem wrapToks_inline {s : Str} {ts : List Tok} (h : Inline s ts) :
    ∃ t, wrapToks s = .ok t ∧ t.split.zip t.lead = ts.map fun x => (x.text, x.gap == .space) := by
  obtain ⟨ps0, h0, c0⟩ := codeSplit_cov h
  obtain ⟨ps1, h1, c1⟩ := splitPass_cov (R' := NoLinks) (func := linkSplit)
    (fun s t l ts hq hs hsp => linkSplit_cov hq hs hsp) c0
  obtain ⟨ps2, h2, c2⟩ := splitPass_cov (R' := NoBr) (func := newlineSplit)
    (fun s t l ts hq hs hsp => newlineSplit_cov hq hs hsp) c1
  have h3 : ∃ t, splitPass spaceSplit (toksOf ps2) = .ok t ∧ t.split.zip t.lead = ts.map fun x => (x.text, x.gap == .space) := by
    unfold splitPass
    rw [toksOf_triples]
    clear h h0 h1 h2 c0 c1
    induction c2 with
    | nil => exact ⟨_, rfl, rfl⟩
    | @fixed s l g ps ts hg h ih =>
      obtain ⟨t, e1, e2⟩ := ih
      simp only [applySplit, Bool.false_eq_true, if_false, bind, Except.bind, e1]
      refine ⟨_, rfl, ?_⟩
      simp [e2, hg]
    | @seg s t l g ps ts0 ts hg hq hs hsp h ih =>
      obtain ⟨r, e1, e2⟩ := ih
      simp only [applySplit, if_true, bind, Except.bind, e1, spaceSplit_cov hq hsp]
      refine ⟨_, rfl, ?_⟩
      simp only [toksOf]
      rw [List.zip_append (by simp), e2]
      simp only [List.map_cons, List.map_map, List.zip_cons_cons, List.map_append, hg, List.cons_append]
      congr 2
      simp only [Function.comp_def]
      clear hq h e1 e2
      induction ts0 with
      | nil => rfl
      | cons a r ih => simp only [List.map_cons, List.zip_cons_cons, ih]
  obtain ⟨t, h3, h4⟩ := h3
  refine ⟨t, ?_, h4⟩
  have e0 : splitPass codeSplit { split := [s], lead := [false], eval := [true] } = .ok (toksOf ps0) := by
    simp [splitPass, applySplit, h0, bind, Except.bind]
  simp only [wrapToks, bind, Except.bind, e0, h1, h2, h3]

end MF
