import Verif.Lemmas.CodeRef
import Verif.Lemmas.ScanRx
/-!
# `link_split`, `newline_split`, `space_split` and `join` as the reference has them
-/

namespace MF

/-- Where a match is and how long. -/
def Match.found (m : Match) : Nat × Nat := (m.start, m.text.length)

/-! ## The order of the matches -/

theorem insertMatch_behind {m : Match} {p : List Match} (a : List Match) (h : ∀ x ∈ p, x.start ≤ m.start) :
    insertMatch m (p ++ a) = p ++ insertMatch m a := by
  induction p with
  | nil => rfl
  | cons x p ih =>
    rw [List.cons_append, insertMatch, if_pos (h x (by simp)), ih (fun y hy => h y (by simp [hy]))]
    rfl

theorem foldInsert_behind {bs : List Match} {p : List Match} (a : List Match) (h : ∀ x ∈ p, ∀ b ∈ bs, x.start ≤ b.start) :
    bs.foldl (fun acc m => insertMatch m acc) (p ++ a) = p ++ bs.foldl (fun acc m => insertMatch m acc) a := by
  induction bs generalizing a with
  | nil => rfl
  | cons b bs ih =>
    rw [List.foldl_cons, insertMatch_behind a (fun x hx => h x hx b (by simp)), ih _ (fun x hx y hy => h x hx y (by simp [hy]))]
    rfl

theorem foldInsert_front {bs : List Match} {a : List Match} (hs : bs.Pairwise (fun x y => x.start ≤ y.start))
    (h : ∀ b ∈ bs, ∀ x, a.head? = some x → b.start < x.start) :
    bs.foldl (fun acc m => insertMatch m acc) a = bs ++ a := by
  induction bs with
  | nil => rfl
  | cons b bs ih =>
    have h1 : insertMatch b a = [b] ++ a := by
      cases a with
      | nil => rfl
      | cons x a =>
        rw [insertMatch, if_neg (by have := h b (by simp) x rfl; omega)]
        rfl
    rw [List.foldl_cons, h1, foldInsert_behind, ih hs.tail (fun y hy => h y (by simp [hy]))]
    · rfl
    · intro x hx y hy
      simp only [List.mem_singleton] at hx
      subst hx
      exact List.rel_of_pairwise_cons hs hy

theorem foldInsert_merge (as : List Match) : ∀ {bs : List Match}, bs.Pairwise (fun x y => x.start ≤ y.start) →
    (bs.foldl (fun acc m => insertMatch m acc) as).map Match.found = mergeFound (as.map Match.found) (bs.map Match.found) := by
  induction as with
  | nil =>
    intro bs hs
    rw [foldInsert_front hs (by intro b _ x hx; cases hx), List.append_nil]
    rfl
  | cons a as ih =>
    intro bs hs
    have hsplit : bs = bs.takeWhile (fun b => decide (b.start < a.start)) ++ bs.dropWhile (fun b => decide (b.start < a.start)) :=
      List.takeWhile_append_dropWhile.symm
    have hfront : ∀ b ∈ bs.takeWhile (fun b => decide (b.start < a.start)), b.start < a.start := by
      intro b hb
      have := List.all_takeWhile (p := fun b : Match => decide (b.start < a.start)) (l := bs)
      simpa using List.all_eq_true.1 this b hb
    have hback : ∀ b ∈ bs.dropWhile (fun b => decide (b.start < a.start)), a.start ≤ b.start := by
      intro b hb
      have hs2 : (bs.dropWhile (fun b => decide (b.start < a.start))).Pairwise (fun x y => x.start ≤ y.start) :=
        hs.sublist (List.dropWhile_sublist _)
      cases hd : bs.dropWhile (fun b => decide (b.start < a.start)) with
      | nil => rw [hd] at hb; cases hb
      | cons d ds =>
        have hd0 : ¬ (d.start < a.start) := by
          have := List.head?_dropWhile_not (fun b : Match => decide (b.start < a.start)) bs
          rw [hd] at this
          simpa using this
        rw [hd] at hb hs2
        rcases List.mem_cons.1 hb with rfl | hb
        · omega
        · have := List.rel_of_pairwise_cons hs2 hb
          omega
    have hs1 : (bs.takeWhile (fun b => decide (b.start < a.start))).Pairwise (fun x y => x.start ≤ y.start) :=
      hs.sublist (List.takeWhile_sublist _)
    have hs2 : (bs.dropWhile (fun b => decide (b.start < a.start))).Pairwise (fun x y => x.start ≤ y.start) :=
      hs.sublist (List.dropWhile_sublist _)
    have hcomp : ((fun x : Nat × Nat => decide (x.1 < a.found.1)) ∘ Match.found) = fun b : Match => decide (b.start < a.start) := rfl
    rw [List.map_cons, mergeFound, List.takeWhile_map, List.dropWhile_map, hcomp, ← ih hs2]
    conv => lhs; rw [hsplit]
    rw [List.foldl_append, foldInsert_front hs1 (by intro b hb x hx; simp at hx; subst hx; exact hfront b hb)]
    have e : ∀ l : List Match, l ++ a :: as = (l ++ [a]) ++ as := by simp
    rw [e, foldInsert_behind]
    · simp
    · intro x hx b hb
      have h1 := hback b hb
      rcases List.mem_append.1 hx with hx | hx
      · have := hfront x hx
        omega
      · simp only [List.mem_singleton] at hx
        subst hx
        exact h1

theorem linkMatches_found (text : Str) : (linkMatches text).map Match.found = links text := by
  have hpw : ∀ (o c : Char), ((linkRx o c).finditer text).Pairwise (fun x y => x.start ≤ y.start) := by
    intro o c
    have h1 := (Rx.finditer_finds (linkRx_nonEmpty o c) text).pairwise
    have h2 := Rx.finditer_bounds (linkRx_nonEmpty o c) text
    have h3 : ((linkRx o c).finditer text).Pairwise (fun x y => x ∈ (linkRx o c).finditer text ∧ x.stop ≤ y.start) :=
      h1.imp_of_mem (fun ha _ h => ⟨ha, h⟩)
    refine h3.imp ?_
    rintro a b ⟨ha, h⟩
    have := (h2 a ha).1
    omega
  unfold linkMatches sortMatches links
  rw [List.foldl_append, footnoteRx_eq, urlRx_eq, foldInsert_front (bs := (linkRx '[' ']').finditer text) (a := []) (hpw _ _)
      (by intro b _ x hx; cases hx), List.append_nil,
    foldInsert_merge _ (hpw _ _)]
  have h1 := (link_tells '[' ']').finditer text
  have h2 := (link_tells '(' ')').finditer text
  rw [← h1, ← h2]
  rfl

/-! ## Links -/

theorem linkParts_ref {g : Str} (h : HasSep g) : linkParts g = .ok (linkHalves g) := by
  unfold linkParts linkHalves
  by_cases h1 : isIn c!"](" g = true
  · obtain ⟨p, q, r, hs⟩ := splitPair_two h1
    simp only [h1, if_true, hs]
    rfl
  · obtain ⟨p, q, r, hs⟩ := splitPair_two (h.resolve_left h1)
    simp only [h1, Bool.false_eq_true, if_false, hs]
    rfl

theorem last_space {text : Str} {a b : Nat} (hab : a < b) (hb : b ≤ text.length) :
    (text[b - 1]? == some ' ') = endsWith (slice text a b) c!" " := by
  have hlen : (slice text a b).length = b - a := by unfold slice; simp; omega
  have hlast : (slice text a b).getLast? = text[b - 1]? := by
    rw [List.getLast?_eq_getElem?, hlen]
    unfold slice
    rw [List.getElem?_take, if_pos (by omega), List.getElem?_drop]
    congr 1
    omega
  rw [← hlast]
  rcases List.eq_nil_or_concat (slice text a b) with h | ⟨r, c, h⟩
  · rw [h] at hlen; simp at hlen; omega
  · rw [h, List.concat_eq_append]
    simp only [List.getLast?_append, List.getLast?_singleton, Option.some_or]
    rw [Bool.eq_iff_iff, endsWith_iff]
    simp only [beq_iff_eq, Option.some.injEq]
    constructor
    · rintro rfl; exact ⟨r, rfl⟩
    · rintro ⟨r', h'⟩
      have := (List.append_inj' h' rfl).2
      simpa using this

theorem slice_ne {text : Str} {a b : Nat} (h : strip (slice text a b) ≠ []) : a < b := by
  apply Decidable.byContradiction
  intro h'
  apply h
  unfold slice
  rw [show b - a = 0 by omega]
  rfl

theorem dot_strip {s : Str} (h : startsSingleDot s = true) : strip s ≠ [] := by
  obtain ⟨r, rfl, _⟩ := (startsSingleDot_iff s).1 h
  intro h0
  have := (strip_eq_nil _).1 h0 '.' (by simp)
  revert this; decide

theorem dot_none {s : Str} (h : strip s = []) : dotOf s = [] ∧ undot s = s := by
  have : startsSingleDot s = false := by
    cases hs : startsSingleDot s with
    | false => rfl
    | true => exact absurd h (dot_strip hs)
  unfold dotOf undot
  rw [this]
  exact ⟨rfl, rfl⟩

theorem linkStep_next {text : Str} {ls : Bool} {bs : List Bit} {sp : Bool} {z : Str} {last : Nat} {m : Match}
    (hp : HasSep m.text) (hb : m.start ≤ text.length) :
    linkStep text ls ⟨toToks (bs ++ [⟨sp, z, false⟩]), last⟩ m =
      .ok ⟨toToks ((bs ++ ⟨sp, z ++ dotOf (slice text last m.start), false⟩ ::
        (if strip (slice text last m.start) = [] then [⟨false, (linkHalves m.text).1, true⟩]
          else [⟨startsWith (undot (slice text last m.start)) c!" ", strip (undot (slice text last m.start)), true⟩,
            ⟨endsWith (slice text last m.start) c!" ", (linkHalves m.text).1, true⟩])) ++
        [⟨false, (linkHalves m.text).2, false⟩]), m.stop⟩ := by
  unfold linkStep
  have hsplit : (toToks (bs ++ [⟨sp, z, false⟩])).split = bs.map (·.text) ++ [z] := by simp [toToks]
  simp only [linkParts_ref hp, bind, Except.bind, moveDot, hsplit]
  by_cases hs : strip (slice text last m.start) = []
  · rw [(dot_none hs).1]
    simp [hs, toToks]
  · have hle := last_space (slice_ne hs) hb
    have hne : (bs.map (·.text) ++ [z]).isEmpty = false := by simp
    rw [if_pos (by simpa using hs), if_neg hs, hne, hle]
    simp only [Bool.not_false, Bool.true_and]
    generalize slice text last m.start = u at *
    unfold dotOf undot
    cases startsSingleDot u with
    | true =>
      simp only [if_true, appendLast_concat, Except.map]
      generalize u.drop 1 = v
      simp [toToks]
    | false => simp [toToks]

theorem linkStep_first {text : Str} {ls : Bool} {m : Match} (hp : HasSep m.text) (hb : m.start ≤ text.length) :
    linkStep text ls ⟨toToks [], 0⟩ m =
      .ok ⟨toToks ((if strip (slice text 0 m.start) = [] then [⟨ls, (linkHalves m.text).1, true⟩]
          else [⟨ls, strip (slice text 0 m.start), true⟩,
            ⟨endsWith (slice text 0 m.start) c!" ", (linkHalves m.text).1, true⟩]) ++
        [⟨false, (linkHalves m.text).2, false⟩]), m.stop⟩ := by
  unfold linkStep
  simp only [linkParts_ref hp, bind, Except.bind, moveDot]
  by_cases hs : strip (slice text 0 m.start) = []
  · simp [hs, toToks]
  · have hle := last_space (slice_ne hs) hb
    rw [if_pos (by simpa using hs), if_neg hs, hle]
    simp [toToks]

/-- the end of `link_split` -/
def linkFinish (text : Str) (ls : Bool) (st : LinkSt) : Except Err Toks := do
  let t := st.toks
  let rest := text.drop st.lastEnd
  let (split, remaining) ← moveDot (startsSingleDot rest) t.split rest
  let t : Toks := { t with split := split }
  if !(strip remaining).isEmpty then
    .ok { split := t.split ++ [strip remaining],
          lead := t.lead ++ [if st.lastEnd == 0 then ls else startsWith remaining c!" "],
          eval := t.eval ++ [true] }
  else .ok t

theorem linkSplit_fin (text : Str) (ls : Bool) : linkSplit text ls =
    ((linkMatches text).foldlM (linkStep text ls) ⟨toToks [], 0⟩).bind (linkFinish text ls) := rfl

theorem linkFold_ref {text : Str} {ls : Bool} (ms : List Match) : ∀ (bs : List Bit) (sp : Bool) (z : Str) (last : Nat),
    0 < last → (∀ m ∈ ms, m.start < m.stop ∧ m.stop ≤ text.length ∧ m.text = slice text m.start m.stop ∧ HasSep m.text) →
    (ms.foldlM (linkStep text ls) ⟨toToks (bs ++ [⟨sp, z, false⟩]), last⟩).bind (linkFinish text ls) =
      .ok (toToks (bs ++ ⟨sp, z ++ dotOf (upTo text last (ms.map Match.found)), false⟩ ::
        linkBits text none last (ms.map Match.found))) := by
  induction ms with
  | nil =>
    intro bs sp z last hl _
    simp only [List.foldlM_nil, pure, Except.pure, Except.bind, List.map_nil, upTo, linkBits]
    have hl0 : (last == 0) = false := by simp; omega
    have hsplit : (toToks (bs ++ [⟨sp, z, false⟩])).split = bs.map (·.text) ++ [z] := by simp [toToks]
    unfold linkFinish
    simp only [moveDot, hsplit, hl0]
    generalize text.drop last = u
    unfold dotOf undot plainBits
    cases startsSingleDot u with
    | true =>
      simp only [if_true, appendLast_concat, Except.map, bind, Except.bind]
      generalize u.drop 1 = v
      by_cases h : strip v = []
      · simp [h, toToks]
      · simp [h, toToks]
    | false =>
      simp only [Bool.false_eq_true, if_false, bind, Except.bind]
      by_cases h : strip u = []
      · simp [h, toToks]
      · simp [h, toToks]
  | cons m ms ih =>
    intro bs sp z last hl hm
    obtain ⟨h1, h2, h3, h4⟩ := hm m (by simp)
    have hstop : m.start + m.text.length = m.stop := by rw [h3]; unfold slice; simp; omega
    simp only [List.foldlM_cons, linkStep_next h4 (Nat.le_trans (Nat.le_of_lt h1) h2), bind, Except.bind]
    have := ih (bs ++ ⟨sp, z ++ dotOf (slice text last m.start), false⟩ ::
        (if strip (slice text last m.start) = [] then [⟨false, (linkHalves m.text).1, true⟩]
          else [⟨startsWith (undot (slice text last m.start)) c!" ", strip (undot (slice text last m.start)), true⟩,
            ⟨endsWith (slice text last m.start) c!" ", (linkHalves m.text).1, true⟩])) false (linkHalves m.text).2 m.stop
      (by omega) (fun x hx => hm x (by simp [hx]))
    simp only [Except.bind] at this
    rw [this]
    simp only [List.map_cons, Match.found, upTo, linkBits, hstop, ← h3]
    by_cases hs : strip (slice text last m.start) = [] <;> simp [hs]

theorem linkSplit_ref (text : Str) (ls : Bool) : linkSplit text ls = (linkPieces ls text).map toToks := by
  rw [linkSplit_fin]
  unfold linkPieces
  rw [← linkMatches_found]
  have hok : ∀ m ∈ linkMatches text, m.start < m.stop ∧ m.stop ≤ text.length ∧ m.text = slice text m.start m.stop ∧
    HasSep m.text := linkMatches_ok text
  generalize linkMatches text = ms at hok ⊢
  cases ms with
  | nil =>
    simp only [List.foldlM_nil, pure, Except.pure, Except.bind, List.map_nil, List.isEmpty_nil, Bool.true_and, linkBits]
    unfold linkFinish plainBits
    simp only [List.drop_zero, moveDot, beq_self_eq_true, if_true, Option.isSome_some]
    cases startsSingleDot text with
    | true => rfl
    | false =>
      simp only [Bool.false_eq_true, if_false, bind, Except.bind]
      by_cases h : strip text = []
      · simp [h, toToks, Except.map]
      · simp [h, toToks, Except.map]
  | cons m ms =>
    obtain ⟨h1, h2, h3, h4⟩ := hok m (by simp)
    have hstop : m.start + m.text.length = m.stop := by rw [h3]; unfold slice; simp; omega
    simp only [List.foldlM_cons, linkStep_first h4 (Nat.le_trans (Nat.le_of_lt h1) h2), bind, Except.bind, List.map_cons,
      List.isEmpty_cons, Bool.false_and, Bool.false_eq_true, if_false]
    have := linkFold_ref (ls := ls) ms (if strip (slice text 0 m.start) = [] then [⟨ls, (linkHalves m.text).1, true⟩]
          else [⟨ls, strip (slice text 0 m.start), true⟩,
            ⟨endsWith (slice text 0 m.start) c!" ", (linkHalves m.text).1, true⟩]) false (linkHalves m.text).2 m.stop
      (by omega) (fun x hx => hok x (by simp [hx]))
    simp only [Except.bind] at this
    rw [this]
    simp only [Match.found, linkBits, hstop, ← h3, Except.map]
    by_cases hs : strip (slice text 0 m.start) = [] <;> simp [hs]

/-! ## Line breaks -/

/-- the end of `newline_split` -/
def newlineFinish (text : Str) (ls : Bool) (st : LinkSt) : Toks :=
  let t := st.toks
  let rest := text.drop st.lastEnd
  if !(strip rest).isEmpty then
    { split := t.split ++ [strip rest],
      lead := t.lead ++ [if st.lastEnd == 0 then ls else startsWith rest c!" "],
      eval := t.eval ++ [true] }
  else t

theorem newlineSplit_fin (text : Str) (ls : Bool) : newlineSplit text ls =
    .ok (newlineFinish text ls ((htmlNewlineRx.finditer text).foldl (newlineStep text ls) ⟨toToks [], 0⟩)) := by
  unfold newlineSplit newlineFinish
  show _ = Except.ok (if _ then _ else _)
  rw [show (toToks [] : Toks) = ⟨[], [], []⟩ from rfl]
  simp only
  split <;> rfl

theorem newlineFold_ref {text : Str} {ls : Bool} {pre post : Str} {ms : List Match}
    (hf : Rx.Finds htmlNewlineRx pre post ms) : ∀ bs : List Bit, text = pre.reverse ++ post → (bs = [] ↔ pre.length = 0) →
    newlineFinish text ls (ms.foldl (newlineStep text ls) ⟨toToks bs, pre.length⟩) =
      toToks (bs ++ brBits text (if bs = [] then some ls else none) pre.length (ms.map Match.found)) := by
  induction hf with
  | @done pre post hn =>
    intro bs ht hb
    simp only [List.foldl_nil, List.map_nil, brBits]
    unfold newlineFinish plainBits
    simp only
    generalize text.drop pre.length = u
    by_cases h : strip u = []
    · simp [h]
    · by_cases h0 : bs = []
      · rw [hb.1 h0]
        simp [h, h0, toToks]
      · have : pre.length ≠ 0 := fun h => h0 (hb.2 h)
        simp [h, h0, this, toToks]
  | @step pre u rest m ms h1 h2 hne hs he hr ih =>
    intro bs ht hb
    have hs1 : slice text pre.length m.start = u := by
      have := slice_mid pre.reverse u (m.text ++ rest)
      rwa [List.length_reverse, ← ht, ← hs] at this
    have hs3 : slice text m.start (m.start + m.text.length) = m.text := by
      have := slice_mid (pre.reverse ++ u) m.text rest
      rw [List.length_append, List.length_reverse, List.append_assoc, ← ht, ← hs] at this
      exact this
    have hmpos : 0 < m.text.length := List.length_pos_iff.2 hne
    have hget : (text[pre.length]? == some ' ') = startsWith u c!" " := by
      have e : text[pre.length]? = (u ++ (m.text ++ rest)).head? := by
        rw [ht, List.getElem?_append_right (by simp)]
        simp [List.head?_eq_getElem?]
      rw [e]
      cases u with
      | nil =>
        rcases br_text h2 with h | h | h | h <;> rw [h] <;> rfl
      | cons c u =>
        rw [Bool.eq_iff_iff, startsWith_single]
        simp
    have hpre' : m.stop = (m.text.reverse ++ (u.reverse ++ pre)).length := by simp [he]; omega
    rw [List.foldl_cons, List.map_cons]
    have hstep : newlineStep text ls ⟨toToks bs, pre.length⟩ m =
        ⟨toToks (bs ++ (if strip u = [] then [⟨(if bs = [] then some ls else none).getD (startsWith u c!" "), m.text, false⟩]
          else [⟨(if bs = [] then some ls else none).getD (startsWith u c!" "), strip u, true⟩,
            ⟨endsWith u c!" ", m.text, false⟩])), m.stop⟩ := by
      unfold newlineStep
      simp only [hs1, hget]
      by_cases h : strip u = [] <;> by_cases h0 : bs = [] <;> simp [h, h0, toToks]
    rw [hstep, hpre', ih _ (by rw [ht]; simp) ?_]
    · have hne' : (bs ++ (if strip u = [] then [⟨(if bs = [] then some ls else none).getD (startsWith u c!" "), m.text, false⟩]
          else [⟨(if bs = [] then some ls else none).getD (startsWith u c!" "), strip u, true⟩,
            ⟨endsWith u c!" ", m.text, false⟩]) : List Bit) ≠ [] := by
        split <;> simp
      rw [if_neg hne', ← hpre']
      simp only [Match.found, brBits, hs1, hs3]
      have : m.start + m.text.length = m.stop := by omega
      rw [this]
      simp only [List.append_assoc]
    · constructor
      · intro h
        exfalso
        revert h
        split <;> simp
      · intro h
        rw [← hpre'] at h
        omega

theorem newlineSplit_ref (text : Str) (ls : Bool) : newlineSplit text ls = .ok (toToks (brPieces ls text)) := by
  rw [newlineSplit_fin]
  have := newlineFold_ref (text := text) (ls := ls) (Rx.finditer_finds br_tells.nonEmpty text) [] rfl (by simp)
  rw [show ([] : Str).length = 0 from rfl] at this
  rw [this]
  unfold brPieces
  rw [← br_tells.finditer text]
  rfl

/-! ## Words -/

theorem spaceLoop_ref (ls : Bool) (ws : List Str) : ∀ bs : List Bit, spaceLoop ls (toToks bs) ws =
    toToks (bs ++ match ((ws.filter (· ≠ [])).map strip) with
      | [] => []
      | v :: vs => ⟨if bs = [] then ls else true, v, true⟩ :: vs.map fun v => ⟨true, v, true⟩) := by
  induction ws with
  | nil => intro bs; simp [spaceLoop]
  | cons w ws ih =>
    intro bs
    rw [spaceLoop]
    by_cases hw : w = []
    · subst hw
      simp [ih]
    · have h1 : w.isEmpty = false := by simpa using hw
      have h2 : ∀ l : Bool, (⟨(toToks bs).split ++ [strip w], (toToks bs).lead ++ [l], (toToks bs).eval ++ [true]⟩ : Toks) =
          toToks (bs ++ [⟨l, strip w, true⟩]) := by
        intro l; simp [toToks]
      have h3 : (toToks bs).lead.isEmpty = decide (bs = []) := by
        cases bs <;> simp [toToks]
      rw [h1, if_neg (by simp), h2, ih, h3]
      simp only [List.append_eq_nil_iff, List.cons_ne_nil, and_false, if_false]
      rw [List.filter_cons, if_pos (c := decide (w ≠ []) = true) (by simpa using hw), List.map_cons]
      simp only
      cases (ws.filter (· ≠ [])).map strip with
      | nil => simp
      | cons v vs => simp

theorem spaceSplit_ref (text : Str) (ls : Bool) : spaceSplit text ls = .ok (toToks (wordPieces ls text)) := by
  unfold spaceSplit wordPieces
  have := spaceLoop_ref ls (splitChar ' ' text) []
  rw [show (⟨[], [], []⟩ : Toks) = toToks [] from rfl, this, List.nil_append]
  cases ((splitChar ' ' text).filter (· ≠ [])).map strip with
  | nil => rfl
  | cons v vs => rfl

/-! ## The passes -/

theorem splitPass_ref {func : Str → Bool → Except Err Toks} {f : Bool → Str → Except Err (List Bit)}
    (h : ∀ l s, func s l = (f l s).map toToks) (bs : List Bit) :
    splitPass func (toToks bs) = (refine f bs).map toToks := by
  unfold splitPass
  induction bs with
  | nil => rfl
  | cons b bs ih =>
    show applySplit func ((b.text, b.space, b.isOpen) :: ((toToks bs).split.zip ((toToks bs).lead.zip (toToks bs).eval))) = _
    rw [applySplit, ih, refine, h]
    cases hb : b.isOpen with
    | true =>
      simp only [if_true, bind, Except.bind]
      cases f b.space b.text with
      | error e => rfl
      | ok x =>
        cases refine f bs with
        | error e => rfl
        | ok y => simp [Except.map, toToks]
    | false =>
      simp only [Bool.false_eq_true, if_false, bind, Except.bind]
      cases refine f bs with
      | error e => rfl
      | ok y => simp [Except.map, toToks, hb]

/-! ## Lines -/

theorem brLen_match (s : Str) : (htmlNewlineRx.match? s).isSome = decide (brLen s ≠ 0) := by
  unfold Rx.match?
  by_cases h : brLen s = 0
  · rw [br_tells.none [] s h]
    simp [h]
  · obtain ⟨m, hm, _⟩ := br_tells.some [] s h
    rw [hm]
    simp [h]

theorem joinLoop_ref (w : Width) (bs : List Bit) : ∀ done cur,
    (let st := joinLoop w (done, cur) ((toToks bs).split.zip (toToks bs).lead)
     if st.2.isEmpty then st.1.reverse else (st.2 :: st.1).reverse) = done.reverse ++ fillLines w cur bs := by
  induction bs with
  | nil =>
    intro done cur
    simp only [toToks, List.map_nil, List.zip_nil_left, joinLoop, fillLines]
    cases cur <;> simp
  | cons b bs ih =>
    intro done cur
    show (let st := joinLoop w (done, cur) ((b.text, b.space) :: ((toToks bs).split.zip (toToks bs).lead))
      if st.2.isEmpty then st.1.reverse else (st.2 :: st.1).reverse) = _
    rw [joinLoop, fillLines]
    have hlonger : (if (b.space && !cur.isEmpty) = true then cur ++ [' '] ++ b.text else cur ++ b.text) =
        (if (b.space && decide (cur ≠ [])) = true then cur ++ ' ' :: b.text else cur ++ b.text) := by
      cases cur <;> cases b.space <;> simp
    have hfit : ∀ n, (w.ge n || cur.isEmpty || w.nonpos) = (decide (cur = []) || fitsIn w n) := by
      intro n
      unfold fitsIn
      cases cur <;> cases w.ge n <;> cases w.nonpos <;> simp
    unfold joinStep
    simp only [brLen_match, hlonger, hfit]
    generalize (if (b.space && decide (cur ≠ [])) = true then cur ++ ' ' :: b.text else cur ++ b.text) = longer
    by_cases hc : (decide (cur = []) || fitsIn w longer.length) = true
    · simp only [hc, if_true]
      by_cases hbr : brLen b.text ≠ 0
      · simp only [hbr, decide_true, if_true, ne_eq, not_false_eq_true]
        rw [ih]
        simp
      · simp only [hbr, decide_false, Bool.false_eq_true, if_false]
        rw [ih]
    · have hc' : (decide (cur = []) || fitsIn w longer.length) = false := by simpa using hc
      simp only [hc', Bool.false_eq_true, if_false]
      by_cases hbr : brLen b.text ≠ 0
      · simp only [hbr, decide_true, if_true, ne_eq, not_false_eq_true]
        rw [ih]
        simp
      · simp only [hbr, decide_false, Bool.false_eq_true, if_false]
        rw [ih]
        simp

theorem join_ref (w : Width) (bs : List Bit) :
    join (toToks bs).split (toToks bs).lead w = pyJoin ['\n'] (fillLines w [] bs) := by
  unfold join joinLines
  have := joinLoop_ref w bs [] []
  simp only [List.reverse_nil, List.nil_append] at this
  rw [← this]

/-- What `wrap` does to any text. -/
theorem wrap_ref (text : Str) (w : Width) : wrap text w = wrapRef text w := by
  unfold wrap wrapToks wrapRef
  rw [show (⟨[wrapInput text], [false], [true]⟩ : Toks) = toToks [⟨false, wrapInput text, true⟩] from rfl,
    splitPass_ref (f := codePieces) (fun l s => codeSplit_ref s l)]
  have hone : refine codePieces [⟨false, wrapInput text, true⟩] = codePieces false (wrapInput text) := by
    simp only [refine, if_true, bind, Except.bind]
    cases codePieces false (wrapInput text) <;> simp
  rw [hone]
  show _ = (codePieces false (wrapInput text)) >>= _
  simp only [bind, Except.bind]
  cases codePieces false (wrapInput text) with
  | error e => rfl
  | ok b1 =>
    simp only [Except.map]
    rw [splitPass_ref (f := linkPieces) (fun l s => linkSplit_ref s l)]
    cases refine linkPieces b1 with
    | error e => rfl
    | ok b2 =>
      simp only [Except.map]
      rw [splitPass_ref (f := fun l s => .ok (brPieces l s)) (fun l s => newlineSplit_ref s l)]
      cases refine (fun l s => .ok (brPieces l s)) b2 with
      | error e => rfl
      | ok b3 =>
        simp only [Except.map]
        rw [splitPass_ref (f := fun l s => .ok (wordPieces l s)) (fun l s => spaceSplit_ref s l)]
        cases refine (fun l s => .ok (wordPieces l s)) b3 with
        | error e => rfl
        | ok b4 =>
          simp only [Except.map]
          rw [join_ref]

end MF
