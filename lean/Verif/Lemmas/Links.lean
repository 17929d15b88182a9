import Verif.Lemmas.Toks
/-!
# `link_split`, `newline_split` and `space_split`
-/

namespace MF

/-- What `moveDot` does when it succeeds: nothing, or a period moves to the end of the last token. -/
def Moved (split : List Str) (text : Str) (split' : List Str) (text' : Str) : Prop :=
  (split' = split ∧ text' = text) ∨
  ∃ zs z, split = zs ++ [z] ∧ split' = zs ++ [z ++ c!"."] ∧ text = '.' :: text' ∧ text'.head? ≠ some '.'

theorem moveDot_ok {cond : Bool} {split : List Str} {text : Str} (hc : cond = true → startsSingleDot text = true)
    (hne : cond = true → split ≠ []) : ∃ split' text', moveDot cond split text = .ok (split', text') ∧
      Moved split text split' text' := by
  cases cond with
  | false => exact ⟨split, text, rfl, .inl ⟨rfl, rfl⟩⟩
  | true =>
    obtain ⟨r, hr, hr2⟩ := (startsSingleDot_iff text).1 (hc rfl)
    rcases List.eq_nil_or_concat split with h0 | ⟨zs, z, h0⟩
    · exact absurd h0 (hne rfl)
    · rw [List.concat_eq_append] at h0
      subst h0; subst hr
      refine ⟨zs ++ [z ++ c!"."], r, ?_, .inr ⟨zs, z, rfl, rfl, rfl, hr2⟩⟩
      unfold moveDot
      rw [if_pos rfl, appendLast_concat]
      rfl

theorem Moved.length {s s' : List Str} {t t' : Str} (h : Moved s t s' t') : s'.length = s.length := by
  rcases h with ⟨rfl, _⟩ | ⟨zs, z, rfl, rfl, _, _⟩
  · rfl
  · simp

theorem Moved.chars {s s' : List Str} {t t' : Str} (h : Moved s t s' t') :
    (∀ x ∈ s', ∀ c ∈ x, (∃ y ∈ s, c ∈ y) ∨ c ∈ t) ∧ (∀ c ∈ t', c ∈ t) := by
  rcases h with ⟨rfl, rfl⟩ | ⟨zs, z, rfl, rfl, rfl, _⟩
  · exact ⟨fun x hx c hc => .inl ⟨x, hx, hc⟩, fun c hc => hc⟩
  · refine ⟨?_, fun c hc => by simp [hc]⟩
    intro x hx c hc
    simp only [List.mem_append, List.mem_singleton] at hx
    rcases hx with hx | rfl
    · exact .inl ⟨x, by simp [hx], hc⟩
    · rcases List.mem_append.1 hc with hc | hc
      · exact .inl ⟨z, by simp, hc⟩
      · simp at hc; subst hc; exact .inr (by simp)

theorem Moved.nw {s s' : List Str} {t t' : Str} (h : Moved s t s' t') :
    nw s'.flatten ++ nw t' = nw s.flatten ++ nw t := by
  rcases h with ⟨rfl, rfl⟩ | ⟨zs, z, rfl, rfl, rfl, _⟩
  · rfl
  · rw [show ('.' :: t' : Str) = c!"." ++ t' from rfl]
    simp only [List.flatten_append, List.flatten_cons, List.flatten_nil, List.append_nil, nw_append, List.append_assoc]

/-- `raw` follows `](` or `][` somewhere in the text -/
def AfterSep (text raw : Str) : Prop := ∃ a sep b, (sep = c!"](" ∨ sep = c!"][") ∧ text = a ++ sep ++ raw ++ b

/-- the second half of a link as `link_split` leaves it: stripped, and possibly with periods moved to its end -/
def LinkPiece (text s : Str) : Prop := ∃ raw dots, AfterSep text raw ∧ (∀ c ∈ dots, c = '.') ∧ s = strip raw ++ dots

/-- the tokens of `link_split` -/
def LinkTok (text : Str) (x : Str × Bool × Bool) : Prop :=
  (Stripped x.1 ∨ (x.1 = [] ∧ (x.2.2 = true ∨ x.2.1 = false))) ∧ (x.2.2 = false → LinkPiece text x.1) ∧
  (∀ c ∈ x.1, c ∈ text)

theorem stripped_dot {s : Str} (h : Stripped s ∨ s = []) : Stripped (s ++ c!".") := by
  rcases h with h | rfl
  · refine h.append ?_
    intro r c h
    cases r with
    | nil => simp at h; rw [← h]; decide
    | cons a r => simp at h
  · exact (by decide : Stripped c!".")

theorem LinkTok.dot {text s : Str} {l e : Bool} (h : LinkTok text (s, l, e)) (hd : '.' ∈ text) :
    LinkTok text (s ++ c!".", l, e) := by
  obtain ⟨h1, h2, h3⟩ := h
  refine ⟨.inl (stripped_dot (h1.imp id (·.1))), ?_, ?_⟩
  · intro he
    obtain ⟨raw, dots, ha, hb, hc⟩ := h2 he
    refine ⟨raw, dots ++ c!".", ha, ?_, ?_⟩
    · intro c hc
      rcases List.mem_append.1 hc with hc | hc
      · exact hb c hc
      · simpa using hc
    · simp only at hc ⊢
      rw [hc, List.append_assoc]
  · intro c hc
    rcases List.mem_append.1 hc with hc | hc
    · exact h3 c hc
    · simp at hc; subst hc; exact hd

theorem All.moved {Q : Str × Bool × Bool → Prop} {t : Toks} {text : Str} {split' : List Str} {text' : Str}
    (hw : t.WF) (hq : t.All Q) (hm : Moved t.split text split' text')
    (hdot : ∀ s l e, Q (s, l, e) → text = '.' :: text' → Q (s ++ c!".", l, e)) :
    ({ t with split := split' } : Toks).WF ∧ ({ t with split := split' } : Toks).All Q := by
  refine ⟨⟨by rw [hm.length]; exact hw.1, by rw [hm.length]; exact hw.2⟩, ?_⟩
  rcases hm with ⟨rfl, _⟩ | ⟨zs, z, h1, rfl, ht, _⟩
  · exact hq
  · obtain ⟨split, lead, eval⟩ := t
    simp only [Toks.WF] at hw
    simp only at h1
    subst h1
    obtain ⟨ls, l, rfl⟩ : ∃ ls l, lead = ls ++ [l] := by
      rcases List.eq_nil_or_concat lead with h0 | ⟨ls, l, h0⟩
      · rw [h0] at hw; simp at hw
      · exact ⟨ls, l, by rw [h0, List.concat_eq_append]⟩
    obtain ⟨es, e, rfl⟩ : ∃ es e, eval = es ++ [e] := by
      rcases List.eq_nil_or_concat eval with h0 | ⟨ls, l, h0⟩
      · rw [h0] at hw; simp at hw
      · exact ⟨ls, l, by rw [h0, List.concat_eq_append]⟩
    have hl1 : ls.length = zs.length := by simpa using hw.1
    have hl2 : es.length = zs.length := by simpa using hw.2
    unfold Toks.All Toks.triples at *
    simp only at *
    rw [zip_concat (by omega), zip_concat (by simp; omega)] at hq ⊢
    intro x hx
    rcases List.mem_append.1 hx with hx | hx
    · exact hq x (List.mem_append_left _ hx)
    · simp only [List.mem_singleton] at hx
      subst hx
      exact hdot _ _ _ (hq (z, l, e) (by simp)) ht

theorem All.add {Q : Str × Bool × Bool → Prop} {t : Toks} (hw : t.WF) (hq : t.All Q) (ss : List Str) (ls es : List Bool)
    (h1 : ls.length = ss.length) (h2 : es.length = ss.length) (h : ∀ x ∈ ss.zip (ls.zip es), Q x) :
    ({ split := t.split ++ ss, lead := t.lead ++ ls, eval := t.eval ++ es } : Toks).WF ∧
    ({ split := t.split ++ ss, lead := t.lead ++ ls, eval := t.eval ++ es } : Toks).All Q := by
  refine ⟨⟨by simp [hw.1, h1], by simp [hw.2, h2]⟩, ?_⟩
  unfold Toks.All
  rw [triples_append t ⟨ss, ls, es⟩ hw]
  intro x hx
  rcases List.mem_append.1 hx with hx | hx
  · exact hq x hx
  · exact h x hx

theorem stripped_sep {a sep : Str} (h : sep = c!"](" ∨ sep = c!"][") : Stripped (strip a ++ sep) := by
  have hs : Stripped sep := by rcases h with rfl | rfl <;> decide
  have hlast : ∀ r c, sep = r ++ [c] → isWs c = false := by
    intro r c hrc
    obtain ⟨_, hs2⟩ := (stripped_iff sep).1 hs |>.2
    exact hs2 r c hrc
  by_cases ha : strip a = []
  · rw [ha]; exact hs
  · exact (Stripped.of_strip ha).append hlast

/-- the shape of one step of `link_split` -/
theorem linkStep_ok {text : Str} {ls : Bool} {st : LinkSt} {m : Match} (hm : HasSep m.text) :
    ∃ a b sep rest split' nonLink' st', linkStep text ls st m = .ok st' ∧
      (sep = c!"](" ∨ sep = c!"][") ∧ m.text = a ++ sep ++ b ++ rest ∧ linkParts m.text = .ok (strip a ++ sep, strip b) ∧
      Moved st.toks.split (slice text st.lastEnd m.start) split' nonLink' ∧ st'.lastEnd = m.stop ∧
      ((∃ l1 l2, st'.toks = { split := split' ++ [strip nonLink', strip a ++ sep, strip b],
                              lead := st.toks.lead ++ [l1, l2, false], eval := st.toks.eval ++ [true, true, false] }) ∨
       (strip nonLink' = [] ∧ split' = st.toks.split ∧
        ∃ l, st'.toks = { split := split' ++ [strip a ++ sep, strip b],
                          lead := st.toks.lead ++ [l, false], eval := st.toks.eval ++ [true, false] })) := by
  obtain ⟨a, b, sep, rest, hp, hsep, hg⟩ := linkParts_ok hm
  cases hst : linkStep text ls st m with
  | error e =>
    exfalso
    unfold linkStep at hst
    by_cases hb : strip (slice text st.lastEnd m.start) = []
    · simp only [hb, List.isEmpty_nil, Bool.not_true, Bool.false_eq_true, if_false, hp, bind, Except.bind] at hst
      cases hst
    · have hbe : (strip (slice text st.lastEnd m.start)).isEmpty = false := by simpa using hb
      obtain ⟨split', nl', hmd, hmv⟩ := moveDot_ok
        (cond := !st.toks.split.isEmpty && startsSingleDot (slice text st.lastEnd m.start)) (split := st.toks.split)
        (text := slice text st.lastEnd m.start) (by simp) (by simp; intro h _; exact h)
      simp only [hbe, Bool.not_false, if_true, hmd, hp, bind, Except.bind] at hst
      cases hst
  | ok st' =>
    unfold linkStep at hst
    by_cases hb : strip (slice text st.lastEnd m.start) = []
    · simp only [hb, List.isEmpty_nil, Bool.not_true, Bool.false_eq_true, if_false, hp, bind, Except.bind] at hst
      refine ⟨a, b, sep, rest, st.toks.split, slice text st.lastEnd m.start, st', rfl, hsep, hg, hp, .inl ⟨rfl, rfl⟩, ?_,
        .inr ⟨hb, rfl, if st.toks.lead.isEmpty then ls else false, ?_⟩⟩
      · cases hst; rfl
      · cases hst; simp
    · have hbe : (strip (slice text st.lastEnd m.start)).isEmpty = false := by simpa using hb
      obtain ⟨split', nl', hmd, hmv⟩ := moveDot_ok
        (cond := !st.toks.split.isEmpty && startsSingleDot (slice text st.lastEnd m.start)) (split := st.toks.split)
        (text := slice text st.lastEnd m.start) (by simp) (by simp; intro h _; exact h)
      simp only [hbe, Bool.not_false, if_true, hmd, hp, bind, Except.bind] at hst
      refine ⟨a, b, sep, rest, split', nl', st', rfl, hsep, hg, hp, hmv, ?_, .inl
        ⟨if st.toks.lead.isEmpty then ls else startsWith nl' c!" ", text[m.start - 1]? == some ' ', ?_⟩⟩
      · cases hst; rfl
      · cases hst; simp

/-- What `link_split` has done after some of the links. -/
structure LinkInv (text : Str) (st : LinkSt) : Prop where
  wf : st.toks.WF
  all : st.toks.All (LinkTok text)

theorem mem_slice' {s : Str} {a b : Nat} {c : Char} (h : c ∈ slice s a b) : c ∈ s :=
  List.mem_of_mem_drop (List.mem_of_mem_take h)

theorem linkStep_inv {text : Str} {ls : Bool} {st : LinkSt} {m : Match} (hm : HasSep m.text)
    (hsl : m.text = slice text m.start m.stop) (hi : LinkInv text st) :
    ∃ st', linkStep text ls st m = .ok st' ∧ LinkInv text st' ∧ st'.lastEnd = m.stop ∧ st'.toks.split ≠ [] := by
  obtain ⟨a, b, sep, rest, split', nl', st', hst, hsep, hg, hp, hmv, he, hcase⟩ := linkStep_ok hm (text := text) (ls := ls)
  have hgt : ∀ c ∈ m.text, c ∈ text := fun c hc => mem_slice' (hsl ▸ hc)
  have hmvd : ({ st.toks with split := split' } : Toks).WF ∧ ({ st.toks with split := split' } : Toks).All (LinkTok text) := by
    refine All.moved hi.wf hi.all hmv ?_
    intro s l e hq ht
    exact hq.dot (mem_slice' (s := text) (a := st.lastEnd) (b := m.start) (by rw [ht]; simp))
  have hsub : ∃ x y, text = x ++ m.text ++ y := by
    refine ⟨text.take m.start, (text.drop m.start).drop (m.stop - m.start), ?_⟩
    rw [hsl, slice, List.append_assoc, List.take_append_drop, List.take_append_drop]
  have t1 : ∀ l, LinkTok text (strip a ++ sep, l, true) := by
    intro l
    refine ⟨.inl (stripped_sep hsep), by simp, ?_⟩
    intro c hc
    rcases List.mem_append.1 hc with hc | hc
    · exact hgt c (by rw [hg]; simp [mem_of_mem_strip hc])
    · exact hgt c (by rw [hg]; simp [hc])
  have t2 : LinkTok text (strip b, false, false) := by
    refine ⟨?_, ?_, ?_⟩
    · by_cases hb : strip b = []
      · exact .inr ⟨hb, .inr rfl⟩
      · exact .inl (Stripped.of_strip hb)
    · intro _
      obtain ⟨x, y, hxy⟩ := hsub
      exact ⟨b, [], ⟨x ++ a, sep, rest ++ y, hsep, by rw [hxy, hg]; simp⟩, by simp, by simp⟩
    · intro c hc
      exact hgt c (by rw [hg]; simp [mem_of_mem_strip hc])
  refine ⟨st', hst, ?_, he, ?_⟩
  · rcases hcase with ⟨l1, l2, hcase⟩ | ⟨_, _, l, hcase⟩
    · have := All.add hmvd.1 hmvd.2 [strip nl', strip a ++ sep, strip b] [l1, l2, false] [true, true, false] rfl rfl (by
        intro x hx
        simp only [List.zip_cons_cons, List.zip_nil_right, List.mem_cons, List.not_mem_nil, or_false] at hx
        rcases hx with rfl | rfl | rfl
        · refine ⟨?_, by simp, ?_⟩
          · by_cases hb : strip nl' = []
            · exact .inr ⟨hb, .inl rfl⟩
            · exact .inl (Stripped.of_strip hb)
          · intro c hc
            exact mem_slice' (hmv.chars.2 c (mem_of_mem_strip hc))
        · exact t1 l2
        · exact t2)
      exact ⟨by rw [hcase]; exact this.1, by rw [hcase]; exact this.2⟩
    · have := All.add hmvd.1 hmvd.2 [strip a ++ sep, strip b] [l, false] [true, false] rfl rfl (by
        intro x hx
        simp only [List.zip_cons_cons, List.zip_nil_right, List.mem_cons, List.not_mem_nil, or_false] at hx
        rcases hx with rfl | rfl
        · exact t1 l
        · exact t2)
      exact ⟨by rw [hcase]; exact this.1, by rw [hcase]; exact this.2⟩
  · rcases hcase with ⟨l1, l2, hcase⟩ | ⟨_, _, l, hcase⟩ <;> rw [hcase] <;> simp

theorem linkFold_inv {text : Str} {ls : Bool} : ∀ (ms : List Match) (st : LinkSt), (∀ m ∈ ms, HasSep m.text ∧
    m.text = slice text m.start m.stop) → LinkInv text st →
    ∃ st', ms.foldlM (linkStep text ls) st = .ok st' ∧ LinkInv text st' ∧
      (st'.toks.split = [] → st.toks.split = [] ∧ ms = []) := by
  intro ms
  induction ms with
  | nil => intro st _ hi; exact ⟨st, rfl, hi, fun h => ⟨h, rfl⟩⟩
  | cons m ms ih =>
    intro st hm hi
    obtain ⟨h1, h2⟩ := hm m (List.mem_cons_self ..)
    obtain ⟨st1, hs1, hi1, _, hne⟩ := linkStep_inv (ls := ls) h1 h2 hi
    obtain ⟨st2, hs2, hi2, h⟩ := ih st1 (fun m hm' => hm m (by simp [hm'])) hi1
    refine ⟨st2, ?_, hi2, fun h0 => absurd (h h0).1 hne⟩
    simp only [List.foldlM_cons, hs1, bind, Except.bind]
    exact hs2

/-- `link_split` succeeds, unless the text has no link at all and starts with a single period. -/
theorem linkSplit_out (text : Str) (ls : Bool) :
    (∃ t, linkSplit text ls = .ok t ∧ t.WF ∧ t.All (LinkTok text)) ∨
    (linkSplit text ls = .error .indexError ∧ startsSingleDot text = true ∧ linkMatches text = []) := by
  obtain ⟨st, hst, hi, hne⟩ := linkFold_inv (ls := ls) (linkMatches text)
    { toks := { split := [], lead := [], eval := [] }, lastEnd := 0 }
    (fun m hm => let h := linkMatches_ok text m hm; ⟨h.2.2.2, h.2.2.1⟩)
    ⟨⟨rfl, rfl⟩, by intro x hx; simp [Toks.triples] at hx⟩
  by_cases hd : startsSingleDot (text.drop st.lastEnd) = true ∧ st.toks.split = []
  · right
    obtain ⟨hd, hs⟩ := hd
    obtain ⟨_, hms⟩ := hne hs
    have h0 : st = { toks := { split := [], lead := [], eval := [] }, lastEnd := 0 } := by
      rw [hms] at hst; cases hst; rfl
    refine ⟨?_, by rw [h0] at hd; simpa using hd, hms⟩
    unfold linkSplit
    rw [show sortMatches (footnoteRx.finditer text ++ urlRx.finditer text) = [] from hms]
    rw [h0] at hd
    simp only [List.foldlM_nil, pure, Except.pure, bind, Except.bind, moveDot, hd, if_true, appendLast_nil]
    rfl
  · left
    obtain ⟨split', rem, hmd, hmv⟩ := moveDot_ok (cond := startsSingleDot (text.drop st.lastEnd))
      (split := st.toks.split) (text := text.drop st.lastEnd) (fun h => h) (fun h h' => hd ⟨h, h'⟩)
    have hmvd : ({ st.toks with split := split' } : Toks).WF ∧
        ({ st.toks with split := split' } : Toks).All (LinkTok text) := by
      refine All.moved hi.wf hi.all hmv ?_
      intro s l e hq ht
      exact hq.dot (List.mem_of_mem_drop (i := st.lastEnd) (by rw [ht]; simp))
    have hfold : (sortMatches (footnoteRx.finditer text ++ urlRx.finditer text)).foldlM (linkStep text ls)
      { toks := { split := [], lead := [], eval := [] }, lastEnd := 0 } = .ok st := hst
    unfold linkSplit
    simp only [hfold, hmd, bind, Except.bind]
    by_cases hb : strip rem = []
    · simp only [hb, List.isEmpty_nil, Bool.not_true, Bool.false_eq_true, if_false]
      exact ⟨_, rfl, hmvd⟩
    · have hbe : (strip rem).isEmpty = false := by simpa using hb
      simp only [hbe, Bool.not_false, if_true]
      refine ⟨_, rfl, All.add hmvd.1 hmvd.2 [strip rem] [_] [true] rfl rfl ?_⟩
      intro x hx
      simp only [List.zip_cons_cons, List.zip_nil_right, List.mem_cons, List.not_mem_nil, or_false] at hx
      subst hx
      exact ⟨.inl (Stripped.of_strip hb), by simp,
        fun c hc => List.mem_of_mem_drop (hmv.chars.2 c (mem_of_mem_strip hc))⟩


/-! ## When `link_split` keeps everything -/

/-- the link has one separator only -/
def OneSep (g : Str) : Prop :=
  (∃ p q, splitPair ']' '(' g = [p, q]) ∨ (isIn c!"](" g = false ∧ ∃ p q, splitPair ']' '[' g = [p, q])

/-- the links of a piece of text do not overlap, and each has one separator -/
def LinksSound (text : Str) : Prop :=
  (linkMatches text).Pairwise (fun a b => a.stop ≤ b.start) ∧ ∀ m ∈ linkMatches text, OneSep m.text

theorem linkParts_nw {g a b : Str} (h : OneSep g) (hp : linkParts g = .ok (a, b)) : nw a ++ nw b = nw g := by
  unfold linkParts at hp
  by_cases h1 : isIn c!"](" g = true
  · rw [if_pos h1] at hp
    rcases h with ⟨p, q, hs⟩ | ⟨h2, _⟩
    · have hj := pyJoin_splitPair ']' '(' g
      rw [hs] at hp hj
      cases hp
      rw [← hj]
      simp only [pyJoin, nw_append, nw_strip]
    · rw [h1] at h2; cases h2
  · rw [if_neg h1] at hp
    rcases h with ⟨p, q, hs⟩ | ⟨h2, p, q, hs⟩
    · exfalso
      apply h1
      have hj := pyJoin_splitPair ']' '(' g
      rw [hs] at hj
      exact (isIn_iff _ _).2 ⟨p, q, by rw [← hj]; simp [pyJoin]⟩
    · have hj := pyJoin_splitPair ']' '[' g
      rw [hs] at hp hj
      cases hp
      rw [← hj]
      simp only [pyJoin, nw_append, nw_strip]

theorem take_slice (text : Str) {a b : Nat} (h : a ≤ b) : text.take b = text.take a ++ slice text a b := by
  unfold slice
  rw [← List.take_append_drop a text, List.take_append, List.take_take]
  have : min b a = a := by omega
  rw [this]
  rcases Nat.le_total a text.length with hl | hl
  · have hl2 : (text.take a).length = a := by simp; omega
    simp [hl2]
  · have : text.drop a = [] := List.drop_eq_nil_of_le hl
    simp [this, List.take_take]

theorem linkFold_nw {text : Str} {ls : Bool} : ∀ (ms : List Match) (st st' : LinkSt),
    (∀ m ∈ ms, HasSep m.text ∧ m.text = slice text m.start m.stop ∧ m.start < m.stop ∧ OneSep m.text) →
    ms.Pairwise (fun a b => a.stop ≤ b.start) → (∀ m ∈ ms, st.lastEnd ≤ m.start) →
    nw st.toks.split.flatten = nw (text.take st.lastEnd) → ms.foldlM (linkStep text ls) st = .ok st' →
    nw st'.toks.split.flatten = nw (text.take st'.lastEnd) := by
  intro ms
  induction ms with
  | nil => intro st st' _ _ _ h hf; cases hf; exact h
  | cons m ms ih =>
    intro st st' hm hpw hle h hf
    obtain ⟨h1, h2, h3, h4⟩ := hm m (List.mem_cons_self ..)
    obtain ⟨a, b, sep, rest, split', nl', st1, hst, hsep, hg, hp, hmv, he, hcase⟩ := linkStep_ok (text := text) (ls := ls) (st := st) h1
    simp only [List.foldlM_cons, hst, bind, Except.bind] at hf
    have hle1 := hle m (List.mem_cons_self ..)
    refine ih st1 st' (fun m hm' => hm m (by simp [hm'])) (List.pairwise_cons.1 hpw).2 ?_ ?_ hf
    · intro m' hm'
      rw [he]
      exact (List.pairwise_cons.1 hpw).1 m' hm'
    · have hn := hmv.nw
      have hpn := linkParts_nw h4 hp
      rw [he, take_slice text (a := st.lastEnd) (b := m.stop) (by omega), nw_append, ← h,
        show slice text st.lastEnd m.stop = slice text st.lastEnd m.start ++ slice text m.start m.stop from ?_, nw_append,
        ← h2, ← List.append_assoc, ← hn, ← hpn]
      · rcases hcase with ⟨l1, l2, hcase⟩ | ⟨hb, hs, l, hcase⟩
        · rw [hcase]
          simp only [List.flatten_append, List.flatten_cons, List.flatten_nil, List.append_nil, nw_append, nw_strip,
            List.append_assoc]
        · rw [hcase, nw_eq_nil.2 hb]
          simp only [List.flatten_append, List.flatten_cons, List.flatten_nil, List.append_nil, nw_append, nw_strip,
            List.append_assoc]
      · unfold slice
        rw [show m.stop - st.lastEnd = (m.start - st.lastEnd) + (m.stop - m.start) by omega, List.take_add,
          List.drop_drop]
        congr 3
        omega

theorem linkSplit_nw {text : Str} {ls : Bool} {t : Toks} (hs : LinksSound text) (h : linkSplit text ls = .ok t) :
    nw t.split.flatten = nw text := by
  obtain ⟨st, hst, hi, hne⟩ := linkFold_inv (ls := ls) (linkMatches text)
    { toks := { split := [], lead := [], eval := [] }, lastEnd := 0 }
    (fun m hm => let h := linkMatches_ok text m hm; ⟨h.2.2.2, h.2.2.1⟩)
    ⟨⟨rfl, rfl⟩, by intro x hx; simp [Toks.triples] at hx⟩
  have hn := linkFold_nw (ls := ls) (text := text) (linkMatches text) _ st
    (fun m hm => let h := linkMatches_ok text m hm; ⟨h.2.2.2, h.2.2.1, h.1, hs.2 m hm⟩) hs.1 (by simp) (by simp) hst
  have hfold : (sortMatches (footnoteRx.finditer text ++ urlRx.finditer text)).foldlM (linkStep text ls)
      { toks := { split := [], lead := [], eval := [] }, lastEnd := 0 } = .ok st := hst
  unfold linkSplit at h
  simp only [hfold, bind, Except.bind] at h
  have htext : nw text = nw (text.take st.lastEnd) ++ nw (text.drop st.lastEnd) := by
    rw [← nw_append, List.take_append_drop]
  by_cases hd : startsSingleDot (text.drop st.lastEnd) = true ∧ st.toks.split = []
  · simp only [moveDot, hd.1, hd.2, if_true, appendLast_nil] at h
    cases h
  · obtain ⟨split', rem, hmd, hmv⟩ := moveDot_ok (cond := startsSingleDot (text.drop st.lastEnd))
      (split := st.toks.split) (text := text.drop st.lastEnd) (fun h => h) (fun h h' => hd ⟨h, h'⟩)
    simp only [hmd] at h
    rw [htext, ← hn, ← hmv.nw]
    split at h
    · cases h
      simp only [List.flatten_append, List.flatten_cons, List.flatten_nil, List.append_nil, nw_append, nw_strip]
    · rename_i hb
      cases h
      have : nw rem = [] := nw_eq_nil.2 (by simpa using hb)
      simp [this]

theorem link_bracket {pre post : Str} {m : Match} (h : urlRx.matchAt pre post = some m ∨
    footnoteRx.matchAt pre post = some m) : '[' ∈ m.text := by
  rcases h with h | h
  · obtain ⟨st', hs, hc⟩ := consumes_text h
    obtain ⟨s1, h1, s2, h2, h3⟩ := hs
    obtain ⟨u1, c1⟩ := Rx.Step.consumes _ h1
    obtain ⟨x, hx, c2⟩ := chrStep_consumes h2
    obtain ⟨u3, c3⟩ := Rx.Step.consumes (.seqs [.plus (.chr (· != '[')),
      .chr (· == ']'), .chr (· == '('), .plus (.chr (· != ')')), .chr (· == ')'),
      .star (.chr fun c => !isWs c && c != '[' && c != '(')]) h3
    rw [consumes_unique hc ((c1.trans c2).trans c3)]
    have hx' : x = '[' := by simpa using hx
    simp [hx']
  · obtain ⟨st', hs, hc⟩ := consumes_text h
    obtain ⟨s1, h1, s2, h2, h3⟩ := hs
    obtain ⟨u1, c1⟩ := Rx.Step.consumes _ h1
    obtain ⟨x, hx, c2⟩ := chrStep_consumes h2
    obtain ⟨u3, c3⟩ := Rx.Step.consumes (.seqs [.plus (.chr (· != '[')),
      .chr (· == ']'), .chr (· == '['), .plus (.chr (· != ']')), .chr (· == ']'),
      .star (.chr fun c => !isWs c && c != '[' && c != '(')]) h3
    rw [consumes_unique hc ((c1.trans c2).trans c3)]
    have hx' : x = '[' := by simpa using hx
    simp [hx']

/-- no opening bracket, no links -/
theorem linkMatches_nil {text : Str} (h : '[' ∉ text) : linkMatches text = [] := by
  apply List.eq_nil_iff_forall_not_mem.2
  intro m hm
  have hsl := (linkMatches_ok text m hm).2.2.1
  apply h
  apply mem_slice' (a := m.start) (b := m.stop)
  rw [← hsl]
  rcases List.mem_append.1 (mem_sortMatches.1 hm) with hm | hm
  · obtain ⟨a, b, hab⟩ := (Rx.finditer_finds footnoteRx_nonEmpty text).matched m hm
    exact link_bracket (.inr hab)
  · obtain ⟨a, b, hab⟩ := (Rx.finditer_finds urlRx_nonEmpty text).matched m hm
    exact link_bracket (.inl hab)

theorem linksSound_of_no_bracket {text : Str} (h : '[' ∉ text) : LinksSound text := by
  unfold LinksSound
  rw [linkMatches_nil h]
  exact ⟨.nil, by simp⟩

theorem linkSplit_plain {text : Str} {ls : Bool} (h : '[' ∉ text) (hd : startsSingleDot text = false) :
    linkSplit text ls = .ok (if strip text = [] then { split := [], lead := [], eval := [] } else
      { split := [strip text], lead := [ls], eval := [true] }) := by
  unfold linkSplit
  rw [show sortMatches (footnoteRx.finditer text ++ urlRx.finditer text) = [] from linkMatches_nil h]
  simp only [List.foldlM_nil, pure, Except.pure, bind, Except.bind, moveDot, List.drop_zero, hd, if_false,
    Bool.false_eq_true]
  by_cases hb : strip text = []
  · simp [hb]
  · have : (strip text).isEmpty = false := by simpa using hb
    simp [this, hb]

/-! ## newline_split -/

/-- the four ways to write a line break tag -/
def IsBr (s : Str) : Prop := s = c!"<br>" ∨ s = c!"<br/>" ∨ s = c!"<br >" ∨ s = c!"<br />"

theorem optStep {x : Char} {st st' : MS} (h : (Rx.opt (.chr (· == x))).Step st st') :
    ∃ u, (u = [] ∨ u = [x]) ∧ st.Consumes st' u := by
  obtain ⟨u, hu, hall, _, hmx, _⟩ := repStep_chr h
  have := hmx 1 rfl
  refine ⟨u, ?_, hu⟩
  cases u with
  | nil => exact .inl rfl
  | cons a u =>
    cases u with
    | nil => right; have := hall a (by simp); simp at this; rw [this]
    | cons b u => simp at this

theorem br_text {pre post : Str} {m : Match} (h : htmlNewlineRx.matchAt pre post = some m) : IsBr m.text := by
  obtain ⟨st', hs, hc⟩ := consumes_text h
  obtain ⟨s1, h1, s2, h2, s3, h3, s4, h4, s5, h5, h6⟩ := hs
  obtain ⟨a, ha, c1⟩ := chrStep_consumes h1
  obtain ⟨b, hb, c2⟩ := chrStep_consumes h2
  obtain ⟨r, hr, c3⟩ := chrStep_consumes h3
  obtain ⟨u, hu, c4⟩ := optStep h4
  obtain ⟨v, hv, c5⟩ := optStep h5
  obtain ⟨g, hg, c6⟩ := chrStep_consumes h6
  rw [consumes_unique hc (((((c1.trans c2).trans c3).trans c4).trans c5).trans c6)]
  simp only [beq_iff_eq] at ha hb hr hg
  subst ha; subst hb; subst hr; subst hg
  unfold IsBr
  rcases hu with rfl | rfl <;> rcases hv with rfl | rfl <;> simp

theorem IsBr.stripped {s : Str} (h : IsBr s) : Stripped s := by
  rcases h with rfl | rfl | rfl | rfl <;> decide

theorem br_match {s : Str} (h : IsBr s) : (htmlNewlineRx.match? s).isSome = true := by
  rcases h with rfl | rfl | rfl | rfl <;> decide +kernel

/-- the tokens of `newline_split` -/
def BrTok (text : Str) (x : Str × Bool × Bool) : Prop :=
  Stripped x.1 ∧ (x.2.2 = false → IsBr x.1) ∧ (∀ c ∈ x.1, c ∈ text)

structure BrInv (pre text : Str) (st : LinkSt) : Prop where
  wf : st.toks.WF
  all : st.toks.All (BrTok text)
  lastEnd : st.lastEnd = pre.length
  nw : nw st.toks.split.flatten = nw pre.reverse

theorem brFold_inv {text : Str} {ls : Bool} {pre post : Str} {ms : List Match}
    (hf : Rx.Finds htmlNewlineRx pre post ms) : ∀ st, text = pre.reverse ++ post → BrInv pre text st →
    ∃ pre' post', text = pre'.reverse ++ post' ∧ BrInv pre' text (ms.foldl (newlineStep text ls) st) := by
  induction hf with
  | done hn => intro st ht hi; exact ⟨_, _, ht, hi⟩
  | step h1 h2 hne hs he hrest ih =>
    rename_i pre u rest m ms
    intro st ht hi
    have hsl : slice text st.lastEnd m.start = u := by
      rw [hi.lastEnd, hs, ht]
      have := slice_mid pre.reverse u (m.text ++ rest)
      simpa using this
    refine ih (newlineStep text ls st m) (by rw [ht]; simp) ?_
    have hmt : ∀ c ∈ m.text, c ∈ text := by intro c hc; rw [ht]; simp [hc]
    have hut : ∀ c ∈ u, c ∈ text := by intro c hc; rw [ht]; simp [hc]
    have tm : ∀ l, BrTok text (m.text, l, false) := fun l => ⟨(br_text h2).stripped, fun _ => br_text h2, hmt⟩
    unfold newlineStep
    rw [hsl]
    by_cases hb : strip u = []
    · simp only [hb, List.isEmpty_nil, Bool.not_true, Bool.false_eq_true, if_false]
      have := All.add hi.wf hi.all [m.text]
        [if st.toks.lead.isEmpty = true then ls else text[st.lastEnd]? == some ' '] [false] rfl rfl (by
          intro x hx
          simp only [List.zip_cons_cons, List.zip_nil_right, List.mem_cons, List.not_mem_nil, or_false] at hx
          subst hx; exact tm _)
      refine ⟨this.1, this.2, ?_, ?_⟩
      · rw [he]; simp; omega
      · simp only [List.flatten_append, List.flatten_cons, List.flatten_nil, List.append_nil, nw_append, hi.nw,
          List.reverse_append, List.reverse_reverse, nw_eq_nil.2 hb]
    · have hbe : (strip u).isEmpty = false := by simpa using hb
      simp only [hbe, Bool.not_false, if_true, List.append_assoc, List.cons_append, List.nil_append]
      have := All.add hi.wf hi.all [strip u, m.text]
        [if st.toks.lead.isEmpty = true then ls else text[st.lastEnd]? == some ' ', endsWith u [' ']] [true, false]
        rfl rfl (by
          intro x hx
          simp only [List.zip_cons_cons, List.zip_nil_right, List.mem_cons, List.not_mem_nil, or_false] at hx
          rcases hx with rfl | rfl
          · exact ⟨Stripped.of_strip hb, by simp, fun c hc => hut c (mem_of_mem_strip hc)⟩
          · exact tm _)
      refine ⟨this.1, this.2, ?_, ?_⟩
      · rw [he]; simp; omega
      · simp only [List.flatten_append, List.flatten_cons, List.flatten_nil, List.append_nil, nw_append, hi.nw,
          List.reverse_append, List.reverse_reverse, nw_strip, List.append_assoc]

theorem newlineSplit_out (text : Str) (ls : Bool) :
    ∃ t, newlineSplit text ls = .ok t ∧ t.WF ∧ t.All (BrTok text) ∧ nw t.split.flatten = nw text := by
  obtain ⟨pre, post, ht, hi⟩ := brFold_inv (ls := ls) (text := text) (Rx.finditer_finds htmlNewlineRx_nonEmpty text)
    { toks := { split := [], lead := [], eval := [] }, lastEnd := 0 } rfl
    ⟨⟨rfl, rfl⟩, by intro x hx; simp [Toks.triples] at hx, rfl, rfl⟩
  unfold newlineSplit
  dsimp only
  have hdrop : text.drop ((htmlNewlineRx.finditer text).foldl (newlineStep text ls)
      { toks := { split := [], lead := [], eval := [] }, lastEnd := 0 }).lastEnd = post := by
    rw [hi.lastEnd]
    have : text.drop pre.reverse.length = post := by
      conv => lhs; rw [ht]
      exact List.drop_left
    simpa using this
  rw [hdrop]
  have hnt : nw text = nw pre.reverse ++ nw post := by rw [ht, nw_append]
  by_cases hb : strip post = []
  · simp only [hb, List.isEmpty_nil, Bool.not_true, Bool.false_eq_true, if_false]
    refine ⟨_, rfl, hi.wf, hi.all, ?_⟩
    rw [hi.nw, hnt, nw_eq_nil.2 hb, List.append_nil]
  · have hbe : (strip post).isEmpty = false := by simpa using hb
    simp only [hbe, Bool.not_false, if_true]
    have := All.add hi.wf hi.all [strip post] [if (((htmlNewlineRx.finditer text).foldl (newlineStep text ls)
      { toks := { split := [], lead := [], eval := [] }, lastEnd := 0 }).lastEnd == 0) = true then ls else
      startsWith post c!" "] [true] rfl rfl (by
        intro x hx
        simp only [List.zip_cons_cons, List.zip_nil_right, List.mem_cons, List.not_mem_nil, or_false] at hx
        subst hx
        exact ⟨Stripped.of_strip hb, by simp, fun c hc => by
          have := mem_of_mem_strip hc
          rw [ht]; simp [this]⟩)
    refine ⟨_, rfl, this.1, this.2, ?_⟩
    simp only [List.flatten_append, List.flatten_cons, List.flatten_nil, List.append_nil, nw_append, hi.nw, nw_strip, hnt]

theorem newlineSplit_plain {text : Str} {ls : Bool} (h : '<' ∉ text) :
    newlineSplit text ls = .ok (if strip text = [] then { split := [], lead := [], eval := [] } else
      { split := [strip text], lead := [ls], eval := [true] }) := by
  have h0 : htmlNewlineRx.finditer text = [] := by
    apply List.eq_nil_iff_forall_not_mem.2
    intro m hm
    obtain ⟨a, b, hab⟩ := (Rx.finditer_finds htmlNewlineRx_nonEmpty text).matched m hm
    obtain ⟨_, _, hsl⟩ := Rx.finditer_bounds htmlNewlineRx_nonEmpty text m hm
    apply h
    apply mem_slice' (a := m.start) (b := m.stop)
    rw [← hsl]
    rcases br_text hab with h | h | h | h <;> rw [h] <;> simp
  unfold newlineSplit
  rw [h0]
  by_cases hb : strip text = []
  · simp [hb]
  · have : (strip text).isEmpty = false := by simpa using hb
    simp [this, hb]

/-! ## space_split -/

/-- the pieces between spaces that are not empty -/
def pieces (text : Str) : List Str := (splitChar ' ' text).filter (· != [])

theorem spaceLoop_eq (ls : Bool) (ws : List Str) : ∀ t : Toks, spaceLoop ls t ws =
    { split := t.split ++ (ws.filter (· != [])).map strip,
      lead := t.lead ++ (match ws.filter (· != []) with
        | [] => []
        | _ :: r => (if t.lead.isEmpty then ls else true) :: r.map fun _ => true),
      eval := t.eval ++ (ws.filter (· != [])).map fun _ => true } := by
  induction ws with
  | nil => intro t; simp [spaceLoop]
  | cons w ws ih =>
    intro t
    unfold spaceLoop
    cases w with
    | nil => simp only [List.isEmpty_nil, if_true, ih]; simp
    | cons c w =>
      simp only [List.isEmpty_cons, Bool.false_eq_true, if_false, ih]
      have hf : ((c :: w) :: ws).filter (· != []) = (c :: w) :: ws.filter (· != []) := by simp
      rw [hf]
      congr 1
      · simp
      · cases ws.filter (· != []) <;> simp
      · simp

theorem spaceSplit_eq (text : Str) (ls : Bool) : spaceSplit text ls =
    .ok { split := (pieces text).map strip,
          lead := match pieces text with
            | [] => []
            | _ :: r => ls :: r.map fun _ => true,
          eval := (pieces text).map fun _ => true } := by
  unfold spaceSplit
  rw [spaceLoop_eq]
  rfl

theorem mem_pieces {text w : Str} (h : w ∈ pieces text) : w ≠ [] ∧ ' ' ∉ w ∧ ∀ c ∈ w, c ∈ text := by
  obtain ⟨h1, h2⟩ := List.mem_filter.1 h
  exact ⟨by simpa using h2, fun h => (splitChar_mem ' ' text w h1 ' ' h).2 rfl,
    fun c hc => (splitChar_mem ' ' text w h1 c hc).1⟩

theorem pieces_nw (text : Str) : nw ((pieces text).map strip).flatten = nw text := by
  have h1 : ∀ ws : List Str, nw ((ws.filter (· != [])).map strip).flatten = nw ws.flatten := by
    intro ws
    induction ws with
    | nil => rfl
    | cons w ws ih =>
      cases w with
      | nil => simp [ih]
      | cons c w =>
        have hf : ((c :: w) :: ws).filter (· != []) = (c :: w) :: ws.filter (· != []) := by simp
        rw [hf]
        simp only [List.map_cons, List.flatten_cons, nw_append, nw_strip, ih]
  unfold pieces
  rw [h1, ← nw_pyJoin (sep := [' ']) (by decide), pyJoin_splitChar]

end MF
