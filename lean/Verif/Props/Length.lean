import Verif.Lemmas.Room
import Verif.Props.Errors
import Verif.Lemmas.Tables
/-!
# How long the result is

C130: the result has at most quadratically many characters.
-/

namespace MF

/-- The length of a thematic break. -/
def breakLen : Width → Nat
  | .inf => 3
  | .fin n => max 3 n.toNat

theorem breakLen_sub (w : Width) (k : Nat) : breakLen (w.sub k) ≤ breakLen w := by
  cases w with
  | inf => exact Nat.le_refl _
  | fin n => simp only [breakLen, Width.sub]; omega

theorem breakLen_add (w : Width) (k : Nat) : breakLen (w.sub (-(k : Int))) ≤ breakLen w + k := by
  cases w with
  | inf => simp only [Width.sub]; omega
  | fin n => simp only [breakLen, Width.sub]; omega

/-- The bound on the length of a line, on the average. -/
def rate (w : Width) (b B p : Nat) : Nat := breakLen w + 4 * ((B - p) + (B - b))

theorem rate_mono {w : Width} {b B B' p p' : Nat} (h1 : B' ≤ B) (h2 : p ≤ p') : rate w b B' p' ≤ rate w b B p := by
  unfold rate; omega

/-- What is known of the length of the reformatted text inside a quote or a list entry. -/
def SubLen (sub : Width → Str → Except Err Str) : Prop :=
  ∀ w ls out b B p, ls ≠ [] → (∀ l ∈ ls, NoLB l) → Room b B p ls → sub w (pyJoin ['\n'] ls ++ ['\n']) = .ok out →
    out.length ≤ 500 * (rate w b B p * wts 0 ls)

/-- Sections of which each line is written a bounded number of times. -/
theorem leaf_len {w : Width} {b B p : Nat} {lines : List Str} {out : Str} (hr : Room b B p lines)
    (h : wt 1 out + 2 ≤ 2000 * wts 1 lines) : out.length + 2 ≤ 500 * (rate w b B p * wts 0 lines) := by
  rw [wt_one] at h
  have h1 := hr.total
  have h2 : 4 * (B - b) * wts 0 lines ≤ rate w b B p * wts 0 lines := Nat.mul_le_mul_right _ (by unfold rate; omega)
  rw [Nat.mul_assoc] at h2
  omega

theorem fmtAtx_wt {lines : List Str} {out : Str} (h : fmtAtx lines = .ok out) : wt 1 out + 2 ≤ 2000 * wts 1 lines := by
  cases lines with
  | nil => cases h
  | cons l ls =>
    cases h
    have h1 : (lstripBy (· == '#') (strip l)).length ≤ (strip l).length := (lstripBy_sub _ _).length_le
    have h2 : (strip (lstripBy (· == '#') (strip l))).length ≤ (lstripBy (· == '#') (strip l)).length := (strip_sub _).length_le
    have h3 : (strip l).length ≤ l.length := (strip_sub _).length_le
    simp only [wt_one, wts, List.length_append, List.length_replicate, List.length_cons, List.length_nil, atxDepth, atxContent]
    omega

theorem wts_sublist {g : Nat} {a b : List Str} (h : a.Sublist b) : wts g a ≤ wts g b := by
  induction h with
  | slnil => exact Nat.le_refl _
  | cons _ _ ih => simp only [wts]; omega
  | cons_cons _ _ ih => simp only [wts]; omega

theorem inner_sub {α : Type} (xs : List α) : (inner xs).Sublist xs := (List.dropLast_sublist _).trans (List.drop_sublist _ _)

theorem fmtFenced_wt {lines : List Str} {out : Str} (h : fmtFenced lines = .ok out) : wt 1 out + 2 ≤ 2000 * wts 1 lines := by
  cases lines with
  | nil => cases h
  | cons l ls =>
    simp only [fmtFenced] at h
    split at h
    · cases h
    · rename_i f r hr
      cases h
      refine Nat.le_trans (Nat.add_le_add_right (wt_pyJoin' (by omega) '\n' _) 2) ?_
      refine Nat.le_trans (Nat.add_le_add_right (wts_map (fun s => wt_sublist (rstrip_sub s)) _) 2) ?_
      have h1 : (lstripBy (· == f) (f :: r)).length ≤ (f :: r).length := (lstripBy_sub _ _).length_le
      have h2 : (strip (lstripBy (· == f) (f :: r))).length ≤ (lstripBy (· == f) (f :: r)).length := (strip_sub _).length_le
      have h3 : (f :: r).length ≤ l.length := by rw [← hr]; exact (strip_sub _).length_le
      have h4 : wts 1 (inner (l :: ls)) ≤ wts 1 (l :: ls) := wts_sublist (inner_sub _)
      simp only [wts_append, wts, wt_one, List.length_append, List.length_replicate] at h4 ⊢
      omega

theorem fmtIndented_wt {lines : List Str} {out : Str} (h : fmtIndented lines = .ok out) (hne : lines ≠ []) :
    wt 1 out + 2 ≤ 2000 * wts 1 lines := by
  cases h
  have h1 := wt_pyJoin' (g := 1) (by omega) '\n' (lines.map rstrip)
  have h2 := wts_map (g := 1) (f := rstrip) (fun s => wt_sublist (rstrip_sub s)) lines
  have h3 := wts_pos (g := 1) hne
  omega

theorem wt_parContent' (lines : List Str) (hne : lines ≠ []) : wt 1 (parContent lines) + 1 ≤ wts 1 lines := by
  have h1 := wt_pyJoin (g := 1) (by omega) ' ' (lines.map strip) (by simpa using hne)
  have h2 := wts_map (g := 1) (f := strip) (wt_strip 1) lines
  unfold parContent
  omega

theorem fmtPar_wt {w : Width} {lines : List Str} {out : Str} (h : fmtPar w lines = .ok out) :
    wt 1 out + 2 ≤ 2000 * wts 1 lines := by
  simp only [fmtPar, bind, Except.bind] at h
  split at h
  · cases h
  · rename_i text ht
    split at h
    · cases h
    · rename_i l hl
      cases h
      have hne : lines ≠ [] := by rintro rfl; cases hl
      have h1 := wt_parContent' lines hne
      have h2 := wt_wrap (g := 1) (by omega) ht
      split
      · rw [wt_append, show wt 1 c!"  " = 2 by decide]; omega
      · omega

theorem maxLen_le {ls : List Str} {n : Nat} (h : maxLen ls = .ok n) : n ≤ wts 1 ls := by
  cases ls with
  | nil => cases h
  | cons l ls =>
    cases h
    have key : ∀ (ls : List Str) (k : Nat), ls.foldl (fun n s => max n s.length) k ≤ k + wts 1 ls := by
      intro ls
      induction ls with
      | nil => intro k; simp [wts]
      | cons x xs ih =>
        intro k
        have := ih (max k x.length)
        simp only [List.foldl_cons, wts, wt_one]
        omega
    have := key ls l.length
    simp only [wts, wt_one]
    omega

theorem fmtSetext_wt {w : Width} {lines : List Str} {out : Str} (h : fmtSetext w lines = .ok out) :
    wt 1 out + 2 ≤ 2000 * wts 1 lines := by
  simp only [fmtSetext] at h
  split at h
  · cases h
  · rename_i hlen
    simp only [bind, Except.bind] at h
    split at h
    · cases h
    · rename_i text ht
      split at h
      · cases h
      · split at h
        · cases h
        · rename_i len hmax _ c r hc
          cases h
          have hne : lines.dropLast ≠ [] := by
            intro h
            have := congrArg List.length h
            simp at this; omega
          have h1 := wt_parContent' _ hne
          have h2 := wt_wrap (g := 1) (by omega) ht
          have h3 := maxLen_le hmax
          have h4 := (wts_splitlines (g := 1) (by omega) text).1
          have h5 := wts_dropLast 1 lines
          simp only [wt_one, List.length_append, List.length_replicate, List.length_cons, List.length_nil] at h1 h2 h3 h4 ⊢
          omega

theorem fmtThematic_len {w : Width} {lines : List Str} {out : Str} (h : fmtThematic w lines = .ok out) (hne : lines ≠ [])
    (b B p : Nat) : out.length + 2 ≤ 500 * (rate w b B p * wts 0 lines) := by
  have h1 : out.length ≤ breakLen w := by
    cases lines with
    | nil => cases h
    | cons l ls =>
      simp only [fmtThematic] at h
      split at h
      · cases h
      · split at h
        · cases h; simp [breakLen]
        · cases h; simp only [mul, List.length_replicate, breakLen]; omega
  have h2 := wts_pos (g := 0) hne
  have h3 : 3 ≤ breakLen w := by cases w <;> simp only [breakLen] <;> omega
  have h4 : breakLen w * 1 ≤ rate w b B p * wts 0 lines := Nat.mul_le_mul (by unfold rate; omega) h2
  omega

/-! ### Quotes -/

theorem lstrip_spaces_mark (k : Nat) (r : Str) : lstrip (List.replicate k ' ' ++ '>' :: r) = '>' :: r := by
  induction k with
  | zero => rfl
  | succ k ih => rw [List.replicate_succ, List.cons_append]; exact ih

theorem fmtQuote_len {sub : Width → Str → Except Err Str} (hs : SubLen sub) (hc : SubCount sub)
    (hstuck : ∀ w l ls out, NoMark l → (∀ x ∈ l :: ls, NoLB x) → sub w (pyJoin ['\n'] (l :: ls) ++ ['\n']) ≠ .ok out)
    {w : Width} {lines : List Str} {out : Str} (h : fmtQuote sub w lines = .ok out) (hl : ∀ l ∈ lines, NoLB l)
    (hq : ∀ l, lines.head? = some l → isQuote l = true) {b B p : Nat} (hr : Room b B p lines) :
    out.length + 1 ≤ 500 * (rate w b B p * wts 0 lines) := by
  have hne : lines ≠ [] := by rintro rfl; cases h
  cases lines with
  | nil => exact absurd rfl hne
  | cons l ls =>
    have hql := hq l rfl
    simp only [fmtQuote, bind, Except.bind] at h
    split at h
    · cases h
    · rename_i text ht
      cases h
      by_cases hm : ∃ r, Marked l r
      · obtain ⟨r, k, hk, rfl⟩ := hm
        have hr' := hr.quote hk
        have hnl := quoteInner_noLB hl
        have hine := quoteInner_ne hne
        have e1 := hs _ _ _ _ _ _ hine hnl hr' ht
        obtain ⟨e2, x, rfl, hx⟩ := sub_count hc hine ht
        have e3 := wts_quoteInner ((List.replicate k ' ' ++ '>' :: r) :: ls)
        have e4 := splitlines_length hx
        have e5 := wts_splitlines_nl (g := 1) (by omega) x
        rw [wt_one] at e5
        have hind : ((lstrip (List.replicate k ' ' ++ '>' :: r)).length : Int) - (List.replicate k ' ' ++ '>' :: r).length = -(k : Int) := by
          have := lstrip_spaces_mark k r
          rw [this]
          simp only [List.length_append, List.length_replicate, List.length_cons]
          omega
        have hpre : ∀ pre : Str, pre.length ≤ 2 →
            (pyJoin ['\n'] ((splitlines (x ++ ['\n'])).map fun line => strip (pre ++ line))).length + 1 ≤
              (x ++ ['\n']).length + 2 * nl (x ++ ['\n']) := by
          intro pre hp
          have f1 := wt_pyJoin (g := 1) (by omega) '\n' ((splitlines (x ++ ['\n'])).map fun line => strip (pre ++ line))
            (by simpa using splitlines_concat_ne x '\n' (by decide))
          have f2 : ∀ ys : List Str, wts 1 (ys.map fun line => strip (pre ++ line)) ≤ wts 1 ys + 2 * ys.length := by
            intro ys
            induction ys with
            | nil => simp [wts]
            | cons y ys ih =>
              have := (strip_sub (pre ++ y)).length_le
              simp only [List.map_cons, wts, wt_one, List.length_cons, List.length_append] at this ih ⊢
              omega
          have f3 := f2 (splitlines (x ++ ['\n']))
          rw [wt_one] at f1
          rw [e4] at f3
          omega
        have hw : ∀ q : Bool, breakLen (if q = true then ((w.sub (-(k : Int))).sub 1).sub 1 else (w.sub (-(k : Int))).sub 1) ≤ breakLen w + k := by
          intro q
          have g1 := breakLen_add w k
          have g2 := breakLen_sub (w.sub (-(k : Int))) 1
          have g3 := breakLen_sub ((w.sub (-(k : Int))).sub 1) 1
          split
          · exact Nat.le_trans g3 (Nat.le_trans g2 g1)
          · exact Nat.le_trans g2 g1
        have hroom := hr'.line_le _ (List.getLast_mem hine)
        have hroom' := hr'.length_le
        have hfin : ∀ W : Width, breakLen W ≤ breakLen w + k →
            500 * (rate W (b + 1) B (p + k) * wts 0 (quoteInner ((List.replicate k ' ' ++ '>' :: r) :: ls)).1) +
              2 * (500 * wts 0 (quoteInner ((List.replicate k ' ' ++ '>' :: r) :: ls)).1) ≤
            500 * (rate w b B p * wts 0 ((List.replicate k ' ' ++ '>' :: r) :: ls)) := by
          intro W hW
          have h1 : rate W (b + 1) B (p + k) + 2 ≤ rate w b B p := by unfold rate; omega
          have h2 := Nat.mul_le_mul h1 e3
          rw [Nat.add_mul] at h2
          omega
        rw [hind] at e1 ⊢
        have hmul : mul ' ' (-(k : Int)) = [] := by
          simp [mul]
        rw [hmul]
        have := hw (quoteInner ((List.replicate k ' ' ++ '>' :: r) :: ls)).2
        cases hb : (quoteInner ((List.replicate k ' ' ++ '>' :: r) :: ls)).2 with
        | true =>
          simp only [hb, if_true] at e1 this ⊢
          have := hfin _ this
          have := hpre ([] ++ ['>'] ++ [' ']) (by decide)
          omega
        | false =>
          simp only [hb, Bool.false_eq_true, if_false] at e1 this ⊢
          have := hfin _ this
          have := hpre ([] ++ ['>']) (by decide)
          omega
      · have hst : NoMark l := ⟨hql, fun r hr => hm ⟨r, hr⟩⟩
        obtain ⟨l', ls', f1, f2⟩ := noMark_head (ls := ls) hst
        simp only [reformatLines, f1] at ht
        refine absurd ht (hstuck _ _ _ _ f2 ?_)
        rw [← f1]
        exact quoteInner_noLB hl

/-! ### Lists -/

theorem Room.entry {b m p : Nat} {e d : List Str} (h : dedentEntry e = .ok d) (hr : Room b m p e) :
    ∃ x xs ws mk r, e = x :: xs ∧ MarkerAt x ws mk r ∧ Room b m (p + (ws.length + mk.length)) d ∧ p + x.length + 1 ≤ m := by
  cases e with
  | nil => cases h
  | cons x xs =>
    simp only [dedentEntry, bind, Except.bind] at h
    split at h
    · cases h
    · rename_i pos hpos
      cases h
      simp only [listMarkerEndPos] at hpos
      split at hpos
      · cases hpos
      · rename_i n hn
        cases hpos
        obtain ⟨ws, mk, r, hmk, hp⟩ := markerEnd_sound hn
        obtain ⟨n, rfl⟩ : ∃ n, n = pos := ⟨_, rfl⟩
        obtain ⟨e, core, p', h1, h2, h3, h4⟩ := hr
        have hlen : ws.length + mk.length ≤ x.length := by rw [hmk.eq]; simp only [List.length_append]; omega
        have he : e = 0 := by
          cases e with
          | zero => rfl
          | succ e =>
            exfalso
            have heq := hmk.eq
            rw [h3, List.replicate_succ, List.cons_append] at heq
            cases ws with
            | cons c ws =>
              have hc := (List.cons.inj heq).1
              have := hmk.ws c (by simp)
              rw [← hc] at this
              exact absurd this (by decide)
            | nil =>
              rw [List.nil_append] at heq
              rcases hmk.marker with h | h | h | ⟨ds, hds, hdig, h⟩
              · rw [h] at heq; exact absurd (List.cons.inj heq).1 (by decide)
              · rw [h] at heq; exact absurd (List.cons.inj heq).1 (by decide)
              · rw [h] at heq; exact absurd (List.cons.inj heq).1 (by decide)
              · cases ds with
                | nil => exact hds rfl
                | cons c ds =>
                  rw [h] at heq
                  have hc := (List.cons.inj heq).1
                  have := hdig c (by simp)
                  rw [← hc] at this
                  exact absurd this (by decide)
        subst he
        simp only [List.replicate_zero, List.nil_append] at h3
        subst h3
        have hm := h4.length_le
        refine ⟨x, xs, ws, mk, r, rfl, hmk, ?_, by omega⟩
        have hmap := Room.map (b := b) (B := m) (f := fun line => lstrip (line.take (n + 1)) ++ line.drop (n + 1)) (by
          intro l
          have := (lstripBy_sub isWs (l.take (n + 1))).length_le
          have h2 := congrArg List.length (List.take_append_drop (n + 1) l)
          simp only [List.length_append] at h2 ⊢
          show (lstripBy isWs (l.take (n + 1))).length + _ ≤ _
          omega) (by
          intro l
          rw [List.take_succ_cons, List.drop_succ_cons, show ∀ t : Str, lstrip ('>' :: t) = '>' :: t from fun _ => lstrip_cons_of_not _ _ (by decide), List.cons_append, List.take_append_drop]) h4
        refine ⟨0, x.drop (n + 1), p' + min (n + 1) x.length, by omega, by omega, rfl, hmap.low ?_⟩
        rw [List.length_drop]
        omega

theorem length_pyJoin_sep (sp : Str) : ∀ ls : List Str,
    (pyJoin (['\n'] ++ sp) ls).length = (pyJoin ['\n'] ls).length + sp.length * (ls.length - 1)
  | [] => by simp [pyJoin]
  | [x] => by simp [pyJoin]
  | x :: y :: r => by
    have ih := length_pyJoin_sep sp (y :: r)
    simp only [pyJoin, List.length_append, List.length_cons, List.length_nil, Nat.add_sub_cancel] at ih ⊢
    rw [ih, Nat.mul_add]
    omega

theorem fmtEntry_len {sub : Width → Str → Except Err Str} (hs : SubLen sub) (hc : SubCount sub) {w : Width} {indent : Nat} {marker : Str}
    {e : List Str} {out : Str} (h : fmtEntry sub w indent marker e = .ok out) (hm : marker.length + 1 ≤ indent) (hne : e ≠ [])
    (hl : ∀ l ∈ e, NoLB l) {b B p R : Nat} (hr : Room b B p e) (hR : rate w b B p + indent ≤ R) :
    out.length + 1 ≤ 500 * (R * wts 0 e) := by
  simp only [fmtEntry, bind, Except.bind] at h
  split at h
  · cases h
  · rename_i text ht
    cases h
    have e1 := hs _ _ _ _ _ _ hne hl hr ht
    obtain ⟨e2, x, rfl, _⟩ := sub_count hc hne ht
    have hsplit : ∀ s : Str, (splitChar '\n' s).length = nl s + 1 := by
      intro s
      have := nl_pyJoin (sep := ['\n']) (by decide) (splitChar_ne_nil '\n' s)
      rw [pyJoin_splitChar, nls_none (fun l hl hc => (splitChar_mem '\n' s l hl _ hc).2 rfl)] at this
      exact this.symm
    have e3 := length_pyJoin_sep (List.replicate indent ' ') (splitChar '\n' (rstripBy (· == '\n') x))
    rw [hsplit, pyJoin_splitChar, List.length_replicate, Nat.add_sub_cancel] at e3
    have e4 : nl (rstripBy (· == '\n') x) ≤ nl x := nl_sub (rstripBy_sub _ _)
    have e5 : (rstripBy (· == '\n') x).length ≤ x.length := (rstripBy_sub _ _).length_le
    rw [nl_append, show nl ['\n'] = 1 by decide] at e2
    rw [rstripBy_append_all _ _ _ (by simp)]
    simp only [List.length_append, List.length_cons, List.length_nil] at e1 e3 ⊢
    rw [e3]
    have h1 : rate (w.sub indent) b B p + indent ≤ R := by
      have := breakLen_sub w indent
      unfold rate at hR ⊢; omega
    have h2 : (rate (w.sub indent) b B p + indent) * wts 0 e ≤ R * wts 0 e := Nat.mul_le_mul_right _ h1
    have h3 : indent * (nl x + 1) ≤ indent * (500 * wts 0 e) := Nat.mul_le_mul_left _ e2
    have h4 : indent * nl (rstripBy (· == '\n') x) ≤ indent * nl x := Nat.mul_le_mul_left _ e4
    rw [Nat.add_mul] at h2
    rw [Nat.mul_add, Nat.mul_left_comm] at h3
    omega

/-- One entry of a list, whose marker takes up at least `q` characters. -/
theorem entry_len_at {sub : Width → Str → Except Err Str} (hs : SubLen sub) (hc : SubCount sub) {w : Width} {indent : Nat} {marker : Str}
    {e d : List Str} {out : Str} (hd : dedentEntry e = .ok d) (h : fmtEntry sub w indent marker d = .ok out) (hm : marker.length + 1 ≤ indent)
    (hl : ∀ l ∈ e, NoLB l) {b m p R : Nat} (hr : Room b m p e) {q : Nat}
    (hq : ∀ x xs ws mk r, e = x :: xs → MarkerAt x ws mk r → q ≤ ws.length + mk.length) (hR : rate w b m (p + q) + indent ≤ R) :
    out.length + 1 ≤ 500 * (R * wts 0 e) := by
  obtain ⟨x, xs, ws, mk, r, rfl, hmk, hroom, hlen⟩ := hr.entry hd
  obtain ⟨d1, d2⟩ := dedentEntry_wts hd
  have hdl : ∀ l ∈ d, NoLB l := by
    intro l hl' c hc'
    have hF : ∀ l ∈ x :: xs, Fine (fun c => isLB c = false) l := fun l hl0 c hc0 => .inr ⟨hl l hl0 c hc0, .inl (hl l hl0 c hc0)⟩
    rcases dedentEntry_fine hd hF l hl' c hc' with rfl | ⟨h1, _⟩
    · exfalso
      have hF : ∀ l ∈ x :: xs, ∀ c ∈ l, c ≠ '\n' := fun l hl0 c hc0 e => by
        subst e; exact absurd (hl l hl0 _ hc0) (by decide)
      simp only [dedentEntry, bind, Except.bind] at hd
      split at hd
      · cases hd
      · cases hd
        rcases List.mem_cons.1 hl' with rfl | hl'
        · exact hF x (by simp) _ (List.mem_of_mem_drop hc') rfl
        · obtain ⟨y, hy, rfl⟩ := List.mem_map.1 hl'
          rcases List.mem_append.1 hc' with hc' | hc'
          · exact hF y (by simp [hy]) _ (List.mem_of_mem_take (mem_of_mem_lstrip hc')) rfl
          · exact hF y (by simp [hy]) _ (List.mem_of_mem_drop hc') rfl
    · exact h1
  have := fmtEntry_len hs hc h hm d1 hdl (hroom.low (Nat.add_le_add_left (hq _ _ _ _ _ rfl hmk) p)) hR
  have h2 := Nat.mul_le_mul_left R d2
  omega

theorem entry_len {sub : Width → Str → Except Err Str} (hs : SubLen sub) (hc : SubCount sub) {w : Width} {indent : Nat} {marker : Str}
    {e d : List Str} {out : Str} (hd : dedentEntry e = .ok d) (h : fmtEntry sub w indent marker d = .ok out) (hm : marker.length + 1 ≤ indent)
    (hl : ∀ l ∈ e, NoLB l) {b m p R : Nat} (hr : Room b m p e) (hR : rate w b m (p + 1) + indent ≤ R) :
    out.length + 1 ≤ 500 * (R * wts 0 e) :=
  entry_len_at hs hc hd h hm hl hr (fun x xs ws mk r _ hmk => by
    obtain ⟨c, t, h, _⟩ := hmk.marker.head
    rw [h, List.length_cons]; omega) hR

theorem fmtBulletEntries_len {sub : Width → Str → Except Err Str} (hs : SubLen sub) (hc : SubCount sub) {w : Width} {c : Char} {b B R : Nat}
    (es : List (List Str)) : ∀ ds ts p, dedentEntries es = .ok ds → fmtBulletEntries sub w [c] ds = .ok ts →
    (∀ e ∈ es, ∀ l ∈ e, NoLB l) → Room b B p es.flatten → rate w b B p ≤ R → wts 1 ts ≤ 500 * (R * wts 0 es.flatten) := by
  induction es with
  | nil => intro ds ts p hd h _ _ _; cases hd; cases h; simp [wts]
  | cons e es ih =>
    intro ds ts p hd h hl hr hR
    obtain ⟨d, ds', h1, h2, rfl⟩ := mapM_cons_ok hd
    simp only [fmtBulletEntries, bind, Except.bind] at h
    split at h
    · cases h
    · rename_i t1 ht1
      split at h
      · cases h
      · rename_i ts1 hts1
        cases h
        rw [List.flatten_cons] at hr
        obtain ⟨m, r1, r2, r3⟩ := hr.append
        have hm := r1.length_le
        have hne : e ≠ [] := by rintro rfl; cases h1
        have hne' := List.length_pos_iff.2 hne
        have k1 := entry_len hs hc h1 ht1 (by simp) (hl e (by simp)) r1 (R := R) (by unfold rate at hR ⊢; omega)
        have k2 := ih ds' ts1 m h2 hts1 (fun e he => hl e (by simp [he])) r2 (by unfold rate at hR ⊢; omega)
        simp only [wts, wt_one, List.flatten_cons, wts_append, Nat.mul_add]
        omega

theorem dedentEntries_length : ∀ {es ds : List (List Str)}, List.mapM dedentEntry es = .ok ds → es.length ≤ es.flatten.length
  | [], _, _ => Nat.zero_le _
  | e :: es, ds, h => by
    obtain ⟨d, ds', h1, h2, rfl⟩ := mapM_cons_ok h
    have hne : e ≠ [] := by rintro rfl; cases h1
    have hne' := List.length_pos_iff.2 hne
    have := dedentEntries_length h2
    simp only [List.flatten_cons, List.length_append, List.length_cons]
    omega

theorem fmtOrderedEntries_len {sub : Width → Str → Except Err Str} (hs : SubLen sub) (hc : SubCount sub) {w : Width} {indent b B R : Nat}
    (es : List (List Str)) : ∀ k ds ts p, dedentEntries es = .ok ds → fmtOrderedEntries sub w indent k ds = .ok ts →
    (∀ e ∈ es, ∀ l ∈ e, NoLB l) → Room b B p es.flatten → (natStr (k + es.length - 1)).length + 2 ≤ indent →
    rate w b B p + indent ≤ R + 4 * es.length → wts 1 ts ≤ 500 * (R * wts 0 es.flatten) := by
  induction es with
  | nil => intro k ds ts p hd h _ _ _ _; cases hd; cases h; simp [wts]
  | cons e es ih =>
    intro k ds ts p hd h hl hr hk hR
    obtain ⟨d, ds', h1, h2, rfl⟩ := mapM_cons_ok hd
    simp only [fmtOrderedEntries, bind, Except.bind] at h
    split at h
    · cases h
    · rename_i t1 ht1
      split at h
      · cases h
      · rename_i ts1 hts1
        cases h
        rw [List.flatten_cons] at hr
        obtain ⟨m, r1, r2, r3⟩ := hr.append
        have hm := r1.length_le
        have hne : e ≠ [] := by rintro rfl; cases h1
        have hne' := List.length_pos_iff.2 hne
        have hrest : m + es.length ≤ B := by
          have := r2.length_le
          have := dedentEntries_length h2
          omega
        simp only [List.length_cons] at hk hR
        have hmono := natStr_length_mono (show k ≤ k + (es.length + 1) - 1 by omega)
        have k1 := entry_len hs hc h1 ht1 (by simp only [List.length_append, List.length_cons, List.length_nil]; omega) (hl e (by simp)) r1
          (R := R) (by unfold rate at hR ⊢; omega)
        have k2 := ih (k + 1) ds' ts1 m h2 hts1 (fun e he => hl e (by simp [he])) r2
          (by rw [show k + 1 + es.length - 1 = k + (es.length + 1) - 1 by omega]; exact hk) (by unfold rate at hR ⊢; omega)
        simp only [wts, wt_one, List.flatten_cons, wts_append, Nat.mul_add]
        omega

theorem fmtBullet_len {sub : Width → Str → Except Err Str} (hs : SubLen sub) (hc : SubCount sub) {w : Width} {lines : List Str} {out : Str}
    (h : fmtBullet sub w lines = .ok out) (hl : ∀ l ∈ lines, NoLB l) {b B p : Nat} (hr : Room b B p lines) :
    out.length + 1 ≤ 500 * (rate w b B p * wts 0 lines) := by
  cases lines with
  | nil => cases h
  | cons l ls =>
    simp only [fmtBullet, bind, Except.bind] at h
    split at h
    · cases h
    · rename_i es hes
      split at h
      · cases h
      · rename_i ds hds
        split at h
        · cases h
        · rename_i m r hm
          split at h
          · cases h
          · rename_i ts hts
            cases h
            have e1 := splitList_flatten hes
            have hne : es ≠ [] := by rintro rfl; cases e1
            obtain ⟨d1, _, d3⟩ := dedentEntries_wts es ds hds
            have k := fmtBulletEntries_len hs hc es ds ts p hds hts (fun e he l hl' => hl l (by
              rw [← e1]; exact List.mem_flatten.2 ⟨e, he, hl'⟩)) (by rw [e1]; exact hr) (Nat.le_refl _)
            rw [e1] at k
            have htn : ts ≠ [] := by
              cases ds with
              | nil => exact absurd rfl (d3 hne)
              | cons d ds =>
                simp only [fmtBulletEntries, bind, Except.bind] at hts
                split at hts
                · cases hts
                · split at hts
                  · cases hts
                  · cases hts; simp
            have := wt_pyJoin (g := 1) (by omega) '\n' ts htn
            rw [wt_one] at this
            omega

theorem parseNat_lt {ds : Str} (h : ∀ d ∈ ds, isDigit d = true) : parseNat ds < 10 ^ ds.length := by
  have key : ∀ (ds : Str) (a k : Nat), (∀ d ∈ ds, isDigit d = true) → a < 10 ^ k →
      ds.foldl (fun n c => 10 * n + (c.toNat - 48)) a < 10 ^ (k + ds.length) := by
    intro ds
    induction ds with
    | nil => intro a k _ h; exact h
    | cons c ds ih =>
      intro a k hd h
      rw [List.foldl_cons, List.length_cons, show k + (ds.length + 1) = k + 1 + ds.length by omega]
      refine ih _ _ (fun d hd' => hd d (by simp [hd'])) ?_
      have hc := hd c (by simp)
      have : c.toNat - 48 ≤ 9 := by
        simp only [isDigit, Bool.and_eq_true, decide_eq_true_eq] at hc
        have h2 : c.toNat ≤ '9'.toNat := hc.2
        have h3 : '9'.toNat = 57 := by decide
        omega
      rw [Nat.pow_succ]
      omega
  have := key ds 0 0 h (by decide)
  rwa [Nat.zero_add] at this

theorem natStr_length_le {n k : Nat} (h : n < 10 ^ (k + 1)) : (natStr n).length ≤ k + 1 := by
  have key : ∀ fuel n k, n < fuel → n < 10 ^ (k + 1) → (digitsAux fuel n).length ≤ k + 1 := by
    intro fuel
    induction fuel with
    | zero => intro n k h; omega
    | succ fuel ih =>
      intro n k h1 h2
      simp only [digitsAux]
      by_cases h3 : n < 10
      · rw [if_pos h3]; simp
      · rw [if_neg h3]
        cases k with
        | zero => exact absurd h2 (by simpa using h3)
        | succ k =>
          have := ih (n / 10) k (by omega) (by rw [Nat.pow_succ] at h2; omega)
          simp only [List.length_append, List.length_cons, List.length_nil]
          omega
  exact key _ _ _ (by omega) h

theorem pow_add_le (k : Nat) : ∀ j, 10 ^ k + j ≤ 10 ^ (k + j)
  | 0 => Nat.le_refl _
  | j + 1 => by
    have := pow_add_le k j
    have h1 : 0 < 10 ^ k := Nat.pow_pos (by decide)
    rw [← Nat.add_assoc k, Nat.pow_succ]
    omega

/-- The number at the start of a line with a marker is the one in the marker. -/
theorem firstNumber_digits {l ws mk r : Str} {f : Nat} (h : MarkerAt l ws mk r) (hf : firstNumber l = .ok f) : f < 10 ^ (mk.length - 1) := by
  rcases h.marker with hm | hm | hm | ⟨ds, hne, hds, rfl⟩
  · exfalso
    subst hm
    rw [firstNumber, h.eq, lstrip_append_ws _ _ h.ws, List.singleton_append, lstrip_cons_of_not _ _ (by decide)] at hf
    simp [lstripBy, List.dropWhile, show isDigit '*' = false by decide] at hf
  · exfalso
    subst hm
    rw [firstNumber, h.eq, lstrip_append_ws _ _ h.ws, List.singleton_append, lstrip_cons_of_not _ _ (by decide)] at hf
    simp [lstripBy, List.dropWhile, show isDigit '-' = false by decide] at hf
  · exfalso
    subst hm
    rw [firstNumber, h.eq, lstrip_append_ws _ _ h.ws, List.singleton_append, lstrip_cons_of_not _ _ (by decide)] at hf
    simp [lstripBy, List.dropWhile, show isDigit '+' = false by decide] at hf
  · rw [firstNumber_marker h hne hds] at hf
    cases hf
    rw [List.length_append]
    exact parseNat_lt hds

theorem fmtOrdered_len {sub : Width → Str → Except Err Str} (hs : SubLen sub) (hc : SubCount sub) {w : Width} {lines : List Str} {out : Str}
    (h : fmtOrdered sub w lines = .ok out) (hl : ∀ l ∈ lines, NoLB l) {b B p : Nat} (hr : Room b B p lines) :
    out.length + 1 ≤ 500 * (rate w b B p * wts 0 lines) := by
  cases lines with
  | nil => cases h
  | cons l ls =>
    simp only [fmtOrdered, bind, Except.bind] at h
    split at h
    · cases h
    · rename_i es hes
      split at h
      · cases h
      · rename_i first hfirst
        split at h
        · cases h
        · rename_i ds hds
          split at h
          · cases h
          · rename_i ts hts
            cases h
            have e1 := splitList_flatten hes
            cases es with
            | nil => cases e1
            | cons e es =>
              obtain ⟨d, ds', h1, h2, rfl⟩ := mapM_cons_ok hds
              have hle : ∀ e' ∈ e :: es, ∀ l ∈ e', NoLB l := fun e' he l' hl' => hl l' (by
                rw [← e1]; exact List.mem_flatten.2 ⟨e', he, hl'⟩)
              rw [← e1, List.flatten_cons] at hr ⊢
              obtain ⟨m, r1, r2, r3⟩ := hr.append
              obtain ⟨x, xs, ws, mk, r, rfl, hmk, _, hroom⟩ := r1.entry h1
              obtain rfl : x = l := by
                rw [List.flatten_cons, List.cons_append] at e1
                exact (List.cons.inj e1).1
              have hdig := firstNumber_digits hmk hfirst
              have hmk1 : 1 ≤ mk.length := by
                obtain ⟨c, t, h, _⟩ := hmk.marker.head
                rw [h]; simp
              have hxl : ws.length + mk.length ≤ x.length := by rw [hmk.eq]; simp only [List.length_append]; omega
              have hrest : m + es.length ≤ B := by
                have := r2.length_le
                have := dedentEntries_length h2
                omega
              simp only [List.length_cons] at hts
              obtain ⟨i, hi⟩ : ∃ i, i = (natStr (first + (es.length + 1) - 1)).length + 2 := ⟨_, rfl⟩
              rw [← hi] at hts
              have hind : i ≤ mk.length + es.length + 2 := by
                rw [hi]
                have h3 := pow_add_le (mk.length - 1) es.length
                have h4 : 10 ^ (mk.length - 1 + es.length) ≤ 10 ^ (mk.length - 1 + es.length + 1) := Nat.pow_le_pow_right (by decide) (by omega)
                have := natStr_length_le (n := first + (es.length + 1) - 1) (k := mk.length - 1 + es.length) (by omega)
                omega
              simp only [fmtOrderedEntries, bind, Except.bind] at hts
              split at hts
              · cases hts
              · rename_i t1 ht1
                split at hts
                · cases hts
                · rename_i ts1 hts1
                  cases hts
                  have hmono := natStr_length_mono (show first ≤ first + (es.length + 1) - 1 by omega)
                  have k1 := entry_len_at hs hc h1 ht1 (by simp only [List.length_append, List.length_cons, List.length_nil]; omega)
                    (hle _ (by simp)) r1 (q := ws.length + mk.length) (R := rate w b B p) (by
                      intro x' xs' ws' mk' r' he hmk'
                      cases he
                      obtain ⟨rfl, rfl, rfl⟩ := hmk.unique hmk'
                      exact Nat.le_refl _) (by unfold rate; omega)
                  have k2 := fmtOrderedEntries_len hs hc es (first + 1) ds' ts1 m h2 hts1 (fun e he => hle e (by simp [he])) r2
                    (by rw [show first + 1 + es.length - 1 = first + (es.length + 1) - 1 by omega]; omega) (R := rate w b B p)
                    (by unfold rate; omega)
                  have := wt_pyJoin (g := 1) (by omega) '\n' (t1 :: ts1) (by simp)
                  simp only [wts, wt_one] at this
                  rw [wts_append, Nat.mul_add]
                  omega

/-! ### Tables -/

def colSum : List Nat → Nat
  | [] => 0
  | w :: ws => w + 3 + colSum ws

theorem length_align (s : Str) (w : Nat) : (centerAlign (strip s) w).length ≤ s.length + w ∧ (leftAlign (strip s) w).length ≤ s.length + w ∧
    (rightAlign (strip s) w).length ≤ s.length + w := by
  have h : (strip s).length ≤ s.length := (strip_sub s).length_le
  simp only [centerAlign, leftAlign, rightAlign, mul, List.length_append, List.length_replicate]
  omega

theorem headerCell_le (c : Str) (w : Nat) (a : Align) : (headerCell c w a).length ≤ c.length + w + 2 := by
  have := length_align c w
  cases a <;> simp only [headerCell, List.length_append, List.length_cons, List.length_nil] <;> omega

theorem bodyCell_le (c : Str) (w : Nat) (a : Align) : (bodyCell c w a).length ≤ c.length + w + 2 := by
  have := length_align c w
  cases a <;> simp only [bodyCell, List.length_append, List.length_cons, List.length_nil] <;> omega

theorem wts_zipCells {f : Str → Nat → Align → Str} (hf : ∀ c w a, (f c w a).length ≤ c.length + w + 2) :
    ∀ (cs : List Str) (ws : List Nat) (as : List Align), wts 1 (zipCells f cs ws as) ≤ wts 1 cs + colSum ws := by
  intro cs
  induction cs with
  | nil => intro ws as; simp [zipCells, wts]
  | cons c cs ih =>
    intro ws as
    cases ws with
    | nil => simp [zipCells, wts]
    | cons w ws =>
      cases as with
      | nil => simp [zipCells, wts]
      | cons a as =>
        have h1 := hf c w a
        have h2 := ih ws as
        simp only [zipCells, wts, wt_one, colSum]
        omega

theorem wts_dividers : ∀ (ws : List Nat) (as : List Align), wts 1 ((ws.zip as).map fun p => dividerCell p.1 p.2) ≤ colSum ws := by
  intro ws
  induction ws with
  | nil => intro as; simp [wts]
  | cons w ws ih =>
    intro as
    cases as with
    | nil => simp [wts]
    | cons a as =>
      have h2 := ih as
      have : (dividerCell w a).length = w + 2 := by cases a <;> simp [dividerCell]
      simp only [List.zip_cons_cons, List.map_cons, wts, wt_one, colSum]
      omega

theorem tableRow_length (cells : List Str) : (tableRow cells).length ≤ wts 1 cells + 2 := by
  have := wt_pyJoin' (g := 1) (by omega) '|' cells
  rw [wt_one] at this
  simp only [tableRow, List.length_append, List.length_cons, List.length_nil]
  omega

theorem colSum_zipWith : ∀ (ws : List Nat) (r : List Str),
    colSum (ws.zipWith (fun w c => if c.length > w then c.length else w) r) ≤ colSum ws + wts 1 r := by
  intro ws
  induction ws with
  | nil => intro r; simp [colSum]
  | cons w ws ih =>
    intro r
    cases r with
    | nil => simp [colSum]
    | cons c r =>
      have := ih r
      simp only [List.zipWith_cons_cons, colSum, wts, wt_one]
      split <;> omega

def rowsSum : List (List Str) → Nat
  | [] => 0
  | r :: rs => wts 1 r + rowsSum rs

theorem colSum_foldl : ∀ (rs : List (List Str)) (ws : List Nat),
    colSum (rs.foldl (fun ws r => ws.zipWith (fun w c => if c.length > w then c.length else w) r) ws) ≤ colSum ws + rowsSum rs := by
  intro rs
  induction rs with
  | nil => intro ws; simp [rowsSum]
  | cons r rs ih =>
    intro ws
    have h1 := colSum_zipWith ws r
    have h2 := ih (ws.zipWith (fun w c => if c.length > w then c.length else w) r)
    simp only [List.foldl_cons, rowsSum]
    omega

theorem wts_splitBars : ∀ (s : Str) (p : Option Char), wts 1 (splitBars p s) ≤ s.length + 1 := by
  intro s
  induction s with
  | nil => intro p; simp [splitBars, wts, wt]
  | cons c s ih =>
    intro p
    have := ih (some c)
    simp only [splitBars]
    split
    · simp only [wts, wt, List.length_cons]; omega
    · have h2 := wts_consHead (g := 1) (by omega) c (splitBars (some c) s)
      rw [if_neg (splitBars_ne_nil _ _)] at h2
      simp only [List.length_cons]
      split at h2 <;> omega

theorem wts_rowCols (l : Str) : wts 1 (rowCols l) ≤ l.length + 1 := by
  have h1 := wts_map (g := 1) (wt_strip 1) (inner (columnRx.split l))
  have h2 := wts_sublist (g := 1) (inner_sub (columnRx.split l))
  have h3 := wts_splitBars l none
  rw [columnRx_split] at h1 h2
  rw [rowCols, columnRx_split]
  omega

theorem rowsSum_rowCols : ∀ ls : List Str, rowsSum (ls.map rowCols) ≤ wts 1 ls
  | [] => Nat.le_refl _
  | l :: ls => by
    have h1 := wts_rowCols l
    have h2 := rowsSum_rowCols ls
    simp only [List.map_cons, rowsSum, wts, wt_one]
    omega

theorem fmtTable_length {i : Nat} {lines : List Str} {out : Str} (h : fmtTable i lines = .ok out) :
    out.length + 1 ≤ 10 * (wts 1 lines * lines.length) := by
  cases lines with
  | nil => cases h
  | cons header rest =>
    cases rest with
    | nil => cases h
    | cons divider body =>
      simp only [fmtTable, bind, Except.bind] at h
      split at h
      · cases h
      · cases h
        generalize hws : columnWidths (rowCols header) (body.map rowCols) = ws
        have hS : colSum ws ≤ 4 * wts 1 (header :: divider :: body) := by
          have h1 := colSum_foldl (rowCols header :: body.map rowCols) ((rowCols header).map fun _ => 0)
          have h2 : ∀ r : List Str, colSum (r.map fun _ => 0) ≤ 3 * wts 1 r := by
            intro r
            induction r with
            | nil => simp [colSum]
            | cons c r ih => simp only [List.map_cons, colSum, wts]; omega
          have h3 := h2 (rowCols header)
          have h4 := wts_rowCols header
          have h5 := rowsSum_rowCols body
          rw [← hws]
          simp only [columnWidths, rowsSum] at h1 ⊢
          simp only [wts, wt_one]
          omega
        have e1 := tableRow_length (zipCells headerCell (inner (columnRx.split header)) ws (tableAligns divider))
        have e2 := wts_zipCells headerCell_le (inner (columnRx.split header)) ws (tableAligns divider)
        have e3 := wts_sublist (g := 1) (inner_sub (columnRx.split header))
        have e4 := wts_splitBars header none
        rw [← columnRx_split] at e4
        have e5 := tableRow_length ((ws.zip (tableAligns divider)).map fun p => dividerCell p.1 p.2)
        have e6 := wts_dividers ws (tableAligns divider)
        have e7 : ∀ ls : List Str, wts 1 (ls.map fun line => tableRow (zipCells bodyCell (inner (splitChar '|' line)) ws (tableAligns divider))) ≤
            wts 1 ls + (colSum ws + 3) * ls.length := by
          intro ls
          induction ls with
          | nil => simp [wts]
          | cons l ls ih =>
            have e1 := tableRow_length (zipCells bodyCell (inner (splitChar '|' l)) ws (tableAligns divider))
            have e2 := wts_zipCells bodyCell_le (inner (splitChar '|' l)) ws (tableAligns divider)
            have e3 := wts_sublist (g := 1) (inner_sub (splitChar '|' l))
            have e4 := wts_splitChar (g := 1) (by omega) (sep := '|') (by decide) l
            rw [wt_one] at e4
            simp only [List.map_cons, wts, wt_one, List.length_cons, Nat.mul_add]
            omega
        have e8 := e7 body
        have e9 := wt_pyJoin (g := 1) (by omega) '\n' (tableRow (zipCells headerCell (inner (columnRx.split header)) ws (tableAligns divider)) ::
          tableRow ((ws.zip (tableAligns divider)).map fun p => dividerCell p.1 p.2) ::
          body.map fun line => tableRow (zipCells bodyCell (inner (splitChar '|' line)) ws (tableAligns divider))) (by simp)
        rw [wt_one] at e9
        refine Nat.le_trans e9 ?_
        have hW : 1 ≤ wts 1 (header :: divider :: body) := by simp only [wts]; omega
        have e10 : (colSum ws + 3) * (body.length + 2) ≤ 7 * wts 1 (header :: divider :: body) * (body.length + 2) :=
          Nat.mul_le_mul_right _ (by omega)
        have e11 : wts 1 (header :: divider :: body) * 1 ≤ wts 1 (header :: divider :: body) * (body.length + 2) := Nat.mul_le_mul_left _ (by omega)
        rw [Nat.mul_assoc 7] at e10
        rw [Nat.mul_add] at e10
        have e12 : wts 1 (header :: divider :: body) = header.length + 1 + (divider.length + 1 + wts 1 body) := by simp only [wts, wt_one]
        simp only [List.length_cons]
        generalize wts 1 (header :: divider :: body) * (body.length + 2) = T at *
        simp only [wts, wt_one] at *
        show _ ≤ 10 * T
        omega

theorem fmtTable_len {i : Nat} {w : Width} {lines : List Str} {out : Str} (h : fmtTable i lines = .ok out)
    (hq : ∀ l ∈ lines, l.head? ≠ some '>') {b B p : Nat} (hr : Room b B p lines) :
    out.length + 1 ≤ 500 * (rate w b B p * wts 0 lines) := by
  have h1 := fmtTable_length h
  have h2 := hr.plain hq
  have h3 : wts 1 lines * lines.length ≤ rate w b B p * wts 0 lines :=
    Nat.mul_le_mul (by unfold rate; omega) (wts_length 0 lines)
  omega

/-! ### Documents -/

theorem fmtSection_len {sub : Width → Str → Except Err Str} (hs : SubLen sub) (hc : SubCount sub)
    (hstuck : ∀ w l ls out, NoMark l → (∀ x ∈ l :: ls, NoLB x) → sub w (pyJoin ['\n'] (l :: ls) ++ ['\n']) ≠ .ok out)
    {w : Width} {i : Nat} {ty : Sec} {lines : List Str} {out : Str} (h : fmtSection sub w i ty lines = .ok out)
    (hl : ∀ l ∈ lines, NoLB l) (hne : lines ≠ []) (hq : ty = .quote → ∀ l, lines.head? = some l → isQuote l = true)
    (ht : ty = .table → ∀ l ∈ lines, l.head? ≠ some '>') {b B p : Nat} (hr : Room b B p lines) :
    out.length + 1 + (if ty = .setext then 1 else 0) ≤ 500 * (rate w b B p * wts 0 lines) := by
  have leaf : wt 1 out + 2 ≤ 2000 * wts 1 lines → out.length + 2 ≤ 500 * (rate w b B p * wts 0 lines) := leaf_len hr
  cases ty with
  | atx => exact Nat.le_of_succ_le (leaf (fmtAtx_wt h))
  | blank =>
    cases h
    have := wts_pos (g := 1) hne
    exact Nat.le_of_succ_le (leaf (by simp only [wt]; omega))
  | quote => exact fmtQuote_len hs hc hstuck h hl (hq rfl) hr
  | bullet => exact fmtBullet_len hs hc h hl hr
  | fenced => exact Nat.le_of_succ_le (leaf (fmtFenced_wt h))
  | indented => exact Nat.le_of_succ_le (leaf (fmtIndented_wt h hne))
  | lrd => exact Nat.le_of_succ_le (leaf (Nat.le_trans (fmtLrd_wt (g := 1) (by omega) h) (by omega)))
  | ordered => exact fmtOrdered_len hs hc h hl hr
  | par => exact Nat.le_of_succ_le (leaf (fmtPar_wt h))
  | setext => exact leaf (fmtSetext_wt h)
  | table => exact fmtTable_len h (ht rfl) hr
  | thematic => exact Nat.le_of_succ_le (fmtThematic_len h hne b B p)

theorem fmtAll_len {sub : Width → Str → Except Err Str} (hs : SubLen sub) (hc : SubCount sub)
    (hstuck : ∀ w l ls out, NoMark l → (∀ x ∈ l :: ls, NoLB x) → sub w (pyJoin ['\n'] (l :: ls) ++ ['\n']) ≠ .ok out)
    {w : Width} {b B R : Nat} (secs : List (Sec × List Str)) :
    ∀ i last fs ts p, buildFmts i last secs = .ok fs → fmtAll sub w fs = .ok ts →
      (∀ s ∈ secs, s.2 ≠ [] ∧ (∀ l ∈ s.2, NoLB l) ∧ (s.1 = .quote → ∀ l, s.2.head? = some l → isQuote l = true) ∧
        (s.1 = .table → ∀ l ∈ s.2, l.head? ≠ some '>')) → Room b B p (secs.map (·.2)).flatten → rate w b B p ≤ R →
      wts 1 ts ≤ 500 * (R * wts 0 (secs.map (·.2)).flatten) := by
  induction secs with
  | nil => intro i last fs ts p h h' _ _ _; cases h; cases h'; simp [wts]
  | cons s secs ih =>
    obtain ⟨ty, content⟩ := s
    intro i last fs ts p h h' hl hr hR
    simp only [List.map_cons, List.flatten_cons] at hr
    obtain ⟨m, r1, r2, r3⟩ := hr.append
    have hm := r1.length_le
    simp only [buildFmts, bind, Except.bind] at h
    split at h
    · cases h
    · split at h
      · cases h
      · rename_i fs1 h1
        have key : ∀ ts, fmtAll sub w ({ lineIndex := i, ty := ty, lines := content } :: fs1) = .ok ts →
            wts 1 ts + (if ty = .setext then 1 else 0) ≤ 500 * (R * wts 0 (((ty, content) :: secs).map (·.2)).flatten) := by
          intro ts h'
          simp only [fmtAll, bind, Except.bind] at h'
          split at h'
          · cases h'
          · rename_i t1 ht1
            split at h'
            · cases h'
            · rename_i ts1 hts1
              cases h'
              obtain ⟨l1, l2, l3, l4⟩ := hl (ty, content) (by simp)
              have k1 := fmtSection_len hs hc hstuck (mapError_ok ht1) l2 l1 l3 l4 r1
              have k2 := ih _ _ _ _ m h1 hts1 (fun s hs => hl s (by simp [hs])) r2 (by unfold rate at hR ⊢; omega)
              have k3 : rate w b m p * wts 0 content ≤ R * wts 0 content := Nat.mul_le_mul_right _ (by unfold rate at hR ⊢; omega)
              simp only [wts, wt_one, List.map_cons, List.flatten_cons, wts_append, Nat.mul_add]
              omega
        split at h
        · rename_i hset
          cases h
          rw [fmtAll] at h'
          simp only [bind, Except.bind] at h'
          have hty : ty = .setext := by
            rw [Bool.and_eq_true] at hset
            simpa using hset.1
          rw [show fmtSection sub w i Sec.blank [[]] = .ok [] from rfl] at h'
          simp only [Except.mapError] at h'
          split at h'
          · cases h'
          · rename_i ts1 hts1
            cases h'
            have := key _ hts1
            rw [if_pos hty] at this
            simp only [wts, wt]
            omega
        · cases h
          exact Nat.le_trans (Nat.le_add_right _ _) (key _ h')

theorem reformatBody_len {sub : Width → Str → Except Err Str} (hs : SubLen sub) (hc : SubCount sub)
    (hstuck : ∀ w l ls out, NoMark l → (∀ x ∈ l :: ls, NoLB x) → sub w (pyJoin ['\n'] (l :: ls) ++ ['\n']) ≠ .ok out)
    {n : Nat} {w : Width} {text out : Str} (h : reformatBody (parse n) sub w text = .ok out) {b B p : Nat}
    (hr : Room b B p (splitlines text)) : out.length ≤ 1 ∨ out.length ≤ 500 * (rate w b B p * wts 0 (splitlines text)) := by
  simp only [reformatBody, bind, Except.bind] at h
  split at h
  · cases h
  · rename_i secs hp
    split at h
    · cases h
    · rename_i fmts hf
      split at h
      · cases h
      · rename_i parts hparts
        cases h
        obtain ⟨p1, p2⟩ := C08_parse_partition n _ _ hp
        have k1 := fmtAll_len hs hc hstuck (w := w) (b := b) (B := B) secs _ _ _ _ p hf hparts (fun s hsm => ⟨p2 s hsm, fun l hl => by
          have hmem : l ∈ splitlines text := by
            rw [← p1]; exact List.mem_flatten.2 ⟨s.2, List.mem_map.2 ⟨s, hsm, rfl⟩, hl⟩
          exact splitlines_noLB _ l hmem, by
            obtain ⟨ty, content⟩ := s
            rintro rfl l hl
            obtain ⟨pre, post, rfl⟩ := List.append_of_mem hsm
            rw [← quotedLine_eq]
            exact (C52_extent hp).1 l hl, by
            obtain ⟨ty, content⟩ := s
            rintro rfl l hl hh
            obtain ⟨pre, post, rfl⟩ := List.append_of_mem hsm
            have := (C52_extent hp).1 l hl
            cases l with
            | nil => cases hh
            | cons c l =>
              cases hh
              exact absurd this (by simp [rowLine, List.dropWhile, show isWs '>' = false by decide])⟩)
          (by rw [p1]; exact hr) (Nat.le_refl _)
        rw [p1] at k1
        rw [List.length_append, List.length_singleton]
        by_cases hpn : parts = []
        · left; subst hpn; simp [pyJoin]
        · right
          have := wt_pyJoin (g := 1) (by omega) '\n' parts hpn
          rw [wt_one] at this
          omega

theorem reformatText_len : ∀ n, SubLen (reformatText n) := by
  intro n
  induction n with
  | zero => intro w ls out b B p _ _ _ h; cases h
  | succ n ih =>
    intro w ls out b B p hne hl hr h
    have hsp : splitlines (pyJoin ['\n'] ls ++ ['\n']) = ls := splitlines_join_nl ls hl hne
    have h1 := reformatBody_len ih (reformatText_count n) (noMark_fails n) h (b := b) (B := B) (p := p) (by rw [hsp]; exact hr)
    rw [hsp] at h1
    have h2 := hr.length_le
    have h3 := wts_length 0 ls
    have h4 := List.length_pos_iff.2 hne
    have h5 : 1 * 1 ≤ rate w b B p * wts 0 ls := Nat.mul_le_mul (by unfold rate; omega) (by omega)
    omega

theorem wt_zero (s : Str) : wt 0 s = (s.filter (· ≠ '>')).length := by
  induction s with
  | nil => rfl
  | cons c s ih =>
    simp only [wt, ih, List.filter_cons]
    by_cases hc : c = '>'
    · simp [hc]
    · simp [hc]; omega

/-- One pass: at most quadratically many characters are written. -/
theorem C130_pass (n : Nat) (w : Width) (text out : Str) (h : reformatText n w text = .ok out) :
    out.length ≤ 500 * ((breakLen w + 8 * (text.length + 1)) * ((text.filter (· ≠ '>')).length + 1)) := by
  rw [← wt_zero]
  cases n with
  | zero => cases h
  | succ n =>
    have h1 := reformatBody_len (reformatText_len n) (reformatText_count n) (noMark_fails n) h (Room.start (splitlines text) 0)
    have h2 := (wts_splitlines (g := 0) (by omega) text).1
    have h3 := (wts_splitlines (g := 1) (by omega) text).1
    rw [wt_one] at h3
    have h4 : rate w 0 (0 + wts 1 (splitlines text)) 0 * wts 0 (splitlines text) ≤ (breakLen w + 8 * (text.length + 1)) * (wt 0 text + 1) :=
      Nat.mul_le_mul (by unfold rate; omega) h2
    have h5 : 1 * 1 ≤ (breakLen w + 8 * (text.length + 1)) * (wt 0 text + 1) := Nat.mul_le_mul (by omega) (by omega)
    omega

/-- C130: the result of reformatting has at most quadratically many characters. -/
theorem C130_length (n : Nat) (w : Width) (text y : Str) (h : reformatMarkdownText n w text = .ok y) :
    y.length ≤ 500 * ((breakLen w + 8 * (text.length + 1)) * ((text.filter (· ≠ '>')).length + 1)) := by
  simp only [reformatMarkdownText, bind, Except.bind] at h
  split at h
  · cases h
  · rename_i a ha
    split at h
    · cases h
    · split at h
      · cases h
      · cases h
        refine Nat.le_trans ?_ (C130_pass _ _ _ _ ha)
        cases n with
        | zero => cases ha
        | succ n =>
          have h2 : ∃ x, a = x ++ ['\n'] := by
            simp only [reformatText, reformatBody, bind, Except.bind] at ha
            split at ha
            · cases ha
            · split at ha
              · cases ha
              · split at ha
                · cases ha
                · cases ha; exact ⟨_, rfl⟩
          obtain ⟨x, rfl⟩ := h2
          have h3 : rstrip (x ++ ['\n']) = rstrip x := rstripBy_append_all _ _ _ (by decide)
          have h4 : (rstrip x).length ≤ x.length := (rstrip_sub _).length_le
          rw [h3]
          simp only [List.length_append, List.length_singleton]
          omega

end MF
