import Verif.Props.Common
/-!
# C125: how CommonMark reads the lines of a document

Lines that are a document (`RDoc`) are rendered as the document says (`docEv`).
-/

namespace MF

open CM (Piece Ev Leaf Ctr State)

/-- what closes a state, but for the end of what may go on -/
def shut : Prev → State → List Ev
  | .hard _, s => (CM.closeAll s.leaf s.cs).dropLast
  | .list .., s => (CM.closeAll s.leaf s.cs).dropLast
  | _, s => CM.closeAll s.leaf s.cs

theorem shut_fin {p : Prev} {s : State} (h : Post p s) :
    (CM.closeAll s.leaf s.cs).map fineEv = (shut p s).map fineEv ++ p.fin.map fineEv := by
  cases p with
  | hard ps =>
    obtain ⟨pre, t, n, rfl, h⟩ := h
    simp [shut, CM.closeAll, Leaf.close, Prev.fin, fineEv, inlines_end_blanks, h]
  | list m g lo =>
    obtain ⟨n, cs, leaf, rfl, _⟩ := h
    simp only [shut, CM.closeAll, Ctr.close, Prev.fin, List.dropLast_append_of_ne_nil (show [Ev.endItem, .endList lo] ≠ [] by simp)]
    simp
  | _ => simp [shut, Prev.fin]

/-- the lines lead from a state to others, with the output given -/
def Yields (s : State) (ls : List Str) (p : Prev) (evs : List Ev) : Prop :=
  ∃ s' ev, CM.exec s ls = some (s', ev) ∧ (ev ++ shut p s').map fineEv = evs ∧ Post p s'

/-- the same with everything closed in the end -/
def Closes (ls : List Str) (evs : List Ev) : Prop :=
  ∃ s' ev, CM.exec ⟨[], .none⟩ ls = some (s', ev) ∧ (ev ++ CM.closeAll s'.leaf s'.cs).map fineEv = evs ∧ s'.leaf.isFence = false

theorem Yields.closed {ls : List Str} {doc : List Node}
    (h : Yields ⟨[], .none⟩ ls (docPost .free doc) ((docEvs .free doc).map fineEv)) : Closes ls ((docEv doc).map fineEv) := by
  obtain ⟨s', ev, h1, h2, h3⟩ := h
  refine ⟨s', ev, h1, ?_, h3.leaf.1⟩
  rw [docEv, List.map_append, List.map_append, ← h2, shut_fin h3, List.map_append, List.append_assoc]

theorem exec_ends {s : State} {l : Str} {ls : List Str} (h : Ends s l) :
    CM.exec s (l :: ls) = CM.after (CM.closeAll s.leaf s.cs) (CM.exec ⟨[], .none⟩ (l :: ls)) := by
  simp only [CM.exec, CM.step, CM.leafStep]
  rw [show CM.step s.leaf s.cs l = _ from h]
  cases CM.opens l with
  | none => rfl
  | some x =>
    obtain ⟨s', ev⟩ := x
    simp only [CM.after, Option.map_some]
    cases CM.exec s' ls with
    | none => rfl
    | some y => obtain ⟨s2, ev2⟩ := y; simp

theorem Yields.ends {s : State} {l : Str} {ls : List Str} {p : Prev} {evs : List Ev} (h : Ends s l)
    (hy : Yields ⟨[], .none⟩ (l :: ls) p evs) : Yields s (l :: ls) p ((CM.closeAll s.leaf s.cs).map fineEv ++ evs) := by
  obtain ⟨s', ev, h1, h2, h3⟩ := hy
  refine ⟨s', CM.closeAll s.leaf s.cs ++ ev, ?_, ?_, h3⟩
  · rw [exec_ends h, h1]; rfl
  · rw [List.append_assoc, List.map_append, h2]

/-! ## Inside of containers -/

theorem exec_quote (rs : List Str) (s : State) :
    CM.exec ⟨.quote :: s.cs, s.leaf⟩ (rs.map ('>' :: ·)) = CM.under .quote [] (CM.exec s (rs.map (CM.unindent 1))) := by
  induction rs generalizing s with
  | nil => rfl
  | cons r rs ih =>
    have hq : CM.quoted ('>' :: r) = some (CM.unindent 1 r) := by
      unfold CM.quoted
      rw [if_pos ⟨by simp [CM.indent], by simp [CM.text]⟩]
      rfl
    simp only [List.map_cons, CM.exec, CM.step, hq]
    cases CM.step s.leaf s.cs (CM.unindent 1 r) with
    | none => rfl
    | some x =>
      obtain ⟨s', ev⟩ := x
      simp only [CM.under, Option.map_some, List.nil_append]
      rw [ih s']
      cases CM.exec s' (rs.map (CM.unindent 1)) with
      | none => rfl
      | some y => rfl

theorem exec_opens_quote {rs : List Str} (h : rs ≠ []) :
    CM.exec ⟨[], .none⟩ (rs.map ('>' :: ·)) = CM.under .quote [.quote] (CM.exec ⟨[], .none⟩ (rs.map (CM.unindent 1))) := by
  cases rs with
  | nil => exact absurd rfl h
  | cons r rs =>
    simp only [List.map_cons, CM.exec, CM.step, CM.leafStep, opens_quote]
    cases CM.opens (CM.unindent 1 r) with
    | none => rfl
    | some x =>
      obtain ⟨s', ev⟩ := x
      simp only [CM.under, Option.map_some]
      rw [exec_quote rs s']
      cases CM.exec s' (rs.map (CM.unindent 1)) with
      | none => rfl
      | some y => rfl

theorem exec_item {m : CM.Mark} {n : Nat} {lo : Bool} {ls : List Str} (h : ∀ l ∈ ls, CM.blank l = false ∧ n ≤ CM.indent l)
    (s : State) :
    CM.exec ⟨.item m n false lo :: s.cs, s.leaf⟩ ls = CM.under (.item m n false lo) [] (CM.exec s (ls.map (CM.unindent n))) := by
  induction ls generalizing s with
  | nil => rfl
  | cons l ls ih =>
    obtain ⟨h1, h2⟩ := h l (by simp)
    simp only [List.map_cons, CM.exec, CM.step, h1, Bool.false_eq_true, if_false, if_pos h2, Bool.false_and, Bool.or_false]
    cases CM.step s.leaf s.cs (CM.unindent n l) with
    | none => rfl
    | some x =>
      obtain ⟨s', ev⟩ := x
      simp only [CM.under, Option.map_some, List.nil_append]
      rw [ih (fun x hx => h x (by simp [hx])) s']
      cases CM.exec s' (ls.map (CM.unindent n)) with
      | none => rfl
      | some y => rfl

/-- characters that markers start with -/
def markChar (c : Char) : Prop := c = '*' ∨ c = '+' ∨ c = '-' ∨ isDigit c = true

theorem markChar.ne {c x : Char} (h : markChar c) (hx : x ∉ c!"*+-") (hd : isDigit x = false) : c ≠ x := by
  rintro rfl
  rcases h with rfl | rfl | rfl | h
  · exact hx (by decide)
  · exact hx (by decide)
  · exact hx (by decide)
  · rw [h] at hd; cases hd

theorem padding_one {r : Str} (h : CM.indent r = 0 ∨ 4 ≤ CM.indent r) : CM.padding (' ' :: r) = 1 := by
  have : CM.indent (' ' :: r) = CM.indent r + 1 := by simp [CM.indent]
  unfold CM.padding
  rw [this]
  rcases h with h | h
  · rw [h]; rfl
  · rw [if_pos (by omega)]

theorem item_opens {m : CM.Mark} {no i : Nat} {mk r : Str} (hi : i < 4) (hc : ∃ c s, mk = c :: s ∧ markChar c)
    (hm : CM.marker (mk ++ ' ' :: r) = some (m, no, mk.length, ' ' :: r)) (hb : CM.blank r = false)
    (hin : CM.indent r = 0 ∨ 4 ≤ CM.indent r) (hr : CM.isRule (mk ++ ' ' :: r) = false) :
    CM.opens (blanks i ++ (mk ++ ' ' :: r)) =
      CM.under (.item m (i + mk.length + 1) false false) [.list m no, .item] (CM.opens r) := by
  obtain ⟨c, s, rfl, hc⟩ := hc
  rw [List.cons_append] at hm hr ⊢
  rw [opens_text hi (hc.ne (by decide) (by decide))]
  unfold opensText
  have h1 : (c :: (s ++ ' ' :: r)).head? ≠ some '>' := by
    intro e; injection e with e; exact hc.ne (by decide) (by decide) e
  have h2 : (c :: (s ++ ' ' :: r)).head? ≠ some '#' := by
    intro e; injection e with e; exact hc.ne (by decide) (by decide) e
  have h3 : (c :: (s ++ ' ' :: r)).head? ≠ some '`' ∧ (c :: (s ++ ' ' :: r)).head? ≠ some '~' := by
    constructor <;> intro e <;> injection e with e
    · exact hc.ne (by decide) (by decide) e
    · exact hc.ne (by decide) (by decide) e
  have hb2 : CM.blank (' ' :: r) = false := by
    rw [← hb]; simp [CM.blank]
  rw [if_neg h1, atx_none h2, fence_none h3]
  simp only [hr, hm, Bool.false_eq_true, if_false, hb2, padding_one hin, List.drop_succ_cons, List.drop_zero]

theorem item_sibling {m : CM.Mark} {no i k : Nat} {mk r : Str} {gap lo : Bool} {cs : List Ctr} {leaf : Leaf} (hi : i < 4) (hk : i < k)
    (hc : ∃ c s, mk = c :: s ∧ markChar c)
    (hm : CM.marker (mk ++ ' ' :: r) = some (m, no, mk.length, ' ' :: r)) (hb : CM.blank r = false)
    (hin : CM.indent r = 0 ∨ 4 ≤ CM.indent r) (hr : CM.isRule (mk ++ ' ' :: r) = false) :
    CM.step leaf (.item m k gap lo :: cs) (blanks i ++ (mk ++ ' ' :: r)) =
      CM.after (CM.closeAll leaf cs) (CM.under (.item m (i + mk.length + 1) false (lo || gap)) [.endItem, .item] (CM.opens r)) := by
  obtain ⟨c, s, rfl, hc⟩ := hc
  have hne := hc.ne (x := ' ') (by decide) (by decide)
  obtain ⟨e1, e2⟩ := cm_lead (i := i) (t := (c :: s) ++ ' ' :: r) (by simpa using hne)
  have hbl : CM.blank (blanks i ++ ((c :: s) ++ ' ' :: r)) = false := cm_blank_false (c := c) (by simp) hne
  have hb2 : CM.blank (' ' :: r) = false := by rw [← hb]; simp [CM.blank]
  have hs : CM.sibling m (blanks i ++ ((c :: s) ++ ' ' :: r)) = some (i + (c :: s).length + 1, ' ' :: r) := by
    unfold CM.sibling
    rw [e1, e2, if_neg (by rw [hr]; simp; omega), hm]
    simp only [if_true, padding_one hin]
  simp only [CM.step, hbl, e1, hs, Bool.false_eq_true, if_false, if_neg (show ¬ k ≤ i by omega), hb2,
    padding_one hin, List.drop_succ_cons, List.drop_zero]

/-- what follows the first entry -/
def restEv : List (List Node) → List Ev
  | [] => []
  | it :: r => .endItem :: .item :: (docEvs .free it ++ (docPost .free it).fin ++ restEv r)

theorem restEv_eq (its : List (List Node)) : restEv its ++ [.endItem] = .endItem :: itemsEv its := by
  induction its with
  | nil => simp [restEv, itemsEv]
  | cons it r ih => simp [restEv, itemsEv, ih]

/-- entries one after the other -/
theorem exec_items {R : List Str → List Node → Prop} {mark : Str → Prop} {m : CM.Mark}
    (hmk : ∀ mk, mark mk → (∃ c s, mk = c :: s ∧ markChar c) ∧
      ∀ r, ∃ no, CM.marker (mk ++ ' ' :: r) = some (m, no, mk.length, ' ' :: r))
    {its : List (List Node)} (hR : ∀ it ∈ its, ∀ ls, R ls it → Closes ls ((docEv it).map fineEv))
    {es : List (List Str)} {k : Nat} (h : RItems R mark k es its) (hk : 1 ≤ k) (gap lo : Bool) (cs : List Ctr) (leaf : Leaf)
    (hf : leaf.isFence = false) :
    ∃ k' cs' leaf' ev, CM.exec ⟨.item m k gap lo :: cs, leaf⟩ es.flatten =
        some (⟨.item m k' (gap && its.isEmpty) (lo || gap && !its.isEmpty) :: cs', leaf'⟩, ev) ∧
      1 ≤ k' ∧ leaf'.isFence = false ∧
      (ev ++ CM.closeAll leaf' cs').map fineEv = (CM.closeAll leaf cs).map fineEv ++ (restEv its).map fineEv := by
  induction its generalizing es k cs leaf gap lo with
  | nil =>
    cases es with
    | cons e es => exact h.elim
    | nil => exact ⟨k, cs, leaf, [], by simp [CM.exec], hk, hf, by simp [restEv]⟩
  | cons it its ih =>
    cases es with
    | nil => exact h.elim
    | cons e es =>
      obtain ⟨i, mk, r, conts, rfl, hik, hi, hmark, hbl, hin, hru, hconts, hr, hrest⟩ := h
      obtain ⟨hc, hm⟩ := hmk mk hmark
      obtain ⟨no, hm⟩ := hm r
      obtain ⟨s', ev, h1, h2, h3⟩ := hR it (by simp) _ hr
      have hstep := item_sibling (gap := gap) (lo := lo) (leaf := leaf) (cs := cs) hi hik hc hm hbl hin hru
      simp only [CM.exec, CM.step, CM.leafStep] at h1
      cases ho : CM.opens r with
      | none => rw [ho] at h1; cases h1
      | some x =>
        obtain ⟨s1, ev1⟩ := x
        rw [ho] at h1 hstep
        simp only [] at h1
        cases h4 : CM.exec s1 (conts.map (CM.unindent (i + mk.length + 1))) with
        | none => rw [h4] at h1; cases h1
        | some y =>
          obtain ⟨s2, ev2⟩ := y
          rw [h4] at h1
          obtain ⟨rfl, rfl⟩ : s2 = s' ∧ ev1 ++ ev2 = ev := by simpa [CM.after] using h1
          obtain ⟨k', cs', leaf', ev3, h5, h6, h7, h8⟩ := ih (fun x hx => hR x (by simp [hx])) hrest (by omega)
            false (lo || gap) s2.cs s2.leaf h3
          refine ⟨k', cs', leaf', CM.closeAll leaf cs ++ ([.endItem, .item] ++ ev1) ++ (ev2 ++ ev3), ?_, h6, h7, ?_⟩
          · rw [List.flatten_cons, List.cons_append]
            simp only [CM.exec, hstep, CM.under, CM.after, Option.map_some]
            rw [exec_append, exec_item hconts s1, h4]
            simp only [CM.under, Option.map_some, List.nil_append, h5, CM.after]
            simp
          · have h2' : ev1.map fineEv ++ (ev2.map fineEv ++ (CM.closeAll s2.leaf s2.cs).map fineEv) = (docEv it).map fineEv := by
              rw [← h2]; simp
            simp only [List.map_append, restEv, List.map_cons, List.append_assoc, List.cons_append, List.nil_append] at h8 ⊢
            rw [h8]
            rw [docEv, List.map_append] at h2'
            rw [← List.append_assoc ((docEvs _ _).map _), ← h2']
            simp [fineEv]

/-- a whole list -/
theorem exec_list {R : List Str → List Node → Prop} {mark : Str → Prop} {m : CM.Mark} {no : Nat}
    (hmk : ∀ mk, mark mk → (∃ c s, mk = c :: s ∧ markChar c) ∧
      ∀ r, ∃ no, CM.marker (mk ++ ' ' :: r) = some (m, no, mk.length, ' ' :: r))
    {it : List Node} {its : List (List Node)}
    (hR : ∀ it' ∈ it :: its, ∀ ls, R ls it' → Closes ls ((docEv it').map fineEv))
    {e : List Str} {es : List (List Str)} {k : Nat} (h : RItems R mark k (e :: es) (it :: its))
    (hno : ∃ i mk r conts, e = (blanks i ++ (mk ++ ' ' :: r)) :: conts ∧
      CM.marker (mk ++ ' ' :: r) = some (m, no, mk.length, ' ' :: r)) :
    ∃ s ev k' cs' leaf', CM.exec ⟨[], .none⟩ (e :: es).flatten = some (s, ev) ∧ s = ⟨.item m k' false false :: cs', leaf'⟩ ∧
      1 ≤ k' ∧ leaf'.isFence = false ∧
      (ev ++ shut (.list m false false) s).map fineEv = (Ev.list m no :: itemsEv (it :: its)).map fineEv := by
  obtain ⟨i, mk, r, conts, rfl, hik, hi, hmark, hbl, hin, hru, hconts, hr, hrest⟩ := h
  obtain ⟨hc, hm⟩ := hmk mk hmark
  obtain ⟨no', hm⟩ := hm r
  have hno' : no' = no := by
    obtain ⟨i1, mk1, r1, conts1, e1, hm1⟩ := hno
    have e2 := (List.cons.inj e1).1
    have h0 : ∀ {mk r : Str} {x}, CM.marker (mk ++ ' ' :: r) = some x → mk ≠ [] → (mk ++ ' ' :: r).head? ≠ some ' ' := by
      intro mk r x hx hmk0 e
      obtain ⟨c, s, rfl⟩ := List.exists_cons_of_ne_nil hmk0
      injection e with e
      subst e
      simp [CM.marker, isDigit] at hx
    have hmk0 : mk ≠ [] := by obtain ⟨c, s, rfl, _⟩ := hc; simp
    have hmk1 : mk1 ≠ [] := by
      rintro rfl
      simp [CM.marker, isDigit] at hm1
    have h1 := (cm_lead (i := i) (h0 hm hmk0)).2
    have h2 := (cm_lead (i := i1) (h0 hm1 hmk1)).2
    rw [e2, h2] at h1
    rw [h1, hm] at hm1
    simpa using congrArg (Option.map (·.2.1)) hm1
  subst hno'
  obtain ⟨s', ev, h1, h2, h3⟩ := hR it (by simp) _ hr
  have hstep := item_opens hi hc hm hbl hin hru
  simp only [CM.exec, CM.step, CM.leafStep] at h1
  cases ho : CM.opens r with
  | none => rw [ho] at h1; cases h1
  | some x =>
    obtain ⟨s1, ev1⟩ := x
    rw [ho] at h1 hstep
    simp only [] at h1
    cases h4 : CM.exec s1 (conts.map (CM.unindent (i + mk.length + 1))) with
    | none => rw [h4] at h1; cases h1
    | some y =>
      obtain ⟨s2, ev2⟩ := y
      rw [h4] at h1
      obtain ⟨rfl, rfl⟩ : s2 = s' ∧ ev1 ++ ev2 = ev := by simpa [CM.after] using h1
      obtain ⟨k', cs', leaf', ev3, h5, h6, h7, h8⟩ := exec_items hmk (fun x hx => hR x (by simp [hx])) hrest (by omega)
        false false s2.cs s2.leaf h3
      refine ⟨_, [.list m no', .item] ++ ev1 ++ (ev2 ++ ev3), k', cs', leaf', ?_, rfl, h6, h7, ?_⟩
      · rw [List.flatten_cons, List.cons_append]
        simp only [CM.exec, CM.step, CM.leafStep, hstep, CM.under, CM.after, Option.map_some]
        rw [exec_append, exec_item hconts s1, h4]
        simp only [CM.under, Option.map_some, List.nil_append, h5, CM.after]
        simp
      · have h2' : ev1.map fineEv ++ (ev2.map fineEv ++ (CM.closeAll s2.leaf s2.cs).map fineEv) = (docEv it).map fineEv := by
          rw [← h2]; simp
        have h9 := congrArg (List.map fineEv) (restEv_eq its)
        simp only [List.map_append, List.map_cons, List.map_nil] at h9
        rw [docEv, List.map_append] at h2'
        simp only [shut, CM.closeAll, Ctr.close, List.dropLast_append_of_ne_nil (show [Ev.endItem, .endList false] ≠ [] by simp)]
        simp only [itemsEv, List.map_append, List.map_cons, List.map_nil, List.append_assoc, List.dropLast,
          List.cons_append, List.nil_append] at h8 ⊢
        rw [← List.append_assoc (ev3.map fineEv), h8, ← h9, ← List.append_assoc ((docEvs _ _).map _), ← h2']
        simp only [List.append_assoc]

/-! ## Leaves -/

theorem exec_code (ts : List Str) {ls : List Str} (h : ∀ l ∈ ls, CM.blank l = true ∨ 4 ≤ CM.indent l) :
    CM.exec ⟨[], .code ts⟩ ls = some (⟨[], .code (ts ++ ls.map (CM.unindent 4))⟩, []) := by
  induction ls generalizing ts with
  | nil => simp [CM.exec]
  | cons l ls ih =>
    have : (CM.blank l || decide (4 ≤ CM.indent l)) = true := by
      rcases h l (by simp) with h | h
      · simp [h]
      · simp [h]
    simp only [CM.exec, CM.step, CM.leafStep, this, if_true, ih (ts ++ [CM.unindent 4 l]) (fun x hx => h x (by simp [hx])), CM.after]
    simp

theorem exec_fence {f : Char} {k : Nat} {info : Str} (ts : List Str) {ls : List Str} (h : ∀ l ∈ ls, CM.closes f k l = false) :
    CM.exec ⟨[], .fence f k 0 info ts⟩ ls = some (⟨[], .fence f k 0 info (ts ++ ls)⟩, []) := by
  induction ls generalizing ts with
  | nil => simp [CM.exec]
  | cons l ls ih =>
    have h0 : CM.unindent 0 l = l := by cases l <;> rfl
    simp only [CM.exec, CM.step, CM.leafStep, h l (by simp), Bool.false_eq_true, if_false, h0,
      ih (ts ++ [l]) (fun x hx => h x (by simp [hx])), CM.after]
    simp

theorem trimBlank_last {ls : List Str} {l : Str} (h : CM.blank l = false) : CM.trimBlank (ls ++ [l]) = ls ++ [l] := by
  unfold CM.trimBlank
  rw [List.reverse_append]
  simp [h]

theorem blank_ws {l : Str} (h : CM.blank l = true) : ∀ c ∈ l, isWs c = true := by
  intro c hc
  have := List.all_eq_true.1 h c hc
  have : c = ' ' := by simpa using this
  rw [this]; decide

theorem rstrip_blanks (n : Nat) (l : Str) : rstrip (blanks n ++ l) = if rstrip l = [] then [] else blanks n ++ rstrip l := by
  by_cases h : rstrip l = []
  · rw [if_pos h, rstrip_eq_nil]
    intro c hc
    rcases List.mem_append.1 hc with h1 | h1
    · rw [List.eq_of_mem_replicate h1]; decide
    · exact (rstrip_eq_nil l).1 h c h1
  · rw [if_neg h, rstrip_append_of_ne _ _ h]

theorem blanks_add (a b : Nat) : blanks (a + b) = blanks a ++ blanks b := by
  unfold blanks
  rw [List.replicate_append_replicate]

theorem indent_split {n : Nat} {l : Str} (h : n ≤ CM.indent l) : ∃ u, l = blanks n ++ u := by
  refine ⟨blanks (CM.indent l - n) ++ CM.text l, ?_⟩
  rw [← List.append_assoc, ← blanks_add, show n + (CM.indent l - n) = CM.indent l by omega]
  exact (cm_split l).1

theorem rstrip_unindent {l : Str} (h : CM.blank l = true ∨ 4 ≤ CM.indent l) :
    rstrip (CM.unindent 4 (rstrip l)) = rstrip (CM.unindent 4 l) := by
  rcases h with h | h
  · rw [(rstrip_eq_nil l).2 (blank_ws h), (rstrip_eq_nil _).2 (blank_ws (unindent_blank 4 h))]
    rfl
  · obtain ⟨u, hu⟩ : ∃ u, l = blanks 4 ++ u := indent_split h
    rw [hu, unindent_blanks, rstrip_blanks]
    by_cases h0 : rstrip u = []
    · rw [if_pos h0, h0]; rfl
    · rw [if_neg h0, unindent_blanks, rstrip_idem]

theorem post_free {s : State} (h : s = ⟨[], .none⟩) : Post .free s := h

theorem bullet_marks {c : Char} (hc : c = '*' ∨ c = '+' ∨ c = '-') (mk : Str) (h : mk = [c]) :
    (∃ x s, mk = x :: s ∧ markChar x) ∧
      ∀ r, ∃ no, CM.marker (mk ++ ' ' :: r) = some (.bullet c, no, mk.length, ' ' :: r) := by
  subst h
  refine ⟨⟨c, [], rfl, ?_⟩, fun r => ⟨0, marker_bullet hc r⟩⟩
  rcases hc with rfl | rfl | rfl
  · exact .inl rfl
  · exact .inr (.inl rfl)
  · exact .inr (.inr (.inl rfl))

theorem number_marks (mk : Str) (h : NumberMark mk) : (∃ x s, mk = x :: s ∧ markChar x) ∧
    ∀ r, ∃ no, CM.marker (mk ++ ' ' :: r) = some (.number '.', no, mk.length, ' ' :: r) := by
  obtain ⟨ds, rfl, h1, h9, hd⟩ := h
  constructor
  · cases ds with
    | nil => simp at h1
    | cons x y => exact ⟨x, y ++ c!".", rfl, .inr (.inr (.inr (hd x (by simp))))⟩
  · intro r
    refine ⟨parseNat ds, ?_⟩
    have := marker_number h1 h9 hd r
    simpa using this

/-- the lines of a block, where nothing is open -/
theorem node_yields {d : Nat} {R : List Str → List Node → Prop} {ls : List Str} {a : Node} (h : RNode R ls a)
    (hr : a.Reg (d + 1)) (hb : a ≠ .blank)
    (hne : ∀ e x doc, R x doc → (∀ a ∈ doc, a.Reg e) → doc ≠ [] → x ≠ [])
    (hR : ∀ x doc, R x doc → (∀ a ∈ doc, a.Reg d) → CmFlow .free doc →
      Yields ⟨[], .none⟩ x (docPost .free doc) ((docEvs .free doc).map fineEv)) :
    Yields ⟨[], .none⟩ ls (a.post .free) ((a.own .free).map fineEv) := by
  cases h with
  | blank h => exact absurd rfl hb
  | @heading i k t hi ht =>
    obtain ⟨h1, h6, _⟩ := hr
    refine ⟨⟨[], .none⟩, [.heading k ((splitWs (CM.unclose (strip t))).map .word)], ?_, ?_, rfl⟩
    · simp only [CM.exec, CM.step, CM.leafStep, opens_heading hi h1 h6 ht, CM.after, Option.map_some]
      rfl
    · simp [shut, Node.post, CM.closeAll, Leaf.close, Node.own]
  | @underlined ls ws i m j c h hi =>
    have hc := hr.1
    have ht : CM.text (blanks i ++ (List.replicate (m + 1) c ++ blanks j)) = List.replicate (m + 1) c ++ blanks j ∧
        CM.indent (blanks i ++ (List.replicate (m + 1) c ++ blanks j)) = i := by
      have := cm_lead (i := i) (t := List.replicate (m + 1) c ++ blanks j)
        (by rcases hc with rfl | rfl <;> simp [List.replicate_succ])
      exact ⟨this.2, this.1⟩
    have hbl : CM.blank (blanks i ++ (List.replicate (m + 1) c ++ blanks j)) = false :=
      cm_blank_false (c := c) (by simp [List.replicate_succ]) (by rcases hc with rfl | rfl <;> decide)
    have hrs : rstripBy (· == ' ') (List.replicate (m + 1) c ++ blanks j) = List.replicate (m + 1) c := by
      unfold rstripBy
      have hj : (blanks j).reverse = blanks j := by simp [blanks]
      rw [List.reverse_append, hj]
      have : ∀ j (t : Str), (blanks j ++ t).dropWhile (· == ' ') = t.dropWhile (· == ' ') := by
        intro j t
        induction j with
        | zero => rfl
        | succ j ih => exact ih
      rw [this, List.reverse_replicate]
      have hd : (List.replicate (m + 1) c).dropWhile (· == ' ') = List.replicate (m + 1) c := by
        rcases hc with rfl | rfl <;> simp [List.replicate_succ]
      rw [hd, List.reverse_replicate]
    have hu : CM.underline (List.replicate (m + 1) c ++ blanks j) = some (if c = '=' then 1 else 2) := by
      simp only [CM.underline, hrs]
      rcases hc with rfl | rfl
      · rw [if_pos (by simp [List.replicate_succ])]; rfl
      · rw [if_neg (by simp [List.replicate_succ]), if_pos (by simp [List.replicate_succ])]; rfl
    refine ⟨⟨[], .none⟩, [.heading (if c = '=' then 1 else 2) (CM.inlines (ls.map CM.text))], ?_, ?_, rfl⟩
    · rw [exec_append, exec_text h]
      simp only [CM.exec, CM.step, CM.leafStep, hbl, ht.1, ht.2, hu, Bool.false_eq_true, if_false, if_neg (show ¬ 4 ≤ i by omega)]
      rw [if_neg (by rcases hc with rfl | rfl <;> simp [List.replicate_succ])]
      simp [CM.after]
    · simp [shut, Node.post, CM.closeAll, Leaf.close, Node.own, fineEv, h.inlines]
  | @par ls ws h =>
    refine ⟨_, _, exec_text h, ?_, _, rfl⟩
    simp [shut, Node.post, CM.closeAll, Leaf.close, Node.own, fineEv, h.inlines, Prev.lead]
  | @hard ls l ts j h hst =>
    obtain ⟨h1, h2, h3⟩ := hard_texts h (j + 2)
    have h4 : ∀ x, ((ls ++ [l ++ blanks (j + 2)]).map CM.text).head? = some x → x.head? ≠ some '[' := by
      intro x hx
      rw [List.head?_map] at hx
      obtain ⟨y, hy, rfl⟩ := Option.map_eq_some_iff.1 hx
      exact h2 hst y hy
    refine ⟨_, _, exec_lines (by simp) h1 (defines_start h4), ?_, ls.map CM.text, CM.text l, j, by rw [h3], ?_, ?_⟩
    · simp [shut, Node.post, CM.closeAll, Leaf.close, Node.own]
    · have := h.inlines
      simpa [Prev.lead] using this
    · rw [h3] at h4; exact h4
  | @indented ls h =>
    obtain ⟨hbody, ⟨l0, r0, e0, hl0⟩, ⟨r1, l1, e1, hl1⟩⟩ := hr
    have hnb : ∀ l, rstrip l ≠ [] → CM.blank l = false := by
      intro l hl
      cases hbx : CM.blank l with
      | false => rfl
      | true => exact absurd ((rstrip_eq_nil l).2 (blank_ws hbx)) hl
    have hlast : CM.trimBlank (ls.map (CM.unindent 4)) = ls.map (CM.unindent 4) := by
      rcases List.eq_nil_or_concat ls with rfl | ⟨pre, z, rfl⟩
      · rfl
      · rw [List.concat_eq_append] at *
        simp only [List.map_append, List.map_cons, List.map_nil] at e1 ⊢
        apply trimBlank_last
        have hz : rstrip z = l1 := by
          have := congrArg List.getLast? e1
          simpa using this
        have h3 := hnb z (by rw [hz]; exact hl1)
        rcases h z (by simp) with h4 | h4
        · rw [h3] at h4; cases h4
        · cases hbx : CM.blank (CM.unindent 4 z) with
          | false => rfl
          | true =>
            exfalso
            have h5 := rstrip_unindent (l := z) (.inr h4)
            have : CM.text z = [] := by
              obtain ⟨u, hu⟩ : ∃ u, z = blanks 4 ++ u := indent_split h4
              rw [hu, unindent_blanks] at hbx
              apply cm_blank_text
              rw [hu]
              simpa [CM.blank, blanks] using hbx
            rw [(cm_blank_iff z).2 this] at h3
            cases h3
    cases ls with
    | nil => cases e0
    | cons x xs =>
      have hx := hnb x (by rw [(List.cons.inj e0).1]; exact hl0)
      have hx4 : 4 ≤ CM.indent x := by
        rcases h x (by simp) with h4 | h4
        · rw [hx] at h4; cases h4
        · exact h4
      refine ⟨⟨[], .code ((x :: xs).map (CM.unindent 4))⟩, [], ?_, ?_, _, rfl⟩
      · have := exec_code [CM.unindent 4 x] (ls := xs) (fun y hy => h y (by simp [hy]))
        simp only [CM.exec, CM.step, CM.leafStep, opens_code hx hx4, this, CM.after]
        simp
      · show [Ev.code [] ((CM.trimBlank ((x :: xs).map (CM.unindent 4))).map rstrip)] =
          [Ev.code [] ((((x :: xs).map rstrip).map (CM.unindent 4)).map rstrip)]
        rw [hlast, List.map_map, List.map_map, List.map_map]
        congr 2
        apply List.map_congr_left
        intro y hy
        exact (rstrip_unindent (h y hy)).symm
  | @rule i l c hi hh hl h3 =>
    refine ⟨⟨[], .none⟩, [.rule], ?_, ?_, rfl⟩
    · simp only [CM.exec, CM.step, CM.leafStep, opens_rule hi hr hh hl h3, CM.after, Option.map_some]
      rfl
    · simp [shut, Node.post, CM.closeAll, Leaf.close, Node.own]
  | @code f k info close content hinfo hinfo2 hclose hc =>
    obtain ⟨hf, hk, _⟩ := hr
    refine ⟨⟨[], .none⟩, [.code (strip info) content], ?_, ?_, rfl⟩
    · simp only [CM.exec, CM.step, CM.leafStep, opens_fence hf hk hinfo hinfo2]
      rw [exec_append, exec_fence [] hc]
      simp only [CM.exec, CM.step, CM.leafStep, hclose, if_true, CM.after, Option.map_some]
      simp
    · simp [shut, Node.post, CM.closeAll, Leaf.close, Node.own, fineEv, Function.comp_def, rstrip_idem]
  | @quote rs inner h =>
    obtain ⟨_, hne', hreg, hflow⟩ := hr
    have hrs : rs ≠ [] := by
      rintro rfl
      exact hne d _ _ h hreg hne' rfl
    obtain ⟨s', ev, h1, h2, h3⟩ := (hR _ _ h hreg hflow).closed
    obtain ⟨s2, ev2, f1, f2, f3⟩ := hR _ _ h hreg hflow
    obtain ⟨rfl, rfl⟩ : s' = s2 ∧ ev = ev2 := by rw [h1] at f1; simpa using f1
    refine ⟨⟨.quote :: s'.cs, s'.leaf⟩, [.quote] ++ ev, ?_, ?_, s'.cs, s'.leaf, rfl, f3.leaf.1, f3.leaf.2⟩
    · rw [exec_opens_quote hrs, h1]; rfl
    · rw [docEv] at h2
      simp only [Node.post, shut, CM.closeAll, Ctr.close, Node.own, List.map_append, List.map_cons, List.map_nil] at h2 ⊢
      rw [← h2]
      simp [fineEv]
  | @bullets c es items h =>
    obtain ⟨hc, hne', hit⟩ := hr
    cases items with
    | nil => exact absurd rfl hne'
    | cons it its =>
      cases es with
      | nil => exact h.elim
      | cons e es =>
        have hfirst : ∃ i mk r conts, e = (blanks i ++ (mk ++ ' ' :: r)) :: conts ∧
            CM.marker (mk ++ ' ' :: r) = some (.bullet c, 0, mk.length, ' ' :: r) := by
          obtain ⟨i, mk, r, conts, rfl, _, hi, rfl, _⟩ := h
          exact ⟨i, [c], r, conts, rfl, marker_bullet hc r⟩
        obtain ⟨s', ev, k', cs', leaf', h1, rfl, h3, h4, h5⟩ := exec_list (bullet_marks hc) (fun it hm ls hl =>
          (hR ls it hl (fun a ha => ((hit it hm).2.1 a ha).1) (hit it hm).2.2).closed) h hfirst
        refine ⟨_, _, h1, h5, ⟨k', cs', leaf', rfl, h3, h4, by simp⟩⟩
  | @numbers i ds r conts es items h hd =>
    obtain ⟨_, _, hne', hit⟩ := hr
    cases items with
    | nil => exact h.elim
    | cons it its =>
      have hfirst : ∃ i' mk r' conts', (blanks i ++ ((ds ++ c!".") ++ ' ' :: r)) :: conts = (blanks i' ++ (mk ++ ' ' :: r')) :: conts' ∧
          CM.marker (mk ++ ' ' :: r') = some (.number '.', parseNat ds, mk.length, ' ' :: r') := by
        have hlen : 1 ≤ ds.length ∧ ds.length ≤ 9 := by
          obtain ⟨i', mk, r', conts', e, _, hi, ⟨ds', rfl, h1, h9, hd'⟩, _⟩ := h
          have := number_line hd hd' (by simpa using (List.cons.inj e).1)
          rw [this.2.1]; exact ⟨h1, h9⟩
        refine ⟨i, ds ++ c!".", r, conts, rfl, ?_⟩
        have := marker_number hlen.1 hlen.2 hd r
        simpa using this
      obtain ⟨s', ev, k', cs', leaf', h1, rfl, h3, h4, h5⟩ := exec_list number_marks (fun it hm ls hl =>
        (hR ls it hl (fun a ha => ((hit it hm).2.1 a ha).1) (hit it hm).2.2).closed) h hfirst
      refine ⟨_, _, h1, h5, ⟨k', cs', leaf', rfl, h3, h4, by simp⟩⟩

/-! ## Documents -/

theorem rdoc_ne (d : Nat) : ∀ e x doc, RDoc d x doc → (∀ a ∈ doc, a.Reg e) → doc ≠ [] → x ≠ [] := by
  induction d with
  | zero => intro e x doc h; exact h.elim
  | succ d ih =>
    rintro e x doc ⟨parts, rfl, he, _⟩ hr hne
    cases he with
    | nil => exact absurd rfl hne
    | @cons b a bs as h1 h2 =>
      have hb : b ≠ [] := by
        have hreg := hr a (by simp)
        obtain ⟨e, rfl⟩ : ∃ e', e = e' + 1 := by cases e with | zero => exact hreg.elim | succ e => exact ⟨e, rfl⟩
        cases h1 with
        | underlined h => simp
        | par h => exact h.ne
        | indented h =>
          obtain ⟨_, ⟨l, r, e, _⟩, _⟩ := hreg
          rintro rfl
          cases e
        | hard h => simp
        | quote h =>
          have := ih e _ _ h hreg.2.2.1 hreg.2.1
          simpa using this
        | @bullets c es items h =>
          cases items with
          | nil => exact absurd rfl hreg.2.1
          | cons it its =>
            cases es with
            | nil => exact h.elim
            | cons e es =>
              obtain ⟨i, mk, r, conts, rfl, _⟩ := h
              simp
        | _ => simp
      simp [hb]

theorem ritems_indent {R : List Str → List Node → Prop} {mark : Str → Prop} {m : CM.Mark}
    (hmk : ∀ mk, mark mk → (∃ c s, mk = c :: s ∧ markChar c) ∧
      ∀ r, ∃ no, CM.marker (mk ++ ' ' :: r) = some (m, no, mk.length, ' ' :: r))
    {es : List (List Str)} {its : List (List Node)} {k k' : Nat} (h : RItems R mark k es its)
    (hi : CM.indent (es.flatten.headD []) = 0) (hk : 1 ≤ k') : RItems R mark k' es its := by
  cases es with
  | nil => cases its <;> exact h
  | cons e es =>
    cases its with
    | nil => exact h.elim
    | cons it its =>
      obtain ⟨i, mk, r, conts, rfl, _, h⟩ := h
      have : i = 0 := by
        obtain ⟨⟨c, s, rfl, hc⟩, _⟩ := hmk mk h.2.1
        have hne := hc.ne (x := ' ') (by decide) (by decide)
        obtain ⟨e1, _⟩ := cm_lead (i := i) (t := (c :: s) ++ ' ' :: r) (by simpa using hne)
        rw [← e1]; exact hi
      exact ⟨i, mk, r, conts, rfl, by omega, h⟩

/-- a list that goes on -/
theorem join_list {R : List Str → List Node → Prop} {mark : Str → Prop} {m : CM.Mark}
    (hmk : ∀ mk, mark mk → (∃ c s, mk = c :: s ∧ markChar c) ∧
      ∀ r, ∃ no, CM.marker (mk ++ ' ' :: r) = some (m, no, mk.length, ' ' :: r))
    {its : List (List Node)} (hR : ∀ it ∈ its, ∀ ls, R ls it → Closes ls ((docEv it).map fineEv)) (hn : its ≠ [])
    {es : List (List Str)} {k : Nat} (h : RItems R mark k es its) (hi : CM.indent (es.flatten.headD []) = 0)
    {lo : Bool} {s : State} (hs : Post (.list m true lo) s) :
    Yields s es.flatten (.list m false true) ((shut (.list m true lo) s).map fineEv ++ (itemsEv its).map fineEv) := by
  obtain ⟨n, cs, leaf, rfl, hn1, h5, _⟩ := hs
  obtain ⟨k', cs', leaf', ev, h1, h2, h3, h4⟩ := exec_items hmk hR (ritems_indent hmk h hi hn1) hn1 true lo cs leaf h5
  have hemp : its.isEmpty = false := by cases its with | nil => exact absurd rfl hn | cons => rfl
  simp only [hemp, Bool.and_false, Bool.not_false, Bool.and_true, Bool.or_true] at h1
  refine ⟨_, ev, h1, ?_, k', cs', leaf', rfl, h2, h3, by simp⟩
  have h9 := congrArg (List.map fineEv) (restEv_eq its)
  simp only [List.map_append, List.map_cons, List.map_nil] at h9
  have hd : ∀ (x : List Ev) (b : Bool), (x ++ [Ev.endItem, .endList b]).dropLast = x ++ [.endItem] := fun x b => by
    rw [List.dropLast_append_of_ne_nil (by simp)]; rfl
  simp only [shut, CM.closeAll, Ctr.close, hd]
  simp only [List.map_append, List.map_cons, List.map_nil] at h4 ⊢
  rw [← List.append_assoc, h4, List.append_assoc, h9, List.append_assoc]
  rfl

/-- a paragraph that goes on -/
theorem join_par {ps : List Piece} {s : State} (hs : Post (.hard ps) s) {ls : List Str}
    (h : ∀ l ∈ ls, (∃ i, i < 4 ∧ l = blanks i ++ CM.text l) ∧ CmText (CM.text l)) :
    ∃ pre t n, CM.exec s ls = some (⟨[], .par (pre ++ [t ++ blanks (n + 2)] ++ ls.map CM.text)⟩, []) ∧
      finePieces (CM.inlines (pre ++ [t])) = finePieces ps ∧
      ∀ x, (pre ++ [t ++ blanks (n + 2)]).head? = some x → x.head? ≠ some '[' := by
  obtain ⟨pre, t, n, rfl, e, hst⟩ := hs
  refine ⟨pre, t, n, exec_par _ h (defines_start ?_), e, hst⟩
  intro x hx
  refine hst x ?_
  rw [List.head?_append] at hx
  cases pre with
  | nil => simpa using hx
  | cons p pre => simpa using hx

theorem own_alone {p : Prev} {a : Node} (h : p.joins a = false) : a.own p = a.own .free := by
  cases a with
  | par ts =>
    cases p <;> first | rfl | cases h
  | bullets c its => simp only [Node.own, h]; rfl
  | numbers f its => simp only [Node.own, h]; rfl
  | _ => rfl

theorem post_alone {p : Prev} {a : Node} (h : p.joins a = false) (hb : a ≠ .blank) : a.post p = a.post .free := by
  cases a with
  | blank => exact absurd rfl hb
  | hard ts =>
    cases p <;> first | rfl | cases h
  | bullets c its => simp only [Node.post, h]; rfl
  | numbers f its => simp only [Node.post, h]; rfl
  | _ => rfl

/-- the lines of a block that goes on with what is in front of it -/
theorem node_joins {d : Nat} {R : List Str → List Node → Prop} {ls : List Str} {a : Node} (h : RNode R ls a)
    (hr : a.Reg (d + 1)) (hb : a ≠ .blank)
    (hR : ∀ x doc, R x doc → (∀ a ∈ doc, a.Reg d) → CmFlow .free doc →
      Yields ⟨[], .none⟩ x (docPost .free doc) ((docEvs .free doc).map fineEv))
    {p : Prev} {s : State} (hs : Post p s) (hj : p.joins a = true) (hp : p.allows a)
    (hi : p.isList = true → CM.indent (ls.headD []) = 0) :
    Yields s ls (a.post p) ((shut p s).map fineEv ++ (a.own p).map fineEv) := by
  cases h with
  | blank h => exact absurd rfl hb
  | @par ls ts h =>
    obtain ⟨ps, rfl⟩ : ∃ ps, p = .hard ps := by cases p <;> first | exact ⟨_, rfl⟩ | cases hj
    obtain ⟨pre, t, n, h1, h2, _⟩ := join_par hs h.texts
    obtain ⟨_, _, _, rfl, _⟩ := hs
    refine ⟨_, _, h1, ?_, _, rfl⟩
    simp only [shut, Node.post, CM.closeAll, Leaf.close, Node.own, Prev.lead, List.nil_append, List.dropLast, List.map_nil,
      List.map_cons, fineEv]
    rw [inlines_hard _ _ _ (by simpa using h.ne), finePieces_br, h2, List.append_assoc, List.singleton_append, finePieces_br,
      h.inlines]
  | @hard ls l ts j h =>
    obtain ⟨ps, rfl⟩ : ∃ ps, p = .hard ps := by cases p <;> first | exact ⟨_, rfl⟩ | cases hj
    obtain ⟨g1, _, g3⟩ := hard_texts h (j + 2)
    obtain ⟨pre, t, n, h1, h2, hst⟩ := join_par hs g1
    obtain ⟨_, _, _, rfl, _⟩ := hs
    refine ⟨_, _, h1, ?_, pre ++ [t ++ blanks (n + 2)] ++ ls.map CM.text, CM.text l, j, ?_, ?_, ?_⟩
    · simp [shut, Node.post, CM.closeAll, Leaf.close, Node.own]
    · rw [g3]; simp
    · have := h.inlines
      rw [List.append_assoc, inlines_hard _ _ _ (by simp), finePieces_br, h2]
      simp only [List.map_append, List.map_cons, List.map_nil] at this
      rw [this]
      simp only [Prev.lead, List.append_assoc, List.singleton_append, finePieces_br]
    · intro x hx
      refine hst x ?_
      cases pre with
      | nil => simpa using hx
      | cons p pre => simpa using hx
  | @bullets c es items h =>
    obtain ⟨hc, hne', hit⟩ := hr
    obtain ⟨m, g, lo, rfl⟩ : ∃ m g lo, p = .list m g lo := by cases p <;> first | exact ⟨_, _, _, rfl⟩ | cases hj
    obtain rfl : m = .bullet c := by simpa [Prev.joins] using hj
    cases g with
    | false => exact hp.elim
    | true =>
      have := join_list (bullet_marks hc) (fun it hm ls hl =>
        (hR ls it hl (fun a ha => ((hit it hm).2.1 a ha).1) (hit it hm).2.2).closed) hne' h (hi rfl) hs
      simpa only [Node.post, Node.own, hj, if_true, List.nil_append] using this
  | @numbers i ds r conts es items h hd =>
    obtain ⟨_, _, hne', hit⟩ := hr
    obtain ⟨m, g, lo, rfl⟩ : ∃ m g lo, p = .list m g lo := by cases p <;> first | exact ⟨_, _, _, rfl⟩ | cases hj
    obtain rfl : m = .number '.' := by simpa [Prev.joins] using hj
    cases g with
    | false => exact hp.elim
    | true =>
      have := join_list number_marks (fun it hm ls hl =>
        (hR ls it hl (fun a ha => ((hit it hm).2.1 a ha).1) (hit it hm).2.2).closed) hne' h (hi rfl) hs
      simpa only [Node.post, Node.own, hj, if_true, List.nil_append, List.flatten_cons] using this
  | _ => cases p <;> cases hj

/-- blank lines -/
theorem blank_yields {p : Prev} {s : State} {l : Str} (hl : CM.blank l = true) (hs : Post p s) :
    Yields s [l] p.blank ((shut p s).map fineEv ++ (Node.blank.ev p).map fineEv) := by
  obtain ⟨s', ev, e1, e2, e3⟩ := blank_post hl hs
  refine ⟨s', ev, e1, ?_, e3⟩
  cases p with
  | list m g lo =>
    obtain ⟨n, cs, leaf, rfl, _⟩ := hs
    obtain ⟨n', cs', leaf', rfl, _⟩ := e3
    have := congrArg List.dropLast e2
    rw [List.dropLast_append_of_ne_nil (by simp [CM.closeAll, Ctr.close])] at this
    simp only [Prev.blank, shut, Node.ev, Prev.joins, Node.own, if_true, List.append_nil, List.map_nil] at this ⊢
    rw [this]
  | hard ps =>
    have := shut_fin hs
    simp only [Node.ev, Prev.joins, Node.own, Bool.false_eq_true, if_false, List.append_nil]
    rw [← this, ← e2]
    rfl
  | _ => simp [shut, Prev.blank, Node.ev, Prev.joins, Prev.fin, Node.own, ← e2]

/-- the lines of a document, whatever is in front of them -/
theorem doc_yields {d : Nat} {R : List Str → List Node → Prop}
    (hne : ∀ e x doc, R x doc → (∀ a ∈ doc, a.Reg e) → doc ≠ [] → x ≠ [])
    (hR : ∀ x doc, R x doc → (∀ a ∈ doc, a.Reg d) → CmFlow .free doc →
      Yields ⟨[], .none⟩ x (docPost .free doc) ((docEvs .free doc).map fineEv))
    {parts : List (List Str)} {doc : List Node} (h : Each (RNode R) parts doc) {p : Prev} {s : State} (hs : Post p s)
    (hr : ∀ a ∈ doc, a.Reg (d + 1)) (hf : CmFlow p doc) (hfl : CmFlush p parts doc) :
    Yields s parts.flatten (docPost p doc) ((shut p s).map fineEv ++ (docEvs p doc).map fineEv) := by
  induction h generalizing p s with
  | nil => exact ⟨s, [], rfl, by simp [docEvs, docPost], by simpa [docPost] using hs⟩
  | @cons b a bs as h1 h2 ih =>
    have key : Yields s b (a.post p) ((shut p s).map fineEv ++ (a.ev p).map fineEv) := by
      by_cases hb : a = .blank
      · subst hb
        cases h1 with
        | blank hl => exact blank_yields hl hs
      · have hreg := hr a (by simp)
        cases hj : p.joins a with
        | true =>
          have := node_joins h1 hreg hb hR hs hj hf.1 (fun hl => hfl.1 hl hb)
          simpa only [Node.ev, hj, if_true, List.nil_append] using this
        | false =>
          obtain ⟨l, rest, rfl, _⟩ := first_line h1 hreg hb hne
          have hend := node_ends hs h1 hreg hb hf.1 hj hne (fun hl => hfl.1 hl hb)
          rw [post_alone hj hb]
          have := Yields.ends hend (node_yields h1 hreg hb hne hR)
          rw [shut_fin hs] at this
          simpa only [Node.ev, hj, Bool.false_eq_true, if_false, own_alone hj, List.map_append, List.append_assoc] using this
    obtain ⟨s', ev, e1, e2, e3⟩ := key
    obtain ⟨s2, ev2, f1, f2, f3⟩ := ih e3 (fun x hx => hr x (by simp [hx])) hf.2 hfl.2
    refine ⟨s2, ev ++ ev2, ?_, ?_, by simpa [docPost] using f3⟩
    · rw [List.flatten_cons, exec_append, e1]
      simp only [f1, CM.after, Option.map_some]
    · simp only [List.map_append] at e2 f2
      simp only [List.map_append, List.append_assoc, docPost, f2, docEvs]
      rw [← List.append_assoc, e2]
      simp only [Node.ev, List.map_append, List.append_assoc]

/-- Lines that are a document are rendered as it says. -/
theorem rdoc_yields (d : Nat) : ∀ ls doc, RDoc d ls doc → RegDoc d doc →
    Yields ⟨[], .none⟩ ls (docPost .free doc) ((docEvs .free doc).map fineEv) := by
  induction d with
  | zero => intro ls doc h; exact h.elim
  | succ d ih =>
    rintro ls doc ⟨parts, rfl, he, hfl⟩ ⟨hr, hf⟩
    have := doc_yields (rdoc_ne d) (fun x doc h h1 h2 => ih x doc h ⟨h1, h2⟩) he (p := .free) (s := ⟨[], .none⟩) rfl hr hf hfl
    simpa [shut, CM.closeAll, Leaf.close] using this

/-- Lines that are a document, with no spaces but the usual ones, are rendered as it says. -/
theorem rdoc_render {d : Nat} {ls : List Str} {doc : List Node} (h : RDoc d ls doc) (hr : RegDoc d doc) (hs : ∀ l ∈ ls, Spaced l) :
    ∃ ev, CM.render ls = some ev ∧ ev.map fineEv = (docEv doc).map fineEv := by
  obtain ⟨s', ev, h1, h2, _⟩ := (rdoc_yields d ls doc h hr).closed
  refine ⟨ev ++ CM.closeAll s'.leaf s'.cs, ?_, h2⟩
  unfold CM.render
  rw [if_pos, h1]
  · rfl
  · rw [List.all_eq_true]
    intro l hl
    rw [List.all_eq_true]
    intro c hc
    cases hw : isWs c with
    | false => rfl
    | true => rw [hs l hl c hc hw]; rfl

end MF
