import Verif.Props.LineCount
import Verif.Props.Extents
import Verif.Lemmas.Unquote
import Verif.Lemmas.ListMark
/-!
# Room for lines

How long the lines inside quotes and lists get: a lazy line of a quote receives the marks of an earlier line, so its marks are paid for by
the characters before it.
-/

namespace MF

/-- The lines fit into the room from `p` to `B`, at nesting `b`: each is a run of marks and a rest; the rests lie one behind the other, and
the marks, with the nesting, lie before the rest. -/
def Room (b B : Nat) : Nat → List Str → Prop
  | p, [] => p ≤ B
  | p, l :: ls => ∃ e core p', p ≤ p' ∧ b + e ≤ p' ∧ l = List.replicate e '>' ++ core ∧ Room b B (p' + core.length + 1) ls

theorem Room.start : ∀ (ls : List Str) (p : Nat), Room 0 (p + wts 1 ls) p ls
  | [], p => by simp [Room, wts]
  | l :: ls, p => by
    refine ⟨0, l, p, Nat.le_refl _, by omega, rfl, ?_⟩
    have := Room.start ls (p + l.length + 1)
    rw [show p + l.length + 1 + wts 1 ls = p + wts 1 (l :: ls) by simp only [wts, wt_one]; omega] at this
    exact this

theorem Room.low {b B : Nat} : ∀ {ls : List Str} {p q : Nat}, Room b B q ls → p ≤ q → Room b B p ls
  | [], _, _, h, hpq => Nat.le_trans hpq h
  | _ :: _, _, _, ⟨e, core, p', h1, h2, h3, h4⟩, hpq => ⟨e, core, p', Nat.le_trans hpq h1, h2, h3, h4⟩

theorem Room.length_le {b B : Nat} : ∀ {ls : List Str} {p : Nat}, Room b B p ls → p + ls.length ≤ B
  | [], p, h => h
  | l :: ls, p, ⟨e, core, p', h1, h2, h3, h4⟩ => by
    have := h4.length_le
    simp only [List.length_cons]; omega

theorem Room.line_le {b B : Nat} : ∀ {ls : List Str} {p : Nat}, Room b B p ls → ∀ l ∈ ls, b + l.length + 1 ≤ B
  | [], p, h, l, hl => by cases hl
  | x :: ls, p, ⟨e, core, p', h1, h2, h3, h4⟩, l, hl => by
    rcases List.mem_cons.1 hl with rfl | hl
    · have := h4.length_le
      rw [h3, List.length_append, List.length_replicate]; omega
    · exact h4.line_le l hl

theorem Room.append {b B : Nat} : ∀ {x y : List Str} {p : Nat}, Room b B p (x ++ y) → ∃ m, Room b m p x ∧ Room b B m y ∧ m ≤ B
  | [], y, p, h => ⟨p, Nat.le_refl _, h, by have := h.length_le; omega⟩
  | l :: x, y, p, ⟨e, core, p', h1, h2, h3, h4⟩ => by
    obtain ⟨m, i1, i2, i3⟩ := Room.append h4
    exact ⟨m, ⟨e, core, p', h1, h2, h3, i1⟩, i2, i3⟩

/-- All lines together, if none starts with a mark. -/
theorem Room.plain {b B : Nat} : ∀ {ls : List Str} {p : Nat}, Room b B p ls → (∀ l ∈ ls, l.head? ≠ some '>') → p + wts 1 ls ≤ B
  | [], p, h, _ => h
  | l :: ls, p, ⟨e, core, p', h1, h2, h3, h4⟩, hl => by
    have he : e = 0 := by
      cases e with
      | zero => rfl
      | succ e => exact absurd (by rw [h3]; rfl) (hl l (by simp))
    subst he
    have := Room.plain h4 fun x hx => hl x (by simp [hx])
    simp only [List.replicate_zero, List.nil_append] at h3
    subst h3
    simp only [wts, wt_one]; omega

theorem Room.total {b B p : Nat} {ls : List Str} (h : Room b B p ls) : wts 1 ls ≤ (B - b) * wts 0 ls := by
  have hl := h.line_le
  clear h
  induction ls with
  | nil => simp [wts]
  | cons l ls ih =>
    have h1 := ih fun x hx => hl x (by simp [hx])
    have h2 := hl l (by simp)
    simp only [wts, Nat.mul_add, Nat.mul_one, wt_one]
    omega

theorem Room.map {b B : Nat} {f : Str → Str} (hf : ∀ l, (f l).length ≤ l.length) (hq : ∀ l : Str, f ('>' :: l) = '>' :: l) :
    ∀ {ls : List Str} {p : Nat}, Room b B p ls → Room b B p (ls.map f)
  | [], p, h => h
  | l :: ls, p, ⟨e, core, p', h1, h2, h3, h4⟩ => by
    have ih := Room.map hf hq h4
    cases e with
    | zero =>
      simp only [List.replicate_zero, List.nil_append] at h3
      subst h3
      exact ⟨0, f l, p', h1, h2, rfl, ih.low (by have := hf l; omega)⟩
    | succ e =>
      exact ⟨e + 1, core, p', h1, h2, by rw [h3, List.replicate_succ, List.cons_append, hq], ih⟩

/-! ### Quotes -/

theorem dropSpace_le (l : Str) : (dropSpace l).length ≤ l.length := (dropSpace_sub l).length_le

theorem isQuote_mark (l : Str) : isQuote ('>' :: l) = true := Marked.isQuote ⟨0, by omega, rfl⟩

theorem unquote_mark (l : Str) : unquote ('>' :: l) = l := unquote_marked ⟨0, by omega, rfl⟩

theorem quote_depth {l : Str} (h : isQuote l = true) :
    1 ≤ (spaceless l).length - (lstripBy (· == '>') (spaceless l)).length ∧
      (spaceless l).length - (lstripBy (· == '>') (spaceless l)).length ≤ l.length := by
  rw [← quotedLine_eq] at h
  simp only [quotedLine, Bool.and_eq_true] at h
  replace h := h.2
  have h1 : ∃ t, l.filter (fun c => !isWs c) = '>' :: t := by
    induction l with
    | nil => simp at h
    | cons c l ih =>
      by_cases hc : isWs c = true
      · rw [List.dropWhile_cons_of_pos hc] at h
        obtain ⟨t, ht⟩ := ih h
        exact ⟨t, by rw [List.filter_cons_of_neg (by simp [hc]), ht]⟩
      · rw [List.dropWhile_cons_of_neg hc] at h
        have : c = '>' := by simpa using h
        subst this
        exact ⟨_, by rw [List.filter_cons_of_pos (by simpa using hc)]⟩
  obtain ⟨t, ht⟩ := h1
  have h2 : (spaceless l).length ≤ l.length := by rw [spaceless_eq]; exact List.length_filter_le _ _
  have h3 : (lstripBy (· == '>') (spaceless l)).length ≤ t.length := by
    rw [spaceless_eq, ht]
    have : lstripBy (· == '>') ('>' :: t) = lstripBy (· == '>') t := rfl
    rw [this]
    exact (lstripBy_sub _ _).length_le
  have h4 : (spaceless l).length = t.length + 1 := by rw [spaceless_eq, ht]; rfl
  omega

theorem Room.quoteRest {b B : Nat} : ∀ {ls : List Str} {p d : Nat}, Room b B p ls → 1 ≤ d → d + b ≤ p →
    Room (b + 1) B p ((fullyQuote d ls).map unquote)
  | [], p, d, h, _, _ => h
  | l :: ls, p, d, ⟨e, core, p', h1, h2, h3, h4⟩, hd, hp => by
    simp only [fullyQuote]
    by_cases hq : isQuote l = true
    · rw [if_pos hq]
      obtain ⟨q1, q2⟩ := quote_depth hq
      have hlen : l.length = e + core.length := by rw [h3]; simp
      have ih := Room.quoteRest h4 q1 (by omega)
      rw [List.map_cons]
      cases e with
      | zero =>
        simp only [List.replicate_zero, List.nil_append] at h3
        subst h3
        refine ⟨0, unquote l, p', h1, by omega, rfl, ih.low ?_⟩
        have := (unquote_suffix l).length_le
        omega
      | succ e =>
        refine ⟨e, core, p', h1, by omega, ?_, ih⟩
        rw [h3, List.replicate_succ, List.cons_append, unquote_mark]
    · rw [if_neg hq]
      have he : e = 0 := by
        cases e with
        | zero => rfl
        | succ e => exact absurd (by rw [h3]; exact isQuote_mark _) hq
      subst he
      simp only [List.replicate_zero, List.nil_append] at h3
      subst h3
      have ih := Room.quoteRest h4 hd (by omega)
      rw [List.map_cons]
      obtain ⟨d, rfl⟩ : ∃ d', d = d' + 1 := ⟨d - 1, by omega⟩
      exact ⟨d, l, p', h1, by omega, by rw [List.replicate_succ, List.cons_append, unquote_mark], ih⟩

theorem Room.quote {b B p k : Nat} {r : Str} {ls : List Str} (h : Room b B p ((List.replicate k ' ' ++ '>' :: r) :: ls)) (hk : k ≤ 3) :
    Room (b + 1) B (p + k) (quoteInner ((List.replicate k ' ' ++ '>' :: r) :: ls)).1 := by
  have hm : Marked (List.replicate k ' ' ++ '>' :: r) r := ⟨k, hk, rfl⟩
  have hu := unquote_marked hm
  have hq := hm.isQuote
  have key : Room (b + 1) B (p + k) ((fullyQuote 0 ((List.replicate k ' ' ++ '>' :: r) :: ls)).map unquote) := by
    obtain ⟨q1, q2⟩ := quote_depth hq
    obtain ⟨e, core, p', h1, h2, h3, h4⟩ := h
    simp only [fullyQuote, if_pos hq, List.map_cons, hu]
    have hlen := congrArg List.length h3
    simp only [List.length_append, List.length_replicate, List.length_cons] at hlen q2
    have ih := Room.quoteRest h4 q1 (by omega)
    cases e with
    | zero =>
      simp only [List.replicate_zero, List.nil_append] at h3
      refine ⟨0, r, p' + k + 1, by omega, by omega, rfl, ih.low (by omega)⟩
    | succ e =>
      have hk0 : k = 0 := by
        cases k with
        | zero => rfl
        | succ k =>
          rw [List.replicate_succ, List.replicate_succ, List.cons_append, List.cons_append] at h3
          exact absurd (List.cons.inj h3).1 (by decide)
      subst hk0
      refine ⟨e, core, p', by omega, by omega, ?_, ih⟩
      rw [List.replicate_succ, List.cons_append] at h3
      exact (List.cons.inj h3).2
  simp only [quoteInner]
  split
  · refine Room.map dropSpace_le ?_ key
    intro l; rfl
  · exact key

/-! ### A quote whose mark is not removed -/

/-- The line is a quote, but its mark is behind white space other than spaces: it is not removed. -/
def NoMark (l : Str) : Prop := isQuote l = true ∧ ∀ r, ¬ Marked l r

theorem NoMark.dropSpace {l : Str} (h : NoMark l) : NoMark (dropSpace l) := by
  obtain ⟨h1, h2⟩ := h
  cases l with
  | nil => exact ⟨h1, h2⟩
  | cons c l =>
    simp only [MF.dropSpace]
    split
    · rename_i hc
      have hc : c = ' ' := by simpa using hc
      subst hc
      rw [← quotedLine_eq] at h1
      simp only [quotedLine, Bool.and_eq_true, decide_eq_true_eq] at h1
      have hi : getIndent (' ' :: l) = 1 + getIndent l := by
        have := getIndent_ws_append (ws := [' ']) (l := l) (by decide)
        simpa using this
      refine ⟨?_, ?_⟩
      · rw [← quotedLine_eq]
        simp only [quotedLine, Bool.and_eq_true, decide_eq_true_eq]
        refine ⟨by omega, ?_⟩
        rw [List.dropWhile_cons_of_pos (by decide)] at h1
        exact h1.2
      · rintro r ⟨k, hk, rfl⟩
        by_cases hk3 : k = 3
        · subst hk3
          have : getIndent (List.replicate 3 ' ' ++ '>' :: r) = 3 := by
            rw [getIndent_ws_append (by decide), getIndent_not_ws (by decide)]; rfl
          omega
        · exact h2 r ⟨k + 1, by omega, by rw [List.replicate_succ, List.cons_append]⟩
    · exact ⟨h1, h2⟩

theorem kindOf_quote {l : Str} (h : isQuote l = true) : kindOf l = some .quote := by
  rw [← quotedLine_eq] at h
  simp only [quotedLine, Bool.and_eq_true, decide_eq_true_eq] at h
  obtain ⟨h1, h2⟩ := h
  have h2 : (l.dropWhile isWs).head? = some '>' := by simpa using h2
  obtain ⟨t, ht⟩ : ∃ t, l.dropWhile isWs = '>' :: t := by
    cases hd : l.dropWhile isWs with
    | nil => rw [hd] at h2; cases h2
    | cons c t => rw [hd] at h2; exact ⟨t, by rw [show c = '>' by simpa using h2]⟩
  unfold kindOf
  rw [h2]
  have hf : fenceLine l = false := by
    simp [fenceLine, ht]
  simp only [hf, Bool.false_eq_true, if_false]
  rw [if_neg (by omega)]
  rfl

theorem quoteInner_noLB {ls : List Str} (h : ∀ l ∈ ls, NoLB l) : ∀ l ∈ (quoteInner ls).1, NoLB l := by
  intro l hl c hc
  have hF : ∀ l ∈ ls, Fine (fun c => c ≠ '\n') l := fun l hl c hc =>
    .inr ⟨h l hl c hc, .inl (by rintro rfl; exact absurd (h l hl _ hc) (by decide))⟩
  rcases quoteInner_fine hF l hl c hc with rfl | ⟨h1, _⟩
  · exfalso
    have h1 : ∀ d (ls : List Str), (∀ l ∈ ls, NoLB l) → ∀ l ∈ fullyQuote d ls, '\n' ∉ l := by
      intro d ls
      induction ls generalizing d with
      | nil => intro _ l hl; cases hl
      | cons x xs ih =>
        intro h l hl
        simp only [fullyQuote] at hl
        have hx : '\n' ∉ x := fun hc => absurd (h x (by simp) _ hc) (by decide)
        split at hl
        · rcases List.mem_cons.1 hl with rfl | hl
          · exact hx
          · exact ih _ (fun y hy => h y (by simp [hy])) l hl
        · rcases List.mem_cons.1 hl with rfl | hl
          · intro hc
            rcases List.mem_append.1 hc with hc | hc
            · exact absurd (List.eq_of_mem_replicate hc) (by decide)
            · exact hx hc
          · exact ih _ (fun y hy => h y (by simp [hy])) l hl
    simp only [quoteInner] at hl
    split at hl
    · obtain ⟨y, hy, rfl⟩ := List.mem_map.1 hl
      obtain ⟨z, hz, rfl⟩ := List.mem_map.1 hy
      exact h1 0 ls h z hz (unquote_mem (dropSpace_mem hc))
    · obtain ⟨z, hz, rfl⟩ := List.mem_map.1 hl
      exact h1 0 ls h z hz (unquote_mem hc)
  · exact h1

theorem noMark_head {l : Str} {ls : List Str} (h : NoMark l) : ∃ l' ls', (quoteInner (l :: ls)).1 = l' :: ls' ∧ NoMark l' := by
  have hu : unquote l = l := unquote_unmarked h.2
  simp only [quoteInner, fullyQuote, if_pos h.1, List.map_cons, hu]
  split
  · exact ⟨_, _, rfl, h.dropSpace⟩
  · exact ⟨_, _, rfl, h⟩

/-- Such a quote is never formatted: the quote in it is the same, to no end. -/
theorem noMark_fails : ∀ (n : Nat) (w : Width) (l : Str) (ls : List Str) (out : Str), NoMark l → (∀ x ∈ l :: ls, NoLB x) →
    reformatText n w (pyJoin ['\n'] (l :: ls) ++ ['\n']) ≠ .ok out := by
  intro n
  induction n with
  | zero => intro w l ls out _ _ h; cases h
  | succ n ih =>
    intro w l ls out hs hl h
    simp only [reformatText, reformatBody, bind, Except.bind] at h
    rw [splitlines_join_nl _ hl (by simp)] at h
    split at h
    · cases h
    · rename_i secs hp
      obtain ⟨p1, p2⟩ := C08_parse_partition n _ _ hp
      obtain ⟨ty, content, rest, rfl, x, rfl⟩ : ∃ ty content rest, secs = (ty, content) :: rest ∧ ∃ x, content = l :: x := by
        cases secs with
        | nil => cases p1
        | cons s rest =>
          obtain ⟨ty, content⟩ := s
          refine ⟨ty, content, rest, rfl, ?_⟩
          cases content with
          | nil => exact absurd rfl (p2 (ty, []) (by simp))
          | cons y x =>
            simp only [List.map_cons, List.flatten_cons, List.cons_append] at p1
            exact ⟨x, by rw [(List.cons.inj p1).1]⟩
      have hk := C51_kind (pre := []) hp
      rw [kindOf_quote hs.1] at hk
      have hty : ty = .quote := hk
      subst hty
      split at h
      · cases h
      · rename_i fmts hf
        simp only [buildFmts, bind, Except.bind] at hf
        split at hf
        · cases hf
        · split at hf
          · cases hf
          · simp only [show (Sec.quote == Sec.setext) = false from rfl, Bool.false_and, Bool.false_eq_true, if_false] at hf
            cases hf
            simp only [fmtAll, bind, Except.bind] at h
            split at h
            · cases h
            · rename_i parts hparts
              split at hparts
              · cases hparts
              · rename_i t ht
                have ht := mapError_ok ht
                simp only [fmtSection, fmtQuote, bind, Except.bind] at ht
                split at ht
                · cases ht
                · rename_i text htext
                  obtain ⟨l', ls', e1, e2⟩ := noMark_head (ls := x) hs
                  simp only [reformatLines, e1] at htext
                  refine ih _ l' ls' text e2 ?_ htext
                  rw [← e1]
                  refine quoteInner_noLB fun y hy => hl y ?_
                  rw [← p1]
                  simp only [List.map_cons, List.flatten_cons]
                  exact List.mem_append_left _ hy

end MF
