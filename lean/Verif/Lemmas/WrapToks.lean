import Verif.Lemmas.CodeSpans
import Verif.Lemmas.Greedy
import Verif.Lemmas.Join
/-!
# The tokens `wrap` works with
-/

namespace MF

/-! ## Words -/

theorem consHead_append {xs ys : List Str} (c : Char) (h : xs ≠ []) : consHead c (xs ++ ys) = consHead c xs ++ ys := by
  cases xs with
  | nil => exact absurd rfl h
  | cons x xs => rfl

theorem splitWs_ws (c : Char) (s : Str) (h : isWs c = true) : splitWs (c :: s) = splitWs s := by
  cases s <;> simp [splitWs, h]

theorem splitWs_single {c : Char} (h : isWs c = false) : splitWs [c] = [[c]] := by
  rw [splitWs]; simp [h]

theorem splitWs_end {c d : Char} {r : Str} (h : isWs c = false) (hd : isWs d = true) :
    splitWs (c :: d :: r) = [c] :: splitWs r := by
  rw [splitWs]; simp [h, hd, splitWs_ws]

theorem splitWs_more {c d : Char} {r : Str} (h : isWs c = false) (hd : isWs d = false) :
    splitWs (c :: d :: r) = consHead c (splitWs (d :: r)) := by
  rw [splitWs]; simp [h, hd]

theorem consHead_ne_nil (c : Char) (ls : List Str) : consHead c ls ≠ [] := by
  cases ls <;> simp [consHead]

theorem splitWs_ne_nil {c : Char} {r : Str} (h : isWs c = false) : splitWs (c :: r) ≠ [] := by
  cases r with
  | nil => rw [splitWs_single h]; simp
  | cons d r =>
    cases hd : isWs d with
    | true => rw [splitWs_end h hd]; simp
    | false => rw [splitWs_more h hd]; exact consHead_ne_nil _ _

theorem splitWs_append_ws (a : Str) (c : Char) (b : Str) (h : isWs c = true) :
    splitWs (a ++ c :: b) = splitWs a ++ splitWs b := by
  induction a with
  | nil => rw [List.nil_append, splitWs_ws _ _ h]; rfl
  | cons x a ih =>
    cases hx : isWs x with
    | true => rw [List.cons_append, splitWs_ws _ _ hx, splitWs_ws _ _ hx, ih]
    | false =>
      cases a with
      | nil => simp only [List.cons_append, List.nil_append]; rw [splitWs_end hx h, splitWs_single hx]; rfl
      | cons y a =>
        simp only [List.cons_append] at ih ⊢
        cases hy : isWs y with
        | true =>
          rw [splitWs_end hx hy, splitWs_end hx hy, ← splitWs_ws y _ hy, ih, splitWs_ws y _ hy]; rfl
        | false => rw [splitWs_more hx hy, splitWs_more hx hy, ih, consHead_append _ (splitWs_ne_nil hy)]

theorem splitWs_all_ws {s : Str} (h : ∀ c ∈ s, isWs c = true) : splitWs s = [] := by
  induction s with
  | nil => rfl
  | cons c s ih => rw [splitWs_ws _ _ (h c (by simp)), ih (fun x hx => h x (by simp [hx]))]

theorem splitWs_append_all {a b : Str} (h : ∀ c ∈ b, isWs c = true) : splitWs (a ++ b) = splitWs a := by
  cases b with
  | nil => simp
  | cons c b =>
    have hb : splitWs b = [] := splitWs_all_ws (fun x hx => h x (by simp [hx]))
    rw [splitWs_append_ws _ _ _ (h c (by simp)), hb, List.append_nil]

theorem splitWs_prepend_all {a b : Str} (h : ∀ c ∈ a, isWs c = true) : splitWs (a ++ b) = splitWs b := by
  induction a with
  | nil => rfl
  | cons c a ih => rw [List.cons_append, splitWs_ws _ _ (h c (by simp)), ih (fun x hx => h x (by simp [hx]))]

theorem rstrip_split (s : Str) : ∃ b, s = rstrip s ++ b ∧ ∀ c ∈ b, isWs c = true := by
  obtain ⟨t, ht, hw⟩ := lstrip_split s.reverse
  refine ⟨t.reverse, ?_, by simpa using hw⟩
  have := congrArg List.reverse ht
  simpa [rstrip, rstripBy, lstrip] using this

theorem splitWs_strip (s : Str) : splitWs (strip s) = splitWs s := by
  obtain ⟨a, ha, hw⟩ := lstrip_split s
  obtain ⟨b, hb, hw'⟩ := rstrip_split (lstrip s)
  have h1 : splitWs s = splitWs (lstrip s) := by
    conv => lhs; rw [ha]
    exact splitWs_prepend_all hw
  have h2 : splitWs (lstrip s) = splitWs (strip s) := by
    conv => lhs; rw [hb]
    exact splitWs_append_all hw'
  rw [h1, h2]

theorem splitWs_consHead {c : Char} {s : Str} {ls : List Str}
    (hs : s = [] → ls = []) (hd : ∀ d r, s = d :: r → (isWs d = false ∧ ∃ l ls', ls = (d :: l) :: ls') ∨
      isWs d = true ∧ ∀ l ls', ls = l :: ls' → l = [] ∨ l.head? = some d)
    (ih : (ls.map splitWs).flatten = splitWs s) : ((consHead c ls).map splitWs).flatten = splitWs (c :: s) := by
  cases hc : isWs c with
  | true =>
    rw [splitWs_ws _ _ hc, ← ih]
    cases ls with
    | nil => simp [consHead, splitWs, hc]
    | cons l ls => simp only [consHead, List.map_cons, List.flatten_cons, splitWs_ws _ _ hc]
  | false =>
    cases s with
    | nil => rw [hs rfl]; simp [consHead]
    | cons d r =>
      rcases hd d r rfl with ⟨hd', l, ls', rfl⟩ | ⟨hd', hl⟩
      · rw [splitWs_more hc hd', ← ih]
        simp only [consHead, List.map_cons, List.flatten_cons]
        rw [splitWs_more hc hd']
        have := splitWs_ne_nil (r := l) hd'
        cases hw : splitWs (d :: l) with
        | nil => exact absurd hw this
        | cons w ws => simp [consHead]
      · rw [splitWs_end hc hd', ← splitWs_ws d r hd', ← ih]
        cases ls with
        | nil => simp [consHead, splitWs_single hc]
        | cons l ls =>
          simp only [consHead, List.map_cons, List.flatten_cons]
          rcases hl l ls rfl with rfl | hl
          · rw [splitWs_single hc]; simp [splitWs]
          · obtain ⟨l', rfl⟩ : ∃ l', l = d :: l' := by
              cases l with
              | nil => cases hl
              | cons x l => simp at hl; exact ⟨l, by rw [hl]⟩
            rw [splitWs_end hc hd', splitWs_ws _ _ hd']; rfl

/-- the words of a text are the words of its lines -/
theorem splitWs_splitlines (s : Str) : ((splitlines s).map splitWs).flatten = splitWs s := by
  fun_induction splitlines s with
  | case1 => rfl
  | case2 c rest h ih =>
    simp only [Bool.and_eq_true, beq_iff_eq] at h
    rw [ih, splitWs_ws _ _ (by rw [h.1]; decide)]
  | case3 c rest h1 h2 ih =>
    rw [List.map_cons, List.flatten_cons, ih, splitWs_ws _ _ (isLB_ws h2)]; rfl
  | case4 c rest h1 h2 ih =>
    apply splitWs_consHead _ _ ih
    · rintro rfl; rfl
    · rintro d r rfl
      unfold splitlines
      split
      · rename_i hcr
        simp only [Bool.and_eq_true, beq_iff_eq] at hcr
        obtain ⟨rfl, hn⟩ := hcr
        right
        refine ⟨by decide, ?_⟩
        obtain ⟨rest', rfl⟩ : ∃ r', r = '\n' :: r' := by
          cases r with
          | nil => cases hn
          | cons x r => simp at hn; exact ⟨r, by rw [hn]⟩
        intro l ls' hl
        rw [splitlines] at hl
        simp [show isLB '\n' = true by decide] at hl
        exact .inl hl.1
      · split
        · rename_i hlb
          right
          refine ⟨isLB_ws hlb, ?_⟩
          intro l ls' hl
          simp at hl; exact .inl hl.1
        · cases hd : isWs d with
          | true =>
            right; refine ⟨rfl, ?_⟩
            intro l ls' hl
            cases hs : splitlines r <;> rw [hs] at hl <;> simp [consHead] at hl <;> right <;> rw [← hl.1] <;> rfl
          | false =>
            left; refine ⟨rfl, ?_⟩
            cases hs : splitlines r
            · exact ⟨[], [], rfl⟩
            · exact ⟨_, _, rfl⟩

theorem splitWs_pyJoin (ls : List Str) : splitWs (pyJoin [' '] ls) = (ls.map splitWs).flatten := by
  induction ls with
  | nil => rfl
  | cons l ls ih =>
    cases ls with
    | nil => simp [pyJoin]
    | cons m ls =>
      rw [pyJoin_cons_ne (by simp), List.append_assoc, List.cons_append, List.nil_append,
        splitWs_append_ws _ _ _ (by decide), ih]
      simp

/-- the text `wrap` works on has the words of the text it is given -/
theorem splitWs_wrapInput (text : Str) : splitWs (wrapInput text) = splitWs text := by
  unfold wrapInput
  rw [splitWs_pyJoin, List.map_map]
  have : (splitWs ∘ strip) = splitWs := funext splitWs_strip
  rw [this, splitWs_splitlines]

theorem consHead_flatten (c : Char) (ls : List Str) : (consHead c ls).flatten = c :: ls.flatten := by
  cases ls <;> simp [consHead]

theorem nw_splitWs (s : Str) : (splitWs s).flatten = nw s := by
  induction s with
  | nil => rfl
  | cons c s ih =>
    cases hc : isWs c with
    | true => rw [splitWs_ws _ _ hc, ih]; simp [nw, hc]
    | false =>
      have hn : nw (c :: s) = c :: nw s := by simp [nw, hc]
      rw [hn, ← ih]
      cases s with
      | nil => rw [splitWs_single hc]; rfl
      | cons d s =>
        cases hd : isWs d with
        | true => rw [splitWs_end hc hd, splitWs_ws _ _ hd]; rfl
        | false => rw [splitWs_more hc hd, consHead_flatten]

theorem nw_wrapInput (text : Str) : nw (wrapInput text) = nw text := by
  rw [← nw_splitWs, splitWs_wrapInput, nw_splitWs]

theorem wrapInput_noLB (text : Str) : NoLB (wrapInput text) := by
  unfold wrapInput
  intro c hc
  rcases mem_pyJoin hc with hc | ⟨l, hl, hc⟩
  · simp at hc; rw [hc]; decide
  · obtain ⟨l', hl', rfl⟩ := List.mem_map.1 hl
    exact splitlines_noLB text l' hl' c (mem_of_mem_strip hc)

theorem mem_wrapInput {text : Str} {c : Char} (h : c ∈ wrapInput text) : c ∈ text ∨ c = ' ' := by
  unfold wrapInput at h
  rcases mem_pyJoin h with hc | ⟨l, hl, hc⟩
  · simp at hc; exact .inr hc
  · obtain ⟨l', hl', rfl⟩ := List.mem_map.1 hl
    exact .inl (splitlines_mem text l' hl' c (mem_of_mem_strip hc))

/-! ## Closure lemmas for one pass -/

theorem applySplit_cons {func : Str → Bool → Except Err Toks} {s : Str} {l e : Bool} {ps : List (Str × Bool × Bool)}
    {t : Toks} (h : applySplit func ((s, l, e) :: ps) = .ok t) :
    ∃ t1 t2 : Toks, (e = true ∧ func s l = .ok t1 ∨ e = false ∧ t1 = { split := [s], lead := [l], eval := [false] }) ∧
      applySplit func ps = .ok t2 ∧
      t = { split := t1.split ++ t2.split, lead := t1.lead ++ t2.lead, eval := t1.eval ++ t2.eval } := by
  simp only [applySplit, bind, Except.bind] at h
  cases e with
  | true =>
    simp only [if_true] at h
    cases h1 : func s l with
    | error e => rw [h1] at h; cases h
    | ok t1 =>
      rw [h1] at h
      simp only at h
      cases h2 : applySplit func ps with
      | error e => rw [h2] at h; cases h
      | ok t2 => rw [h2] at h; cases h; exact ⟨t1, t2, .inl ⟨rfl, rfl⟩, rfl, rfl⟩
  | false =>
    simp only [Bool.false_eq_true, if_false] at h
    cases h2 : applySplit func ps with
    | error e => rw [h2] at h; cases h
    | ok t2 => rw [h2] at h; cases h; exact ⟨_, t2, .inr ⟨rfl, rfl⟩, rfl, rfl⟩

theorem applySplit_closed {func : Str → Bool → Except Err Toks} {Qin : Str × Bool × Bool → Prop}
    {P : List (Str × Bool × Bool) → Prop} (hnil : P []) (happ : ∀ a b, P a → P b → P (a ++ b))
    (hf : ∀ s l t, Qin (s, l, true) → func s l = .ok t → t.WF ∧ P t.triples)
    (hkeep : ∀ s l, Qin (s, l, false) → P [(s, l, false)]) :
    ∀ ps t, (∀ x ∈ ps, Qin x) → applySplit func ps = .ok t → P t.triples := by
  intro ps
  induction ps with
  | nil => intro t _ h; cases h; exact hnil
  | cons x ps ih =>
    intro t hq h
    obtain ⟨s, l, e⟩ := x
    have hx := hq (s, l, e) (by simp)
    obtain ⟨t1, t2, h1, h2, rfl⟩ := applySplit_cons h
    have ht1 : t1.WF ∧ P t1.triples := by
      rcases h1 with ⟨rfl, h1⟩ | ⟨rfl, rfl⟩
      · exact hf s l t1 hx h1
      · exact ⟨⟨rfl, rfl⟩, hkeep s l hx⟩
    rw [triples_append _ _ ht1.1]
    exact happ _ _ ht1.2 (ih t2 (fun y hy => hq y (by simp [hy])) h2)

theorem splitPass_closed {func : Str → Bool → Except Err Toks} {Qin : Str × Bool × Bool → Prop}
    {P : List (Str × Bool × Bool) → Prop} {t t' : Toks} (hnil : P []) (happ : ∀ a b, P a → P b → P (a ++ b))
    (hf : ∀ s l t, Qin (s, l, true) → func s l = .ok t → t.WF ∧ P t.triples)
    (hkeep : ∀ s l, Qin (s, l, false) → P [(s, l, false)]) (hq : t.All Qin) (h : splitPass func t = .ok t') :
    P t'.triples :=
  applySplit_closed hnil happ hf hkeep t.triples t' hq h

/-- a pass leaves finished tokens alone -/
theorem splitPass_keep {func : Str → Bool → Except Err Toks} {t t' : Toks}
    (hf : ∀ s l t, func s l = .ok t → t.WF) (h : splitPass func t = .ok t') {s : Str} {l : Bool}
    (hx : (s, l, false) ∈ t.triples) : (s, l, false) ∈ t'.triples := by
  have : ∀ ps t', applySplit func ps = .ok t' → (s, l, false) ∈ ps → (s, l, false) ∈ t'.triples := by
    intro ps
    induction ps with
    | nil => intro t' _ hx; cases hx
    | cons x ps ih =>
      intro t' h hx
      obtain ⟨s1, l1, e⟩ := x
      obtain ⟨t1, t2, h1, h2, rfl⟩ := applySplit_cons h
      have ht1 : t1.WF := by
        rcases h1 with ⟨rfl, h1⟩ | ⟨rfl, rfl⟩
        · exact hf _ _ t1 h1
        · exact ⟨rfl, rfl⟩
      rw [triples_append _ _ ht1, List.mem_append]
      rcases List.mem_cons.1 hx with hx | hx
      · cases hx
        rcases h1 with ⟨h1, _⟩ | ⟨_, rfl⟩
        · cases h1
        · left; simp [Toks.triples]
      · exact .inr (ih t2 h2 hx)
  exact this _ _ h hx

/-! ## The four passes -/

/-- what `code_split` makes -/
def CodeTok (text : Str) (x : Str × Bool × Bool) : Prop :=
  Stripped x.1 ∧ (∀ c ∈ x.1, c ∈ text) ∧ (x.2.2 = true → Placed text x.1) ∧ (x.2.2 = false → CodePiece text x.1)

theorem mem_triples_eval {t : Toks} (ht : t.WF) {x : Str × Bool × Bool} (h : x ∈ t.triples) :
    (x.1, x.2.2) ∈ t.split.zip t.eval := by
  rw [← triples_evals t ht]
  exact List.mem_map.2 ⟨x, h, rfl⟩

theorem mem_triples_split {t : Toks} (ht : t.WF) {x : Str × Bool × Bool} (h : x ∈ t.triples) : x.1 ∈ t.split := by
  rw [← triples_split t ht]
  exact List.mem_map.2 ⟨x, h, rfl⟩

theorem codeSplit_all {text : Str} {ls : Bool} {t : Toks} (h : codeSplit text ls = .ok t) :
    t.WF ∧ t.All (CodeTok text) ∧ nw t.split.flatten = nw text := by
  rcases codeSplit_out text ls with ⟨t', h', ho⟩ | ⟨h', _⟩
  · rw [h] at h'; cases h'
    have hw : t.WF := ⟨ho.lead, ho.eval⟩
    refine ⟨hw, fun x hx => ?_, ho.nw⟩
    have h1 := mem_triples_split hw hx
    have h2 := codeSplit_toks h _ (mem_triples_eval hw hx)
    exact ⟨ho.stripped _ h1, ho.chars _ h1, h2.1, h2.2⟩
  · rw [h] at h'; cases h'

theorem LinkPiece.infix {text s u : Str} (h : LinkPiece s u) (hi : s <:+: text) : LinkPiece text u := by
  obtain ⟨raw, dots, ⟨a, sep, b, hsep, hs⟩, hd, hu⟩ := h
  obtain ⟨p, q, hpq⟩ := hi
  refine ⟨raw, dots, ⟨p ++ a, sep, b ++ q, hsep, ?_⟩, hd, hu⟩
  rw [← hpq, hs]; simp

theorem Placed.infix {text s : Str} (h : Placed text s) : s <:+: text := by
  obtain ⟨a, b, h, _⟩ := h
  exact ⟨a, b, by rw [h]; simp⟩

/-- what there is after `link_split` -/
def LinkTok' (text : Str) (x : Str × Bool × Bool) : Prop :=
  (Stripped x.1 ∨ (x.1 = [] ∧ (x.2.2 = true ∨ x.2.1 = false))) ∧ (∀ c ∈ x.1, c ∈ text) ∧
  (x.2.2 = false → CodePiece text x.1 ∨ LinkPiece text x.1)

/-- what there is after `newline_split` -/
def BrTok' (text : Str) (x : Str × Bool × Bool) : Prop :=
  (Stripped x.1 ∨ (x.1 = [] ∧ x.2.1 = false ∧ x.2.2 = false)) ∧ (∀ c ∈ x.1, c ∈ text) ∧
  (x.2.2 = false → CodePiece text x.1 ∨ LinkPiece text x.1 ∨ IsBr x.1)

/-- what `join` is given: the token kinds of `wrap` -/
def WrapTok (text : Str) (x : Str × Bool × Bool) : Prop :=
  (Stripped x.1 ∨ x.1 = []) ∧ (∀ c ∈ x.1, c ∈ text) ∧
  (CodePiece text x.1 ∨ LinkPiece text x.1 ∨ IsBr x.1 ∨ ' ' ∉ x.1) ∧
  ((∀ c ∈ text, isWs c = true → c = ' ') → Stripped x.1 ∨ (x.1 = [] ∧ x.2.1 = false))

/-- a blank token with a space before it has a real token after it -/
def TrailOk (ps : List (Str × Bool × Bool)) : Prop :=
  ∀ a w e b, ps = a ++ (w, true, e) :: b → w = [] → ∃ x ∈ b, Stripped x.1

theorem TrailOk.append {a b : List (Str × Bool × Bool)} (ha : TrailOk a) (hb : TrailOk b) : TrailOk (a ++ b) := by
  intro p w e q h hw
  rw [List.append_eq_append_iff] at h
  rcases h with ⟨c, h1, h2⟩ | ⟨c, h1, h2⟩
  · exact hb c w e q h2 hw
  · cases c with
    | nil => exact hb [] w e q (by simpa using h2.symm) hw
    | cons x c =>
      simp at h2
      obtain ⟨rfl, rfl⟩ := h2
      obtain ⟨y, hy, hs⟩ := ha p w e c h1 hw
      exact ⟨y, by simp [hy], hs⟩

theorem splitChar_last (sep : Char) (r : Str) (c : Char) (h : c ≠ sep) :
    ∃ ps p, splitChar sep (r ++ [c]) = ps ++ [p ++ [c]] := by
  induction r with
  | nil => exact ⟨[], [], by simp [splitChar, h, consHead]⟩
  | cons x r ih =>
    obtain ⟨ps, p, ih⟩ := ih
    simp only [List.cons_append, splitChar]
    rw [ih]
    split
    · exact ⟨[] :: ps, p, rfl⟩
    · cases ps with
      | nil => exact ⟨[], x :: p, rfl⟩
      | cons y ps => exact ⟨(x :: y) :: ps, p, rfl⟩

theorem pieces_last {s : Str} (h : Stripped s) : ∃ ps p, pieces s = ps ++ [p] ∧ Stripped (strip p) := by
  have h' := (stripped_iff s).1 h
  obtain ⟨r, c, hs⟩ : ∃ r c, s = r ++ [c] := by
    rcases List.eq_nil_or_concat s with hs | ⟨r, c, hs⟩
    · exact absurd hs h.1
    · exact ⟨r, c, by simpa using hs⟩
  have hc := h'.2.2 r c hs
  have hne : c ≠ ' ' := by rintro rfl; revert hc; decide
  obtain ⟨ps, p, hp⟩ := splitChar_last ' ' r c hne
  refine ⟨ps.filter (· != []), p ++ [c], ?_, ?_⟩
  · unfold pieces; rw [hs, hp, List.filter_append]; simp
  · apply Stripped.of_strip
    intro hn
    rw [strip_eq_nil] at hn
    have := hn c (by simp)
    rw [hc] at this; cases this

theorem spaceSplit_all {text s : Str} {l : Bool} {t : Toks} (hs : Stripped s) (hc : ∀ c ∈ s, c ∈ text)
    (h : spaceSplit s l = .ok t) : t.WF ∧ t.All (WrapTok text) ∧ TrailOk t.triples ∧ nw t.split.flatten = nw s := by
  rw [spaceSplit_eq] at h
  have hsplit : t.split = (pieces s).map strip := by cases h; rfl
  have hw : t.WF := by
    cases h
    constructor
    · cases pieces s <;> simp
    · simp
  refine ⟨hw, ?_, ?_, by rw [hsplit]; exact pieces_nw s⟩
  · intro x hx
    have hx' := mem_triples_split hw hx
    rw [hsplit] at hx'
    obtain ⟨w, hw', hxw⟩ := List.mem_map.1 hx'
    obtain ⟨hne, hsp, hch⟩ := mem_pieces hw'
    have hst : Stripped x.1 ∨ x.1 = [] := by
      rw [← hxw]
      by_cases hn : strip w = []
      · exact .inr hn
      · exact .inl (Stripped.of_strip hn)
    refine ⟨hst, ?_, ?_, ?_⟩
    · intro c hcx
      rw [← hxw] at hcx
      exact hc c (hch c (mem_of_mem_strip hcx))
    · right; right; right
      intro hcx
      rw [← hxw] at hcx
      exact hsp (mem_of_mem_strip hcx)
    · intro hall
      left
      rw [← hxw]
      apply Stripped.of_strip
      intro hn
      rw [strip_eq_nil] at hn
      cases w with
      | nil => exact hne rfl
      | cons c w =>
        have := hall c (hc c (hch c (by simp))) (hn c (by simp))
        exact hsp (by simp [this])
  · obtain ⟨ps, p, hp, hst⟩ := pieces_last hs
    intro a w e b htr hwn
    have hmap := triples_split _ hw
    rw [htr, hsplit] at hmap
    simp only [hp, List.map_append, List.map_cons, List.map_nil] at hmap
    rcases List.eq_nil_or_concat b with hb | ⟨b', y, hb⟩
    · exfalso
      subst hb
      simp only [List.map_nil] at hmap
      have := (List.append_inj' hmap rfl).2
      simp at this
      rw [← this, hwn] at hst
      exact hst.1 rfl
    · refine ⟨y, by simp [hb], ?_⟩
      rw [hb] at hmap
      simp only [List.concat_eq_append, List.map_append, List.map_cons, List.map_nil] at hmap
      have h2 : (a.map (·.1) ++ w :: b'.map (·.1)) ++ [y.1] = ps.map strip ++ [strip p] := by
        rw [← hmap]; simp
      have := (List.append_inj' h2 rfl).2
      simp at this
      rw [this]; exact hst

structure WrapOut (text : Str) (t : Toks) : Prop where
  wf : t.WF
  all : t.All (WrapTok text)
  trail : TrailOk t.triples
  /-- the tokens of the first pass, from which everything else is made -/
  code : ∃ t1, codeSplit text false = .ok t1 ∧ (∀ s l, (s, l, false) ∈ t1.triples → (s, l, false) ∈ t.triples) ∧
    ∃ t2, splitPass linkSplit t1 = .ok t2 ∧ nw t.split.flatten = nw t2.split.flatten

theorem splitPass_first {text : Str} {t : Toks}
    (h : splitPass codeSplit { split := [text], lead := [false], eval := [true] } = .ok t) :
    codeSplit text false = .ok t := by
  simp only [splitPass, List.zip_cons_cons, List.zip_nil_right, applySplit, if_true, bind, Except.bind] at h
  cases hc : codeSplit text false with
  | error e => rw [hc] at h; cases h
  | ok t' => rw [hc] at h; simp at h; rw [← h]

theorem wrapToks_out {text : Str} {t : Toks} (h : wrapToks text = .ok t) : WrapOut text t := by
  simp only [wrapToks, bind, Except.bind] at h
  split at h
  · cases h
  rename_i t1 h1
  split at h
  · cases h
  rename_i t2 h2
  split at h
  · cases h
  rename_i t3 h3
  have h1 := splitPass_first h1
  obtain ⟨w1, a1, n1⟩ := codeSplit_all h1
  have a2 : t2.WF ∧ t2.All (LinkTok' text) := by
    refine splitPass_all (Qin := CodeTok text) ?_ ?_ a1 h2
    · intro s l t hq hs
      rcases linkSplit_out s l with ⟨t', h', hw, ha⟩ | ⟨h', _⟩
      · rw [hs] at h'; cases h'
        refine ⟨hw, fun x hx => ?_⟩
        obtain ⟨b1, b2, b3⟩ := ha x hx
        exact ⟨b1, fun c hc => hq.2.1 c (b3 c hc), fun he => .inr ((b2 he).infix (hq.2.2.1 rfl).infix)⟩
      · rw [hs] at h'; cases h'
    · intro s l hq
      exact ⟨.inl hq.1, hq.2.1, fun _ => .inl (hq.2.2.2 rfl)⟩
  have a3 : t3.WF ∧ t3.All (BrTok' text) := by
    refine splitPass_all (Qin := LinkTok' text) ?_ ?_ a2.2 h3
    · intro s l t hq hs
      obtain ⟨t', h', hw, ha, _⟩ := newlineSplit_out s l
      rw [hs] at h'; cases h'
      refine ⟨hw, fun x hx => ?_⟩
      obtain ⟨b1, b2, b3⟩ := ha x hx
      exact ⟨.inl b1, fun c hc => hq.2.1 c (b3 c hc), fun he => .inr (.inr (b2 he))⟩
    · intro s l hq
      refine ⟨?_, hq.2.1, fun he => ?_⟩
      · rcases hq.1 with hq1 | ⟨hq1, hq2⟩
        · exact .inl hq1
        · rcases hq2 with hq2 | hq2
          · cases hq2
          · exact .inr ⟨hq1, hq2, rfl⟩
      · rcases hq.2.2 he with hq | hq
        · exact .inl hq
        · exact .inr (.inl hq)
  have hsp : ∀ s l t', BrTok' text (s, l, true) → spaceSplit s l = .ok t' →
      t'.WF ∧ t'.All (WrapTok text) ∧ TrailOk t'.triples ∧ nw t'.split.flatten = nw s := by
    intro s l t' hq hs
    rcases hq.1 with hq1 | ⟨_, _, hq1⟩
    · exact spaceSplit_all hq1 hq.2.1 hs
    · cases hq1
  have a4 : t.WF ∧ t.All (WrapTok text) := by
    refine splitPass_all (Qin := BrTok' text) ?_ ?_ a3.2 h
    · intro s l t' hq hs
      have := hsp s l t' hq hs
      exact ⟨this.1, this.2.1⟩
    · intro s l hq
      refine ⟨?_, hq.2.1, ?_, fun _ => ?_⟩
      · rcases hq.1 with hq1 | hq1
        · exact .inl hq1
        · exact .inr hq1.1
      · rcases hq.2.2 rfl with hq | hq | hq
        · exact .inl hq
        · exact .inr (.inl hq)
        · exact .inr (.inr (.inl hq))
      · rcases hq.1 with hq1 | hq1
        · exact .inl hq1
        · exact .inr ⟨hq1.1, hq1.2.1⟩
  refine ⟨a4.1, a4.2, ?_, t1, h1, ?_, ?_⟩
  · refine splitPass_closed (Qin := BrTok' text) (P := TrailOk) ?_ (fun a b ha hb => ha.append hb) ?_ ?_ a3.2 h
    · intro a w e b hn; simp at hn
    · intro s l t' hq hs
      have := hsp s l t' hq hs
      exact ⟨this.1, this.2.2.1⟩
    · intro s l hq a w e b hn hw
      exfalso
      cases a with
      | nil =>
        simp at hn
        obtain ⟨⟨rfl, rfl, rfl⟩, rfl⟩ := hn
        rcases hq.1 with hq1 | hq1
        · exact hq1.1 hw
        · exact absurd hq1.2.1 (by simp)
      | cons x a => simp at hn
  · intro s l hx
    have wl : ∀ s l t, linkSplit s l = .ok t → t.WF := by
      intro s l t hs
      rcases linkSplit_out s l with ⟨t', h', hw, ha⟩ | ⟨h', _⟩
      · rw [hs] at h'; cases h'; exact hw
      · rw [hs] at h'; cases h'
    have wn : ∀ s l t, newlineSplit s l = .ok t → t.WF := by
      intro s l t hs
      obtain ⟨t', h', hw, ha, _⟩ := newlineSplit_out s l
      rw [hs] at h'; cases h'; exact hw
    have ws : ∀ s l t, spaceSplit s l = .ok t → t.WF := by
      intro s l t hs
      rw [spaceSplit_eq] at hs
      cases hs
      constructor
      · cases pieces s <;> simp
      · simp
    exact splitPass_keep ws h (splitPass_keep wn h3 (splitPass_keep wl h2 hx))
  · refine ⟨t2, h2, ?_⟩
    have n4 : nw t.split.flatten = nw t3.split.flatten := by
      refine splitPass_nw (Qin := BrTok' text) ?_ a3.1 a3.2 h
      intro s l t' hq hs
      exact (hsp s l t' hq hs).2.2.2
    have n3 : nw t3.split.flatten = nw t2.split.flatten := by
      refine splitPass_nw (Qin := LinkTok' text) ?_ a2.1 a2.2 h3
      intro s l t hq hs
      obtain ⟨t', h', hw, ha, hn⟩ := newlineSplit_out s l
      rw [hs] at h'; cases h'; exact hn
    rw [n4, n3]

end MF
