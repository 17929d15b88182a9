import Verif.Lemmas.Squeeze
/-!
# `join` lays out tokens in lines
-/

namespace MF

theorem lineText_snoc {cur : List Tok} (h : cur ≠ []) (t : Tok) : lineText (cur ++ [t]) = lineText cur ++ t.spaced := by
  cases cur with
  | nil => exact absurd rfl h
  | cons c cur => simp [lineText]

theorem lineText_one (t : Tok) : lineText [t] = t.text := by simp [lineText]

theorem lineText_ne {cur : List Tok} (h : ∀ t ∈ cur, t.text ≠ []) : lineText cur = [] ↔ cur = [] := by
  cases cur with
  | nil => simp [lineText]
  | cons c cur => simp [lineText, h c (by simp)]

theorem fitsIn_mono {w : Width} {m n : Nat} (h : m ≤ n) (hf : fitsIn w n = true) : fitsIn w m = true := by
  unfold fitsIn at *
  simp only [Bool.or_eq_true] at *
  rcases hf with hf | hf
  · exact .inl hf
  · right
    cases w with
    | inf => rfl
    | fin k => simp only [Width.ge, decide_eq_true_eq] at *; omega

/-- what `joinStep` does to the line that is being filled -/
theorem joinStep_lay (w : Width) (done : List Str) (cur : List Tok) (t : Tok) (hc : ∀ x ∈ cur, x.text ≠ [])
    (ht : (htmlNewlineRx.match? t.text).isSome = t.isBr) :
    joinStep w (done, lineText cur) t.text (t.gap == .space) =
      if cur.isEmpty || fitsIn w (lineText (cur ++ [t])).length then
        if t.isBr then (lineText (cur ++ [t]) :: done, []) else (done, lineText (cur ++ [t]))
      else if t.isBr then (t.text :: lineText cur :: done, []) else (lineText cur :: done, t.text) := by
  unfold joinStep
  rw [ht]
  by_cases h0 : cur = []
  · subst h0
    simp [lineText]
  · have h1 : (lineText cur).isEmpty = false := by
      cases h : lineText cur with
      | nil => exact absurd ((lineText_ne hc).1 h) h0
      | cons a b => rfl
    have h2 : cur.isEmpty = false := by simpa using h0
    have h3 : (if (t.gap == .space && !(lineText cur).isEmpty) = true then lineText cur ++ [' '] ++ t.text
        else lineText cur ++ t.text) = lineText (cur ++ [t]) := by
      rw [lineText_snoc h0, h1]
      unfold Tok.spaced
      cases hg : t.gap <;> simp
    show (let st' := if (w.ge (if (t.gap == .space && !(lineText cur).isEmpty) = true then lineText cur ++ [' '] ++ t.text
            else lineText cur ++ t.text).length || (lineText cur).isEmpty || w.nonpos) = true
          then (done, if (t.gap == .space && !(lineText cur).isEmpty) = true then lineText cur ++ [' '] ++ t.text
            else lineText cur ++ t.text) else (lineText cur :: done, t.text)
        if t.isBr = true then (st'.2 :: st'.1, []) else st') = _
    rw [h3, h1, h2]
    simp only [Bool.or_false, Bool.false_or]
    unfold fitsIn
    rw [Bool.or_comm]
    by_cases h4 : (w.nonpos || w.ge (lineText (cur ++ [t])).length) = true
    · simp only [h4, if_true]
    · simp only [h4, if_false, Bool.false_eq_true]

theorem joinLoop_lay (w : Width) : ∀ (ts : List Tok) (done : List Str) (cur : List Tok), (∀ x ∈ cur, x.text ≠ []) →
    (∀ x ∈ ts, x.text ≠ [] ∧ (htmlNewlineRx.match? x.text).isSome = x.isBr) →
    (let st := joinLoop w (done, lineText cur) (ts.map fun x => (x.text, x.gap == .space))
     if st.2.isEmpty then st.1.reverse else (st.2 :: st.1).reverse) = done.reverse ++ (lay w cur ts).map lineText := by
  intro ts
  induction ts with
  | nil =>
    intro done cur hc _
    simp only [List.map_nil, joinLoop, lay]
    by_cases h0 : cur = []
    · subst h0; simp [lineText]
    · have h1 : lineText cur ≠ [] := fun h => h0 ((lineText_ne hc).1 h)
      simp [h0, h1]
  | cons t ts ih =>
    intro done cur hc ht
    have ht' : ∀ x ∈ ts, x.text ≠ [] ∧ (htmlNewlineRx.match? x.text).isSome = x.isBr := fun x hx => ht x (by simp [hx])
    have hct : ∀ x ∈ cur ++ [t], x.text ≠ [] := by
      intro x hx
      rcases List.mem_append.1 hx with hx | hx
      · exact hc x hx
      · simp at hx; subst hx; exact (ht x (by simp)).1
    have h1 : ∀ x ∈ [t], x.text ≠ [] := by intro x hx; simp at hx; subst hx; exact (ht x (by simp)).1
    simp only [List.map_cons, joinLoop, lay]
    rw [joinStep_lay w done cur t hc (ht t (by simp)).2]
    by_cases hfit : (cur.isEmpty || fitsIn w (lineText (cur ++ [t])).length) = true
    · simp only [hfit, if_true]
      cases hb : t.isBr with
      | true =>
        have := ih (lineText (cur ++ [t]) :: done) [] (by simp) ht'
        simp only [if_true]
        exact this.trans (by simp)
      | false =>
        simp only [Bool.false_eq_true, if_false]
        exact ih done (cur ++ [t]) hct ht'
    · simp only [hfit, if_false, Bool.false_eq_true]
      cases hb : t.isBr with
      | true =>
        have := ih (t.text :: lineText cur :: done) [] (by simp) ht'
        simp only [if_true]
        exact this.trans (by simp [lineText_one])
      | false =>
        simp only [Bool.false_eq_true, if_false]
        have := ih (lineText cur :: done) [t] h1 ht'
        rw [lineText_one] at this
        exact this.trans (by simp)

theorem isBr_iff (t : Tok) : t.isBr = true ↔ IsBr t.text := by
  simp [Tok.isBr, IsBr]

/-- the tokens of the name of a link -/
theorem wordToks_mem {g : Gap} {ws : List Str} {t : Tok} (h : t ∈ wordToks g ws) : t.text ∈ ws := by
  cases ws with
  | nil => cases h
  | cons w ws =>
    rcases List.mem_cons.1 h with rfl | h
    · simp
    · obtain ⟨v, hv, rfl⟩ := List.mem_map.1 h
      simp [hv]

theorem Runs.tok {k : Ctx} {s : Str} {ts : List Tok} (h : Runs k s ts) :
    ∀ t ∈ ts, Stripped t.text ∧ (htmlNewlineRx.match? t.text).isSome = t.isBr ∧ ∀ c ∈ t.text, c ∈ s := by
  have key : ∀ t : Tok, ¬ c!"<br" <+: t.text → (htmlNewlineRx.match? t.text).isSome = t.isBr := by
    intro t h
    have h2 : t.isBr = false := by
      cases hb : t.isBr with
      | false => rfl
      | true =>
        obtain ⟨r, hr⟩ := ((isBr_iff t).1 hb).tag
        exact absurd ⟨r, hr.symm⟩ h
    rw [h2]
    cases hm : (htmlNewlineRx.match? t.text).isSome with
    | false => rfl
    | true =>
      obtain ⟨b, r, hr, hb⟩ := br_prefix hm
      obtain ⟨z, rfl⟩ := hb.tag
      exact absurd ⟨z ++ r, by rw [hr]; simp⟩ h
  induction h with
  | nil => simp
  | @word k g w rest ts hg hk hw hr h ih =>
    intro t ht
    rcases List.mem_cons.1 ht with rfl | ht
    · exact ⟨.noWs hw.ne hw.noWs, key _ (fun h => hw.noBr h.isInfix), fun c hc => by simp [hc]⟩
    · obtain ⟨a, c, d⟩ := ih t ht
      exact ⟨a, c, fun x hx => by simp [d x hx]⟩
  | @br k g b rest ts hg hk hb h ih =>
    intro t ht
    rcases List.mem_cons.1 ht with rfl | ht
    · refine ⟨hb.stripped, ?_, fun c hc => by simp [hc]⟩
      rw [br_match hb, (isBr_iff _).2 hb]
    · obtain ⟨a, c, d⟩ := ih t ht
      exact ⟨a, c, fun x hx => by simp [d x hx]⟩
  | @code k g body dot rest n ts hg hs hd h ih =>
    intro t ht
    rcases List.mem_cons.1 ht with rfl | ht
    · refine ⟨code_stripped hs.pos hd.dots, key _ ?_, fun c hc => ?_⟩
      · rw [ticks_cons hs.pos]
        rintro ⟨x, hx⟩
        exact absurd (List.cons.inj hx).1 (by decide)
      · simp only [List.mem_append] at hc ⊢
        rcases hc with h | h | h | h <;> simp [h]
    · obtain ⟨a, c, d⟩ := ih t ht
      exact ⟨a, c, fun x hx => by simp [d x hx]⟩
  | @link k g pre name v target tail rest o c ts hg hk hl hv h ih =>
    intro t ht
    rcases List.mem_append.1 ht with ht | ht
    · obtain ⟨h1, h2, h3⟩ := splitWs_word (wordToks_mem ht)
      refine ⟨.noWs h1 h2, key _ (fun h => hl.head_noBr (h.isInfix.trans h3)), fun x hx => ?_⟩
      have := h3.subset hx
      unfold linkText
      simp only [List.mem_append, List.mem_cons] at this ⊢
      rcases this with h | h | h | h | h | h
      · simp [h]
      · simp [h]
      · simp [h]
      · simp [h]
      · simp [h]
      · cases h
    · rcases List.mem_cons.1 ht with rfl | ht
      · refine ⟨hl.target_stripped, key _ ?_, fun x hx => ?_⟩
        · rintro ⟨x, hx⟩
          have hc : c ≠ 'b' ∧ c ≠ 'r' := by rcases hl.kind with ⟨_, rfl⟩ | ⟨_, rfl⟩ <;> decide
          match target, hl.targetOk.1, hl.noBr.2, hx with
          | [x1], _, _, hx =>
            simp at hx
            exact hc.1 hx.2.1.symm
          | [x1, x2], _, _, hx =>
            simp at hx
            exact hc.2 hx.2.2.1.symm
          | x1 :: x2 :: x3 :: y, _, hb, hx =>
            simp at hx
            obtain ⟨rfl, rfl, rfl, _⟩ := hx
            exact hb ⟨y, rfl⟩
        · unfold linkText
          simp only [List.mem_append, List.mem_cons] at hx ⊢
          rcases hx with h | h | h <;> simp [h]
      · obtain ⟨a, c, d⟩ := ih t ht
        exact ⟨a, c, fun x hx => by simp [d x hx]⟩

/-- Wrapping a text is laying out its tokens. -/
theorem wrap_fill {text : Str} {ts : List Tok} (h : Inline (wrapInput text) ts) (w : Width) :
    wrap text w = .ok (pyJoin c!"\n" (layLines w ts)) := by
  obtain ⟨t, h1, h2⟩ := wrapToks_inline h
  unfold wrap
  rw [h1]
  simp only [bind, Except.bind, join, joinLines, h2]
  have := joinLoop_lay w ts [] [] (by simp) fun x hx =>
    ⟨(h.runs.tok x hx).1.1, (h.runs.tok x hx).2.1⟩
  simp only [List.reverse_nil, List.nil_append] at this
  exact congrArg (fun x => Except.ok (pyJoin c!"\n" x)) this

/-! ## Tokens from their texts -/

/-- What comes next: anything, the target of a link, or what is behind a link. -/
inductive Due where
  | any | target | behind

/-- The token ends with the brackets between the name and the target of a link. -/
def endsPair (w : Str) : Bool := endsWith w c!"](" || endsWith w c!"]["

/-- what comes after a token -/
def Due.step : Due → Str → Due
  | .target, _ => .behind
  | _, w => if endsPair w then .target else .any

/-- the gap of a token that has no space in front of it -/
def Due.gap : Due → Str → Gap
  | .any, _ => .glue
  | .target, _ => .link
  | .behind, w => if w.head? = some '`' then .glue else .link

/-- Gaps that follow from the texts of the tokens and the spaces between them. -/
def GapsOk : Due → List Tok → Prop
  | _, [] => True
  | x, t :: ts => (t.gap = .space ∨ t.gap = x.gap t.text) ∧ GapsOk (x.step t.text) ts

theorem gaps_unique {x : Due} {ts us : List Tok} (h1 : GapsOk x ts) (h2 : GapsOk x us)
    (h : ts.map (fun t : Tok => (t.text, t.gap == .space)) = us.map fun t : Tok => (t.text, t.gap == .space)) : ts = us := by
  induction ts generalizing us x with
  | nil => cases us with
    | nil => rfl
    | cons => cases h
  | cons a ts ih => cases us with
    | nil => cases h
    | cons b us =>
      simp only [List.map_cons, List.cons.injEq, Prod.mk.injEq] at h
      obtain ⟨ga, ta⟩ := a
      obtain ⟨gb, tb⟩ := b
      simp only [GapsOk] at h1 h2
      simp only at h
      obtain ⟨⟨rfl, hg⟩, h⟩ := h
      rw [ih h1.2 h2.2 h]
      congr 2
      rcases h1.1 with e1 | e1 <;> rcases h2.1 with e2 | e2
      · rw [e1, e2]
      · rw [e1] at hg ⊢; exact (by simpa using hg.symm : gb = Gap.space).symm
      · rw [e2] at hg ⊢; simpa using hg
      · rw [e1, e2]

theorem endsPair_iff {w : Str} : endsPair w = true ↔ ∃ q, (q = '(' ∨ q = '[') ∧ ∃ r, w = r ++ [']', q] := by
  unfold endsPair
  rw [Bool.or_eq_true]
  constructor
  · rintro (h | h)
    · obtain ⟨r, h⟩ := (endsWith_iff _ _).1 h
      exact ⟨'(', .inl rfl, r, h⟩
    · obtain ⟨r, h⟩ := (endsWith_iff _ _).1 h
      exact ⟨'[', .inr rfl, r, h⟩
  · rintro ⟨q, rfl | rfl, r, h⟩
    · exact .inl ((endsWith_iff _ _).2 ⟨r, h⟩)
    · exact .inr ((endsWith_iff _ _).2 ⟨r, h⟩)

theorem NoPair.ends {w : Str} (h : NoPair w) : endsPair w = false := by
  cases he : endsPair w with
  | false => rfl
  | true =>
    obtain ⟨q, hq, r, rfl⟩ := endsPair_iff.1 he
    exact absurd ⟨r, [], by simp⟩ (h.not hq)

theorem not_endsPair {w : Str} {c : Char} (h : w.getLast? = some c) (h1 : c ≠ '(') (h2 : c ≠ '[') : endsPair w = false := by
  cases he : endsPair w with
  | false => rfl
  | true =>
    obtain ⟨q, hq, r, rfl⟩ := endsPair_iff.1 he
    simp at h
    rcases hq with rfl | rfl
    · exact absurd h.symm h1
    · exact absurd h.symm h2

/-- the words of the name of a link: only the last one has the brackets at its end -/
theorem Link.words {o c : Char} {pre name target tail : Str} (hl : Link o c pre name target tail) :
    ∃ ws w, splitWs (pre ++ '[' :: (name ++ [']', o])) = ws ++ [w] ∧ endsPair w = true ∧ ∀ v ∈ ws, NoPair v := by
  have ho : isWs o = false := by rcases hl.kind' with rfl | rfl <;> decide
  have hnp := hl.front_noPair
  -- the last white space of the name
  have key : ∀ y : Str, (∀ q, q = '(' ∨ q = '[' → ¬ [']', q] <:+: y) →
      ∃ ws w, splitWs (y ++ [']', o]) = ws ++ [w] ∧ endsPair w = true ∧ ∀ v ∈ ws, NoPair v := by
    intro y hy
    by_cases hw : ∃ x ∈ y.reverse, isWs x = true
    · obtain ⟨x, hx, hxw⟩ := hw
      have e := List.takeWhile_append_dropWhile (p := fun c => !isWs c) (l := y.reverse)
      cases hd : y.reverse.dropWhile (fun c => !isWs c) with
      | nil =>
        exfalso
        rw [hd, List.append_nil] at e
        rw [← e] at hx
        have := List.all_eq_true.1 (List.all_takeWhile (p := fun c => !isWs c) (l := y.reverse)) x hx
        simp [hxw] at this
      | cons d r =>
        have hdw : isWs d = true := by
          have := List.head?_dropWhile_not (fun c => !isWs c) y.reverse
          rw [hd] at this
          simpa using this
        have hall : ∀ c ∈ y.reverse.takeWhile (fun c => !isWs c), isWs c = false := fun c hc => by
          have := List.all_eq_true.1 (List.all_takeWhile (p := fun c => !isWs c) (l := y.reverse)) c hc
          simpa using this
        rw [hd] at e
        generalize y.reverse.takeWhile (fun c => !isWs c) = t at *
        have ey : y = r.reverse ++ d :: t.reverse := by
          have := congrArg List.reverse e
          simpa using this.symm
        refine ⟨splitWs r.reverse, t.reverse ++ [']', o], ?_, ?_, ?_⟩
        · rw [ey, List.append_assoc, List.cons_append, splitWs_append_ws _ _ _ hdw]
          congr 1
          refine splitWs_self (by simp) ?_
          intro c hc
          simp only [List.mem_append, List.mem_reverse, List.mem_cons] at hc
          rcases hc with h | rfl | rfl | h
          · exact hall c h
          · decide
          · exact ho
          · cases h
        · exact endsPair_iff.2 ⟨o, hl.kind', _, rfl⟩
        · intro v hv
          have hi : v <:+: y := (splitWs_word hv).2.2.trans ⟨[], d :: t.reverse, by rw [ey]; simp⟩
          exact ⟨fun h => hy _ (.inl rfl) (h.trans hi), fun h => hy _ (.inr rfl) (h.trans hi)⟩
    · refine ⟨[], y ++ [']', o], ?_, endsPair_iff.2 ⟨o, hl.kind', _, rfl⟩, by simp⟩
      refine splitWs_self (by simp) ?_
      intro c hc
      simp only [List.mem_append, List.mem_cons] at hc
      rcases hc with h | rfl | rfl | h
      · cases hcw : isWs c with
        | false => rfl
        | true => exact absurd ⟨c, by simpa using h, hcw⟩ hw
      · decide
      · exact ho
      · cases h
  have := key (pre ++ '[' :: name) hnp
  simpa using this

/-- what may come in a context -/
def Ctx.next : Ctx → Due
  | .link _ _ => .behind
  | _ => .any

theorem gapsOk_words {g : Gap} {x : Due} {ws : List Str} {w : Str} {ts : List Tok} (hw : endsPair w = true)
    (hv : ∀ v ∈ ws, NoPair v) (hx : ∀ v r, ws ++ [w] = v :: r → g = .space ∨ g = x.gap v) (hx2 : ∀ v, x.step v = Due.any.step v)
    (h : GapsOk .target ts) : GapsOk x (wordToks g (ws ++ [w]) ++ ts) := by
  have rest : ∀ ws : List Str, (∀ v ∈ ws, NoPair v) → ∀ {y : Due}, (∀ v, y.step v = Due.any.step v) →
      GapsOk y ((ws ++ [w]).map (fun v => (⟨.space, v⟩ : Tok)) ++ ts) := by
    intro ws
    induction ws with
    | nil =>
      intro _ y hy
      refine ⟨.inl rfl, ?_⟩
      rw [hy]
      simpa [Due.step, hw] using h
    | cons v ws ih =>
      intro hv y hy
      refine ⟨.inl rfl, ?_⟩
      rw [hy]
      simp only [Due.step, (hv v (by simp)).ends]
      exact ih (fun v h => hv v (by simp [h])) (fun _ => rfl)
  cases ws with
  | nil =>
    refine ⟨hx w [] rfl, ?_⟩
    rw [hx2]
    simpa [Due.step, hw] using h
  | cons v ws =>
    refine ⟨hx v (ws ++ [w]) rfl, ?_⟩
    rw [hx2]
    simp only [Due.step, (hv v (by simp)).ends]
    exact rest ws (fun v h => hv v (by simp [h])) (fun _ => rfl)

theorem Ctx.next_step (k : Ctx) (v : Str) : k.next.step v = Due.any.step v := by cases k <;> rfl

theorem Ctx.word_gap {k : Ctx} {g : Str} (h : k.word g) (w : Str) : gapOf g = .space ∨ gapOf g = k.next.gap w := by
  cases g with
  | cons c g => exact .inl rfl
  | nil =>
    cases k with
    | link => exact absurd rfl h
    | start => exact .inr rfl
    | br => exact .inr rfl

theorem Runs.gapsOk {k : Ctx} {s : Str} {ts : List Tok} (h : Runs k s ts) : GapsOk k.next ts := by
  induction h with
  | nil => trivial
  | @word k g w rest ts hg hk hw hr h ih =>
    refine ⟨Ctx.word_gap hk w, ?_⟩
    rw [Ctx.next_step]
    simp only [Due.step, NoPair.ends hw.noLink]
    exact ih
  | @br k g b rest ts hg hk hb h ih =>
    refine ⟨Ctx.word_gap hk b, ?_⟩
    rw [Ctx.next_step]
    have : endsPair b = false := by
      refine not_endsPair (c := '>') ?_ (by decide) (by decide)
      rcases hb with rfl | rfl | rfl | rfl <;> rfl
    simp only [Due.step, this]
    exact ih
  | @code k g body dot rest n ts hg hs hd h ih =>
    have hhead : (ticks n ++ (body ++ (ticks n ++ dot))).head? = some '`' := by rw [ticks_cons hs.pos]; rfl
    refine ⟨?_, ?_⟩
    · cases g with
      | cons c g => exact .inl rfl
      | nil =>
        right
        cases k with
        | link => simp only [Ctx.next, Due.gap, hhead]; rfl
        | start => rfl
        | br => rfl
    · rw [Ctx.next_step]
      have : endsPair (ticks n ++ (body ++ (ticks n ++ dot))) = false := by
        rcases hd.dots with rfl | rfl
        · refine not_endsPair (c := '`') ?_ (by decide) (by decide)
          obtain ⟨i, rfl⟩ : ∃ i, n = i + 1 := ⟨n - 1, by have := hs.pos; omega⟩
          have e : ticks (i + 1) = ticks i ++ ['`'] := List.replicate_succ' ..
          rw [List.append_nil, ← List.append_assoc]
          conv => lhs; rw [show ticks (i + 1) ++ body ++ ticks (i + 1) = (ticks (i + 1) ++ body ++ ticks i) ++ ['`'] by
            conv => lhs; arg 2; rw [e]
            simp]
          exact List.getLast?_concat
        · refine not_endsPair (c := '.') ?_ (by decide) (by decide)
          rw [← List.append_assoc, ← List.append_assoc]
          exact List.getLast?_concat
      simp only [Due.step, this]
      exact ih
  | @link k g pre name v target tail rest o c ts hg hk hl hv h ih =>
    obtain ⟨ws, w, e, h1, h2⟩ := hl.words
    rw [e]
    refine gapsOk_words h1 h2 ?_ (Ctx.next_step k) ⟨.inr rfl, ih⟩
    intro u r hu
    have htick : u.head? ≠ some '`' := by
      intro h0
      have hm : u ∈ splitWs (pre ++ '[' :: (name ++ [']', o])) := by rw [e, hu]; simp
      have := (splitWs_word hm).2.2.subset (List.mem_of_head? h0)
      apply hl.noTick
      unfold linkText
      simp only [List.mem_append, List.mem_cons] at this ⊢
      rcases this with h | h | h | h | h | h
      · simp [h]
      · exact absurd h (by decide)
      · simp [h]
      · exact absurd h (by decide)
      · rcases hl.kind' with rfl | rfl <;> exact absurd h (by decide)
      · cases h
    cases k with
    | link => right; simp [Ctx.gap, Ctx.next, Due.gap, htick]
    | start => cases g with
      | nil => exact .inr rfl
      | cons => exact .inl rfl
    | br => cases g with
      | nil => exact .inr rfl
      | cons => exact .inl rfl

/-- The tokens of a text are determined by the text. -/
theorem inline_unique {s : Str} {ts us : List Tok} (h : Inline s ts) (h' : Inline s us) : ts = us := by
  obtain ⟨t, h1, h2⟩ := wrapToks_inline h
  obtain ⟨u, h3, h4⟩ := wrapToks_inline h'
  rw [h1] at h3
  cases h3
  rw [h2] at h4
  exact gaps_unique h.runs.gapsOk h'.runs.gapsOk h4

/-! ## Laying out again -/

theorem lineText_head {t t' : Tok} (h : t.text = t'.text) (a : List Tok) : lineText (t :: a) = lineText (t' :: a) := by
  simp [lineText, h]

theorem broken_spaced (t : Tok) : t.spaced.length ≤ t.broken.spaced.length := by
  unfold Tok.spaced Tok.broken
  cases t.gap <;> simp

theorem broken_isBr (t : Tok) : t.broken.isBr = t.isBr := rfl

theorem isBr_text {t t' : Tok} (h : t.text = t'.text) : t.isBr = t'.isBr := by simp [Tok.isBr, h]

theorem brokenLine_text (l : List Tok) : lineText (brokenLine l) = lineText l := by
  cases l with
  | nil => rfl
  | cons t l => rfl

theorem relay (w : Width) : ∀ ts : List Tok,
    ((lay w [] ((lay w [] ts).map brokenLine).flatten).map lineText = (lay w [] ts).map lineText) ∧
    (∀ t t' : Tok, t.text = t'.text → ∃ a ls, lay w [] (t :: ts) = (t :: a) :: ls ∧
      (lay w [] (t' :: a ++ (ls.map brokenLine).flatten)).map lineText = lineText (t :: a) :: ls.map lineText) ∧
    (∀ cur, cur ≠ [] → ∃ a ls, lay w cur ts = (cur ++ a) :: ls ∧ ∀ cur', cur' ≠ [] → lineText cur' = lineText cur →
      (lay w cur' (a ++ (ls.map brokenLine).flatten)).map lineText = lineText (cur ++ a) :: ls.map lineText) := by
  -- the second part follows from the others
  have second : ∀ ts : List Tok,
      ((lay w [] ((lay w [] ts).map brokenLine).flatten).map lineText = (lay w [] ts).map lineText) →
      (∀ cur, cur ≠ [] → ∃ a ls, lay w cur ts = (cur ++ a) :: ls ∧ ∀ cur', cur' ≠ [] → lineText cur' = lineText cur →
        (lay w cur' (a ++ (ls.map brokenLine).flatten)).map lineText = lineText (cur ++ a) :: ls.map lineText) →
      ∀ t t' : Tok, t.text = t'.text → ∃ a ls, lay w [] (t :: ts) = (t :: a) :: ls ∧
        (lay w [] (t' :: a ++ (ls.map brokenLine).flatten)).map lineText = lineText (t :: a) :: ls.map lineText := by
    intro ts h1 h3 t t' ht
    cases hb : t.isBr with
    | true =>
      refine ⟨[], lay w [] ts, by simp [lay, hb], ?_⟩
      have hb' : t'.isBr = true := by rw [← isBr_text ht, hb]
      simp only [List.cons_append, List.nil_append, lay, List.isEmpty_nil, Bool.true_or, if_true, hb', List.map_cons, h1,
        lineText_one, ht]
    | false =>
      have hb' : t'.isBr = false := by rw [← isBr_text ht, hb]
      obtain ⟨a, ls, e1, e2⟩ := h3 [t] (by simp)
      refine ⟨a, ls, by simp [lay, hb]; simpa using e1, ?_⟩
      have := e2 [t'] (by simp) (by simp [lineText_one, ht])
      simp only [List.cons_append, lay, List.isEmpty_nil, Bool.true_or, if_true, hb', Bool.false_eq_true, if_false,
        List.nil_append]
      simpa using this
  intro ts
  induction ts with
  | nil =>
    refine ⟨rfl, ?_⟩
    have h3 : ∀ cur, cur ≠ [] → ∃ a ls, lay w cur [] = (cur ++ a) :: ls ∧ ∀ cur', cur' ≠ [] → lineText cur' = lineText cur →
      (lay w cur' (a ++ (ls.map brokenLine).flatten)).map lineText = lineText (cur ++ a) :: ls.map lineText := by
      intro cur hc
      refine ⟨[], [], by simp [lay, hc], ?_⟩
      intro cur' hc' he
      simp [lay, hc', he]
    exact ⟨second [] rfl h3, h3⟩
  | cons t ts ih =>
    obtain ⟨ih1, ih2, ih3⟩ := ih
    have h1 : (lay w [] ((lay w [] (t :: ts)).map brokenLine).flatten).map lineText = (lay w [] (t :: ts)).map lineText := by
      obtain ⟨a, ls, e1, e2⟩ := ih2 t t.broken rfl
      rw [e1]
      simpa [brokenLine] using e2
    have h3 : ∀ cur, cur ≠ [] → ∃ a ls, lay w cur (t :: ts) = (cur ++ a) :: ls ∧
      ∀ cur', cur' ≠ [] → lineText cur' = lineText cur →
      (lay w cur' (a ++ (ls.map brokenLine).flatten)).map lineText = lineText (cur ++ a) :: ls.map lineText := by
      intro cur hc
      have hc1 : cur.isEmpty = false := by simpa using hc
      by_cases hfit : fitsIn w (lineText (cur ++ [t])).length = true
      · cases hb : t.isBr with
        | true =>
          refine ⟨[t], lay w [] ts, by simp [lay, hfit, hb], ?_⟩
          intro cur' hc' he
          have hfit' : fitsIn w (lineText (cur' ++ [t])).length = true := by
            rw [lineText_snoc hc', he, ← lineText_snoc hc]; exact hfit
          simp only [List.cons_append, List.nil_append, lay, hfit', Bool.or_true, if_true, hb, List.map_cons, ih1]
          rw [lineText_snoc hc', lineText_snoc hc, he]
        | false =>
          obtain ⟨a, ls, e1, e2⟩ := ih3 (cur ++ [t]) (by simp)
          refine ⟨t :: a, ls, by simp only [lay, hfit, Bool.or_true, if_true, hb, e1]; simp, ?_⟩
          intro cur' hc' he
          have hfit' : fitsIn w (lineText (cur' ++ [t])).length = true := by
            rw [lineText_snoc hc', he, ← lineText_snoc hc]; exact hfit
          have := e2 (cur' ++ [t]) (by simp) (by rw [lineText_snoc hc', he, ← lineText_snoc hc])
          simp only [List.cons_append, lay, hfit', Bool.or_true, if_true, hb, Bool.false_eq_true, if_false]
          simpa using this
      · have hfit0 : fitsIn w (lineText (cur ++ [t])).length = false := by simpa using hfit
        refine ⟨[], lay w [] (t :: ts), ?_, ?_⟩
        · simp only [lay, hc1, hfit0, Bool.or_self, Bool.false_eq_true, if_false, List.append_nil, List.isEmpty_nil,
            Bool.true_or, if_true, List.nil_append]
        · intro cur' hc' he
          have hc1' : cur'.isEmpty = false := by simpa using hc'
          obtain ⟨a, ls, e1, e2⟩ := ih2 t t.broken rfl
          have hfit' : fitsIn w (lineText (cur' ++ [t.broken])).length = false := by
            cases hf : fitsIn w (lineText (cur' ++ [t.broken])).length with
            | false => rfl
            | true =>
              exfalso
              rw [lineText_snoc hc', he, List.length_append] at hf
              have := broken_spaced t
              refine hfit (fitsIn_mono ?_ hf)
              rw [lineText_snoc hc, List.length_append]; omega
          rw [e1]
          simp only [List.nil_append, List.map_cons, brokenLine, List.flatten_cons, List.append_nil]
          rw [← e2]
          simp only [List.cons_append, lay, hc1', hfit', Bool.or_self, Bool.false_eq_true, if_false, List.map_cons, he,
            List.isEmpty_nil, Bool.true_or, if_true, List.nil_append]
    exact ⟨h1, second (t :: ts) h1 h3, h3⟩

/-- Laying out the settled tokens gives the same lines. -/
theorem layLines_settle (w : Width) (ts : List Tok) : layLines w (settle w ts) = layLines w ts := by
  cases ts with
  | nil => rfl
  | cons t ts =>
    obtain ⟨a, ls, e1, e2⟩ := (relay w ts).2.1 t t rfl
    unfold layLines settle
    rw [e1]
    exact e2

/-! ## Reading what was laid out -/

/-- The tokens in a row. White space in front of a target, or between two links, does not count. -/
inductive Written : List Tok → Str → Prop
  | nil : Written [] []
  | cons {g : Str} {t : Tok} {ts : List Tok} {s : Str}
      (hg : (t.gap = .space ∧ g = c!" ") ∨ (t.gap = .glue ∧ g = []) ∨ (t.gap = .link ∧ (g = [] ∨ g = c!" ")))
      (h : Written ts s) : Written (t :: ts) (g ++ (t.text ++ s))

theorem Written.append {ts us : List Tok} {s s' : Str} (h : Written ts s) (h' : Written us s') : Written (ts ++ us) (s ++ s') := by
  induction h with
  | nil => exact h'
  | cons hg h ih =>
    have := Written.cons hg ih
    simpa using this

theorem Written.split {ts us : List Tok} {s : Str} (h : Written (ts ++ us) s) :
    ∃ s1 s2, s = s1 ++ s2 ∧ Written ts s1 ∧ Written us s2 := by
  induction ts generalizing s with
  | nil => exact ⟨[], s, rfl, .nil, h⟩
  | cons t ts ih =>
    cases h with
    | cons hg h =>
      obtain ⟨s1, s2, rfl, h1, h2⟩ := ih h
      exact ⟨_, s2, by simp, .cons hg h1, h2⟩

/-- the tokens that are written in one line -/
theorem written_spaced (ts : List Tok) : Written ts (ts.map Tok.spaced).flatten := by
  induction ts with
  | nil => exact .nil
  | cons t ts ih =>
    have : t.spaced = (if t.gap = .space then c!" " else []) ++ t.text := by unfold Tok.spaced; split <;> simp
    rw [List.map_cons, List.flatten_cons, this, List.append_assoc]
    refine .cons ?_ ih
    cases t.gap <;> simp

/-- The same tokens; some that were glued to the one in front are not any more. -/
inductive Respaced : List Tok → List Tok → Prop
  | nil : Respaced [] []
  | cons {t t' : Tok} {ts ts' : List Tok} (ht : t'.text = t.text)
      (hg : t'.gap = t.gap ∨ (t.gap = .glue ∧ t'.gap = .space)) (h : Respaced ts ts') : Respaced (t :: ts) (t' :: ts')

theorem Respaced.refl (ts : List Tok) : Respaced ts ts := by
  induction ts with
  | nil => exact .nil
  | cons t ts ih => exact .cons rfl (.inl rfl) ih

theorem Respaced.append {ts ts' us us' : List Tok} (h : Respaced ts ts') (h2 : Respaced us us') :
    Respaced (ts ++ us) (ts' ++ us') := by
  induction h with
  | nil => exact h2
  | cons ht hg _ ih => exact .cons ht hg ih

theorem Respaced.split {ts us vs : List Tok} (h : Respaced (ts ++ us) vs) :
    ∃ ts' us', vs = ts' ++ us' ∧ Respaced ts ts' ∧ Respaced us us' := by
  induction ts generalizing vs with
  | nil => exact ⟨[], vs, rfl, .nil, h⟩
  | cons t ts ih =>
    cases h with
    | cons ht hg h =>
      obtain ⟨a, b, rfl, h1, h2⟩ := ih h
      exact ⟨_ :: a, b, rfl, .cons ht hg h1, h2⟩

theorem brokenLine_respaced (l : List Tok) : Respaced l (brokenLine l) := by
  cases l with
  | nil => exact .nil
  | cons t l =>
    refine .cons rfl ?_ (.refl l)
    unfold Tok.broken
    cases t.gap <;> simp

theorem flatten_respaced (ls : List (List Tok)) : Respaced ls.flatten (ls.map brokenLine).flatten := by
  induction ls with
  | nil => exact .nil
  | cons l ls ih => exact (brokenLine_respaced l).append ih

theorem Respaced.words {g : Gap} {ws : List Str} {us : List Tok} (h : Respaced (wordToks g ws) us) :
    ∃ g', us = wordToks g' ws ∧ (ws ≠ [] → g' = g ∨ (g = .glue ∧ g' = .space)) := by
  cases ws with
  | nil => cases h; exact ⟨g, rfl, fun h => absurd rfl h⟩
  | cons w ws =>
    cases h with
    | @cons _ t' _ us ht hg h =>
      refine ⟨t'.gap, ?_, fun _ => hg⟩
      have : us = ws.map fun v => (⟨.space, v⟩ : Tok) := by
        clear hg ht
        induction ws generalizing us with
        | nil => cases h; rfl
        | cons v ws ih =>
          cases h with
          | @cons _ t' _ us ht hg h =>
            obtain ⟨gap, text⟩ := t'
            have : gap = .space := by
              rcases hg with hg | hg
              · exact hg
              · exact hg.2
            simp only at ht
            subst this ht
            rw [ih h]; rfl
      rw [this]
      obtain ⟨gap, text⟩ := t'
      simp only at ht
      subst ht
      rfl

/-- words written in a row -/
theorem Written.words {g : Gap} {ws : List Str} {s : Str} (h : Written (wordToks g ws) s) (hne : ws ≠ []) :
    ∃ x, s = x ++ pyJoin c!" " ws ∧
      ((g = .space ∧ x = c!" ") ∨ (g = .glue ∧ x = []) ∨ (g = .link ∧ (x = [] ∨ x = c!" "))) := by
  cases ws with
  | nil => exact absurd rfl hne
  | cons w ws =>
    cases h with
    | @cons x _ _ s hg h =>
      refine ⟨x, ?_, hg⟩
      congr 1
      clear hg hne
      induction ws generalizing s w with
      | nil => cases h; simp [pyJoin]
      | cons v ws ih =>
        cases h with
        | @cons x _ _ s hg h =>
          have : x = c!" " := by
            rcases hg with ⟨_, h⟩ | ⟨h, _⟩ | ⟨h, _⟩
            · exact h
            · cases h
            · cases h
          subst this
          have := ih v h
          simp only at this ⊢
          rw [pyJoin_cons_ne (by simp), ← this]
          simp

/-- the white space in front of a token that is written again -/
theorem written_gap {g x : Str} {t' : Tok} (hg : t'.gap = gapOf g ∨ (gapOf g = .glue ∧ t'.gap = .space))
    (hx : (t'.gap = .space ∧ x = c!" ") ∨ (t'.gap = .glue ∧ x = []) ∨ (t'.gap = .link ∧ (x = [] ∨ x = c!" "))) :
    (∀ c ∈ x, isWs c = true) ∧ t'.gap = gapOf x ∧ (g ≠ [] → x ≠ []) := by
  rcases hx with ⟨h1, rfl⟩ | ⟨h1, rfl⟩ | ⟨h1, _⟩
  · exact ⟨by decide, by rw [h1]; rfl, by simp⟩
  · refine ⟨by simp, by rw [h1]; rfl, ?_⟩
    intro hne
    exfalso
    cases g with
    | nil => exact hne rfl
    | cons c g =>
      rcases hg with hg | hg
      · rw [h1] at hg; cases hg
      · cases hg.1
  · exfalso
    rcases hg with hg | hg
    · exact gapOf_ne_link g (by rw [← hg, h1])
    · rw [h1] at hg; cases hg.2

theorem Ctx.word_again {k : Ctx} {g x : Str} (h : k.word g) (hx : g ≠ [] → x ≠ []) : k.word x := by
  cases k with
  | link => exact hx h
  | start => trivial
  | br => trivial

/-- the text that tokens start with -/
theorem written_head {s s' : Str} {t : Tok} {ts us : List Tok} (h : Runs .start s (t :: ts)) (hr : Respaced (t :: ts) us)
    (hw : Written us s') : s'.head? = some ' ' ∨ s'.head? = s.head? := by
  cases hr with
  | @cons _ t' _ us ht hg hr =>
    cases hw with
    | @cons x _ _ s2 hx hw =>
      obtain ⟨g, r, hgw, hs, hgap, hst, _⟩ := h.first
      replace hgap : t.gap = gapOf g := by rcases hgap with h | h <;> exact h
      rw [hgap] at hg
      obtain ⟨_, h2, h3⟩ := written_gap hg hx
      cases x with
      | cons c x =>
        left
        rcases hx with ⟨_, h⟩ | ⟨_, h⟩ | ⟨_, h | h⟩ <;> cases h <;> rfl
      | nil =>
        right
        have hg0 : g = [] := by
          cases g with
          | nil => rfl
          | cons c g => exact absurd rfl (h3 (by simp))
        subst hg0
        obtain ⟨c, r', hc, _⟩ := hst.starts
        rw [hs, ht, hc]; rfl

/-- a word is followed by the end of a word when it is written again -/
theorem WordEnd.written {s s' : Str} {ts us : List Tok} (hw : WordEnd s) (h : Runs .start s ts) (hr : Respaced ts us)
    (hs : Written us s') : WordEnd s' := by
  cases hr with
  | nil => cases hs; exact .inl rfl
  | @cons t t' ts us ht hg hr =>
    cases hs with
    | @cons x _ _ s2 hx hs =>
      -- after white space there is nothing to show
      cases x with
      | cons c x =>
        right; left
        rcases hx with ⟨_, h⟩ | ⟨_, h⟩ | ⟨_, h | h⟩ <;> cases h <;> exact ⟨_, _, rfl, .inl (by decide)⟩
      | nil =>
        rw [List.nil_append, ht]
        have glue : ∀ g : Str, t.gap = gapOf g → g = [] := by
          intro g hgap
          rw [hgap] at hg
          cases g with
          | nil => rfl
          | cons c g => exact absurd rfl ((written_gap hg hx).2.2 (by simp))
        generalize hts : t :: ts = ts0 at h
        cases h with
        | nil => cases hts
        | @word _ g w rest _ hgw hk hpw hr2 h =>
          cases hts
          have := glue g rfl
          subst this
          rw [List.nil_append] at hw
          exfalso
          rcases hw with hw | ⟨d, y, hw, hd⟩ | ⟨b, y, hw, hb⟩
          · exact hpw.ne (List.append_eq_nil_iff.1 hw).1
          · obtain ⟨c, r, hc⟩ := List.exists_cons_of_ne_nil hpw.ne
            rw [hc] at hw
            cases hw
            rcases hd with hd | rfl
            · rw [hpw.noWs d (by rw [hc]; simp)] at hd; cases hd
            · exact hpw.noTick (by rw [hc]; simp)
          · obtain ⟨z, hz⟩ := hb.tag
            rw [hz, List.append_assoc] at hw
            have hh := hr2.head
            match w, hpw.ne, hpw.noBr, hw with
            | [x1], _, _, hw =>
              simp at hw
              have := hh 'b' (by rw [hw.2]; rfl)
              revert this; decide
            | [x1, x2], _, _, hw =>
              simp at hw
              have := hh 'r' (by rw [hw.2.2]; rfl)
              revert this; decide
            | x1 :: x2 :: x3 :: w, _, hb, hw =>
              simp at hw
              obtain ⟨rfl, rfl, rfl, _⟩ := hw
              exact hb ⟨[], w, by simp⟩
        | @br _ g b rest _ hgw hk hb h =>
          cases hts
          exact .inr (.inr ⟨b, s2, rfl, hb⟩)
        | @code _ g body dot rest n _ hgw hsp hd h =>
          cases hts
          simp only
          rw [ticks_cons hsp.pos]
          exact .inr (.inl ⟨'`', _, rfl, .inr rfl⟩)
        | @link _ g pre name v target tail rest o c _ hgw hk hl hv h =>
          have hgap : t.gap = gapOf g := by
            obtain ⟨w, ws, e1, e2⟩ := wordToks_ne (g := Ctx.start.gap g) (fun x hx => (hl.preOk x hx).1) (name ++ [']', o])
            rw [e2] at hts
            simp only [List.cons_append, List.cons.injEq] at hts
            rw [hts.1]; rfl
          have := glue g hgap
          subst this
          exact absurd hw (hl.not_wordEnd _ _)

/-- Tokens that are written in a row are read as the same tokens. -/
theorem Runs.written {k : Ctx} {s s' : Str} {ts us : List Tok} (h : Runs k s ts) (hr : Respaced ts us) (hs : Written us s') :
    Runs k s' us := by
  induction h generalizing us s' with
  | nil => cases hr; cases hs; exact .nil (by simp)
  | @word k g w rest ts hg hk hw he h ih =>
    cases hr with
    | @cons _ t' _ us ht hgp hr =>
      cases hs with
      | @cons x _ _ s2 hx hs =>
        obtain ⟨h1, h2, h3⟩ := written_gap hgp hx
        obtain ⟨gap, text⟩ := t'
        simp only at ht h2 ⊢
        subst ht h2
        exact .word h1 (Ctx.word_again hk h3) hw (he.written h hr hs) (ih hr hs)
  | @br k g b rest ts hg hk hb h ih =>
    cases hr with
    | @cons _ t' _ us ht hgp hr =>
      cases hs with
      | @cons x _ _ s2 hx hs =>
        obtain ⟨h1, h2, h3⟩ := written_gap hgp hx
        obtain ⟨gap, text⟩ := t'
        simp only at ht h2 ⊢
        subst ht h2
        exact .br h1 (Ctx.word_again hk h3) hb (ih hr hs)
  | @code k g body dot rest n ts hg hsp hd h ih =>
    cases hr with
    | @cons _ t' _ us ht hgp hr =>
      cases hs with
      | @cons x _ _ s2 hx hs =>
        obtain ⟨h1, h2, _⟩ := written_gap hgp hx
        obtain ⟨gap, text⟩ := t'
        simp only at ht h2 ⊢
        subst ht h2
        have h4 := ih hr hs
        have := Runs.code (k := k) (dot := dot) (rest := s2) h1 hsp ⟨?_, ?_⟩ h4
        · simpa using this
        · cases ts with
          | nil =>
            cases hr; cases hs
            rcases hd.dot with ⟨e, _⟩ | ⟨e, _⟩
            · exact .inl ⟨e, by simp⟩
            · exact .inr ⟨e, by simp⟩
          | cons t ts =>
            rcases written_head h hr hs with hh | hh
            · rcases hd.dot with ⟨e, _⟩ | ⟨e, _⟩
              · exact .inl ⟨e, by rw [hh]; decide⟩
              · exact .inr ⟨e, by rw [hh]; decide⟩
            · rw [hh]; exact hd.dot
        · cases hr with
          | nil => cases hs; rfl
          | @cons t t' ts ts' ht hgp hr => rw [h4.singleDot, ht, ← h.singleDot, hd.next]
  | @link k g pre name v target tail rest o c ts hg hk hl hv h ih =>
    obtain ⟨hs1, us2, rfl, hr1, hr2⟩ := hr.split
    obtain ⟨s1, s2, rfl, hw1, hw2⟩ := hs.split
    obtain ⟨g', rfl, hg'⟩ := hr1.words
    have hne : splitWs (pre ++ '[' :: (name ++ [']', o])) ≠ [] := by
      obtain ⟨w, ws, e1, _⟩ := wordToks_ne (g := g') (fun x hx => (hl.preOk x hx).1) (name ++ [']', o])
      rw [e1]; simp
    replace hg' := hg' hne
    obtain ⟨x, rfl, hx⟩ := hw1.words hne
    cases hr2 with
    | @cons _ t' _ us ht hgp hr' =>
      cases hw2 with
      | @cons y _ _ s3 hy hw =>
        obtain ⟨hl', e1, e2⟩ := hl.squeeze
        obtain ⟨gap, text⟩ := t'
        have hgap : gap = .link := by
          rcases hgp with h | h
          · exact h
          · cases h.1
        simp only at ht
        subst ht hgap
        have hyw : ∀ c ∈ y, isWs c = true := by
          rcases hy with ⟨h, _⟩ | ⟨h, _⟩ | ⟨_, rfl | rfl⟩
          · cases h
          · cases h
          · simp
          · decide
        have hxw : (∀ c ∈ x, isWs c = true) ∧ k.toLink x pre o ∧ g' = k.gap x := by
          cases k with
          | link o' tail' =>
            have hgl : g' = .link := by
              rcases hg' with h | h
              · exact h
              · cases h.1
            subst hgl
            refine ⟨?_, hk, rfl⟩
            rcases hx with ⟨h, _⟩ | ⟨h, _⟩ | ⟨_, rfl | rfl⟩
            · cases h
            · cases h
            · simp
            · decide
          | start =>
            obtain ⟨h1, h2, _⟩ := written_gap (t' := ⟨g', []⟩) (g := g) hg' hx
            exact ⟨h1, trivial, h2⟩
          | br =>
            obtain ⟨h1, h2, h3⟩ := written_gap (t' := ⟨g', []⟩) (g := g) hg' hx
            exact ⟨h1, h3 hk, h2⟩
        have := Runs.link (k := k) hxw.1 hxw.2.1 hl' hyw (ih hr' hw)
        rw [e2, ← hxw.2.2] at this
        rw [e1]
        simpa [linkText] using this

/-- A text is its tokens in a row when it has no needless white space. -/
theorem lay_flatten (w : Width) : ∀ (ts cur : List Tok), (lay w cur ts).flatten = cur ++ ts := by
  intro ts
  induction ts with
  | nil => intro cur; cases cur <;> simp [lay]
  | cons t ts ih =>
    intro cur
    simp only [lay]
    split <;> split <;> simp [ih]

theorem lay_ne (w : Width) : ∀ (ts cur : List Tok), ∀ l ∈ lay w cur ts, l ≠ [] := by
  intro ts
  induction ts with
  | nil => intro cur; cases cur <;> simp [lay]
  | cons t ts ih =>
    intro cur l hl
    simp only [lay] at hl
    split at hl <;> split at hl
    · rcases List.mem_cons.1 hl with rfl | hl
      · simp
      · exact ih _ l hl
    · exact ih _ l hl
    · rename_i h1 _
      rcases List.mem_cons.1 hl with rfl | hl
      · intro h0; subst h0; simp at h1
      · rcases List.mem_cons.1 hl with rfl | hl
        · simp
        · exact ih _ l hl
    · rename_i h1 _
      rcases List.mem_cons.1 hl with rfl | hl
      · intro h0; subst h0; simp at h1
      · exact ih _ l hl

theorem settle_respaced (w : Width) (ts : List Tok) : Respaced ts (settle w ts) := by
  have h := lay_flatten w ts []
  unfold settle
  cases hl : lay w [] ts with
  | nil => rw [hl] at h; simp at h; subst h; exact .nil
  | cons l ls =>
    rw [hl] at h
    simp only [List.flatten_cons, List.nil_append] at h
    rw [← h]
    exact (Respaced.refl l).append (flatten_respaced ls)

/-- a line that is not the first one, in the row of tokens -/
theorem written_broken {l : List Tok} (hl : l ≠ []) : Written (brokenLine l) (' ' :: lineText l) := by
  cases l with
  | nil => exact absurd rfl hl
  | cons t l =>
    have : Written (t.broken :: l) (c!" " ++ (t.broken.text ++ (l.map Tok.spaced).flatten)) := by
      refine .cons ?_ (written_spaced l)
      unfold Tok.broken
      cases t.gap <;> simp
    exact this

theorem written_line {t : Tok} {l : List Tok} (hg : t.gap ≠ .space) : Written (t :: l) (lineText (t :: l)) := by
  have : Written (t :: l) ([] ++ (t.text ++ (l.map Tok.spaced).flatten)) := by
    refine .cons ?_ (written_spaced l)
    cases h : t.gap
    · exact absurd h hg
    · simp
    · simp
  exact this

/-- the lines in a row are the settled tokens in a row -/
theorem settle_written {w : Width} {t : Tok} {ts : List Tok} (hg : t.gap ≠ .space) :
    Written (settle w (t :: ts)) (pyJoin c!" " (layLines w (t :: ts))) := by
  obtain ⟨a, ls, e1, _⟩ := (relay w ts).2.1 t t rfl
  have hne := lay_ne w (t :: ts) []
  rw [e1] at hne
  unfold layLines settle
  rw [e1]
  simp only [List.map_cons]
  have : ∀ ls : List (List Tok), (∀ l ∈ ls, l ≠ []) → ∀ (us : List Tok) (b : Str), Written us b →
      Written (us ++ (ls.map brokenLine).flatten) (pyJoin c!" " (b :: ls.map lineText)) := by
    intro ls
    induction ls with
    | nil => intro _ us b h; simpa [pyJoin] using h
    | cons l ls ih =>
      intro h1 us b h
      simp only [List.map_cons, List.flatten_cons]
      have h2 := ih (fun l hl => h1 l (by simp [hl])) _ _ (written_broken (h1 l (by simp)))
      rw [pyJoin_cons_ne (by simp)]
      have h3 := h.append h2
      have e : pyJoin c!" " ((' ' :: lineText l) :: ls.map lineText) = c!" " ++ pyJoin c!" " (lineText l :: ls.map lineText) := by
        cases ls with
        | nil => simp [pyJoin]
        | cons l2 ls =>
          rw [pyJoin_cons_ne (x := ' ' :: lineText l) (by simp), pyJoin_cons_ne (x := lineText l) (by simp)]
          simp
      rw [e] at h3
      simpa using h3
  exact this ls (fun l hl => hne l (by simp [hl])) _ _ (written_line hg)

end MF
