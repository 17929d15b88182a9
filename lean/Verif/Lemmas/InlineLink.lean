import Verif.Lemmas.Bare
/-!
# `link_split` on running text
-/

namespace MF

/-! ## The text between links -/

/-- The text between links, and the links with their places in the text. -/
inductive Linked : Ctx → Nat → Str → List (Char × Match) → List Tok → Prop
  | last {k : Ctx} {n : Nat} {u : Str} {ts : List Tok} (hu : NoPair u) (h : Runs k u ts) : Linked k n u [] ts
  | link {k : Ctx} {n : Nat} {u pre name v target tail rest : Str} {o c : Char} {ts ts2 : List Tok} {L : List (Char × Match)}
      (hu : NoPair u) (h : Runs k u ts) (hend : u = [] ∨ u.getLast? = some ' ') (hk : ts = [] → k.toLink u pre o)
      (hl : Link o c pre name target tail) (hv : ∀ x ∈ v, isWs x = true)
      (hr : Linked (.link o tail) (n + u.length + (linkText o c pre name (v ++ target) tail).length) rest L ts2) :
      Linked k n (u ++ (linkText o c pre name (v ++ target) tail ++ rest))
        ((o, ⟨n + u.length, n + u.length + (linkText o c pre name (v ++ target) tail).length,
          linkText o c pre name (v ++ target) tail, []⟩) :: L)
        (ts ++ (wordToks (if ts = [] then k.gap u else .space) (splitWs (pre ++ '[' :: (name ++ [']', o]))) ++
          ⟨.link, target ++ c :: tail⟩ :: ts2))

theorem Runs.of_nil {k : Ctx} {ts : List Tok} (h : Runs k [] ts) : ts = [] := by
  cases ts with
  | nil => rfl
  | cons t ts => exact absurd rfl h.ne_nil

theorem ws_noPair {g : Str} (hg : ∀ c ∈ g, isWs c = true) : NoPair g := by
  have : ']' ∉ g := fun h => by have := hg _ h; revert this; decide
  exact ⟨fun h => this (pair_mem h).1, fun h => this (pair_mem h).1⟩

theorem NoPair.append {a b : Str} (ha : NoPair a) (hb : NoPair b)
    (h : a.getLast? = some ']' → b.head? ≠ some '(' ∧ b.head? ≠ some '[') : NoPair (a ++ b) := by
  constructor <;> intro h0
  · rcases pair_append h0 with h0 | h0 | ⟨h1, h2⟩
    · exact ha.1 h0
    · exact hb.1 h0
    · exact (h h1).1 h2
  · rcases pair_append h0 with h0 | h0 | ⟨h1, h2⟩
    · exact ha.2 h0
    · exact hb.2 h0
    · exact (h h1).2 h2

theorem ws_last {g : Str} (hg : ∀ c ∈ g, isWs c = true) : g.getLast? ≠ some ']' := by
  intro h
  have := hg _ (List.mem_of_getLast? h)
  revert this; decide

/-- no tag is cut off at the end of text -/
theorem Runs.no_half {k : Ctx} {ts : List Tok} (h : Runs k c!"<br " ts) : False := by
  generalize hs : c!"<br " = s at h
  cases h with
  | nil h => subst hs; have := h '<' (by simp); revert this; decide
  | @word _ g w rest ts hg hk hw hr h =>
    cases g with
    | cons d g => have := hg d (by simp); rw [← (List.cons.inj hs).1] at this; revert this; decide
    | nil =>
      simp only [List.nil_append] at hs
      match w, hs with
      | [], _ => exact hw.ne rfl
      | [a], hs =>
        have := hr.head 'b' (by have := (List.cons.inj hs).2; simp at this; rw [← this]; rfl)
        revert this; decide
      | [a, b], hs =>
        have := hr.head 'r' (by have := (List.cons.inj (List.cons.inj hs).2).2; simp at this; rw [← this]; rfl)
        revert this; decide
      | a :: b :: d :: w, hs =>
        simp only [List.cons_append, List.cons.injEq] at hs
        obtain ⟨rfl, rfl, rfl, _⟩ := hs
        exact hw.noBr ⟨[], w, rfl⟩
  | @br _ g b rest ts hg hk hb h =>
    cases g with
    | cons d g => have := hg d (by simp); rw [← (List.cons.inj hs).1] at this; revert this; decide
    | nil =>
      rcases hb with rfl | rfl | rfl | rfl <;> simp at hs
  | @code _ g body dot rest n ts hg hs' hd h =>
    have : '`' ∈ c!"<br " := by rw [hs, ticks_cons hs'.pos]; simp
    revert this; decide
  | @link _ g pre name v target tail rest o c ts hg hk hl hv h =>
    have : '[' ∈ c!"<br " := by rw [hs]; simp [linkText]
    revert this; decide

/-- the end of a word, in front of a link -/
theorem WordEnd.cutLink {k : Ctx} {u x : Str} {ts : List Tok} (hr : Runs k u ts) (hend : u = [] ∨ u.getLast? = some ' ')
    (h : WordEnd (u ++ x)) : WordEnd u := by
  cases u with
  | nil => exact .inl rfl
  | cons c u =>
    rcases h with h | ⟨d, r, h, hd⟩ | ⟨b', r, h, hb'⟩
    · cases h
    · cases h; exact .inr (.inl ⟨_, _, rfl, hd⟩)
    · rcases List.append_eq_append_iff.1 h with ⟨a, e1, e2⟩ | ⟨a, e1, e2⟩
      · have hl : (c :: u).getLast? = some ' ' := by
          rcases hend with h | h
          · cases h
          · exact h
        obtain ⟨y, hy⟩ := List.getLast?_eq_some_iff.1 hl
        rw [hy] at e1 hr
        exfalso
        have key : ∀ z : Str, y ++ ' ' :: a = c!"<br" ++ ' ' :: z → ' ' ∉ z → y = c!"<br" := by
          intro z hz hz2
          rcases List.append_eq_append_iff.1 hz with ⟨q, f1, f2⟩ | ⟨q, f1, f2⟩
          · cases q with
            | nil => simpa using f1.symm
            | cons p q =>
              have h1 := (List.cons.inj f2).1
              subst h1
              exact absurd (show ' ' ∈ c!"<br" by rw [f1]; simp) (by decide)
          · cases q with
            | nil => simpa using f1
            | cons p q =>
              exfalso
              have h2 := (List.cons.inj f2).2
              exact hz2 (by rw [h2]; simp)
        have hsp : ' ' ∈ b' := by rw [e1]; simp
        rcases hb' with rfl | rfl | rfl | rfl
        · exact absurd hsp (by decide)
        · exact absurd hsp (by decide)
        · have := key c!">" (by simpa using e1.symm) (by decide)
          subst this
          exact hr.no_half
        · have := key c!"/>" (by simpa using e1.symm) (by decide)
          subst this
          exact hr.no_half
      · exact .inr (.inr ⟨b', a, e1, hb'⟩)

/-- a word does not end where a link starts -/
theorem Link.not_wordEnd {o c : Char} {pre name target tail : Str} (hl : Link o c pre name target tail) (t rest : Str) :
    ¬ WordEnd (linkText o c pre name t tail ++ rest) := by
  intro h
  obtain ⟨d, r, hd, hd2⟩ := (hl.starts t).append rest
  rcases h with h | ⟨e, r', h, he⟩ | ⟨b, r', h, hb⟩
  · rw [h] at hd; cases hd
  · rw [h] at hd; cases hd
    rcases he with he | rfl
    · rw [hd2] at he; cases he
    · apply hl.noTick
      rw [linkText_append] at h
      unfold linkText
      cases pre with
      | nil => exact absurd (List.cons.inj h).1 (by decide)
      | cons x pre => rw [(List.cons.inj h).1]; simp
  · obtain ⟨z, hz⟩ := hb.tag
    apply hl.noBr.1
    rw [linkText_append, hz, List.append_assoc] at h
    rcases List.append_eq_append_iff.1 h with ⟨a, e1, e2⟩ | ⟨a, e1, e2⟩
    · cases a with
      | nil => exact ⟨[], '[' :: name, by rw [← List.append_nil pre, ← e1]; simp⟩
      | cons x a =>
        exfalso
        have h1 := (List.cons.inj e2).1
        subst h1
        exact absurd (show '[' ∈ c!"<br" by rw [e1]; simp) (by decide)
    · exact ⟨[], a ++ '[' :: name, by rw [e1]; simp⟩

theorem Runs.linked {k : Ctx} {s : Str} {ts : List Tok} (h : Runs k s ts) (ht : '`' ∉ s)
    (hsp : ∀ c ∈ s, isWs c = true → c = ' ') : ∀ n, ∃ L, Linked k n s L ts := by
  induction h with
  | nil h => exact fun n => ⟨[], .last (ws_noPair h) (.nil h)⟩
  | @word k g w rest ts hg hk hw hr h ih =>
    intro n
    have key : ∀ u, WordEnd u → NoPair u → NoPair (g ++ (w ++ u)) := by
      intro u hwe hu
      refine (ws_noPair hg).append (NoPair.append hw.noLink hu fun _ => ⟨?_, ?_⟩) (fun h => absurd h (ws_last hg))
      · intro h0; have := hwe.head _ h0; revert this; decide
      · intro h0; have := hwe.head _ h0; revert this; decide
    obtain ⟨L, hL⟩ := ih (fun h => ht (by simp [h])) (fun c hc => hsp c (by simp [hc])) (n + (g ++ w).length)
    cases hL with
    | last hu hu2 => exact ⟨[], .last (key _ hr hu) (.word hg hk hw hr hu2)⟩
    | @link _ _ u pre name v target tail rest o c ts ts2 L hu hu2 hend hk2 hl hv hr' =>
      have hwe := WordEnd.cutLink hu2 hend hr
      have h1 : Runs k (g ++ (w ++ u)) (⟨gapOf g, w⟩ :: ts) := .word hg hk hw hwe hu2
      have hu0 : u ≠ [] := by
        rintro rfl
        exact hl.not_wordEnd _ _ hr
      have hend' : u.getLast? = some ' ' := hend.resolve_left hu0
      have elen : n + (g ++ w).length + u.length = n + (g ++ (w ++ u)).length := by simp; omega
      rw [elen] at hr'
      have h2 := Linked.link (key u hwe hu) h1
        (.inr (by
          rw [← List.append_assoc]
          obtain ⟨y, rfl⟩ := List.getLast?_eq_some_iff.1 hend'
          rw [← List.append_assoc, List.getLast?_concat])) (fun h => by cases h) hl hv hr'
      refine ⟨(o, ⟨n + (g ++ (w ++ u)).length, n + (g ++ (w ++ u)).length +
        (linkText o c pre name (v ++ target) tail).length, linkText o c pre name (v ++ target) tail, []⟩) :: L, ?_⟩
      have e : (if ts = [] then Ctx.start.gap u else Gap.space) = .space := by
        split
        · cases u with
          | nil => exact absurd rfl hu0
          | cons => rfl
        · rfl
      rw [e]
      rw [if_neg (by simp)] at h2
      simpa using h2
  | @br k g b rest ts hg hk hb h ih =>
    intro n
    have hbp : ']' ∉ b := by rcases hb with rfl | rfl | rfl | rfl <;> decide
    have key : ∀ u, NoPair u → NoPair (g ++ (b ++ u)) := by
      intro u hu
      refine (ws_noPair hg).append (NoPair.append ?_ hu fun h => absurd (List.mem_of_getLast? h) hbp) (fun h => absurd h (ws_last hg))
      exact ⟨fun h => hbp (pair_mem h).1, fun h => hbp (pair_mem h).1⟩
    obtain ⟨L, hL⟩ := ih (fun h => ht (by simp [h])) (fun c hc => hsp c (by simp [hc])) (n + (g ++ b).length)
    cases hL with
    | last hu hu2 => exact ⟨[], .last (key _ hu) (.br hg hk hb hu2)⟩
    | @link _ _ u pre name v target tail rest o c ts ts2 L hu hu2 hend hk2 hl hv hr' =>
      have h1 : Runs k (g ++ (b ++ u)) (⟨gapOf g, b⟩ :: ts) := .br hg hk hb hu2
      have hu0 : u ≠ [] := by
        rintro rfl
        exact hk2 hu2.of_nil rfl
      have hend' : u.getLast? = some ' ' := hend.resolve_left hu0
      have elen : n + (g ++ b).length + u.length = n + (g ++ (b ++ u)).length := by simp; omega
      rw [elen] at hr'
      have h2 := Linked.link (key u hu) h1
        (.inr (by
          rw [← List.append_assoc]
          obtain ⟨y, rfl⟩ := List.getLast?_eq_some_iff.1 hend'
          rw [← List.append_assoc, List.getLast?_concat])) (fun h => by cases h) hl hv hr'
      refine ⟨(o, ⟨n + (g ++ (b ++ u)).length, n + (g ++ (b ++ u)).length +
        (linkText o c pre name (v ++ target) tail).length, linkText o c pre name (v ++ target) tail, []⟩) :: L, ?_⟩
      have e : (if ts = [] then Ctx.br.gap u else Gap.space) = .space := by
        split
        · cases u with
          | nil => exact absurd rfl hu0
          | cons => rfl
        · rfl
      rw [e]
      rw [if_neg (by simp)] at h2
      simpa using h2
  | @code k g body dot rest n ts hg hs hd h ih =>
    exfalso
    apply ht
    rw [ticks_cons hs.pos]
    simp
  | @link k g pre name v target tail rest o c ts hg hk hl hv h ih =>
    intro n
    obtain ⟨L, hL⟩ := ih (fun h => ht (by simp [h])) (fun c hc => hsp c (by simp [hc]))
      (n + g.length + (linkText o c pre name (v ++ target) tail).length)
    have hend : g = [] ∨ g.getLast? = some ' ' := by
      cases hgl : g.getLast? with
      | none => exact .inl (List.getLast?_eq_none_iff.1 hgl)
      | some d =>
        have hm := List.mem_of_getLast? hgl
        exact .inr (by rw [hsp d (by simp [hm]) (hg d hm)])
    exact ⟨_, by simpa using Linked.link (ws_noPair hg) (.nil hg) hend (fun _ => hk) hl hv hL⟩

/-! ## Where no link is found -/

/-- The end of a name comes after a bracket only. -/
def Sh (o : Char) (y : Str) : Prop := ∀ n z, y = n ++ ']' :: o :: z → '[' ∈ n

/-- No link starts here. -/
def NoM (o : Char) (post : Str) : Prop := ∀ p n z, post = p ++ '[' :: (n ++ ']' :: o :: z) →
  (∀ x ∈ p, (!isWs x && x != ']' && x != ')') = true) → '[' ∈ n

theorem NoM.matchAt {o c : Char} {post : Str} (h : NoM o post) (p : Str) : (linkRx o c).matchAt p post = none := by
  cases hm : (linkRx o c).matchAt p post with
  | none => rfl
  | some m =>
    obtain ⟨pre, name, target, rest, e, h1, h2, _⟩ := linkRx_parts hm
    exact absurd (h pre name _ e h1) h2

theorem Sh.cons (o : Char) (y : Str) : Sh o ('[' :: y) := by
  intro n z e
  cases n with
  | nil => exact absurd (List.cons.inj e).1 (by decide)
  | cons d n => rw [← (List.cons.inj e).1]; simp

theorem Sh.skip {o : Char} {w y : Str} (h : Sh o y) (hw : ¬ [']', o] <:+: w)
    (hj : w.getLast? = some ']' → y.head? ≠ some o) : Sh o (w ++ y) := by
  intro n z e
  rcases List.append_eq_append_iff.1 e with ⟨a, e1, e2⟩ | ⟨a, e1, e2⟩
  · rw [e1]
    exact List.mem_append_right _ (h a z e2)
  · exfalso
    cases a with
    | nil =>
      have := h [] z (by simpa using e2.symm)
      cases this
    | cons d a =>
      have hd := (List.cons.inj e2).1
      have e3 := (List.cons.inj e2).2
      subst hd
      cases a with
      | nil =>
        refine hj (by rw [e1]; simp) ?_
        have e4 : o :: z = y := e3
        rw [← e4]; rfl
      | cons d a =>
        have hd := (List.cons.inj e3).1
        subst hd
        exact hw ⟨n, a, by rw [e1]; simp⟩

theorem Sh.of_noPair {o : Char} {w : Str} (hw : ¬ [']', o] <:+: w) : Sh o w := by
  intro n z e
  exact absurd ⟨n, z, by rw [e]; simp⟩ hw

theorem NoM.cons {o x : Char} {y : Str} (h : NoM o y) (hx : x = '[' → Sh o y) : NoM o (x :: y) := by
  intro p n z e hp
  cases p with
  | nil =>
    simp only [List.nil_append, List.cons.injEq] at e
    exact hx e.1 n z e.2
  | cons d p =>
    simp only [List.cons_append, List.cons.injEq] at e
    exact h p n z e.2 fun x hx => hp x (by simp [hx])

theorem NoM.stop {o x : Char} {y : Str} (hx : (!isWs x && x != ']' && x != ')') = false) (hx2 : x ≠ '[') : NoM o (x :: y) := by
  intro p n z e hp
  cases p with
  | nil => exact absurd (List.cons.inj e).1 hx2
  | cons d p =>
    have := hp d (by simp)
    rw [← (List.cons.inj e).1, hx] at this
    cases this

theorem NoM.nil (o : Char) : NoM o [] := by
  intro p n z e _
  cases p <;> cases e

/-- no link starts in this text -/
theorem NoM.append {o : Char} {w y : Str} (h : NoM o y) (hw : ∀ a b, w = a ++ '[' :: b → Sh o (b ++ y)) : NoM o (w ++ y) := by
  induction w with
  | nil => exact h
  | cons x w ih =>
    refine NoM.cons (ih fun a b e => hw (x :: a) b (by rw [e]; rfl)) ?_
    rintro rfl
    exact hw [] w rfl

/-! ## The text in front of a link -/

theorem Link.pre_noPair {o c : Char} {pre name target tail : Str} (hl : Link o c pre name target tail) : NoPair pre := by
  have : ']' ∉ pre := fun h => (hl.preOk _ h).2.1 rfl
  exact ⟨fun h => this (pair_mem h).1, fun h => this (pair_mem h).1⟩

/-- nothing is found in the text in front of a link -/
theorem noM_front {o q c : Char} {u pre name target tail t rest : Str} (hq : q = '(' ∨ q = '[') (hu : NoPair u)
    (hend : u = [] ∨ u.getLast? = some ' ') (hl : Link o c pre name target tail) :
    ∀ a d b, u = a ++ d :: b → NoM q (d :: b ++ (linkText o c pre name t tail ++ rest)) := by
  intro a d b e
  have hlast : (d :: b).getLast? = some ' ' := by
    rcases hend with h | h
    · rw [h] at e; simp at e
    · rw [e, List.getLast?_append] at h
      simpa using h
  obtain ⟨w, hw⟩ := List.getLast?_eq_some_iff.1 hlast
  rw [hw, List.append_assoc]
  refine NoM.append (NoM.stop (by decide) (by decide)) ?_
  intro a' b' e'
  have hb : NoPair (b' ++ [' ']) := hu.infix ⟨a ++ (a' ++ ['[']), [], by
    rw [e, hw, e']; simp⟩
  have : b' ++ ([' '] ++ (linkText o c pre name t tail ++ rest)) =
      ((b' ++ [' ']) ++ pre) ++ '[' :: (name ++ ']' :: o :: (t ++ c :: (tail ++ rest))) := by
    rw [linkText_append]; simp
  rw [this]
  refine Sh.skip (Sh.cons _ _) (NoPair.not (NoPair.append hb hl.pre_noPair ?_) hq) ?_
  · intro h; simp at h
  · intro h
    rw [List.getLast?_append] at h
    cases hp : pre.getLast? with
    | none => rw [hp] at h; simp at h
    | some x =>
      rw [hp] at h
      simp at h
      subst h
      exact absurd rfl (hl.preOk _ (List.mem_of_getLast? hp)).2.1

/-- nothing is found in text without links -/
theorem noM_last {q : Char} {u : Str} (hq : q = '(' ∨ q = '[') (hu : NoPair u) : NoM q u := by
  intro p n z e _
  exact absurd ⟨p ++ '[' :: n, z, by rw [e]; simp⟩ (hu.not hq)

theorem Linked.sh {k : Ctx} {n : Nat} {s : Str} {L : List (Char × Match)} {ts : List Tok} (h : Linked k n s L ts) {q : Char}
    (hq : q = '(' ∨ q = '[') : Sh q s := by
  cases h with
  | last hu h => exact Sh.of_noPair (hu.not hq)
  | @link _ _ u pre name v target tail rest o c ts ts2 L hu h hend hk hl hv hr =>
    rw [linkText_append, ← List.append_assoc]
    refine Sh.skip (Sh.cons _ _) (NoPair.not (NoPair.append hu hl.pre_noPair ?_) hq) ?_
    · intro h
      rcases hend with h0 | h0
      · rw [h0] at h; cases h
      · rw [h0] at h; exact absurd (Option.some.inj h) (by decide)
    · intro h
      rw [List.getLast?_append] at h
      cases hp : pre.getLast? with
      | none =>
        rw [hp] at h
        simp at h
        rcases hend with h0 | h0
        · rw [h0] at h; cases h
        · rw [h0] at h; exact absurd (Option.some.inj h) (by decide)
      | some x =>
        rw [hp] at h
        simp at h
        subst h
        exact absurd rfl (hl.preOk _ (List.mem_of_getLast? hp)).2.1

/-- what comes right behind a link -/
theorem Linked.head {o' : Char} {tail' : Str} {n : Nat} {s : Str} {L : List (Char × Match)} {ts : List Tok}
    (h : Linked (.link o' tail') n s L ts) (ht : '`' ∉ s) : ∀ c, s.head? = some c → isWs c = true ∨
      (c = '[' ∧ ∃ o m L', L = (o, m) :: L' ∧ m.start = n ∧ (o' = o ∨ tail' = [] ∨ tail'.getLast? = some ')') ∧
        (o' = '(' → tail'.getLast? ≠ some ']')) := by
  have key : ∀ u ts, Runs (.link o' tail') u ts → NoPair u → '`' ∉ u → ∀ c, u.head? = some c → isWs c = true := by
    intro u ts h hu ht c hc
    cases h with
    | nil h => exact h c (List.mem_of_head? hc)
    | @word _ g w rest ts hg hk hw hr h =>
      cases g with
      | nil => exact absurd rfl hk
      | cons d g => simp at hc; subst hc; exact hg _ (by simp)
    | @br _ g b rest ts hg hk hb h =>
      cases g with
      | nil => exact absurd rfl hk
      | cons d g => simp at hc; subst hc; exact hg _ (by simp)
    | @code _ g body dot rest n ts hg hs hd h =>
      exfalso
      apply ht
      rw [ticks_cons hs.pos]
      simp
    | @link _ g pre name v target tail rest o c ts hg hk hl hv h =>
      exact absurd ((linkText_pair o c pre name (v ++ target) tail).trans ⟨g, rest, by simp⟩) (hu.not hl.kind')
  intro x hx
  cases h with
  | last hu h => exact .inl (key _ _ h hu ht x hx)
  | @link _ _ u pre name v target tail rest o c ts ts2 L hu h hend hk hl hv hr =>
    cases u with
    | cons d u =>
      exact .inl (key _ _ h hu (fun h => ht (by rw [List.mem_append]; exact .inl h)) x (by simpa using hx))
    | nil =>
      obtain ⟨hp, h1, h2⟩ := hk h.of_nil
      subst hp
      refine .inr ⟨?_, o, _, L, rfl, by simp, h1, h2⟩
      simp [linkText] at hx
      exact hx.symm

/-- nothing is found in a link of the other kind -/
theorem noM_other {q o c : Char} {n : Nat} {pre name target tail v rest : Str} {L : List (Char × Match)} {ts : List Tok}
    (hq : q = '(' ∨ q = '[') (hqo : q ≠ o) (hl : Link o c pre name target tail) (hv : ∀ x ∈ v, isWs x = true)
    (hr : Linked (.link o tail) n rest L ts) (ht : '`' ∉ rest)
    (hno : (∀ m L', L = (q, m) :: L' → m.start ≠ n) → NoM q rest) :
    ∀ a d b, linkText o c pre name (v ++ target) tail = a ++ d :: b → NoM q (d :: b ++ rest) := by
  have hhead := hr.head ht
  -- behind the link
  have hback : NoM q (c :: tail ++ rest) := by
    have hc : (!isWs c && c != ']' && c != ')') = false ∧ c ≠ '[' := by
      rcases hl.kind with ⟨_, rfl⟩ | ⟨_, rfl⟩ <;> decide
    exact NoM.stop hc.1 hc.2
  have htail : ∀ a d b, tail = a ++ d :: b → NoM q (d :: b ++ rest) := by
    intro a d b e
    have hnb : '[' ∉ d :: b := fun h => (hl.tailOk '[' (by rw [e]; exact List.mem_append_right _ h)).2.1 rfl
    by_cases hex : ∃ m L', L = (q, m) :: L' ∧ m.start = n
    · obtain ⟨m, L', hL, hm⟩ := hex
      have hlast : tail.getLast? = some ')' := by
        cases rest with
        | nil =>
          exfalso
          rw [hL] at hr
          generalize hx : ([] : Str) = x at hr
          cases hr with
          | link => simp [linkText] at hx
        | cons x rest =>
          rcases hhead x rfl with h | ⟨_, o2, m2, L2, h1, h2, h3, _⟩
          · exfalso
            rw [hL] at hr
            generalize hx : x :: rest = y at hr
            generalize hk : Ctx.link o tail = k at hr
            cases hr with
            | @link _ _ u pre' name' v' target' tail' rest' o' c' ts' ts2' L2 hu h' hend hk' hl' hv' hr' =>
              simp only at hm
              have hu0 : u = [] := List.length_eq_zero_iff.1 (by omega)
              subst hu0
              obtain ⟨z, r, hz, hz2⟩ := (hl'.starts (v' ++ target')).append rest'
              rw [List.nil_append, hz] at hx
              rw [(List.cons.inj hx).1] at h
              rw [hz2] at h; cases h
          · rw [hL] at h1
            cases h1
            rcases h3 with h3 | h3 | h3
            · exact absurd h3.symm hqo
            · rw [h3] at e; simp at e
            · exact h3
      rw [e, List.getLast?_append] at hlast
      simp only [List.getLast?_cons, Option.some_or] at hlast
      obtain ⟨w, hw⟩ := List.getLast?_eq_some_iff.1 (show (d :: b).getLast? = some ')' by rw [List.getLast?_cons]; exact hlast)
      rw [hw, List.append_assoc]
      refine NoM.append (NoM.stop (by decide) (by decide)) ?_
      intro a' b' e'
      exact absurd (by rw [hw, e']; simp) hnb
    · refine NoM.append (hno ?_) ?_
      · intro m L' hL hm
        exact hex ⟨m, L', hL, hm⟩
      · intro a' b' e'
        exact absurd (by rw [e']; simp) hnb
  -- the end of a name after a bracket
  have hjoin : ∀ w : Str, w.getLast? = some ']' → w = c :: tail → rest.head? ≠ some q := by
    intro w hw hwe h0
    rcases hhead q h0 with h | ⟨h, o2, m2, L2, _, _, _, h4⟩
    · rcases hq with rfl | rfl <;> revert h <;> decide
    · subst h
      have ho : o = '(' := hl.kind'.resolve_right fun h => hqo h.symm
      rcases List.eq_nil_or_concat tail with h1 | ⟨y, x, h1⟩
      · rcases hl.kind with ⟨_, rfl⟩ | ⟨h2, _⟩
        · rw [hwe, h1] at hw; exact absurd (Option.some.inj hw) (by decide)
        · rw [ho] at h2; exact absurd h2 (by decide)
      · refine h4 ho ?_
        rw [List.concat_eq_append] at h1
        rw [hwe, h1, ← List.cons_append, List.getLast?_concat] at hw
        rw [h1, List.getLast?_concat]
        exact hw
  have htp : ∀ z, z = '(' ∨ z = '[' → ¬ [']', z] <:+: c :: tail := by
    intro z hz h0
    have hz2 : z ∈ tail := by
      have : [']', z] <:+: [c] ++ tail := h0
      rcases pair_append this with h | h | ⟨_, h⟩
      · have := (pair_mem h).2
        simp at this
        subst this
        rcases hl.kind with ⟨_, rfl⟩ | ⟨_, rfl⟩ <;> rcases hz with hz | hz <;> exact absurd hz (by decide)
      · exact (pair_mem h).2
      · exact List.mem_of_head? h
    rcases hz with rfl | rfl
    · exact (hl.tailOk _ hz2).2.2 rfl
    · exact (hl.tailOk _ hz2).2.1 rfl
  have hvt : ¬ [']', q] <:+: v ++ target := by
    intro h0
    rcases pair_append h0 with h | h | ⟨h, _⟩
    · exact (ws_noPair hv).not hq h
    · rcases hq with rfl | rfl
      · exact hl.targetOk.2.2.2 h
      · exact hl.targetOk.2.2.1 (pair_mem h).2
    · exact ws_last hv h
  have hcl : c :: tail ≠ [] := by simp
  have hX : Sh q ((v ++ target) ++ (c :: tail ++ rest)) := by
    refine Sh.skip (Sh.skip (hr.sh hq) (htp q hq) fun h => hjoin _ h rfl) hvt ?_
    intro _ h
    simp at h
    subst h
    rcases hl.kind with ⟨_, rfl⟩ | ⟨_, rfl⟩ <;> rcases hq with hq | hq <;> exact absurd hq (by decide)
  have hname : Sh q (name ++ ']' :: o :: ((v ++ target) ++ (c :: tail ++ rest))) := by
    have hn : ¬ [']', q] <:+: name ++ [']'] := by
      intro h
      rcases pair_append h with h | h | ⟨_, h⟩
      · rcases hq with rfl | rfl
        · exact hl.nameOk.2.2 h
        · exact hl.nameOk.2.1 (pair_mem h).2
      · have := (pair_mem h).2
        simp at this
        subst this
        rcases hq with hq | hq <;> exact absurd hq (by decide)
      · simp at h
        subst h
        rcases hq with hq | hq <;> exact absurd hq (by decide)
    have e : name ++ ']' :: o :: ((v ++ target) ++ (c :: tail ++ rest)) =
        (name ++ [']']) ++ (o :: ((v ++ target) ++ (c :: tail ++ rest))) := by simp
    rw [e]
    refine Sh.skip ?_ hn (fun _ h => hqo (by simpa using h.symm))
    rcases hl.kind' with ho | ho
    · have := Sh.skip (w := [o]) hX (by intro h; have := (pair_mem h).1; simp at this; subst this; exact absurd ho (by decide))
        (by intro h; simp at h; subst h; exact absurd ho (by decide))
      simpa using this
    · subst ho
      exact Sh.cons _ _
  -- all places in the link
  intro a d b e
  by_cases hcase : ∃ a', tail = a' ++ d :: b
  · obtain ⟨a', e'⟩ := hcase
    exact htail a' d b e'
  · -- a place in front of the last bracket
    have e2 : a ++ d :: b = (pre ++ '[' :: (name ++ ']' :: o :: (v ++ target))) ++ (c :: tail) := by
      rw [← e]; simp [linkText]
    have hw : ∃ w, d :: b = w ++ c :: tail ∧ pre ++ '[' :: (name ++ ']' :: o :: (v ++ target)) = a ++ w := by
      rcases List.append_eq_append_iff.1 e2 with ⟨z, f1, f2⟩ | ⟨z, f1, f2⟩
      · exact ⟨z, f2, f1⟩
      · cases z with
        | nil => exact ⟨[], by simpa using f2.symm, by simpa using f1.symm⟩
        | cons x z =>
          exfalso
          exact hcase ⟨z, (List.cons.inj f2).2⟩
    obtain ⟨w, hw, ha⟩ := hw
    rw [hw, List.append_assoc]
    refine NoM.append hback ?_
    intro a' b' e'
    -- the bracket is one of those in front of the name, or the one around the target
    have e3 : pre ++ '[' :: (name ++ ']' :: o :: (v ++ target)) = (a ++ a') ++ '[' :: b' := by rw [ha, e']; simp
    rcases List.append_eq_append_iff.1 e3 with ⟨z, f1, f2⟩ | ⟨z, f1, f2⟩
    · cases z with
      | nil =>
        have := (List.cons.inj f2).2
        rw [← this]
        simpa using hname
      | cons x z =>
        simp only [List.cons_append, List.cons.injEq] at f2
        obtain ⟨rfl, f2⟩ := f2
        -- in the name or around the target
        have f3 : (name ++ [']']) ++ o :: (v ++ target) = z ++ '[' :: b' := by rw [← f2]; simp
        have hn : '[' ∉ name ++ [']'] := by
          intro h
          rcases List.mem_append.1 h with h | h
          · exact hl.nameOk.2.1 h
          · simp at h
        have hvt2 : '[' ∉ v ++ target := by
          intro h
          rcases List.mem_append.1 h with h | h
          · have := hv _ h; revert this; decide
          · exact hl.targetOk.2.2.1 h
        rcases List.append_eq_append_iff.1 f3 with ⟨y, g1, g2⟩ | ⟨y, g1, g2⟩
        · cases y with
          | nil =>
            have := (List.cons.inj g2).2
            rw [← this]
            simpa using hX
          | cons x' y =>
            exfalso
            simp only [List.cons_append, List.cons.injEq] at g2
            exact hvt2 (by rw [g2.2]; simp)
        · cases y with
          | nil =>
            have := (List.cons.inj g2).2
            rw [this]
            simpa using hX
          | cons x' y =>
            exfalso
            have := (List.cons.inj g2).1
            exact hn (by rw [g1, this]; simp)
    · cases z with
      | nil =>
        have := (List.cons.inj f2).2
        rw [this]
        simpa using hname
      | cons x z =>
        simp only [List.cons_append, List.cons.injEq] at f2
        obtain ⟨_, f2⟩ := f2
        rw [f2]
        have hz : ∀ y ∈ z, y ≠ ']' := fun y hy => (hl.preOk y (by rw [f1]; simp [hy])).2.1
        have e4 : (z ++ '[' :: (name ++ ']' :: o :: (v ++ target))) ++ (c :: tail ++ rest) =
          z ++ ('[' :: (name ++ ']' :: o :: (v ++ target)) ++ (c :: tail ++ rest)) := by simp
        rw [e4]
        refine Sh.skip (Sh.cons _ _) (fun h => hz _ (pair_mem h).1 rfl) (fun h => absurd rfl (hz _ (List.mem_of_getLast? h)))

/-- no link starts at the start of the text unless one of that kind does -/
theorem Linked.noM {k : Ctx} {n : Nat} {s : Str} {L : List (Char × Match)} {ts : List Tok} (h : Linked k n s L ts)
    (ht : '`' ∉ s) {q : Char} (hq : q = '(' ∨ q = '[') :
    (∀ m L', L = (q, m) :: L' → m.start ≠ n) → NoM q s := by
  induction h with
  | last hu h => exact fun _ => noM_last hq hu
  | @link k n u pre name v target tail rest o c ts ts2 L hu h hend hk hl hv hr ih =>
    intro hno
    cases hu0 : u with
    | cons d u' =>
      have := noM_front (t := v ++ target) (rest := rest) hq hu hend hl [] d u' (by simpa using hu0)
      simpa using this
    | nil =>
      subst hu0
      have hqo : q ≠ o := by
        rintro rfl
        exact hno _ L rfl (by simp)
      obtain ⟨d, b, hd, _⟩ := hl.starts (v ++ target)
      have := noM_other hq hqo hl hv hr (fun h => ht (by simp [h])) (ih (fun h => ht (by simp [h]))) [] d b (by simpa using hd)
      rw [hd]
      simpa using this

/-! ## The links that are found -/

theorem Linked.finds {k : Ctx} {n : Nat} {s : Str} {L : List (Char × Match)} {ts : List Tok} (h : Linked k n s L ts)
    (ht : '`' ∉ s) {q e : Char} (hq : (q = '(' ∧ e = ')') ∨ (q = '[' ∧ e = ']')) :
    ∀ {p : Str} {ms : List Match}, p.length = n → Rx.Finds (linkRx q e) p s ms →
      ms = (L.filter (·.1 == q)).map (·.2) := by
  have hq' : q = '(' ∨ q = '[' := by rcases hq with ⟨h, _⟩ | ⟨h, _⟩ <;> simp [h]
  induction h with
  | @last k n u ts hu h =>
    intro p ms _ hf
    cases hf with
    | done => rfl
    | step h1 h2 hne hs he hrest =>
      exfalso
      rename_i v rest' m ms
      rw [(noM_last hq' (hu.infix ⟨v, [], by simp⟩)).matchAt] at h2
      cases h2
  | @link k n u pre name v target tail rest o c ts ts2 L hu h hend hk hl hv hr ih =>
    intro p ms hn hf
    have htr : '`' ∉ rest := fun h => ht (by simp [h])
    have hf2 := hf.skip fun a d b hab => (noM_front hq' hu hend hl a d b hab).matchAt _
    by_cases hqo : q = o
    · subst hqo
      have hec : e = c := by
        rcases hq with ⟨h1, h2⟩ | ⟨h1, h2⟩ <;> rcases hl.kind with ⟨h3, h4⟩ | ⟨h3, h4⟩
        · rw [h2, h4]
        · rw [h1] at h3; exact absurd h3 (by decide)
        · rw [h1] at h3; exact absurd h3 (by decide)
        · rw [h2, h4]
      subst hec
      have hhead := hr.head htr
      have hhere : LinkHere q e pre name (v ++ target) tail rest := by
        refine ⟨hl.kind, ?_, ⟨hl.nameOk.1, hl.nameOk.2.1⟩, ⟨by simp [hl.targetOk.1], ?_⟩, ?_, ?_, ?_⟩
        · intro x hx
          obtain ⟨h1, h2, h3⟩ := hl.preOk x hx
          simp [h1, h2, h3]
        · intro h
          rcases List.mem_append.1 h with h | h
          · have h1 := hv _ h; rw [hl.closeWs] at h1; cases h1
          · exact hl.targetOk.2.1 h
        · intro x hx
          obtain ⟨h1, h2, h3⟩ := hl.tailOk x hx
          simp [h1, h2, h3]
        · intro x hx
          rcases hhead x hx with h1 | ⟨rfl, _⟩
          · simp [h1]
          · simp
        · intro a b ha hab
          cases a with
          | nil => exact absurd rfl ha
          | cons x a =>
            simp only [List.cons_append, List.cons.injEq] at hab
            obtain ⟨rfl, hab⟩ := hab
            rcases hl.kind with ⟨rfl, rfl⟩ | ⟨rfl, rfl⟩
            · have hX : Sh '(' (((v ++ target) ++ ')' :: tail) ++ rest) := by
                refine Sh.skip (hr.sh (.inl rfl)) ?_ ?_
                · intro h0
                  rcases pair_append h0 with h0 | h0 | ⟨_, h0⟩
                  · rcases pair_append h0 with h0 | h0 | ⟨h0, _⟩
                    · exact (ws_noPair hv).1 h0
                    · exact hl.targetOk.2.2.2 h0
                    · exact ws_last hv h0
                  · have := (pair_mem h0).2
                    simp at this
                    exact (hl.tailOk _ this).2.2 rfl
                  · simp at h0
                · intro _ h0
                  rcases hhead _ h0 with h1 | ⟨h1, _⟩
                  · revert h1; decide
                  · exact absurd h1 (by decide)
              have := hX a b (by rw [← hab]; simp)
              simp [this]
            · simp
      have hm := hhere.match (u.reverse ++ p)
      obtain ⟨ms', rfl, hf3⟩ := hf2.first hm rfl
      have := ih htr (by simp; omega) hf3
      subst this
      have hlen : (u.reverse ++ p).length = n + u.length := by simp; omega
      rw [hlen]
      simp
    · have hf3 := hf2.skip fun a d b hab =>
        (noM_other hq' hqo hl hv hr htr (hr.noM htr hq') a d b hab).matchAt _
      have := ih htr (by simp; omega) hf3
      subst this
      have : ¬ o = q := fun h => hqo h.symm
      simp [this]

theorem linkText_pos (o c : Char) (pre name target tail : Str) : 0 < (linkText o c pre name target tail).length := by
  simp [linkText]; omega

theorem Linked.sorted {k : Ctx} {n : Nat} {s : Str} {L : List (Char × Match)} {ts : List Tok} (h : Linked k n s L ts) :
    (L.map (·.2)).Pairwise (fun a b => a.stop ≤ b.start) ∧
      ∀ x ∈ L, n ≤ x.2.start ∧ x.2.start < x.2.stop ∧ (x.1 = '(' ∨ x.1 = '[') := by
  induction h with
  | last => simp
  | @link k n u pre name v target tail rest o c ts ts2 L hu h hend hk hl hv hr ih =>
    have hpos := linkText_pos o c pre name (v ++ target) tail
    refine ⟨?_, ?_⟩
    · simp only [List.map_cons, List.pairwise_cons]
      refine ⟨?_, ih.1⟩
      intro m hm
      obtain ⟨x, hx, rfl⟩ := List.mem_map.1 hm
      exact (ih.2 x hx).1
    · intro x hx
      rcases List.mem_cons.1 hx with rfl | hx
      · exact ⟨by simp, by simp only; omega, hl.kind'⟩
      · obtain ⟨h1, h2, h3⟩ := ih.2 x hx
        exact ⟨by omega, h2, h3⟩

theorem insertMatch_perm (m : Match) (xs : List Match) : (insertMatch m xs).Perm (m :: xs) := by
  induction xs with
  | nil => exact .refl _
  | cons x xs ih =>
    unfold insertMatch
    split
    · exact (List.Perm.cons x ih).trans (.swap m x xs)
    · exact .refl _

theorem sortMatches_perm (ms : List Match) : (sortMatches ms).Perm ms := by
  have : ∀ (ms acc : List Match), (ms.foldl (fun acc m => insertMatch m acc) acc).Perm (ms ++ acc) := by
    intro ms
    induction ms with
    | nil => exact fun acc => .refl _
    | cons m ms ih =>
      intro acc
      refine (ih (insertMatch m acc)).trans ?_
      refine ((insertMatch_perm m acc).append_left ms).trans ?_
      exact List.perm_middle
  simpa [sortMatches] using this ms []

/-- the links of a text are all found, in their order -/
theorem Linked.matches {k : Ctx} {s : Str} {L : List (Char × Match)} {ts : List Tok} (h : Linked k 0 s L ts) (ht : '`' ∉ s) :
    sortMatches (footnoteRx.finditer s ++ urlRx.finditer s) = L.map (·.2) := by
  have h1 := h.finds ht (q := '[') (e := ']') (.inr ⟨rfl, rfl⟩) (p := []) rfl
    (Rx.finditer_finds (r := footnoteRx) footnoteRx_nonEmpty s)
  have h2 := h.finds ht (q := '(') (e := ')') (.inl ⟨rfl, rfl⟩) (p := []) rfl
    (Rx.finditer_finds (r := urlRx) urlRx_nonEmpty s)
  obtain ⟨hs, hall⟩ := h.sorted
  have hperm : (footnoteRx.finditer s ++ urlRx.finditer s).Perm (L.map (·.2)) := by
    rw [h1, h2, ← List.map_append]
    refine List.Perm.map _ ?_
    have e : L.filter (·.1 == '(') = L.filter (fun x => !(x.1 == '[')) := by
      apply List.filter_congr
      intro x hx
      rcases (hall x hx).2.2 with h | h <;> simp [h]
    rw [e]
    exact List.filter_append_perm _ _
  refine List.Perm.eq_of_pairwise (le := fun a b : Match => a.stop ≤ b.start) ?_ ?_ hs ((sortMatches_perm _).trans hperm)
  · intro a b ha hb hab hba
    exfalso
    obtain ⟨x, hx, rfl⟩ := List.mem_map.1 hb
    have := (hall x hx).2.1
    have ha' := (hperm.mem_iff).1 ((sortMatches_perm _).mem_iff.1 ha)
    obtain ⟨y, hy, rfl⟩ := List.mem_map.1 ha'
    have := (hall y hy).2.1
    omega
  · apply sortMatches_pairwise
    · intro x hx
      obtain ⟨y, hy, rfl⟩ := List.mem_map.1 (hperm.mem_iff.1 hx)
      exact (hall y hy).2.1
    · refine (hperm.pairwise_iff ?_).2 (hs.imp .inl)
      intro a b h
      exact h.symm

/-! ## The tokens -/

/-- Text between links. -/
def NoLinks (s : Str) (ts : List Tok) : Prop := Bare s ts ∧ '`' ∉ s

/-- the end of `link_split` -/
def linkEnd (text : Str) (ls : Bool) (st : LinkSt) : Except Err Toks := do
  let t := st.toks
  let rest := text.drop st.lastEnd
  let (split, remaining) ← moveDot (startsSingleDot rest) t.split rest
  let t : Toks := { t with split := split }
  if !(strip remaining).isEmpty then
    .ok { split := t.split ++ [strip remaining],
          lead := t.lead ++ [if st.lastEnd == 0 then ls else startsWith remaining c!" "],
          eval := t.eval ++ [true] }
  else .ok t

theorem linkSplit_end (text : Str) (ls : Bool) : linkSplit text ls =
    (sortMatches (footnoteRx.finditer text ++ urlRx.finditer text)).foldlM (linkStep text ls)
      { toks := { split := [], lead := [], eval := [] }, lastEnd := 0 } >>= linkEnd text ls := rfl

/-- sets the gap of the first token -/
def regap (l : Bool) : List Tok → List Tok
  | [] => []
  | t :: ts => ⟨gapB l, t.text⟩ :: ts

theorem wordToks_ne {g : Gap} {pre : Str} (hp : ∀ x ∈ pre, isWs x = false) (y : Str) :
    ∃ w ws, splitWs (pre ++ '[' :: y) = w :: ws ∧ wordToks g (splitWs (pre ++ '[' :: y)) = ⟨g, w⟩ :: ws.map fun v => ⟨.space, v⟩ := by
  obtain ⟨n0, r, ws, _, e, _⟩ := link_words hp y
  exact ⟨_, ws, e, by rw [e]; rfl⟩

/-- the first part of a link is stripped -/
theorem Link.front_stripped {o c : Char} {pre name target tail : Str} (hl : Link o c pre name target tail) :
    Stripped (pre ++ '[' :: name) := by
  apply stripped_of_ends
  · cases hp : pre with
    | nil => exact ⟨'[', name, rfl, by decide⟩
    | cons d pre' => exact ⟨d, pre' ++ '[' :: name, rfl, (hl.preOk d (by rw [hp]; simp)).1⟩
  · obtain ⟨y, x, hx⟩ : ∃ y x, name = y ++ [x] := by
      rcases List.eq_nil_or_concat name with h0 | ⟨y, x, h0⟩
      · exact absurd h0 hl.nameOk.1
      · exact ⟨y, x, by rw [h0, List.concat_eq_append]⟩
    exact ⟨pre ++ '[' :: y, x, by rw [hx]; simp, hl.nameEnd x (by rw [hx]; simp)⟩

theorem Link.head_stripped {o c : Char} {pre name target tail : Str} (hl : Link o c pre name target tail) :
    Stripped (pre ++ '[' :: (name ++ [']', o])) := by
  apply stripped_of_ends
  · obtain ⟨d, r, hd, hd2⟩ := hl.front_stripped.starts
    have : pre ++ '[' :: (name ++ [']', o]) = (pre ++ '[' :: name) ++ [']', o] := by simp
    exact ⟨d, r ++ [']', o], by rw [this, hd]; rfl, hd2⟩
  · refine ⟨pre ++ '[' :: (name ++ [']']), o, by simp, ?_⟩
    rcases hl.kind' with rfl | rfl <;> decide

/-- a pair that occurs once only -/
theorem pair_once {a b : Char} {p q : Str} (hab : a ≠ b) (hp : ¬ [a, b] <:+: p) (hq : ¬ [a, b] <:+: q) :
    ∀ u v, p ++ [a, b] ++ q = u ++ [a, b] ++ v → u = p := by
  intro u v h
  rw [List.append_assoc, List.append_assoc] at h
  rcases List.append_eq_append_iff.1 h with ⟨z, e1, e2⟩ | ⟨z, e1, e2⟩
  · match z, e2 with
    | [], _ => simpa using e1
    | [x], e2 =>
      have h1 := (List.cons.inj (List.cons.inj e2).2).1
      exact absurd h1.symm hab
    | x :: y :: z, e2 =>
      simp only [List.cons_append, List.nil_append, List.cons.injEq] at e2
      exact absurd ⟨z, v, by rw [e2.2.2]; simp⟩ hq
  · match z, e2 with
    | [], _ => simpa using e1.symm
    | [x], e2 =>
      have h1 := (List.cons.inj (List.cons.inj e2).2).1
      exact absurd h1.symm hab
    | x :: y :: z, e2 =>
      simp only [List.cons_append, List.nil_append, List.cons.injEq] at e2
      obtain ⟨rfl, rfl, e2⟩ := e2
      exact absurd ⟨u, z, by rw [e1]; simp⟩ hp

theorem Link.front_noPair {o c : Char} {pre name target tail : Str} (hl : Link o c pre name target tail) :
    ∀ q, q = '(' ∨ q = '[' → ¬ [']', q] <:+: pre ++ '[' :: name := by
  have hpre : ']' ∉ pre := fun h => (hl.preOk _ h).2.1 rfl
  intro q hq h
  rcases pair_append h with h | h | ⟨h, _⟩
  · exact hpre (pair_mem h).1
  · have h : [']', q] <:+: ['['] ++ name := h
    rcases pair_append h with h | h | ⟨h, _⟩
    · have := (pair_mem h).1; simp at this
    · rcases hq with rfl | rfl
      · exact hl.nameOk.2.2 h
      · exact hl.nameOk.2.1 (pair_mem h).2
    · simp at h
  · exact hpre (List.mem_of_getLast? h)

theorem Link.parts {o c : Char} {pre name target tail v : Str} (hl : Link o c pre name target tail)
    (hv : ∀ x ∈ v, isWs x = true) : linkParts (linkText o c pre name (v ++ target) tail) =
      .ok (pre ++ '[' :: (name ++ [']', o]), target ++ c :: tail) := by
  have e : linkText o c pre name (v ++ target) tail = (pre ++ '[' :: name) ++ [']', o] ++ ((v ++ target) ++ c :: tail) := by
    simp [linkText]
  have hname := hl.front_noPair
  have htgt : ∀ q, q = '(' ∨ q = '[' → ¬ [']', q] <:+: (v ++ target) ++ c :: tail := by
    intro q hq h
    have hqt : q ∉ tail := by
      intro h
      obtain ⟨_, h1, h2⟩ := hl.tailOk q h
      rcases hq with rfl | rfl
      · exact h2 rfl
      · exact h1 rfl
    have hqc : q ≠ c := by
      rcases hl.kind with ⟨_, rfl⟩ | ⟨_, rfl⟩ <;> rcases hq with rfl | rfl <;> decide
    rcases pair_append h with h | h | ⟨_, h⟩
    · rcases pair_append h with h | h | ⟨h, _⟩
      · exact (ws_noPair hv).not hq h
      · rcases hq with rfl | rfl
        · exact hl.targetOk.2.2.2 h
        · exact hl.targetOk.2.2.1 (pair_mem h).2
      · exact ws_last hv h
    · rcases List.mem_cons.1 (pair_mem h).2 with h | h
      · exact hqc h
      · exact hqt h
    · simp at h; exact hqc h.symm
  have hone : ∀ q, q = '(' ∨ q = '[' → o = q →
      splitPair ']' q (linkText o c pre name (v ++ target) tail) = [pre ++ '[' :: name, (v ++ target) ++ c :: tail] := by
    rintro q hq rfl
    rw [e]
    refine splitPair_once _ _ (pair_once ?_ (hname _ hq) (htgt _ hq))
    rcases hq with rfl | rfl <;> decide
  have hs1 : strip (pre ++ '[' :: name) = pre ++ '[' :: name := hl.front_stripped.2
  have hs2 : strip ((v ++ target) ++ c :: tail) = target ++ c :: tail := by
    have : strip ((v ++ target) ++ c :: tail) = strip (target ++ c :: tail) := by
      unfold strip
      rw [List.append_assoc, lstrip_append_ws _ _ hv]
    rw [this]
    exact hl.target_stripped.2
  rcases hl.kind with ⟨rfl, rfl⟩ | ⟨rfl, rfl⟩
  · have h1 : isIn c!"](" (linkText '(' ')' pre name (v ++ target) tail) = true := (isIn_iff _ _).2 ⟨_, _, by rw [e, List.append_assoc]⟩
    unfold linkParts
    rw [if_pos h1, hone '(' (.inl rfl) rfl]
    simp only [hs1, hs2]
    simp
  · have h1 : ¬ isIn c!"](" (linkText '[' ']' pre name (v ++ target) tail) = true := by
      intro h
      obtain ⟨x, y, hxy⟩ := (isIn_iff _ _).1 h
      have h0 : c!"](" <:+: (pre ++ '[' :: name) ++ ([']', '['] ++ ((v ++ target) ++ ']' :: tail)) :=
        ⟨x, y, by rw [← List.append_assoc, ← e, hxy, List.append_assoc]⟩
      rcases pair_append h0 with h0 | h0 | ⟨_, h0⟩
      · exact hname _ (.inl rfl) h0
      · rcases pair_append h0 with h0 | h0 | ⟨h0, _⟩
        · have := (pair_mem h0).2; revert this; decide
        · exact htgt _ (.inl rfl) h0
        · simp at h0
      · simp at h0
    unfold linkParts
    rw [if_neg h1, hone '[' (.inr rfl) rfl]
    simp only [hs1, hs2]
    simp

theorem tag_append {a b : Str} (h : c!"<br" <:+: a ++ b) :
    c!"<br" <:+: a ∨ c!"<br" <:+: b ∨ ('<' ∈ a ∧ (b.head? = some 'b' ∨ b.head? = some 'r')) := by
  obtain ⟨x, y, hxy⟩ := h
  rw [List.append_assoc] at hxy
  rcases List.append_eq_append_iff.1 hxy with ⟨z, e1, e2⟩ | ⟨z, e1, e2⟩
  · cases z with
    | nil => exact .inr (.inl ⟨[], y, by simpa using e2⟩)
    | cons d z =>
      simp only [List.cons_append, List.cons.injEq] at e2
      obtain ⟨rfl, e2⟩ := e2
      have hm : '<' ∈ a := by rw [e1]; simp
      cases z with
      | nil =>
        right; right
        exact ⟨hm, .inl (by simp at e2; rw [← e2]; rfl)⟩
      | cons d z =>
        simp only [List.cons_append, List.cons.injEq] at e2
        obtain ⟨rfl, e2⟩ := e2
        cases z with
        | nil =>
          right; right
          exact ⟨hm, .inr (by simp at e2; rw [← e2]; rfl)⟩
        | cons d z =>
          simp only [List.cons_append, List.cons.injEq] at e2
          obtain ⟨rfl, e2⟩ := e2
          exact .inl ⟨x, z, by rw [e1]; simp⟩
  · exact .inr (.inl ⟨z, y, by rw [e2]; simp⟩)

theorem tag_mem {a : Str} (h : c!"<br" <:+: a) : '<' ∈ a := by
  obtain ⟨x, y, rfl⟩ := h
  simp

theorem Link.head_noBr {o c : Char} {pre name target tail : Str} (hl : Link o c pre name target tail) :
    ¬ c!"<br" <:+: pre ++ '[' :: (name ++ [']', o]) := by
  intro h
  have h : c!"<br" <:+: (pre ++ '[' :: name) ++ [']', o] := by simpa using h
  rcases tag_append h with h | h | ⟨_, h⟩
  · exact hl.noBr.1 h
  · have := tag_mem h
    rcases hl.kind' with rfl | rfl <;> revert this <;> decide
  · simp at h

/-- the tokens of the first part of a link -/
theorem Link.head_cov {o c : Char} {pre name target tail : Str} (hl : Link o c pre name target tail)
    (hsp : ∀ x ∈ name, isWs x = true → x = ' ') {l : Bool} {g : Gap} (hg : (g == .space) = l) :
    Cov NoLinks [(pre ++ '[' :: (name ++ [']', o]), l, true)] (wordToks g (splitWs (pre ++ '[' :: (name ++ [']', o])))) := by
  have hb := bare_words _ (pre ++ '[' :: (name ++ [']', o])) (Nat.le_refl _) hl.head_noBr
  have hgap : gapOf ((pre ++ '[' :: (name ++ [']', o])).takeWhile isWs) = .glue := by
    obtain ⟨d, r, hd, hd2⟩ := hl.head_stripped.starts
    rw [hd, List.takeWhile_cons, if_neg (by simp [hd2])]
    rfl
  rw [hgap] at hb
  have hp : ∀ x ∈ pre, isWs x = false := fun x hx => (hl.preOk x hx).1
  obtain ⟨w, ws, e1, _⟩ := wordToks_ne (g := .glue) hp (name ++ [']', o])
  rw [e1] at hb ⊢
  have ho : isWs o = false := by rcases hl.kind' with rfl | rfl <;> decide
  have hot : o ≠ '`' := by rcases hl.kind' with rfl | rfl <;> decide
  have h1 : NoLinks (pre ++ '[' :: (name ++ [']', o])) (⟨.glue, w⟩ :: ws.map fun v => ⟨.space, v⟩) := by
    refine ⟨hb, ?_⟩
    intro h
    have h0 := hl.noTick
    unfold linkText at h0
    simp only [List.mem_append, List.mem_cons] at h h0
    rcases h with h | h | h | h | h | h
    · exact h0 (.inl h)
    · exact absurd h (by decide)
    · exact h0 (.inr (.inr (.inl h)))
    · exact absurd h (by decide)
    · exact hot h.symm
    · cases h
  have := Cov.seg hg h1 hl.head_stripped (by
    intro x hx hw
    simp only [List.mem_append, List.mem_cons] at hx
    rcases hx with h | rfl | h | rfl | rfl | h
    · rw [hp x h] at hw; cases hw
    · exact absurd hw (by decide)
    · exact hsp x h hw
    · exact absurd hw (by decide)
    · rw [ho] at hw; cases hw
    · cases h) .nil
  simpa [wordToks] using this

theorem bare_cov {u : Str} {t : Tok} {ts : List Tok} {l : Bool} {g : Gap} (ht : '`' ∉ u) (h : Bare u (t :: ts))
    (hsp : ∀ c ∈ u, isWs c = true → c = ' ') (hg : (g == .space) = l) :
    strip u ≠ [] ∧ Cov NoLinks [(strip u, l, true)] (⟨g, t.text⟩ :: ts) := by
  refine ⟨h.ne_nil, ?_⟩
  have := Cov.seg hg (R := NoLinks) ⟨h.strip, fun h => ht (mem_of_mem_strip h)⟩ (Stripped.of_strip h.ne_nil)
    (fun c hc => hsp c (mem_of_mem_strip hc)) .nil
  simpa using this

/-- What `link_split` has done when it comes to a text. -/
inductive LinkFrom (ls : Bool) : Ctx → Nat → Str → LinkSt → (List Tok → List Tok) → Prop
  | first {s : Str} (hs : StartsNonWs s) (hd : startsSingleDot s = false) :
      LinkFrom ls .start 0 s { toks := { split := [], lead := [], eval := [] }, lastEnd := 0 } (regap ls)
  | next {o : Char} {tail : Str} {n : Nat} {s : Str} {st : LinkSt} (hn : 0 < n) (hl : st.lastEnd = n) (h1 : st.toks.lead ≠ [])
      (h2 : ∀ c, s.head? = some c → isWs c = true ∨ c = '[') : LinkFrom ls (.link o tail) n s st id

theorem LinkFrom.lastEnd {ls : Bool} {k : Ctx} {n : Nat} {s : Str} {st : LinkSt} {f : List Tok → List Tok}
    (h : LinkFrom ls k n s st f) : st.lastEnd = n := by
  cases h with
  | first => rfl
  | next hn hl => exact hl

/-- no period is moved -/
theorem LinkFrom.noDot {ls : Bool} {k : Ctx} {n : Nat} {u x : Str} {st : LinkSt} {f : List Tok → List Tok}
    (h : LinkFrom ls k n (u ++ x) st f) :
    (!st.toks.split.isEmpty && startsSingleDot u) = false ∧ (x = [] → startsSingleDot u = false) := by
  generalize hs : u ++ x = s at h
  cases h with
  | first h1 h2 => exact ⟨by simp, by rintro rfl; rw [List.append_nil] at hs; rw [hs]; exact h2⟩
  | next hn hl h1 h2 =>
    have : startsSingleDot u = false := by
      cases u with
      | nil => rfl
      | cons c u =>
        apply startsSingleDot_ne
        rintro rfl
        rcases h2 '.' (by rw [← hs]; rfl) with h | h <;> revert h <;> decide
    simp [this]

/-- the leading-space flag and the gap of the first token of text that is not a link -/
theorem LinkFrom.lead {ls : Bool} {k : Ctx} {n : Nat} {u x : Str} {st : LinkSt} {f : List Tok → List Tok} {t : Tok}
    {ts us : List Tok} (h : LinkFrom ls k n (u ++ x) st f) (hr : Runs k u (t :: ts))
    (ht : '`' ∉ u) (hp : NoPair u) (hsp : ∀ c ∈ u, isWs c = true → c = ' ') :
    ∃ g, f (t :: ts ++ us) = ⟨g, t.text⟩ :: (ts ++ us) ∧
      (g == .space) = (if st.toks.lead.isEmpty then ls else startsWith u c!" ") ∧
      (g == .space) = (if st.lastEnd == 0 then ls else startsWith u c!" ") := by
  have hne : u ≠ [] := by rintro rfl; exact hr.ne_nil rfl
  generalize hs : u ++ x = s at h
  cases h with
  | first h1 h2 => exact ⟨gapB ls, rfl, by simp [gapB_space], by simp [gapB_space]⟩
  | next hn hl h1 h2 =>
    have hg := (hr.bare ht hp).first_gap hsp
    refine ⟨t.gap, rfl, ?_, ?_⟩
    · rw [if_neg (by simpa using h1), hg]
      cases startsWith u c!" " <;> rfl
    · rw [if_neg (by simp [hl]; omega), hg]
      cases startsWith u c!" " <;> rfl

/-- the same for a link with nothing in front of it -/
theorem LinkFrom.leadLink {ls : Bool} {k : Ctx} {n : Nat} {u x w : Str} {st : LinkSt} {f : List Tok → List Tok}
    {ts us : List Tok} (h : LinkFrom ls k n (u ++ x) st f) (hr : Runs k u []) :
    ∃ g, f (⟨k.gap u, w⟩ :: ts ++ us) = ⟨g, w⟩ :: (ts ++ us) ∧
      (g == .space) = (if st.toks.lead.isEmpty then ls else false) := by
  generalize hs : u ++ x = s at h
  cases h with
  | first h1 h2 => exact ⟨gapB ls, rfl, by simp [gapB_space]⟩
  | next hn hl h1 h2 => exact ⟨.link, rfl, by rw [if_neg (by simpa using h1)]; rfl⟩

theorem linkRest {text : Str} {ls : Bool} {k : Ctx} {n : Nat} {s : Str} {L : List (Char × Match)} {ts : List Tok}
    (hc : Linked k n s L ts) : ∀ {p : Str} {st : LinkSt} {f : List Tok → List Tok}, p.length = n → text = p ++ s →
    LinkFrom ls k n s st f → '`' ∉ s → (∀ c ∈ s, isWs c = true → c = ' ') →
    ∃ ps, ((L.map (·.2)).foldlM (linkStep text ls) st >>= linkEnd text ls) = .ok (st.toks.add (toksOf ps)) ∧
      Cov NoLinks ps (f ts) := by
  induction hc with
  | @last k n u ts hu h =>
    intro p st f hn ht hat htk hsp
    have hat' : LinkFrom ls k n (u ++ []) st f := by simpa using hat
    have hdot := hat'.noDot.2 rfl
    have hdrop : text.drop st.lastEnd = u := by rw [hat.lastEnd, ht, ← hn]; simp
    have hmv : moveDot (startsSingleDot u) st.toks.split u = .ok (st.toks.split, u) := by simp [moveDot, hdot]
    cases ts with
    | nil =>
      have hbl : (strip u).isEmpty = true := by rw [strip_blank h]; rfl
      refine ⟨[], ?_, ?_⟩
      · simp only [List.map_nil, List.foldlM_nil, pure, Except.pure, bind, Except.bind, linkEnd, hdrop, hmv, hbl]
        simp [Toks.add, toksOf]
      · cases hat with
        | first => exact .nil
        | next => exact .nil
    | cons t ts =>
      obtain ⟨g, e1, _, e3⟩ := hat'.lead (us := []) h htk hu hsp
      obtain ⟨hne, hcov⟩ := bare_cov (l := if st.lastEnd == 0 then ls else startsWith u c!" ") htk (h.bare htk hu) hsp e3
      refine ⟨_, ?_, by rw [List.append_nil, List.append_nil] at e1; rw [e1]; exact hcov⟩
      have hbl : (strip u).isEmpty = false := by simpa using hne
      simp only [List.map_nil, List.foldlM_nil, pure, Except.pure, bind, Except.bind, linkEnd, hdrop, hmv, hbl]
      simp [Toks.add, toksOf]
  | @link k n u pre name v target tail rest o c ts ts2 L hu h hend hk hl hv hr ih =>
    intro p st f hn ht hat htk hsp
    have htr : '`' ∉ rest := fun h => htk (by simp [h])
    generalize hm : (⟨n + u.length, n + u.length + (linkText o c pre name (v ++ target) tail).length,
      linkText o c pre name (v ++ target) tail, []⟩ : Match) = m at *
    have hslice : slice text st.lastEnd m.start = u := by
      rw [hat.lastEnd, ← hm, ht, ← hn]
      have := slice_mid p u (linkText o c pre name (v ++ target) tail ++ rest)
      simpa using this
    have hparts : linkParts m.text = .ok (pre ++ '[' :: (name ++ [']', o]), target ++ c :: tail) := by
      rw [← hm]; exact hl.parts hv
    have hspn : ∀ x ∈ name, isWs x = true → x = ' ' := fun x hx => hsp x (by simp [linkText, hx])
    have hp : ∀ x ∈ pre, isWs x = false := fun x hx => (hl.preOk x hx).1
    have hstop : m.stop = (p ++ (u ++ linkText o c pre name (v ++ target) tail)).length := by
      rw [← hm, ← hn]; simp; omega
    have hpos := linkText_pos o c pre name (v ++ target) tail
    have next : ∀ st' : LinkSt, st'.lastEnd = m.stop → st'.toks.lead ≠ [] →
        ∃ ps, ((L.map (·.2)).foldlM (linkStep text ls) st' >>= linkEnd text ls) = .ok (st'.toks.add (toksOf ps)) ∧
          Cov NoLinks ps ts2 := by
      intro st' h1 h2
      refine ih (p := p ++ (u ++ linkText o c pre name (v ++ target) tail)) (f := id) ?_ ?_ ?_ htr ?_
      · simp; omega
      · rw [ht]; simp
      · refine .next (by omega) (by rw [h1, ← hm]) h2 ?_
        intro c hc
        rcases hr.head htr c hc with h | ⟨h, _⟩
        · exact .inl h
        · exact .inr h
      · exact fun c hc => hsp c (by simp [hc])
    simp only [List.map_cons, List.foldlM_cons]
    cases ts with
    | nil =>
      have hbl : (strip u).isEmpty = true := by rw [strip_blank h]; rfl
      obtain ⟨w, ws, e1, e2⟩ := wordToks_ne (g := k.gap u) hp (name ++ [']', o])
      obtain ⟨g, e3, e4⟩ := hat.leadLink (w := w) (ts := ws.map fun v => ⟨.space, v⟩)
        (us := ⟨.link, target ++ c :: tail⟩ :: ts2) h
      have hstep : linkStep text ls st m = .ok
          { toks := st.toks.add (toksOf [(pre ++ '[' :: (name ++ [']', o]), if st.toks.lead.isEmpty then ls else false, true),
              (target ++ c :: tail, false, false)]), lastEnd := m.stop } := by
        simp only [linkStep, hslice, hbl, hparts, bind, Except.bind]
        simp [Toks.add, toksOf]
      obtain ⟨qs, e5, e6⟩ := next
          { toks := st.toks.add (toksOf [(pre ++ '[' :: (name ++ [']', o]), if st.toks.lead.isEmpty then ls else false, true),
              (target ++ c :: tail, false, false)]), lastEnd := m.stop } rfl (by simp [Toks.add, toksOf])
      refine ⟨(pre ++ '[' :: (name ++ [']', o]), if st.toks.lead.isEmpty then ls else false, true) ::
        (target ++ c :: tail, false, false) :: qs, ?_, ?_⟩
      · rw [hstep]
        simp only [bind, Except.bind] at e5 ⊢
        rw [e5]
        simp [Toks.add, toksOf]
      · simp only [if_pos, List.nil_append]
        rw [e2, e3]
        have h1 := hl.head_cov hspn e4
        rw [e1] at h1
        have := h1.append (Cov.fixed (R := NoLinks) (s := target ++ c :: tail) (g := .link) (l := false) rfl e6)
        simpa [wordToks] using this
    | cons t ts =>
      have hu0 : u ≠ [] := by rintro rfl; exact h.ne_nil rfl
      have hlast : u.getLast? = some ' ' := hend.resolve_left hu0
      have htu : '`' ∉ u := fun h => htk (by simp [h])
      have hspu : ∀ c ∈ u, isWs c = true → c = ' ' := fun c hc => hsp c (by simp [hc])
      have hbefore : (text[m.start - 1]? == some ' ') = true := by
        obtain ⟨y, hy⟩ := List.getLast?_eq_some_iff.1 hlast
        have : m.start - 1 = (p ++ y).length := by rw [← hm, ← hn, hy]; simp
        rw [this, ht, hy, show p ++ ((y ++ [' ']) ++ (linkText o c pre name (v ++ target) tail ++ rest)) =
          (p ++ y) ++ ' ' :: (linkText o c pre name (v ++ target) tail ++ rest) by simp]
        simp
      obtain ⟨g, e1, e2, _⟩ := hat.lead (us := wordToks .space (splitWs (pre ++ '[' :: (name ++ [']', o]))) ++
          ⟨.link, target ++ c :: tail⟩ :: ts2) h htu hu hspu
      obtain ⟨hne, hcov⟩ := bare_cov htu (h.bare htu hu) hspu e2
      have hbl : (strip u).isEmpty = false := by simpa using hne
      have hdot : (!st.toks.split.isEmpty && startsSingleDot u) = false := hat.noDot.1
      have hmv : moveDot (!st.toks.split.isEmpty && startsSingleDot u) st.toks.split u = .ok (st.toks.split, u) := by
        simp [moveDot, hdot]
      have hstep : linkStep text ls st m = .ok
          { toks := st.toks.add (toksOf [(strip u, if st.toks.lead.isEmpty then ls else startsWith u c!" ", true),
              (pre ++ '[' :: (name ++ [']', o]), true, true), (target ++ c :: tail, false, false)]), lastEnd := m.stop } := by
        simp only [linkStep, hslice, hbl, hparts, bind, Except.bind, hmv, hbefore]
        simp [Toks.add, toksOf]
      obtain ⟨qs, e5, e6⟩ := next
          { toks := st.toks.add (toksOf [(strip u, if st.toks.lead.isEmpty then ls else startsWith u c!" ", true),
              (pre ++ '[' :: (name ++ [']', o]), true, true), (target ++ c :: tail, false, false)]), lastEnd := m.stop }
          rfl (by simp [Toks.add, toksOf])
      refine ⟨(strip u, if st.toks.lead.isEmpty then ls else startsWith u c!" ", true) ::
        (pre ++ '[' :: (name ++ [']', o]), true, true) :: (target ++ c :: tail, false, false) :: qs, ?_, ?_⟩
      · rw [hstep]
        simp only [bind, Except.bind] at e5 ⊢
        rw [e5]
        simp [Toks.add, toksOf]
      · rw [if_neg (show ¬ t :: ts = [] by simp), e1]
        have h1 := hl.head_cov hspn (l := true) (g := .space) rfl
        have := hcov.append (h1.append (Cov.fixed (R := NoLinks) (s := target ++ c :: tail) (g := .link) (l := false) rfl e6))
        simpa using this

theorem linkSplit_cov {s t : Str} {l : Bool} {ts : List Tok} (hq : NoCode s (⟨.glue, t⟩ :: ts))
    (hs : Stripped s) (hsp : ∀ c ∈ s, isWs c = true → c = ' ') :
    ∃ qs, linkSplit s l = .ok (toksOf qs) ∧ Cov NoLinks qs (⟨gapB l, t⟩ :: ts) := by
  obtain ⟨hr, htk, hd⟩ := hq
  obtain ⟨L, hL⟩ := hr.linked htk hsp 0
  obtain ⟨ps, h1, h2⟩ := linkRest (text := s) (ls := l) hL (p := []) rfl rfl (.first hs.starts hd) htk hsp
  refine ⟨ps, ?_, h2⟩
  rw [linkSplit_end, hL.matches htk, h1]
  simp [Toks.add]

end MF
