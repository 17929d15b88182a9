import Verif.Lemmas.WrapLines
/-!
# Texts whose links do not get in each other's way
-/

namespace MF

/-- the two parts of a link meet at position `i`; the second part is closed by `c` -/
def SepAt (text : Str) (i : Nat) (c : Char) : Prop :=
  text[i]? = some ']' ∧ (text[i + 1]? = some '(' ∧ c = ')' ∨ text[i + 1]? = some '[' ∧ c = ']')

/-- Between two places where the parts of a link meet, the first link is closed and the second one opened after that;
if one is an inline link and the other a reference, there is whitespace in between. -/
def LinksApart (text : Str) : Prop :=
  ∀ i j c d, i < j → SepAt text i c → SepAt text j d →
    ∃ k o, i + 1 < k ∧ k < o ∧ o < j ∧ text[k]? = some c ∧ text[o]? = some '[' ∧
      (c ≠ d → ∃ w x, k < w ∧ w < o ∧ text[w]? = some x ∧ isWs x = true)

theorem SepAt.infix {a s b : Str} {i : Nat} {c : Char} (h : SepAt s i c) : SepAt (a ++ (s ++ b)) (a.length + i) c := by
  obtain ⟨h1, h2⟩ := h
  have hg : ∀ j x, s[j]? = some x → (a ++ (s ++ b))[a.length + j]? = some x := by
    intro j x hj
    rw [List.getElem?_append_right (by omega), Nat.add_sub_cancel_left,
      List.getElem?_append_left (by
        cases Nat.lt_or_ge j s.length with
        | inl h => exact h
        | inr h => rw [List.getElem?_eq_none h] at hj; cases hj)]
    exact hj
  refine ⟨hg _ _ h1, ?_⟩
  rcases h2 with ⟨h2, hc⟩ | ⟨h2, hc⟩
  · exact .inl ⟨hg _ _ h2, hc⟩
  · exact .inr ⟨hg _ _ h2, hc⟩

theorem getElem?_mid {a s b : Str} {k : Nat} (h1 : a.length ≤ k) (h2 : k < a.length + s.length) :
    (a ++ (s ++ b))[k]? = s[k - a.length]? := by
  rw [List.getElem?_append_right h1, List.getElem?_append_left (by omega)]

theorem SepAt.lt {text : Str} {i : Nat} {c : Char} (h : SepAt text i c) : i + 1 < text.length := by
  have : ∀ x, text[i + 1]? = some x → i + 1 < text.length := fun x hx => by
    cases Nat.lt_or_ge (i + 1) text.length with
    | inl h => exact h
    | inr h => rw [List.getElem?_eq_none h] at hx; cases hx
  rcases h.2 with ⟨h, _⟩ | ⟨h, _⟩ <;> exact this _ h

theorem LinksApart.infix {text s : Str} (h : LinksApart text) (hi : s <:+: text) : LinksApart s := by
  obtain ⟨a, b, hab⟩ := hi
  have ht : text = a ++ (s ++ b) := by rw [← hab]; simp
  intro i j c d hij h1 h2
  have hj := h2.lt
  obtain ⟨k, o, e1, e2, e3, e4, e5, e6⟩ := h (a.length + i) (a.length + j) c d (by omega) (ht ▸ h1.infix) (ht ▸ h2.infix)
  rw [ht] at e4 e5 e6
  refine ⟨k - a.length, o - a.length, by omega, by omega, by omega, ?_, ?_, ?_⟩
  · rw [← getElem?_mid (b := b) (by omega) (by omega)]; exact e4
  · rw [← getElem?_mid (b := b) (by omega) (by omega)]; exact e5
  · intro hcd
    obtain ⟨w, x, f1, f2, f3, f4⟩ := e6 hcd
    exact ⟨w - a.length, x, by omega, by omega, by
      rw [← getElem?_mid (b := b) (by omega) (by omega)]; exact f3, f4⟩

/-- a link found in the text, by positions: it starts at `a`, its bracket is at `p`, its parts meet at `s`, it is
closed at `e` by `c`, and what is taken with it ends at `z` -/
structure LinkAt (text : Str) (a p s e z : Nat) (c : Char) : Prop where
  order : a ≤ p ∧ p < s ∧ s + 1 < e ∧ e < z
  before : ∀ k x, a ≤ k → k < p → text[k]? = some x → isWs x = false ∧ x ≠ ']' ∧ x ≠ ')'
  name : ∀ k, p < k → k < s → text[k]? ≠ some '['
  sep : SepAt text s c
  target : ∀ k, s + 1 < k → k < e → text[k]? ≠ some c
  after : ∀ k x, e < k → k < z → text[k]? = some x → isWs x = false ∧ x ≠ '['

theorem LinkAt.apart {text : Str} (h : LinksApart text) {a p s e z a' p' s' e' z' : Nat} {c c' : Char}
    (h1 : LinkAt text a p s e z c) (h2 : LinkAt text a' p' s' e' z' c') (hs : s < s') (hc : c ≠ c') : z ≤ a' := by
  obtain ⟨k, o, e1, e2, e3, e4, e5, e6⟩ := h s s' c c' hs h1.sep h2.sep
  obtain ⟨w, x, f1, f2, f3, f4⟩ := e6 hc
  have hk : e ≤ k := by
    cases Nat.lt_or_ge k e with
    | inl hlt => exact absurd e4 (h1.target k e1 hlt)
    | inr hge => exact hge
  have hz : z ≤ w := by
    cases Nat.lt_or_ge w z with
    | inl hlt =>
      have := (h1.after w x (by omega) hlt f3).1
      rw [f4] at this; cases this
    | inr hge => exact hge
  have hp : o ≤ p' := by
    cases Nat.lt_or_ge p' o with
    | inl hlt => exact absurd e5 (h2.name o hlt e3)
    | inr hge => exact hge
  have ha : w < a' := by
    cases Nat.lt_or_ge w a' with
    | inl hlt => exact hlt
    | inr hge =>
      have := (h2.before w x hge (by omega) f3).1
      rw [f4] at this; cases this
  omega

/-- a link holds no other place where link parts meet -/
theorem LinkAt.only {text : Str} (h : LinksApart text) {a p s e z s' : Nat} {c c' : Char}
    (h1 : LinkAt text a p s e z c) (h2 : SepAt text s' c') (ha : a ≤ s') (hz : s' < z) : s' = s := by
  rcases Nat.lt_trichotomy s' s with hlt | heq | hgt
  · exfalso
    obtain ⟨k, o, e1, e2, e3, e4, e5, e6⟩ := h s' s c' c hlt h2 h1.sep
    have hp : o ≤ p := by
      cases Nat.lt_or_ge p o with
      | inl hlt => exact absurd e5 (h1.name o hlt e3)
      | inr hge => exact hge
    have := h1.before k c' (by omega) (by omega) e4
    rcases h2.2 with ⟨_, hc⟩ | ⟨_, hc⟩
    · exact this.2.2 hc
    · exact this.2.1 hc
  · exact heq
  · exfalso
    obtain ⟨k, o, e1, e2, e3, e4, e5, e6⟩ := h s s' c c' hgt h1.sep h2
    have hk : e ≤ k := by
      cases Nat.lt_or_ge k e with
      | inl hlt => exact absurd e4 (h1.target k e1 hlt)
      | inr hge => exact hge
    exact (h1.after o '[' (by omega) (by omega) e5).2 rfl

theorem LinkAt.shift {t u v : Str} {a p s e z : Nat} {c : Char} (h : LinkAt t a p s e z c) (hz : z ≤ t.length) :
    LinkAt (u ++ (t ++ v)) (u.length + a) (u.length + p) (u.length + s) (u.length + e) (u.length + z) c := by
  have ho := h.order
  have hm : ∀ k, u.length ≤ k → k < u.length + z → (u ++ (t ++ v))[k]? = t[k - u.length]? :=
    fun k h1 h2 => getElem?_mid h1 (by omega)
  refine ⟨by omega, ?_, ?_, h.sep.infix, ?_, ?_⟩
  · intro k x h1 h2 hx
    rw [hm k (by omega) (by omega)] at hx
    exact h.before _ x (by omega) (by omega) hx
  · intro k h1 h2
    rw [hm k (by omega) (by omega)]
    exact h.name _ (by omega) (by omega)
  · intro k h1 h2
    rw [hm k (by omega) (by omega)]
    exact h.target _ (by omega) (by omega)
  · intro k x h1 h2 hx
    rw [hm k (by omega) (by omega)] at hx
    exact h.after _ x (by omega) (by omega) hx

/-- the shape of the two link regexes: `o` opens the second part, `c` closes it -/
theorem linkAt_parts {pre name target tail : Str} {o c : Char} (ho : o = '(' ∧ c = ')' ∨ o = '[' ∧ c = ']')
    (h1 : ∀ x ∈ pre, (!isWs x && x != ']' && x != ')') = true) (h2 : ∀ x ∈ name, (x != '[') = true)
    (h3 : ∀ x ∈ target, (x != c) = true) (h4 : ∀ x ∈ tail, (!isWs x && x != '[' && x != '(') = true)
    (hn : 1 ≤ name.length) (ht : 1 ≤ target.length) :
    ∃ p s e, LinkAt (pre ++ '[' :: (name ++ ']' :: o :: (target ++ c :: tail))) 0 p s e
      (pre ++ '[' :: (name ++ ']' :: o :: (target ++ c :: tail))).length c := by
  have mem : ∀ (l : Str) (k : Nat) (x : Char), l[k]? = some x → x ∈ l := fun l k x h => List.mem_of_getElem? h
  refine ⟨pre.length, pre.length + 1 + name.length, pre.length + 3 + name.length + target.length, ?_⟩
  have g : ∀ k, (pre ++ '[' :: (name ++ ']' :: o :: (target ++ c :: tail)))[k]? =
      if k < pre.length then pre[k]? else if k = pre.length then some '['
      else if k < pre.length + 1 + name.length then name[k - (pre.length + 1)]?
      else if k = pre.length + 1 + name.length then some ']'
      else if k = pre.length + 2 + name.length then some o
      else if k < pre.length + 3 + name.length + target.length then target[k - (pre.length + 3 + name.length)]?
      else if k = pre.length + 3 + name.length + target.length then some c
      else tail[k - (pre.length + 4 + name.length + target.length)]? := by
    intro k
    split
    · rw [List.getElem?_append_left (by assumption)]
    · rw [List.getElem?_append_right (by omega)]
      split
      · rename_i h; rw [h, Nat.sub_self]; rfl
      · obtain ⟨i, hi⟩ : ∃ i, k - pre.length = i + 1 := ⟨k - pre.length - 1, by omega⟩
        rw [hi, List.getElem?_cons_succ]
        split
        · rw [List.getElem?_append_left (by omega)]; congr 1; omega
        · rw [List.getElem?_append_right (by omega)]
          split
          · rw [show i - name.length = 0 by omega]; rfl
          · split
            · rw [show i - name.length = 1 by omega]; rfl
            · obtain ⟨j, hj⟩ : ∃ j, i - name.length = j + 2 := ⟨i - name.length - 2, by omega⟩
              rw [hj]
              simp only [List.getElem?_cons_succ]
              split
              · rw [List.getElem?_append_left (by omega)]; congr 1; omega
              · rw [List.getElem?_append_right (by omega)]
                split
                · rw [show j - target.length = 0 by omega]; rfl
                · obtain ⟨l, hl⟩ : ∃ l, j - target.length = l + 1 := ⟨j - target.length - 1, by omega⟩
                  rw [hl, List.getElem?_cons_succ]; congr 1; omega
  refine ⟨?_, ?_, ?_, ?_, ?_, ?_⟩
  · simp; omega
  · intro k x _ hk hx
    rw [g, if_pos hk] at hx
    have := h1 x (mem _ _ _ hx)
    simpa [and_assoc] using this
  · intro k hk1 hk2 hx
    rw [g, if_neg (by omega), if_neg (by omega), if_pos hk2] at hx
    simpa using h2 _ (mem _ _ _ hx)
  · constructor
    · rw [g, if_neg (by omega), if_neg (by omega), if_neg (by omega), if_pos rfl]
    · rw [g, if_neg (by omega), if_neg (by omega), if_neg (by omega), if_neg (by omega), if_pos (by omega)]
      rcases ho with ⟨rfl, rfl⟩ | ⟨rfl, rfl⟩ <;> simp
  · intro k hk1 hk2 hx
    rw [g, if_neg (by omega), if_neg (by omega), if_neg (by omega), if_neg (by omega), if_neg (by omega),
      if_pos hk2] at hx
    simpa using h3 _ (mem _ _ _ hx)
  · intro k x hk1 hk2 hx
    rw [g, if_neg (by omega), if_neg (by omega), if_neg (by omega), if_neg (by omega), if_neg (by omega),
      if_neg (by omega), if_neg (by omega)] at hx
    have := h4 x (mem _ _ _ hx)
    simp only [Bool.and_eq_true, Bool.not_eq_true', bne_iff_ne, ne_eq] at this
    exact ⟨this.1.1, this.1.2⟩

theorem link_parts {pre post : Str} {m : Match} {c : Char}
    (h : urlRx.matchAt pre post = some m ∧ c = ')' ∨ footnoteRx.matchAt pre post = some m ∧ c = ']') :
    ∃ p s e, LinkAt m.text 0 p s e m.text.length c := by
  rcases h with ⟨h, rfl⟩ | ⟨h, rfl⟩
  · obtain ⟨st', hs, hc⟩ := consumes_text h
    obtain ⟨s1, h1, s2, h2, s3, h3, s4, h4, s5, h5, s6, h6, s7, h7, h8⟩ := hs
    obtain ⟨u1, c1, a1, _⟩ := repStep_chr h1
    obtain ⟨x2, a2, c2⟩ := chrStep_consumes h2
    obtain ⟨u3, c3, a3, n3, _⟩ := repStep_chr h3
    obtain ⟨x4, a4, c4⟩ := chrStep_consumes h4
    obtain ⟨x5, a5, c5⟩ := chrStep_consumes h5
    obtain ⟨u6, c6, a6, n6, _⟩ := repStep_chr h6
    obtain ⟨x7, a7, c7⟩ := chrStep_consumes h7
    obtain ⟨u8, c8, a8, _⟩ := repStep_chr h8
    have := consumes_unique hc (c1.trans (c2.trans (c3.trans (c4.trans (c5.trans (c6.trans (c7.trans c8)))))))
    simp only [beq_iff_eq] at a2 a4 a5 a7
    subst a2 a4 a5 a7
    rw [this]
    exact linkAt_parts (o := '(') (c := ')') (.inl ⟨rfl, rfl⟩) a1 a3 a6 a8 n3 n6
  · obtain ⟨st', hs, hc⟩ := consumes_text h
    obtain ⟨s1, h1, s2, h2, s3, h3, s4, h4, s5, h5, s6, h6, s7, h7, h8⟩ := hs
    obtain ⟨u1, c1, a1, _⟩ := repStep_chr h1
    obtain ⟨x2, a2, c2⟩ := chrStep_consumes h2
    obtain ⟨u3, c3, a3, n3, _⟩ := repStep_chr h3
    obtain ⟨x4, a4, c4⟩ := chrStep_consumes h4
    obtain ⟨x5, a5, c5⟩ := chrStep_consumes h5
    obtain ⟨u6, c6, a6, n6, _⟩ := repStep_chr h6
    obtain ⟨x7, a7, c7⟩ := chrStep_consumes h7
    obtain ⟨u8, c8, a8, _⟩ := repStep_chr h8
    have := consumes_unique hc (c1.trans (c2.trans (c3.trans (c4.trans (c5.trans (c6.trans (c7.trans c8)))))))
    simp only [beq_iff_eq] at a2 a4 a5 a7
    subst a2 a4 a5 a7
    rw [this]
    exact linkAt_parts (o := '[') (c := ']') (.inr ⟨rfl, rfl⟩) a1 a3 a6 a8 n3 n6

theorem slice_split {text : Str} {a b : Nat} (hab : a ≤ b) :
    text = text.take a ++ (slice text a b ++ text.drop b) := by
  rw [← List.append_assoc, ← take_slice text hab, List.take_append_drop]

/-- every link found, by its positions in the text -/
theorem linkAt_of_match {text : Str} {m : Match} {c : Char} (hb : m.start < m.stop ∧ m.stop ≤ text.length ∧
    m.text = slice text m.start m.stop) {pre post : Str}
    (h : urlRx.matchAt pre post = some m ∧ c = ')' ∨ footnoteRx.matchAt pre post = some m ∧ c = ']') :
    ∃ p s e, LinkAt text m.start p s e m.stop c := by
  obtain ⟨p, s, e, hl⟩ := link_parts h
  have hsp := slice_split (text := text) (a := m.start) (b := m.stop) (by omega)
  rw [← hb.2.2] at hsp
  have hl' := hl.shift (u := text.take m.start) (v := text.drop m.stop) (Nat.le_refl _)
  rw [← hsp] at hl'
  have h1 : (text.take m.start).length = m.start := by simp; omega
  have h2 : m.text.length = m.stop - m.start := by
    rw [hb.2.2]; unfold slice; simp; omega
  rw [h1, h2, show m.start + (m.stop - m.start) = m.stop by omega] at hl'
  exact ⟨_, _, _, hl'⟩

/-! ## Splitting a link -/

theorem splitPair_none {a b : Char} {g : Str} (h : isIn [a, b] g = false) : splitPair a b g = [g] := by
  induction g with
  | nil => rfl
  | cons x g ih =>
    cases g with
    | nil => rfl
    | cons y g =>
      unfold isIn at h
      simp only [Bool.or_eq_false_iff] at h
      rw [splitPair]
      have hne : (x == a && y == b) = false := by
        cases hh : (x == a && y == b) with
        | false => rfl
        | true =>
          simp only [Bool.and_eq_true, beq_iff_eq] at hh
          have := h.1
          simp [hh.1, hh.2] at this
      rw [hne]
      simp only [Bool.false_eq_true, if_false]
      rw [ih h.2]; rfl

theorem splitPair_once {a b : Char} (p q : Str) (hp : ∀ u v, p ++ [a, b] ++ q = u ++ [a, b] ++ v → u = p) :
    splitPair a b (p ++ [a, b] ++ q) = [p, q] := by
  induction p with
  | nil =>
    simp only [List.nil_append, List.cons_append, splitPair, beq_self_eq_true, Bool.and_self, if_true]
    rw [splitPair_none]
    cases hi : isIn [a, b] q with
    | false => rfl
    | true =>
      obtain ⟨u, v, rfl⟩ := (isIn_iff _ _).1 hi
      have := hp ([a, b] ++ u) v (by simp)
      simp at this
  | cons x p ih =>
    have ih := ih (fun u v h => by
      have := hp (x :: u) v (by simpa using h)
      simpa using this)
    obtain ⟨y, r, hy⟩ : ∃ y r, p ++ [a, b] ++ q = y :: r := by
      cases p with
      | nil => exact ⟨a, b :: q, rfl⟩
      | cons z p => exact ⟨z, p ++ [a, b] ++ q, rfl⟩
    rw [List.cons_append, List.cons_append, hy, splitPair, ← hy]
    have hne : (x == a && y == b) = false := by
      cases hh : (x == a && y == b) with
      | false => rfl
      | true =>
        simp only [Bool.and_eq_true, beq_iff_eq] at hh
        have := hp [] r (by rw [List.cons_append, List.cons_append, hy, hh.1, hh.2]; rfl)
        simp at this
    rw [hne]
    simp only [Bool.false_eq_true, if_false]
    rw [ih]; rfl

theorem sepAt_of_split {g u v : Str} {o c : Char} (ho : o = '(' ∧ c = ')' ∨ o = '[' ∧ c = ']')
    (h : g = u ++ [']', o] ++ v) : SepAt g u.length c := by
  subst h
  constructor
  · simp
  · have : (u ++ [']', o] ++ v)[u.length + 1]? = some o := by simp
    rw [this]
    rcases ho with ⟨rfl, rfl⟩ | ⟨rfl, rfl⟩ <;> simp

theorem split_of_sepAt {g : Str} {i : Nat} {c : Char} (h : SepAt g i c) :
    ∃ o u v, (o = '(' ∧ c = ')' ∨ o = '[' ∧ c = ']') ∧ g = u ++ [']', o] ++ v ∧ u.length = i := by
  have hl := h.lt
  obtain ⟨h1, h2⟩ := h
  have hg : ∀ o, g[i + 1]? = some o → g = g.take i ++ [']', o] ++ g.drop (i + 2) := by
    intro o ho
    have e1 : g.drop i = ']' :: g.drop (i + 1) := by
      rw [List.getElem?_eq_getElem (by omega)] at h1
      rw [List.drop_eq_getElem_cons (by omega)]
      simp at h1; rw [h1]
    have e2 : g.drop (i + 1) = o :: g.drop (i + 2) := by
      rw [List.getElem?_eq_getElem (by omega)] at ho
      rw [List.drop_eq_getElem_cons (by omega)]
      simp at ho; rw [ho]
    conv => lhs; rw [← List.take_append_drop i g, e1, e2]
    simp
  rcases h2 with ⟨h2, hc⟩ | ⟨h2, hc⟩
  · exact ⟨'(', _, _, .inl ⟨rfl, hc⟩, hg _ h2, by simp; omega⟩
  · exact ⟨'[', _, _, .inr ⟨rfl, hc⟩, hg _ h2, by simp; omega⟩

theorem oneSep_of_only {g : Str} {s : Nat} {c : Char} (h : SepAt g s c) (hu : ∀ s' c', SepAt g s' c' → s' = s) :
    OneSep g := by
  obtain ⟨o, u, v, ho, hg, hl⟩ := split_of_sepAt h
  have hone : splitPair ']' o g = [u, v] := by
    rw [hg]
    apply splitPair_once
    intro u' v' hh
    have h' := hu _ _ (sepAt_of_split ho (hg.trans hh))
    rw [List.append_assoc, List.append_assoc] at hh
    exact (List.append_inj hh (by omega)).1.symm
  rcases ho with ⟨rfl, rfl⟩ | ⟨rfl, rfl⟩
  · exact .inl ⟨u, v, hone⟩
  · refine .inr ⟨?_, u, v, hone⟩
    cases hi : isIn c!"](" g with
    | false => rfl
    | true =>
      exfalso
      obtain ⟨a, b, hab⟩ := (isIn_iff _ _).1 hi
      have h1 := sepAt_of_split (g := g) (o := '(') (c := ')') (.inl ⟨rfl, rfl⟩) (u := a) (v := b) (by rw [hab]; simp)
      have := hu _ _ h1
      rw [this] at h1
      rcases h1.2 with ⟨h2, _⟩ | ⟨_, h2⟩
      · rcases h.2 with ⟨_, h3⟩ | ⟨h3, _⟩
        · cases h3
        · rw [h2] at h3; cases h3
      · cases h2

/-! ## Sorting -/

theorem insertMatch_pairwise {m : Match} {xs : List Match} (hx : xs.Pairwise (fun a b => a.stop ≤ b.start))
    (hne : ∀ x ∈ xs, x.start < x.stop) (hm : m.start < m.stop)
    (hd : ∀ x ∈ xs, x.stop ≤ m.start ∨ m.stop ≤ x.start) :
    (insertMatch m xs).Pairwise (fun a b => a.stop ≤ b.start) := by
  induction xs with
  | nil => exact List.pairwise_singleton _ _
  | cons x xs ih =>
    rw [List.pairwise_cons] at hx
    have hx0 := hne x (by simp)
    have hd0 := hd x (by simp)
    unfold insertMatch
    split
    · rw [List.pairwise_cons]
      refine ⟨?_, ih hx.2 (fun y hy => hne y (by simp [hy])) (fun y hy => hd y (by simp [hy]))⟩
      intro y hy
      rcases mem_insertMatch.1 hy with rfl | hy
      · omega
      · exact hx.1 y hy
    · rw [List.pairwise_cons]
      refine ⟨?_, List.pairwise_cons.2 hx⟩
      intro y hy
      rcases List.mem_cons.1 hy with rfl | hy
      · omega
      · have := hx.1 y hy
        omega

theorem sortMatches_pairwise {ms : List Match} (hne : ∀ x ∈ ms, x.start < x.stop)
    (hd : ms.Pairwise (fun a b => a.stop ≤ b.start ∨ b.stop ≤ a.start)) :
    (sortMatches ms).Pairwise (fun a b => a.stop ≤ b.start) := by
  have : ∀ (ms acc : List Match), (∀ x ∈ ms, x.start < x.stop) → (∀ x ∈ acc, x.start < x.stop) →
      ms.Pairwise (fun a b => a.stop ≤ b.start ∨ b.stop ≤ a.start) →
      acc.Pairwise (fun a b => a.stop ≤ b.start) →
      (∀ a ∈ acc, ∀ b ∈ ms, a.stop ≤ b.start ∨ b.stop ≤ a.start) →
      (ms.foldl (fun acc m => insertMatch m acc) acc).Pairwise (fun a b => a.stop ≤ b.start) := by
    intro ms
    induction ms with
    | nil => intro acc _ _ _ h _; exact h
    | cons m ms ih =>
      intro acc h1 h2 h3 h4 h5
      rw [List.pairwise_cons] at h3
      rw [List.foldl_cons]
      apply ih
      · exact fun x hx => h1 x (by simp [hx])
      · intro x hx
        rcases mem_insertMatch.1 hx with rfl | hx
        · exact h1 _ (by simp)
        · exact h2 x hx
      · exact h3.2
      · exact insertMatch_pairwise h4 h2 (h1 m (by simp)) (fun x hx => h5 x hx m (by simp))
      · intro a ha b hb
        rcases mem_insertMatch.1 ha with rfl | ha
        · exact h3.1 b hb
        · exact h5 a ha b (by simp [hb])
  exact this ms [] hne (by simp) hd .nil (by simp)

theorem linksSound_of_apart {text : Str} (h : LinksApart text) : LinksSound text := by
  have hf : ∀ m ∈ footnoteRx.finditer text, ∃ p s e, LinkAt text m.start p s e m.stop ']' := by
    intro m hm
    obtain ⟨a, b, hab⟩ := (Rx.finditer_finds footnoteRx_nonEmpty text).matched m hm
    exact linkAt_of_match (Rx.finditer_bounds footnoteRx_nonEmpty text m hm) (.inr ⟨hab, rfl⟩)
  have hu : ∀ m ∈ urlRx.finditer text, ∃ p s e, LinkAt text m.start p s e m.stop ')' := by
    intro m hm
    obtain ⟨a, b, hab⟩ := (Rx.finditer_finds urlRx_nonEmpty text).matched m hm
    exact linkAt_of_match (Rx.finditer_bounds urlRx_nonEmpty text m hm) (.inl ⟨hab, rfl⟩)
  constructor
  · apply sortMatches_pairwise
    · intro x hx
      exact (linkMatches_ok text x (mem_sortMatches.2 hx)).1
    · rw [List.pairwise_append]
      refine ⟨(Rx.finditer_finds footnoteRx_nonEmpty text).pairwise.imp .inl,
        (Rx.finditer_finds urlRx_nonEmpty text).pairwise.imp .inl, ?_⟩
      intro a ha b hb
      obtain ⟨p, s, e, h1⟩ := hf a ha
      obtain ⟨p', s', e', h2⟩ := hu b hb
      rcases Nat.lt_trichotomy s s' with hlt | heq | hgt
      · exact .inl (h1.apart h h2 hlt (by decide))
      · exfalso
        subst heq
        rcases h1.sep.2 with ⟨_, h3⟩ | ⟨h3, _⟩
        · cases h3
        · rcases h2.sep.2 with ⟨h4, _⟩ | ⟨_, h4⟩
          · rw [h3] at h4; cases h4
          · cases h4
      · exact .inr (h2.apart h h1 hgt (by decide))
  · intro m hm
    obtain ⟨b1, b2, b3, _⟩ := linkMatches_ok text m hm
    have : ∃ c p s e, LinkAt text m.start p s e m.stop c := by
      rcases List.mem_append.1 (mem_sortMatches.1 hm) with hm | hm
      · exact ⟨_, hf m hm⟩
      · exact ⟨_, hu m hm⟩
    obtain ⟨c, p, s, e, hl⟩ := this
    have hsp := slice_split (a := m.start) (b := m.stop) (text := text) (by omega)
    rw [← b3] at hsp
    have h1 : (text.take m.start).length = m.start := by simp; omega
    have h2 : m.text.length = m.stop - m.start := by
      rw [b3]; unfold slice; simp; omega
    have ho := hl.order
    have hgm : ∀ k, k < m.text.length → m.text[k]? = text[m.start + k]? := by
      intro k hk
      conv => rhs; rw [hsp]
      rw [getElem?_mid (by omega) (by omega), h1, Nat.add_sub_cancel_left]
    have hsep : SepAt m.text (s - m.start) c := by
      obtain ⟨e1, e2⟩ := hl.sep
      unfold SepAt
      rw [hgm _ (by omega), hgm _ (by omega), show m.start + (s - m.start) = s by omega,
        show m.start + (s - m.start + 1) = s + 1 by omega]
      exact ⟨e1, e2⟩
    refine oneSep_of_only hsep ?_
    intro s' c' hs'
    have hlt := hs'.lt
    have := hs'.infix (a := text.take m.start) (b := text.drop m.stop)
    rw [← hsp, h1] at this
    have := hl.only h this (by omega) (by omega)
    omega

end MF
