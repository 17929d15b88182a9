import Verif.Model.Format
import Verif.Lemmas.Unquote
/-!
# List markers
-/

namespace MF

/-- A list marker: `*`, `-`, `+`, or digits followed by a full stop. -/
def IsMarker (m : Str) : Prop :=
  m = ['*'] ∨ m = ['-'] ∨ m = ['+'] ∨ ∃ ds, ds ≠ [] ∧ (∀ d ∈ ds, isDigit d = true) ∧ m = ds ++ ['.']

/-- `l` is indentation `ws`, marker `m`, and `r`, which is empty or starts with a space. -/
structure MarkerAt (l ws m r : Str) : Prop where
  eq : l = ws ++ (m ++ r)
  ws : ∀ c ∈ ws, isWs c = true
  marker : IsMarker m
  rest : r = [] ∨ r = ['\n'] ∨ ∃ r', r = ' ' :: r'

theorem takeWhile_append_stop {α : Type} (p : α → Bool) (a b : List α) (c : α) (h : ∀ x ∈ a, p x = true)
    (hc : p c = false) : (a ++ c :: b).takeWhile p = a := by
  induction a with
  | nil => simp [hc]
  | cons x a ih => simp [h x (by simp), ih (fun y hy => h y (by simp [hy]))]

theorem isDigit_not_ws (c : Char) (h : isDigit c = true) : isWs c = false := by
  simp only [isDigit, Bool.and_eq_true, decide_eq_true_eq] at h
  simp only [isWs, Bool.or_eq_false_iff, Bool.and_eq_false_iff, decide_eq_false_iff_not, beq_eq_false_iff_ne]
  have h1 : 48 ≤ c.toNat := h.1
  have h2 : c.toNat ≤ 57 := h.2
  generalize c.toNat = n at *
  omega

theorem IsMarker.head {m : Str} (h : IsMarker m) : ∃ c t, m = c :: t ∧ isWs c = false := by
  rcases h with rfl | rfl | rfl | ⟨ds, hne, hd, rfl⟩
  · exact ⟨_, _, rfl, by decide⟩
  · exact ⟨_, _, rfl, by decide⟩
  · exact ⟨_, _, rfl, by decide⟩
  · cases ds with
    | nil => exact absurd rfl hne
    | cons d ds => exact ⟨d, _, rfl, isDigit_not_ws d (hd d (by simp))⟩

theorem markerRx_step {l : Str} {st : MS} (h : markerRx.Step ⟨[], l, []⟩ st) :
    ∃ ws m r t, MarkerAt l ws m r ∧ st.caps = [(2, t), (1, m, (ws ++ m).length)] := by
  obtain ⟨s1, ⟨_, rfl⟩, s2, hws, s3, hm, hr⟩ := h
  obtain ⟨ws, ⟨hw1, hw2⟩, hw3, _, _, hw4⟩ := repStep_chr hws
  obtain ⟨s3', hm', rfl⟩ := hm
  obtain ⟨s4, hr', rfl⟩ := hr
  have hmark : ∃ m, s2.Consumes s3' m ∧ IsMarker m ∧ s3'.caps = s2.caps := by
    rcases hm' with h1 | h1 | h1 | h1
    · obtain ⟨c, cs, e, hc, rfl⟩ := h1
      exact ⟨[c], ⟨e, rfl⟩, .inl (by simp at hc; rw [hc]), rfl⟩
    · obtain ⟨c, cs, e, hc, rfl⟩ := h1
      exact ⟨[c], ⟨e, rfl⟩, .inr (.inl (by simp at hc; rw [hc])), rfl⟩
    · obtain ⟨c, cs, e, hc, rfl⟩ := h1
      exact ⟨[c], ⟨e, rfl⟩, .inr (.inr (.inl (by simp at hc; rw [hc]))), rfl⟩
    · obtain ⟨s5, hds, c, cs, e, hc, rfl⟩ := h1
      obtain ⟨ds, hd1, hd2, hd3, _, hd4⟩ := repStep_chr hds
      refine ⟨ds ++ [c], hd1.trans ⟨e, rfl⟩, .inr (.inr (.inr ⟨ds, ?_, hd2, by simp at hc; rw [hc]⟩)), hd4⟩
      intro h0; rw [h0] at hd3; simp at hd3
  obtain ⟨m, ⟨hm1, hm2⟩, hm3, hm4⟩ := hmark
  simp only at hw1 hw2 hw4
  have hrest : s3'.post = [] ∨ s3'.post = ['\n'] ∨ ∃ r', s3'.post = ' ' :: r' := by
    rcases hr' with ⟨h1, _⟩ | ⟨c, cs, e, hc, _⟩
    · rcases h1 with h1 | h1
      · exact .inl h1
      · exact .inr (.inl h1)
    · simp only [beq_iff_eq] at hc
      exact .inr (.inr ⟨cs, by rw [← hc]; exact e⟩)
  have hcaps4 : s4.caps = (1, s2.post.take (s2.post.length - s3'.post.length), s3'.pre.length) :: s3'.caps := by
    rcases hr' with ⟨_, h1⟩ | ⟨c, cs, _, _, h1⟩
    · rw [h1]
    · rw [h1]
  have e1 : s2.post.take (s2.post.length - s3'.post.length) = m := by rw [hm1]; simp
  have e2 : s3'.pre.length = (ws ++ m).length := by rw [hm2, hw2]; simp; omega
  rw [e1, e2, hm4, hw4] at hcaps4
  exact ⟨ws, m, s3'.post, _, ⟨by rw [hw1, hm1], hw3, hm3, hrest⟩, by simp only [hcaps4]; rfl⟩

theorem markerRx_intro {l ws m r : Str} (h : MarkerAt l ws m r) : ∃ st, markerRx.Step ⟨[], l, []⟩ st := by
  obtain ⟨rfl, hws, hm, hr⟩ := h
  have hstar := repStep_chr_intro (p := isWs) ws hws (mn := 0) (mx := none) (pre := []) (post := m ++ r)
    (caps := []) (by simp) (by simp)
  have hmark : ∃ st, (Rx.alt (.chr (· == '*')) (.alt (.chr (· == '-')) (.alt (.chr (· == '+'))
      (.seqs [.plus (.chr isDigit), .chr (· == '.')])))).Step ⟨ws.reverse ++ [], m ++ r, []⟩ st ∧ st.post = r := by
    rcases hm with rfl | rfl | rfl | ⟨ds, hne, hd, rfl⟩
    · exact ⟨_, .inl ⟨_, _, rfl, rfl, rfl⟩, rfl⟩
    · exact ⟨_, .inr (.inl ⟨_, _, rfl, rfl, rfl⟩), rfl⟩
    · exact ⟨_, .inr (.inr (.inl ⟨_, _, rfl, rfl, rfl⟩)), rfl⟩
    · have hd' := repStep_chr_intro (p := isDigit) ds hd (mn := 1) (mx := none) (pre := ws.reverse ++ [])
        (post := '.' :: r) (caps := []) (by cases ds with | nil => exact absurd rfl hne | cons => simp) (by simp)
      have e : ds ++ ['.'] ++ r = ds ++ '.' :: r := by simp
      rw [e]
      exact ⟨_, .inr (.inr (.inr ⟨_, hd', '.', r, rfl, rfl, rfl⟩)), rfl⟩
  obtain ⟨s3, h3, hpost⟩ := hmark
  rcases hr with h0 | h0 | ⟨r', h0⟩
  · exact ⟨_, _, ⟨rfl, rfl⟩, _, hstar, _, ⟨s3, h3, rfl⟩, _, .inl ⟨.inl (by rw [← h0]; exact hpost), rfl⟩, rfl⟩
  · exact ⟨_, _, ⟨rfl, rfl⟩, _, hstar, _, ⟨s3, h3, rfl⟩, _, .inl ⟨.inr (by rw [← h0]; exact hpost), rfl⟩, rfl⟩
  · exact ⟨_, _, ⟨rfl, rfl⟩, _, hstar, _, ⟨s3, h3, rfl⟩, _,
      .inr ⟨' ', r', by rw [← h0]; exact hpost, rfl, rfl⟩, rfl⟩

theorem markerEnd_sound {l : Str} {n : Nat} (h : markerEnd? l = some n) :
    ∃ ws m r, MarkerAt l ws m r ∧ n = ws.length + m.length := by
  simp only [markerEnd?, Rx.match?] at h
  cases hm : markerRx.matchAt [] l with
  | none => rw [hm] at h; cases h
  | some m =>
    rw [hm] at h
    obtain ⟨st, hst, _, _, _, hcaps⟩ := Rx.matchAt_sound hm
    obtain ⟨ws, mk, r, t, h1, h2⟩ := markerRx_step hst
    refine ⟨ws, mk, r, h1, ?_⟩
    simp only [Option.map_some, Match.groupEnd, hcaps, h2] at h
    simpa using h.symm

theorem MarkerAt.unique {l ws m r ws' m' r' : Str} (h : MarkerAt l ws m r) (h' : MarkerAt l ws' m' r') :
    ws = ws' ∧ m = m' ∧ r = r' := by
  obtain ⟨e, hw, hm, hr⟩ := h
  obtain ⟨e', hw', hm', hr'⟩ := h'
  obtain ⟨c, t, rfl, hc⟩ := hm.head
  obtain ⟨c', t', rfl, hc'⟩ := hm'.head
  have e1 : ws = ws' := by
    have h1 := takeWhile_append_stop isWs ws (t ++ r) c hw hc
    have h2 := takeWhile_append_stop isWs ws' (t' ++ r') c' hw' hc'
    rw [← h1, ← h2]
    congr 1
    simp only [List.cons_append] at e e'
    rw [← e, ← e']
  subst e1
  have e2 : c :: t ++ r = c' :: t' ++ r' := by rw [e] at e'; exact List.append_cancel_left e'
  have key : ∀ {m r m' r' : Str}, IsMarker m → IsMarker m' → m ++ r = m' ++ r' → m = m' ∧ r = r' := by
    intro m r m' r' hm hm' e
    have hsym : ∀ c ∈ c!"*-+", isDigit c = false := by decide
    have single : ∀ (c c' : Char) (r r' : Str), [c] ++ r = [c'] ++ r' → [c] = [c'] ∧ r = r' := by
      intro c c' r r' h; simp at h; simp [h]
    have mixed : ∀ (c : Char) (ds r r' : Str), isDigit c = false → ds ≠ [] → (∀ d ∈ ds, isDigit d = true) →
        [c] ++ r ≠ (ds ++ ['.']) ++ r' := by
      intro c ds r r' hc hne hd h
      cases ds with
      | nil => exact hne rfl
      | cons d ds =>
        simp at h
        rw [h.1, hd d (by simp)] at hc; cases hc
    have hor : ∀ {m : Str}, IsMarker m → (∃ c, m = [c] ∧ isDigit c = false) ∨
        ∃ ds, ds ≠ [] ∧ (∀ d ∈ ds, isDigit d = true) ∧ m = ds ++ ['.'] := by
      intro m hm
      rcases hm with h | h | h | h
      · exact .inl ⟨_, h, by decide⟩
      · exact .inl ⟨_, h, by decide⟩
      · exact .inl ⟨_, h, by decide⟩
      · exact .inr h
    rcases hor hm with ⟨c, rfl, hc⟩ | ⟨ds, hne, hd, rfl⟩
    · rcases hor hm' with ⟨c', rfl, hc'⟩ | ⟨ds', hne', hd', rfl⟩
      · exact single _ _ _ _ e
      · exact absurd e (mixed _ _ _ _ hc hne' hd')
    · rcases hor hm' with ⟨c', rfl, hc'⟩ | ⟨ds', hne', hd', rfl⟩
      · exact absurd e.symm (mixed _ _ _ _ hc' hne hd)
      · have h1 := takeWhile_append_stop isDigit ds r '.' hd (by decide)
        have h2 := takeWhile_append_stop isDigit ds' r' '.' hd' (by decide)
        have e3 : ds ++ '.' :: r = ds' ++ '.' :: r' := by simpa using e
        rw [e3, h2] at h1
        subst h1
        simp at e3
        exact ⟨rfl, e3⟩
  exact ⟨rfl, key hm hm' e2⟩

theorem markerEnd_intro {l ws m r : Str} (h : MarkerAt l ws m r) : markerEnd? l = some (ws.length + m.length) := by
  obtain ⟨st, hst⟩ := markerRx_intro h
  have hs := Rx.matchAt_isSome hst
  cases hm : markerEnd? l with
  | none =>
    simp only [markerEnd?, Rx.match?, Option.map_eq_none_iff] at hm
    rw [hm] at hs; cases hs
  | some n =>
    obtain ⟨ws', m', r', h1, h2⟩ := markerEnd_sound hm
    obtain ⟨rfl, rfl, _⟩ := h.unique h1
    rw [h2]

theorem markerEnd_none {l : Str} : markerEnd? l = none ↔ ∀ ws m r, ¬ MarkerAt l ws m r := by
  constructor
  · intro h ws m r h1
    rw [markerEnd_intro h1] at h; cases h
  · intro h
    cases hm : markerEnd? l with
    | none => rfl
    | some n =>
      obtain ⟨ws, m, r, h1, _⟩ := markerEnd_sound hm
      exact absurd h1 (h ws m r)

theorem MarkerAt.indent {l ws m r : Str} (h : MarkerAt l ws m r) : getIndent l = ws.length := by
  obtain ⟨rfl, hw, hm, _⟩ := h
  obtain ⟨c, t, rfl, hc⟩ := hm.head
  simp only [getIndent, lstrip_append_ws _ _ hw, List.cons_append, lstrip_cons_of_not _ _ hc]
  simp

theorem MarkerAt.lstrip {l ws m r : Str} (h : MarkerAt l ws m r) : lstrip l = m ++ r := by
  obtain ⟨rfl, hw, hm, _⟩ := h
  obtain ⟨c, t, rfl, hc⟩ := hm.head
  rw [lstrip_append_ws _ _ hw, List.cons_append, lstrip_cons_of_not _ _ hc]

theorem bol_search {r : Rx} {l : Str} {m : Match} (hs : (Rx.seq .bol r).search l = some m) :
    (Rx.seq .bol r).matchAt [] l = some m := by
  cases l with
  | nil => exact hs
  | cons c cs =>
    simp only [Rx.search, Rx.searchFrom] at hs
    split at hs
    · rename_i heq; rw [heq, hs]
    · rw [bol_searchFrom] at hs; cases hs

theorem bulletStart_marker {l : Str} (h : isBulletStart l = true) :
    ∃ ws c r, (c = '*' ∨ c = '+' ∨ c = '-') ∧ MarkerAt l ws [c] (' ' :: r) := by
  simp only [isBulletStart, Bool.and_eq_true] at h
  have h2 := h.2
  simp only [bulletStartRx, Rx.seqs] at h2
  cases hs : Rx.search (.seq .bol (.seq (.star (.chr isWs))
      (.seq (.chr (fun c => c == '*' || c == '+' || c == '-')) (.chr (· == ' '))))) l with
  | none => rw [hs] at h2; cases h2
  | some m =>
    have hm := bol_search hs
    obtain ⟨st, hst, _⟩ := Rx.matchAt_sound hm
    obtain ⟨s1, ⟨_, rfl⟩, s2, hws, s3, ⟨c, cs, e, hc, rfl⟩, d, ds, e2, hd, rfl⟩ := hst
    obtain ⟨ws, ⟨hw1, hw2⟩, hw3, _⟩ := repStep_chr hws
    simp only [Bool.or_eq_true, beq_iff_eq] at hc
    simp only [beq_iff_eq] at hd
    simp only at hw1 e2
    rw [e, e2, hd] at hw1
    refine ⟨ws, c, ds, by rcases hc with (h | h) | h <;> simp [h], hw1, hw3, ?_, .inr (.inr ⟨_, rfl⟩)⟩
    rcases hc with (h | h) | h
    · exact .inl (by rw [h])
    · exact .inr (.inr (.inl (by rw [h])))
    · exact .inr (.inl (by rw [h]))

theorem orderedStart_marker {l : Str} (h : isOrderedStart l = true) :
    ∃ ws ds r, ds ≠ [] ∧ (∀ d ∈ ds, isDigit d = true) ∧ MarkerAt l ws (ds ++ ['.']) (' ' :: r) := by
  simp only [isOrderedStart, Bool.and_eq_true] at h
  have h2 := h.2
  simp only [orderedStartRx, Rx.seqs] at h2
  cases hs : Rx.search (.seq .bol (.seq (.star (.chr isWs))
      (.seq (.grp 1 (.seq (.plus (.chr isDigit)) (.chr (· == '.')))) (.chr (· == ' '))))) l with
  | none => rw [hs] at h2; cases h2
  | some m =>
    have hm := bol_search hs
    obtain ⟨st, hst, _⟩ := Rx.matchAt_sound hm
    obtain ⟨s1, ⟨_, rfl⟩, s2, hws, s3, ⟨s4, ⟨s5, hds, c, cs, e, hc, rfl⟩, rfl⟩, d, ds', e2, hd, rfl⟩ := hst
    obtain ⟨ws, ⟨hw1, hw2⟩, hw3, _⟩ := repStep_chr hws
    obtain ⟨ds, ⟨hd1, hd2⟩, hd3, hd4, _⟩ := repStep_chr hds
    simp only [beq_iff_eq] at hc hd
    simp only at hw1 e2
    rw [hd1, e, e2, hd, hc] at hw1
    have hne : ds ≠ [] := by intro h0; rw [h0] at hd4; simp at hd4
    refine ⟨ws, ds, ds', hne, hd3, by simpa using hw1, hw3, .inr (.inr (.inr ⟨ds, hne, hd3, rfl⟩)), .inr (.inr ⟨_, rfl⟩)⟩

end MF
