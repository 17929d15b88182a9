import Verif.Props.WrapRef
import Verif.Lemmas.LinkRx
import Verif.Lemmas.Links
import Verif.Lemmas.Lrd
/-!
# What the patterns of `wrap` find, as scans of the text
-/

namespace MF

/-! ## Scans -/

theorem scan_skip (len : Str → Nat) (u s : Str) : ∀ pos, scan len pos u.length (u ++ s) = scan len (pos + u.length) 0 s := by
  induction u with
  | nil => intro pos; rfl
  | cons c u ih =>
    intro pos
    show scan len pos (u.length + 1) (c :: (u ++ s)) = _
    rw [scan, ih, List.length_cons]
    congr 1
    omega

theorem scan_none (len : Str → Nat) (u s : Str) : ∀ pos, (∀ a b c, u = a ++ c :: b → len (c :: b ++ s) = 0) →
    scan len pos 0 (u ++ s) = scan len (pos + u.length) 0 s := by
  induction u with
  | nil => intro pos _; rfl
  | cons c u ih =>
    intro pos h
    have h0 := h [] u c rfl
    rw [List.cons_append] at h0 ⊢
    rw [scan, h0]
    simp only
    rw [ih (pos + 1) (fun a b d e => h (c :: a) b d (by rw [e]; rfl)), List.length_cons]
    congr 1
    omega

/-- `len` tells what the pattern matches, wherever it is tried. -/
structure Tells (r : Rx) (len : Str → Nat) : Prop where
  none : ∀ pre post, len post = 0 → r.matchAt pre post = none
  some : ∀ pre post, len post ≠ 0 → ∃ m, r.matchAt pre post = some m ∧ m.text = post.take (len post)
  le : ∀ post, len post ≤ post.length

theorem Tells.len_eq {r : Rx} {len : Str → Nat} (h : Tells r len) {pre post : Str} {m : Match}
    (hm : r.matchAt pre post = Option.some m) : len post ≠ 0 ∧ m.text.length = len post := by
  by_cases h0 : len post = 0
  · rw [h.none pre post h0] at hm; cases hm
  · obtain ⟨m', h1, h2⟩ := h.some pre post h0
    rw [hm] at h1
    cases h1
    refine ⟨h0, ?_⟩
    rw [h2, List.length_take]
    have := h.le post
    omega

theorem Tells.nonEmpty {r : Rx} {len : Str → Nat} (h : Tells r len) : r.NonEmpty := by
  intro pre post m hm he
  obtain ⟨h1, h2⟩ := h.len_eq hm
  rw [he] at h2
  exact h1 h2.symm

theorem Tells.none_iff {r : Rx} {len : Str → Nat} (h : Tells r len) {pre post : Str}
    (hm : r.matchAt pre post = Option.none) : len post = 0 := by
  by_cases h0 : len post = 0
  · exact h0
  · obtain ⟨m', h1, _⟩ := h.some pre post h0
    rw [hm] at h1; cases h1

theorem Tells.finds {r : Rx} {len : Str → Nat} (h : Tells r len) {pre post : Str} {ms : List Match}
    (hf : Rx.Finds r pre post ms) : ms.map (fun m => (m.start, m.text.length)) = scan len pre.length 0 post := by
  induction hf with
  | @done pre post hn =>
    have hnone : ∀ a b c, post = a ++ c :: b → len (c :: b ++ []) = 0 := by
      intro a b c e
      rw [List.append_nil]
      exact h.none_iff (Rx.searchFrom_none post hn a (c :: b) e)
    have := scan_none len post [] pre.length hnone
    rw [List.append_nil] at this
    rw [this]
    rfl
  | @step pre u rest m ms h1 h2 hne hs he hr ih =>
    have e1 := scan_none len u (m.text ++ rest) pre.length (fun a b c e => h.none_iff (h1 a b c e))
    rw [e1, List.map_cons, ih, hs]
    obtain ⟨h3, h4⟩ := h.len_eq h2
    cases hm : m.text with
    | nil => exact absurd hm hne
    | cons c u' =>
      rw [hm] at h4 h3
      rw [List.cons_append] at h4 h3
      rw [List.cons_append, scan, ← h4]
      simp only [List.length_cons]
      rw [scan_skip]
      congr 2
      simp
      omega

theorem Tells.finditer {r : Rx} {len : Str → Nat} (h : Tells r len) (s : Str) :
    (r.finditer s).map (fun m => (m.start, m.text.length)) = scan len 0 0 s :=
  h.finds (Rx.finditer_finds h.nonEmpty s)

/-! ## Repetitions -/

theorem star_nil {β : Type} (p : Char → Bool) (pre : Str) (caps : List (Nat × Str × Nat)) (k : MS → Option β) :
    (Rx.star (.chr p)).run ⟨pre, [], caps⟩ k = k ⟨pre, [], caps⟩ := by
  simp [Rx.star, Rx.run, repRun]

theorem plus_nil {β : Type} (p : Char → Bool) (pre : Str) (caps : List (Nat × Str × Nat)) (k : MS → Option β) :
    (Rx.plus (.chr p)).run ⟨pre, [], caps⟩ k = none := by
  simp [Rx.plus, Rx.run, repRun]

theorem star_cons {β : Type} (p : Char → Bool) (pre : Str) (x : Char) (s : Str) (caps : List (Nat × Str × Nat))
    (k : MS → Option β) : (Rx.star (.chr p)).run ⟨pre, x :: s, caps⟩ k =
      match (if p x then (Rx.star (.chr p)).run ⟨x :: pre, s, caps⟩ k else none) with
      | some r => some r
      | none => k ⟨pre, x :: s, caps⟩ := by
  show repRun (fun s k' => (Rx.chr p).run s k') (s.length + 1 + 1) 0 none ⟨pre, x :: s, caps⟩ k = _
  rw [repRun, run_chr_cons]
  have hst : (Rx.star (.chr p)).run ⟨x :: pre, s, caps⟩ k =
    repRun (fun s k' => (Rx.chr p).run s k') (s.length + 1) 0 none ⟨x :: pre, s, caps⟩ k := rfl
  rw [hst]
  simp only [reduceCtorEq, beq_iff_eq, if_false, List.length_cons, Nat.lt_add_one, if_true, Option.map_none, Nat.zero_sub]
  generalize (if p x = true then _ else _ : Option β) = y
  cases y <;> rfl

theorem plus_cons {β : Type} (p : Char → Bool) (pre : Str) (x : Char) (s : Str) (caps : List (Nat × Str × Nat))
    (k : MS → Option β) : (Rx.plus (.chr p)).run ⟨pre, x :: s, caps⟩ k =
      if p x then (Rx.star (.chr p)).run ⟨x :: pre, s, caps⟩ k else none := by
  show repRun (fun s k' => (Rx.chr p).run s k') (s.length + 1 + 1) 1 none ⟨pre, x :: s, caps⟩ k = _
  rw [repRun, run_chr_cons]
  have hst : (Rx.star (.chr p)).run ⟨x :: pre, s, caps⟩ k =
    repRun (fun s k' => (Rx.chr p).run s k') (s.length + 1) 0 none ⟨x :: pre, s, caps⟩ k := rfl
  rw [hst]
  simp only [reduceCtorEq, beq_iff_eq, if_false, List.length_cons, Nat.lt_add_one, if_true, Option.map_none, Nat.sub_self,
    Nat.succ_ne_self]
  split
  · rename_i h; rw [h]
  · rename_i h; rw [h]

/-- A repetition that may be empty, by one that may not. -/
theorem star_plus {β : Type} (p : Char → Bool) (st : MS) (k : MS → Option β) :
    (Rx.star (.chr p)).run st k = match (Rx.plus (.chr p)).run st k with
      | some r => some r
      | none => k st := by
  obtain ⟨pre, post, caps⟩ := st
  cases post with
  | nil => rw [star_nil, plus_nil]
  | cons x s => rw [star_cons, plus_cons]

theorem star_all {p : Char → Bool} (s : Str) : ∀ (pre : Str) (caps : List (Nat × Str × Nat)),
    (Rx.star (.chr p)).run (β := MS) ⟨pre, s, caps⟩ some = some ⟨(s.takeWhile p).reverse ++ pre, s.dropWhile p, caps⟩ := by
  induction s with
  | nil => intro pre caps; rw [star_nil]; rfl
  | cons x s ih =>
    intro pre caps
    rw [star_cons]
    cases hp : p x with
    | true =>
      rw [if_pos rfl, ih, List.takeWhile_cons, List.dropWhile_cons, hp]
      simp
    | false => simp [hp]

/-! ## Links -/

/-- Where a link of length `n` in front of its last word ends. -/
def linkStop (pre s : Str) (n : Nat) : MS :=
  let t := ((s.drop n).takeWhile fun x => !isWs x && x != '[' && x != '(').length
  ⟨(s.take (n + t)).reverse ++ pre, s.drop (n + t), []⟩

theorem linkStop_cons (pre : Str) (x : Char) (s : Str) (n : Nat) : linkStop pre (x :: s) (n + 1) = linkStop (x :: pre) s n := by
  unfold linkStop
  simp only [List.drop_succ_cons]
  rw [show n + 1 + ((s.drop n).takeWhile fun x => !isWs x && x != '[' && x != '(').length =
    (n + ((s.drop n).takeWhile fun x => !isWs x && x != '[' && x != '(').length) + 1 by omega]
  simp

/-- The part of a pattern behind the target. -/
def tailRx (c : Char) : Rx := .seq (.chr (· == c)) (.star (.chr fun x => !isWs x && x != '[' && x != '('))

theorem tail_run (c : Char) (pre s : Str) :
    (tailRx c).run ⟨pre, s, []⟩ some = if s.head? = some c then some (linkStop pre s 1) else none := by
  unfold tailRx
  rw [run_seq]
  cases s with
  | nil => rfl
  | cons x s =>
    rw [run_chr_cons]
    simp only [List.head?_cons, Option.some.injEq, beq_iff_eq]
    by_cases h : x = c
    · rw [if_pos h, if_pos h, star_all, linkStop_cons]
      unfold linkStop
      simp only [List.drop_zero, Nat.zero_add]
      have e := List.takeWhile_append_dropWhile (p := fun x => !isWs x && x != '[' && x != '(') (l := s)
      have h1 : s.take (s.takeWhile fun x => !isWs x && x != '[' && x != '(').length =
          s.takeWhile fun x => !isWs x && x != '[' && x != '(' := by
        conv => lhs; arg 2; rw [← e]
        rw [List.take_left']
        rfl
      have h2 : s.drop (s.takeWhile fun x => !isWs x && x != '[' && x != '(').length =
          s.dropWhile fun x => !isWs x && x != '[' && x != '(' := by
        conv => lhs; arg 2; rw [← e]
        rw [List.drop_left']
        rfl
      rw [h1, h2]
    · rw [if_neg h, if_neg h]

theorem target_run (c : Char) (s : Str) : ∀ (pre : Str),
    (Rx.plus (.chr (· != c))).run ⟨pre, s, []⟩ (fun st => (tailRx c).run st some) =
      (targetLen c s).map (linkStop pre s) ∧
    (s ≠ [] → (Rx.star (.chr (· != c))).run ⟨pre, s, []⟩ (fun st => (tailRx c).run st some) =
      if s.head? = some c then some (linkStop pre s 1) else (targetLen c s).map (linkStop pre s)) := by
  induction s with
  | nil => intro pre; rw [plus_nil]; exact ⟨rfl, fun h => absurd rfl h⟩
  | cons x s ih =>
    intro pre
    have hplus : (Rx.plus (.chr (· != c))).run ⟨pre, x :: s, []⟩ (fun st => (tailRx c).run st some) =
        (targetLen c (x :: s)).map (linkStop pre (x :: s)) := by
      rw [plus_cons]
      by_cases hx : x = c
      · have : (x != c) = false := by simp [hx]
        rw [this]
        simp only [Bool.false_eq_true, if_false]
        unfold targetLen
        rw [List.takeWhile_cons, this]
        simp
      · have : (x != c) = true := by simp [hx]
        rw [this, if_pos rfl]
        cases s with
        | nil =>
          rw [star_nil, tail_run]
          unfold targetLen
          rw [List.takeWhile_cons, this]
          simp
        | cons y s =>
          rw [(ih (x :: pre)).2 (by simp)]
          unfold targetLen
          rw [List.takeWhile_cons (a := x), this]
          simp only [List.head?_cons, Option.some.injEq, if_true]
          by_cases hy : y = c
          · have h1 : ((y :: s).takeWhile (· != c)) = [] := by rw [List.takeWhile_cons]; simp [hy]
            rw [if_pos hy, h1]
            simp only [List.length_cons, List.length_nil]
            rw [if_neg (by omega)]
            simp only [Option.map_some, linkStop_cons]
          · have h1 : (y != c) = true := by simp [hy]
            rw [if_neg hy]
            have h2 : ((y :: s).takeWhile (· != c)).length ≠ 0 := by rw [List.takeWhile_cons, h1]; simp
            by_cases hl : ((y :: s).takeWhile (· != c)).length = (y :: s).length
            · rw [if_pos (.inr hl), if_pos (.inr (by simp only [List.length_cons] at hl ⊢; omega))]
              rfl
            · rw [if_neg (by rintro (h | h) <;> contradiction), if_neg (by
                rintro (h | h)
                · simp at h
                · simp only [List.length_cons] at h hl; omega)]
              simp only [Option.map_some, linkStop_cons, List.length_cons]
    refine ⟨hplus, fun _ => ?_⟩
    rw [star_plus, hplus, tail_run]
    simp only [List.head?_cons, Option.some.injEq]
    by_cases hx : x = c
    · have : targetLen c (x :: s) = none := by
        unfold targetLen
        rw [List.takeWhile_cons]
        simp [hx]
      rw [this, if_pos hx, if_pos hx]
      rfl
    · rw [if_neg hx, if_neg hx]
      cases targetLen c (x :: s) <;> rfl

/-- The part of a pattern behind the name. -/
def behindRx (o c : Char) : Rx := .seq (.chr (· == ']')) (.seq (.chr (· == o)) (.seq (.plus (.chr (· != c))) (tailRx c)))

theorem behind_run (o c : Char) (pre s : Str) : (behindRx o c).run ⟨pre, s, []⟩ some =
    (behindName o c s).map (linkStop pre s) := by
  unfold behindRx behindName
  rw [run_seq]
  cases s with
  | nil => rfl
  | cons b s =>
    rw [run_chr_cons]
    simp only [beq_iff_eq]
    by_cases hb : b = ']'
    · rw [if_pos hb, run_seq]
      cases s with
      | nil => rfl
      | cons p r =>
        rw [run_chr_cons]
        simp only [beq_iff_eq]
        by_cases hp : p = o
        · rw [if_pos hp, if_pos ⟨hb, hp⟩, run_seq, (target_run c r (p :: b :: pre)).1]
          cases targetLen c r with
          | none => rfl
          | some n => simp only [Option.map_some, linkStop_cons]
        · rw [if_neg hp, if_neg (fun h => hp h.2)]
          rfl
    · rw [if_neg hb]
      cases s with
      | nil => rfl
      | cons p r => simp only; rw [if_neg (fun h => hb h.1)]; rfl

theorem name_run (o c : Char) (s : Str) : ∀ (pre : Str),
    (Rx.plus (.chr (· != '['))).run ⟨pre, s, []⟩ (fun st => (behindRx o c).run st some) =
      (nameLen o c s).map (linkStop pre s) := by
  induction s with
  | nil => intro pre; rw [plus_nil]; rfl
  | cons x s ih =>
    intro pre
    rw [plus_cons, nameLen]
    by_cases hx : x = '['
    · rw [if_pos hx]
      simp [hx]
    · rw [if_neg hx, if_pos (by simp [hx]), star_plus, ih]
      cases nameLen o c s with
      | some n => simp only [Option.map_some, linkStop_cons]
      | none =>
        simp only [Option.map_none]
        rw [behind_run]
        cases behindName o c s with
        | none => rfl
        | some n => simp only [Option.map_some, linkStop_cons]

theorem link_run (o c : Char) (s : Str) : ∀ (pre : Str),
    (linkRx o c).run ⟨pre, s, []⟩ some = (linkFront o c s).map (linkStop pre s) := by
  have hrx : linkRx o c = .seq (.star (.chr fun x => !isWs x && x != ']' && x != ')')) (.seq (.chr (· == '['))
      (.seq (.plus (.chr (· != '['))) (behindRx o c))) := rfl
  rw [hrx]
  induction s with
  | nil => intro pre; rw [run_seq, star_nil, linkFront, run_seq]; rfl
  | cons x s ih =>
    intro pre
    have ih' := ih (x :: pre)
    rw [run_seq] at ih' ⊢
    rw [star_cons, linkFront, ih']
    have hcls : (!isWs x && x != ']' && x != ')') = !(isWs x || x == ']' || x == ')') := by
      cases isWs x <;> simp [bne]
    rw [hcls]
    have hhere : (Rx.seq (.chr (· == '[')) (.seq (.plus (.chr (· != '['))) (behindRx o c))).run ⟨pre, x :: s, []⟩ some =
        (if x = '[' then (nameLen o c s).map (· + 1) else none).map (linkStop pre (x :: s)) := by
      rw [run_seq, run_chr_cons]
      simp only [beq_iff_eq]
      by_cases hx : x = '['
      · rw [if_pos hx, if_pos hx, run_seq, name_run]
        cases nameLen o c s with
        | none => rfl
        | some n => simp only [Option.map_some, linkStop_cons]
      · rw [if_neg hx, if_neg hx]; rfl
    rw [hhere]
    cases hb : (isWs x || x == ']' || x == ')') with
    | true =>
      have hx : x ≠ '[' := by
        intro h
        subst h
        revert hb
        decide
      simp [hx]
    | false =>
      simp only [Bool.not_false, if_true, Bool.false_eq_true, if_false]
      cases linkFront o c s with
      | none => rfl
      | some n => simp only [Option.map_some, linkStop_cons]

theorem targetLen_le {c : Char} {s : Str} {n : Nat} (h : targetLen c s = some n) : n ≤ s.length := by
  simp only [targetLen] at h
  split at h
  · cases h
  · rename_i hn
    have : (s.takeWhile (· != c)).length ≤ s.length := by
      have := congrArg List.length (List.takeWhile_append_dropWhile (p := (· != c)) (l := s))
      rw [List.length_append] at this
      omega
    cases h
    omega

theorem behindName_le {o c : Char} (s : Str) {n : Nat} (h : behindName o c s = some n) : n ≤ s.length := by
  unfold behindName at h
  split at h
  · rename_i b p r
    split at h
    · cases ht : targetLen c r with
      | none => rw [ht] at h; cases h
      | some m =>
        rw [ht] at h
        have := targetLen_le ht
        cases h
        simp; omega
    · cases h
  · cases h

theorem nameLen_le {o c : Char} (s : Str) : ∀ {n : Nat}, nameLen o c s = some n → n ≤ s.length := by
  induction s with
  | nil => intro n h; cases h
  | cons x s ih =>
    intro n h
    rw [nameLen] at h
    split at h
    · cases h
    · split at h
      · rename_i m hm
        cases h
        have := ih hm
        simp; omega
      · cases hb : behindName o c s with
        | none => rw [hb] at h; cases h
        | some m =>
          rw [hb] at h
          cases h
          have := behindName_le s hb
          simp; omega

theorem linkFront_le {o c : Char} (s : Str) : ∀ {n : Nat}, linkFront o c s = some n → 1 ≤ n ∧ n ≤ s.length := by
  induction s with
  | nil => intro n h; rw [linkFront] at h; cases h
  | cons x s ih =>
    intro n h
    rw [linkFront] at h
    split at h
    · cases h
    · split at h
      · rename_i m hm
        cases h
        have := ih hm
        simp; omega
      · split at h
        · cases hn : nameLen o c s with
          | none => rw [hn] at h; cases h
          | some m =>
            rw [hn] at h
            have := nameLen_le s hn
            cases h
            simp; omega
        · cases h

theorem link_tells (o c : Char) : Tells (linkRx o c) (linkLen o c) := by
  have hfun : (fun x => !(isWs x || x == '[' || x == '(')) = fun x => !isWs x && x != '[' && x != '(' := by
    funext x
    cases isWs x <;> simp [bne]
  have hle : ∀ post n, linkFront o c post = some n → linkLen o c post =
      n + ((post.drop n).takeWhile fun x => !isWs x && x != '[' && x != '(').length ∧ 1 ≤ n ∧ linkLen o c post ≤ post.length := by
    intro post n hn
    have h1 := linkFront_le post hn
    have h2 : ((post.drop n).takeWhile fun x => !isWs x && x != '[' && x != '(').length ≤ (post.drop n).length := by
      have := congrArg List.length (List.takeWhile_append_dropWhile (p := fun x => !isWs x && x != '[' && x != '(')
        (l := post.drop n))
      rw [List.length_append] at this
      omega
    rw [List.length_drop] at h2
    unfold linkLen
    rw [hn]
    simp only [hfun]
    exact ⟨trivial, h1.1, by omega⟩
  constructor
  · intro pre post h
    cases hn : linkFront o c post with
    | none =>
      unfold Rx.matchAt
      rw [link_run, hn]
      rfl
    | some n =>
      have := hle post n hn
      omega
  · intro pre post h
    cases hn : linkFront o c post with
    | none => unfold linkLen at h; rw [hn] at h; exact absurd rfl h
    | some n =>
      obtain ⟨h1, h2, h3⟩ := hle post n hn
      unfold Rx.matchAt
      rw [link_run, hn]
      refine ⟨_, rfl, ?_⟩
      simp only [linkStop, List.length_drop, ← h1]
      congr 1
      omega
  · intro post
    cases hn : linkFront o c post with
    | none => unfold linkLen; rw [hn]; exact Nat.zero_le _
    | some n => exact (hle post n hn).2.2

/-! ## Line breaks -/

theorem brLen_cases (s : Str) : (brLen s = 0 ∧ ∀ b r, IsBr b → s ≠ b ++ r) ∨
    ∃ b r, IsBr b ∧ s = b ++ r ∧ brLen s = b.length := by
  unfold brLen
  cases hf : [c!"<br>", c!"<br/>", c!"<br >", c!"<br />"].find? (startsWith s) with
  | none =>
    left
    refine ⟨rfl, ?_⟩
    rintro b r hb rfl
    rw [List.find?_eq_none] at hf
    refine hf b ?_ ((startsWith_iff _ _).2 ⟨r, rfl⟩)
    rcases hb with rfl | rfl | rfl | rfl <;> simp
  | some b =>
    right
    have h1 := List.find?_some hf
    have h2 := List.mem_of_find?_eq_some hf
    obtain ⟨r, hr⟩ := (startsWith_iff _ _).1 h1
    refine ⟨b, r, ?_, hr, rfl⟩
    simp only [List.mem_cons, List.not_mem_nil, or_false] at h2
    exact h2

theorem br_run {b : Str} (h : IsBr b) (pre r : Str) :
    htmlNewlineRx.run ⟨pre, b ++ r, []⟩ some = some (⟨b.reverse ++ pre, r, []⟩ : MS) := by
  rcases h with rfl | rfl | rfl | rfl <;>
    simp [htmlNewlineRx, Rx.seqs, Rx.run, Rx.opt, repRun]

theorem br_tells : Tells htmlNewlineRx brLen := by
  constructor
  · intro pre post h
    rcases brLen_cases post with ⟨_, h1⟩ | ⟨b, r, hb, _, h2⟩
    · cases hm : htmlNewlineRx.matchAt pre post with
      | none => rfl
      | some m =>
        obtain ⟨rest, hr, _⟩ := Rx.matchAt_shape hm
        exact absurd hr (h1 _ _ (br_text hm))
    · rw [h] at h2
      rcases hb with rfl | rfl | rfl | rfl <;> cases h2
  · intro pre post h
    rcases brLen_cases post with ⟨h1, _⟩ | ⟨b, r, hb, rfl, h2⟩
    · exact absurd h1 h
    · unfold Rx.matchAt
      rw [br_run hb]
      refine ⟨_, rfl, ?_⟩
      rw [h2]
      simp
  · intro post
    rcases brLen_cases post with ⟨h1, _⟩ | ⟨b, r, hb, rfl, h2⟩
    · omega
    · rw [h2]; simp

end MF
