import Verif.Lemmas.InlineWrap
/-!
# White space runs made single spaces
-/

namespace MF

/-- Every run of white space becomes one space. -/
def sq : Str → Str
  | [] => []
  | c :: s => if isWs c then (if s.head?.any isWs then sq s else ' ' :: sq s) else c :: sq s

theorem sq_nonWs {c : Char} {s : Str} (h : isWs c = false) : sq (c :: s) = c :: sq s := by simp [sq, h]

theorem sq_ws {c : Char} {s : Str} (h : isWs c = true) : sq (c :: s) = sq s ∨ sq (c :: s) = ' ' :: sq s := by
  simp only [sq, h, if_true]
  split
  · exact .inl rfl
  · exact .inr rfl

theorem sq_head {c : Char} {s : Str} (h : isWs c = true) : (sq (c :: s)).head? = some ' ' := by
  induction s generalizing c with
  | nil => simp [sq, h]
  | cons d s ih =>
    rw [sq, if_pos h]
    by_cases hd : isWs d = true
    · rw [if_pos (by simpa using hd)]
      exact ih hd
    · rw [if_neg (by simpa using hd)]; rfl

theorem sq_append_nonWs (w s : Str) (h : ∀ c ∈ w, isWs c = false) : sq (w ++ s) = w ++ sq s := by
  induction w with
  | nil => rfl
  | cons c w ih => rw [List.cons_append, sq_nonWs (h c (by simp)), ih fun c hc => h c (by simp [hc])]; rfl

theorem sq_around (a : Str) (c : Char) (b : Str) (h : isWs c = false) : sq (a ++ c :: b) = sq a ++ c :: sq b := by
  induction a with
  | nil => rw [List.nil_append, sq_nonWs h]; rfl
  | cons d a ih =>
    have e : ((a ++ c :: b).head?.any isWs) = a.head?.any isWs := by
      cases a with
      | nil => simp [h]
      | cons x a => rfl
    simp only [List.cons_append, sq, e, ih]
    split
    · split <;> rfl
    · rfl

theorem sq_run (g s : Str) (hg : ∀ c ∈ g, isWs c = true) (hne : g ≠ []) (hs : StartsNonWs s) : sq (g ++ s) = ' ' :: sq s := by
  induction g with
  | nil => exact absurd rfl hne
  | cons c g ih =>
    obtain ⟨d, r, rfl, hd⟩ := hs
    cases g with
    | nil => simp [sq, hg c (by simp), hd]
    | cons x g =>
      have := ih (fun c hc => hg c (by simp [hc])) (by simp)
      simp only [List.cons_append] at this ⊢
      rw [sq, if_pos (hg c (by simp)), if_pos (by simp [hg x (by simp)])]
      exact this

/-- a word in the result is a word in the text -/
theorem sq_prefix {w : Str} (hw : ∀ c ∈ w, isWs c = false) : ∀ {s : Str}, w <+: sq s → w <+: s := by
  induction w with
  | nil => intro s _; exact List.nil_prefix
  | cons d w ih =>
    intro s h
    cases s with
    | nil => simp [sq] at h
    | cons c s =>
      cases hc : isWs c with
      | true =>
        exfalso
        have h1 := sq_head (s := s) hc
        obtain ⟨r, hr⟩ := h
        rw [← hr] at h1
        have : d = ' ' := by simpa using h1
        have h2 := hw d (by simp)
        rw [this] at h2
        exact absurd h2 (by decide)
      | false =>
        rw [sq_nonWs hc, List.cons_prefix_cons] at h
        rw [List.cons_prefix_cons]
        exact ⟨h.1, ih (fun c hc => hw c (by simp [hc])) h.2⟩

theorem sq_infix {w : Str} (hw : ∀ c ∈ w, isWs c = false) {s : Str} (h : w <:+: sq s) : w <:+: s := by
  have up : ∀ {c : Char} {s : Str}, w <:+: s → w <:+: c :: s := by
    intro c s h
    exact h.trans ⟨[c], [], by simp⟩
  induction s with
  | nil => simpa [sq] using h
  | cons c s ih =>
    cases hc : isWs c with
    | true =>
      rcases sq_ws (s := s) hc with e | e
      · rw [e] at h; exact up (ih h)
      · rw [e] at h
        rcases List.infix_cons_iff.1 h with h | h
        · cases w with
          | nil => exact List.nil_infix
          | cons d w =>
            have : d = ' ' := (List.cons_prefix_cons.1 h).1
            have h2 := hw d (by simp)
            rw [this] at h2
            exact absurd h2 (by decide)
        · exact up (ih h)
    | false =>
      rw [sq_nonWs hc] at h
      rcases List.infix_cons_iff.1 h with h | h
      · refine List.IsPrefix.isInfix ?_
        cases w with
        | nil => exact List.nil_prefix
        | cons d w =>
          rw [List.cons_prefix_cons] at h ⊢
          exact ⟨h.1, sq_prefix (fun c hc => hw c (by simp [hc])) h.2⟩
      · exact up (ih h)

theorem sq_mem {s : Str} {c : Char} (h : c ∈ sq s) (hc : isWs c = false) : c ∈ s := by
  have : [c] <:+: s := sq_infix (by simp [hc]) ((List.append_of_mem h).elim fun a h => h.elim fun b h => ⟨a, b, by rw [h]; simp⟩)
  obtain ⟨a, b, rfl⟩ := this
  simp

theorem sq_space {s : Str} {c : Char} (h : c ∈ sq s) (hc : isWs c = true) : c = ' ' := by
  induction s with
  | nil => cases h
  | cons d s ih =>
    cases hd : isWs d with
    | true =>
      rcases sq_ws (s := s) hd with e | e
      · rw [e] at h; exact ih h
      · rw [e] at h
        rcases List.mem_cons.1 h with h | h
        · exact h
        · exact ih h
    | false =>
      rw [sq_nonWs hd] at h
      rcases List.mem_cons.1 h with h | h
      · subst h; rw [hc] at hd; cases hd
      · exact ih h

/-- the words of a text with single spaces between them -/
theorem sq_words : ∀ (n : Nat) (s : Str), s.length ≤ n → StartsNonWs s → EndsNonWs s → pyJoin c!" " (splitWs s) = sq s := by
  intro n
  induction n with
  | zero =>
    intro s hs h1 _
    obtain ⟨c, r, rfl, _⟩ := h1
    simp at hs
  | succ n ih =>
    intro s hs h1 h2
    obtain ⟨d, x, rfl, hd⟩ := h1
    have e2 := List.takeWhile_append_dropWhile (p := fun c => !isWs c) (l := x)
    have hall : ∀ c ∈ x.takeWhile (fun c => !isWs c), isWs c = false := fun c hc => by
      have := List.all_eq_true.1 (List.all_takeWhile (p := fun c => !isWs c) (l := x)) c hc
      simpa using this
    have hrest : ∀ c, (x.dropWhile (fun c => !isWs c)).head? = some c → isWs c = true := by
      intro c hc
      have := List.head?_dropWhile_not (fun c => !isWs c) x
      rw [hc] at this
      simpa using this
    rw [splitWs_first x hd]
    generalize hr : x.dropWhile (fun c => !isWs c) = rest at *
    generalize hw : x.takeWhile (fun c => !isWs c) = w at *
    have es : d :: x = (d :: w) ++ rest := by rw [← e2]; rfl
    rw [es]
    have hdw : ∀ c ∈ d :: w, isWs c = false := by
      intro c hc
      rcases List.mem_cons.1 hc with rfl | hc
      · exact hd
      · exact hall c hc
    rw [sq_append_nonWs _ _ hdw]
    have hg : ∀ c ∈ rest.takeWhile isWs, isWs c = true := fun c hc =>
      List.all_eq_true.1 (List.all_takeWhile (p := isWs) (l := rest)) c hc
    have e3 := List.takeWhile_append_dropWhile (p := isWs) (l := rest)
    cases hy : rest.dropWhile isWs with
    | nil =>
      -- nothing but white space can only be nothing
      have hre : rest = [] := by
        cases hre : rest with
        | nil => rfl
        | cons c r =>
          exfalso
          obtain ⟨y, z, hz, hz2⟩ := h2
          rw [hy, List.append_nil] at e3
          rw [e3] at hg
          have : z ∈ rest := by
            rcases List.eq_nil_or_concat rest with h0 | ⟨a, b, h0⟩
            · rw [h0] at hre; cases hre
            · rw [List.concat_eq_append] at h0
              rw [es, h0, ← List.append_assoc] at hz
              have := (List.append_inj' hz rfl).2
              rw [h0]
              simp at this
              simp [this]
          rw [hg z this] at hz2; cases hz2
      rw [hre]
      simp [splitWs, pyJoin, sq]
    | cons c s' =>
      have hc : isWs c = false := by
        have := List.head?_dropWhile_not isWs rest
        rw [hy] at this
        simpa using this
      rw [hy] at e3
      have hgne : rest.takeWhile isWs ≠ [] := by
        intro h0
        rw [h0, List.nil_append] at e3
        rw [hrest c (by rw [← e3]; rfl)] at hc; cases hc
      have hend : EndsNonWs (c :: s') := by
        obtain ⟨y, z, hz, hz2⟩ := h2
        rcases List.eq_nil_or_concat (c :: s') with h0 | ⟨a, b, h0⟩
        · cases h0
        · rw [List.concat_eq_append] at h0
          rw [es, ← e3, h0, ← List.append_assoc, ← List.append_assoc] at hz
          have := (List.append_inj' hz rfl).2
          simp at this
          exact ⟨a, b, h0, by rw [this]; exact hz2⟩
      have hlen : (c :: s').length ≤ n := by
        have h1 : rest.length = (rest.takeWhile isWs).length + (c :: s').length := by
          conv => lhs; rw [← e3, List.length_append]
        rw [es] at hs
        simp at hs h1 ⊢
        omega
      have := ih (c :: s') hlen ⟨c, s', rfl, hc⟩ hend
      rw [← e3, sq_run _ _ hg hgne ⟨c, s', rfl, hc⟩, splitWs_prepend_all hg, ← this]
      obtain ⟨w', ws', hws⟩ := List.exists_cons_of_ne_nil (splitWs_ne_nil (r := s') hc)
      rw [hws, pyJoin_cons_ne (by simp)]
      simp

theorem splitWs_sq {s : Str} (h1 : StartsNonWs s) (h2 : EndsNonWs s) : splitWs (sq s) = splitWs s := by
  rw [← sq_words _ s (Nat.le_refl _) h1 h2, splitWs_pyJoin]
  have : (splitWs s).map splitWs = (splitWs s).map fun w => [w] :=
    List.map_congr_left fun w hw => splitWs_self (splitWs_word hw).1 (splitWs_word hw).2.1
  rw [this]
  induction splitWs s with
  | nil => rfl
  | cons w ws ih => simpa using ih

/-- the words of a link's name in a row -/
theorem Link.squeeze {o c : Char} {pre name target tail : Str} (h : Link o c pre name target tail) :
    Link o c pre (sq name) target tail ∧
    pyJoin c!" " (splitWs (pre ++ '[' :: (name ++ [']', o]))) = pre ++ '[' :: (sq name ++ [']', o]) ∧
    splitWs (pre ++ '[' :: (sq name ++ [']', o])) = splitWs (pre ++ '[' :: (name ++ [']', o])) := by
  have hp : ∀ x ∈ pre, isWs x = false := fun x hx => (h.preOk x hx).1
  have ho : isWs o = false := by rcases h.kind' with rfl | rfl <;> decide
  have e : sq (pre ++ '[' :: (name ++ [']', o])) = pre ++ '[' :: (sq name ++ [']', o]) := by
    rw [sq_append_nonWs _ _ hp, sq_nonWs (by decide), sq_around _ _ _ (by decide), sq_nonWs ho]
    rfl
  have e1 : sq (pre ++ '[' :: name) = pre ++ '[' :: sq name := by rw [sq_append_nonWs _ _ hp, sq_nonWs (by decide)]
  have hst := h.head_stripped
  refine ⟨⟨h.kind, h.preOk, ⟨?_, ?_, ?_⟩, ?_, h.targetOk, h.targetStart, h.tailOk, ⟨?_, h.noBr.2⟩, ?_⟩, ?_, ?_⟩
  · obtain ⟨d, r, hd⟩ := List.exists_cons_of_ne_nil h.nameOk.1
    rw [hd]
    cases hw : isWs d with
    | true => intro h0; have := sq_head (s := r) hw; rw [h0] at this; cases this
    | false => rw [sq_nonWs hw]; simp
  · exact fun h0 => h.nameOk.2.1 (sq_mem h0 (by decide))
  · exact fun h0 => h.nameOk.2.2 (sq_infix (by decide) h0)
  · intro x hx
    obtain ⟨y, z, hy⟩ : ∃ y z, name = y ++ [z] := by
      rcases List.eq_nil_or_concat name with h0 | ⟨y, z, h0⟩
      · exact absurd h0 h.nameOk.1
      · exact ⟨y, z, by rw [h0, List.concat_eq_append]⟩
    have hz := h.nameEnd z (by rw [hy]; simp)
    rw [hy, sq_around _ _ _ hz] at hx
    simp [sq] at hx
    rw [← hx]; exact hz
  · rw [← e1]
    exact fun h0 => h.noBr.1 (sq_infix (by decide) h0)
  · intro h0
    apply h.noTick
    unfold linkText at h0 ⊢
    simp only [List.mem_append, List.mem_cons] at h0 ⊢
    rcases h0 with h0 | h0 | h0 | h0
    · exact .inl h0
    · exact .inr (.inl h0)
    · exact .inr (.inr (.inl (sq_mem h0 (by decide))))
    · exact .inr (.inr (.inr h0))
  · rw [sq_words _ _ (Nat.le_refl _) hst.starts hst.ends, e]
  · rw [← e, splitWs_sq hst.starts hst.ends]

end MF
