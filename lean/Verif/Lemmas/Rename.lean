import Verif.Model.Lines
/-!
# Renaming of characters: strings, regular expressions, line predicates

The functions on strings commute with every one-to-one renaming of characters that leaves white space and the
characters of the markup alone.
-/

namespace MF

/-- The characters other than white space that markflow compares anything with. -/
def marks : Str := c!"#>`~*+-_=.|[]():\\'\"<br/0123456789"

/-- White space, or a character markflow compares anything with. -/
def isMark (c : Char) : Bool := isWs c || marks.contains c

/-- A masking of characters: nothing that has a meaning is masked, and nothing is masked by what has one. -/
class Mask (f : Char → Char) : Prop where
  fix : ∀ {c : Char}, isMark c = true → f c = c
  keep : ∀ {c : Char}, isMark (f c) = true → isMark c = true

/-- A renaming of characters: one-to-one, and nothing that has a meaning is renamed. -/
class Ren (f : Char → Char) : Prop where
  inj : ∀ {a b : Char}, f a = f b → a = b
  fix : ∀ {c : Char}, isMark c = true → f c = c

instance Ren.mask {f : Char → Char} [Ren f] : Mask f where
  fix := Ren.fix
  keep {c} h := by
    have := Ren.inj (Ren.fix (f := f) h)
    rwa [this] at h

section
variable {f : Char → Char} [Mask f]

local notation "ρ" => List.map f
local notation "ρs" => List.map (List.map f)

/-- A predicate that holds only of marks does not see a renaming. -/
theorem ren_pred {p : Char → Bool} (hp : ∀ c, p c = true → isMark c = true) (c : Char) : p (f c) = p c := by
  cases h : p c with
  | true => rw [Mask.fix (f := f) (hp c h)]; exact h
  | false =>
    cases h' : p (f c) with
    | false => rfl
    | true =>
      have := Mask.fix (f := f) (Mask.keep (hp _ h'))
      rw [this, h] at h'; exact h'.symm

theorem ren_isWs (c : Char) : isWs (f c) = isWs c := ren_pred (fun c h => by simp [isMark, h]) c

theorem ren_isLB (c : Char) : isLB (f c) = isLB c := ren_pred (fun c h => by
  have : isWs c = true := by
    simp only [isLB, isWs, Bool.or_eq_true, Bool.and_eq_true, decide_eq_true_eq, beq_iff_eq] at h ⊢
    omega
  simp [isMark, this]) c

theorem ren_beq {d : Char} (hd : isMark d = true) (c : Char) : (f c == d) = (c == d) :=
  ren_pred (p := (· == d)) (fun c h => by rw [beq_iff_eq] at h; rw [h]; exact hd) c

theorem ren_bne {d : Char} (hd : isMark d = true) (c : Char) : (f c != d) = (c != d) := by
  simp only [bne, ren_beq hd]

theorem ren_isDigit (c : Char) : isDigit (f c) = isDigit c := ren_pred (fun c h => by
  have hc : c = Char.ofNat c.toNat := (Char.ofNat_toNat c).symm
  simp only [isDigit, Bool.and_eq_true, decide_eq_true_eq] at h
  have : c.toNat = 48 ∨ c.toNat = 49 ∨ c.toNat = 50 ∨ c.toNat = 51 ∨ c.toNat = 52 ∨ c.toNat = 53 ∨ c.toNat = 54 ∨ c.toNat = 55 ∨
    c.toNat = 56 ∨ c.toNat = 57 := by omega
  rcases this with h | h | h | h | h | h | h | h | h | h <;> rw [h] at hc <;> rw [hc] <;> decide) c

omit [Mask f] in
theorem ren_inj_beq [Ren f] (a b : Char) : (f a == f b) = (a == b) := by
  cases h : a == b with
  | true => rw [beq_iff_eq] at h; simp [h]
  | false =>
    cases h' : f a == f b with
    | false => rfl
    | true => rw [Ren.inj (beq_iff_eq.1 h')] at h; simp at h

/-! ## Strings -/

omit [Mask f] in
theorem ren_dropWhile {p q : Char → Bool} (h : ∀ c, p (f c) = q c) (s : Str) : (ρ s).dropWhile p = ρ (s.dropWhile q) := by
  induction s with
  | nil => rfl
  | cons c s ih => simp only [List.map_cons, List.dropWhile_cons, h]; split <;> simp [ih]

omit [Mask f] in
theorem ren_takeWhile {p q : Char → Bool} (h : ∀ c, p (f c) = q c) (s : Str) : (ρ s).takeWhile p = ρ (s.takeWhile q) := by
  induction s with
  | nil => rfl
  | cons c s ih => simp only [List.map_cons, List.takeWhile_cons, h]; split <;> simp [ih]

omit [Mask f] in
theorem ren_lstripBy {p q : Char → Bool} (h : ∀ c, p (f c) = q c) (s : Str) : lstripBy p (ρ s) = ρ (lstripBy q s) := ren_dropWhile h s

omit [Mask f] in
theorem ren_rstripBy {p q : Char → Bool} (h : ∀ c, p (f c) = q c) (s : Str) : rstripBy p (ρ s) = ρ (rstripBy q s) := by
  simp only [rstripBy, ← List.map_reverse, ren_dropWhile h]

theorem ren_lstrip (s : Str) : lstrip (ρ s) = ρ (lstrip s) := ren_dropWhile ren_isWs s
theorem ren_rstrip (s : Str) : rstrip (ρ s) = ρ (rstrip s) := ren_rstripBy ren_isWs s
theorem ren_strip (s : Str) : strip (ρ s) = ρ (strip s) := by simp only [strip, ren_lstrip, ren_rstrip]

omit [Mask f] in
theorem ren_consHead (c : Char) (ls : List Str) : consHead (f c) (ρs ls) = ρs (consHead c ls) := by cases ls <;> rfl

theorem ren_splitlines (s : Str) : splitlines (ρ s) = ρs (splitlines s) := by
  induction s with
  | nil => rfl
  | cons c s ih =>
    have h : ((ρ s).head? == some '\n') = (s.head? == some '\n') := by
      cases s with
      | nil => rfl
      | cons d s => exact ren_beq (by decide) d
    simp only [splitlines, List.map_cons, ih, ren_isLB, ren_beq (show isMark '\r' = true by decide), h, ren_consHead]
    split
    · rfl
    · split <;> rfl

omit [Mask f] in
theorem ren_pyJoin {sep : Str} (h : ρ sep = sep) (ls : List Str) : pyJoin sep (ρs ls) = ρ (pyJoin sep ls) := by
  induction ls with
  | nil => rfl
  | cons x r ih =>
    cases r with
    | nil => rfl
    | cons y r =>
      simp only [List.map_cons] at ih ⊢
      simp only [pyJoin, ih, List.map_append, h]

theorem ren_fixed {s : Str} (h : s.all isMark = true) : ρ s = s := by
  induction s with
  | nil => rfl
  | cons c s ih =>
    simp only [List.all_cons, Bool.and_eq_true] at h
    simp only [List.map_cons, Mask.fix h.1, ih h.2]

theorem ren_splitChar {sep : Char} (h : isMark sep = true) (s : Str) : splitChar sep (ρ s) = ρs (splitChar sep s) := by
  induction s with
  | nil => rfl
  | cons c s ih => simp only [List.map_cons, splitChar, ih, ren_beq h, ren_consHead]; split <;> rfl

theorem ren_splitPair {a b : Char} (ha : isMark a = true) (hb : isMark b = true) (s : Str) :
    splitPair a b (ρ s) = ρs (splitPair a b s) := by
  fun_induction splitPair a b s with
  | case1 => rfl
  | case2 x => rfl
  | case3 x y rest h ih => simp only [List.map_cons, splitPair, ren_beq ha, ren_beq hb, h, ih, if_true]; rfl
  | case4 x y rest h ih =>
    simp only [List.map_cons] at ih
    simp only [List.map_cons, splitPair, ren_beq ha, ren_beq hb, h, ih]
    exact ren_consHead _ _

theorem ren_splitWs (s : Str) : splitWs (ρ s) = ρs (splitWs s) := by
  induction s with
  | nil => rfl
  | cons c s ih =>
    cases s with
    | nil => simp only [List.map_cons, List.map_nil, splitWs, ren_isWs]; split <;> rfl
    | cons d s =>
      simp only [List.map_cons] at ih ⊢
      unfold splitWs
      simp only [ren_isWs, ih, ren_consHead]
      split
      · rfl
      · split <;> rfl

theorem ren_splitMax1 (s : Str) : splitMax1 (ρ s) = ρs (splitMax1 s) := by
  have hn : ∀ c, (!isWs (f c)) = !isWs c := fun c => by rw [ren_isWs]
  unfold splitMax1
  rw [ren_lstrip]
  cases lstrip s with
  | nil => rfl
  | cons c r =>
    rw [List.map_cons]
    simp only [← List.map_cons (f := f), ren_takeWhile (f := f) (p := fun x => !isWs x) (q := fun x => !isWs x) hn,
      ren_dropWhile (f := f) (p := fun x => !isWs x) (q := fun x => !isWs x) hn, ren_lstrip]
    cases lstrip ((c :: r).dropWhile fun x => !isWs x) <;> rfl

omit [Mask f] in
theorem ren_isPrefixOf [Ren f] (p s : Str) : (ρ p).isPrefixOf (ρ s) = p.isPrefixOf s := by
  induction p generalizing s with
  | nil => simp
  | cons a p ih =>
    cases s with
    | nil => rfl
    | cons b s => simp only [List.map_cons, List.isPrefixOf_cons_cons, ren_inj_beq, ih]

theorem ren_markPrefix {p : Str} (hp : p.all isMark = true) (s : Str) : p.isPrefixOf (ρ s) = p.isPrefixOf s := by
  induction p generalizing s with
  | nil => simp
  | cons a p ih =>
    simp only [List.all_cons, Bool.and_eq_true] at hp
    cases s with
    | nil => rfl
    | cons b s =>
      have h : (a == f b) = (a == b) := by
        have := ren_beq (f := f) hp.1 b
        rw [Bool.beq_comm (a := a), Bool.beq_comm (a := a), this]
      simp only [List.map_cons, List.isPrefixOf_cons_cons, h, ih hp.2]

theorem ren_markIn {p : Str} (hp : p.all isMark = true) (s : Str) : isIn p (ρ s) = isIn p s := by
  induction s with
  | nil => cases p <;> rfl
  | cons c s ih =>
    have := ren_markPrefix (f := f) hp (c :: s)
    simp only [List.map_cons] at this ⊢
    simp only [isIn, this, ih]

omit [Mask f] in
theorem ren_isIn [Ren f] (p s : Str) : isIn (ρ p) (ρ s) = isIn p s := by
  induction s with
  | nil => cases p <;> rfl
  | cons c s ih =>
    have := ren_isPrefixOf (f := f) p (c :: s)
    simp only [List.map_cons] at this ⊢
    simp only [isIn, this, ih]

theorem ren_startsWith {p : Str} (hp : p.all isMark = true) (s : Str) : startsWith (ρ s) p = startsWith s p := by
  exact ren_markPrefix hp s

theorem ren_endsWith {p : Str} (hp : p.all isMark = true) (s : Str) : endsWith (ρ s) p = endsWith s p := by
  have := ren_markPrefix (f := f) (p := p.reverse) (by rw [List.all_reverse]; exact hp) s.reverse
  rw [List.map_reverse] at this
  exact this

omit [Mask f] in
theorem ren_slice (s : Str) (a b : Nat) : slice (ρ s) a b = ρ (slice s a b) := by
  simp only [slice, List.map_take, List.map_drop]

omit [Mask f] in
theorem ren_inner {α β : Type} (g : α → β) (xs : List α) : inner (xs.map g) = (inner xs).map g := by
  simp only [inner, List.map_dropLast, List.map_drop]

theorem ren_mark_beq {b : Str} (hb : b.all isMark = true) (a : Str) : (ρ a == b) = (a == b) := by
  induction a generalizing b with
  | nil => cases b <;> rfl
  | cons x a ih =>
    cases b with
    | nil => rfl
    | cons y b =>
      simp only [List.all_cons, Bool.and_eq_true] at hb
      simp only [List.map_cons, List.cons_beq_cons, ren_beq hb.1, ih hb.2]

omit [Mask f] in
theorem ren_str_beq [Ren f] (a b : Str) : (ρ a == ρ b) = (a == b) := by
  induction a generalizing b with
  | nil => cases b <;> rfl
  | cons x a ih =>
    cases b with
    | nil => rfl
    | cons y b =>
      have := ih b
      simp only [List.map_cons, List.cons_beq_cons, ren_inj_beq, this]

omit [Mask f] in
theorem ren_isEmpty (s : Str) : (ρ s).isEmpty = s.isEmpty := by cases s <;> rfl

omit [Mask f] in
theorem ren_all {p : Char → Bool} (h : ∀ c, p (f c) = p c) (s : Str) : (ρ s).all p = s.all p := by
  induction s with
  | nil => rfl
  | cons c s ih => simp only [List.map_cons, List.all_cons, h, ih]

theorem ren_getIndent (s : Str) : getIndent (ρ s) = getIndent s := by
  simp only [getIndent, ren_lstrip, List.length_map]

/-! ## Regular expressions -/

/-- The pattern does not see a renaming. -/
def Rx.Inv (f : Char → Char) : Rx → Prop
  | .chr p => ∀ c, p (f c) = p c
  | .eps => True
  | .seq a b => a.Inv f ∧ b.Inv f
  | .alt a b => a.Inv f ∧ b.Inv f
  | .rep r _ _ => r.Inv f
  | .grp _ r => r.Inv f
  | .bol => True
  | .eol => True
  | .notAhead r => r.Inv f
  | .notBehind p => ∀ c, p (f c) = p c

/-- The renamed captures. -/
def capsRn (f : Char → Char) (cs : List (Nat × Str × Nat)) : List (Nat × Str × Nat) := cs.map fun c => (c.1, c.2.1.map f, c.2.2)

/-- The renamed matcher state. -/
def MS.rn (f : Char → Char) (st : MS) : MS := { pre := st.pre.map f, post := st.post.map f, caps := capsRn f st.caps }

/-- The renamed match. -/
def Match.rn (f : Char → Char) (m : Match) : Match := { start := m.start, stop := m.stop, text := m.text.map f, caps := capsRn f m.caps }

omit [Mask f] in
theorem ren_repRun {β γ : Type} {g : β → γ} {body : MS → (MS → Option β) → Option β} {body' : MS → (MS → Option γ) → Option γ}
    (hb : ∀ st k k', (∀ s, k' (s.rn f) = (k s).map g) → body' (st.rn f) k' = (body st k).map g)
    (fuel mn : Nat) (mx : Option Nat) (st : MS) (k : MS → Option β) (k' : MS → Option γ) (hk : ∀ s, k' (s.rn f) = (k s).map g) :
    repRun body' fuel mn mx (st.rn f) k' = (repRun body fuel mn mx st k).map g := by
  induction fuel generalizing mn mx st with
  | zero => simp only [repRun]; split <;> simp [hk]
  | succ fuel ih =>
    simp only [repRun]
    by_cases hm : (mx == some 0) = true
    · simp only [hm, if_true]; split <;> simp [hk]
    · simp only [hm, if_false, Bool.false_eq_true]
      rw [hb st (fun st' => if st'.post.length < st.post.length then repRun body fuel (mn - 1) (mx.map (· - 1)) st' k else none) _
        (fun s => by
          simp only [MS.rn, List.length_map]
          by_cases hl : s.post.length < st.post.length
          · simp only [hl, if_true]; exact ih _ _ _
          · simp only [hl, if_false]; rfl)]
      cases body st _ with
      | some r => rfl
      | none => simp only [Option.map_none]; split <;> simp [hk]

theorem ren_run (r : Rx) (hr : r.Inv f) {β γ : Type} (g : β → γ) (st : MS) (k : MS → Option β) (k' : MS → Option γ)
    (hk : ∀ s, k' (s.rn f) = (k s).map g) : r.run (st.rn f) k' = (r.run st k).map g := by
  induction r generalizing β γ st with
  | chr p =>
    obtain ⟨pre, post, caps⟩ := st
    cases post with
    | nil => rfl
    | cons c cs =>
      simp only [Rx.run, MS.rn, List.map_cons, hr c]
      split
      · exact hk ⟨c :: pre, cs, caps⟩
      · rfl
  | eps => exact hk st
  | seq a b iha ihb => exact iha hr.1 g st _ _ (fun s => ihb hr.2 g s k k' hk)
  | alt a b iha ihb =>
    simp only [Rx.run, iha hr.1 g st k k' hk, ihb hr.2 g st k k' hk]
    cases a.run st k <;> rfl
  | rep r mn mx ih =>
    simp only [Rx.run]
    rw [show (MS.rn f st).post.length = st.post.length by simp [MS.rn]]
    exact ren_repRun (fun s k1 k2 h => ih hr g s k1 k2 h) _ _ _ _ _ _ hk
  | grp n r ih =>
    refine ih hr g st _ _ (fun s => ?_)
    rw [← hk]
    simp only [MS.rn, capsRn, List.length_map, List.map_cons, List.map_take]
  | bol =>
    obtain ⟨pre, post, caps⟩ := st
    simp only [Rx.run, MS.rn, ren_isEmpty]
    split
    · exact hk ⟨pre, post, caps⟩
    · rfl
  | eol =>
    obtain ⟨pre, post, caps⟩ := st
    have h := ren_mark_beq (f := f) (b := ['\n']) (by decide) post
    simp only [Rx.run, MS.rn, ren_isEmpty, h]
    split
    · exact hk ⟨pre, post, caps⟩
    · rfl
  | notAhead r ih =>
    simp only [Rx.run, ih hr id st (fun _ => some ()) (fun _ => some ()) (fun _ => rfl)]
    cases Rx.run r st (fun _ => some ()) with
    | none => exact hk st
    | some _ => rfl
  | notBehind p =>
    obtain ⟨pre, post, caps⟩ := st
    cases pre with
    | nil => exact hk ⟨[], post, caps⟩
    | cons c cs =>
      simp only [Rx.run, MS.rn, List.map_cons, hr c]
      split
      · rfl
      · exact hk ⟨c :: cs, post, caps⟩

theorem ren_matchAt {r : Rx} (hr : r.Inv f) (pre post : Str) : r.matchAt (ρ pre) (ρ post) = (r.matchAt pre post).map (Match.rn f) := by
  have h := ren_run r hr (MS.rn f) ⟨pre, post, []⟩ some some (fun s => rfl)
  simp only [MS.rn, capsRn, List.map_nil] at h
  simp only [Rx.matchAt, h, Option.map_map]
  congr 1
  funext st
  simp [Match.rn, MS.rn, capsRn, List.map_take]

theorem ren_match? {r : Rx} (hr : r.Inv f) (s : Str) : r.match? (ρ s) = (r.match? s).map (Match.rn f) := ren_matchAt hr [] s

theorem ren_searchFrom {r : Rx} (hr : r.Inv f) (pre post : Str) :
    r.searchFrom (ρ pre) (ρ post) = (r.searchFrom pre post).map (Match.rn f) := by
  induction post generalizing pre with
  | nil => exact ren_matchAt hr pre []
  | cons c cs ih =>
    have h1 := ren_matchAt hr pre (c :: cs)
    have h2 := ih (c :: pre)
    simp only [List.map_cons] at h1 h2 ⊢
    simp only [Rx.searchFrom, h1, h2]
    cases r.matchAt pre (c :: cs) <;> rfl

theorem ren_search {r : Rx} (hr : r.Inv f) (s : Str) : r.search (ρ s) = (r.search s).map (Match.rn f) := ren_searchFrom hr [] s

theorem ren_finditerFrom {r : Rx} (hr : r.Inv f) (fuel : Nat) (pre post : Str) :
    r.finditerFrom fuel (ρ pre) (ρ post) = (r.finditerFrom fuel pre post).map (Match.rn f) := by
  induction fuel generalizing pre post with
  | zero => rfl
  | succ fuel ih =>
    simp only [Rx.finditerFrom, ren_searchFrom hr]
    cases r.searchFrom pre post with
    | none => rfl
    | some m =>
      simp only [Option.map_some, Match.rn, List.length_map]
      split
      · rfl
      · have := ih ((post.take (m.stop - pre.length)).reverse ++ pre) (post.drop (m.stop - pre.length))
        simp only [List.map_append, List.map_reverse, List.map_take, List.map_drop] at this
        rw [this]
        rfl

theorem ren_finditer {r : Rx} (hr : r.Inv f) (s : Str) : r.finditer (ρ s) = (r.finditer s).map (Match.rn f) := by
  have := ren_finditerFrom hr (s.length + 1) [] s
  simpa only [Rx.finditer, List.length_map, List.map_nil] using this

omit [Mask f] in
theorem ren_splitAt' (s : Str) (last : Nat) (ms : List Match) :
    splitAt' (ρ s) last (ms.map (Match.rn f)) = ρs (splitAt' s last ms) := by
  induction ms generalizing last with
  | nil => simp [splitAt', List.map_drop]
  | cons m ms ih => simp only [List.map_cons, splitAt', ren_slice, Match.rn]; rw [← ih]

theorem ren_split {r : Rx} (hr : r.Inv f) (s : Str) : r.split (ρ s) = ρs (r.split s) := by
  simp only [Rx.split, ren_finditer hr, ren_splitAt']

theorem ren_subEmpty {r : Rx} (hr : r.Inv f) (s : Str) : r.subEmpty (ρ s) = ρ (r.subEmpty s) := by
  simp only [Rx.subEmpty, ren_split hr, List.map_flatten]

omit [Mask f] in
theorem ren_group (m : Match) (n : Nat) : (m.rn f).group n = (m.group n).map ρ := by
  simp only [Match.group, Match.rn, capsRn]
  induction m.caps with
  | nil => rfl
  | cons c cs ih =>
    simp only [List.map_cons, List.find?_cons]
    cases h : c.1 == n <;> simp_all

omit [Mask f] in
theorem ren_groupEnd (m : Match) (n : Nat) : (m.rn f).groupEnd n = m.groupEnd n := by
  simp only [Match.groupEnd, Match.rn, capsRn]
  induction m.caps with
  | nil => rfl
  | cons c cs ih =>
    simp only [List.map_cons, List.find?_cons]
    cases h : c.1 == n <;> simp_all

/-! ## Line predicates -/

/-- The equations that show that a pattern or predicate with literal characters does not see a renaming. -/
theorem ren_lits (c : Char) : ((f c == ' ') = (c == ' ')) ∧ ((f c == '*') = (c == '*')) ∧ ((f c == '+') = (c == '+')) ∧
    ((f c == '-') = (c == '-')) ∧ ((f c == '.') = (c == '.')) ∧ ((f c == '[') = (c == '[')) ∧ ((f c == ']') = (c == ']')) ∧
    ((f c == ':') = (c == ':')) ∧ ((f c == '\\') = (c == '\\')) ∧ ((f c == '>') = (c == '>')) ∧ ((f c == '<') = (c == '<')) ∧
    ((f c == '`') = (c == '`')) ∧ ((f c == '(') = (c == '(')) ∧ ((f c == ')') = (c == ')')) ∧ ((f c == 'b') = (c == 'b')) ∧
    ((f c == 'r') = (c == 'r')) ∧ ((f c == '/') = (c == '/')) ∧ ((f c == '|') = (c == '|')) ∧ ((f c == '\n') = (c == '\n')) ∧
    ((f c == '#') = (c == '#')) ∧ ((f c == '=') = (c == '=')) ∧ ((f c == '_') = (c == '_')) ∧ ((f c == '~') = (c == '~')) ∧
    ((f c == '\'') = (c == '\'')) ∧ ((f c == '"') = (c == '"')) := by
  refine ⟨?_, ?_, ?_, ?_, ?_, ?_, ?_, ?_, ?_, ?_, ?_, ?_, ?_, ?_, ?_, ?_, ?_, ?_, ?_, ?_, ?_, ?_, ?_, ?_, ?_⟩ <;>
    exact ren_beq (by decide) c

theorem inv_bulletStart : bulletStartRx.Inv f := by
  simp [bulletStartRx, Rx.seqs, Rx.star, Rx.Inv, ren_isWs, ren_lits]

theorem inv_orderedStart : orderedStartRx.Inv f := by
  simp [orderedStartRx, Rx.seqs, Rx.star, Rx.plus, Rx.Inv, ren_isWs, ren_isDigit, ren_lits]

theorem ren_isIndentedStart (l : Str) : isIndentedStart (ρ l) = isIndentedStart l := by
  simp only [isIndentedStart, ren_strip, ren_isEmpty, ren_getIndent]

theorem ren_isAtx (l : Str) : isAtx (ρ l) = isAtx l := by
  simp only [isAtx, ren_isIndentedStart, ren_lstrip, ren_startsWith (p := ['#']) (by decide)]

theorem ren_isBlankLine (l : Str) : isBlankLine (ρ l) = isBlankLine l := by
  simp only [isBlankLine, ren_strip, ren_isEmpty]

theorem ren_isQuote (l : Str) : isQuote (ρ l) = isQuote l := by
  simp only [isQuote, ren_isIndentedStart, ren_lstrip, ren_startsWith (p := ['>']) (by decide)]

theorem ren_isFenceStart (l : Str) : isFenceStart (ρ l) = isFenceStart l := by
  simp only [isFenceStart, ren_strip, List.any_cons, List.any_nil, ren_startsWith (p := List.replicate 3 '`') (by decide),
    ren_startsWith (p := List.replicate 3 '~') (by decide)]

theorem ren_isOrderedStart (l : Str) : isOrderedStart (ρ l) = isOrderedStart l := by
  simp only [isOrderedStart, ren_isIndentedStart, ren_search inv_orderedStart, Option.isSome_map]

theorem ren_isBulletStart (l : Str) : isBulletStart (ρ l) = isBulletStart l := by
  simp only [isBulletStart, ren_isIndentedStart, ren_search inv_bulletStart, Option.isSome_map]

theorem ren_isSetextUnderline (l : Str) : isSetextUnderline (ρ l) = isSetextUnderline l := by
  simp only [isSetextUnderline, ren_isIndentedStart, ren_strip, ren_isEmpty,
    ren_all (p := (· == '=')) (fun c => (ren_beq (by decide) c)), ren_all (p := (· == '-')) (fun c => (ren_beq (by decide) c))]

theorem ren_isTableStart (l : Str) : isTableStart (ρ l) = isTableStart l := by
  simp only [isTableStart, ren_lstrip, ren_startsWith (p := ['|']) (by decide)]

theorem ren_spaceless (l : Str) : spaceless (ρ l) = ρ (spaceless l) := by
  simp only [spaceless, ren_splitWs, List.map_flatten]

theorem ren_isThematic (l : Str) : isThematic (ρ l) = isThematic l := by
  simp only [isThematic, ren_isIndentedStart, ren_spaceless, List.length_map, ren_strip, List.any_cons, List.any_nil,
    ren_all (p := (· == '*')) (fun c => (ren_beq (by decide) c)), ren_all (p := (· == '-')) (fun c => (ren_beq (by decide) c)),
    ren_all (p := (· == '_')) (fun c => (ren_beq (by decide) c))]

theorem ren_isParStart (l : Str) : isParStart (ρ l) = isParStart l := by
  simp only [isParStart, List.any_cons, List.any_nil, ren_isIndentedStart, ren_isAtx, ren_isBlankLine, ren_isBulletStart, ren_isQuote,
    ren_isFenceStart, ren_isOrderedStart, ren_isTableStart, ren_isThematic]

end

end MF
