import Verif.Lemmas.Size
import Verif.Props.Chars
import Verif.Lemmas.NoStop
import Verif.Props.Lists
/-!
# How many lines the result has

C129: however the lines of a document are wrapped, quoted, nested and repeated, the number of lines of the result is linear in the
number of characters of the document other than `>`.
-/

namespace MF

/-- The number of line breaks of a text. -/
def nl (s : Str) : Nat := s.count '\n'

/-- The number of line breaks of texts, with one after each. -/
def nls : List Str → Nat
  | [] => 0
  | l :: ls => nl l + 1 + nls ls

theorem nl_append (a b : Str) : nl (a ++ b) = nl a + nl b := List.count_append

theorem nl_none {s : Str} (h : '\n' ∉ s) : nl s = 0 := List.count_eq_zero.2 h

theorem nl_sub {a b : Str} (h : a.Sublist b) : nl a ≤ nl b := h.count_le _

theorem nl_le_wt (g : Nat) (s : Str) : nl s ≤ wt g s := by
  induction s with
  | nil => exact Nat.le_refl _
  | cons c s ih =>
    simp only [nl, List.count_cons, wt] at ih ⊢
    by_cases h : c = '\n'
    · subst h; rw [if_neg (show ¬ ('\n' = '>') by decide)]; simp; omega
    · have h' : (c == '\n') = false := by simpa using h
      rw [h']; simp; omega

theorem nl_pyJoin {sep : Str} (hs : nl sep = 1) : ∀ {ls : List Str}, ls ≠ [] → nl (pyJoin sep ls) + 1 = nls ls
  | [], h => absurd rfl h
  | [x], _ => by simp [pyJoin, nls]
  | x :: y :: r, _ => by
    have ih := nl_pyJoin hs (ls := y :: r) (by simp)
    simp only [pyJoin, nl_append, nls] at ih ⊢
    omega

theorem nls_none {ls : List Str} (h : ∀ l ∈ ls, '\n' ∉ l) : nls ls = ls.length := by
  induction ls with
  | nil => rfl
  | cons l ls ih =>
    simp only [nls, List.length_cons, nl_none (h l (by simp)), ih (fun x hx => h x (by simp [hx]))]
    omega

theorem nl_join_none {ls : List Str} (h : ∀ l ∈ ls, '\n' ∉ l) : nl (pyJoin ['\n'] ls) + 1 ≤ ls.length + 1 := by
  by_cases hl : ls = []
  · subst hl; simp [pyJoin, nl]
  · rw [nl_pyJoin (by decide) hl, nls_none h]; omega

theorem wts_splitWs' {g : Nat} (hg : g ≤ 1) (s : Str) :
    wts g (splitWs s) ≤ wt g s + 1 ∧ ((∃ c r, s = c :: r ∧ isWs c = true) → wts g (splitWs s) ≤ wt g s) := by
  induction s with
  | nil => simp [splitWs, wts]
  | cons c s ih =>
    by_cases hc : isWs c = true
    · have hc' : c ≠ '>' := by rintro rfl; exact absurd hc (by decide)
      have h1 : splitWs (c :: s) = splitWs s := by cases s <;> simp [splitWs, hc]
      have h2 : wt g (c :: s) = 1 + wt g s := by simp only [wt, if_neg hc']
      rw [h1, h2]
      have := ih.1
      exact ⟨by omega, fun _ => by omega⟩
    · refine ⟨?_, fun ⟨c', r, h, h'⟩ => by cases h; exact absurd h' hc⟩
      cases s with
      | nil => simp only [splitWs, if_neg hc, wts, wt]; omega
      | cons d s =>
        rw [splitWs, if_neg hc]
        split
        · rename_i hw
          have := ih.2 ⟨d, s, rfl, hw⟩
          simp only [wts]
          rw [show wt g (c :: d :: s) = (if c = '>' then g else 1) + wt g (d :: s) from rfl,
            show wt g [c] = (if c = '>' then g else 1) from rfl]
          omega
        · have h1 := wts_consHead hg c (splitWs (d :: s))
          have h2 := ih.1
          rw [show wt g (c :: d :: s) = (if c = '>' then g else 1) + wt g (d :: s) from rfl]
          by_cases he : splitWs (d :: s) = []
          · rw [he]
            simp only [consHead, wts, wt]; omega
          · rw [if_neg he] at h1; omega

theorem wts_splitWs {g : Nat} (hg : g ≤ 1) (s : Str) : wts g (splitWs s) ≤ wt g s + 1 := (wts_splitWs' hg s).1

theorem length_consHead (c : Char) (ls : List Str) (h : ls ≠ []) : (consHead c ls).length = ls.length := by
  cases ls with
  | nil => exact absurd rfl h
  | cons => rfl

/-- A text that ends in a newline and has no other separators has as many lines as newlines. -/
theorem splitlines_length {s : Str} (h : ∀ c ∈ s, isLB c = true → c = '\n') :
    (splitlines (s ++ ['\n'])).length = nl (s ++ ['\n']) := by
  induction s with
  | nil => decide
  | cons c s ih =>
    have ih := ih fun x hx => h x (by simp [hx])
    have hr : (c == '\r' && (s ++ ['\n']).head? == some '\n') = false := by
      rw [Bool.and_eq_false_iff]; left
      simp only [beq_eq_false_iff_ne]
      rintro rfl
      exact absurd (h '\r' (by simp) (by decide)) (by decide)
    rw [List.cons_append, splitlines, if_neg (by rw [hr]; exact Bool.false_ne_true)]
    by_cases hc : isLB c = true
    · have := h c (by simp) hc
      subst this
      rw [if_pos hc, List.length_cons, ih]
      simp [nl]
    · rw [if_neg hc, length_consHead _ _ (splitlines_concat_ne s '\n' (by decide)), ih]
      have : c ≠ '\n' := by rintro rfl; exact hc (by decide)
      simp [nl, this]

/-- What is known of the reformatted text inside a quote or a list entry. -/
def SubCount (sub : Width → Str → Except Err Str) : Prop :=
  ∀ w text out, sub w (text ++ ['\n']) = .ok out →
    nl out ≤ 500 * wt 0 (text ++ ['\n']) ∧ ∃ x, out = x ++ ['\n'] ∧ ∀ c ∈ x, isLB c = true → c = '\n'

theorem sub_count {sub : Width → Str → Except Err Str} (hs : SubCount sub) {w : Width} {lines : List Str} {text : Str}
    (hne : lines ≠ []) (h : reformatLines sub lines w = .ok text) :
    nl text ≤ 500 * wts 0 lines ∧ ∃ x, text = x ++ ['\n'] ∧ ∀ c ∈ x, isLB c = true → c = '\n' := by
  obtain ⟨h1, h2⟩ := hs _ _ _ h
  refine ⟨?_, h2⟩
  have := wt_pyJoin (g := 0) (by omega) '\n' lines hne
  rw [wt_append] at h1
  rw [show wt 0 ['\n'] = 1 by decide] at h1
  omega

theorem wts_pos {g : Nat} {ls : List Str} (h : ls ≠ []) : 1 ≤ wts g ls := by
  cases ls with
  | nil => exact absurd rfl h
  | cons l ls => simp only [wts]; omega

theorem wt_replicate_quote (k : Nat) : wt 0 (List.replicate k '>') = 0 := by
  induction k with
  | zero => rfl
  | succ k ih => rw [List.replicate_succ]; simp [wt, ih]

theorem wts_fullyQuote (ls : List Str) : ∀ d, wts 0 (fullyQuote d ls) ≤ wts 0 ls := by
  induction ls with
  | nil => intro d; exact Nat.le_refl _
  | cons l ls ih =>
    intro d
    simp only [fullyQuote]
    split
    · have := ih (((spaceless l).length - (lstripBy (· == '>') (spaceless l)).length))
      simp only [wts] at this ⊢; omega
    · have := ih d
      simp only [wts, wt_append, wt_replicate_quote]; omega

theorem fullyQuote_ne {ls : List Str} (h : ls ≠ []) (d : Nat) : fullyQuote d ls ≠ [] := by
  cases ls with
  | nil => exact absurd rfl h
  | cons l ls => simp only [fullyQuote]; split <;> simp

theorem dropSpace_sub (l : Str) : (dropSpace l).Sublist l := by
  cases l with
  | nil => exact List.Sublist.refl _
  | cons c l =>
    simp only [dropSpace]
    split
    · exact List.sublist_cons_self _ _
    · exact List.Sublist.refl _

theorem wts_quoteInner (ls : List Str) : wts 0 (quoteInner ls).1 ≤ wts 0 ls := by
  have h1 : wts 0 ((fullyQuote 0 ls).map unquote) ≤ wts 0 ls :=
    Nat.le_trans (wts_map (fun s => wt_sublist (unquote_suffix s).sublist) _) (wts_fullyQuote ls 0)
  simp only [quoteInner]
  split
  · exact Nat.le_trans (wts_map (fun s => wt_sublist (dropSpace_sub s)) _) h1
  · exact h1

theorem quoteInner_ne {ls : List Str} (h : ls ≠ []) : (quoteInner ls).1 ≠ [] := by
  simp only [quoteInner]
  split <;> simpa using fullyQuote_ne h 0

theorem fmtQuote_count {sub : Width → Str → Except Err Str} (hs : SubCount sub) {w : Width} {lines : List Str} {out : Str}
    (h : fmtQuote sub w lines = .ok out) : nl out + 1 ≤ 500 * wts 0 lines := by
  have hne : lines ≠ [] := by rintro rfl; cases h
  have hpos := wts_pos (g := 0) hne
  cases lines with
  | nil => exact absurd rfl hne
  | cons l ls =>
    simp only [fmtQuote, bind, Except.bind] at h
    split at h
    · cases h
    · rename_i text ht
      cases h
      obtain ⟨h1, x, rfl, h2⟩ := sub_count hs (quoteInner_ne hne) ht
      have h3 := wts_quoteInner (l :: ls)
      have h4 := splitlines_length h2
      have h5 : ∀ pre : Str, '\n' ∉ pre →
          nl (pyJoin ['\n'] ((splitlines (x ++ ['\n'])).map fun line => strip (pre ++ line))) + 1 ≤ nl (x ++ ['\n']) := by
        intro pre hp
        rw [nl_pyJoin (by decide) (by simpa using splitlines_concat_ne x '\n' (by decide)), nls_none, List.length_map, h4]
        · exact Nat.le_refl _
        · intro y hy hc
          obtain ⟨z, hz, rfl⟩ := List.mem_map.1 hy
          rcases List.mem_append.1 (mem_of_mem_strip hc) with hc | hc
          · exact hp hc
          · exact absurd (splitlines_noLB _ z hz _ hc) (by decide)
      refine Nat.le_trans (h5 _ ?_) (by omega)
      have hm : ∀ k : Int, '\n' ∉ mul ' ' k := by
        intro k hk
        exact absurd (List.eq_of_mem_replicate hk) (by decide)
      split <;> simp [hm]

theorem fmtAtx_count {lines : List Str} {out : Str} (h : fmtAtx lines = .ok out) (hl : ∀ l ∈ lines, '\n' ∉ l) :
    nl out + 1 ≤ 500 * wts 0 lines := by
  cases lines with
  | nil => cases h
  | cons l ls =>
    cases h
    have hpos := wts_pos (g := 0) (ls := l :: ls) (by simp)
    have : '\n' ∉ List.replicate (atxDepth l) '#' ++ [' '] ++ atxContent l := by
      intro hc
      rcases List.mem_append.1 hc with hc | hc
      · rcases List.mem_append.1 hc with hc | hc
        · exact absurd (List.eq_of_mem_replicate hc) (by decide)
        · exact absurd hc (by decide)
      · exact hl l (by simp) (mem_of_mem_strip (lstripBy_mem (mem_of_mem_strip hc)))
    rw [nl_none this]; omega

theorem fmtFenced_count {lines : List Str} {out : Str} (h : fmtFenced lines = .ok out) (hl : ∀ l ∈ lines, '\n' ∉ l) :
    nl out + 1 ≤ 500 * wts 0 lines := by
  cases lines with
  | nil => cases h
  | cons l ls =>
    simp only [fmtFenced] at h
    split at h
    · cases h
    · rename_i f r hr
      cases h
      have h1 : ∀ c ∈ f :: r, c ≠ '\n' := by
        intro c hc e
        rw [← hr] at hc
        subst e
        exact hl l (by simp) (mem_of_mem_strip hc)
      have hpos := wts_length 0 (l :: ls)
      have hlen : ([List.replicate ((f :: r).length - (lstripBy (· == f) (f :: r)).length) f ++ strip (lstripBy (· == f) (f :: r))] ++
          inner (l :: ls) ++ [List.replicate ((f :: r).length - (lstripBy (· == f) (f :: r)).length) f]).length ≤ (l :: ls).length + 2 := by
        simp [inner]; omega
      refine Nat.le_trans (nl_join_none ?_) (by rw [List.length_map]; simp only [List.length_cons] at hlen hpos ⊢; omega)
      intro x hx hc
      obtain ⟨y, hy, rfl⟩ := List.mem_map.1 hx
      have hc := mem_of_mem_rstrip hc
      have hrep : ∀ k, '\n' ∉ List.replicate k f := fun k hk => h1 f (by simp) (List.eq_of_mem_replicate hk).symm
      rcases List.mem_append.1 hy with hy | hy
      · rcases List.mem_append.1 hy with hy | hy
        · simp only [List.mem_singleton] at hy
          subst hy
          rcases List.mem_append.1 hc with hc | hc
          · exact hrep _ hc
          · exact h1 _ (lstripBy_mem (mem_of_mem_strip hc)) rfl
        · exact hl y (List.mem_of_mem_drop ((List.dropLast_sublist _).subset hy)) hc
      · simp only [List.mem_singleton] at hy
        subst hy
        exact hrep _ hc

theorem fmtIndented_count {lines : List Str} {out : Str} (h : fmtIndented lines = .ok out) (hl : ∀ l ∈ lines, '\n' ∉ l)
    (hne : lines ≠ []) : nl out + 1 ≤ 500 * wts 0 lines := by
  cases h
  have hpos := wts_length 0 lines
  have hpos' := wts_pos (g := 0) hne
  refine Nat.le_trans (nl_join_none ?_) (by rw [List.length_map]; omega)
  intro x hx hc
  obtain ⟨y, hy, rfl⟩ := List.mem_map.1 hx
  exact hl y hy (mem_of_mem_rstrip hc)

theorem wt_parContent (lines : List Str) (hne : lines ≠ []) : wt 0 (parContent lines) + 1 ≤ wts 0 lines := by
  have h1 := wt_pyJoin (g := 0) (by omega) ' ' (lines.map strip) (by simpa using hne)
  have h2 := wts_map (g := 0) (f := strip) (wt_strip 0) lines
  unfold parContent
  omega

theorem fmtPar_count {w : Width} {lines : List Str} {out : Str} (h : fmtPar w lines = .ok out) :
    nl out + 1 ≤ 500 * wts 0 lines := by
  simp only [fmtPar, bind, Except.bind] at h
  split at h
  · cases h
  · rename_i text ht
    split at h
    · cases h
    · rename_i l hl
      cases h
      have hne : lines ≠ [] := by rintro rfl; cases hl
      have h1 := wt_parContent lines hne
      have h2 := wt_wrap (g := 0) (by omega) ht
      have h3 := nl_le_wt 0 text
      split
      · rw [nl_append, show nl c!"  " = 0 by decide]; omega
      · omega

theorem wts_dropLast (g : Nat) (ls : List Str) : wts g ls.dropLast + wt g (ls.getLastD []) + (if ls = [] then 0 else 1) = wts g ls := by
  by_cases h : ls = []
  · subst h; rfl
  · rw [if_neg h]
    obtain ⟨a, b, rfl⟩ : ∃ a b, ls = a ++ [b] := ⟨ls.dropLast, ls.getLast h, (List.dropLast_concat_getLast h).symm⟩
    simp [wts_append, wts]
    omega

theorem fmtSetext_count {w : Width} {lines : List Str} {out : Str} (h : fmtSetext w lines = .ok out) (hl : ∀ l ∈ lines, '\n' ∉ l) :
    nl out + 2 ≤ 500 * wts 0 lines := by
  simp only [fmtSetext] at h
  split at h
  · cases h
  · rename_i hlen
    simp only [bind, Except.bind] at h
    split at h
    · cases h
    · rename_i text ht
      split at h
      · cases h
      · split at h
        · cases h
        · rename_i len _ _ c r hc
          cases h
          have hne : lines.dropLast ≠ [] := by
            intro h
            have := congrArg List.length h
            simp at this; omega
          have h1 := wt_parContent _ hne
          have h2 := wt_wrap (g := 0) (by omega) ht
          have h3 := nl_le_wt 0 text
          have h4 := wts_dropLast 0 lines
          have h5 : '\n' ∉ List.replicate len c := by
            intro hm
            have hm := List.eq_of_mem_replicate hm
            have : '\n' ∈ strip (lines.getLastD []) := by rw [hc, hm]; simp
            have := mem_of_mem_strip this
            cases hg : lines.getLast? with
            | none => rw [List.getLastD_eq_getLast?, hg] at this; cases this
            | some z => rw [List.getLastD_eq_getLast?, hg] at this; exact hl z (getLast?_mem hg) this
          rw [nl_append, nl_append, nl_none h5, show nl ['\n'] = 1 by decide]
          omega

theorem fmtThematic_count {w : Width} {lines : List Str} {out : Str} (h : fmtThematic w lines = .ok out)
    (hl : ∀ l ∈ lines, '\n' ∉ l) : nl out + 1 ≤ 500 * wts 0 lines := by
  cases lines with
  | nil => cases h
  | cons l ls =>
    have hpos := wts_pos (g := 0) (ls := l :: ls) (by simp)
    simp only [fmtThematic] at h
    split at h
    · cases h
    · rename_i c r hc
      have hn : ∀ k, '\n' ∉ List.replicate k c := by
        intro k hm
        have hm := List.eq_of_mem_replicate hm
        have : '\n' ∈ strip l := by rw [hc, hm]; simp
        exact hl l (by simp) (mem_of_mem_strip this)
      split at h
      · cases h; rw [nl_none (hn _)]; omega
      · cases h; rw [mul, nl_none (hn _)]; omega

theorem wt_single (g : Nat) {c : Char} (h : c ≠ '>') : wt g [c] = 1 := by simp [wt, h]

theorem fmtLrd_wt {g : Nat} (hg : g ≤ 1) {w : Width} {lines : List Str} {out : Str} (h : fmtLrd w lines = .ok out) :
    wt g out + 2 ≤ 500 * wts g lines := by
  simp only [fmtLrd, bind, Except.bind] at h
  split at h
  · cases h
  · rename_i p hp
    obtain ⟨name, link, title⟩ := p
    obtain ⟨pre, body, h1, _, _, _, h2, h3⟩ := lrdParts_shape hp
    have hW := wt_pyJoin' hg ' ' lines
    have hb : wt g link + wt g title ≤ wt g body + 1 := by
      have e1 : wt g (lstrip body) ≤ wt g body := wt_sublist (lstripBy_sub _ _)
      have e2 : wt g ((lstrip body).takeWhile (fun c => !isWs c)) + wt g ((lstrip body).dropWhile (fun c => !isWs c)) =
          wt g (lstrip body) := by rw [← wt_append, List.takeWhile_append_dropWhile]
      generalize hx : (lstrip body).dropWhile (fun c => !isWs c) = x at h3 e2
      have e3 : wt g ((lstrip x).takeWhile (· != '\n')) ≤ wt g x :=
        wt_sublist ((List.takeWhile_sublist _).trans (lstripBy_sub _ _))
      have e4 := wts_splitWs hg ((lstrip x).takeWhile (· != '\n'))
      have e5 := wt_pyJoin' hg ' ' (splitWs ((lstrip x).takeWhile (· != '\n')))
      rw [← h2] at e2
      rw [← h3] at e5
      omega
    rw [h1] at hW
    simp only [wt_append, wt, if_neg (show ¬ ('[' = '>') by decide), if_neg (show ¬ (']' = '>') by decide),
      if_neg (show ¬ (':' = '>') by decide)] at hW
    have g1 : wt g (['['] ++ name ++ c!"]:") = wt g name + 3 := by
      simp only [wt_append]; rw [wt_single g (by decide), show wt g c!"]:" = 2 from rfl]; omega
    dsimp only at h
    split at h
    · cases h
      have := nl_le_wt g (['['] ++ name ++ c!"]:")
      omega
    · split at h
      · cases h
      · rename_i l0 rest
        have g2 : wt g (if isIn link l0 = true then ['['] ++ name ++ c!"]:" ++ [' '] ++ link
            else ['['] ++ name ++ c!"]:" ++ ['\n'] ++ link) = wt g name + wt g link + 4 := by
          split
          · rw [wt_append, wt_append, g1, wt_single g (by decide)]; omega
          · rw [wt_append, wt_append, g1, wt_single g (by decide)]; omega
        generalize hstr : (if isIn link l0 = true then ['['] ++ name ++ c!"]:" ++ [' '] ++ link
            else ['['] ++ name ++ c!"]:" ++ ['\n'] ++ link) = str at h g2
        split at h
        · cases h
          have := nl_le_wt g out
          omega
        · split at h
          · split at h
            · split at h
              · split at h
                · cases h
                · rename_i hw
                  cases h
                  rename_i z
                  have k1 := wt_wrap hg hw
                  rw [wt_append, wt_append, wt_single g (by decide)] at k1
                  have k2 := wts_dropLast g (splitlines str)
                  have k3 := (wts_splitlines hg str).1
                  have k4 := nl_le_wt g (pyJoin ['\n'] ((splitlines str).dropLast ++ [z]))
                  have k5 := wt_pyJoin' hg '\n' ((splitlines str).dropLast ++ [z])
                  rw [wts_append] at k5
                  simp only [wts] at k5
                  omega
              · split at h
                · cases h
                · rename_i hw
                  cases h
                  rename_i z
                  have k1 := wt_wrap hg hw
                  have k4 := nl_le_wt g z
                  rw [wt_append, wt_single g (by decide)]
                  omega
            · split at h
              · cases h
              · rename_i hw
                cases h
                rename_i z
                have k1 := wt_wrap hg hw
                have k4 := nl_le_wt g z
                have k5 := nl_le_wt g str
                rw [wt_append, wt_append, wt_single g (by decide)]
                omega
          · cases h

theorem fmtLrd_count {w : Width} {lines : List Str} {out : Str} (h : fmtLrd w lines = .ok out) :
    nl out + 1 ≤ 500 * wts 0 lines := by
  have h1 := fmtLrd_wt (g := 0) (by omega) h
  have h2 := nl_le_wt 0 out
  omega

/-! ### Tables -/

theorem splitAt_none {c : Char} {s : Str} (h : c ∉ s) {rx : Rx} : ∀ x ∈ rx.split s, c ∉ x :=
  fun x hx hc => h (splitAt'_mem s _ _ x hx c hc)

theorem zipCells_none {f : Str → Nat → Align → Str} (hf : ∀ c w a, '\n' ∉ c → '\n' ∉ f c w a) :
    ∀ (cs : List Str) (ws : List Nat) (as : List Align), (∀ c ∈ cs, '\n' ∉ c) → ∀ x ∈ zipCells f cs ws as, '\n' ∉ x := by
  intro cs
  induction cs with
  | nil => intro ws as _ x hx; simp [zipCells] at hx
  | cons c cs ih =>
    intro ws as h x hx
    cases ws with
    | nil => simp [zipCells] at hx
    | cons w ws =>
      cases as with
      | nil => simp [zipCells] at hx
      | cons a as =>
        simp only [zipCells] at hx
        rcases List.mem_cons.1 hx with rfl | hx
        · exact hf c w a (h c (by simp))
        · exact ih ws as (fun y hy => h y (by simp [hy])) x hx

theorem tableRow_none {cells : List Str} (h : ∀ c ∈ cells, '\n' ∉ c) : '\n' ∉ tableRow cells := by
  intro hc
  simp only [tableRow] at hc
  rcases List.mem_append.1 hc with hc | hc
  · rcases List.mem_append.1 hc with hc | hc
    · exact absurd hc (by decide)
    · rcases mem_pyJoin hc with hc | ⟨x, hx, hc⟩
      · exact absurd hc (by decide)
      · exact h x hx hc
  · exact absurd hc (by decide)

theorem mul_none (k : Int) : '\n' ∉ mul ' ' k := fun hk => absurd (List.eq_of_mem_replicate hk) (by decide)

theorem align_none {s : Str} (h : '\n' ∉ s) (w : Nat) :
    '\n' ∉ centerAlign (strip s) w ∧ '\n' ∉ leftAlign (strip s) w ∧ '\n' ∉ rightAlign (strip s) w := by
  have h' : '\n' ∉ strip s := fun hc => h (mem_of_mem_strip hc)
  simp [centerAlign, leftAlign, rightAlign, mul_none, h']

theorem headerCell_none (c : Str) (w : Nat) (a : Align) (h : '\n' ∉ c) : '\n' ∉ headerCell c w a := by
  obtain ⟨h1, h2, h3⟩ := align_none h w
  cases a <;> simp [headerCell, h1, h2, h3]

theorem bodyCell_none (c : Str) (w : Nat) (a : Align) (h : '\n' ∉ c) : '\n' ∉ bodyCell c w a := by
  obtain ⟨h1, h2, h3⟩ := align_none h w
  cases a <;> simp [bodyCell, h1, h2, h3]

theorem dividerCell_none (w : Nat) (a : Align) : '\n' ∉ dividerCell w a := by
  cases a <;> simp [dividerCell]

theorem fmtTable_count {i : Nat} {lines : List Str} {out : Str} (h : fmtTable i lines = .ok out)
    (hl : ∀ l ∈ lines, '\n' ∉ l) : nl out + 1 ≤ 500 * wts 0 lines := by
  cases lines with
  | nil => cases h
  | cons header rest =>
    cases rest with
    | nil => cases h
    | cons divider body =>
      simp only [fmtTable, bind, Except.bind] at h
      split at h
      · cases h
      · cases h
        have hpos := wts_length 0 (header :: divider :: body)
        refine Nat.le_trans (nl_join_none ?_) (by simp only [List.length_cons, List.length_map] at hpos ⊢; omega)
        intro x hx
        rcases List.mem_cons.1 hx with rfl | hx
        · exact tableRow_none (zipCells_none headerCell_none _ _ _
            fun c hc => splitAt_none (hl header (by simp)) c (inner_mem hc))
        · rcases List.mem_cons.1 hx with rfl | hx
          · apply tableRow_none
            intro c hc
            obtain ⟨p, _, rfl⟩ := List.mem_map.1 hc
            exact dividerCell_none _ _
          · obtain ⟨y, hy, rfl⟩ := List.mem_map.1 hx
            refine tableRow_none (zipCells_none bodyCell_none _ _ _ fun c hc hn => ?_)
            exact hl y (by simp [hy]) (splitChar_mem _ y c (inner_mem hc) _ hn).1

/-! ### Lists -/

theorem appendToLast_flatten {es es' : List (List Str)} {x : Str} (h : appendToLast es x = .ok es') :
    es'.flatten = es.flatten ++ [x] := by
  simp only [appendToLast] at h
  split at h
  · cases h
  · rename_i z hz
    cases h
    have hne : es ≠ [] := by rintro rfl; cases hz
    have h1 := List.dropLast_concat_getLast hne
    have h2 : es.getLast hne = z := by rw [List.getLast?_eq_some_getLast hne] at hz; simpa using hz
    rw [h2] at h1
    conv => rhs; rw [← h1]
    simp

theorem splitListStep_flatten {st st' : SplitListSt} {line : Str} (h : splitListStep st line = .ok st') :
    st'.entries.flatten = st.entries.flatten ++ [line] := by
  simp only [splitListStep, bind, Except.bind] at h
  split at h
  · split at h
    · cases h
      simp
    · split at h
      · cases h
      · rename_i hes
        cases h
        exact appendToLast_flatten hes
  · split at h
    · cases h
    · rename_i hes
      cases h
      exact appendToLast_flatten hes

theorem splitList_flatten {lines : List Str} {es : List (List Str)} (h : splitList lines = .ok es) : es.flatten = lines := by
  cases lines with
  | nil => cases h
  | cons x xs =>
    simp only [splitList, bind, Except.bind] at h
    split at h
    · cases h
    · split at h
      · cases h
      · rename_i st hst
        cases h
        have key : ∀ (ls : List Str) (st st' : SplitListSt), ls.foldlM splitListStep st = .ok st' →
            st'.entries.flatten = st.entries.flatten ++ ls := by
          intro ls
          induction ls with
          | nil => intro st st' h; cases h; simp
          | cons y ys ih =>
            intro st st' h
            simp only [List.foldlM_cons, bind, Except.bind] at h
            split at h
            · cases h
            · rename_i st1 h1
              rw [ih _ _ h, splitListStep_flatten h1]; simp
        simpa using key _ _ _ hst

theorem dedentEntry_wts {e e' : List Str} (h : dedentEntry e = .ok e') : e' ≠ [] ∧ wts 0 e' ≤ wts 0 e := by
  cases e with
  | nil => cases h
  | cons x xs =>
    simp only [dedentEntry, bind, Except.bind] at h
    split at h
    · cases h
    · cases h
      refine ⟨by simp, ?_⟩
      rename_i pos _
      have h1 : wt 0 (x.drop (pos + 1)) ≤ wt 0 x := wt_sublist (List.drop_sublist _ _)
      have h2 := wts_map (g := 0) (f := fun line => lstrip (line.take (pos + 1)) ++ line.drop (pos + 1)) (by
        intro s
        refine wt_sublist ?_
        conv => rhs; rw [← List.take_append_drop (pos + 1) s]
        exact (lstripBy_sub _ _).append (List.Sublist.refl _)) xs
      simp only [wts]
      omega

theorem dedentEntries_wts (es : List (List Str)) : ∀ es', dedentEntries es = .ok es' →
    (∀ e ∈ es', e ≠ []) ∧ wts 0 es'.flatten ≤ wts 0 es.flatten ∧ (es ≠ [] → es' ≠ []) := by
  induction es with
  | nil => intro es' h; cases h; simp
  | cons x xs ih =>
    intro es' h
    obtain ⟨y, ys, h1, h2, rfl⟩ := mapM_cons_ok h
    obtain ⟨i1, i2, _⟩ := ih ys h2
    obtain ⟨j1, j2⟩ := dedentEntry_wts h1
    refine ⟨?_, ?_, by simp⟩
    · intro e he
      rcases List.mem_cons.1 he with rfl | he
      · exact j1
      · exact i1 e he
    · simp only [List.flatten_cons, wts_append]; omega

theorem fmtEntry_count {sub : Width → Str → Except Err Str} (hs : SubCount sub) {w : Width}
    {indent : Nat} {marker : Str} {e : List Str} {out : Str} (h : fmtEntry sub w indent marker e = .ok out)
    (hm : '\n' ∉ marker) (hne : e ≠ []) : nl out + 1 ≤ 500 * wts 0 e := by
  simp only [fmtEntry, bind, Except.bind] at h
  split at h
  · cases h
  · rename_i text ht
    cases h
    obtain ⟨h1, x, rfl, _⟩ := sub_count hs hne ht
    have hsep : nl (['\n'] ++ List.replicate indent ' ') = 1 := by
      rw [nl_append, nl_none (s := List.replicate indent ' ')
        (fun hk => absurd (List.eq_of_mem_replicate hk) (by decide))]
      decide
    have hsplit : ∀ s : Str, nls (splitChar '\n' s) = nl s + 1 := by
      intro s
      have := nl_pyJoin (sep := ['\n']) (by decide) (splitChar_ne_nil '\n' s)
      rw [pyJoin_splitChar] at this
      exact this.symm
    have h2 := nl_pyJoin hsep (splitChar_ne_nil '\n' (rstripBy (· == '\n') (x ++ ['\n'])))
    rw [hsplit, rstripBy_append_all _ _ _ (by simp)] at h2
    have h3 : nl (rstripBy (· == '\n') x) ≤ nl x := nl_sub (rstripBy_sub _ _)
    rw [nl_append, show nl ['\n'] = 1 by decide] at h1
    rw [nl_append, nl_append, nl_none hm, rstripBy_append_all _ _ _ (by simp), show nl [' '] = 0 by decide]
    omega

theorem fmtBulletEntries_count {sub : Width → Str → Except Err Str} (hs : SubCount sub) {w : Width}
    {marker : Str} (hm : '\n' ∉ marker) (es : List (List Str)) : ∀ ts, fmtBulletEntries sub w marker es = .ok ts →
    (∀ e ∈ es, e ≠ []) → nls ts ≤ 500 * wts 0 es.flatten ∧ (es ≠ [] → ts ≠ []) := by
  induction es with
  | nil => intro ts h _; cases h; simp [nls]
  | cons e es ih =>
    intro ts h hl
    simp only [fmtBulletEntries, bind, Except.bind] at h
    split at h
    · cases h
    · rename_i t1 h1
      split at h
      · cases h
      · rename_i ts1 h2
        cases h
        have k1 := fmtEntry_count hs h1 hm (hl e (by simp))
        have k2 := (ih ts1 h2 (fun e he => hl e (by simp [he]))).1
        refine ⟨?_, by simp⟩
        simp only [nls, List.flatten_cons, wts_append]; omega

theorem fmtOrderedEntries_count {sub : Width → Str → Except Err Str} (hs : SubCount sub) {w : Width}
    {indent : Nat} (es : List (List Str)) : ∀ k ts, fmtOrderedEntries sub w indent k es = .ok ts →
    (∀ e ∈ es, e ≠ []) → nls ts ≤ 500 * wts 0 es.flatten ∧ (es ≠ [] → ts ≠ []) := by
  induction es with
  | nil => intro k ts h _; cases h; simp [nls]
  | cons e es ih =>
    intro k ts h hl
    simp only [fmtOrderedEntries, bind, Except.bind] at h
    split at h
    · cases h
    · rename_i t1 h1
      split at h
      · cases h
      · rename_i ts1 h2
        cases h
        have hm : '\n' ∉ natStr k ++ ['.'] := by
          intro hc
          rcases List.mem_append.1 hc with hc | hc
          · exact absurd ((natStr_spec k).2.1 _ hc) (by decide)
          · exact absurd hc (by decide)
        have k1 := fmtEntry_count hs h1 hm (hl e (by simp))
        have k2 := (ih _ ts1 h2 (fun e he => hl e (by simp [he]))).1
        refine ⟨?_, by simp⟩
        simp only [nls, List.flatten_cons, wts_append]; omega

theorem fmtBullet_count {sub : Width → Str → Except Err Str} (hs : SubCount sub) {w : Width} {lines : List Str} {out : Str}
    (h : fmtBullet sub w lines = .ok out) (hl : ∀ l ∈ lines, '\n' ∉ l) : nl out + 1 ≤ 500 * wts 0 lines := by
  cases lines with
  | nil => cases h
  | cons l ls =>
    simp only [fmtBullet, bind, Except.bind] at h
    split at h
    · cases h
    · rename_i es hes
      split at h
      · cases h
      · rename_i ds hds
        split at h
        · cases h
        · rename_i m r hm
          split at h
          · cases h
          · rename_i ts hts
            cases h
            have e1 := splitList_flatten hes
            have hne : es ≠ [] := by rintro rfl; cases e1
            obtain ⟨d1, d2, d3⟩ := dedentEntries_wts es ds hds
            have hmn : '\n' ∉ [m] := by
              intro hc
              have : '\n' ∈ lstrip l := by rw [hm]; exact List.mem_cons.2 (.inl (by simpa using hc))
              exact hl l (by simp) (mem_of_mem_lstrip this)
            obtain ⟨t1, t2⟩ := fmtBulletEntries_count hs hmn ds ts hts d1
            rw [nl_pyJoin (by decide) (t2 (d3 hne))]
            rw [e1] at d2
            omega

theorem fmtOrdered_count {sub : Width → Str → Except Err Str} (hs : SubCount sub) {w : Width} {lines : List Str} {out : Str}
    (h : fmtOrdered sub w lines = .ok out) : nl out + 1 ≤ 500 * wts 0 lines := by
  cases lines with
  | nil => cases h
  | cons l ls =>
    simp only [fmtOrdered, bind, Except.bind] at h
    split at h
    · cases h
    · rename_i es hes
      split at h
      · cases h
      · split at h
        · cases h
        · rename_i ds hds
          split at h
          · cases h
          · rename_i ts hts
            cases h
            have e1 := splitList_flatten hes
            have hne : es ≠ [] := by rintro rfl; cases e1
            obtain ⟨d1, d2, d3⟩ := dedentEntries_wts es ds hds
            obtain ⟨t1, t2⟩ := fmtOrderedEntries_count hs ds _ ts hts d1
            rw [nl_pyJoin (by decide) (t2 (d3 hne))]
            rw [e1] at d2
            omega

/-! ### Documents -/

theorem fmtSection_count {sub : Width → Str → Except Err Str} (hs : SubCount sub) {w : Width} {i : Nat} {ty : Sec}
    {lines : List Str} {out : Str} (h : fmtSection sub w i ty lines = .ok out) (hl : ∀ l ∈ lines, '\n' ∉ l) (hne : lines ≠ []) :
    nl out + 1 + (if ty = .setext then 1 else 0) ≤ 500 * wts 0 lines := by
  have hpos := wts_pos (g := 0) hne
  cases ty with
  | atx => exact fmtAtx_count h hl
  | blank => cases h; simp [nl]; omega
  | quote => exact fmtQuote_count hs h
  | bullet => exact fmtBullet_count hs h hl
  | fenced => exact fmtFenced_count h hl
  | indented => exact fmtIndented_count h hl hne
  | lrd => exact fmtLrd_count h
  | ordered => exact fmtOrdered_count hs h
  | par => exact fmtPar_count h
  | setext => exact fmtSetext_count h hl
  | table => exact fmtTable_count h hl
  | thematic => exact fmtThematic_count h hl

theorem fmtAll_count {sub : Width → Str → Except Err Str} (hs : SubCount sub) {w : Width} (secs : List (Sec × List Str)) :
    ∀ i last fs ts, buildFmts i last secs = .ok fs → fmtAll sub w fs = .ok ts → (∀ s ∈ secs, s.2 ≠ [] ∧ ∀ l ∈ s.2, '\n' ∉ l) →
      nls ts ≤ 500 * wts 0 (secs.map (·.2)).flatten := by
  induction secs with
  | nil => intro i last fs ts h h' _; cases h; cases h'; simp [nls]
  | cons s secs ih =>
    obtain ⟨ty, content⟩ := s
    intro i last fs ts h h' hl
    simp only [buildFmts, bind, Except.bind] at h
    split at h
    · cases h
    · split at h
      · cases h
      · rename_i fs1 h1
        have key : ∀ ts, fmtAll sub w ({ lineIndex := i, ty := ty, lines := content } :: fs1) = .ok ts →
            nls ts + (if ty = .setext then 1 else 0) ≤ 500 * wts 0 (((ty, content) :: secs).map (·.2)).flatten := by
          intro ts h'
          simp only [fmtAll, bind, Except.bind] at h'
          split at h'
          · cases h'
          · rename_i t1 ht1
            split at h'
            · cases h'
            · rename_i ts1 hts1
              cases h'
              have k1 := fmtSection_count hs (mapError_ok ht1) (hl (ty, content) (by simp)).2 (hl (ty, content) (by simp)).1
              have k2 := ih _ _ _ _ h1 hts1 (fun s hs => hl s (by simp [hs]))
              simp only [nls, List.map_cons, List.flatten_cons, wts_append]
              omega
        split at h
        · rename_i hset
          cases h
          rw [fmtAll] at h'
          simp only [bind, Except.bind] at h'
          have hty : ty = .setext := by
            rw [Bool.and_eq_true] at hset
            simpa using hset.1
          rw [show fmtSection sub w i Sec.blank [[]] = .ok [] from rfl] at h'
          simp only [Except.mapError] at h'
          split at h'
          · cases h'
          · rename_i ts1 hts1
            cases h'
            have := key _ hts1
            rw [if_pos hty] at this
            simp only [nls]
            rw [show nl [] = 0 from rfl]
            omega
        · cases h
          exact Nat.le_trans (Nat.le_add_right _ _) (key _ h')

theorem reformatBody_count {sub : Width → Str → Except Err Str} (hs : SubCount sub) {n : Nat} {w : Width} {text out : Str}
    (h : reformatBody (parse n) sub w text = .ok out) :
    nl out ≤ 1 ∨ nl out ≤ 500 * wts 0 (splitlines text) := by
  simp only [reformatBody, bind, Except.bind] at h
  split at h
  · cases h
  · rename_i secs hp
    split at h
    · cases h
    · rename_i fmts hf
      split at h
      · cases h
      · rename_i parts hparts
        cases h
        obtain ⟨p1, p2⟩ := C08_parse_partition n _ _ hp
        have k1 := fmtAll_count hs secs _ _ _ _ hf hparts (fun s hsm => ⟨p2 s hsm, fun l hl hc => by
          have hmem : l ∈ splitlines text := by
            rw [← p1]; exact List.mem_flatten.2 ⟨s.2, List.mem_map.2 ⟨s, hsm, rfl⟩, hl⟩
          exact absurd (splitlines_noLB _ l hmem _ hc) (by decide)⟩)
        rw [p1] at k1
        rw [nl_append, show nl ['\n'] = 1 by decide]
        by_cases hpn : parts = []
        · left; subst hpn; simp [pyJoin, nl]
        · right; rw [nl_pyJoin (by decide) hpn]; exact k1

theorem reformatText_count : ∀ n, SubCount (reformatText n) := by
  intro n
  induction n with
  | zero => intro w text out h; cases h
  | succ n ih =>
    intro w text out h
    have hf := reformatText_fine _ _ _ _ h
    have h1 := reformatBody_count ih h
    have h2 := wts_splitlines_nl (g := 0) (by omega) text
    have h3 : 1 ≤ wt 0 (text ++ ['\n']) := wt_ge (c := '\n') (by simp) (by decide)
    refine ⟨by omega, ?_⟩
    simp only [reformatText, reformatBody, bind, Except.bind] at h
    split at h
    · cases h
    · split at h
      · cases h
      · split at h
        · cases h
        · cases h
          refine ⟨_, rfl, fun c hc hlb => ?_⟩
          rcases hf c (by simp [hc]) with h1 | ⟨h1, _⟩
          · exact h1
          · rw [h1] at hlb; cases hlb

/-- One pass: the number of lines written is linear in the number of characters read that are not `>`. -/
theorem C129_pass (n : Nat) (w : Width) (text out : Str) (h : reformatText n w text = .ok out) :
    out.count '\n' ≤ 500 * ((text.filter (· ≠ '>')).length + 1) := by
  have hwt : ∀ s : Str, wt 0 s = (s.filter (· ≠ '>')).length := by
    intro s
    induction s with
    | nil => rfl
    | cons c s ih =>
      simp only [wt, ih, List.filter_cons]
      by_cases hc : c = '>'
      · simp [hc]
      · simp [hc]; omega
  rw [← hwt]
  cases n with
  | zero => cases h
  | succ n =>
    have h1 := reformatBody_count (reformatText_count n) h
    have h2 := (wts_splitlines (g := 0) (by omega) text).1
    unfold nl at h1
    omega

/-- C129: the result of reformatting has at most linearly many lines, counting the characters of the document other than `>`. -/
theorem C129_lines (n : Nat) (w : Width) (text y : Str) (h : reformatMarkdownText n w text = .ok y) :
    y.count '\n' ≤ 500 * ((text.filter (· ≠ '>')).length + 1) := by
  simp only [reformatMarkdownText, bind, Except.bind] at h
  split at h
  · cases h
  · rename_i a ha
    split at h
    · cases h
    · split at h
      · cases h
      · cases h
        have h1 := C129_pass _ _ _ _ ha
        cases n with
        | zero => cases ha
        | succ n =>
          have h2 : ∃ x, a = x ++ ['\n'] := by
            simp only [reformatText, reformatBody, bind, Except.bind] at ha
            split at ha
            · cases ha
            · split at ha
              · cases ha
              · split at ha
                · cases ha
                · cases ha; exact ⟨_, rfl⟩
          obtain ⟨x, rfl⟩ := h2
          have h3 : rstrip (x ++ ['\n']) = rstrip x := rstripBy_append_all _ _ _ (by decide)
          have h4 : nl (rstrip x) ≤ nl x := nl_sub (rstrip_sub _)
          rw [h3]
          simp only [nl, List.count_append] at h4 h1 ⊢
          omega

/-- A document with a list, a quote, a lazy line and a table, at a small width: 41 characters that are not `>` give seven lines. -/
theorem C129_example :
    reformatMarkdownText 6 (.fin 6) c!"- >> a b\n  c\n\n| a | bcd |\n|--|--|\n| x | y |" =
      .ok c!"- >> a\n  >> b\n  >> c\n\n| a | bcd |\n|---|-----|\n| x | y   |\n" ∧
    (c!"- >> a b\n  c\n\n| a | bcd |\n|--|--|\n| x | y |".filter (· ≠ '>')).length = 41 := by decide +kernel

end MF
