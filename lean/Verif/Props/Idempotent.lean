import Verif.Lemmas.Eof
import Verif.Props.Prose
/-!
# Reformatting a result again

C03: a result is left alone by a further call. The program checks a second pass over its *untrimmed* text and then
trims trailing whitespace, so a result is the text that was checked only up to that trimming.
-/

namespace MF

/-- C03 as stated: what `reformat_markdown_text` returns, it returns again. -/
def C03_statement : Prop :=
  ∀ (n : Nat) (w : Width) (text y : Str), reformatMarkdownText n w text = .ok y → reformatMarkdownText n w y = .ok y

/-! ## Lines of a text that ends in line feeds -/

theorem splitlines_concat_ne (x : Str) (c : Char) (hc : isLB c = true) : splitlines (x ++ [c]) ≠ [] := by
  induction x with
  | nil =>
    simp only [List.nil_append, splitlines, hc]
    simp
  | cons d x ih =>
    rw [List.cons_append, splitlines]
    split
    · exact ih
    · split
      · simp
      · cases h : splitlines (x ++ [c]) with
        | nil => exact absurd h ih
        | cons a b => simp [consHead]

theorem splitlines_nl_append (x s : Str) : splitlines (x ++ '\n' :: s) = splitlines (x ++ ['\n']) ++ splitlines s := by
  induction x with
  | nil =>
    exact splitlines_line [] (by intro c hc; cases hc) s
  | cons d x ih =>
    rw [List.cons_append, List.cons_append, splitlines, splitlines]
    have hh : (x ++ '\n' :: s).head? = (x ++ ['\n']).head? := by cases x <;> rfl
    rw [hh]
    split
    · exact ih
    · split
      · rw [ih]; rfl
      · rw [ih]
        cases h : splitlines (x ++ ['\n']) with
        | nil => exact absurd h (splitlines_concat_ne x '\n' (by decide))
        | cons a b => rfl

theorem splitlines_nls (k : Nat) : splitlines (List.replicate k '\n') = List.replicate k [] := by
  induction k with
  | zero => rfl
  | succ k ih =>
    rw [List.replicate_succ]
    have := splitlines_line [] (by intro c hc; cases hc) (List.replicate k '\n')
    rw [List.nil_append] at this
    rw [this, ih]; rfl

theorem splitlines_append_nls (x : Str) (k : Nat) :
    splitlines (x ++ ['\n'] ++ List.replicate k '\n') = splitlines (x ++ ['\n']) ++ List.replicate k [] := by
  rw [List.append_assoc]
  show splitlines (x ++ '\n' :: List.replicate k '\n') = _
  rw [splitlines_nl_append, splitlines_nls]

theorem splitlines_last (x : Str) (c : Char) (hc : isLB c = false) :
    ∃ front l, splitlines (x ++ [c] ++ ['\n']) = front ++ [l ++ [c]] := by
  induction x with
  | nil =>
    have := splitlines_line [c] (by intro d hd; rw [List.mem_singleton.1 hd]; exact hc) []
    exact ⟨[], [], this⟩
  | cons d x ih =>
    obtain ⟨f, l, e⟩ := ih
    rw [List.cons_append, List.cons_append, splitlines]
    split
    · exact ⟨f, l, e⟩
    · split
      · exact ⟨[] :: f, l, by rw [e]; rfl⟩
      · rw [e]
        cases f with
        | nil => exact ⟨[], d :: l, rfl⟩
        | cons a f => exact ⟨(d :: a) :: f, l, rfl⟩

/-- the lines of a trimmed text end in a line that is neither blank nor a hard break -/
theorem good_trimmed {t : Str} (h : rstrip t ≠ []) : Good (splitlines (rstrip t ++ ['\n'])) := by
  obtain ⟨x, c, e, hc⟩ : ∃ x c, rstrip t = x ++ [c] ∧ isWs c = false := by
    rcases rstrip_last t with h0 | ⟨x, c, h0, h1⟩
    · exact absurd h0 h
    · exact ⟨x, c, h0, h1⟩
  have hlb : isLB c = false := by
    cases hq : isLB c with
    | false => rfl
    | true => rw [isLB_ws hq] at hc; cases hc
  obtain ⟨f, l, e2⟩ := splitlines_last x c hlb
  rw [e, e2]
  refine ⟨f, l ++ [c], rfl, ?_, ?_⟩
  · cases hq : isBlankLine (l ++ [c]) with
    | false => rfl
    | true =>
      have : strip (l ++ [c]) = [] := by simpa [isBlankLine] using hq
      rw [(strip_eq_nil _).1 this c (by simp)] at hc
      cases hc
  · cases hq : endsWith (l ++ [c]) c!"  " with
    | false => rfl
    | true =>
      obtain ⟨r, hr⟩ := (endsWith_iff _ _).1 hq
      have : (l ++ [c]).getLast? = some ' ' := by rw [hr]; simp
      simp at this
      subst this
      cases hc

/-! ## Formatting a document followed by blank lines -/

theorem buildFmts_blanks (B : List Str) : ∀ i last, ∃ F, buildFmts i last (blankSecs B) = .ok F ∧
    F.length = B.length ∧ ∀ f ∈ F, f.ty = .blank ∧ ∃ b, f.lines = [b] := by
  induction B with
  | nil => intro i last; exact ⟨[], rfl, rfl, by intro f hf; cases hf⟩
  | cons b B ih =>
    intro i last
    obtain ⟨F, h1, h2, h3⟩ := ih (i + 1) (some .blank)
    refine ⟨{ lineIndex := i, ty := .blank, lines := [b] } :: F, ?_, by simp [h2], ?_⟩
    · show buildFmts i last ((.blank, [b]) :: blankSecs B) = _
      simp only [buildFmts, reprCheck, bind, Except.bind]
      rw [show i + [b].length = i + 1 from rfl, h1]
      rfl
    · intro f hf
      rcases List.mem_cons.1 hf with rfl | hf
      · exact ⟨rfl, b, rfl⟩
      · exact h3 f hf

theorem buildFmts_eof (S : List (Sec × List Str)) (B : List Str) : ∀ i last F,
    buildFmts i last (S ++ blankSecs B) = .ok F →
    ∃ F1 F2, F = F1 ++ F2 ∧ buildFmts i last S = .ok F1 ∧ F2.length = B.length ∧
      ∀ f ∈ F2, f.ty = .blank ∧ ∃ b, f.lines = [b] := by
  induction S with
  | nil =>
    intro i last F h
    obtain ⟨G, h1, h2, h3⟩ := buildFmts_blanks B i last
    rw [List.nil_append, h1] at h
    cases h
    exact ⟨[], _, rfl, rfl, h2, h3⟩
  | cons s S ih =>
    intro i last F h
    obtain ⟨ty, content⟩ := s
    rw [List.cons_append] at h
    simp only [buildFmts, bind, Except.bind] at h ⊢
    cases hr : reprCheck ty content with
    | error e => rw [hr] at h; cases h
    | ok u =>
      rw [hr] at h
      simp only at h ⊢
      cases hb : buildFmts (i + content.length) (some ty) (S ++ blankSecs B) with
      | error e => rw [hb] at h; cases h
      | ok G =>
        rw [hb] at h
        obtain ⟨F1, F2, rfl, h2, h3, h4⟩ := ih _ _ _ hb
        rw [h2]
        simp only at h ⊢
        split at h
        · rename_i hq
          rw [if_pos hq]
          cases h
          exact ⟨_, F2, rfl, rfl, h3, h4⟩
        · rename_i hq
          rw [if_neg hq]
          cases h
          exact ⟨_, F2, rfl, rfl, h3, h4⟩

theorem fmtAll_append (sub : Width → Str → Except Err Str) (w : Width) (F1 F2 : List Fmt) : ∀ parts,
    fmtAll sub w (F1 ++ F2) = .ok parts → ∃ P1 P2, parts = P1 ++ P2 ∧ fmtAll sub w F1 = .ok P1 ∧ fmtAll sub w F2 = .ok P2 ∧
      P1.length = F1.length := by
  induction F1 with
  | nil => intro parts h; exact ⟨[], parts, rfl, rfl, h, rfl⟩
  | cons f F1 ih =>
    intro parts h
    rw [List.cons_append] at h
    simp only [fmtAll, bind, Except.bind] at h ⊢
    split at h
    · cases h
    · rename_i t ht
      split at h
      · cases h
      · rename_i ts hts
        cases h
        obtain ⟨P1, P2, rfl, h2, h3, h4⟩ := ih _ hts
        rw [h2]
        exact ⟨t :: P1, P2, rfl, rfl, h3, by simp [h4]⟩

theorem fmtAll_blanks (sub : Width → Str → Except Err Str) (w : Width) (F : List Fmt)
    (h : ∀ f ∈ F, f.ty = .blank ∧ ∃ b, f.lines = [b]) : ∀ parts, fmtAll sub w F = .ok parts →
      parts = List.replicate F.length [] := by
  induction F with
  | nil => intro parts h; cases h; rfl
  | cons f F ih =>
    intro parts hp
    obtain ⟨h1, b, h2⟩ := h f (by simp)
    simp only [fmtAll, h1, fmtSection, fmtBlank, bind, Except.bind] at hp
    simp only [Except.mapError] at hp
    split at hp
    · cases hp
    · rename_i ts hts
      cases hp
      rw [ih (fun g hg => h g (by simp [hg])) _ hts]
      rfl

theorem pyJoin_blanks (P : List Str) (h : P ≠ []) (k : Nat) :
    pyJoin ['\n'] (P ++ List.replicate k []) = pyJoin ['\n'] P ++ List.replicate k '\n' := by
  induction P with
  | nil => exact absurd rfl h
  | cons p P ih =>
    cases P with
    | nil =>
      clear ih h
      induction k generalizing p with
      | zero => simp
      | succ k ih =>
        rw [List.replicate_succ, List.singleton_append]
        show p ++ ['\n'] ++ pyJoin ['\n'] ([] :: List.replicate k []) = _
        have := ih []
        rw [List.singleton_append] at this
        rw [this, List.append_assoc]
        rfl
    | cons q P =>
      rw [List.cons_append, pyJoin_cons_ne (by simp), ih (by simp), pyJoin_cons_ne (x := p) (ls := q :: P) (by simp),
        List.append_assoc (p ++ ['\n'])]

theorem fmtFenced_last {lines : List Str} {out : Str} (h : fmtFenced lines = .ok out) :
    ∃ z c, out = z ++ [c] ∧ isWs c = false := by
  cases lines with
  | nil => cases h
  | cons l ls =>
    simp only [fmtFenced] at h
    split at h
    · cases h
    · rename_i c r hs
      have hc : isWs c = false := by
        rcases strip_head l with h0 | ⟨d, r', h0, hd⟩
        · rw [h0] at hs; cases hs
        · rw [h0] at hs; cases hs; exact hd
      have hlen : ∃ m, (c :: r).length - (lstripBy (· == c) (c :: r)).length = m + 1 := by
        have : (lstripBy (· == c) (c :: r)).length ≤ r.length := by
          unfold lstripBy
          rw [List.dropWhile_cons_of_pos (by simp)]
          exact (List.dropWhile_suffix _).length_le
        refine ⟨(c :: r).length - (lstripBy (· == c) (c :: r)).length - 1, ?_⟩
        simp only [List.length_cons]
        omega
      obtain ⟨m, hm⟩ := hlen
      rw [hm] at h
      have hf : rstrip (List.replicate (m + 1) c) = List.replicate m c ++ [c] := by
        rw [List.replicate_succ', rstrip_concat_of_not _ _ hc]
      cases h
      rw [List.map_append, pyJoin_append (by simp) (by simp), List.map_cons, List.map_nil, hf]
      exact ⟨_, c, by simp only [pyJoin]; rw [← List.append_assoc], hc⟩


/-! ## C03 -/

theorem buildFmts_ne {S : List (Sec × List Str)} {i : Nat} {last : Option Sec} {F : List Fmt}
    (h : buildFmts i last S = .ok F) (hS : S ≠ []) : F ≠ [] := by
  cases S with
  | nil => exact absurd rfl hS
  | cons s S =>
    obtain ⟨ty, content⟩ := s
    simp only [buildFmts, bind, Except.bind] at h
    split at h
    · cases h
    · split at h
      · cases h
      · split at h <;> (cases h; simp)

theorem buildFmts_concat (S : List (Sec × List Str)) (ty : Sec) (a : List Str) : ∀ i last F,
    buildFmts i last (S ++ [(ty, a)]) = .ok F → ∃ F1 j, F = F1 ++ [{ lineIndex := j, ty := ty, lines := a }] := by
  induction S with
  | nil =>
    intro i last F h
    simp only [List.nil_append, buildFmts, bind, Except.bind] at h
    split at h
    · cases h
    · split at h
      · cases h; exact ⟨[_], i, rfl⟩
      · cases h; exact ⟨[], i, rfl⟩
  | cons s S ih =>
    intro i last F h
    obtain ⟨ty', content⟩ := s
    simp only [List.cons_append, buildFmts, bind, Except.bind] at h
    split at h
    · cases h
    · split at h
      · cases h
      · rename_i G hG
        obtain ⟨F1, j, rfl⟩ := ih _ _ _ hG
        split at h <;> cases h
        · exact ⟨_ :: _ :: F1, j, rfl⟩
        · exact ⟨_ :: F1, j, rfl⟩

/-- **Blank lines at the end of a text.** If a text that ends in blank lines formats to itself, so does the text
without them, unless its last section is a link reference definition that is none when the text stops. -/
theorem reformatText_trimmed {n : Nat} {w : Width} {x : Str} {k : Nat} (hx : Good (splitlines (x ++ ['\n'])))
    (h : reformatText (n + 1) w (x ++ ['\n'] ++ List.replicate (k + 1) '\n') =
      .ok (x ++ ['\n'] ++ List.replicate (k + 1) '\n'))
    (hlrd : ∀ S a T, parse n (splitlines (x ++ ['\n'] ++ List.replicate (k + 1) '\n')) = .ok (S ++ (.lrd, a) :: T) →
      (∀ p ∈ T, p.1 = .blank) → Good a ∧ splitLrd a = .ok (a, [])) :
    reformatText (n + 1) w (x ++ ['\n']) = .ok (x ++ ['\n']) := by
  have hB : Blanks (List.replicate (k + 1) ([] : Str)) := by
    refine ⟨by simp [List.replicate_succ], ?_⟩
    intro b hb
    rw [(List.mem_replicate.1 hb).2]
    rfl
  simp only [reformatText, reformatBody, bind, Except.bind] at h ⊢
  rw [splitlines_append_nls] at h hlrd
  generalize splitlines (x ++ ['\n']) = L at hx h hlrd ⊢
  cases hp : parse n (L ++ List.replicate (k + 1) []) with
  | error e => rw [hp] at h; cases h
  | ok secs =>
    rw [hp] at h hlrd
    simp only at h
    rcases parseLoop_eof n hB _ L.length L secs (.inr hx) (Nat.le_refl _) hp with ⟨S, h1, h2⟩ | ⟨S, a, h2⟩ | ⟨S, a, T, h2, h3⟩
    · have hS : S ≠ [] := by
        rintro rfl
        cases L with
        | nil => exact hx.ne rfl
        | cons l ls =>
          simp only [List.length_cons, parseLoop, bind, Except.bind] at h1
          split at h1
          · cases h1
          · split at h1 <;> cases h1
      rw [show parse n L = .ok S from h1]
      simp only
      rw [h2] at h
      split at h
      · cases h
      · rename_i F hF
        obtain ⟨F1, F2, rfl, h4, h5, h6⟩ := buildFmts_eof _ _ _ _ _ hF
        rw [h4]
        simp only
        split at h
        · cases h
        · rename_i parts hparts
          obtain ⟨P1, P2, rfl, h7, h8, h9⟩ := fmtAll_append _ _ _ _ _ hparts
          rw [h7]
          simp only
          have hP2 := fmtAll_blanks _ _ _ h6 _ h8
          have hP1 : P1 ≠ [] := by
            intro e
            rw [e] at h9
            exact buildFmts_ne h4 hS (List.length_eq_zero_iff.1 h9.symm)
          rw [hP2, h5, List.length_replicate, pyJoin_blanks _ hP1] at h
          have h := Except.ok.inj h
          have e : pyJoin ['\n'] P1 ++ ['\n'] ++ List.replicate (k + 1) '\n' =
              x ++ ['\n'] ++ List.replicate (k + 1) '\n' := by
            rw [← h, List.append_assoc, List.append_assoc]
            congr 1
            rw [List.singleton_append, ← List.replicate_succ, ← List.replicate_succ']
          rw [List.append_cancel_right e]
    · exfalso
      rw [h2] at h
      split at h
      · cases h
      · rename_i F hF
        obtain ⟨F1, j, rfl⟩ := buildFmts_concat _ _ _ _ _ _ hF
        split at h
        · cases h
        · rename_i parts hparts
          obtain ⟨P1, P2, rfl, h7, h8, h9⟩ := fmtAll_append _ _ _ _ _ hparts
          simp only [fmtAll, fmtSection, bind, Except.bind] at h8
          cases hff : fmtFenced a with
          | error e => rw [hff] at h8; cases h8
          | ok out =>
            rw [hff] at h8
            cases h8
            obtain ⟨z, c, rfl, hc⟩ := fmtFenced_last hff
            obtain ⟨z', hz'⟩ : ∃ z', pyJoin ['\n'] (P1 ++ [z ++ [c]]) = z' ++ [c] := by
              by_cases e : P1 = []
              · subst e; exact ⟨z, rfl⟩
              · refine ⟨pyJoin ['\n'] P1 ++ ['\n'] ++ z, ?_⟩
                rw [pyJoin_append e (by simp)]
                simp [pyJoin]
            have h := Except.ok.inj h
            rw [hz', List.replicate_succ', ← List.append_assoc] at h
            have h := (List.append_inj' h rfl).1
            have hl : (x ++ ['\n'] ++ List.replicate k '\n').getLast? = some '\n' := by
              rw [List.append_assoc, List.singleton_append, ← List.replicate_succ, List.replicate_succ']
              rw [← List.append_assoc]
              simp
            rw [← h] at hl
            simp at hl
            subst hl
            cases hc
    · exfalso
      obtain ⟨g1, g2⟩ := hlrd S a (blankSecs T) (by rw [h2]) (by
        intro p hp
        obtain ⟨b, _, rfl⟩ := List.mem_map.1 hp
        rfl)
      exact h3 g1 g2

/-- **C03 (partial).** A result is returned again by a further call, if trimming the text the program checked removed
only empty lines, and if the text does not end in a link reference definition that is none without the empty lines. -/
theorem C03_idempotent_partial {n : Nat} {w : Width} {text t y : Str} (h : reformatMarkdownText (n + 1) w text = .ok y)
    (ht : reformatText (n + 1) w text = .ok t) (htrim : ∃ k, t = y ++ List.replicate k '\n')
    (hlrd : ∀ S a T, parse n (splitlines t) = .ok (S ++ (.lrd, a) :: T) → (∀ p ∈ T, p.1 = .blank) →
      Good a ∧ splitLrd a = .ok (a, [])) :
    reformatMarkdownText (n + 1) w y = .ok y := by
  have hok : ∀ z, reformatText (n + 1) w z = .ok z → rstrip z ++ ['\n'] = z →
      reformatMarkdownText (n + 1) w z = .ok z := by
    intro z h1 h2
    simp only [reformatMarkdownText, bind, Except.bind, h1]
    rw [h2]
    simp
  simp only [reformatMarkdownText, bind, Except.bind, ht] at h
  cases h2 : reformatText (n + 1) w t with
  | error e => rw [h2] at h; cases h
  | ok t' =>
    rw [h2] at h
    simp only at h
    split at h
    · cases h
    · rename_i hne
      have e : t' = t := by simpa using hne
      subst e
      have hy : y = rstrip t' ++ ['\n'] := (Except.ok.inj h).symm
      obtain ⟨k, hk⟩ := htrim
      have hry : rstrip y ++ ['\n'] = y := by
        rw [hy, rstrip_append_ws _ _ (by intro c hc; rw [List.mem_singleton.1 hc]; decide), rstrip_idem]
      refine hok y ?_ hry
      cases k with
      | zero =>
        rw [List.replicate_zero, List.append_nil] at hk
        rw [← hk]; exact h2
      | succ k =>
        by_cases he : rstrip t' = []
        · rw [he, List.nil_append] at hy
          rw [hy]
          rfl
        · rw [hk] at h2 hlrd
          rw [hy] at h2 hlrd ⊢
          exact reformatText_trimmed (good_trimmed he) h2 hlrd

/-- C03 for texts without a line that begins with `[` -/
theorem C03_no_bracket_partial {n : Nat} {w : Width} {text t y : Str} (h : reformatMarkdownText (n + 1) w text = .ok y)
    (ht : reformatText (n + 1) w text = .ok t) (htrim : ∃ k, t = y ++ List.replicate k '\n')
    (hb : ∀ l ∈ splitlines t, firstCh l ≠ some '[') : reformatMarkdownText (n + 1) w y = .ok y := by
  refine C03_idempotent_partial h ht htrim ?_
  intro S a T hp _
  exfalso
  obtain ⟨l0, more, ws, name, r, rfl, rfl, hws, _⟩ := parse_lrd hp (content := a) (by simp)
  have hmem : (ws ++ '[' :: (name ++ ']' :: ':' :: r)) ∈ splitlines t := by
    rw [← (parseLoop_partition n _ _ _ hp).1]
    simp
  refine hb _ hmem ?_
  unfold firstCh
  rw [lstrip_append_ws _ _ hws, lstrip_cons_of_not _ _ (by decide)]
  rfl

/-- C03 as stated is false at the default width: an empty last list entry loses its trailing space and becomes text of
the paragraph before it. -/
theorem C03_refuted_list : reformatMarkdownText 3 (.fin 88) c!"ab\n* " = .ok c!"ab\n*\n" ∧
    reformatMarkdownText 3 (.fin 88) c!"ab\n*\n" = .ok c!"ab *\n" := by decide +kernel

/-- a link reference definition without title is only recognised before a further line -/
theorem C03_refuted_definition : reformatMarkdownText 3 (.fin 8) c!"[a b c d]: x\n\n" = .ok c!"[a b c d]: x\n" ∧
    reformatMarkdownText 3 (.fin 8) c!"[a b c d]: x\n" = .ok c!"[a b c\nd]: x\n" := by decide +kernel

/-- and the further call may fail -/
theorem C03_refuted_failure : reformatMarkdownText 3 (.fin 10) c!"[a]: longlonglong\n\n" = .ok c!"[a]: longlonglong\n" ∧
    ∃ e, reformatMarkdownText 3 (.fin 10) c!"[a]: longlonglong\n" = .error e := by
  refine ⟨by decide +kernel, ?_⟩
  cases h : reformatMarkdownText 3 (.fin 10) c!"[a]: longlonglong\n" with
  | error e => exact ⟨e, rfl⟩
  | ok y =>
    have : (reformatMarkdownText 3 (.fin 10) c!"[a]: longlonglong\n").toOption = none := by decide +kernel
    rw [h] at this
    cases this

theorem C03_refuted : ¬C03_statement := by
  intro h
  have := h 3 (.fin 88) _ _ C03_refuted_list.1
  rw [C03_refuted_list.2] at this
  exact absurd (Except.ok.inj this) (by decide)

/-- `C03_idempotent_partial` applies: a document that ends in a titled definition and blank lines. -/
theorem C03_example :
    reformatText 3 (.fin 12) c!"# T\nsome words that wrap\n* a\n* b\n\n[a]: url \"t\"\n\n \n" =
      .ok c!"# T\nsome words\nthat wrap\n* a\n* b\n\n[a]: url \"t\"\n\n\n" ∧
    reformatMarkdownText 3 (.fin 12) c!"# T\nsome words that wrap\n* a\n* b\n\n[a]: url \"t\"\n\n \n" =
      .ok c!"# T\nsome words\nthat wrap\n* a\n* b\n\n[a]: url \"t\"\n" ∧
    parse 2 (splitlines c!"# T\nsome words\nthat wrap\n* a\n* b\n\n[a]: url \"t\"\n\n\n") =
      .ok [(.atx, [c!"# T"]), (.par, [c!"some words", c!"that wrap"]), (.bullet, [c!"* a", c!"* b"]), (.blank, [[]]),
        (.lrd, [c!"[a]: url \"t\""]), (.blank, [[]]), (.blank, [[]])] ∧
    splitLrd [c!"[a]: url \"t\""] = .ok ([c!"[a]: url \"t\""], []) ∧
    reformatMarkdownText 3 (.fin 12) c!"# T\nsome words\nthat wrap\n* a\n* b\n\n[a]: url \"t\"\n" =
      .ok c!"# T\nsome words\nthat wrap\n* a\n* b\n\n[a]: url \"t\"\n" := by
  decide +kernel

end MF
