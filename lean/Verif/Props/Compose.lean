import Verif.Lemmas.Local
import Verif.Props.Idempotent
/-!
# Documents put together at a blank line

C50: the sections before a blank line, and their formatting, do not depend on what follows it.
-/

namespace MF

theorem parseLoop_loc {b : Str} {B1 B2 : List Str} (hb : isBlankLine b = true) (h1 : NoIndentFirst B1)
    (h2 : NoIndentFirst B2) (hB1 : B1 ≠ []) (n : Nat) {T1 T2 : List (Sec × List Str)} (hT : parse n B2 = .ok T2) :
    ∀ S fuel fuel' A, parseLoop (splitQuote n) fuel (A ++ b :: B1) = .ok (S ++ (.blank, [b]) :: T1) →
      (S.map (·.2)).flatten = A → (∀ p ∈ S, p.1 ≠ .lrd → ¬StartsLabel p.2) → (A ++ b :: B2).length ≤ fuel' →
      parseLoop (splitQuote n) fuel' (A ++ b :: B2) = .ok (S ++ (.blank, [b]) :: T2) := by
  intro S
  induction S with
  | nil =>
    intro fuel fuel' A h hA hl hf
    have hA : A = [] := by simpa using hA.symm
    subst hA
    rw [List.nil_append] at hf ⊢
    cases fuel' with
    | zero => simp at hf
    | succ fuel' =>
      have : parseLoop (splitQuote n) fuel' B2 = .ok T2 := by
        rw [parseLoop_fuel n fuel' B2.length B2 (by simpa using hf) (Nat.le_refl _)]
        exact hT
      simp only [parseLoop, firstSection_blank B2 hb, bind, Except.bind, this]
      rfl
  | cons s S ih =>
    intro fuel fuel' A h hA hl hf
    obtain ⟨ty, a⟩ := s
    have hp := parseLoop_partition n _ _ _ h
    have ha : a ≠ [] := hp.2 (ty, a) (by simp)
    simp only [List.map_cons, List.flatten_cons] at hA
    have hAne : A ≠ [] := by
      intro e
      rw [e] at hA
      exact ha (List.append_eq_nil_iff.1 hA).1
    have hcons : ∃ x xs, A ++ b :: B1 = x :: xs := ⟨_, _, (List.cons_head_tail (by simp)).symm⟩
    have hcons2 : ∃ x xs, A ++ b :: B2 = x :: xs := ⟨_, _, (List.cons_head_tail (by simp)).symm⟩
    obtain ⟨x, xs, ex⟩ := hcons
    obtain ⟨y, ys, ey⟩ := hcons2
    cases fuel with
    | zero => rw [ex] at h; cases h
    | succ fuel =>
      cases fuel' with
      | zero => rw [ey] at hf; simp at hf
      | succ fuel' =>
        rw [ex] at h
        rw [ey]
        simp only [parseLoop, bind, Except.bind] at h ⊢
        rw [← ex] at h
        rw [← ey]
        cases hfs : firstSection (splitters (splitQuote n)) (A ++ b :: B1) with
        | error e => rw [hfs] at h; cases h
        | ok q =>
          obtain ⟨ty', a', r⟩ := q
          rw [hfs] at h
          simp only at h
          cases hrest : parseLoop (splitQuote n) fuel r with
          | error e => rw [hrest] at h; cases h
          | ok rest =>
            rw [hrest] at h
            have h := Except.ok.inj h
            rw [List.cons_append] at h
            obtain ⟨e1, e2⟩ := List.cons.inj h
            cases e1
            obtain ⟨r', g1, g2, g3⟩ := firstSection_loc hb h1 h2 hB1 n hAne hfs (by rw [← hA]; simp) (by
              intro hty
              cases hm : lrdFirstRx.match? (lstrip (A.headD [])) with
              | none => rfl
              | some m =>
                exfalso
                obtain ⟨name, r0, i1, i2, i3, i4⟩ := lrdFirst_shape hm
                obtain ⟨l0, more, rfl⟩ := List.exists_cons_of_ne_nil ha
                have : A.headD [] = l0 := by rw [← hA]; rfl
                rw [this] at i1
                refine hl (ty, l0 :: more) (by simp) hty ⟨l0, more, l0.takeWhile isWs, name, r0, rfl, ?_, ?_, i2, i3, i4⟩
                · rw [← i1]; exact (List.takeWhile_append_dropWhile ..).symm
                · intro c hc; exact takeWhile_all _ _ c hc)
            have hr' : r' = (S.map (·.2)).flatten := by
              rw [← hA] at g1
              exact List.append_cancel_left g1
            rw [g2, e2] at hrest
            rw [g3]
            simp only
            have hlen : (r' ++ b :: B2).length ≤ fuel' := by
              have := congrArg List.length g1
              have h3 : 1 ≤ a.length := by
                cases a with
                | nil => exact absurd rfl ha
                | cons => simp
              simp only [List.length_append, List.length_cons] at this hf ⊢
              omega
            rw [ih fuel fuel' r' hrest hr'.symm (fun p hp => hl p (by simp [hp])) hlen]
            rfl

/-- **C50, sections.** Let `A` be cut into the sections `S` when a blank line and more follow. Then it is cut into the
same sections whatever follows the blank line, and what follows is cut as if it stood alone; provided that no section
of `A` other than a definition begins with a label, and that the first line with text after the blank line is not
indented by four or more, before and after the change. -/
theorem C50_sections {n : Nat} {A B1 B2 : List Str} {b : Str} {S T1 T2 : List (Sec × List Str)}
    (hb : isBlankLine b = true) (h : parse n (A ++ b :: B1) = .ok (S ++ (.blank, [b]) :: T1))
    (hS : (S.map (·.2)).flatten = A) (hB1 : B1 ≠ []) (h1 : NoIndentFirst B1) (h2 : NoIndentFirst B2)
    (hl : ∀ p ∈ S, p.1 ≠ .lrd → ¬StartsLabel p.2) (hT : parse n B2 = .ok T2) :
    parse n (A ++ b :: B2) = .ok (S ++ (.blank, [b]) :: T2) :=
  parseLoop_loc hb h1 h2 hB1 n hT S _ _ A h hS hl (Nat.le_refl _)

/-! ## Formatting -/

theorem checkRows_index {i j h : Nat} (rows : List (List Str)) : ∀ k, checkRows i h k rows = .ok () →
    checkRows j h k rows = .ok () := by
  induction rows with
  | nil => intro k _; rfl
  | cons r rows ih =>
    intro k hk
    simp only [checkRows] at hk ⊢
    split at hk
    · cases hk
    · rename_i hp
      rw [if_neg hp]
      exact ih _ hk

/-- The line a section starts at matters only for the error message of a ragged table. -/
theorem fmtSection_index {sub : Width → Str → Except Err Str} {w : Width} {i j : Nat} {ty : Sec} {ls : List Str} {t : Str}
    (h : fmtSection sub w i ty ls = .ok t) : fmtSection sub w j ty ls = .ok t := by
  cases ty <;> try exact h
  simp only [fmtSection] at h ⊢
  cases ls with
  | nil => cases h
  | cons header ls =>
    cases ls with
    | nil => cases h
    | cons divider body =>
      simp only [fmtTable, bind, Except.bind] at h ⊢
      split at h
      · cases h
      · rename_i u hu
        rw [checkRows_index (j := j) _ _ hu]
        exact h

/-- what formatting uses of a formatter -/
def Fmt.key (f : Fmt) : Sec × List Str := (f.ty, f.lines)

theorem fmtAll_key {sub : Width → Str → Except Err Str} {w : Width} : ∀ (F G : List Fmt) (P : List Str),
    F.map Fmt.key = G.map Fmt.key → fmtAll sub w F = .ok P → fmtAll sub w G = .ok P := by
  intro F
  induction F with
  | nil =>
    intro G P h hP
    cases G with
    | nil => exact hP
    | cons g G => cases h
  | cons f F ih =>
    intro G P h hP
    cases G with
    | nil => cases h
    | cons g G =>
      simp only [List.map_cons] at h
      obtain ⟨h1, h2⟩ := List.cons.inj h
      simp only [fmtAll, bind, Except.bind] at hP ⊢
      cases hf : fmtSection sub w f.lineIndex f.ty f.lines with
      | error e => rw [hf] at hP; cases hP
      | ok t =>
        rw [hf] at hP
        simp only [Except.mapError] at hP
        cases hfs : fmtAll sub w F with
        | error e => rw [hfs] at hP; cases hP
        | ok ts =>
          rw [hfs] at hP
          have e1 : f.ty = g.ty := congrArg Prod.fst h1
          have e2 : f.lines = g.lines := congrArg Prod.snd h1
          rw [e1, e2] at hf
          rw [fmtSection_index (j := g.lineIndex) hf, ih G ts h2 hfs]
          exact hP

theorem buildFmts_shift (T : List (Sec × List Str)) : ∀ i j last last' G, last ≠ some .quote → last' ≠ some .quote →
    buildFmts i last T = .ok G → ∃ G', buildFmts j last' T = .ok G' ∧ G.map Fmt.key = G'.map Fmt.key := by
  intro i j last last' G hl hl' h
  have same : ∀ (T : List (Sec × List Str)) i j last G, buildFmts i last T = .ok G →
      ∃ G', buildFmts j last T = .ok G' ∧ G.map Fmt.key = G'.map Fmt.key := by
    intro T
    induction T with
    | nil => intro i j last G h; cases h; exact ⟨[], rfl, rfl⟩
    | cons s T ih =>
      intro i j last G h
      obtain ⟨ty, c⟩ := s
      simp only [buildFmts, bind, Except.bind] at h ⊢
      cases hr : reprCheck ty c with
      | error e => rw [hr] at h; cases h
      | ok u =>
        rw [hr] at h
        simp only at h ⊢
        cases hb : buildFmts (i + c.length) (some ty) T with
        | error e => rw [hb] at h; cases h
        | ok G0 =>
          rw [hb] at h
          obtain ⟨G', h1, h2⟩ := ih _ (j + c.length) _ _ hb
          rw [h1]
          simp only at h ⊢
          split at h
          · rename_i hq
            rw [if_pos hq]
            cases h
            exact ⟨_, rfl, by simp [h2, Fmt.key]⟩
          · rename_i hq
            rw [if_neg hq]
            cases h
            exact ⟨_, rfl, by simp [h2, Fmt.key]⟩
  obtain ⟨G', h1, h2⟩ := same T i j last G h
  refine ⟨G', ?_, h2⟩
  rw [← h1]
  cases T with
  | nil => rfl
  | cons s T =>
    obtain ⟨ty, c⟩ := s
    have e1 : (last == some Sec.quote) = false := by simp [hl]
    have e2 : (last' == some Sec.quote) = false := by simp [hl']
    simp only [buildFmts, e1, e2, Bool.and_false]

theorem buildFmts_blank_after (b : Str) (T1 T2 : List (Sec × List Str)) (S : List (Sec × List Str)) :
    ∀ i last F G, buildFmts i last (S ++ (.blank, [b]) :: T1) = .ok F → buildFmts 0 none T2 = .ok G →
      ∃ F0 f F' G', F = F0 ++ f :: F' ∧ f.key = (.blank, [b]) ∧ (F0 = [] → S = []) ∧
        (∃ j, buildFmts j (some .blank) T1 = .ok F') ∧ buildFmts i last (S ++ (.blank, [b]) :: T2) = .ok (F0 ++ f :: G') ∧ G.map Fmt.key = G'.map Fmt.key := by
  induction S with
  | nil =>
    intro i last F G hF hG
    rw [List.nil_append] at hF ⊢
    simp only [buildFmts, reprCheck, bind, Except.bind] at hF ⊢
    cases hb : buildFmts (i + [b].length) (some .blank) T1 with
    | error e => rw [hb] at hF; cases hF
    | ok F' =>
      rw [hb] at hF
      obtain ⟨G', h1, h2⟩ := buildFmts_shift T2 0 (i + [b].length) none (some .blank) G (by simp) (by simp) hG
      rw [h1]
      cases hF
      exact ⟨[], _, F', G', rfl, rfl, fun _ => trivial, ⟨_, hb⟩, rfl, h2⟩
  | cons s S ih =>
    intro i last F G hF hG
    obtain ⟨ty, c⟩ := s
    rw [List.cons_append] at hF ⊢
    simp only [buildFmts, bind, Except.bind] at hF ⊢
    cases hr : reprCheck ty c with
    | error e => rw [hr] at hF; cases hF
    | ok u =>
      rw [hr] at hF
      simp only at hF ⊢
      cases hb : buildFmts (i + c.length) (some ty) (S ++ (.blank, [b]) :: T1) with
      | error e => rw [hb] at hF; cases hF
      | ok F1 =>
        rw [hb] at hF
        obtain ⟨F0, f, F', G', rfl, h2, _, h5, h3, h4⟩ := ih _ _ _ _ hb hG
        rw [h3]
        simp only at hF ⊢
        split at hF
        · rename_i hq
          rw [if_pos hq]
          cases hF
          exact ⟨_ :: _ :: F0, f, F', G', rfl, h2, by simp, h5, rfl, h4⟩
        · rename_i hq
          rw [if_neg hq]
          cases hF
          exact ⟨_ :: F0, f, F', G', rfl, h2, by simp, h5, rfl, h4⟩

theorem fmtAll_concat {sub : Width → Str → Except Err Str} {w : Width} (F G : List Fmt) : ∀ P Q,
    fmtAll sub w F = .ok P → fmtAll sub w G = .ok Q → fmtAll sub w (F ++ G) = .ok (P ++ Q) := by
  induction F with
  | nil => intro P Q h1 h2; cases h1; exact h2
  | cons f F ih =>
    intro P Q h1 h2
    rw [List.cons_append]
    simp only [fmtAll, bind, Except.bind] at h1 ⊢
    split at h1
    · cases h1
    · rename_i t ht
      split at h1
      · cases h1
      · rename_i ts hts
        cases h1
        rw [ih ts Q hts h2]
        rfl

/-- **C50, text.** Let `x` be lines of text, each with its line feed, which are cut into the sections `S` when two empty
lines follow, and formatted as `u`. Let `y` be a text that is formatted as `v`. Then `x`, an empty line and `y` are
formatted as `u`, an empty line and `v`; provided that no section of `x` other than a definition begins with a label,
and that the first line of `y` with text is not indented by four or more. -/
theorem C50_text {n : Nat} {w : Width} {x y u v : Str} {S : List (Sec × List Str)} (hx : ∃ x0, x = x0 ++ ['\n'])
    (hS : parse n (splitlines (x ++ c!"\n\n")) = .ok (S ++ [(.blank, [[]]), (.blank, [[]])]))
    (hl : ∀ p ∈ S, p.1 ≠ .lrd → ¬StartsLabel p.2) (hu : reformatText (n + 1) w (x ++ c!"\n\n") = .ok (u ++ c!"\n\n"))
    (hy : y ≠ []) (h2 : NoIndentFirst (splitlines y)) (hv : reformatText (n + 1) w y = .ok v) :
    reformatText (n + 1) w (x ++ '\n' :: y) = .ok (u ++ '\n' :: v) := by
  obtain ⟨x0, rfl⟩ := hx
  have e0 : splitlines (x0 ++ ['\n'] ++ c!"\n\n") = splitlines (x0 ++ ['\n']) ++ [[], []] := splitlines_append_nls x0 2
  have e1 : splitlines (x0 ++ ['\n'] ++ '\n' :: y) = splitlines (x0 ++ ['\n']) ++ [] :: splitlines y := by
    rw [List.append_assoc, List.singleton_append, splitlines_nl_append]
    have := splitlines_line [] (by intro c hc; cases hc) y
    rw [List.nil_append] at this
    rw [this]
  have hyl : splitlines y ≠ [] := by
    cases y with
    | nil => exact absurd rfl hy
    | cons d y =>
      rw [splitlines]
      split
      · rename_i hq
        have : y ≠ [] := by
          rintro rfl
          simp at hq
        cases y with
        | nil => exact absurd rfl this
        | cons d' y =>
          rw [splitlines]
          have hd : d' = '\n' := by simp at hq; exact hq.2
          subst hd
          simp [isLB]
      · split
        · simp
        · cases splitlines y <;> simp [consHead]
  simp only [reformatText, reformatBody, bind, Except.bind] at hu hv ⊢
  rw [e0] at hS hu
  rw [e1]
  have hA : (S.map (·.2)).flatten = splitlines (x0 ++ ['\n']) := by
    have := (parseLoop_partition n _ _ _ hS).1
    simp only [List.map_append, List.flatten_append] at this
    exact List.append_cancel_right (as := (S.map (·.2)).flatten) (bs := [[], []]) this
  have hSne : S ≠ [] := by
    rintro rfl
    exact splitlines_concat_ne x0 '\n' (by decide) hA.symm
  cases hT : parse n (splitlines y) with
  | error e => rw [hT] at hv; cases hv
  | ok T2 =>
    have hTne : T2 ≠ [] := by
      rintro rfl
      exact hyl (parseLoop_partition n _ _ _ hT).1.symm
    rw [hT] at hv
    rw [C50_sections (n := n) (A := splitlines (x0 ++ ['\n'])) (b := []) (B1 := [[]]) (B2 := splitlines y) rfl hS hA
      (by simp) (by
        intro pre l post e hp hq
        have : l ∈ [([] : Str)] := by rw [e]; simp
        rw [List.mem_singleton.1 this] at hq
        cases hq) h2 hl hT]
    rw [hS] at hu
    simp only at hu hv ⊢
    cases hF : buildFmts 0 none (S ++ [(.blank, [[]]), (.blank, [[]])]) with
    | error e => rw [hF] at hu; cases hu
    | ok F =>
      cases hG : buildFmts 0 none T2 with
      | error e => rw [hG] at hv; cases hv
      | ok G =>
        rw [hF] at hu
        rw [hG] at hv
        simp only at hu hv
        obtain ⟨F0, f, F', G', rfl, hf, hF0, ⟨j, hF'⟩, hF2, hk⟩ := buildFmts_blank_after [] [(.blank, [[]])] T2 S 0 none F G hF hG
        rw [hF2]
        simp only
        cases hP : fmtAll (reformatText n) w (F0 ++ f :: F') with
        | error e => rw [hP] at hu; cases hu
        | ok parts =>
          cases hQ : fmtAll (reformatText n) w G with
          | error e => rw [hQ] at hv; cases hv
          | ok Q =>
            rw [hP] at hu
            rw [hQ] at hv
            obtain ⟨P0, P1, rfl, k1, k2, k3⟩ := fmtAll_append _ _ _ _ _ hP
            have hG' := fmtAll_key G G' Q hk hQ
            have hf1 : f.ty = .blank := congrArg Prod.fst hf
            have hfG : fmtAll (reformatText n) w (f :: G') = .ok ([] :: Q) := by
              simp only [fmtAll, hf1, fmtSection, fmtBlank, Except.mapError, bind, Except.bind, hG']
            rw [fmtAll_concat F0 (f :: G') P0 ([] :: Q) k1 hfG]
            simp only
            have hP0 : P0 ≠ [] := by
              intro e
              rw [e] at k3
              exact hSne (hF0 (List.length_eq_zero_iff.1 k3.symm))
            have hQne : Q ≠ [] := by
              intro e
              subst e
              have : G = [] := by
                cases G with
                | nil => rfl
                | cons g G =>
                  simp only [fmtAll, bind, Except.bind] at hQ
                  split at hQ
                  · cases hQ
                  · split at hQ <;> cases hQ
              exact buildFmts_ne hG hTne this
            have hP1 : P1 = [[], []] := by
              simp only [buildFmts, reprCheck, bind, Except.bind] at hF'
              cases hF'
              simp only [fmtAll, hf1, fmtSection, fmtBlank, Except.mapError, bind, Except.bind] at k2
              cases k2
              rfl
            have hu : u = pyJoin ['\n'] P0 ++ ['\n'] := by
              have := Except.ok.inj hu
              rw [hP1, show [([] : Str), []] = List.replicate 2 [] from rfl, pyJoin_blanks P0 hP0 2] at this
              have e : (pyJoin ['\n'] P0 ++ ['\n']) ++ c!"\n\n" = u ++ c!"\n\n" := by
                rw [← this]; simp [List.replicate]
              exact (List.append_cancel_right e).symm
            have hv : v = pyJoin ['\n'] Q ++ ['\n'] := (Except.ok.inj hv).symm
            rw [hu, hv, pyJoin_append hP0 (by simp), pyJoin_cons_ne hQne]
            simp

/-- `x`, lines of text each with its line feed, is formatted as `u`, and nothing is left open at its end: empty lines
after it are sections of their own. No section of `x` other than a definition begins with a label. -/
structure Closed (n : Nat) (w : Width) (x u : Str) : Prop where
  lf : ∃ x0, x = x0 ++ ['\n']
  sections : ∃ S, parse n (splitlines (x ++ c!"\n\n")) = .ok (S ++ [(.blank, [[]]), (.blank, [[]])]) ∧
    ∀ p ∈ S, p.1 ≠ .lrd → ¬StartsLabel p.2
  formats : reformatText (n + 1) w (x ++ c!"\n\n") = .ok (u ++ c!"\n\n")

/-- **C50.** A closed document, an empty line and a further document are formatted as the results with an empty line
between them. -/
theorem C50_program {n : Nat} {w : Width} {x u y v : Str} (hx : Closed n w x u) (hu : Closed n w u u)
    (h1 : NoIndentFirst (splitlines y)) (h2 : NoIndentFirst (splitlines v)) (hy : reformatText (n + 1) w y = .ok v)
    (hv : reformatText (n + 1) w v = .ok v) (hne : rstrip v ≠ []) :
    reformatMarkdownText (n + 1) w y = .ok (rstrip v ++ ['\n']) ∧
    reformatMarkdownText (n + 1) w (x ++ '\n' :: y) = .ok (u ++ '\n' :: (rstrip v ++ ['\n'])) := by
  have hvn : v ≠ [] := by rintro rfl; exact hne rfl
  have hyn : y ≠ [] := by
    rintro rfl
    simp only [reformatText, reformatBody, bind, Except.bind] at hy
    cases hy
    exact hne rfl
  obtain ⟨S, s1, s2⟩ := hx.sections
  obtain ⟨S', s1', s2'⟩ := hu.sections
  have e1 := C50_text hx.lf s1 s2 hx.formats hyn h1 hy
  have e2 := C50_text hu.lf s1' s2' hu.formats hvn h2 hv
  refine ⟨by simp only [reformatMarkdownText, bind, Except.bind, hy, hv]; simp, ?_⟩
  have : rstrip (u ++ '\n' :: v) = u ++ '\n' :: rstrip v := by
    obtain ⟨z, c, e, hc⟩ : ∃ z c, rstrip v = z ++ [c] ∧ isWs c = false := by
      rcases rstrip_last v with h0 | ⟨x, c, h0, h1⟩
      · exact absurd h0 hne
      · exact ⟨x, c, h0, h1⟩
    obtain ⟨s, hs1, hs2⟩ := rstrip_split v
    conv => lhs; rw [hs1, e]
    rw [e]
    rw [show u ++ '\n' :: (z ++ [c] ++ s) = (u ++ '\n' :: z ++ [c]) ++ s by simp, rstrip_append_ws _ _ hs2,
      rstrip_concat_of_not _ _ hc]
    simp
  simp only [reformatMarkdownText, bind, Except.bind, e1, e2, this]
  simp

/-- **C50, formatted documents.** Two formatted documents with an empty line between them are a formatted document. -/
theorem C50_formatted {n : Nat} {w : Width} {x y : Str} (hx : Closed n w x x) (h : NoIndentFirst (splitlines y))
    (hy : reformatText (n + 1) w y = .ok y) (hne : rstrip y ≠ []) (hlf : y = rstrip y ++ ['\n']) :
    reformatMarkdownText (n + 1) w (x ++ '\n' :: y) = .ok (x ++ '\n' :: y) := by
  have := (C50_program hx hx h h hy hy hne).2
  rw [← hlf] at this
  exact this

/-- **C50, any number of documents.** Closed documents with an empty line between them are a closed document. -/
theorem C50_closed {n : Nat} {w : Width} {x u y v : Str} (hx : Closed n w x u) (hy : Closed n w y v)
    (h : NoIndentFirst (splitlines (y ++ c!"\n\n"))) : Closed n w (x ++ '\n' :: y) (u ++ '\n' :: v) := by
  obtain ⟨S, s1, s2⟩ := hx.sections
  obtain ⟨S', s1', s2'⟩ := hy.sections
  obtain ⟨x0, rfl⟩ := hx.lf
  obtain ⟨y0, rfl⟩ := hy.lf
  refine ⟨⟨x0 ++ ['\n'] ++ '\n' :: y0, by simp⟩, ?_, ?_⟩
  · refine ⟨S ++ (.blank, [[]]) :: S', ?_, ?_⟩
    · have e1 : splitlines (x0 ++ ['\n'] ++ '\n' :: (y0 ++ ['\n']) ++ c!"\n\n") =
          splitlines (x0 ++ ['\n']) ++ [] :: splitlines (y0 ++ ['\n'] ++ c!"\n\n") := by
        rw [show x0 ++ ['\n'] ++ '\n' :: (y0 ++ ['\n']) ++ c!"\n\n" =
          x0 ++ '\n' :: ([] ++ '\n' :: (y0 ++ ['\n'] ++ c!"\n\n")) by simp, splitlines_nl_append,
          splitlines_line [] (by intro c hc; cases hc)]
      rw [e1]
      have e0 : splitlines (x0 ++ ['\n'] ++ c!"\n\n") = splitlines (x0 ++ ['\n']) ++ [[], []] :=
        splitlines_append_nls x0 2
      rw [e0] at s1
      have hA : (S.map (·.2)).flatten = splitlines (x0 ++ ['\n']) := by
        have := (parseLoop_partition n _ _ _ s1).1
        simp only [List.map_append, List.flatten_append] at this
        exact List.append_cancel_right (as := (S.map (·.2)).flatten) (bs := [[], []]) this
      rw [C50_sections (n := n) (b := []) (B1 := [[]]) rfl s1 hA (by simp) (by
        intro pre l post e hp hq
        have : l ∈ [([] : Str)] := by rw [e]; simp
        rw [List.mem_singleton.1 this] at hq
        cases hq) h s2 s1']
      simp
    · intro p hp
      rcases List.mem_append.1 hp with hp | hp
      · exact s2 p hp
      · rcases List.mem_cons.1 hp with rfl | hp
        · intro _ hc
          obtain ⟨l0, more, ws, name, r, e1, e2, _⟩ := hc
          simp only at e1
          cases e1
          have := congrArg List.length e2
          simp at this
        · exact s2' p hp
  · have := C50_text ⟨x0, rfl⟩ s1 s2 hx.formats (by simp) h hy.formats
    simpa using this

/-- `C50_program` applies: a list, a heading and a paragraph before a quotation and a table. -/
theorem C50_example :
    parse 3 (splitlines c!"* a\n    * b\n\n# T\nsome words that wrap\n\n\n") =
      .ok [(.bullet, [c!"* a", c!"    * b"]), (.blank, [[]]), (.atx, [c!"# T"]), (.par, [c!"some words that wrap"]),
        (.blank, [[]]), (.blank, [[]])] ∧
    reformatText 4 (.fin 12) c!"* a\n    * b\n\n# T\nsome words that wrap\n\n\n" =
      .ok c!"* a\n  * b\n\n# T\nsome words\nthat wrap\n\n\n" ∧
    parse 3 (splitlines c!"* a\n  * b\n\n# T\nsome words\nthat wrap\n\n\n") =
      .ok [(.bullet, [c!"* a", c!"  * b"]), (.blank, [[]]), (.atx, [c!"# T"]),
        (.par, [c!"some words", c!"that wrap"]), (.blank, [[]]), (.blank, [[]])] ∧
    reformatText 4 (.fin 12) c!"* a\n  * b\n\n# T\nsome words\nthat wrap\n\n\n" =
      .ok c!"* a\n  * b\n\n# T\nsome words\nthat wrap\n\n\n" ∧
    reformatText 4 (.fin 12) c!"> q\nr\n\n|a|\n|-|" = .ok c!"> q r\n\n| a |\n|---|\n" ∧
    reformatText 4 (.fin 12) c!"> q r\n\n| a |\n|---|\n" = .ok c!"> q r\n\n| a |\n|---|\n" ∧
    reformatMarkdownText 4 (.fin 12) c!"* a\n    * b\n\n# T\nsome words that wrap\n\n> q\nr\n\n|a|\n|-|" =
      .ok c!"* a\n  * b\n\n# T\nsome words\nthat wrap\n\n> q r\n\n| a |\n|---|\n" := by decide +kernel

/-- An open fence at the end of the first document: its end depends on the second. -/
theorem C50_open_fence : reformatMarkdownText 3 (.fin 88) c!"```\na\n" = .ok c!"```\n```\n" ∧
    reformatMarkdownText 3 (.fin 88) c!"b\n```\nc\n```\n" = .ok c!"b\n```\nc\n```\n" ∧
    (reformatMarkdownText 3 (.fin 88) c!"```\na\n\nb\n```\nc\n```\n").toOption = none := by
  decide +kernel

/-- A title that is open at the end of the first document: the paragraph becomes a definition when the second closes
it. -/
theorem C50_open_title : reformatMarkdownText 3 (.fin 88) c!"[a]: u \"t\n" = .ok c!"[a]: u \"t\n" ∧
    reformatMarkdownText 3 (.fin 88) c!"b\"\nc\n" = .ok c!"b\" c\n" ∧
    reformatMarkdownText 3 (.fin 88) c!"[a]: u \"t\n\nb\"\nc\n" ≠ .ok c!"[a]: u \"t\n\nb\" c\n" := by
  decide +kernel

end MF
