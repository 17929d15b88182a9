import Verif.Props.Trailing
import Verif.Props.Kept
import Verif.Lemmas.WrapSome
/-!
# C90: which trailing whitespace is left
-/

namespace MF

/-- the line ends in a list marker, or in the hashes of a heading without text, and one space -/
def AfterMark (l : Str) : Prop :=
  ∃ p m, l = p ++ (m ++ [' ']) ∧ (IsMarker m ∨ (m ≠ [] ∧ ∀ c ∈ m, c = '#')) ∧ (p = [] ∨ p.getLast? = some ' ')

/-- the line ends in exactly two spaces, behind some text -/
def AfterBreak (l : Str) : Prop := ∃ r c, l = r ++ [c] ++ c!"  " ∧ isWs c = false

/-- What may stand at the end of a line: no whitespace; one space behind a list marker or the hashes of a heading; two
spaces behind text; or the line has spaces only. -/
def TrailLine (l : Str) : Prop := CleanLine l ∨ AfterMark l ∨ AfterBreak l ∨ ∀ c ∈ l, c = ' '

/-- all lines of a text end so, and the first line is not made of spaces -/
structure Trails (s : Str) : Prop where
  all : ∀ l ∈ splitChar '\n' s, TrailLine l
  first : ∀ l, (splitChar '\n' s).head? = some l → (∀ c ∈ l, c = ' ') → l = []

theorem CleanLine.spaces {l : Str} (h : CleanLine l) (hs : ∀ c ∈ l, c = ' ') : l = [] := by
  rcases h with h | ⟨r, c, rfl, hc⟩
  · exact h
  · rw [hs c (by simp)] at hc; exact absurd hc (by decide)

theorem Clean.trails {s : Str} (h : Clean s) : Trails s where
  all l hl := .inl (h l hl)
  first l hl := (h l (List.mem_of_mem_head? hl)).spaces

theorem Trails.line {l : Str} (hn : '\n' ∉ l) (h : TrailLine l) (hf : (∀ c ∈ l, c = ' ') → l = []) : Trails l := by
  refine ⟨?_, ?_⟩
  · intro x hx
    rw [splitChar_noSep _ _ hn] at hx
    simp at hx
    exact hx ▸ h
  · intro x hx
    rw [splitChar_noSep _ _ hn] at hx
    simp at hx
    subst hx
    exact hf

theorem Trails.nl {a b : Str} (ha : Trails a) (hb : ∀ l ∈ splitChar '\n' b, TrailLine l) : Trails (a ++ '\n' :: b) := by
  refine ⟨?_, ?_⟩
  · intro l hl
    rw [splitChar_append] at hl
    rcases List.mem_append.1 hl with h | h
    · exact ha.all l h
    · exact hb l h
  · intro l hl
    apply ha.first
    rw [splitChar_append] at hl
    cases h : splitChar '\n' a with
    | nil => exact absurd h (splitChar_ne_nil _ _)
    | cons x xs => rw [h] at hl; simpa using hl

theorem lines_nl {P : Str → Prop} {a b : Str} (ha : ∀ l ∈ splitChar '\n' a, P l) (hb : ∀ l ∈ splitChar '\n' b, P l) :
    ∀ l ∈ splitChar '\n' (a ++ '\n' :: b), P l := by
  intro l hl
  rw [splitChar_append] at hl
  rcases List.mem_append.1 hl with h | h
  · exact ha l h
  · exact hb l h

theorem lines_pyJoin {P : Str → Prop} (h0 : ∀ l ∈ splitChar '\n' [], P l) {ls : List Str}
    (h : ∀ x ∈ ls, ∀ l ∈ splitChar '\n' x, P l) : ∀ l ∈ splitChar '\n' (pyJoin ['\n'] ls), P l := by
  induction ls with
  | nil => exact h0
  | cons x xs ih =>
    cases xs with
    | nil => exact h x (by simp)
    | cons y ys =>
      simp only [pyJoin]
      rw [List.append_assoc]
      exact lines_nl (h x (by simp)) (ih fun l hl => h l (by simp [List.mem_cons.1 hl]))

theorem Trails.pyJoin {ls : List Str} (h : ∀ l ∈ ls, Trails l) : Trails (pyJoin ['\n'] ls) := by
  induction ls with
  | nil => exact Clean.nil.trails
  | cons x xs ih =>
    cases xs with
    | nil => exact h x (by simp)
    | cons y ys =>
      simp only [MF.pyJoin]
      rw [List.append_assoc]
      exact (h x (by simp)).nl (ih fun l hl => h l (by simp [List.mem_cons.1 hl])).all

theorem Trails.rstripNl {s : Str} (h : Trails s) : Trails (rstripBy (· == '\n') s) := by
  obtain ⟨t, ht, hall⟩ := rstripBy_split (· == '\n') s
  generalize rstripBy (· == '\n') s = r at ht
  cases t with
  | nil => rw [ht, List.append_nil] at h; exact h
  | cons c t =>
    have hc : c = '\n' := by simpa using hall c (by simp)
    subst hc
    have hs : splitChar '\n' s = splitChar '\n' r ++ splitChar '\n' t := by rw [ht, splitChar_append]
    refine ⟨fun l hl => h.all l (by rw [hs]; exact List.mem_append_left _ hl), fun l hl => h.first l ?_⟩
    rw [hs]
    cases hr : splitChar '\n' r with
    | nil => exact absurd hr (splitChar_ne_nil _ _)
    | cons x xs => rw [hr] at hl; simpa using hl

/-- text in front of a line that is not empty does not change how it ends -/
theorem TrailLine.prepend {l p : Str} (h : TrailLine l) (hne : ¬ ∀ c ∈ l, c = ' ') (hp : p.getLast? = some ' ') :
    TrailLine (p ++ l) := by
  rcases h with (rfl | ⟨r, c, rfl, hc⟩) | ⟨q, m, rfl, hm, hq⟩ | ⟨r, c, rfl, hc⟩ | h
  · exact absurd (by simp) hne
  · exact .inl (.inr ⟨p ++ r, c, by simp, hc⟩)
  · refine .inr (.inl ⟨p ++ q, m, by simp, hm, .inr ?_⟩)
    rcases hq with rfl | hq
    · simpa using hp
    · rw [List.getLast?_append, hq]; rfl
  · exact .inr (.inr (.inl ⟨p ++ r, c, by simp, hc⟩))
  · exact absurd h hne

theorem IsMarker.not_space {m : Str} (h : IsMarker m) : ∃ c ∈ m, c ≠ ' ' := by
  rcases h with rfl | rfl | rfl | ⟨ds, _, _, rfl⟩
  · exact ⟨'*', by simp, by decide⟩
  · exact ⟨'-', by simp, by decide⟩
  · exact ⟨'+', by simp, by decide⟩
  · exact ⟨'.', by simp, by decide⟩

theorem IsMarker.no_nl {m : Str} (h : IsMarker m) : '\n' ∉ m := by
  rcases h with rfl | rfl | rfl | ⟨ds, _, hd, rfl⟩
  · decide
  · decide
  · decide
  · intro hm
    rcases List.mem_append.1 hm with hm | hm
    · have := hd _ hm; revert this; decide
    · revert hm; decide

/-- an entry of a list -/
theorem Trails.entry {m text : Str} {k : Nat} (hm : IsMarker m) (hk : 0 < k) (h : Trails text) :
    Trails (m ++ ' ' :: MF.pyJoin ('\n' :: List.replicate k ' ') (splitChar '\n' (rstripBy (· == '\n') text))) := by
  have h' := h.rstripNl
  generalize rstripBy (· == '\n') text = s at h'
  have hnl : ∀ l ∈ splitChar '\n' s, '\n' ∉ l := fun l hl hm => (splitChar_mem _ _ l hl _ hm).2 rfl
  cases hs : splitChar '\n' s with
  | nil => exact absurd hs (splitChar_ne_nil _ _)
  | cons x xs =>
    rw [hs] at hnl
    have hall := h'.all
    have hfirst := h'.first x (by rw [hs]; rfl)
    rw [hs] at hall
    have e := join_indented (m ++ [' ']) (List.replicate k ' ') xs x
    rw [show m ++ ' ' :: MF.pyJoin ('\n' :: List.replicate k ' ') (x :: xs) =
      m ++ [' '] ++ MF.pyJoin (['\n'] ++ List.replicate k ' ') (x :: xs) by simp, e]
    have hx : Trails (m ++ [' '] ++ x) := by
      refine Trails.line ?_ ?_ ?_
      · simp only [List.mem_append, List.mem_singleton, not_or]
        exact ⟨⟨hm.no_nl, by decide⟩, hnl x (by simp)⟩
      · by_cases hb : ∀ c ∈ x, c = ' '
        · rw [hfirst hb]
          exact .inr (.inl ⟨[], m, by simp, .inl hm, .inl rfl⟩)
        · exact (hall x (by simp)).prepend hb (by simp)
      · intro hsp
        obtain ⟨c, hc, hne⟩ := hm.not_space
        exact absurd (hsp c (by simp [hc])) hne
    have hrest : ∀ y ∈ xs, ∀ l ∈ splitChar '\n' (List.replicate k ' ' ++ y), TrailLine l := by
      intro y hy l hl
      have hn : '\n' ∉ List.replicate k ' ' ++ y := by
        intro hm
        rcases List.mem_append.1 hm with hm | hm
        · have := List.eq_of_mem_replicate hm; revert this; decide
        · exact hnl y (by simp [hy]) hm
      rw [splitChar_noSep _ _ hn] at hl
      simp at hl
      subst hl
      by_cases hb : ∀ c ∈ y, c = ' '
      · refine .inr (.inr (.inr ?_))
        intro c hc
        rcases List.mem_append.1 hc with hc | hc
        · exact List.eq_of_mem_replicate hc
        · exact hb c hc
      · exact (hall y (by simp [hy])).prepend hb (by rw [List.getLast?_replicate]; simp; omega)
    -- the lines of the join
    cases xs with
    | nil => exact hx
    | cons y ys =>
      rw [List.map_cons]
      simp only [MF.pyJoin]
      rw [List.append_assoc]
      refine hx.nl ?_
      have key : ∀ zs : List Str, zs ≠ [] → (∀ z ∈ zs, ∀ l ∈ splitChar '\n' z, TrailLine l) →
          ∀ l ∈ splitChar '\n' (MF.pyJoin ['\n'] zs), TrailLine l := by
        intro zs
        induction zs with
        | nil => intro h; exact absurd rfl h
        | cons z zs ih =>
          intro _ hz l hl
          cases zs with
          | nil => exact hz z (by simp) l hl
          | cons z' zs =>
            simp only [MF.pyJoin] at hl
            rw [List.append_assoc, show ['\n'] ++ MF.pyJoin ['\n'] (z' :: zs) = '\n' :: MF.pyJoin ['\n'] (z' :: zs) from rfl,
              splitChar_append] at hl
            rcases List.mem_append.1 hl with hl | hl
            · exact hz z (by simp) l hl
            · exact ih (by simp) (fun w hw => hz w (by simp [List.mem_cons.1 hw])) l hl
      have := key ((List.replicate k ' ' ++ y) :: ys.map (List.replicate k ' ' ++ ·)) (by simp) (by
        intro z hz
        rcases List.mem_cons.1 hz with rfl | hz
        · exact hrest y (by simp)
        · obtain ⟨w, hw, rfl⟩ := List.mem_map.1 hz
          exact hrest w (by simp [hw]))
      exact this

/-- a paragraph with a hard break -/
theorem Clean.brk_lines {text : Str} (hc : Clean text) (he : EndsNonWs text) :
    ∀ l ∈ splitChar '\n' (text ++ c!"  "), CleanLine l ∨ AfterBreak l := by
  generalize hn : text.length = n
  induction n using Nat.strongRecOn generalizing text with
  | _ n ih =>
    by_cases hm : '\n' ∈ text
    · obtain ⟨a, b, rfl, _⟩ := List.eq_append_cons_of_mem hm
      have hs := splitChar_append '\n' a b
      have hb : EndsNonWs b := by
        obtain ⟨r, c, hrc, hw⟩ := he
        rcases List.eq_nil_or_concat b with rfl | ⟨b', d, rfl⟩
        · have := (List.append_inj_right' hrc rfl)
          cases this
          exact absurd hw (by decide)
        · rw [List.concat_eq_append] at hrc ⊢
          have : [d] = [c] := List.append_inj_right' (s₁ := a ++ '\n' :: b') (s₂ := r) (by simpa using hrc) rfl
          cases this
          exact ⟨b', c, rfl, hw⟩
      rw [List.append_assoc]
      refine lines_nl (fun l hl => .inl (hc l (by rw [hs]; exact List.mem_append_left _ hl))) ?_
      exact ih b.length (by rw [← hn]; simp; omega) (fun l hl => hc l (by rw [hs]; exact List.mem_append_right _ hl)) hb rfl
    · obtain ⟨r, c, rfl, hw⟩ := he
      intro l hl
      rw [splitChar_noSep] at hl
      · simp at hl
        exact .inr ⟨r, c, by simpa using hl, hw⟩
      · intro h
        rcases List.mem_append.1 h with h | h
        · exact hm h
        · revert h; decide

theorem AfterBreak.not_spaces {l : Str} (h : AfterBreak l) : ¬ ∀ c ∈ l, c = ' ' := by
  obtain ⟨r, c, rfl, hc⟩ := h
  intro h
  rw [h c (by simp)] at hc
  exact absurd hc (by decide)

theorem Clean.brk {text : Str} (hc : Clean text) (he : EndsNonWs text) : Trails (text ++ c!"  ") where
  all l hl := (hc.brk_lines he l hl).elim .inl fun h => .inr (.inr (.inl h))
  first l hl hs := by
    rcases hc.brk_lines he l (List.mem_of_mem_head? hl) with h | h
    · exact h.spaces hs
    · exact absurd hs h.not_spaces

theorem PairedFrom.mem_right {α β : Type} {R : Nat → α → β → Prop} (xs : List α) : ∀ {k : Nat} {ys : List β},
    PairedFrom R k xs ys → ∀ y ∈ ys, ∃ j, ∃ x ∈ xs, R j x y := by
  induction xs with
  | nil =>
    intro k ys h y hy
    cases ys with
    | nil => cases hy
    | cons z ys => cases h
  | cons x xs ih =>
    intro k ys h y hy
    cases ys with
    | nil => cases hy
    | cons z ys =>
      obtain ⟨h1, h2⟩ := h
      rcases List.mem_cons.1 hy with rfl | hy
      · exact ⟨k, x, by simp, h1⟩
      · obtain ⟨j, x', hx', hr⟩ := ih h2 y hy
        exact ⟨j, x', by simp [hx'], hr⟩

theorem dedentEntry_chars {e d : List Str} (h : dedentEntry e = .ok d) : ∀ l ∈ d, ∀ c ∈ l, ∃ l' ∈ e, c ∈ l' := by
  cases e with
  | nil => cases h
  | cons x xs =>
    simp only [dedentEntry, bind, Except.bind] at h
    split at h
    · cases h
    · cases h
      intro l hl c hc
      rcases List.mem_cons.1 hl with rfl | hl
      · exact ⟨x, by simp, List.mem_of_mem_drop hc⟩
      · obtain ⟨y, hy, rfl⟩ := List.mem_map.1 hl
        rcases List.mem_append.1 hc with hc | hc
        · exact ⟨y, by simp [hy], List.mem_of_mem_take (lstripBy_mem hc)⟩
        · exact ⟨y, by simp [hy], List.mem_of_mem_drop hc⟩

theorem isMarker_natStr (k : Nat) : IsMarker (natStr k ++ ['.']) :=
  .inr (.inr (.inr ⟨natStr k, (natStr_spec k).1, (natStr_spec k).2.1, rfl⟩))

/-- how a section that is not a list is written: without trailing whitespace; as the hashes of a heading without text,
and one space; or as a paragraph whose last line in the source ended in two spaces, with two spaces at its end. -/
theorem fmtSection_other {sub : Width → Str → Except Err Str} {w : Width} {i n : Nat} {doc : List Str} {ty : Sec}
    {lines : List Str} {secs : List (Sec × List Str)} {out : Str} (hparse : parse n doc = .ok secs)
    (hm : (ty, lines) ∈ secs) (h : fmtSection sub w i ty lines = .ok out)
    (hsp : ∀ l ∈ lines, ∀ c ∈ l, isWs c = true → c = ' ') (hb : ty ≠ .bullet) (ho : ty ≠ .ordered) :
    Clean out ∨ (ty = .atx ∧ ∃ k, 0 < k ∧ out = List.replicate k '#' ++ [' '] ∧ lines.all (atxContent · == [])) ∨
      (ty = .par ∧ ∃ text, Clean text ∧ EndsNonWs text ∧ out = text ++ c!"  " ∧
        ∃ last, lines.getLast? = some last ∧ endsWith last c!"  " = true) := by
  obtain ⟨_, hhead⟩ := parse_headPred hparse hm
  simp only at hhead
  have hne : lines ≠ [] := by
    obtain ⟨_, _, _, hne, _⟩ := parse_section hparse hm
    exact hne
  by_cases ha : ty = .atx
  · subst ha
    cases lines with
    | nil => exact absurd rfl hne
    | cons l ls =>
      cases ls with
      | cons y ys =>
        obtain ⟨h1, _⟩ := parse_headPred hparse hm
        have := h1 (.inl rfl)
        simp at this
      | nil =>
        by_cases hc : atxContent l = []
        · cases h
          have hat : isAtx l = true := hhead l rfl
          rw [hc]
          have hdep : atxDepth l ≠ 0 := by
            simp only [isAtx, Bool.and_eq_true] at hat
            obtain ⟨r, hr⟩ := (startsWith_iff _ _).1 hat.2
            have hst : ∃ r', strip l = '#' :: r' := by
              unfold strip
              rw [hr]
              rcases rstrip_cons_of_not '#' r (by decide) with ⟨r', h⟩
              exact ⟨r', h⟩
            obtain ⟨r', hst⟩ := hst
            unfold atxDepth
            rw [hst, show lstripBy (· == '#') ('#' :: r') = lstripBy (· == '#') r' from rfl]
            have : (lstripBy (· == '#') r').length ≤ r'.length := (List.dropWhile_sublist _).length_le
            simp only [List.length_cons]
            omega
          exact .inr (.inl ⟨rfl, atxDepth l, by omega, by simp, by simpa using hc⟩)
        · refine .inl (fmtSection_clean h hsp (by decide) (by decide) ?_ (by intro h; cases h) (by intro h; cases h))
          intro _ x hx
          simp at hx
          subst hx
          exact hc
  by_cases hpar : ty = .par
  · subst hpar
    obtain ⟨body, last, hbl⟩ : ∃ body last, lines = body ++ [last] := by
      rcases List.eq_nil_or_concat lines with h0 | ⟨a, b, h0⟩
      · exact absurd h0 hne
      · exact ⟨a, b, by rw [h0, List.concat_eq_append]⟩
    rw [hbl] at h hsp
    obtain ⟨text, hw, hends, hb1, hb2⟩ := C33_hard_breaks sub w i body last out h
    have hnb : strip text ≠ [] := by
      refine wrap_nonblank ?_ hw
      cases hl : lines with
      | nil => exact absurd hl hne
      | cons x xs =>
        have hps : isParStart x = true := hhead x (by rw [hl]; rfl)
        have hx : strip x ≠ [] := by
          intro h0
          have hbl : isBlankLine x = true := by unfold isBlankLine; rw [h0]; rfl
          simp [isParStart, hbl] at hps
        rw [← hbl, hl]
        intro h0
        rw [strip_eq_nil] at h0
        apply hx
        rw [← strip_idem, strip_eq_nil]
        intro c hc
        apply h0
        rw [List.map_cons]
        cases xs with
        | nil => exact hc
        | cons y ys => simp only [MF.pyJoin, List.map_cons, List.mem_append]; exact .inl (.inl hc)
    have hclean : Clean text := by
      refine wrap_clean hw ?_
      intro c hc hwc
      rcases mem_pyJoin hc with hc | ⟨x, hx, hc⟩
      · left; simpa using hc
      · obtain ⟨y, hy, rfl⟩ := List.mem_map.1 hx
        exact .inl (hsp y hy c (mem_of_mem_strip hc) hwc)
    have hends' : EndsNonWs text := by
      rcases hends with rfl | h
      · exact absurd rfl hnb
      · exact h
    by_cases hbr : ∃ r, last = r ++ c!"  "
    · exact .inr (.inr ⟨rfl, text, hclean, hends', hb1 hbr, last, by rw [hbl]; simp, (endsWith_iff _ _).2 hbr⟩)
    · rw [hb2 hbr]; exact .inl hclean
  refine .inl (fmtSection_clean h hsp hb ho (by intro h; exact absurd h ha) (by intro h; exact absurd h hpar) ?_)
  intro hty
  exact parse_lrd hparse (by rw [← hty]; exact hm)

/-- how the lines of a section end, given how the lines of nested documents end -/
theorem fmtSection_trails {sub : Width → Str → Except Err Str} {w : Width} {i n : Nat} {doc : List Str} {ty : Sec}
    {lines : List Str} {secs : List (Sec × List Str)} {out : Str} (hparse : parse n doc = .ok secs)
    (hm : (ty, lines) ∈ secs) (h : fmtSection sub w i ty lines = .ok out)
    (hsp : ∀ l ∈ lines, ∀ c ∈ l, isWs c = true → c = ' ')
    (hsub : ∀ w' t s, OnlySpaces t → sub w' t = .ok s → Trails s) : Trails out := by
  obtain ⟨_, hhead⟩ := parse_headPred hparse hm
  simp only at hhead
  have hne : lines ≠ [] := by
    obtain ⟨_, _, _, hne, _⟩ := parse_section hparse hm
    exact hne
  have hent : ∀ {l : Str} {ls : List Str} {es : List (List Str)} {e : List Str} {m t : Str} {k : Nat}, lines = l :: ls →
      splitList (l :: ls) = .ok es → es.flatten = l :: ls → e ∈ es → IsMarker m → 0 < k → Rewrites sub w k m e t →
      Trails t := by
    intro l ls es e m t k hl hes hfl he hmk hk hr
    obtain ⟨_, d, body, h1, h2, rfl⟩ := hr
    refine Trails.entry hmk hk (hsub _ _ _ ?_ h2)
    intro c hc hw
    rcases List.mem_append.1 hc with hc | hc
    · rcases mem_pyJoin hc with hc | ⟨x, hx, hc⟩
      · simp at hc; subst hc; exact .inr (by decide)
      · obtain ⟨y, hy, hc⟩ := dedentEntry_chars h1 x hx c hc
        exact .inl (hsp y (by rw [hl, ← hfl]; exact List.mem_flatten.2 ⟨e, he, hy⟩) c hc hw)
    · simp at hc; subst hc; exact .inr (by decide)
  by_cases hb : ty = .bullet
  · subst hb
    cases lines with
    | nil => exact absurd rfl hne
    | cons l ls =>
      obtain ⟨es', hes', _, hfl, _⟩ := C19_entries_partition n doc secs hparse _ _ hm (.inl rfl)
      obtain ⟨_, c, _, es, texts, _, _, hc, hes, rfl, hp⟩ := C18_bullet_list sub w i l ls out (hhead l rfl) h
      rw [hes] at hes'
      cases hes'
      apply Trails.pyJoin
      intro t ht
      obtain ⟨j, e, he, hr⟩ := hp.mem_right _ t ht
      refine hent rfl hes hfl he ?_ (by decide) hr
      rcases hc with rfl | rfl | rfl
      · exact .inl rfl
      · exact .inr (.inr (.inl rfl))
      · exact .inr (.inl rfl)
  by_cases ho : ty = .ordered
  · subst ho
    cases lines with
    | nil => exact absurd rfl hne
    | cons l ls =>
      obtain ⟨es', hes', _, hfl, _⟩ := C19_entries_partition n doc secs hparse _ _ hm (.inr rfl)
      obtain ⟨_, ds, _, es, texts, ind, _, _, _, _, hes, rfl, hp, hle, hex⟩ := C17_ordered_list sub w i l ls out (hhead l rfl) h
      rw [hes] at hes'
      cases hes'
      have hind : 0 < ind := by
        obtain ⟨k, _, hk⟩ := hex
        rw [← hk]; simp
      apply Trails.pyJoin
      intro t ht
      obtain ⟨j, e, he, hr⟩ := hp.mem_right _ t ht
      exact hent rfl hes hfl he (isMarker_natStr _) hind hr
  rcases fmtSection_other hparse hm h hsp hb ho with h | ⟨_, k, hk, rfl, _⟩ | ⟨_, text, h1, h2, rfl, _⟩
  · exact h.trails
  · refine Trails.line ?_ (.inr (.inl ⟨[], List.replicate k '#', by simp, .inr ⟨?_, ?_⟩, .inl rfl⟩)) ?_
    · intro hm'
      simp only [List.mem_append, List.mem_replicate, List.mem_singleton] at hm'
      rcases hm' with ⟨_, hm'⟩ | hm' <;> revert hm' <;> decide
    · intro h0
      have := congrArg List.length h0
      simp at this
      omega
    · intro c hc; exact List.eq_of_mem_replicate hc
    · intro hs
      exact absurd (hs '#' (by simp; omega)) (by decide)
  · exact h1.brk h2

/-- how the lines of a document end after one pass -/
theorem reformatText_trails (n : Nat) : ∀ (w : Width) (text y : Str), OnlySpaces text → reformatText n w text = .ok y →
    Trails y := by
  induction n with
  | zero => intro w text y _ h; cases h
  | succ n ih =>
    intro w text y hsp ha
    simp only [reformatText, reformatBody, bind, Except.bind] at ha
    split at ha
    · cases ha
    · rename_i secs hparse
      split at ha
      · cases ha
      · rename_i fmts hf
        split at ha
        · cases ha
        · rename_i parts hparts
          cases ha
          refine Trails.nl (Trails.pyJoin ?_) Clean.nil.trails.all
          intro t ht
          obtain ⟨f, hfm, hfs⟩ := fmtAll_mem _ _ hparts t ht
          rcases buildFmts_fmt _ _ _ _ hf f hfm with hs | ⟨hb, hb2⟩
          · refine fmtSection_trails hparse hs hfs ?_ ih
            intro l hl c hc hw
            have hl' : l ∈ splitlines text := by
              rw [← (C08_parse_partition n _ _ hparse).1]
              exact List.mem_flatten.2 ⟨f.lines, List.mem_map.2 ⟨_, hs, rfl⟩, hl⟩
            rcases hsp c (splitlines_mem _ l hl' c hc) hw with h1 | h1
            · exact h1
            · rw [splitlines_noLB _ l hl' c hc] at h1; cases h1
          · rw [hb] at hfs
            cases hfs
            exact Clean.nil.trails

/-- trimming the end of a text keeps a property of its lines that all lines without trailing whitespace have -/
theorem rstrip_lines {P : Str → Prop} (hP : ∀ l, CleanLine l → P l) {s : Str} (h : ∀ l ∈ splitChar '\n' s, P l) :
    ∀ l ∈ splitChar '\n' (rstrip s ++ ['\n']), P l := by
  intro l hl
  rw [show rstrip s ++ ['\n'] = rstrip s ++ '\n' :: [] from rfl, splitChar_append] at hl
  rcases List.mem_append.1 hl with hl | hl
  · obtain ⟨t, ht, hall⟩ := rstripBy_split isWs s
    rw [show MF.rstrip s = rstripBy isWs s from rfl] at hl
    rcases rstripBy_last isWs s with h0 | ⟨r, c, h0, hc⟩
    · rw [h0] at hl; exact hP l (Clean.nil l hl)
    · rw [h0] at ht hl
      rcases splitChar_prefix (r ++ [c]) t ⟨r, c, rfl, hc⟩ l hl with h1 | h1
      · exact hP l (.inr h1)
      · exact h l (by rw [ht]; exact h1)
  · exact hP l (Clean.nil l hl)

/-- C90: with spaces as the only horizontal whitespace, a line of the result ends in whitespace in three ways only: it
is a list marker or the hashes of a heading without text, and one space; it is the last line of a paragraph with a hard
break, and ends in exactly two spaces; or it has no text at all (the indentation of an empty line in a list). -/
theorem C90_trailing (n : Nat) (w : Width) (text y : Str) (hsp : OnlySpaces text)
    (h : reformatMarkdownText n w text = .ok y) : ∀ l ∈ splitlines y, TrailLine l := by
  intro l hl
  have hl' := splitlines_splitChar y (C04_only_newlines n w text y h) l hl
  simp only [reformatMarkdownText, bind, Except.bind] at h
  split at h
  · cases h
  · rename_i a ha
    split at h
    · cases h
    · split at h
      · cases h
      · cases h
        exact rstrip_lines (fun _ h => .inl h) (reformatText_trails n w text a hsp ha).all l hl'

/-- What is left at the end of a line in a document with sections `secs`, none of them a list: nothing; one space behind
the hashes of a heading, if there is a heading without text; or two spaces, if there is a paragraph whose last line ends
in two spaces. -/
def Left (secs : List (Sec × List Str)) (l : Str) : Prop :=
  CleanLine l ∨
      ((∃ k, 0 < k ∧ l = List.replicate k '#' ++ [' ']) ∧ ∃ s ∈ secs, s.1 = .atx ∧ ∀ x ∈ s.2, atxContent x = []) ∨
      (AfterBreak l ∧ ∃ s ∈ secs, s.1 = .par ∧ ∃ last, s.2.getLast? = some last ∧ endsWith last c!"  " = true)

/-- C90, without lists at the top level: only headings without text and hard breaks leave whitespace at the end of a
line, and only sections with a line that is such a heading or ends in two spaces do. -/
theorem C90_no_lists (n : Nat) (w : Width) (text y : Str) (secs : List (Sec × List Str)) (hsp : OnlySpaces text)
    (hparse : parse n (splitlines text) = .ok secs) (hlist : ∀ s ∈ secs, s.1 ≠ .bullet ∧ s.1 ≠ .ordered)
    (h : reformatMarkdownText (n + 1) w text = .ok y) : ∀ l ∈ splitlines y, Left secs l := by
  intro l hl
  have hl' := splitlines_splitChar y (C04_only_newlines (n + 1) w text y h) l hl
  simp only [reformatMarkdownText, bind, Except.bind] at h
  split at h
  · cases h
  · rename_i a ha
    split at h
    · cases h
    · split at h
      · cases h
      · cases h
        refine rstrip_lines (P := Left secs) (fun _ h => .inl h) ?_ l hl'
        clear hl hl' l
        simp only [reformatText, reformatBody, bind, Except.bind, hparse] at ha
        split at ha
        · cases ha
        · rename_i fmts hf
          split at ha
          · cases ha
          · rename_i parts hparts
            cases ha
            refine lines_nl ?_ (fun l hl => .inl (Clean.nil l hl))
            refine lines_pyJoin (fun l hl => .inl (Clean.nil l hl)) ?_
            intro t ht
            obtain ⟨f, hfm, hfs⟩ := fmtAll_mem _ _ hparts t ht
            rcases buildFmts_fmt _ _ _ _ hf f hfm with hs | ⟨hb, hb2⟩
            · have hsp' : ∀ l ∈ f.lines, ∀ c ∈ l, isWs c = true → c = ' ' := by
                intro l hl c hc hw
                have hl' : l ∈ splitlines text := by
                  rw [← (C08_parse_partition n _ _ hparse).1]
                  exact List.mem_flatten.2 ⟨f.lines, List.mem_map.2 ⟨_, hs, rfl⟩, hl⟩
                rcases hsp c (splitlines_mem _ l hl' c hc) hw with h1 | h1
                · exact h1
                · rw [splitlines_noLB _ l hl' c hc] at h1; cases h1
              rcases fmtSection_other hparse hs hfs hsp' (hlist _ hs).1 (hlist _ hs).2 with
                h | ⟨hty, k, hk, rfl, hall⟩ | ⟨hty, text, h1, h2, rfl, hlast⟩
              · exact fun l hl => .inl (h l hl)
              · intro l hl
                rw [splitChar_noSep] at hl
                · simp at hl
                  exact .inr (.inl ⟨⟨k, hk, hl⟩, _, hs, hty, by simpa using hall⟩)
                · intro hm'
                  simp only [List.mem_append, List.mem_replicate, List.mem_singleton] at hm'
                  rcases hm' with ⟨_, hm'⟩ | hm' <;> revert hm' <;> decide
              · intro l hl
                rcases h1.brk_lines h2 l hl with h | h
                · exact .inl h
                · exact .inr (.inr ⟨h, _, hs, hty, hlast⟩)
            · rw [hb] at hfs
              cases hfs
              exact fun l hl => .inl (Clean.nil l hl)

/-- C90: markers, hashes and hard breaks in one document -/
theorem C90_example : OnlySpaces c!"1. a  \n2.\n3. #\n4. - x\n   -\n   - y  \n\n#\nz" ∧
    reformatMarkdownText 8 (.fin 20) c!"1. a  \n2.\n3. #\n4. - x\n   -\n   - y  \n\n#\nz" =
      .ok c!"1. a  \n2. \n3. # \n4. - x\n   - \n   - y  \n\n# \nz\n" := by
  refine ⟨?_, by decide +kernel⟩
  have : ∀ c ∈ c!"1. a  \n2.\n3. #\n4. - x\n   -\n   - y  \n\n#\nz", isWs c = true → c = ' ' ∨ isLB c = true := by decide +kernel
  exact this

/-- C90: one pass can write a line of spaces, here between a block quote and a heading in a list. -/
theorem C90_spaces : reformatText 8 (.fin 20) c!"- > q\n  t\n  ===\n" = .ok c!"- > q\n  \n  t\n  =\n" := by
  decide +kernel

/-- C90: the hypotheses of `C90_no_lists` hold of a document with an empty heading and a hard break. -/
theorem C90_no_lists_example : OnlySpaces c!"##\n\nb  \n\nz" ∧
    parse 7 (splitlines c!"##\n\nb  \n\nz") = .ok [(.atx, [c!"##"]), (.blank, [[]]), (.par, [c!"b  "]), (.blank, [[]]), (.par, [c!"z"])] ∧
    reformatMarkdownText 8 (.fin 20) c!"##\n\nb  \n\nz" = .ok c!"## \n\nb  \n\nz\n" := by
  refine ⟨?_, by decide +kernel, by decide +kernel⟩
  have : ∀ c ∈ c!"##\n\nb  \n\nz", isWs c = true → c = ' ' ∨ isLB c = true := by decide +kernel
  exact this

end MF
