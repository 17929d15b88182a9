import Verif.Props.Messages
import Verif.Model.Argparse
/-!
# C70, C71, C72, C73: nothing is passed over by the messages of section detection; verbosity
-/

namespace MF

/-! ## Specification -/

def isFound : Msg → Bool
  | .found .. => true
  | _ => false

/-- The messages name the sections in order, with the first and the last line of each, counted from line `k` on. -/
inductive Finds : Nat → List Msg → List (Sec × List Str) → Prop
  | nil (k : Nat) : Finds k [] []
  | cons (k : Nat) (ty : Sec) (l : Str) (ls : List Str) (ms : List Msg) (secs : List (Sec × List Str))
    (h : Finds (k + ls.length + 1) ms secs) : Finds k (.found k (k + ls.length) ty :: ms) ((ty, l :: ls) :: secs)

/-- The level of a message. -/
def Msg.level : Msg → Nat
  | .sect level .. => level
  | .found .. => DEBUG
  | _ => WARNING

/-! ## Runs -/

theorem Adds.mono {α : Type} {Q : LogSt → Msg → Prop} {m : LogM α} (h : Adds Q m) {s s' : LSt} {r : Except Err α}
    (hm : m s = (r, s')) : s.shown ⊆ s'.shown := by
  obtain ⟨_, _, _, ms, h1, _⟩ := h s
  rw [hm] at h1
  rw [h1]
  exact List.subset_append_left _ _

/-- A splitter runs if those before it are for other kinds of sections than the one that is found. -/
theorem first_ran {Q : LogSt → Msg → Prop} {l : Str} {ls : List Str} {ty : Sec} {f : List Str → Nat → SplitL}
    {after : List (Sec × (List Str → Nat → SplitL))} : ∀ {before : List (Sec × (List Str → Nat → SplitL))}
    {gs : List (Sec × (List Str → Split))} (_ : (before ++ (ty, f) :: after).length = gs.length)
    (_ : ∀ x ∈ ((before ++ (ty, f) :: after).map (·.2)).zip (gs.map (·.2)), ErasesAll x.1 x.2)
    (_ : ∀ g ∈ gs, Keeps g.2) (_ : ∀ p ∈ before ++ (ty, f) :: after, Adds Q (p.2 (l :: ls) 0)) {s s' : LSt}
    {r : Sec × List Str × List Str} (_ : firstSectionL (before ++ (ty, f) :: after) (l :: ls) s = (.ok r, s'))
    (_ : ∀ p ∈ before, p.1 ≠ r.1), ∃ x s1 s2, f (l :: ls) 0 s1 = (.ok x, s2) ∧ s1.toLogSt = s.toLogSt ∧ s2.shown ⊆ s'.shown
  | [], [], hl, _, _, _, _, _, _, _, _ => by simp at hl
  | _ :: _, [], hl, _, _, _, _, _, _, _, _ => by simp at hl
  | [], (t', g) :: gs, hl, he, hk, ha, s, s', r, h, _ => by
    obtain ⟨x, s1, h1, k1⟩ := ran_bind h
    refine ⟨x, s, s1, h1, rfl, ?_⟩
    split at k1
    · cases k1; exact fun _ h => h
    · rename_i hne
      have h2 := hk (t', g) (by simp) l ls x.1 x.2 (((he (f, g) (by simp)) (l :: ls) 0 s).symm.trans (congrArg Prod.fst h1))
      have h3 : x.1 = [] := by simpa using hne
      rw [h3, List.nil_append] at h2
      rw [h2] at k1
      exact (adds_first (Q := Q) (gs := gs) (by simpa using hl) (fun x hx => he x (by simp [hx])) (fun g hg => hk g (by simp [hg]))
        fun f hf => ha f (by simp [hf])).mono k1
  | (t, b) :: before, (t', g) :: gs, hl, he, hk, ha, s, s', r, h, hr => by
    obtain ⟨x, s1, h1, k1⟩ := ran_bind h
    split at k1
    · cases k1; exact absurd rfl (hr (t, b) (by simp))
    · rename_i hne
      have h2 := hk (t', g) (by simp) l ls x.1 x.2 (((he (b, g) (by simp)) (l :: ls) 0 s).symm.trans (congrArg Prod.fst h1))
      have h3 : x.1 = [] := by simpa using hne
      rw [h3, List.nil_append] at h2
      rw [h2] at k1
      obtain ⟨x', a, c, g1, g2, g3⟩ := first_ran (Q := Q) (before := before) (gs := gs) (by simpa using hl)
        (fun x hx => he x (List.mem_cons_of_mem _ hx)) (fun g hg => hk g (by simp [hg])) (fun f hf => ha f (by simp [hf])) k1
        (fun p hp => hr p (by simp [hp]))
      exact ⟨x', a, c, g1, g2.trans ((ha (t, b) (by simp)).levels h1), g3⟩

/-- The parts of looking for one section. -/
theorem section_ran {n : Nat} {l : Str} {ls : List Str} {s s' : LSt} {r : Sec × List Str × List Str}
    (h : firstSectionL (splittersL (splitQuoteL n)) (l :: ls) s = (.ok r, s')) {before after : List (Sec × (List Str → Nat → SplitL))}
    {ty : Sec} {f : List Str → Nat → SplitL} (hf : splittersL (splitQuoteL n) = before ++ (ty, f) :: after)
    (hr : ∀ p ∈ before, p.1 ≠ r.1) :
    ∃ x s1 s2, f (l :: ls) 0 s1 = (.ok x, s2) ∧ s1.toLogSt = s.toLogSt ∧ s2.shown ⊆ s'.shown := by
  rw [hf] at h
  refine first_ran (Q := fun _ _ => True) (gs := splitters (splitQuote n)) ?_ ?_ (splitters_keep n) ?_ h hr
  · rw [← hf]; rfl
  · rw [← hf]; exact splitters_paired (erases_quote n)
  · rw [← hf]
    have any : ∀ {Q : LogSt → Msg → Prop} {m : SplitL} (_ : Adds Q m), Adds (fun _ _ => True) m :=
      fun h => h.imp fun _ _ _ => trivial
    simp only [splittersL, List.mem_cons, List.not_mem_nil, or_false]
    rintro f (rfl | rfl | rfl | rfl | rfl | rfl | rfl | rfl | rfl | rfl | rfl | rfl)
    · exact adds_lift _
    · exact adds_lift _
    · exact any (adds_quote n (l :: ls) 0)
    · exact adds_lift _
    · exact any (adds_fenced n (l :: ls) 0)
    · exact adds_lift _
    · exact any (adds_lrd (l :: ls) 0)
    · exact adds_lift _
    · exact any (adds_par (adds_quote n) (l :: ls) 0)
    · exact any (adds_setext (adds_quote n) (l :: ls) 0)
    · exact adds_lift _
    · exact adds_lift _

/-- The parts of one round of the parser. -/
theorem parseLoopL_step {n fuel k : Nat} {l : Str} {ls : List Str} {s s' : LSt} {secs : List (Sec × List Str)}
    (h : parseLoopL (splitQuoteL n) (fuel + 1) k (l :: ls) s = (.ok secs, s')) :
    ∃ ty c rest secs' s1 s2, secs = (ty, c) :: secs' ∧ c ≠ [] ∧ l :: ls = c ++ rest ∧
      firstSectionL (splittersL (splitQuoteL n)) (l :: ls) s = (.ok (ty, c, rest), s1) ∧ s1.toLogSt = s.toLogSt ∧
      s2.toLogSt = s.toLogSt ∧
      s2.shown = s1.shown ++ (if DEBUG ≥ s.parent then [.found k (k + c.length - 1) ty] else []) ∧
      parseLoopL (splitQuoteL n) fuel (k + c.length) rest s2 = (.ok secs', s') := by
  obtain ⟨⟨ty, c, rest⟩, s1, h1, k1⟩ := ran_bind h
  obtain ⟨_, s2, h2, k2⟩ := ran_bind k1
  obtain ⟨secs', s3, h3, k3⟩ := ran_bind k2
  cases k3
  have hf : firstSection (splitters (splitQuote n)) (l :: ls) = .ok (ty, c, rest) :=
    (erases_splitters (erases_quote n) (l :: ls) s).symm.trans (congrArg Prod.fst h1)
  obtain ⟨hk, hne, _⟩ := firstSection_keeps (splitters_keep n) hf
  have hl1 := (adds_section_at (adds_quote n) l ls).levels h1
  have h2 : _ = s2 := congrArg Prod.snd h2
  refine ⟨ty, c, rest, secs', s1, s2, rfl, hne, hk.symm, h1, hl1, ?_, ?_, h3⟩
  · rw [← h2]
    simp only [logOther]
    split
    · exact hl1
    · exact hl1
  · rw [← h2]
    simp only [logOther, hl1]
    split
    · rfl
    · rw [List.append_nil]

/-! ## C70: the sections found -/

theorem parseLoopL_finds {n : Nat} (fuel : Nat) : ∀ {k : Nat} {lines : List Str} {s s' : LSt} {secs : List (Sec × List Str)},
    parseLoopL (splitQuoteL n) fuel k lines s = (.ok secs, s') → DEBUG ≥ s.parent →
    ∃ ms fs, s'.shown = s.shown ++ ms ∧ Finds k fs secs ∧ fs.Sublist ms ∧
      ((∀ l ∈ lines, quotedLine l = false) → ms.filter isFound = fs) := by
  induction fuel with
  | zero =>
    intro k lines s s' secs h hd
    cases lines with
    | nil => cases h; exact ⟨[], [], (List.append_nil _).symm, .nil _, List.Sublist.slnil, fun _ => rfl⟩
    | cons l ls => cases h
  | succ fuel ih =>
    intro k lines s s' secs h hd
    cases lines with
    | nil => cases h; exact ⟨[], [], (List.append_nil _).symm, .nil _, List.Sublist.slnil, fun _ => rfl⟩
    | cons l ls =>
      obtain ⟨ty, c, rest, secs', s1, s2, rfl, hne, hk, h1, hl1, hl2, h2, h3⟩ := parseLoopL_step h
      rw [if_pos hd] at h2
      obtain ⟨ms, fs, g1, g2, g3, g4⟩ := ih h3 (by rw [hl2]; exact hd)
      obtain ⟨_, _, _, ms0, g5, g6⟩ := adds_section_at (adds_quote n) l ls s
      rw [h1] at g5
      simp only at g5
      obtain ⟨y, ys, rfl⟩ := List.exists_cons_of_ne_nil hne
      refine ⟨ms0 ++ .found k (k + ys.length) ty :: ms, .found k (k + ys.length) ty :: fs, ?_, .cons k ty y ys fs secs' g2, ?_, ?_⟩
      · rw [g1, h2, g5, List.length_cons]
        simp
      · exact (List.Sublist.cons_cons _ g3).trans (List.sublist_append_right _ _)
      · intro hq
        rw [List.filter_append, List.filter_cons_of_pos rfl, g4 fun z hz => hq z (by rw [hk]; exact List.mem_append_right _ hz)]
        have : ms0.filter isFound = [] := by
          rw [List.filter_eq_nil_iff]
          intro x hx
          cases x with
          | found a b t =>
            rcases (g6 _ hx).2 with (⟨_, _, _, h0, _⟩ | ⟨_, _, _, _, h0, _⟩ | ⟨pre, z, zs, post, m, e, hz, _⟩) | ⟨_, h0⟩
            · cases h0
            · cases h0
            · have := hq z (by rw [e]; simp)
              rw [hz] at this
              cases this
            · cases h0
          | _ => simp [isFound]
        rw [this]
        rfl

/-- C70: at debug level the parser names the sections it divides the lines into, in order, each with its kind and its first
and last line. Between these messages are those about the lines of block quotes; if no line starts with a quote mark, there
are no further ones. -/
theorem C70_found {n : Nat} {lines : List Str} {s s' : LSt} {secs : List (Sec × List Str)}
    (h : parseL n lines s = (.ok secs, s')) (hd : DEBUG ≥ s.parent) :
    parse n lines = .ok secs ∧ ∃ ms fs, s'.shown = s.shown ++ ms ∧ Finds 1 fs secs ∧ fs.Sublist ms ∧
      ((∀ l ∈ lines, quotedLine l = false) → ms.filter isFound = fs) :=
  ⟨(parseL_ran h).1, parseLoopL_finds _ h hd⟩

/-- C70: whatever is shown is true: the message names a section of the lines, or of the lines of a block quote in them without
their quote marks. -/
theorem C70_true {n : Nat} {lines : List Str} {s s' : LSt} {r : Except Err (List (Sec × List Str))}
    (h : parseL n lines s = (r, s')) : r = parse n lines ∧ s'.own = s.own ∧ s'.parent = s.parent ∧
      ∃ ms, s'.shown = s.shown ++ ms ∧ ∀ x ∈ ms, Loud s.toLogSt x ∧ ParseMsg n lines x := by
  obtain ⟨h1, h2, _, ms, h3, h4⟩ := adds_parse n lines s
  rw [h] at h1 h2 h3
  exact ⟨(congrArg Prod.fst h).symm.trans (erases_parse n lines s), h1, h2, ms, h3, h4⟩

/-- `Begins` in terms of the result: the parser gets to the lines where sections start, and to the end. -/
theorem begins_iff {n : Nat} {lines : List Str} {secs : List (Sec × List Str)} (h : parse n lines = .ok secs) (s : Nat) :
    Begins n lines s ↔ ∃ pre post, secs = pre ++ post ∧ s = (pre.map (·.2)).flatten.length := by
  obtain ⟨hflat, hne⟩ := C08_parse_partition n _ _ h
  have drop : ∀ pre post, secs = pre ++ post → lines.drop (pre.map (·.2)).flatten.length = (post.map (·.2)).flatten := by
    rintro pre post rfl
    rw [← hflat, List.map_append, List.flatten_append, List.drop_left]
  constructor
  · intro hb
    induction hb with
    | zero => exact ⟨[], secs, rfl, rfl⟩
    | next s ty content rest _ hs hf ih =>
      obtain ⟨pre, post, e1, rfl⟩ := ih
      have hd := drop pre post e1
      cases post with
      | nil =>
        have := congrArg List.length hd
        rw [List.length_drop] at this
        simp only [List.map_nil, List.flatten_nil, List.length_nil] at this
        omega
      | cons x post =>
        obtain ⟨ty', c'⟩ := x
        obtain ⟨g1, _⟩ := parse_at (e1 ▸ h)
        rw [hd] at hf
        simp only [List.map_cons, List.flatten_cons] at hf
        rw [g1] at hf
        cases hf
        exact ⟨pre ++ [(ty, content)], post, by rw [e1]; simp, by simp⟩
  · rintro ⟨pre, post, e, rfl⟩
    obtain ⟨r, rfl⟩ : ∃ r : List (Sec × List Str), pre = r.reverse := ⟨pre.reverse, by simp⟩
    induction r generalizing post with
    | nil => exact .zero
    | cons x r ih =>
      obtain ⟨ty, c⟩ := x
      have e' : secs = r.reverse ++ (ty, c) :: post := by rw [e]; simp
      have hb := ih ((ty, c) :: post) e'
      obtain ⟨g1, g2⟩ := parse_at (e' ▸ h)
      have hd := drop r.reverse ((ty, c) :: post) e'
      have := Begins.next _ ty c _ hb ?_ (by rw [hd]; exact g1)
      · simpa using this
      · have := congrArg List.length hd
        rw [List.length_drop] at this
        simp only [List.map_cons, List.flatten_cons, List.length_append] at this
        have := List.length_pos_iff.2 g2
        omega

/-! ## The run of one section -/

theorem parseLoopL_mono {n : Nat} (fuel : Nat) : ∀ {k : Nat} {lines : List Str} {s s' : LSt} {secs : List (Sec × List Str)},
    parseLoopL (splitQuoteL n) fuel k lines s = (.ok secs, s') → s.shown ⊆ s'.shown := by
  induction fuel with
  | zero =>
    intro k lines s s' secs h
    cases lines with
    | nil => cases h; exact fun _ h => h
    | cons l ls => cases h
  | succ fuel ih =>
    intro k lines s s' secs h
    cases lines with
    | nil => cases h; exact fun _ h => h
    | cons l ls =>
      obtain ⟨ty, c, rest, secs', s1, s2, _, _, _, h1, _, _, h2, h3⟩ := parseLoopL_step h
      refine ((adds_section_at (adds_quote n) l ls).mono h1).trans (List.Subset.trans ?_ (ih h3))
      rw [h2]
      exact List.subset_append_left _ _

theorem parseLoopL_section {n : Nat} (fuel : Nat) : ∀ {k : Nat} {lines : List Str} {s s' : LSt}
    {pre post : List (Sec × List Str)} {ty : Sec} {c : List Str},
    parseLoopL (splitQuoteL n) fuel k lines s = (.ok (pre ++ (ty, c) :: post), s') →
    ∃ rest s1 s2, firstSectionL (splittersL (splitQuoteL n)) (c ++ rest) s1 = (.ok (ty, c, rest), s2) ∧ c ≠ [] ∧
      rest = (post.map (·.2)).flatten ∧ s1.toLogSt = s.toLogSt ∧ s2.shown ⊆ s'.shown := by
  induction fuel with
  | zero =>
    intro k lines s s' pre post ty c h
    cases lines with
    | nil => exact absurd (congrArg Prod.fst h) (by cases pre <;> exact fun h => by cases h)
    | cons l ls => cases h
  | succ fuel ih =>
    intro k lines s s' pre post ty c h
    cases lines with
    | nil => exact absurd (congrArg Prod.fst h) (by cases pre <;> exact fun h => by cases h)
    | cons l ls =>
      obtain ⟨ty', c', rest, secs', s1, s2, h0, hne, hk, h1, hl1, hl2, h2, h3⟩ := parseLoopL_step h
      cases pre with
      | nil =>
        cases h0
        refine ⟨rest, s, s1, hk ▸ h1, hne, ?_, rfl, ?_⟩
        · have := (erases_parseLoop (erases_quote n) fuel (k + c.length) rest s2).symm.trans (congrArg Prod.fst h3)
          exact (parseLoop_partition n _ _ _ this).1.symm
        · refine List.Subset.trans ?_ (parseLoopL_mono _ h3)
          rw [h2]
          exact List.subset_append_left _ _
      | cons x pre =>
        cases h0
        obtain ⟨r, a, b, g1, g2, g3, g4, g5⟩ := ih h3
        exact ⟨r, a, b, g1, g2, g3, g4.trans hl2, g5⟩

/-! ## C71: fences that are indented too deeply -/

theorem fenceLoopL_warns {F : Str} {d o : Nat} {c : Str} : ∀ {ls : List Str} {i j : Nat} {s : LSt}, ls[j]? = some c →
    strip c = F → (∀ a y, a < j → ls[a]? = some y → strip y ≠ F) → 3 + d < getIndent c → WARNING ≥ s.parent →
    .overIndented (i + 1 + j + o + 1) ∈ (fenceLoopL F d o i ls s).2.shown
  | [], _, _, _, h, _, _, _, _ => by cases h
  | l :: ls, i, 0, s, h, hF, _, hd, hp => by
    cases h
    have h1 : (strip c == F) = true := by rw [hF]; exact beq_self_eq_true _
    unfold fenceLoopL
    rw [if_pos h1, LogM.bind_eq]
    simp only [logIf, decide_eq_true hd, if_true, logOther, hp, LogM.pure_eq]
    simp
  | l :: ls, i, j + 1, s, h, hF, ha, hd, hp => by
    have h1 : ¬ (strip l == F) = true := by
      rw [beq_iff_eq]
      exact ha 0 l (by omega) rfl
    unfold fenceLoopL
    rw [if_neg h1, LogM.bind_eq]
    have := fenceLoopL_warns (o := o) (i := i + 1) (j := j) (s := s) h hF (fun a y hy => ha (a + 1) y (by omega)) hd hp
    rw [show i + 1 + 1 + j + o + 1 = i + 1 + (j + 1) + o + 1 by omega] at this
    cases hm : fenceLoopL F d o (i + 1) ls s with
    | mk r s' =>
      rw [hm] at this
      cases r <;> exact this

/-- C71: no fenced block with a closing fence that is indented too deeply is passed over. The number in the warning is the
number of lines of the block. -/
theorem C71_complete {n : Nat} {lines : List Str} {s s' : LSt} {pre post : List (Sec × List Str)} {content : List Str}
    (h : parseL n lines s = (.ok (pre ++ (Sec.fenced, content) :: post), s'))
    (hd : TooDeep content 0 (content.length - 1)) (hp : WARNING ≥ s.parent) : .overIndented content.length ∈ s'.shown := by
  obtain ⟨rest, s1, s2, h1, hne, _, hl, hsub⟩ := parseLoopL_section _ h
  obtain ⟨l, ls, rfl⟩ := List.exists_cons_of_ne_nil hne
  obtain ⟨x, a, b, h2, hl2, h3⟩ := section_ran h1 (before := (splittersL (splitQuoteL n)).take 4)
    (after := (splittersL (splitQuoteL n)).drop 5) (ty := .fenced) (f := splitFencedL) rfl (by
      simp only [splittersL, List.take_succ_cons, List.take_zero, List.mem_cons, List.not_mem_nil, or_false]
      rintro p (rfl | rfl | rfl | rfl) <;> exact fun h => by cases h)
  refine hsub (h3 ?_)
  obtain ⟨o, c, g1, g2, g3, g4, g5, g6, g7⟩ := hd
  cases g1
  simp only [List.length_cons, Nat.add_sub_cancel] at g2 g3 g6
  have hop : openFence l = some (fenceRun l) := by
    rw [fenceLine_eq] at g4
    cases hF : openFence l with
    | none => rw [(openFence_none l).1 hF] at g4; cases g4
    | some F => rw [openFence_run hF]
  unfold splitFencedL at h2
  simp only [hop, LogM.bind_eq] at h2
  obtain ⟨j, hj⟩ : ∃ j, ls.length = j + 1 := ⟨ls.length - 1, by omega⟩
  rw [hj] at g2 g6
  have key := fenceLoopL_warns (F := fenceRun l) (d := getIndent l) (o := 0) (ls := ls ++ rest) (i := 0) (j := j) (s := a) (c := c)
    (by rw [List.getElem?_append_left (by omega)]; exact g2) g5
    (fun k y hk hy => g6 (k + 1) y (by omega) (by omega) (by
      rw [List.getElem?_append_left (by omega)] at hy; exact hy)) g7 (by rw [hl2, hl]; exact hp)
  cases hm : fenceLoopL (fenceRun l) (getIndent l) 0 0 (ls ++ rest) a with
  | mk r s3 =>
    have e : ls.append rest = ls ++ rest := rfl
    rw [e, hm] at h2
    rw [hm] at key
    cases r with
    | error e => cases h2
    | ok v =>
      cases h2
      rw [List.length_cons, hj]
      rwa [show 0 + 1 + j + 0 + 1 = j + 1 + 1 by omega] at key

/-- C71: each warning is about a closing fence that is indented too deeply; the number is that of the fence counted from a
line where the parser looks for a section. -/
theorem C71_true_partial {n : Nat} {lines : List Str} {s s' : LSt} {r : Except Err (List (Sec × List Str))} {k : Nat}
    (h : parseL n lines s = (r, s')) (hk : .overIndented k ∈ s'.shown) (hs : .overIndented k ∉ s.shown)
    (hq : ∀ l ∈ lines, quotedLine l = false) :
    ∃ a p q, Begins n lines a ∧ a ≤ p ∧ TooDeep lines p q ∧ k = q - a + 1 := by
  obtain ⟨_, _, _, ms, h1, h2⟩ := C70_true h
  rw [h1] at hk
  rcases List.mem_append.1 hk with hk | hk
  · exact absurd hk hs
  obtain ⟨m, ex, h3, h4⟩ := (h2 _ hk).2
  cases h3 with
  | self =>
    rcases h4 with h4 | ⟨⟨l, hl, hl'⟩, _⟩
    · exact h4
    · rw [hq l hl] at hl'; cases hl'
  | quote _ pre l ls post _ _ _ hl _ _ =>
    rw [hq l (by simp)] at hl
    cases hl

/-- The number in each warning is the number of a line with a closing fence that is indented too deeply. False: see
`C71_refuted`. -/
def C71_statement : Prop := ∀ (n : Nat) (lines : List Str) (s s' : LSt) (secs : List (Sec × List Str)) (k : Nat),
  s.shown = [] → parseL n lines s = (.ok secs, s') → .overIndented k ∈ s'.shown → ∃ p, TooDeep lines p (k - 1)

/-- The heading in the first line is not counted. -/
theorem C71_refuted : ¬ C71_statement := by
  intro h
  have h1 : parseL 5 [c!"# a", c!"```", c!"    ```"] (start WARNING) =
      (.ok [(.atx, [c!"# a"]), (.fenced, [c!"```", c!"    ```"])], { start WARNING with shown := [.overIndented 2] }) := by
    decide +kernel
  obtain ⟨p, o, c, _, h2, _, _, _, _, h3⟩ := h 5 _ _ _ _ 2 rfl h1 (by decide)
  cases h2
  have h4 : getIndent c!"```" = 0 := by decide
  omega

/-- C71: in the first section the number is right. -/
theorem C71_first {n : Nat} {lines : List Str} {s s' : LSt} {content : List Str} {post : List (Sec × List Str)}
    (h : parseL n lines s = (.ok ((Sec.fenced, content) :: post), s')) (hd : TooDeep content 0 (content.length - 1))
    (hp : WARNING ≥ s.parent) : .overIndented content.length ∈ s'.shown ∧ TooDeep lines 0 (content.length - 1) := by
  refine ⟨C71_complete (pre := []) h hd hp, ?_⟩
  obtain ⟨hflat, _⟩ := C08_parse_partition n _ _ (parseL_ran h).1
  rw [← hflat]
  have hlt : content.length - 1 < content.length := by
    obtain ⟨o, c, _, h2, _⟩ := hd
    exact (List.getElem?_eq_some_iff.1 h2).1
  obtain ⟨o, c, h1, h2, h3, h4, h5, h6, h7⟩ := hd
  have key : ∀ i, i < content.length → (((Sec.fenced, content) :: post).map (·.2)).flatten[i]? = content[i]? := fun i hi => by
    rw [List.map_cons, List.flatten_cons, List.getElem?_append_left hi]
  refine ⟨o, c, (key _ (by omega)).trans h1, (key _ hlt).trans h2, h3, h4, h5, fun i l hi hi' hl => ?_, h7⟩
  rw [key i (by omega)] at hl
  exact h6 i l hi hi' hl

/-! ## C72: definitions without a link -/

theorem LinkMissing.first {l : Str} {ls : List Str} (h : LinkMissing (l :: ls) 0) : firstCh l = some '[' ∧ getIndent l < 4 := by
  obtain ⟨ws, name, e, h1, h2, h3, _⟩ := h
  cases h1
  have hws : ∀ c ∈ ws, isWs c = true := fun c hc => h2 c (List.mem_append_left _ hc)
  have hb : isWs '[' = false := by decide
  constructor
  · unfold firstCh
    rw [lstrip_append_ws _ _ hws, lstrip_cons_of_not _ _ hb]
    rfl
  · rw [getIndent_ws_append hws, getIndent_not_ws hb]
    exact h3

theorem splitLrdL_warns {l : Str} {ls : List Str} {o : Nat} {s : LSt} (h : LinkMissing (l :: ls) 0) (hp : WARNING ≥ s.parent) :
    .noLink (if ls = [] then 0 else 1) ∈ (splitLrdL (l :: ls) o s).2.shown := by
  have hi := h.first.2
  obtain ⟨ws, name, e, h1, h2, _, h4, h5, h6, h7⟩ := h
  cases h1
  have hws : ∀ c ∈ ws, isWs c = true := fun c hc => h2 c (List.mem_append_left _ hc)
  have hl : lstrip (ws ++ '[' :: (name ++ ']' :: ':' :: e)) = '[' :: (name ++ ']' :: ':' :: e) := by
    rw [lstrip_append_ws _ _ hws, lstrip_cons_of_not _ _ (by decide)]
  obtain ⟨m, g1, g2⟩ := lrdFirst_intro (r := e) h4 h5 h6
  have hr : (lstrip (ws ++ '[' :: (name ++ ']' :: ':' :: e))).drop m.stop = e := by
    rw [hl, g2, show '[' :: (name ++ ']' :: ':' :: e) = ('[' :: (name ++ [']', ':'])) ++ e by simp]
    exact List.drop_left' (by simp)
  have he : splitMax1 e = [] := by
    have : lstrip e = [] := by
      have := lstrip_append_ws e [] fun c hc => h2 c (List.mem_append_right _ hc)
      rw [List.append_nil] at this
      rw [this]
      rfl
    unfold splitMax1
    rw [this]
  have hc : (startsWith (ls.headD []) c!"[" || (strip (ls.headD [])).isEmpty) = true := by
    cases ls with
    | nil => rfl
    | cons y ys =>
      rw [List.headD_cons, Bool.or_eq_true]
      rcases h7 y rfl with h8 | h8
      · rw [emptyLine_eq] at h8
        exact .inr h8
      · cases y with
        | nil => cases h8
        | cons c r => cases h8; exact .inl ((startsWith_single _ _).2 ⟨r, rfl⟩)
  unfold splitLrdL
  simp only
  rw [if_neg (by omega), hl, g1]
  simp only
  rw [← hl, hr, he]
  simp only
  rw [if_pos hc, LogM.bind_eq]
  simp only [logOther, hp, if_true, LogM.pure_eq]
  cases ls <;> simp

/-- C72: no label without a link is passed over. The number in the warning is 1, or 0 for the last line of the document. -/
theorem C72_complete {n : Nat} {lines : List Str} {s s' : LSt} {secs : List (Sec × List Str)} {k : Nat}
    (h : parseL n lines s = (.ok secs, s')) (hb : Begins n lines k) (hm : LinkMissing lines k) (hp : WARNING ≥ s.parent) :
    .noLink (if k + 1 = lines.length then 0 else 1) ∈ s'.shown := by
  have hpar := (parseL_ran h).1
  obtain ⟨hflat, hne⟩ := C08_parse_partition n _ _ hpar
  obtain ⟨pre, post, rfl, rfl⟩ := (begins_iff hpar k).1 hb
  have hat : ∀ i, lines[(pre.map (·.2)).flatten.length + i]? = (post.map (·.2)).flatten[i]? := fun i => by
    rw [← hflat, List.map_append, List.flatten_append, List.getElem?_append_right (Nat.le_add_right _ _),
      Nat.add_sub_cancel_left]
  have hm' : LinkMissing (post.map (·.2)).flatten 0 := by
    obtain ⟨ws, name, e, g1, g2, g3, g4, g5, g6, g7⟩ := hm
    refine ⟨ws, name, e, (hat 0).symm.trans g1, g2, g3, g4, g5, g6, fun l hl => g7 l ((hat 1).trans hl)⟩
  cases post with
  | nil => obtain ⟨_, _, _, g1, _⟩ := hm'; cases g1
  | cons x post =>
    obtain ⟨ty, c⟩ := x
    obtain ⟨l, ls, rfl⟩ := List.exists_cons_of_ne_nil (hne (ty, c) (by simp))
    obtain ⟨rest, s1, s2, h1, _, rfl, hl, hsub⟩ := parseLoopL_section _ h
    have hm'' : LinkMissing (l :: (ls ++ (post.map (·.2)).flatten)) 0 := hm'
    obtain ⟨hfc, hi⟩ := hm''.first
    have hh := (parse_headPred hpar (s := (ty, l :: ls)) (by simp)).2 l rfl
    obtain ⟨p1, p2, p3, p4, p5, p6, p7, p8, p9⟩ := false_of_first hfc
    obtain ⟨x, a, b, h2, hl2, h3⟩ := section_ran h1 (before := (splittersL (splitQuoteL n)).take 6)
      (after := (splittersL (splitQuoteL n)).drop 7) (ty := .lrd) (f := splitLrdL) rfl (by
        simp only [splittersL, List.take_succ_cons, List.take_zero, List.mem_cons, List.not_mem_nil, or_false]
        rintro p (rfl | rfl | rfl | rfl | rfl | rfl) <;> rintro rfl
        · rw [headPred, p1 (by decide)] at hh; cases hh
        · rw [headPred, p9] at hh; cases hh
        · rw [headPred, p2 (by decide)] at hh; cases hh
        · rw [headPred, p5 (by decide) (by decide) (by decide)] at hh; cases hh
        · rw [headPred, p4 (by decide) (by decide)] at hh; cases hh
        · simp only [headPred, isIndentedStart, Bool.and_eq_true, decide_eq_true_eq] at hh; omega)
    have key := splitLrdL_warns (o := 0) (s := a) hm'' (by rw [hl2, hl]; exact hp)
    have h2 : splitLrdL (l :: (ls ++ (post.map (·.2)).flatten)) 0 a = (.ok x, b) := h2
    rw [h2] at key
    refine hsub (h3 ?_)
    have e : ((pre.map (·.2)).flatten.length + 1 = lines.length) ↔ ls ++ (post.map (·.2)).flatten = [] := by
      rw [← hflat, ← List.length_eq_zero_iff]
      simp only [List.map_append, List.flatten_append, List.map_cons, List.flatten_cons, List.length_append, List.length_cons]
      omega
    simp only [e]
    exact key

/-- The number in each warning is the number of a line with a label that has no link. False: see `C72_refuted`. -/
def C72_statement : Prop := ∀ (n : Nat) (lines : List Str) (s s' : LSt) (secs : List (Sec × List Str)) (k : Nat),
  s.shown = [] → parseL n lines s = (.ok secs, s') → .noLink k ∈ s'.shown → 1 ≤ k ∧ LinkMissing lines (k - 1)

/-- Each warning is about a label that has no link, in the lines or in the lines of a block quote; the number says nothing
about where it is. -/
theorem C72_true_partial {n : Nat} {lines : List Str} {s s' : LSt} {r : Except Err (List (Sec × List Str))} {k : Nat}
    (h : parseL n lines s = (r, s')) (hk : .noLink k ∈ s'.shown) (hs : .noLink k ∉ s.shown) :
    ∃ m ex a, Analysed n lines m ex ∧ Begins m ex a ∧ LinkMissing ex a ∧ k = if a + 1 = ex.length then 0 else 1 := by
  obtain ⟨_, _, _, ms, h1, h2⟩ := C70_true h
  rw [h1] at hk
  rcases List.mem_append.1 hk with hk | hk
  · exact absurd hk hs
  obtain ⟨m, ex, h3, a, h4⟩ := (h2 _ hk).2
  exact ⟨m, ex, a, h3, h4⟩

/-- The label is in line 2. -/
theorem C72_refuted : ¬ C72_statement := by
  intro h
  have h1 : parseL 5 [c!"# a", c!"[b]:", c!""] (start WARNING) =
      (.ok [(.atx, [c!"# a"]), (.lrd, [c!"[b]:"]), (.blank, [c!""])], { start WARNING with shown := [.noLink 1] }) := by
    decide +kernel
  obtain ⟨_, ws, name, e, h2, h3, _⟩ := h 5 _ _ _ _ 1 rfl h1 (by decide)
  have h4 : some c!"# a" = some (ws ++ '[' :: (name ++ ']' :: ':' :: e)) := h2
  have h5 : '[' ∈ c!"# a" := by
    rw [Option.some.inj h4]; simp
  exact absurd h5 (by decide)

/-! ## Whole runs -/

/-- A successful pass divides each document inside the text into sections, at the same levels. -/
theorem within_parse_ran {n m : Nat} {text text' : Str} (hw : Within n text (m + 1) text') : ∀ {w : Width} {out : Str}
    {s s' : LSt}, reformatTextL n w text s = (.ok out, s') → ∃ secs s1 s2, parseL m (splitlines text') s1 = (.ok secs, s2) ∧
      s1.own = s.own ∧ s1.parent = s.parent ∧ s2.shown ⊆ s'.shown := by
  generalize hm : m + 1 = m' at hw
  induction hw with
  | here n text =>
    subst hm
    intro w out s s' h
    obtain ⟨secs, fs, ts, s0, s1, _, h1, _, _, h3, h4⟩ := reformatTextL_ran h
    exact ⟨secs, s, s0, h1, rfl, rfl,
      ((buildFmtsL_mono _ h3).2).trans ((adds_all (fs := fs) fun f _ => fmtSectionL_adds m w f).mono h4)⟩
  | inside n text secs sec text1 m' text' hp hs hin _ ih =>
    intro w out s s' h
    obtain ⟨secs', fs, ts, s0, s1, h1, _, hl0, h2, h3, h4⟩ := reformatTextL_ran h
    rw [hp] at h1
    cases h1
    have hl := (buildFmtsL_mono _ h3).1.trans hl0
    obtain ⟨_, f, hf, hf1, hf2⟩ := buildFmts_each _ _ _ _ h2 sec hs
    obtain ⟨a, b, t, g5, g6, g7⟩ := fmtAllL_ran fs (fun f _ => fmtSectionL_adds n w f) h4 f hf
    rw [hf1, hf2] at g5
    obtain ⟨w', c, d, t', g8, g9, g10, g11⟩ := fmtSectionL_ran (fun w t => ⟨_, reformatTextL_adds n w t⟩) hin g5
    obtain ⟨secs1, s2, s3, k1, k2, k3, k4⟩ := ih hm g8
    exact ⟨secs1, s2, s3, k1, by rw [k2, g9, g6, hl], by rw [k3, g10, g6, hl], (k4.trans g11).trans g7⟩

theorem within_parse_run {n m : Nat} {text text' out : Str} {w : Width} {s s' : LSt} (hw : Within n text (m + 1) text')
    (h : reformatMarkdownTextL n w text s = (.ok out, s')) : ∃ secs s1 s2, parseL m (splitlines text') s1 = (.ok secs, s2) ∧
      s1.own = s.own ∧ s1.parent = s.parent ∧ s2.shown ⊆ s'.shown := by
  obtain ⟨t, a, b, h1, h2, rfl⟩ := reformatMarkdownTextL_ran h
  obtain ⟨secs, s1, s2, g1, g2, g3, g4⟩ := within_parse_ran hw h1
  refine ⟨secs, s1, s2, g1, g2, g3, g4.trans ?_⟩
  have := (reformatTextL_adds n w t).mono h2
  refine List.Subset.trans ?_ this
  split <;> exact fun _ h => h

/-- C70: a run at debug level names every section of the document and of the documents inside its block quotes and lists. -/
theorem C70_run {n m : Nat} {text text' out : Str} {w : Width} {s s' : LSt} (hw : Within n text (m + 1) text')
    (h : reformatMarkdownTextL n w text s = (.ok out, s')) (hd : DEBUG ≥ s.parent) :
    ∃ secs fs, parse m (splitlines text') = .ok secs ∧ Finds 1 fs secs ∧ ∀ x ∈ fs, x ∈ s'.shown := by
  obtain ⟨secs, s1, s2, h1, _, h2, h3⟩ := within_parse_run hw h
  obtain ⟨h4, ms, fs, h5, h6, h7, _⟩ := C70_found h1 (by rw [h2]; exact hd)
  exact ⟨secs, fs, h4, h6, fun x hx => h3 (by rw [h5]; exact List.mem_append_right _ (h7.subset hx))⟩

/-- C71: a run warns of every fence that is indented too deeply, in the document and inside. -/
theorem C71_run {n m : Nat} {text text' out : Str} {w : Width} {s s' : LSt} {pre post : List (Sec × List Str)}
    {content : List Str} (hw : Within n text (m + 1) text') (h : reformatMarkdownTextL n w text s = (.ok out, s'))
    (hp : WARNING ≥ s.parent) (hs : parse m (splitlines text') = .ok (pre ++ (Sec.fenced, content) :: post))
    (hd : TooDeep content 0 (content.length - 1)) : .overIndented content.length ∈ s'.shown := by
  obtain ⟨secs, s1, s2, h1, _, h2, h3⟩ := within_parse_run hw h
  have h4 := (parseL_ran h1).1
  rw [hs] at h4
  cases h4
  exact h3 (C71_complete h1 hd (by rw [h2]; exact hp))

/-- C72: a run warns of every label without a link, in the document and inside. -/
theorem C72_run {n m k : Nat} {text text' out : Str} {w : Width} {s s' : LSt} (hw : Within n text (m + 1) text')
    (h : reformatMarkdownTextL n w text s = (.ok out, s')) (hp : WARNING ≥ s.parent) (hb : Begins m (splitlines text') k)
    (hl : LinkMissing (splitlines text') k) : .noLink (if k + 1 = (splitlines text').length then 0 else 1) ∈ s'.shown := by
  obtain ⟨secs, s1, s2, h1, _, h2, h3⟩ := within_parse_run hw h
  exact h3 (C72_complete h1 hb hl (by rw [h2]; exact hp))

/-! ## C73: verbosity -/

/-- Everything a run shows, successful or not, is expected of one of its passes. -/
theorem run_shown (n : Nat) (w : Width) (text : Str) (s : LSt) : ∃ ms, (reformatMarkdownTextL n w text s).2.shown = s.shown ++ ms ∧
    ∀ x ∈ ms, Expected n text s.toLogSt x ∨ ∃ t, reformatText n w text = .ok t ∧
      Expected n t (if s.effective > DEBUG then { s.toLogSt with own := ERROR } else s.toLogSt) x := by
  obtain ⟨_, _, _, ms, h1, h2⟩ := reformatTextL_adds n w text s
  cases hr : reformatTextL n w text s with
  | mk r s1 =>
    rw [hr] at h1
    simp only at h1
    have hres := (C67_same_result n w text s).symm
    rw [hr] at hres
    cases r with
    | error e =>
      refine ⟨ms, ?_, fun x hx => .inl (h2 x hx)⟩
      unfold reformatMarkdownTextL
      rw [LogM.bind_eq, hr]
      exact h1
    | ok t =>
      have hl := (reformatTextL_adds n w text).levels hr
      obtain ⟨_, _, _, ms', h3, h4⟩ := reformatTextL_adds n w t (if s1.effective > DEBUG then { s1 with own := ERROR } else s1)
      have key : (reformatMarkdownTextL n w text s).2.shown =
          (reformatTextL n w t (if s1.effective > DEBUG then { s1 with own := ERROR } else s1)).2.shown := by
        unfold reformatMarkdownTextL
        rw [LogM.bind_eq, hr]
        change ((logIf (decide (s1.effective > DEBUG)) (setLevel fun _ => ERROR) >>= fun _ => reformatTextL n w t >>= fun t2 =>
          setLevel (fun _ => s1.effective) >>= fun _ =>
            if t2 != t then lift (.error .inconsistent) else pure (rstrip t ++ ['\n'])) s1).2.shown = _
        rw [LogM.bind_eq]
        have e : logIf (decide (s1.effective > DEBUG)) (setLevel fun _ => ERROR) s1 =
            (.ok (), if s1.effective > DEBUG then { s1 with own := ERROR } else s1) := by
          unfold logIf
          by_cases hd : s1.effective > DEBUG
          · simp only [decide_eq_true hd, if_true, if_pos hd]; rfl
          · simp only [decide_eq_false hd, if_neg hd]; rfl
        rw [e]
        simp only
        rw [LogM.bind_eq]
        cases hr2 : reformatTextL n w t (if s1.effective > DEBUG then { s1 with own := ERROR } else s1) with
        | mk r2 s2 =>
          cases r2 with
          | error e => rfl
          | ok t2 =>
            simp only
            rw [LogM.bind_eq]
            simp only [setLevel]
            split <;> rfl
      refine ⟨ms ++ ms', ?_, fun x hx => ?_⟩
      · rw [key, h3, ← List.append_assoc, ← h1]
        split <;> rfl
      · rcases List.mem_append.1 hx with hx | hx
        · exact .inl (h2 x hx)
        · refine .inr ⟨t, hres, ?_⟩
          have := h4 x hx
          rw [← hl]
          have e : (if s1.effective > DEBUG then ({ s1 with own := ERROR } : LSt) else s1).toLogSt =
              if s1.effective > DEBUG then { s1.toLogSt with own := ERROR } else s1.toLogSt := by split <;> rfl
          rwa [e] at this

theorem expected_level {n p : Nat} {t : Str} {l : LogSt} {x : Msg} (g1 : l.info = INFO) (g2 : l.parent = p)
    (g3 : l.effective = p ∨ l.effective = ERROR) (hx : Expected n t l x) : x.level ≥ p ∧ x.level ≤ WARNING := by
  have hc : DEBUG = 10 ∧ INFO = 20 ∧ WARNING = 30 ∧ ERROR = 40 := ⟨rfl, rfl, rfl, rfl⟩
  obtain ⟨c1, c2, c3, c4⟩ := hc
  cases x with
  | sect level a b ty ls =>
    obtain ⟨h3, h4⟩ := hx
    show level ≥ p ∧ level ≤ WARNING
    rw [g1] at h3
    omega
  | added k =>
    have h3 := hx.1
    show WARNING ≥ p ∧ _
    refine ⟨?_, Nat.le_refl _⟩
    omega
  | noSpace k => exact ⟨g2 ▸ hx.1, Nat.le_refl _⟩
  | found a b ty => exact ⟨g2 ▸ hx.1, (by show DEBUG ≤ WARNING; decide)⟩
  | overIndented k => exact ⟨g2 ▸ hx.1, Nat.le_refl _⟩
  | noLink k => exact ⟨g2 ▸ hx.1, Nat.le_refl _⟩

/-- C73: a run, successful or not, shows no message below the level that logging is set up with. -/
theorem C73_level (n : Nat) (w : Width) (text : Str) (s : LSt) (hi : s.info = INFO) (he : s.effective = s.parent) :
    ∃ ms, (reformatMarkdownTextL n w text s).2.shown = s.shown ++ ms ∧ ∀ x ∈ ms, x.level ≥ s.parent ∧ x.level ≤ WARNING := by
  obtain ⟨ms, h1, h2⟩ := run_shown n w text s
  refine ⟨ms, h1, fun x hx => ?_⟩
  rcases h2 x hx with h3 | ⟨t, _, h3⟩
  · exact expected_level hi rfl (.inl he) h3
  · refine expected_level ?_ ?_ ?_ h3
    · split <;> exact hi
    · split <;> rfl
    · split
      · exact .inr rfl
      · exact .inl he

theorem logLevel_eq (v q : Nat) : ∃ p, logLevel v q = some p ∧ p ≥ 40 - 10 * (v - q) ∧ (v ≤ q + 3 → p ≤ 40 + 10 * (q - v) - 10 * (v - q)) := by
  unfold logLevel verbosity loggingLevels
  obtain ⟨k, hk, hk2⟩ : ∃ k : Nat, k ≤ 4 ∧ max 0 (min ((3 : Int) - v + q) ((5 : Nat) - 1)) = (k : Int) :=
    ⟨(max 0 (min ((3 : Int) - v + q) ((5 : Nat) - 1))).toNat, by omega, by omega⟩
  simp only [List.length_cons, List.length_nil, Nat.zero_add]
  rw [hk2]
  have hc : k = 0 ∨ k = 1 ∨ k = 2 ∨ k = 3 ∨ k = 4 := by omega
  rcases hc with rfl | rfl | rfl | rfl | rfl
  · exact ⟨10, rfl, by omega, by omega⟩
  · exact ⟨20, rfl, by omega, by omega⟩
  · exact ⟨30, rfl, by omega, by omega⟩
  · exact ⟨40, rfl, by omega, by omega⟩
  · exact ⟨50, rfl, by omega, by omega⟩

/-- C73: each `-v` that no `-q` cancels allows messages of one more level, beginning with warnings. By default there are
none. -/
theorem C73_verbose (v q p n : Nat) (w : Width) (text : Str) (hp : logLevel v q = some p) :
    (∀ x ∈ (reformatMarkdownTextL n w text (start p)).2.shown, x.level ≥ ERROR - 10 * (v - q)) ∧
    (v ≤ q → (reformatMarkdownTextL n w text (start p)).2.shown = []) := by
  obtain ⟨ms, h1, h2⟩ := C73_level n w text (start p) rfl rfl
  obtain ⟨p', h3, h4, _⟩ := logLevel_eq v q
  rw [hp] at h3
  cases h3
  have h1 : _ = ms := h1
  have c1 : WARNING = 30 := rfl
  have c2 : ERROR = 40 := rfl
  rw [h1]
  have key : ∀ x ∈ ms, x.level ≥ p ∧ x.level ≤ WARNING := h2
  refine ⟨fun x hx => ?_, fun hv => ?_⟩
  · have := (key x hx).1
    omega
  · cases ms with
    | nil => rfl
    | cons x ms =>
      have := key x (by simp)
      omega

/-! ## Examples -/

def C70_doc : Str := c!"# a\n```\n    ```\n[b]:\n\n> c\n"

/-- With `-v -v -v` everything is shown. The fence is in line 3 and the label in line 4. -/
theorem C70_example : reformatTextL 9 (.fin 80) C70_doc (start DEBUG) =
    (.ok c!"# a\n```\n```\n[b]:\n\n> c\n", { start DEBUG with shown :=
      [.found 1 1 .atx, .overIndented 2, .found 2 3 .fenced, .noLink 1, .found 4 4 .lrd, .found 5 5 .blank,
       .found 1 1 .par, .found 6 6 .quote,
       .sect INFO 1 1 .atx [c!"# a"], .sect INFO 2 3 .fenced [c!"```", c!"    ```"], .sect INFO 4 4 .lrd [c!"[b]:"],
       .sect INFO 5 5 .blank [c!""], .sect INFO 6 6 .quote [c!"> c"], .found 1 1 .par, .sect DEBUG 1 1 .par [c!"c"]] }) := by
  decide +kernel

/-- The warnings of section detection are shown again by the second pass, although its logger is muted. -/
theorem C70_second_pass : (reformatMarkdownTextL 9 (.fin 80) c!"[b]:\n\nc\n" (start WARNING)).2.shown = [.noLink 1, .noLink 1] := by
  decide +kernel

/-- A fence can be warned about twice: once when a paragraph ends before it, and once for its own section. -/
theorem C71_twice : (parseL 5 [c!"a", c!"```", c!"    ```"] (start WARNING)).2.shown = [.overIndented 3, .overIndented 2] := by
  decide +kernel

/-- The hypotheses of `C71_complete` and `C72_complete`. -/
theorem C71_example : TooDeep [c!"```", c!"    ```"] 0 1 :=
  ⟨_, _, rfl, rfl, by decide, by decide, by decide, fun i _ h1 h2 => by omega, by decide⟩

theorem C72_example : Begins 5 [c!"# a", c!"[b]:", c!""] 1 ∧ LinkMissing [c!"# a", c!"[b]:", c!""] 1 := by
  refine ⟨.next 0 .atx [c!"# a"] [c!"[b]:", c!""] .zero (by decide) (by decide +kernel), [], c!"b", [], rfl, by simp, by decide, by decide,
    by decide, by decide, fun l h => ?_⟩
  cases h
  exact .inl rfl

/-- Without `-v`, with one, with two. -/
theorem C73_example : [0, 1, 2].map (fun v => (logLevel v 0).map fun p =>
    ((reformatMarkdownTextL 9 (.fin 80) c!"#a\n" (start p)).2.shown)) =
    [some [], some [.noSpace 1], some [.sect INFO 1 1 .atx [c!"#a"], .noSpace 1]] := by
  decide +kernel

end MF
