import Verif.Lemmas.Detect
import Verif.Lemmas.Lines
/-!
# C08, C09, C10, C11: splitters and `parse_markdown`
-/

namespace MF

/-! ## C10: the splitter contract -/

theorem splitters_keep (n : Nat) : ∀ p ∈ splitters (splitQuote n), Keeps p.2 := by
  intro p hp
  simp only [splitters, List.mem_cons, List.not_mem_nil, or_false] at hp
  rcases hp with rfl | rfl | rfl | rfl | rfl | rfl | rfl | rfl | rfl | rfl | rfl | rfl
  · exact splitAtx_keeps
  · exact splitBlank_keeps
  · exact splitQuote_keeps n
  · exact splitBullet_keeps
  · exact splitFenced_keeps
  · exact splitIndented_keeps
  · exact splitLrd_keeps
  · exact splitOrdered_keeps
  · exact splitPar_keeps _
  · exact splitSetext_keeps _
  · exact splitTable_keeps
  · exact splitThematic_keeps

/-- C10: each splitter that returns normally on a non-empty list of lines cuts it in two, and when it recognises
nothing it hands the lines back. -/
theorem C10_splitter_contract (n : Nat) (sec : Sec) (split : List Str → Split)
    (hmem : (sec, split) ∈ splitters (splitQuote n)) (line : Str) (lines section_ remaining : List Str)
    (h : split (line :: lines) = .ok (section_, remaining)) :
    section_ ++ remaining = line :: lines ∧ (section_ = [] → remaining = line :: lines) := by
  have hk := splitters_keep n _ hmem _ _ _ _ h
  exact ⟨hk, fun h0 => by rw [h0] at hk; exact hk⟩

/-- there are twelve of them, one for each kind of section -/
theorem C10_twelve (n : Nat) : (splitters (splitQuote n)).map (·.1) =
    [.atx, .blank, .quote, .bullet, .fenced, .indented, .lrd, .ordered, .par, .setext, .table, .thematic] := rfl

example : splitFenced [c!"```", c!"a", c!"```", c!"b"] = .ok ([c!"```", c!"a", c!"```"], [c!"b"]) := by
  decide +kernel
example : splitLrd [c!"[a]:", c!"b", c!"", c!"c"] = .ok ([c!"[a]:", c!"b"], [c!"", c!"c"]) := by decide +kernel

/-! ## C08: parsing partitions the lines -/

theorem firstSection_keeps {fs : List (Sec × (List Str → Split))} (hk : ∀ p ∈ fs, Keeps p.2) {l : Str} {ls : List Str}
    {ty : Sec} {a b : List Str} (h : firstSection fs (l :: ls) = .ok (ty, a, b)) :
    a ++ b = l :: ls ∧ a ≠ [] ∧ ∃ f, (ty, f) ∈ fs ∧ f (l :: ls) = .ok (a, b) := by
  induction fs with
  | nil => cases h
  | cons p fs ih =>
    obtain ⟨t, f⟩ := p
    simp only [firstSection, bind, Except.bind] at h
    cases hf : f (l :: ls) with
    | error e => rw [hf] at h; cases h
    | ok r =>
      obtain ⟨x, y⟩ := r
      rw [hf] at h
      simp only at h
      have hxy := hk (t, f) (by simp) _ _ _ _ hf
      split at h
      · rename_i hne
        cases h
        refine ⟨hxy, ?_, f, by simp, hf⟩
        intro h0; subst h0; simp at hne
      · rename_i hne
        have hx : x = [] := by simpa using hne
        subst hx
        simp only [List.nil_append] at hxy
        rw [hxy] at h
        obtain ⟨h1, h2, g, h3, h4⟩ := ih (fun p hp => hk p (by simp [hp])) h
        exact ⟨h1, h2, g, by simp [h3], h4⟩

theorem parseLoop_partition (n : Nat) : ∀ fuel lines secs, parseLoop (splitQuote n) fuel lines = .ok secs →
    (secs.map (·.2)).flatten = lines ∧ ∀ s ∈ secs, s.2 ≠ [] := by
  intro fuel
  induction fuel with
  | zero =>
    intro lines secs h
    cases lines with
    | nil => cases h; exact ⟨rfl, by simp⟩
    | cons l ls => cases h
  | succ fuel ih =>
    intro lines secs h
    cases lines with
    | nil => cases h; exact ⟨rfl, by simp⟩
    | cons l ls =>
      simp only [parseLoop, bind, Except.bind] at h
      cases hf : firstSection (splitters (splitQuote n)) (l :: ls) with
      | error e => rw [hf] at h; cases h
      | ok r =>
        obtain ⟨ty, a, b⟩ := r
        rw [hf] at h
        simp only at h
        cases hr : parseLoop (splitQuote n) fuel b with
        | error e => rw [hr] at h; cases h
        | ok rest =>
          rw [hr] at h
          cases h
          obtain ⟨h1, h2, _⟩ := firstSection_keeps (splitters_keep n) hf
          obtain ⟨h3, h4⟩ := ih _ _ hr
          refine ⟨by simp [h3, h1], ?_⟩
          intro s hs
          rcases List.mem_cons.1 hs with rfl | hs
          · exact h2
          · exact h4 s hs

/-- C08: the sections of a parsed document, put together, are the document; no section is empty. -/
theorem C08_parse_partition (n : Nat) (lines : List Str) (secs : List (Sec × List Str)) (h : parse n lines = .ok secs) :
    (secs.map (·.2)).flatten = lines ∧ ∀ s ∈ secs, s.2 ≠ [] := parseLoop_partition n _ _ _ h

example : parse 5 [c!"# a", c!"", c!"b", c!"c", c!"- d"] =
    .ok [(.atx, [c!"# a"]), (.blank, [c!""]), (.par, [c!"b", c!"c"]), (.bullet, [c!"- d"])] := by decide +kernel

/-- The loop bound of the model's `parse` is not observable: any bound that is at least the number of lines gives the
same result. -/
theorem parseLoop_fuel (n : Nat) : ∀ fuel fuel' lines, lines.length ≤ fuel → lines.length ≤ fuel' →
    parseLoop (splitQuote n) fuel lines = parseLoop (splitQuote n) fuel' lines := by
  intro fuel
  induction fuel with
  | zero =>
    intro fuel' lines h _
    have : lines = [] := by simpa using h
    subst this
    cases fuel' <;> rfl
  | succ fuel ih =>
    intro fuel' lines h h'
    cases lines with
    | nil => cases fuel' <;> rfl
    | cons l ls =>
      cases fuel' with
      | zero => simp at h'
      | succ fuel' =>
        simp only [parseLoop, bind, Except.bind]
        cases hf : firstSection (splitters (splitQuote n)) (l :: ls) with
        | error e => rfl
        | ok r =>
          obtain ⟨ty, a, b⟩ := r
          obtain ⟨h1, h2, _⟩ := firstSection_keeps (splitters_keep n) hf
          have hlen : b.length ≤ ls.length := by
            have := congrArg List.length h1
            cases a with
            | nil => exact absurd rfl h2
            | cons x a => simp at this; omega
          simp only [List.length_cons] at h h'
          simp only
          rw [ih fuel' b (by omega) (by omega)]

/-! ## C09: every document can be classified -/

/-- does not raise the "Could not determine section type" error -/
def NoRt (f : List Str → Split) : Prop := ∀ l ls, f (l :: ls) ≠ .error .runtime

theorem splitLrd_noRt : NoRt splitLrd := by
  intro l ls h
  have hfin : ∀ c i t g, lrdFinish (l :: ls) c i t g ≠ .error .runtime := by
    intro c i t g h
    have key : ∀ r : Bool × Nat, (if r.1 then Except.ok ((l :: ls).take r.2, (l :: ls).drop r.2)
        else .ok ([], l :: ls) : Split) ≠ .error .runtime := by
      intro r h; split at h <;> cases h
    exact key _ h
  simp only [splitLrd] at h
  split at h
  · cases h
  · split at h
    · cases h
    · split at h
      · exact hfin _ _ _ _ h
      · split at h
        · exact hfin _ _ _ _ h
        · exact hfin _ _ _ _ h
      · split at h
        · cases h
        · split at h
          · split at h
            · exact hfin _ _ _ _ h
            · cases h
          · exact hfin _ _ _ _ h
          · cases h

theorem anySplits_noRt {l : Str} {ls : List Str} {fs : List (List Str → Split)} (hfs : ∀ f ∈ fs, NoRt f) :
    anySplits (l :: ls) fs ≠ .error .runtime := by
  induction fs with
  | nil => intro h; cases h
  | cons f fs ih =>
    intro h
    simp only [anySplits, bind, Except.bind] at h
    cases hf : f (l :: ls) with
    | error e => rw [hf] at h; cases h; exact hfs f (by simp) _ _ hf
    | ok r =>
      rw [hf] at h
      simp only at h
      split at h
      · cases h
      · exact ih (fun g hg => hfs g (by simp [hg])) h

theorem splitAtx_noRt : NoRt splitAtx := by
  intro l ls h; simp only [splitAtx] at h; split at h <;> cases h
theorem splitBlank_noRt : NoRt splitBlank := by
  intro l ls h; simp only [splitBlank] at h; split at h <;> cases h
theorem splitThematic_noRt : NoRt splitThematic := by
  intro l ls h; simp only [splitThematic] at h; split at h <;> cases h
theorem splitBullet_noRt : NoRt splitBullet := by
  intro l ls h; simp only [splitBullet] at h; split at h <;> cases h
theorem splitOrdered_noRt : NoRt splitOrdered := by
  intro l ls h; simp only [splitOrdered] at h; split at h <;> cases h
theorem splitFenced_noRt : NoRt splitFenced := by
  intro l ls h; simp only [splitFenced] at h; split at h <;> cases h
theorem splitIndented_noRt : NoRt splitIndented := by
  intro l ls h; simp only [splitIndented] at h; split at h <;> cases h
theorem splitTable_noRt : NoRt splitTable := by
  intro l ls h; simp only [splitTable] at h; split at h <;> cases h

theorem isParCont_noRt {sbq : List Str → Split} (hs : NoRt sbq) (l : Str) (ls : List Str) :
    isParCont sbq (l :: ls) ≠ .error .runtime := by
  intro h
  simp only [isParCont, bind, Except.bind] at h
  cases ha : anySplits (l :: ls)
      [splitAtx, splitBlank, sbq, splitBullet, splitFenced, splitOrdered, splitTable, splitThematic] with
  | error e =>
    rw [ha] at h
    cases h
    refine anySplits_noRt ?_ ha
    intro f hf
    simp only [List.mem_cons, List.not_mem_nil, or_false] at hf
    rcases hf with rfl | rfl | rfl | rfl | rfl | rfl | rfl | rfl
    · exact splitAtx_noRt
    · exact splitBlank_noRt
    · exact hs
    · exact splitBullet_noRt
    · exact splitFenced_noRt
    · exact splitOrdered_noRt
    · exact splitTable_noRt
    · exact splitThematic_noRt
  | ok r =>
    rw [ha] at h
    simp only at h
    split at h
    · cases h
    · split at h <;> cases h

theorem parLoop_noRt {sbq : List Str → Split} (hs : NoRt sbq) (ls : List Str) : parLoop sbq ls ≠ .error .runtime := by
  induction ls with
  | nil => intro h; cases h
  | cons l ls ih =>
    intro h
    simp only [parLoop, bind, Except.bind] at h
    cases hc : isParCont sbq (l :: ls) with
    | error e => rw [hc] at h; cases h; exact isParCont_noRt hs _ _ hc
    | ok b =>
      rw [hc] at h
      simp only at h
      split at h
      · split at h
        · split at h <;> cases h
        · cases hp : parLoop sbq ls with
          | error e => rw [hp] at h; cases h; exact ih hp
          | ok r => rw [hp] at h; cases h
      · cases h

theorem splitParIgn_noRt {sbq : List Str → Split} (hs : NoRt sbq) : NoRt (splitParIgn sbq) := by
  intro l ls h
  simp only [splitParIgn] at h
  split at h
  · split at h
    · cases h
    · simp only [bind, Except.bind] at h
      cases hp : parLoop sbq ls with
      | error e => rw [hp] at h; cases h; exact parLoop_noRt hs _ hp
      | ok r => rw [hp] at h; cases h
  · cases h

theorem splitPar_noRt {sbq : List Str → Split} (hs : NoRt sbq) : NoRt (splitPar sbq) := by
  intro l ls h
  simp only [splitPar, bind, Except.bind] at h
  cases hp : splitParIgn sbq (l :: ls) with
  | error e => rw [hp] at h; cases h; exact splitParIgn_noRt hs _ _ hp
  | ok r =>
    rw [hp] at h
    simp only at h
    split at h
    · cases h
    · split at h <;> cases h

theorem splitSetext_noRt {sbq : List Str → Split} (hs : NoRt sbq) : NoRt (splitSetext sbq) := by
  intro l ls h
  simp only [splitSetext, bind, Except.bind] at h
  cases hp : splitParIgn sbq (l :: ls) with
  | error e => rw [hp] at h; cases h; exact splitParIgn_noRt hs _ _ hp
  | ok r =>
    rw [hp] at h
    simp only at h
    split at h
    · split at h <;> cases h
    · cases h

theorem splitters_noRt {sbq : List Str → Split} (hs : NoRt sbq) : ∀ p ∈ splitters sbq, NoRt p.2 := by
  intro p hp
  simp only [splitters, List.mem_cons, List.not_mem_nil, or_false] at hp
  rcases hp with rfl | rfl | rfl | rfl | rfl | rfl | rfl | rfl | rfl | rfl | rfl | rfl
  · exact splitAtx_noRt
  · exact splitBlank_noRt
  · exact hs
  · exact splitBullet_noRt
  · exact splitFenced_noRt
  · exact splitIndented_noRt
  · exact splitLrd_noRt
  · exact splitOrdered_noRt
  · exact splitPar_noRt hs
  · exact splitSetext_noRt hs
  · exact splitTable_noRt
  · exact splitThematic_noRt

/-- `firstSection` gives up only if every splitter declined. -/
theorem firstSection_rt {fs : List (Sec × (List Str → Split))} (hk : ∀ p ∈ fs, Keeps p.2) (hn : ∀ p ∈ fs, NoRt p.2)
    {l : Str} {ls : List Str} (h : firstSection fs (l :: ls) = .error .runtime) :
    ∀ p ∈ fs, p.2 (l :: ls) = .ok ([], l :: ls) := by
  induction fs with
  | nil => intro p hp; cases hp
  | cons p fs ih =>
    obtain ⟨t, f⟩ := p
    simp only [firstSection, bind, Except.bind] at h
    cases hf : f (l :: ls) with
    | error e => rw [hf] at h; cases h; exact absurd hf (hn (t, f) (by simp) _ _)
    | ok r =>
      obtain ⟨x, y⟩ := r
      rw [hf] at h
      simp only at h
      have hxy := hk (t, f) (by simp) _ _ _ _ hf
      split at h
      · cases h
      · rename_i hne
        have hx : x = [] := by simpa using hne
        subst hx
        simp only [List.nil_append] at hxy
        rw [hxy] at h hf
        intro p hp
        rcases List.mem_cons.1 hp with rfl | hp
        · exact hf
        · exact ih (fun p hp => hk p (by simp [hp])) (fun p hp => hn p (by simp [hp])) h p hp

theorem par_or_setext {sbq : List Str → Split} {l : Str} {ls : List Str} (hstart : isParStart l = true)
    (h1 : splitPar sbq (l :: ls) = .ok ([], l :: ls)) (h2 : splitSetext sbq (l :: ls) = .ok ([], l :: ls)) : False := by
  cases hp : splitParIgn sbq (l :: ls) with
  | error e => simp only [splitPar, bind, Except.bind, hp] at h1; cases h1
  | ok r =>
    obtain ⟨a, b⟩ := r
    have hne : a ≠ [] := by
      intro h0
      have := (splitParIgn_nil hp).1 h0
      rw [hstart] at this; cases this
    simp only [splitPar, bind, Except.bind, hp] at h1
    simp only [splitSetext, bind, Except.bind, hp] at h2
    cases b with
    | nil => simp only [Except.ok.injEq, Prod.mk.injEq] at h1; exact hne h1.1
    | cons x b =>
      cases a with
      | nil => exact hne rfl
      | cons p ps =>
        simp only at h1 h2
        by_cases hu : isSetextUnderline x = true
        · simp [hu] at h2
        · simp [hu] at h1

theorem firstSection_noRt (n : Nat) (hs : NoRt (splitQuote n)) (l : Str) (ls : List Str) :
    firstSection (splitters (splitQuote n)) (l :: ls) ≠ .error .runtime := by
  intro h
  have hall := firstSection_rt (splitters_keep n) (splitters_noRt hs) h
  simp only [splitters, List.mem_cons, List.not_mem_nil, or_false, forall_eq_or_imp, forall_eq] at hall
  obtain ⟨h1, h2, h3, h4, h5, h6, _, h8, h9, h10, h11, h12⟩ := hall
  refine par_or_setext ?_ h9 h10
  have e1 := (splitAtx_nil h1).1 rfl
  have e2 := (splitBlank_nil h2).1 rfl
  have e3 := (splitQuote_nil h3).1 rfl
  have e4 := (splitBullet_nil h4).1 rfl
  have e5 := (splitFenced_nil h5).1 rfl
  have e6 := (splitIndented_nil h6).1 rfl
  have e8 := (splitOrdered_nil h8).1 rfl
  have e11 := (splitTable_nil h11).1 rfl
  have e12 := (splitThematic_nil h12).1 rfl
  simp [isParStart, e1, e2, e3, e4, e5, e6, e8, e11, e12]

theorem parseLoop_noRt (n : Nat) (hs : NoRt (splitQuote n)) : ∀ fuel lines,
    parseLoop (splitQuote n) fuel lines ≠ .error .runtime := by
  intro fuel
  induction fuel with
  | zero => intro lines h; cases lines <;> cases h
  | succ fuel ih =>
    intro lines h
    cases lines with
    | nil => cases h
    | cons l ls =>
      simp only [parseLoop, bind, Except.bind] at h
      cases hf : firstSection (splitters (splitQuote n)) (l :: ls) with
      | error e => rw [hf] at h; cases h; exact firstSection_noRt n hs _ _ hf
      | ok r =>
        rw [hf] at h
        simp only at h
        cases hr : parseLoop (splitQuote n) fuel r.2.2 with
        | error e => rw [hr] at h; cases h; exact ih _ hr
        | ok rest => rw [hr] at h; cases h

theorem contLoop_noRt {sbq : List Str → Split} (hs : NoRt sbq) (ls : List Str) :
    ∀ first, contLoop sbq first ls ≠ .error .runtime := by
  induction ls with
  | nil => intro first h; cases h
  | cons l ls ih =>
    intro first h
    simp only [contLoop, bind, Except.bind] at h
    cases hc : isQuoteCont sbq (l :: ls) with
    | error e =>
      rw [hc] at h
      cases h
      simp only [isQuoteCont, bind, Except.bind] at hc
      cases ha : anySplits (l :: ls)
        [splitAtx, splitBlank, splitBullet, splitFenced, splitOrdered, splitSetext sbq, splitTable,
          splitThematic] with
      | error e =>
        rw [ha] at hc
        cases hc
        refine anySplits_noRt ?_ ha
        intro f hf
        simp only [List.mem_cons, List.not_mem_nil, or_false] at hf
        rcases hf with rfl | rfl | rfl | rfl | rfl | rfl | rfl | rfl
        · exact splitAtx_noRt
        · exact splitBlank_noRt
        · exact splitBullet_noRt
        · exact splitFenced_noRt
        · exact splitOrdered_noRt
        · exact splitSetext_noRt hs
        · exact splitTable_noRt
        · exact splitThematic_noRt
      | ok r =>
        rw [ha] at hc
        simp only at hc
        split at hc
        · cases hc
        · split at hc <;> cases hc
    | ok b =>
      rw [hc] at h
      simp only at h
      split at h
      · split at h
        · cases h
        · cases hr : contLoop sbq false ls with
          | error e => rw [hr] at h; cases h; exact ih _ hr
          | ok r => rw [hr] at h; cases h
      · cases h

theorem quoteLoop_noRt {ends : List Str → Except Err Bool} {sbq : List Str → Split}
    (he : ∀ ls, ends ls ≠ .error .runtime) (hs : NoRt sbq) :
    ∀ fuel bq ls, quoteLoop ends sbq fuel bq ls ≠ .error .runtime := by
  intro fuel
  induction fuel with
  | zero => intro bq ls h; cases h
  | succ fuel ih =>
    intro bq ls h
    cases ls with
    | nil => cases h
    | cons l ls =>
      simp only [quoteLoop] at h
      split at h
      · cases h
      · simp only [bind, Except.bind] at h
        cases hb : ends (bq ++ (l :: ls).takeWhile isQuote) with
        | error e => rw [hb] at h; cases h; exact he _ hb
        | ok b =>
          rw [hb] at h
          simp only at h
          split at h
          · cases hc : contLoop sbq true ((l :: ls).dropWhile isQuote) with
            | error e => rw [hc] at h; cases h; exact contLoop_noRt hs _ _ hc
            | ok r => rw [hc] at h; exact ih _ _ h
          · cases h

theorem endsWithPar_noRt {p : List Str → Except Err (List (Sec × List Str))} (hp : ∀ ls, p ls ≠ .error .runtime) :
    ∀ n ls, endsWithPar p n ls ≠ .error .runtime := by
  intro n
  induction n with
  | zero => intro ls h; cases h
  | succ n ih =>
    intro ls h
    simp only [endsWithPar, bind, Except.bind] at h
    cases hq : p (ls.map unquote) with
    | error e => rw [hq] at h; cases h; exact hp _ hq
    | ok secs =>
      rw [hq] at h
      simp only at h
      split at h
      · cases h
      · exact ih _ h
      · cases h
      · cases h

theorem splitQuote_noRt : ∀ n ls, splitQuote n ls ≠ .error .runtime := by
  intro n
  induction n with
  | zero => intro ls h; cases h
  | succ n ih =>
    intro ls
    exact quoteLoop_noRt (endsWithPar_noRt (fun ls => parseLoop_noRt n (fun l ls => ih _) _ _) n)
      (fun l ls => ih _) _ _ _

/-- C09: `parse_markdown` never gives up with "Could not determine section type". -/
theorem C09_every_document_classified (n : Nat) (lines : List Str) : parse n lines ≠ .error .runtime :=
  parseLoop_noRt n (fun _ _ => splitQuote_noRt n _) _ _

/-- C09, second half: a non-empty list of lines for which no splitter raises starts with a section that one of them
recognises. -/
theorem C09_some_splitter_recognises (n : Nat) (line : Str) (lines : List Str)
    (hok : ∀ p ∈ splitters (splitQuote n), ∀ e, p.2 (line :: lines) ≠ .error e) :
    ∃ p ∈ splitters (splitQuote n), ∃ s r, p.2 (line :: lines) = .ok (s, r) ∧ s ≠ [] := by
  cases hf : firstSection (splitters (splitQuote n)) (line :: lines) with
  | ok r =>
    obtain ⟨ty, a, b⟩ := r
    obtain ⟨_, h2, f, h3, h4⟩ := firstSection_keeps (splitters_keep n) hf
    exact ⟨_, h3, a, b, h4, h2⟩
  | error e =>
    exfalso
    have key : ∀ fs : List (Sec × (List Str → Split)), (∀ p ∈ fs, Keeps p.2) →
        (∀ p ∈ fs, ∀ e, p.2 (line :: lines) ≠ .error e) → firstSection fs (line :: lines) = .error e →
        e = .runtime := by
      intro fs
      induction fs with
      | nil => intro _ _ h; cases h; rfl
      | cons p fs ih =>
        intro hk hok h
        obtain ⟨t, f⟩ := p
        simp only [firstSection, bind, Except.bind] at h
        cases hf : f (line :: lines) with
        | error e => exact absurd hf (hok (t, f) (by simp) e)
        | ok r =>
          obtain ⟨x, y⟩ := r
          rw [hf] at h
          simp only at h
          split at h
          · cases h
          · rename_i hne
            have hx : x = [] := by simpa using hne
            subst hx
            have hxy := hk (t, f) (by simp) _ _ _ _ hf
            simp only [List.nil_append] at hxy
            rw [hxy] at h
            exact ih (fun p hp => hk p (by simp [hp])) (fun p hp => hok p (by simp [hp])) h
    have := key _ (splitters_keep n) hok hf
    subst this
    exact firstSection_noRt n (fun _ _ => splitQuote_noRt n _) _ _ hf

/-! ## C11: mutual exclusion -/

/-- a splitter recognises a section at the start of the lines -/
def Recognises (split : List Str → Split) (lines : List Str) : Prop :=
  ∃ s r, split lines = .ok (s, r) ∧ s ≠ []

/-- the pairs of section kinds whose splitters do overlap -/
def overlapping : List (Sec × Sec) :=
  [(.bullet, .thematic), (.fenced, .indented), (.indented, .table), (.lrd, .par), (.lrd, .setext)]

/-- what the first line of a recognised section looks like -/
def headPred : Sec → Str → Bool
  | .atx => isAtx
  | .blank => isBlankLine
  | .quote => isQuote
  | .bullet => isBulletStart
  | .fenced => isFenceStart
  | .indented => isIndentedStart
  | .lrd => fun l => firstCh l == some '[' && !isIndentedStart l
  | .ordered => isOrderedStart
  | .par => isParStart
  | .setext => isParStart
  | .table => isTableStart
  | .thematic => isThematic

theorem splitLrd_first {l : Str} {ls a b : List Str} (h : splitLrd (l :: ls) = .ok (a, b)) (hne : a ≠ []) :
    firstCh l = some '[' ∧ isIndentedStart l = false := by
  simp only [splitLrd] at h
  split at h
  · cases h; exact absurd rfl hne
  · rename_i hind
    refine ⟨?_, by unfold isIndentedStart; simp [hind]⟩
    cases hm : lrdFirstRx.match? (lstrip l) with
    | none => rw [hm] at h; cases h; exact absurd rfl hne
    | some m =>
      obtain ⟨st, ⟨m1, ⟨c, cs, hc1, hc2, _⟩, _⟩, _⟩ := Rx.matchAt_sound (r := lrdFirstRx) hm
      simp only at hc1
      have : c = '[' := by simpa using hc2
      unfold firstCh
      rw [hc1, this]; rfl

theorem headPred_of_recognises (n : Nat) {sec : Sec} {f : List Str → Split} (hmem : (sec, f) ∈ splitters (splitQuote n))
    {l : Str} {ls : List Str} (h : Recognises f (l :: ls)) : headPred sec l = true := by
  obtain ⟨a, b, h, hne⟩ := h
  have key : ∀ {p : Bool}, (a = [] ↔ p = false) → p = true := by
    intro p hp
    cases p with
    | true => rfl
    | false => exact absurd (hp.2 rfl) hne
  have parkey : splitParIgn (splitQuote n) (l :: ls) ≠ .ok ([], l :: ls) →
      (∃ r, splitParIgn (splitQuote n) (l :: ls) = .ok r) → isParStart l = true := by
    rintro hno ⟨⟨x, y⟩, hx⟩
    cases hp : isParStart l with
    | true => rfl
    | false =>
      have h0 := (splitParIgn_nil hx).2 hp
      have := splitParIgn_keeps _ _ _ _ _ hx
      rw [h0] at this hx
      simp only [List.nil_append] at this
      rw [this] at hx
      exact absurd hx hno
  simp only [splitters, List.mem_cons, List.not_mem_nil, or_false, Prod.mk.injEq] at hmem
  rcases hmem with ⟨rfl, rfl⟩ | ⟨rfl, rfl⟩ | ⟨rfl, rfl⟩ | ⟨rfl, rfl⟩ | ⟨rfl, rfl⟩ | ⟨rfl, rfl⟩ | ⟨rfl, rfl⟩ |
    ⟨rfl, rfl⟩ | ⟨rfl, rfl⟩ | ⟨rfl, rfl⟩ | ⟨rfl, rfl⟩ | ⟨rfl, rfl⟩
  · exact key (splitAtx_nil h)
  · exact key (splitBlank_nil h)
  · exact key (splitQuote_nil h)
  · exact key (splitBullet_nil h)
  · exact key (splitFenced_nil h)
  · exact key (splitIndented_nil h)
  · obtain ⟨h1, h2⟩ := splitLrd_first h hne
    simp [headPred, h1, h2]
  · exact key (splitOrdered_nil h)
  · refine parkey ?_ ?_
    · intro hp
      simp only [splitPar, bind, Except.bind, hp] at h
      split at h <;> (cases h; exact hne rfl)
    · cases hp : splitParIgn (splitQuote n) (l :: ls) with
      | error e => simp only [splitPar, bind, Except.bind, hp] at h; cases h
      | ok r => exact ⟨r, rfl⟩
  · refine parkey ?_ ?_
    · intro hp
      simp only [splitSetext, bind, Except.bind, hp] at h
      cases h; exact hne rfl
    · cases hp : splitParIgn (splitQuote n) (l :: ls) with
      | error e => simp only [splitSetext, bind, Except.bind, hp] at h; cases h
      | ok r => exact ⟨r, rfl⟩
  · exact key (splitTable_nil h)
  · exact key (splitThematic_nil h)

/-- a number for the first character of a line, 20 more when the line is indented by four or more -/
def lineKey (l : Str) : Nat :=
  (if isIndentedStart l then 20 else 0) +
  match firstCh l with
  | none => 0
  | some c =>
    if c = '#' then 1 else if c = '>' then 2 else if c = '*' then 3 else if c = '+' then 4 else if c = '-' then 5
    else if c = '`' then 6 else if c = '~' then 7 else if c = '[' then 8 else if isDigit c then 9
    else if c = '|' then 10 else if c = '_' then 11 else 12

def secKeys : Sec → List Nat
  | .atx => [1] | .blank => [0] | .quote => [2] | .bullet => [3, 4, 5] | .fenced => [6, 7, 26, 27]
  | .indented => [21, 22, 23, 24, 25, 26, 27, 28, 29, 30, 31, 32] | .lrd => [8] | .ordered => [9]
  | .par => [] | .setext => [] | .table => [10, 30] | .thematic => [3, 5, 11]

theorem lineKey_mem {sec : Sec} {l : Str} (h : headPred sec l = true) (h1 : sec ≠ .par) (h2 : sec ≠ .setext) :
    lineKey l ∈ secKeys sec := by
  cases sec with
  | par => exact absurd rfl h1
  | setext => exact absurd rfl h2
  | atx =>
    have hi : isIndentedStart l = false := by simp only [headPred, isAtx, Bool.and_eq_true] at h; simpa using h.1
    simp [lineKey, secKeys, isAtx_first h, hi]
  | blank =>
    have hi : isIndentedStart l = false := by
      simp only [headPred, isBlankLine] at h; simp [isIndentedStart, h]
    simp [lineKey, secKeys, (firstCh_none l).2 h, hi]
  | quote =>
    have hi : isIndentedStart l = false := by simp only [headPred, isQuote, Bool.and_eq_true] at h; simpa using h.1
    simp [lineKey, secKeys, isQuote_first h, hi]
  | bullet =>
    have hi : isIndentedStart l = false := by
      simp only [headPred, isBulletStart, Bool.and_eq_true] at h; simpa using h.1
    obtain ⟨c, hc, hc'⟩ := isBulletStart_first h
    rcases hc' with rfl | rfl | rfl <;> simp [lineKey, secKeys, hc, hi]
  | fenced =>
    by_cases hi : isIndentedStart l = true <;>
      rcases isFenceStart_first h with hc | hc <;> simp [lineKey, secKeys, hc, hi]
  | indented =>
    simp only [headPred] at h
    have hne : firstCh l ≠ none := by
      intro h0
      have := (firstCh_none l).1 h0
      simp only [isBlankLine] at this
      simp [isIndentedStart, this] at h
    cases hc : firstCh l with
    | none => exact absurd hc hne
    | some c =>
      simp only [lineKey, hc, h, if_true]
      repeat' split
      all_goals simp [secKeys]
  | lrd =>
    simp only [headPred, Bool.and_eq_true, beq_iff_eq, Bool.not_eq_true'] at h
    simp [lineKey, secKeys, h.1, h.2]
  | ordered =>
    have hi : isIndentedStart l = false := by
      simp only [headPred, isOrderedStart, Bool.and_eq_true] at h; simpa using h.1
    obtain ⟨c, hc, hc'⟩ := isOrderedStart_first h
    have hne : ∀ d : Char, isDigit d = false → c ≠ d := by
      intro d hd h0; subst h0; rw [hc'] at hd; cases hd
    simp [lineKey, secKeys, hc, hi, hc', hne '#' (by decide), hne '>' (by decide), hne '*' (by decide),
      hne '+' (by decide), hne '-' (by decide), hne '`' (by decide), hne '~' (by decide), hne '[' (by decide)]
  | table =>
    have hc := isTableStart_first.1 h
    by_cases hi : isIndentedStart l = true <;> simp [lineKey, secKeys, hc, hi, isDigit]
  | thematic =>
    have hi : isIndentedStart l = false := ((isThematic_iff l).1 h).1
    obtain ⟨c, hc, hc'⟩ := isThematic_first h
    rcases hc' with rfl | rfl | rfl <;> simp [lineKey, secKeys, hc, hi, isDigit]

theorem par_excludes {sec : Sec} {l : Str} (h : headPred sec l = true) (hp : isParStart l = true) :
    sec = .lrd ∨ sec = .par ∨ sec = .setext := by
  simp only [isParStart, List.any_cons, List.any_nil, Bool.or_false, Bool.not_eq_true', Bool.or_eq_false_iff] at hp
  obtain ⟨p1, p2, p3, p4, p5, p6, p7, p8, p9⟩ := hp
  cases sec <;> simp_all [headPred]

theorem par_setext_exclusive {sbq : List Str → Split} {l : Str} {ls : List Str}
    (h1 : Recognises (splitPar sbq) (l :: ls)) (h2 : Recognises (splitSetext sbq) (l :: ls)) : False := by
  obtain ⟨a, b, h1, ha⟩ := h1
  obtain ⟨c, d, h2, hc⟩ := h2
  cases hp : splitParIgn sbq (l :: ls) with
  | error e => simp only [splitPar, bind, Except.bind, hp] at h1; cases h1
  | ok r =>
    obtain ⟨x, y⟩ := r
    simp only [splitPar, bind, Except.bind, hp] at h1
    simp only [splitSetext, bind, Except.bind, hp] at h2
    cases y with
    | nil =>
      cases x <;> (simp only [Except.ok.injEq, Prod.mk.injEq] at h2; exact hc h2.1.symm)
    | cons u y =>
      by_cases hu : isSetextUnderline u = true
      · simp [hu] at h1; exact ha h1.1
      · cases x <;> simp [hu] at h2 <;> exact hc h2.1

/-- C11 restricted to what holds: two different splitters recognise a section in the same lines only if they are one
of five pairs. Missing from the full claim: those five pairs, which do overlap (`C11_overlaps`). -/
theorem C11_exclusive_partial (n : Nat) (line : Str) (lines : List Str) (s t : Sec) (f g : List Str → Split)
    (hf : (s, f) ∈ splitters (splitQuote n)) (hg : (t, g) ∈ splitters (splitQuote n))
    (rf : Recognises f (line :: lines)) (rg : Recognises g (line :: lines)) :
    s = t ∨ (s, t) ∈ overlapping ∨ (t, s) ∈ overlapping := by
  have pf := headPred_of_recognises n hf rf
  have pg := headPred_of_recognises n hg rg
  have parcase : ∀ {s t : Sec} {f g : List Str → Split}, (s, f) ∈ splitters (splitQuote n) →
      (t, g) ∈ splitters (splitQuote n) → Recognises f (line :: lines) → Recognises g (line :: lines) →
      headPred s line = true → headPred t line = true → (s = .par ∨ s = .setext) →
      s = t ∨ (s, t) ∈ overlapping ∨ (t, s) ∈ overlapping := by
    intro s t f g hf hg rf rg pf pg hs
    have hp : isParStart line = true := by rcases hs with rfl | rfl <;> exact pf
    have eqf : ∀ {x h}, (x, h) ∈ splitters (splitQuote n) → (x = .par → h = splitPar (splitQuote n)) ∧
        (x = .setext → h = splitSetext (splitQuote n)) := by
      intro x h hx
      simp only [splitters, List.mem_cons, List.not_mem_nil, or_false, Prod.mk.injEq] at hx
      rcases hx with ⟨rfl, rfl⟩ | ⟨rfl, rfl⟩ | ⟨rfl, rfl⟩ | ⟨rfl, rfl⟩ | ⟨rfl, rfl⟩ | ⟨rfl, rfl⟩ | ⟨rfl, rfl⟩ |
        ⟨rfl, rfl⟩ | ⟨rfl, rfl⟩ | ⟨rfl, rfl⟩ | ⟨rfl, rfl⟩ | ⟨rfl, rfl⟩ <;> simp
    rcases par_excludes pg hp with rfl | rfl | rfl <;> rcases hs with rfl | rfl
    · simp [overlapping]
    · simp [overlapping]
    · exact .inl rfl
    · rw [(eqf hf).2 rfl] at rf; rw [(eqf hg).1 rfl] at rg; exact (par_setext_exclusive rg rf).elim
    · rw [(eqf hf).1 rfl] at rf; rw [(eqf hg).2 rfl] at rg; exact (par_setext_exclusive rf rg).elim
    · exact .inl rfl
  by_cases hs : s = .par ∨ s = .setext
  · exact parcase hf hg rf rg pf pg hs
  by_cases ht : t = .par ∨ t = .setext
  · rcases parcase hg hf rg rf pg pf ht with h | h | h
    · exact .inl h.symm
    · exact .inr (.inr h)
    · exact .inr (.inl h)
  have kf := lineKey_mem pf (fun h => hs (.inl h)) (fun h => hs (.inr h))
  have kg := lineKey_mem pg (fun h => ht (.inl h)) (fun h => ht (.inr h))
  generalize lineKey line = k at kf kg
  cases s <;> cases t <;> simp [overlapping] <;> simp [secKeys] at kf kg <;> omega

/-- C11 is false as stated: each of the five pairs overlaps, so for these lines the order of `SPLITTERS` decides. -/
theorem C11_overlaps (n : Nat) : ∀ p ∈ overlapping, ∃ f g line lines,
    (p.1, f) ∈ splitters (splitQuote (n + 1)) ∧ (p.2, g) ∈ splitters (splitQuote (n + 1)) ∧
    Recognises f (line :: lines) ∧ Recognises g (line :: lines) := by
  intro p hp
  simp only [overlapping, List.mem_cons, List.not_mem_nil, or_false] at hp
  rcases hp with rfl | rfl | rfl | rfl | rfl
  · exact ⟨splitBullet, splitThematic, c!"- - -", [], by simp [splitters], by simp [splitters],
      ⟨[c!"- - -"], [], by decide +kernel, by decide⟩, ⟨[c!"- - -"], [], by decide +kernel, by decide⟩⟩
  · exact ⟨splitFenced, splitIndented, c!"    ```", [], by simp [splitters], by simp [splitters],
      ⟨[c!"    ```"], [], by decide +kernel, by decide⟩, ⟨[c!"    ```"], [], by decide +kernel, by decide⟩⟩
  · exact ⟨splitIndented, splitTable, c!"    | a", [], by simp [splitters], by simp [splitters],
      ⟨[c!"    | a"], [], by decide +kernel, by decide⟩, ⟨[c!"    | a"], [], by decide +kernel, by decide⟩⟩
  · exact ⟨splitLrd, splitPar (splitQuote (n + 1)), c!"[a]: b 'c'", [], by simp [splitters], by simp [splitters],
      ⟨[c!"[a]: b 'c'"], [], by decide +kernel, by decide⟩, ⟨[c!"[a]: b 'c'"], [], rfl, by decide⟩⟩
  · exact ⟨splitLrd, splitSetext (splitQuote (n + 1)), c!"[a]: b 'c'", [c!"---"], by simp [splitters],
      by simp [splitters], ⟨[c!"[a]: b 'c'"], [c!"---"], by decide +kernel, by decide⟩,
      ⟨[c!"[a]: b 'c'", c!"---"], [], rfl, by decide⟩⟩

/-- The order of `SPLITTERS` is what decides for the overlapping pairs: the first splitter that recognises a section
wins. -/
theorem C11_order_decides (n : Nat) (pre post : List (Sec × (List Str → Split))) (s : Sec) (f : List Str → Split)
    (hsplit : splitters (splitQuote n) = pre ++ (s, f) :: post) (line : Str) (lines a b : List Str)
    (hpre : ∀ p ∈ pre, p.2 (line :: lines) = .ok ([], line :: lines)) (hf : f (line :: lines) = .ok (a, b))
    (ha : a ≠ []) : firstSection (splitters (splitQuote n)) (line :: lines) = .ok (s, a, b) := by
  rw [hsplit]
  clear hsplit
  induction pre with
  | nil =>
    simp only [List.nil_append, firstSection, bind, Except.bind, hf]
    cases a with
    | nil => exact absurd rfl ha
    | cons x a => rfl
  | cons p pre ih =>
    obtain ⟨t, g⟩ := p
    have : g (line :: lines) = .ok ([], line :: lines) := hpre (t, g) (by simp)
    simp only [List.cons_append, firstSection, bind, Except.bind, this]
    exact ih (fun p hp => hpre p (by simp [hp]))

end MF
