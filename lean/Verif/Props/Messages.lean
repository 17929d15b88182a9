import Verif.Model.Messages
import Verif.Props.DetectLog
import Verif.Props.Errors
import Verif.Props.Kept
/-!
# C67, C68: log messages
-/

namespace MF

/-! ## Specification -/

def isSect : Msg → Bool
  | .sect .. => true
  | _ => false

/-- The messages of the formatters that are warnings. -/
def isWarning : Msg → Bool
  | .added _ => true
  | .noSpace _ => true
  | _ => false

/-- The messages report, at the given level, consecutive ranges of the lines, starting from line `k` and leaving none
out; each range goes with its kind and its lines. -/
inductive Reports (level : Nat) : Nat → List Msg → List Str → Prop
  | nil (k : Nat) : Reports level k [] []
  | cons (k : Nat) (ty : Sec) (l : Str) (ls : List Str) (ms : List Msg) (rest : List Str)
    (h : Reports level (k + ls.length + 1) ms rest) :
    Reports level k (.sect level k (k + ls.length) ty (l :: ls) :: ms) (l :: ls ++ rest)

/-- The line has a run of `#` that is not followed by a space. -/
def HashesNoSpace (l : Str) : Prop :=
  ∃ d rest, strip l = List.replicate d '#' ++ rest ∧ rest.head? ≠ some '#' ∧ rest.head? ≠ some ' '

/-- The warning is true of the document: line `k` is an ATX heading that lacks the space; line `k` is the first line of a
setext heading that follows a block quote. -/
def TrueOf : Nat → Str → Msg → Prop
  | n + 1, text, .noSpace k => ∃ pre l post, parse n (splitlines text) = .ok (pre ++ (Sec.atx, [l]) :: post) ∧
      k = (pre.map (·.2)).flatten.length + 1 ∧ (splitlines text)[k - 1]? = some l ∧ HashesNoSpace l
  | n + 1, text, .added k => ∃ pre q l ls post,
      parse n (splitlines text) = .ok (pre ++ (Sec.quote, q) :: (Sec.setext, l :: ls) :: post) ∧
      k = (pre.map (·.2)).flatten.length + q.length + 1 ∧ (splitlines text)[k - 1]? = some l
  | _, _, _ => False

/-! ## Leaving out the messages -/

theorem erases_set (level : LSt → Nat) : Erases (setLevel level) (.ok ()) := fun _ => rfl

theorem erases_gen {α : Type} {m : LogM α} {x : Except Err α} (h : Erases m x) :
    Erases (throughGen m) (x.mapError genError) := by
  intro s
  simp only [throughGen, h s]

section
variable {subL : Width → Str → LogM Str} {sub : Width → Str → Except Err Str}
  (hs : ∀ w t, Erases (subL w t) (sub w t))
include hs

theorem erases_entry (w : Width) (i : Nat) (mk : Str) (e : List Str) :
    Erases (fmtEntryL subL w i mk e) (fmtEntry sub w i mk e) :=
  erases_bind (erases_redirected (hs _ _)) fun _ _ => erases_pure _

theorem erases_bulletEntries (w : Width) (mk : Str) (es : List (List Str)) :
    Erases (fmtBulletEntriesL subL w mk es) (fmtBulletEntries sub w mk es) := by
  induction es with
  | nil => exact erases_pure _
  | cons e es ih => exact erases_bind (erases_entry hs _ _ _ _) fun _ _ => erases_bind ih fun _ _ => erases_pure _

theorem erases_orderedEntries (w : Width) (i : Nat) (es : List (List Str)) :
    ∀ k, Erases (fmtOrderedEntriesL subL w i k es) (fmtOrderedEntries sub w i k es) := by
  induction es with
  | nil => exact fun _ => erases_pure _
  | cons e es ih =>
    exact fun k => erases_bind (erases_entry hs _ _ _ _) fun _ _ => erases_bind (ih _) fun _ _ => erases_pure _

theorem erases_section (w : Width) (i : Nat) (ty : Sec) (content : List Str) :
    Erases (fmtSectionL subL w i ty content) (fmtSection sub w i ty content) := by
  cases ty with
  | atx =>
    cases content with
    | nil => exact erases_lift _
    | cons l ls => exact erases_then (erases_ite (erases_other _ _)) (erases_lift _)
  | quote =>
    cases content with
    | nil => exact erases_lift _
    | cons l ls => exact erases_bind (erases_redirected (hs _ _)) fun _ _ => erases_pure _
  | bullet =>
    cases content with
    | nil => exact erases_lift _
    | cons l ls =>
      refine erases_bind (erases_lift _) fun _ _ => erases_bind (erases_lift _) fun _ _ => ?_
      cases lstrip l with
      | nil => exact erases_lift _
      | cons m r => exact erases_bind (erases_bulletEntries hs _ _ _) fun _ _ => erases_pure _
  | ordered =>
    cases content with
    | nil => exact erases_lift _
    | cons l ls =>
      exact erases_bind (erases_lift _) fun _ _ => erases_bind (erases_lift _) fun _ _ =>
        erases_bind (erases_lift _) fun _ _ => erases_bind (erases_orderedEntries hs _ _ _ _) fun _ _ => erases_pure _
  | _ => exact erases_lift _

theorem erases_all (w : Width) (fs : List Fmt) : Erases (fmtAllL subL w fs) (fmtAll sub w fs) := by
  induction fs with
  | nil => exact erases_pure _
  | cons f fs ih =>
    exact erases_bind (erases_gen (erases_section hs _ _ _ _)) fun _ _ => erases_bind ih fun _ _ => erases_pure _

end

theorem erases_build (secs : List (Sec × List Str)) :
    ∀ i last, Erases (buildFmtsL i last secs) (buildFmts i last secs) := by
  induction secs with
  | nil => exact fun _ _ => erases_pure _
  | cons x secs ih =>
    obtain ⟨ty, content⟩ := x
    intro i last
    refine erases_bind (erases_lift _) fun _ _ => erases_then (erases_own _ _) (erases_then (erases_ite (erases_own _ _))
      (erases_bind (ih _ _) fun _ _ => ?_))
    dsimp only
    split
    · exact erases_pure _
    · exact erases_pure _

/-- Without the messages, the formatter is the one of `Model/Reformat.lean`: what it returns or raises does not depend on
the logging state. -/
theorem C67_same_result (n : Nat) : ∀ (w : Width) (text : Str) (s : LSt),
    (reformatTextL n w text s).1 = reformatText n w text := by
  induction n with
  | zero => exact fun _ _ _ => rfl
  | succ n ih =>
    exact fun w text => erases_bind (erases_parse _ _) fun _ _ => erases_bind (erases_build _ _ _) fun _ _ =>
      erases_bind (erases_all (fun w t s => ih w t s) _ _) fun _ _ => erases_pure _

theorem C67_same_result_full (n : Nat) (w : Width) (text : Str) (s : LSt) :
    (reformatMarkdownTextL n w text s).1 = reformatMarkdownText n w text := by
  have key : Erases (reformatMarkdownTextL n w text) (reformatMarkdownText n w text) := by
    refine erases_bind (fun s => C67_same_result n w text s) fun a _ => ?_
    intro s
    have : ∀ (m : Nat → LogM Str) (x : Except Err Str), (∀ l, Erases (m l) x) →
        Erases ((fun s => (.ok s.effective, s) : LogM Nat) >>= m) x := fun m x h s => h _ s
    refine this _ _ (fun level => ?_) s
    refine erases_then (erases_ite (erases_set _)) (erases_bind (fun s => C67_same_result n w a s) fun b _ =>
      erases_then (erases_set _) ?_)
    split
    · exact erases_lift _
    · exact erases_pure _
  exact key s

/-! ## What is shown -/

theorem adds_gen {α : Type} {Q : LogSt → Msg → Prop} {m : LogM α} (h : Adds Q m) : Adds Q (throughGen m) := by
  intro s
  obtain ⟨h1, h2, h3, h4⟩ := h s
  refine ⟨h1, h2, fun a ha => ?_, h4⟩
  simp only [throughGen] at ha ⊢
  cases hm : (m s).1 with
  | ok b => exact h3 b hm
  | error e => rw [hm] at ha; cases ha

section
variable {Q Q' : LogSt → Msg → Prop} {sub : Width → Str → LogM Str}
  (hQ : ∀ l x, Q' { l with info := DEBUG } x → Q l x)
include hQ

theorem adds_entry {w : Width} {i : Nat} {mk : Str} {e : List Str}
    (hs : ∀ w, Adds Q' (sub w (pyJoin ['\n'] e ++ ['\n']))) : Adds Q (fmtEntryL sub w i mk e) :=
  adds_bind (adds_redirected (hs _) hQ) fun _ _ => adds_pure _

theorem adds_bulletEntries {w : Width} {mk : Str} {es : List (List Str)}
    (hs : ∀ e ∈ es, ∀ w, Adds Q' (sub w (pyJoin ['\n'] e ++ ['\n']))) : Adds Q (fmtBulletEntriesL sub w mk es) := by
  induction es with
  | nil => exact adds_pure _
  | cons e es ih =>
    exact adds_bind (adds_entry hQ (hs e (by simp))) fun _ _ => adds_bind (ih fun e he => hs e (by simp [he])) fun _ _ =>
      adds_pure _

theorem adds_orderedEntries {w : Width} {i : Nat} {es : List (List Str)}
    (hs : ∀ e ∈ es, ∀ w, Adds Q' (sub w (pyJoin ['\n'] e ++ ['\n']))) : ∀ k, Adds Q (fmtOrderedEntriesL sub w i k es) := by
  induction es with
  | nil => exact fun _ => adds_pure _
  | cons e es ih =>
    exact fun k => adds_bind (adds_entry hQ (hs e (by simp))) fun _ _ =>
      adds_bind (ih (fun e he => hs e (by simp [he])) _) fun _ _ => adds_pure _

theorem adds_section {w : Width} {i : Nat} {ty : Sec} {content : List Str}
    (hs : ∀ w text, Inner ty content text → Adds Q' (sub w text))
    (hatx : ty = .atx → ∀ l ls, content = l :: ls → startsWith (lstripBy (· == '#') (strip l)) c!" " = false →
      ∀ s : LSt, WARNING ≥ s.parent → Q s.toLogSt (.noSpace (i + 1))) :
    Adds Q (fmtSectionL sub w i ty content) := by
  cases ty with
  | atx =>
    cases content with
    | nil => exact adds_lift _
    | cons l ls =>
      exact adds_bind (adds_ite fun hb => adds_other (hatx rfl l ls rfl (by simpa using hb))) fun _ _ => adds_lift _
  | quote =>
    cases content with
    | nil => exact adds_lift _
    | cons l ls => exact adds_bind (adds_redirected (hs _ _ (.quote _)) hQ) fun _ _ => adds_pure _
  | bullet =>
    cases content with
    | nil => exact adds_lift _
    | cons l ls =>
      refine adds_bind (adds_lift _) fun es hes => adds_bind (adds_lift _) fun ds hds => ?_
      obtain ⟨_, hes⟩ := hes
      obtain ⟨_, hds⟩ := hds
      cases lstrip l with
      | nil => exact adds_lift _
      | cons m r =>
        refine adds_bind (adds_bulletEntries hQ fun d hd w => ?_) fun _ _ => adds_pure _
        obtain ⟨e, he, hed⟩ := dedentEntries_mem _ _ hds d hd
        exact hs w _ (.entry _ _ es e d (.inl rfl) hes he hed)
  | ordered =>
    cases content with
    | nil => exact adds_lift _
    | cons l ls =>
      refine adds_bind (adds_lift _) fun es hes => adds_bind (adds_lift _) fun _ _ => adds_bind (adds_lift _) fun ds hds => ?_
      obtain ⟨_, hes⟩ := hes
      obtain ⟨_, hds⟩ := hds
      refine adds_bind (adds_orderedEntries hQ (fun d hd w => ?_) _) fun _ _ => adds_pure _
      obtain ⟨e, he, hed⟩ := dedentEntries_mem _ _ hds d hd
      exact hs w _ (.entry _ _ es e d (.inr rfl) hes he hed)
  | _ => exact adds_lift _

end

theorem adds_all {Q : LogSt → Msg → Prop} {sub : Width → Str → LogM Str} {w : Width} {fs : List Fmt}
    (h : ∀ f ∈ fs, Adds Q (fmtSectionL sub w f.lineIndex f.ty f.lines)) : Adds Q (fmtAllL sub w fs) := by
  induction fs with
  | nil => exact adds_pure _
  | cons f fs ih =>
    exact adds_bind (adds_gen (h f (by simp))) fun _ _ => adds_bind (ih fun f hf => h f (by simp [hf])) fun _ _ =>
      adds_pure _

theorem adds_build {Q : LogSt → Msg → Prop} (secs : List (Sec × List Str)) (all : List (Sec × List Str))
    (hsect : ∀ (s : LSt) a b ty ls, s.info ≥ s.effective → Q s.toLogSt (.sect s.info a b ty ls))
    (hadd : ∀ (s : LSt) pre q c post, all = pre ++ (Sec.quote, q) :: (Sec.setext, c) :: post → WARNING ≥ s.effective →
      Q s.toLogSt (.added ((pre.map (·.2)).flatten.length + q.length + 1))) :
    ∀ pre last, all = pre ++ secs → (pre.getLast?).map (·.1) = last →
      Adds Q (buildFmtsL (pre.map (·.2)).flatten.length last secs) := by
  induction secs with
  | nil => exact fun _ _ _ _ => adds_pure _
  | cons x secs ih =>
    obtain ⟨ty, content⟩ := x
    intro pre last hall hlast
    refine adds_bind (adds_lift _) fun _ _ => adds_bind (adds_own fun s hs => hsect s _ _ _ _ hs) fun _ _ =>
      adds_bind (adds_ite fun hb => adds_own fun s hs => ?_) fun _ _ => adds_bind ?_ fun _ _ => ?_
    · simp only [Bool.and_eq_true, beq_iff_eq] at hb
      obtain ⟨rfl, rfl⟩ := hb
      cases hp : pre.getLast? with
      | none => rw [hp] at hlast; cases hlast
      | some p =>
        rw [hp] at hlast
        obtain ⟨pre', rfl⟩ := List.getLast?_eq_some_iff.1 hp
        obtain ⟨pty, q⟩ := p
        cases hlast
        have := hadd s pre' q content secs (by rw [hall]; simp) hs
        simpa using this
    · have := ih (pre ++ [(ty, content)]) (some ty) (by rw [hall]; simp) (by simp)
      simpa using this
    · dsimp only
      split
      · exact adds_pure _
      · exact adds_pure _

theorem hashes_iff (l : Str) : startsWith (lstripBy (· == '#') (strip l)) c!" " = false ↔ HashesNoSpace l := by
  obtain ⟨hk, hr⟩ := lstripBy_run '#' (strip l)
  constructor
  · intro h
    refine ⟨_, _, hk, hr, fun h0 => ?_⟩
    have h1 : startsWith (lstripBy (· == '#') (strip l)) c!" " = true := by
      rw [startsWith_single]
      cases hd : lstripBy (· == '#') (strip l) with
      | nil => rw [hd] at h0; cases h0
      | cons c r => rw [hd] at h0; cases h0; exact ⟨r, rfl⟩
    rw [h] at h1
    cases h1
  · rintro ⟨d, rest, h1, h2, h3⟩
    have : lstripBy (· == '#') (strip l) = rest := by rw [h1]; exact lstripBy_replicate '#' d rest h2
    rw [this, Bool.eq_false_iff]
    intro h4
    obtain ⟨r, rfl⟩ := (startsWith_single _ _).1 h4
    exact h3 rfl

/-- What the messages of a pass over `text` may be. -/
def Expected (n : Nat) (text : Str) (l : LogSt) : Msg → Prop
  | .sect level _ _ _ _ => (level = l.info ∨ level = DEBUG) ∧ level ≥ l.effective
  | .added k => WARNING ≥ l.effective ∧ ∃ m text', Within n text m text' ∧ TrueOf m text' (.added k)
  | .noSpace k => WARNING ≥ l.parent ∧ ∃ m text', Within n text m text' ∧ TrueOf m text' (.noSpace k)
  | x => Loud l x ∧ ∃ m text', Within n text (m + 1) text' ∧ ParseMsg m (splitlines text') x

theorem loud_expected {n : Nat} {text : Str} {l : LogSt} {x : Msg} (h1 : Loud l x)
    (h2 : ∃ m text', Within n text (m + 1) text' ∧ ParseMsg m (splitlines text') x) : Expected n text l x := by
  cases x with
  | found => exact ⟨h1, h2⟩
  | overIndented => exact ⟨h1, h2⟩
  | noLink => exact ⟨h1, h2⟩
  | _ => exact h1.elim

theorem getElem?_flatten {pre post : List (Sec × List Str)} {ty : Sec} {l : Str} {ls : List Str} :
    ((pre ++ (ty, l :: ls) :: post).map (·.2)).flatten[(pre.map (·.2)).flatten.length]? = some l := by
  rw [List.map_append, List.flatten_append, List.getElem?_append_right (Nat.le_refl _), Nat.sub_self]
  rfl

theorem reformatTextL_adds (n : Nat) : ∀ w text, Adds (Expected n text) (reformatTextL n w text) := by
  induction n with
  | zero => exact fun _ _ => adds_lift _
  | succ n ih =>
    intro w text
    refine adds_bind ((adds_parse n (splitlines text)).imp fun l x hx =>
      loud_expected hx.1 ⟨n, text, .here _ _, hx.2⟩) fun secs hsecs => ?_
    obtain ⟨s00, hsecs⟩ := hsecs
    have hp : parse n (splitlines text) = .ok secs := (erases_parse n (splitlines text) s00).symm.trans hsecs
    obtain ⟨hflat, hne⟩ := C08_parse_partition n _ _ hp
    have hb : Adds (Expected (n + 1) text) (buildFmtsL 0 none secs) := by
      refine adds_build secs secs (fun s _ _ _ _ hs => ⟨.inl rfl, hs⟩) (fun s pre q c post hall hs => ?_) [] none rfl rfl
      obtain ⟨l, ls, rfl⟩ := List.exists_cons_of_ne_nil (hne (Sec.setext, c) (by rw [hall]; simp))
      refine ⟨hs, _, text, .here _ _, pre, q, l, ls, post, hall ▸ hp, rfl, ?_⟩
      rw [← hflat, hall]
      have := getElem?_flatten (pre := pre ++ [(Sec.quote, q)]) (ty := .setext) (l := l) (ls := ls) (post := post)
      simpa only [List.map_append, List.flatten_append, List.length_append, List.map_cons, List.map_nil, List.flatten_cons,
        List.flatten_nil, List.append_nil, List.append_assoc, List.singleton_append, Nat.add_sub_cancel] using this
    refine adds_bind hb fun fs hfs => adds_bind (adds_all fun f hf => ?_) fun _ _ => adds_pure _
    obtain ⟨s0, hfs⟩ := hfs
    have hfs : buildFmts 0 none secs = .ok fs := (erases_build secs 0 none s0).symm.trans hfs
    have hloc := buildFmts_index secs _ _ _ hfs f hf
    refine adds_section (Q' := fun l x => ∃ text', Inner f.ty f.lines text' ∧ Expected n text' l x) ?_ ?_ ?_
    · rintro l x ⟨text', hin, hx⟩
      rcases hloc with ⟨h1, h2⟩ | ⟨pre, post, h1, h2⟩
      · rw [h1] at hin; cases hin with
        | entry _ _ _ _ _ hty => rcases hty with h | h <;> cases h
      have hmem : (f.ty, f.lines) ∈ secs := by rw [h1]; simp
      cases x with
      | sect level a b ty ls =>
        obtain ⟨h3, h4⟩ := hx
        refine ⟨.inr ?_, h4⟩
        rcases h3 with h3 | h3 <;> exact h3
      | added k =>
        obtain ⟨h3, m, t, h4, h5⟩ := hx
        exact ⟨h3, m, t, .inside n text secs _ _ m t hp hmem hin h4, h5⟩
      | noSpace k =>
        obtain ⟨h3, m, t, h4, h5⟩ := hx
        exact ⟨h3, m, t, .inside n text secs _ _ m t hp hmem hin h4, h5⟩
      | found =>
        obtain ⟨h3, m, t, h4, h5⟩ := hx
        exact ⟨h3, m, t, .inside n text secs _ _ _ t hp hmem hin h4, h5⟩
      | overIndented =>
        obtain ⟨h3, m, t, h4, h5⟩ := hx
        exact ⟨h3, m, t, .inside n text secs _ _ _ t hp hmem hin h4, h5⟩
      | noLink =>
        obtain ⟨h3, m, t, h4, h5⟩ := hx
        exact ⟨h3, m, t, .inside n text secs _ _ _ t hp hmem hin h4, h5⟩
    · intro w' text' hin s
      obtain ⟨h1, h2, h3, ms, h4, h5⟩ := ih w' text' s
      exact ⟨h1, h2, h3, ms, h4, fun x hx => ⟨text', hin, h5 x hx⟩⟩
    · intro hty l ls hcont hsw s hs
      rcases hloc with ⟨h1, h2⟩ | ⟨pre, post, h1, h2⟩
      · rw [hty] at h1; cases h1
      have hmem : (f.ty, f.lines) ∈ secs := by rw [h1]; simp
      have hlen : f.lines.length = 1 := (parse_headPred hp hmem).1 (.inl hty)
      rw [hcont] at hlen
      cases ls with
      | cons a b => simp at hlen
      | nil =>
        rw [hty, hcont] at h1
        refine ⟨hs, _, text, .here _ _, pre, l, post, h1 ▸ hp, by rw [h2]; simp, ?_, (hashes_iff l).1 hsw⟩
        rw [← hflat, h1, h2]
        simpa only [Nat.zero_add, Nat.add_sub_cancel] using getElem?_flatten (pre := pre) (ty := .atx) (l := l) (ls := []) (post := post)

/-- The kind and lines of a section message. -/
def sectOf : Msg → Option (Sec × List Str)
  | .sect _ _ _ ty ls => some (ty, ls)
  | _ => none

theorem logIf_ok (b : Bool) (level : LSt → Nat) (k : Nat) (s : LSt) :
    ∃ s', logIf b (logOwn level fun _ => .added k) s = (.ok (), s') ∧ s'.toLogSt = s.toLogSt ∧
      (s'.shown = s.shown ∨ s'.shown = s.shown ++ [.added k]) ∧
      (b = true → level s ≥ s.effective → s'.shown = s.shown ++ [.added k]) := by
  unfold logIf logOwn
  cases b
  · exact ⟨s, rfl, rfl, .inl rfl, fun h => by cases h⟩
  · by_cases h : level s ≥ s.effective
    · exact ⟨_, rfl, by simp [h], by simp [h], by simp [h]⟩
    · exact ⟨_, rfl, by simp [h], by simp [h], by simp [h]⟩

theorem buildFmtsL_shows (secs : List (Sec × List Str)) (hne : ∀ x ∈ secs, x.2 ≠ []) : ∀ i last s fs s',
    buildFmtsL i last secs s = (.ok fs, s') → s'.toLogSt = s.toLogSt ∧ ∃ ms, s'.shown = s.shown ++ ms ∧
      (s.info ≥ s.effective →
        Reports s.info (i + 1) (ms.filter isSect) (secs.map (·.2)).flatten ∧ ms.filterMap sectOf = secs) ∧
      (s.info < s.effective → ms.filter isSect = []) := by
  induction secs with
  | nil =>
    intro i last s fs s' h
    cases h
    exact ⟨rfl, [], (List.append_nil _).symm, fun _ => ⟨.nil _, rfl⟩, fun _ => rfl⟩
  | cons x secs ih =>
    obtain ⟨ty, content⟩ := x
    intro i last s fs s' h
    obtain ⟨u, s1, h1, k1⟩ := ran_bind h
    clear h
    have hs1 : s1 = s := by
      have := congrArg Prod.snd h1
      exact this.symm
    subst hs1
    obtain ⟨u2, s2, h2, k2⟩ := ran_bind k1
    obtain ⟨u3, s3, h3, k3⟩ := ran_bind k2
    obtain ⟨fs', s4, h4, h⟩ := ran_bind k3
    obtain ⟨s3', h5, h6, h7, _⟩ := logIf_ok (ty == .setext && last == some .quote) (fun _ => WARNING) (i + 1) s2
    rw [h5] at h3
    cases h3
    have hs' : s' = s4 := by
      dsimp only at h
      split at h <;> cases h <;> rfl
    subst hs'
    obtain ⟨g1, ms, g2, g3, g4⟩ := ih (fun x hx => hne x (by simp [hx])) _ _ _ _ _ h4
    obtain ⟨l, ls, hc⟩ := List.exists_cons_of_ne_nil (hne (ty, content) (by simp))
    simp only at hc
    subst hc
    have hlev : s2.toLogSt = s1.toLogSt ∧ s2.shown = s1.shown ++
        (if s1.info ≥ s1.effective then [.sect s1.info (i + 1) (i + (l :: ls).length) ty (l :: ls)] else []) := by
      have := congrArg Prod.snd h2
      simp only [logOwn] at this
      rw [← this]
      by_cases hi : s1.info ≥ s1.effective
      · simp [hi]
      · simp [hi]
    obtain ⟨hl2, hsh2⟩ := hlev
    have hl3 : s3.toLogSt = s1.toLogSt := h6.trans hl2
    have hw : ∃ ws, s3.shown = s2.shown ++ ws ∧ ws.filter isSect = [] ∧ ws.filterMap sectOf = [] := by
      rcases h7 with h7 | h7
      · exact ⟨[], by simp [h7], rfl, rfl⟩
      · exact ⟨[.added (i + 1)], h7, rfl, rfl⟩
    obtain ⟨ws, hw1, hw2, hw3⟩ := hw
    refine ⟨g1.trans hl3, _, by rw [g2, hw1, hsh2, List.append_assoc, List.append_assoc], ?_, ?_⟩
    · intro hi
      rw [hl3] at g3
      obtain ⟨g5, g6⟩ := g3 hi
      rw [if_pos hi]
      constructor
      · have e : i + 1 + ls.length = i + (l :: ls).length := by simp; omega
        rw [List.filter_append, List.filter_append, hw2]
        simp only [List.filter_cons, isSect, if_true, List.filter_nil, List.nil_append, List.map_cons, List.flatten_cons,
          List.singleton_append]
        rw [← e]
        refine .cons (i + 1) ty l ls _ _ ?_
        rw [e]
        exact g5
      · simp [List.filterMap_append, hw3, g6, sectOf]
    · intro hi
      rw [hl3] at g4
      have hi' : ¬ s1.info ≥ s1.effective := by omega
      simp only [if_neg hi', List.nil_append, List.filter_append, hw2, g4 hi]

theorem parseL_ran {n : Nat} {lines : List Str} {secs : List (Sec × List Str)} {s s' : LSt}
    (h : parseL n lines s = (.ok secs, s')) : parse n lines = .ok secs ∧ s'.toLogSt = s.toLogSt ∧
      ∃ ms, s'.shown = s.shown ++ ms ∧ ms.filter isSect = [] ∧ ms.filterMap sectOf = [] := by
  refine ⟨(erases_parse n lines s).symm.trans (congrArg Prod.fst h), (adds_parse n lines).levels h, ?_⟩
  obtain ⟨_, _, _, ms, h1, h2⟩ := adds_parse n lines s
  rw [h] at h1
  refine ⟨ms, h1, ?_, ?_⟩
  · rw [List.filter_eq_nil_iff]
    intro x hx
    have := (h2 x hx).1
    cases x with
    | sect => exact this.elim
    | _ => simp [isSect]
  · rw [List.filterMap_eq_nil_iff]
    intro x hx
    have := (h2 x hx).1
    cases x with
    | sect => exact this.elim
    | _ => rfl

/-- A successful pass reports, at the current level of `logging.INFO`, the sections that the document is divided into:
consecutive ranges of lines that leave no line out. Further section messages, from documents inside block quotes and
lists, are only at debug level. If the level is too high, no sections are reported. The logging state is as before. -/
theorem C67_pass (n : Nat) (w : Width) (text out : Str) (s s' : LSt)
    (h : reformatTextL (n + 1) w text s = (.ok out, s')) :
    s'.toLogSt = s.toLogSt ∧ ∃ secs outer nested, parse n (splitlines text) = .ok secs ∧
      s'.shown = s.shown ++ (outer ++ nested) ∧
      (s.info ≥ s.effective → Reports s.info 1 (outer.filter isSect) (splitlines text) ∧
        outer.filterMap sectOf = secs) ∧
      (s.info < s.effective → outer.filter isSect = []) ∧
      ∀ level a b ty ls, .sect level a b ty ls ∈ nested → level = DEBUG ∧ DEBUG ≥ s.effective := by
  refine ⟨(reformatTextL_adds _ w text).levels h, ?_⟩
  obtain ⟨secs, s1, h1, k1⟩ := ran_bind h
  clear h
  obtain ⟨hp, hl0, found, g0, hfound⟩ := parseL_ran h1
  obtain ⟨hflat, hne⟩ := C08_parse_partition n _ _ hp
  obtain ⟨fs, s2, h2, k2⟩ := ran_bind k1
  obtain ⟨ts, s3, h3, h⟩ := ran_bind k2
  have hs' : s' = s3 := by cases h; rfl
  subst hs'
  obtain ⟨hl, outer, g1, g2, g3⟩ := buildFmtsL_shows secs hne _ _ _ _ _ h2
  rw [hflat] at g2
  have ha : Adds (fun l x => ∀ level a b ty ls, x = .sect level a b ty ls → level = DEBUG ∧ DEBUG ≥ l.effective)
      (fmtAllL (reformatTextL n) w fs) := by
    refine adds_all fun f _ => adds_section (Q' := fun l x => ∃ text', Expected n text' l x) ?_
      (fun w' text' _ s => ?_) (fun _ _ _ _ _ s _ _ _ _ _ _ h => by cases h)
    · rintro l x ⟨text', hx⟩ level a b ty ls rfl
      obtain ⟨h5, h6⟩ := hx
      have h5 : level = DEBUG := by rcases h5 with h5 | h5 <;> exact h5
      exact ⟨h5, h5 ▸ h6⟩
    · obtain ⟨h1, h2, h3, ms, h4, h5⟩ := reformatTextL_adds n w' text' s
      exact ⟨h1, h2, h3, ms, h4, fun x hx => ⟨text', h5 x hx⟩⟩
  obtain ⟨_, _, _, nested, g4, g5⟩ := ha s2
  rw [h3] at g4
  simp only at g4
  refine ⟨secs, found ++ outer, nested, hp, by rw [g4, g1, g0, List.append_assoc, List.append_assoc, List.append_assoc],
    ?_, ?_, fun level a b ty ls hx => ?_⟩
  · rw [List.filter_append, List.filterMap_append, hfound.1, hfound.2]
    rw [hl0] at g2
    exact g2
  · rw [List.filter_append, hfound.1]
    rw [hl0] at g3
    exact g3
  · have := g5 _ hx level a b ty ls rfl
    rwa [hl, hl0] at this

/-! ## The whole run -/

/-- `logging.INFO` has its value, and the level of the logger is above `DEBUG`, as without `-v`. -/
structure Usual (s : LSt) : Prop where
  info : s.info = INFO
  level : s.effective > DEBUG

theorem reformatMarkdownTextL_ran {n : Nat} {w : Width} {text out : Str} {s s' : LSt}
    (h : reformatMarkdownTextL n w text s = (.ok out, s')) :
    ∃ t s1 s2, reformatTextL n w text s = (.ok t, s1) ∧
      reformatTextL n w t (if s1.effective > DEBUG then { s1 with own := ERROR } else s1) = (.ok t, s2) ∧
      s' = { s2 with own := s1.effective } := by
  obtain ⟨t, s1, h1, k1⟩ := ran_bind h
  obtain ⟨level, s1', h2, k2⟩ := ran_bind k1
  cases h2
  obtain ⟨u, s1'', h3, k3⟩ := ran_bind k2
  obtain ⟨t2, s2, h4, k4⟩ := ran_bind k3
  obtain ⟨u2, s3, h5, k5⟩ := ran_bind k4
  cases h5
  have e : s1'' = if s1.effective > DEBUG then { s1 with own := ERROR } else s1 := by
    simp only [logIf, decide_eq_true_eq] at h3
    by_cases hd : s1.effective > DEBUG
    · rw [if_pos hd] at h3 ⊢; cases h3; rfl
    · rw [if_neg hd] at h3 ⊢; cases h3; rfl
  subst e
  by_cases he : (t2 != t) = true
  · rw [if_pos he] at k5; cases k5
  · rw [if_neg he] at k5
    have : t2 = t := by simpa using he
    subst this
    cases k5
    exact ⟨_, _, _, h1, h4, rfl⟩

/-- At level `INFO` a successful run reports each line of the input exactly once, in order, as consecutive ranges with
their kinds; at a higher level no sections are reported. Block quotes and lists are not reported from the inside, and the
second pass reports nothing but headings without a space and what section detection has to say. The levels stay as they
were. -/
theorem C67_reports (n : Nat) (w : Width) (text out : Str) (s s' : LSt) (hu : Usual s)
    (h : reformatMarkdownTextL n w text s = (.ok out, s')) :
    ∃ first second, s'.shown = s.shown ++ (first ++ second) ∧
      (s.effective ≤ INFO → Reports INFO 1 (first.filter isSect) (splitlines text)) ∧
      (s.effective > INFO → first.filter isSect = []) ∧
      (∀ x ∈ second, (∃ k, x = .noSpace k) ∨ Loud s.toLogSt x) ∧
      s'.info = s.info ∧ s'.parent = s.parent ∧ s'.effective = s.effective := by
  obtain ⟨t, s1, s2, h1, h2, rfl⟩ := reformatMarkdownTextL_ran h
  cases n with
  | zero => cases h1
  | succ n =>
    obtain ⟨hl1, secs, outer, nested, g1, g2, g3, g4, g5⟩ := C67_pass n w text t s s1 h1
    have hlev := hu.level
    have hdeb : DEBUG = 10 := rfl
    have hinf : INFO = 20 := rfl
    rw [if_pos (show s1.effective > DEBUG by rw [hl1]; exact hlev)] at h2
    have ha := (reformatTextL_adds (n + 1) w t).levels h2
    obtain ⟨_, _, _, second, g6, g7⟩ := reformatTextL_adds (n + 1) w t { s1 with own := ERROR }
    rw [h2] at g6
    simp only at g6
    have hn : nested.filter isSect = [] := by
      rw [List.filter_eq_nil_iff]
      intro x hx
      cases x with
      | sect level a b ty ls => exact absurd (g5 level a b ty ls hx).2 (by omega)
      | _ => simp [isSect]
    refine ⟨outer ++ nested, second, ?_, ?_, ?_, ?_, ?_, ?_, ?_⟩
    · change s2.shown = _
      rw [g6, g2, List.append_assoc]
    · intro hle
      rw [List.filter_append, hn, List.append_nil]
      rw [hu.info] at g3
      exact (g3 hle).1
    · intro hgt
      rw [List.filter_append, hn, List.append_nil]
      rw [hu.info] at g4
      exact g4 hgt
    · intro x hx
      have := g7 x hx
      have heff : ({ s1 with own := ERROR } : LSt).effective = 40 := rfl
      cases x with
      | sect level a b ty ls =>
        obtain ⟨h5, h6⟩ := this
        have hi : s1.info = 20 := by rw [hl1]; exact hu.info
        have h6 : level ≥ 40 := h6
        rcases h5 with h5 | h5
        · have h5 : level = s1.info := h5
          omega
        · omega
      | added k =>
        have h6 : WARNING ≥ 40 := this.1
        exact absurd h6 (by decide)
      | noSpace k => exact .inl ⟨k, rfl⟩
      | _ =>
        refine .inr ?_
        have h7 := this.1
        simp only [Loud] at h7 ⊢
        rw [hl1] at h7
        exact h7
    · change s2.info = s.info
      have : s2.info = s1.info := by have h0 := congrArg LogSt.info ha; exact h0
      rw [this, hl1]
    · change s2.parent = s.parent
      have : s2.parent = s1.parent := by have h0 := congrArg LogSt.parent ha; exact h0
      rw [this, hl1]
    · have e1 : s1.effective = s.effective := by rw [hl1]
      have : (LogSt.mk s2.info s1.effective s2.parent).effective = s.effective := by
        rw [e1]
        have : ¬ (s.effective == 0) = true := by rw [beq_iff_eq]; omega
        exact if_neg this
      exact this

/-! ## Warnings -/

/-- Every warning is true of the input. False: see `C68_refuted`. -/
def C68_statement : Prop := ∀ (n : Nat) (w : Width) (text out : Str) (s s' : LSt) (x : Msg),
  s.shown = [] → Usual s → reformatMarkdownTextL n w text s = (.ok out, s') → x ∈ s'.shown → isWarning x = true →
  TrueOf n text x

/-- Every warning of the first pass is true of the input or of a document inside one of its block quotes and lists; every
warning of the second pass is true of the text made by the first pass or of a document inside it. -/
theorem C68_true_partial (n : Nat) (w : Width) (text out : Str) (s s' : LSt)
    (h : reformatMarkdownTextL n w text s = (.ok out, s')) :
    ∃ t first second, reformatText n w text = .ok t ∧ s'.shown = s.shown ++ (first ++ second) ∧
      (∀ x ∈ first, isWarning x = true → ∃ m text', Within n text m text' ∧ TrueOf m text' x) ∧
      (∀ x ∈ second, isWarning x = true → ∃ m text', Within n t m text' ∧ TrueOf m text' x) := by
  obtain ⟨t, s1, s2, h1, h2, rfl⟩ := reformatMarkdownTextL_ran h
  have hx : ∀ text l x, Expected n text l x → isWarning x = true → ∃ m text', Within n text m text' ∧ TrueOf m text' x := by
    intro text l x hx hs
    cases x with
    | added k => exact hx.2
    | noSpace k => exact hx.2
    | _ => cases hs
  obtain ⟨_, _, _, first, g1, g2⟩ := reformatTextL_adds n w text s
  obtain ⟨_, _, _, second, g3, g4⟩ := reformatTextL_adds n w t (if s1.effective > DEBUG then { s1 with own := ERROR } else s1)
  rw [h1] at g1
  rw [h2] at g3
  refine ⟨t, first, second, ?_, ?_, fun x hm => hx _ _ x (g2 x hm), fun x hm => hx _ _ x (g4 x hm)⟩
  · rw [← C67_same_result n w text s, h1]
  · change s2.shown = _
    simp only at g1 g3
    rw [g3, ← List.append_assoc, ← g1]
    split <;> rfl

/-- Everything of the run from `s` to `s'` that happened from `s1` to `s2`. -/
theorem fmtAllL_ran {sub : Width → Str → LogM Str} {w : Width} {Q : LogSt → Msg → Prop} (fs : List Fmt)
    (ha : ∀ f ∈ fs, Adds Q (fmtSectionL sub w f.lineIndex f.ty f.lines)) : ∀ {s s' : LSt} {ts : List Str},
    fmtAllL sub w fs s = (.ok ts, s') → ∀ f ∈ fs, ∃ s1 s2 t,
      fmtSectionL sub w f.lineIndex f.ty f.lines s1 = (.ok t, s2) ∧ s1.toLogSt = s.toLogSt ∧ s2.shown ⊆ s'.shown := by
  induction fs with
  | nil => intro s s' ts _ f hf; cases hf
  | cons g fs ih =>
    intro s s' ts h f hf
    obtain ⟨t, s1, h1, k1⟩ := ran_bind h
    obtain ⟨ts', s2, h2, k2⟩ := ran_bind k1
    cases k2
    have hrest : Adds Q (fmtAllL sub w fs) := adds_all fun f hf => ha f (by simp [hf])
    rcases List.mem_cons.1 hf with rfl | hf
    · obtain ⟨_, _, _, ms, g1, _⟩ := hrest s1
      rw [h2] at g1
      simp only at g1
      simp only [throughGen] at h1
      have hr : ∃ t, fmtSectionL sub w f.lineIndex f.ty f.lines s = (.ok t, s1) := by
        have e1 := congrArg Prod.fst h1
        have e2 := congrArg Prod.snd h1
        simp only at e1 e2
        cases hm : fmtSectionL sub w f.lineIndex f.ty f.lines s with
        | mk r s1' =>
          rw [hm] at e1 e2
          simp only at e1 e2
          subst e2
          cases r with
          | ok t => exact ⟨t, rfl⟩
          | error e => cases e1
      obtain ⟨t', hr⟩ := hr
      exact ⟨s, s1, t', hr, rfl, by rw [g1]; exact List.subset_append_left _ _⟩
    · have hl := (adds_gen (ha g (by simp))).levels h1
      obtain ⟨s3, s4, t', g1, g2, g3⟩ := ih (fun f hf => ha f (by simp [hf])) h2 f hf
      exact ⟨s3, s4, t', g1, g2.trans hl, g3⟩

section
variable {sub : Width → Str → LogM Str} (hs : ∀ w t, ∃ Q, Adds Q (sub w t))
include hs

theorem fmtEntryL_ran {w : Width} {i : Nat} {mk : Str} {e : List Str} {s s' : LSt} {t : Str}
    (h : fmtEntryL sub w i mk e s = (.ok t, s')) :
    s'.toLogSt = s.toLogSt ∧ s.shown ⊆ s'.shown ∧ ∃ w' s1 s2 t,
      sub w' (pyJoin ['\n'] e ++ ['\n']) s1 = (.ok t, s2) ∧ s1.own = s.own ∧ s1.parent = s.parent ∧
      s2.shown ⊆ s'.shown := by
  obtain ⟨t', s1, h1, k1⟩ := ran_bind h
  cases k1
  obtain ⟨s2, h2, h3⟩ := redirected_ran h1
  obtain ⟨Q, hQ⟩ := hs (w.sub i) (pyJoin ['\n'] e ++ ['\n'])
  have ha : Adds (fun _ _ => True) (redirected (sub (w.sub i) (pyJoin ['\n'] e ++ ['\n']))) :=
    adds_redirected hQ fun _ _ _ => trivial
  obtain ⟨_, _, _, ms, g1, _⟩ := ha s
  have hh : redirected (sub (w.sub i) (pyJoin ['\n'] e ++ ['\n'])) s = (.ok t', s') := h1
  rw [hh] at g1
  exact ⟨ha.levels h1, by rw [g1]; exact List.subset_append_left _ _, _, _, s2, t', h2, rfl, rfl, by rw [h3]; simp⟩

theorem fmtBulletEntriesL_ran {w : Width} {mk : Str} (es : List (List Str)) : ∀ {s s' : LSt} {ts : List Str},
    fmtBulletEntriesL sub w mk es s = (.ok ts, s') → s.shown ⊆ s'.shown ∧ ∀ e ∈ es, ∃ w' s1 s2 t,
      sub w' (pyJoin ['\n'] e ++ ['\n']) s1 = (.ok t, s2) ∧ s1.own = s.own ∧ s1.parent = s.parent ∧
      s2.shown ⊆ s'.shown := by
  induction es with
  | nil => intro s s' ts h; cases h; exact ⟨by simp, by simp⟩
  | cons e es ih =>
    intro s s' ts h
    obtain ⟨t, s1, h1, k1⟩ := ran_bind h
    obtain ⟨ts', s2, h2, k2⟩ := ran_bind k1
    cases k2
    obtain ⟨g1, g2, w', a, b, t', g3, g4, g5, g6⟩ := fmtEntryL_ran hs h1
    obtain ⟨g7, g8⟩ := ih h2
    refine ⟨g2.trans g7, fun x hx => ?_⟩
    rcases List.mem_cons.1 hx with rfl | hx
    · exact ⟨w', a, b, t', g3, g4, g5, g6.trans g7⟩
    · obtain ⟨w', a, b, t', q1, q2, q3, q4⟩ := g8 x hx
      exact ⟨w', a, b, t', q1, by rw [q2, g1], by rw [q3, g1], q4⟩

theorem fmtOrderedEntriesL_ran {w : Width} {i : Nat} (es : List (List Str)) : ∀ {k : Nat} {s s' : LSt} {ts : List Str},
    fmtOrderedEntriesL sub w i k es s = (.ok ts, s') → s.shown ⊆ s'.shown ∧ ∀ e ∈ es, ∃ w' s1 s2 t,
      sub w' (pyJoin ['\n'] e ++ ['\n']) s1 = (.ok t, s2) ∧ s1.own = s.own ∧ s1.parent = s.parent ∧
      s2.shown ⊆ s'.shown := by
  induction es with
  | nil => intro k s s' ts h; cases h; exact ⟨by simp, by simp⟩
  | cons e es ih =>
    intro k s s' ts h
    obtain ⟨t, s1, h1, k1⟩ := ran_bind h
    obtain ⟨ts', s2, h2, k2⟩ := ran_bind k1
    cases k2
    obtain ⟨g1, g2, w', a, b, t', g3, g4, g5, g6⟩ := fmtEntryL_ran hs h1
    obtain ⟨g7, g8⟩ := ih h2
    refine ⟨g2.trans g7, fun x hx => ?_⟩
    rcases List.mem_cons.1 hx with rfl | hx
    · exact ⟨w', a, b, t', g3, g4, g5, g6.trans g7⟩
    · obtain ⟨w', a, b, t', q1, q2, q3, q4⟩ := g8 x hx
      exact ⟨w', a, b, t', q1, by rw [q2, g1], by rw [q3, g1], q4⟩

end

theorem dedentEntries_each (es : List (List Str)) : ∀ ds, dedentEntries es = .ok ds → ∀ e ∈ es, ∀ d,
    dedentEntry e = .ok d → d ∈ ds := by
  induction es with
  | nil => intro ds _ e he; cases he
  | cons x es ih =>
    intro ds h e he d hd
    obtain ⟨d', ds', h1, h2, rfl⟩ := mapM_cons_ok h
    rcases List.mem_cons.1 he with rfl | he
    · rw [h1] at hd; cases hd; simp
    · exact List.mem_cons_of_mem _ (ih ds' h2 e he d hd)

/-- Formatting a section formats each document inside it. -/
theorem fmtSectionL_ran {sub : Width → Str → LogM Str} (hs : ∀ w t, ∃ Q, Adds Q (sub w t)) {w : Width} {i : Nat}
    {ty : Sec} {content : List Str} {s s' : LSt} {t text : Str} (hin : Inner ty content text)
    (h : fmtSectionL sub w i ty content s = (.ok t, s')) : ∃ w' s1 s2 t, sub w' text s1 = (.ok t, s2) ∧
      s1.own = s.own ∧ s1.parent = s.parent ∧ s2.shown ⊆ s'.shown := by
  cases hin with
  | quote =>
    cases content with
    | nil => cases h
    | cons l ls =>
      obtain ⟨t', s1, h1, k1⟩ := ran_bind h
      cases k1
      obtain ⟨s2, h2, h3⟩ := redirected_ran h1
      exact ⟨_, _, s2, t', h2, rfl, rfl, by rw [h3]; simp⟩
  | entry _ _ es e d hty hes he hd =>
    rcases hty with rfl | rfl
    · cases content with
      | nil => cases h
      | cons l ls =>
        obtain ⟨es', h1, k1⟩ := ran_lift_bind h
        rw [hes] at h1
        cases h1
        obtain ⟨ds, h2, k2⟩ := ran_lift_bind k1
        cases hl : lstrip l with
        | nil => rw [hl] at k2; cases k2
        | cons mk r =>
          rw [hl] at k2
          obtain ⟨ts, s1, h3, k3⟩ := ran_bind k2
          cases k3
          exact (fmtBulletEntriesL_ran hs _ h3).2 d (dedentEntries_each _ _ h2 e he d hd)
    · cases content with
      | nil => cases h
      | cons l ls =>
        obtain ⟨es', h1, k1⟩ := ran_lift_bind h
        rw [hes] at h1
        cases h1
        obtain ⟨first, _, k2⟩ := ran_lift_bind k1
        obtain ⟨ds, h2, k3⟩ := ran_lift_bind k2
        obtain ⟨ts, s1, h3, k4⟩ := ran_bind k3
        cases k4
        exact (fmtOrderedEntriesL_ran hs _ h3).2 d (dedentEntries_each _ _ h2 e he d hd)

/-- One step of building the formatters. -/
theorem buildFmtsL_step {ty : Sec} {content : List Str} {secs : List (Sec × List Str)} {i : Nat} {last : Option Sec}
    {s s' : LSt} {fs : List Fmt} (h : buildFmtsL i last ((ty, content) :: secs) s = (.ok fs, s')) :
    ∃ s1 fs', buildFmtsL (i + content.length) (some ty) secs s1 = (.ok fs', s') ∧ s1.toLogSt = s.toLogSt ∧
      s.shown ⊆ s1.shown ∧
      (ty = .setext → last = some .quote → WARNING ≥ s.effective → .added (i + 1) ∈ s1.shown) := by
  obtain ⟨u, h1, k1⟩ := ran_lift_bind h
  obtain ⟨u2, s2, h2, k2⟩ := ran_bind k1
  obtain ⟨u3, s3, h3, k3⟩ := ran_bind k2
  obtain ⟨fs', s4, h4, k4⟩ := ran_bind k3
  obtain ⟨s3', h5, h6, h7, h8⟩ := logIf_ok (ty == .setext && last == some .quote) (fun _ => WARNING) (i + 1) s2
  rw [h5] at h3
  cases h3
  have hs' : s' = s4 := by
    dsimp only at k4
    split at k4 <;> cases k4 <;> rfl
  subst hs'
  have hlev : s2.toLogSt = s.toLogSt ∧ s.shown ⊆ s2.shown := by
    have := congrArg Prod.snd h2
    simp only [logOwn] at this
    rw [← this]
    split
    · exact ⟨rfl, List.subset_append_left _ _⟩
    · exact ⟨rfl, fun _ h => h⟩
  obtain ⟨hl2, hsh2⟩ := hlev
  refine ⟨s3, fs', h4, h6.trans hl2, ?_, ?_⟩
  · rcases h7 with h7 | h7 <;> rw [h7]
    · exact hsh2
    · exact hsh2.trans (List.subset_append_left _ _)
  · rintro rfl rfl hw
    rw [h8 rfl (by rw [hl2]; exact hw)]
    simp

theorem buildFmtsL_mono (secs : List (Sec × List Str)) : ∀ {i : Nat} {last : Option Sec} {s s' : LSt} {fs : List Fmt},
    buildFmtsL i last secs s = (.ok fs, s') → s'.toLogSt = s.toLogSt ∧ s.shown ⊆ s'.shown := by
  induction secs with
  | nil => intro i last s s' fs h; cases h; exact ⟨rfl, fun _ h => h⟩
  | cons x secs ih =>
    intro i last s s' fs h
    obtain ⟨s1, fs', h1, h2, h3, _⟩ := buildFmtsL_step h
    obtain ⟨h4, h5⟩ := ih h1
    exact ⟨h4.trans h2, h3.trans h5⟩

theorem buildFmtsL_added (pre : List (Sec × List Str)) {q c : List Str} {post : List (Sec × List Str)} :
    ∀ {i : Nat} {last : Option Sec} {s s' : LSt} {fs : List Fmt},
    buildFmtsL i last (pre ++ (Sec.quote, q) :: (Sec.setext, c) :: post) s = (.ok fs, s') → WARNING ≥ s.effective →
    .added (i + (pre.map (·.2)).flatten.length + q.length + 1) ∈ s'.shown := by
  induction pre with
  | nil =>
    intro i last s s' fs h hw
    obtain ⟨s1, fs1, h1, h2, _, _⟩ := buildFmtsL_step h
    obtain ⟨s2, fs2, h3, _, _, h4⟩ := buildFmtsL_step h1
    exact (buildFmtsL_mono _ h3).2 (h4 rfl rfl (by rw [h2]; exact hw))
  | cons x pre ih =>
    obtain ⟨ty, content⟩ := x
    intro i last s s' fs h hw
    obtain ⟨s1, fs1, h1, h2, _, _⟩ := buildFmtsL_step h
    have := ih h1 (by rw [h2]; exact hw)
    simpa [Nat.add_assoc] using this

theorem buildFmts_has (pre : List (Sec × List Str)) {x : Sec × List Str} {post : List (Sec × List Str)} :
    ∀ {i : Nat} {last : Option Sec} {fs : List Fmt}, buildFmts i last (pre ++ x :: post) = .ok fs →
      { lineIndex := i + (pre.map (·.2)).flatten.length, ty := x.1, lines := x.2 } ∈ fs := by
  induction pre with
  | nil =>
    obtain ⟨ty, content⟩ := x
    intro i last fs h
    simp only [List.nil_append, buildFmts, bind, Except.bind] at h
    split at h
    · cases h
    · split at h
      · cases h
      · split at h <;> cases h <;> simp
  | cons y pre ih =>
    obtain ⟨ty, content⟩ := y
    intro i last fs h
    simp only [List.cons_append, buildFmts, bind, Except.bind] at h
    split at h
    · cases h
    · split at h
      · cases h
      · rename_i fs' h1
        have := ih h1
        rw [Nat.add_assoc] at this
        rw [List.map_cons, List.flatten_cons, List.length_append]
        split at h <;> cases h
        · exact List.mem_cons_of_mem _ (List.mem_cons_of_mem _ this)
        · exact List.mem_cons_of_mem _ this

/-- The level at which the logger of the warning shows warnings. -/
def Audible (l : LogSt) : Msg → Prop
  | .added _ => WARNING ≥ l.effective
  | .noSpace _ => WARNING ≥ l.parent
  | _ => False

/-- The parts of a successful pass. -/
theorem reformatTextL_ran {n : Nat} {w : Width} {text out : Str} {s s' : LSt}
    (h : reformatTextL (n + 1) w text s = (.ok out, s')) : ∃ secs fs ts s0 s1, parse n (splitlines text) = .ok secs ∧
      parseL n (splitlines text) s = (.ok secs, s0) ∧ s0.toLogSt = s.toLogSt ∧
      buildFmts 0 none secs = .ok fs ∧ buildFmtsL 0 none secs s0 = (.ok fs, s1) ∧
      fmtAllL (reformatTextL n) w fs s1 = (.ok ts, s') := by
  obtain ⟨secs, s0, h1, k1⟩ := ran_bind h
  obtain ⟨fs, s1, h2, k2⟩ := ran_bind k1
  obtain ⟨ts, s2, h3, k3⟩ := ran_bind k2
  cases k3
  obtain ⟨hp, hl, _⟩ := parseL_ran h1
  refine ⟨secs, fs, ts, s0, s1, hp, h1, hl, ?_, h2, h3⟩
  rw [← erases_build secs 0 none s0, h2]

theorem fmtSectionL_adds (n : Nat) (w : Width) (f : Fmt) :
    Adds (fun _ _ => True) (fmtSectionL (reformatTextL n) w f.lineIndex f.ty f.lines) :=
  adds_section (Q' := fun _ _ => True) (fun _ _ _ => trivial)
    (fun w t _ s => by
      obtain ⟨h1, h2, h3, ms, h4, _⟩ := reformatTextL_adds n w t s
      exact ⟨h1, h2, h3, ms, h4, fun _ _ => trivial⟩)
    (fun _ _ _ _ _ _ _ => trivial)

/-- Nothing is passed over: when a pass succeeds, every heading without a space and every setext heading behind a block
quote, in the document and in the documents inside it, has its warning. -/
theorem C68_complete {n m : Nat} {text text' : Str} (hw : Within n text m text') : ∀ (w : Width) (out : Str) (s s' : LSt)
    (x : Msg), reformatTextL n w text s = (.ok out, s') → TrueOf m text' x → Audible s.toLogSt x → x ∈ s'.shown := by
  induction hw with
  | here n text =>
    intro w out s s' x h ht ha
    cases n with
    | zero => cases h
    | succ n =>
      obtain ⟨secs, fs, ts, s0, s1, h1, _, hl0, h2, h3, h4⟩ := reformatTextL_ran h
      have hl := (buildFmtsL_mono _ h3).1.trans hl0
      cases x with
      | added k =>
        obtain ⟨pre, q, l, ls, post, g1, rfl, g3⟩ := ht
        rw [h1] at g1
        cases g1
        obtain ⟨_, _, _, ms, g4, _⟩ := adds_all (fs := fs) (fun f _ => fmtSectionL_adds n w f) s1
        rw [h4] at g4
        simp only at g4
        rw [g4]
        refine List.mem_append_left _ ?_
        simpa using buildFmtsL_added _ h3 (by rw [hl0]; exact ha)
      | noSpace k =>
        obtain ⟨pre, l, post, g1, rfl, g3, g4⟩ := ht
        rw [h1] at g1
        cases g1
        obtain ⟨a, b, t, g5, g6, g7⟩ := fmtAllL_ran fs (fun f _ => fmtSectionL_adds n w f) h4 _ (buildFmts_has _ h2)
        refine g7 ?_
        obtain ⟨u, c, g8, k1⟩ := ran_bind g5
        cases k1
        have hc : startsWith (lstripBy (· == '#') (strip l)) c!" " = false := (hashes_iff l).2 g4
        have hp : WARNING ≥ a.parent := by rw [g6, hl]; exact ha
        have := congrArg Prod.snd g8
        simp only [hc, logIf, Bool.not_false, if_true, logOther, hp] at this
        rw [← this]
        simp
      | _ => exact ha.elim
  | inside n text secs sec text1 m text' hp hs hin _ ih =>
    intro w out s s' x h ht ha
    obtain ⟨secs', fs, ts, s0, s1, h1, _, hl0, h2, h3, h4⟩ := reformatTextL_ran h
    rw [hp] at h1
    cases h1
    have hl := (buildFmtsL_mono _ h3).1.trans hl0
    obtain ⟨_, f, hf, hf1, hf2⟩ := buildFmts_each _ _ _ _ h2 sec hs
    obtain ⟨a, b, t, g5, g6, g7⟩ := fmtAllL_ran fs (fun f _ => fmtSectionL_adds n w f) h4 f hf
    rw [hf1, hf2] at g5
    obtain ⟨w', c, d, t', g8, g9, g10, g11⟩ := fmtSectionL_ran (fun w t => ⟨_, reformatTextL_adds n w t⟩) hin g5
    refine g7 (g11 (ih w' t' c d x g8 ht ?_))
    have e1 : c.own = s.own := by rw [g9, g6, hl]
    have e2 : c.parent = s.parent := by rw [g10, g6, hl]
    cases x with
    | added k =>
      have ha : WARNING ≥ s.effective := ha
      change WARNING ≥ c.effective
      unfold LogSt.effective at ha ⊢
      rwa [e1, e2]
    | noSpace k =>
      change WARNING ≥ c.parent
      rw [e2]
      exact ha
    | _ => exact ha.elim

/-- A heading is written with a space, so it is warned about again, by the second pass, only if it has no text. -/
theorem C68_again (sub : Width → Str → Except Err Str) (w : Width) (i : Nat) (l out : Str) (hl : isAtx l = true)
    (h : fmtSection sub w i .atx [l] = .ok out) : HashesNoSpace out ↔ ∃ k, out = List.replicate k '#' ++ c!" " := by
  obtain ⟨ws, k, text, _, _, _, hk, _, h1⟩ := C12_atx_normal_form sub w i l hl
  rw [h1] at h
  cases h
  rw [← hashes_iff]
  obtain ⟨j, rfl⟩ : ∃ j, k = j + 1 := ⟨k - 1, by omega⟩
  by_cases ht : strip text = []
  · have e : strip (atxLine (j + 1) []) = List.replicate (j + 1) '#' := by
      unfold atxLine
      have := strip_pad [] (List.replicate (j + 1) '#') c!" " (by simp) (by intro c hc; rw [List.mem_singleton.1 hc]; decide)
      rw [List.nil_append, strip_noWs (List.replicate (j + 1) '#') (fun c hc => (List.eq_of_mem_replicate hc) ▸ (by decide))] at this
      exact this
    rw [ht, e]
    have e2 := lstripBy_replicate '#' (j + 1) [] (by simp)
    rw [List.append_nil] at e2
    rw [e2]
    exact ⟨fun _ => ⟨j + 1, rfl⟩, fun _ => rfl⟩
  · have e : strip (atxLine (j + 1) (strip text)) = atxLine (j + 1) (strip text) := by
      refine strip_eq_self_of _ ?_ ?_
      · intro c r hc; cases hc; decide
      · intro r c hc
        rcases strip_last text with h0 | ⟨r', c', h0, hc'⟩
        · exact absurd h0 ht
        · have := congrArg List.getLast? hc
          rw [h0] at this
          simp only [atxLine] at this
          rw [← List.cons_append, ← List.append_assoc, List.getLast?_concat, List.getLast?_concat] at this
          cases this
          exact hc'
    rw [e, atxLine, lstripBy_replicate '#' (j + 1) _ (by simp)]
    constructor
    · intro h0
      rw [Bool.eq_false_iff] at h0
      exact absurd ((startsWith_single _ _).2 ⟨_, rfl⟩) h0
    · rintro ⟨k, hk⟩
      exfalso
      rcases strip_last text with h0 | ⟨r', c', h0, hc'⟩
      · exact ht h0
      · have := congrArg List.getLast? hk
        rw [h0, ← List.cons_append, ← List.append_assoc, List.getLast?_concat, List.getLast?_concat] at this
        cases this
        exact absurd hc' (by decide)

/-! ## Examples -/

/-- Default levels: the parent at `WARNING`, `INFO` or `DEBUG` and no own level. -/
def start (parent : Nat) : LSt := { info := INFO, own := 0, parent := parent, shown := [] }

def C67_doc : Str := c!"a\nb\n\n> #c\n> d\ne\n===\n- f\n  - #\n"

/-- A quote with a heading in it, a setext heading behind it and a nested list: the sections are reported at `INFO`, and
warnings of both passes follow. -/
theorem C67_example : reformatMarkdownTextL 9 (.fin 80) C67_doc (start INFO) =
    (.ok c!"a b\n\n> # c\n> d\n\ne\n=\n- f\n  - #\n", { info := INFO, own := INFO, parent := INFO, shown :=
      [.sect INFO 1 2 .par [c!"a", c!"b"], .sect INFO 3 3 .blank [[]], .sect INFO 4 5 .quote [c!"> #c", c!"> d"],
       .sect INFO 6 7 .setext [c!"e", c!"==="], .added 6, .sect INFO 8 9 .bullet [c!"- f", c!"  - #"],
       .noSpace 1, .noSpace 1, .noSpace 1] }) := by
  decide +kernel

/-- The hypotheses of `C67_pass` with nested messages, at debug level. -/
example : (reformatTextL 9 (.fin 80) c!"> #c\n" (start DEBUG)).2.shown =
    [.found 1 1 .atx, .found 1 1 .quote, .sect INFO 1 1 .quote [c!"> #c"], .found 1 1 .atx,
     .sect DEBUG 1 1 .atx [c!"#c"], .noSpace 1] := by
  decide +kernel

theorem usual_start : Usual (start INFO) ∧ Usual (start WARNING) :=
  ⟨⟨rfl, by decide⟩, ⟨rfl, by decide⟩⟩

/-- A whole run warns of everything there is to warn about in the input. -/
theorem C68_complete_run (n m : Nat) (w : Width) (text text' out : Str) (s s' : LSt) (x : Msg)
    (h : reformatMarkdownTextL n w text s = (.ok out, s')) (hw : Within n text m text') (ht : TrueOf m text' x)
    (ha : Audible s.toLogSt x) : x ∈ s'.shown := by
  obtain ⟨t, s1, s2, h1, h2, rfl⟩ := reformatMarkdownTextL_ran h
  have hx := C68_complete hw w t s s1 x h1 ht ha
  obtain ⟨_, _, _, ms, g1, _⟩ := reformatTextL_adds n w t (if s1.effective > DEBUG then { s1 with own := ERROR } else s1)
  rw [h2] at g1
  change x ∈ s2.shown
  simp only at g1
  rw [g1]
  refine List.mem_append_left _ ?_
  split <;> exact hx

/-- The heading in a block quote is said to be in line 1, where the input has something else. -/
theorem C68_refuted : ¬ C68_statement := by
  intro h
  have h1 : reformatMarkdownTextL 9 (.fin 80) c!"a\n\n> #b\n" (start WARNING) =
      (.ok c!"a\n\n> # b\n", { info := INFO, own := WARNING, parent := WARNING, shown := [.noSpace 1] }) := by
    decide +kernel
  obtain ⟨pre, l, post, hp, _, h2, _⟩ :=
    h 9 _ _ _ _ _ (.noSpace 1) rfl usual_start.2 h1 (by decide) rfl
  have h6 : (splitlines c!"a\n\n> #b\n")[1 - 1]? = some c!"a" := by decide
  rw [h6] at h2
  cases h2
  have := (parse_headPred hp (s := (Sec.atx, [c!"a"])) (by simp)).2 _ rfl
  exact absurd this (by decide)

/-- A heading without text is reported again by the second pass, with its line in the new text: line 2 of the input is
not a heading. -/
theorem C68_second_pass : reformatMarkdownTextL 9 (.fin 80) c!"a\nb\n#\n" (start WARNING) =
    (.ok c!"a b\n#\n", { info := INFO, own := WARNING, parent := WARNING, shown := [.noSpace 3, .noSpace 2] }) := by
  decide +kernel

/-- The hypotheses of `C68_complete_run` two levels down. -/
theorem C68_example : ∃ text', Within 9 c!"- a\n  > #b\n" 7 text' ∧ TrueOf 7 text' (.noSpace 1) ∧
    Audible (start WARNING).toLogSt (.noSpace 1) := by
  refine ⟨c!"#b\n", ?_, ⟨[], c!"#b", [], by decide +kernel, rfl, by decide, 1, c!"b", by decide, by decide, by decide⟩,
    Nat.le_refl _⟩
  refine .inside 8 _ [(.bullet, [c!"- a", c!"  > #b"])] (.bullet, [c!"- a", c!"  > #b"]) c!"a\n> #b\n" 7 _
    (by decide +kernel) (by simp) ?_ ?_
  · exact .entry .bullet _ [[c!"- a", c!"  > #b"]] [c!"- a", c!"  > #b"] [c!"a", c!"> #b"] (.inl rfl) (by decide +kernel)
      (by simp) (by decide +kernel)
  · exact .inside 7 _ [(.par, [c!"a"]), (.quote, [c!"> #b"])] (.quote, [c!"> #b"]) c!"#b\n" 7 _ (by decide +kernel)
      (by simp) (.quote [c!"> #b"]) (.here _ _)

end MF
