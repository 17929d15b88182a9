import Verif.Lemmas.NoStop
import Verif.Props.Termination
import Verif.Props.HeadDoc
/-!
# C108, C109: what the width does
-/

namespace MF

/-- From some width on the value is that for unlimited width. -/
def Settles {α : Type} (f : Width → α) : Prop := ∃ W : Int, ∀ w, W ≤ w → f (.fin w) = f .inf

theorem Settles.const {α : Type} (x : α) : Settles fun _ => x := ⟨0, fun _ _ => rfl⟩

theorem Settles.two {α β γ : Type} {f : Width → α} {g : Width → β} (h : α → β → γ) (hf : Settles f) (hg : Settles g) :
    Settles fun w => h (f w) (g w) := by
  obtain ⟨A, ha⟩ := hf
  obtain ⟨B, hb⟩ := hg
  refine ⟨max A B, fun w hw => ?_⟩
  show h (f (.fin w)) (g (.fin w)) = _
  rw [ha w (by omega), hb w (by omega)]

theorem Settles.map {α β : Type} {f : Width → α} (h : α → β) (hf : Settles f) : Settles fun w => h (f w) := by
  obtain ⟨A, ha⟩ := hf
  refine ⟨A, fun w hw => ?_⟩
  show h (f (.fin w)) = _
  rw [ha w hw]

theorem Settles.bind {α β : Type} {f : Width → Except Err α} {g : α → Width → Except Err β} (hf : Settles f)
    (hg : ∀ x, f .inf = .ok x → Settles (g x)) : Settles fun w => f w >>= fun x => g x w := by
  obtain ⟨A, ha⟩ := hf
  cases hx : f .inf with
  | error e =>
    refine ⟨A, fun w hw => ?_⟩
    show (f (.fin w) >>= fun x => g x (.fin w)) = _
    rw [ha w hw]
    simp only [hx]
    rfl
  | ok x =>
    obtain ⟨B, hb⟩ := hg x hx
    refine ⟨max A B, fun w hw => ?_⟩
    show (f (.fin w) >>= fun x => g x (.fin w)) = _
    rw [ha w (by omega)]
    simp only [hx]
    exact hb w (by omega)

theorem Settles.ite {α : Type} {c : Width → Bool} {f g : Width → α} (hc : Settles c) (hf : Settles f) (hg : Settles g) :
    Settles fun w => if c w then f w else g w := by
  obtain ⟨A, ha⟩ := hc
  obtain ⟨B, hb⟩ := hf
  obtain ⟨C, hc⟩ := hg
  refine ⟨max A (max B C), fun w hw => ?_⟩
  show (if c (.fin w) then f (.fin w) else g (.fin w)) = _
  rw [ha w (by omega), hb w (by omega), hc w (by omega)]

theorem Settles.sub {α : Type} {f : Width → α} (hf : Settles f) (k : Int) : Settles fun w => f (w.sub k) := by
  obtain ⟨A, ha⟩ := hf
  exact ⟨A + k, fun w hw => ha (w - k) (by omega)⟩

theorem Settles.ge (k : Nat) : Settles fun w => w.ge k := by
  refine ⟨k, fun w hw => ?_⟩
  simp [Width.ge, hw]

theorem joinStep_wide {w : Int} (st : List Str × Str) (x : Str) (b : Bool) (h : ((st.2.length + x.length + 1 : Nat) : Int) ≤ w) :
    joinStep (.fin w) st x b = joinStep .inf st x b ∧
      (joinStep .inf st x b).2.length ≤ st.2.length + x.length + 1 := by
  have h1 : ∀ p : Str, p.length ≤ st.2.length + x.length + 1 → (Width.fin w).ge p.length = true := by
    intro p hp
    simp only [Width.ge, decide_eq_true_eq]
    omega
  have h2 : (if (b && !st.2.isEmpty) = true then st.2 ++ [' '] ++ x else st.2 ++ x).length ≤ st.2.length + x.length + 1 := by
    split <;> simp <;> omega
  have h3 : Width.inf.ge (if (b && !st.2.isEmpty) = true then st.2 ++ [' '] ++ x else st.2 ++ x).length = true := rfl
  simp only [joinStep, h1 _ h2, h3, Bool.true_or, if_true, true_and]
  split
  · simp
  · exact h2

theorem joinLoop_wide {w : Int} : ∀ (xs : List (Str × Bool)) (st : List Str × Str),
    ((st.2.length + (xs.map fun p => p.1.length + 1).sum : Nat) : Int) ≤ w → joinLoop (.fin w) st xs = joinLoop .inf st xs := by
  intro xs
  induction xs with
  | nil => intro st _; rfl
  | cons p xs ih =>
    intro st h
    simp only [List.map_cons, List.sum_cons] at h
    obtain ⟨e, h1⟩ := joinStep_wide (w := w) st p.1 p.2 (by omega)
    simp only [joinLoop]
    rw [e]
    exact ih _ (by omega)

theorem join_settles (s : List Str) (l : List Bool) : Settles fun w => join s l w := by
  refine ⟨(((s.zip l).map fun p => p.1.length + 1).sum : Nat), fun w hw => ?_⟩
  simp only [join, joinLines]
  rw [joinLoop_wide _ _ (by simpa using hw)]

theorem wrap_settles (text : Str) : Settles fun w => wrap text w :=
  (Settles.const _).bind fun t _ => (join_settles t.split t.lead).map Except.ok

theorem fmtPar_settles (ls : List Str) : Settles fun w => fmtPar w ls :=
  (wrap_settles _).bind fun _ _ => .const _

theorem fmtSetext_settles (ls : List Str) : Settles fun w => fmtSetext w ls := by
  unfold fmtSetext
  split
  · exact .const _
  · exact (wrap_settles _).bind fun _ _ => .const _

theorem fmtLrd_settles (ls : List Str) : Settles fun w => fmtLrd w ls := by
  refine (Settles.const (lrdParts ls)).bind fun p _ => ?_
  obtain ⟨name, link, title⟩ := p
  simp only
  split
  · exact .const _
  · split
    · exact .const _
    · rename_i l0 rest _
      have key : ∀ str : Str, Settles fun w =>
        (if title.isEmpty then .ok str
        else
          match (if isIn link l0 = true then some l0 else rest.head?), splitWs title with
          | some lastLine, word :: _ =>
            if isIn word lastLine then
              let strLines := splitlines str
              if w.ge (word.length + (strLines.getLastD []).length) then do
                let w ← wrap (strLines.getLastD [] ++ [' '] ++ title) w
                .ok (pyJoin ['\n'] (strLines.dropLast ++ [w]))
              else do
                let w ← wrap title w
                .ok (['\n'] ++ w)
            else do
              let w ← wrap title w
              .ok (str ++ ['\n'] ++ w)
          | _, _ => .error .indexError : Except Err Str) := by
        intro str
        split
        · exact .const _
        · split
          · split
            · exact (Settles.ge _).ite ((wrap_settles _).bind fun _ _ => .const _) ((wrap_settles _).bind fun _ _ => .const _)
            · exact (wrap_settles _).bind fun _ _ => .const _
          · exact .const _
      exact key _

theorem reformatLines_settles {sub : Width → Str → Except Err Str} {ls : List Str} (h : Settles fun w => sub w (pyJoin ['\n'] ls ++ ['\n'])) :
    Settles fun w => reformatLines sub ls w := h

theorem fmtQuote_settles {sub : Width → Str → Except Err Str} (ls : List Str)
    (h : Settles fun w => sub w (pyJoin ['\n'] (quoteInner ls).1 ++ ['\n'])) : Settles fun w => fmtQuote sub w ls := by
  unfold fmtQuote
  cases ls with
  | nil => exact .const _
  | cons l ls =>
    simp only
    cases (quoteInner (l :: ls)).2 with
    | true =>
      simp only [if_true]
      exact (((reformatLines_settles h).sub 1).sub 1 |>.sub _).bind fun _ _ => .const _
    | false =>
      simp only [Bool.false_eq_true, if_false]
      exact ((reformatLines_settles h).sub 1 |>.sub _).bind fun _ _ => .const _

theorem fmtEntry_settles {sub : Width → Str → Except Err Str} {i : Nat} {m : Str} {e : List Str}
    (h : Settles fun w => sub w (pyJoin ['\n'] e ++ ['\n'])) : Settles fun w => fmtEntry sub w i m e :=
  ((reformatLines_settles h).sub _).bind fun _ _ => .const _

theorem fmtBulletEntries_settles {sub : Width → Str → Except Err Str} {m : Str} (es : List (List Str))
    (h : ∀ e ∈ es, Settles fun w => sub w (pyJoin ['\n'] e ++ ['\n'])) : Settles fun w => fmtBulletEntries sub w m es := by
  induction es with
  | nil => exact .const _
  | cons e es ih =>
    exact (fmtEntry_settles (h e (by simp))).bind fun _ _ => (ih fun x hx => h x (by simp [hx])).bind fun _ _ => .const _

theorem fmtOrderedEntries_settles {sub : Width → Str → Except Err Str} {i : Nat} (es : List (List Str))
    (h : ∀ e ∈ es, Settles fun w => sub w (pyJoin ['\n'] e ++ ['\n'])) : ∀ k, Settles fun w => fmtOrderedEntries sub w i k es := by
  induction es with
  | nil => intro k; exact .const _
  | cons e es ih =>
    intro k
    exact (fmtEntry_settles (h e (by simp))).bind fun _ _ => (ih (fun x hx => h x (by simp [hx])) _).bind fun _ _ => .const _

/-! ## Lines that end in a rule -/

/-- Apart from white space the line ends in three of the same of `*`, `_` and `-`. -/
def EndsInRule (l : Str) : Prop := ∃ c, (c = '*' ∨ c = '_' ∨ c = '-') ∧ [c, c, c] <:+ l.filter fun c => !isWs c

theorem EndsInRule.of_suffix {a b : Str} (h : EndsInRule a) (hs : (a.filter fun c => !isWs c) <:+ b.filter fun c => !isWs c) : EndsInRule b := by
  obtain ⟨c, h1, h2⟩ := h
  exact ⟨c, h1, h2.trans hs⟩

theorem EndsInRule.of_marked {k : Nat} {a : Str} (h : EndsInRule (List.replicate k '>' ++ a)) : EndsInRule a := by
  obtain ⟨c, h1, h2⟩ := h
  refine ⟨c, h1, ?_⟩
  rw [List.filter_append] at h2
  have h3 : c ≠ '>' := by rcases h1 with rfl | rfl | rfl <;> decide
  have h4 : ∀ x : Str, (∀ y ∈ x, y = '>') → ∀ b : Str, [c, c, c] <:+ x ++ b → [c, c, c] <:+ b := by
    intro x
    induction x with
    | nil => intro _ b hb; exact hb
    | cons y x ih =>
      intro hx b hb
      rw [List.cons_append] at hb
      rcases List.suffix_cons_iff.1 hb with e | hb
      · simp only [List.cons.injEq] at e
        exact absurd (e.1.trans (hx y (by simp))) h3
      · exact ih (fun z hz => hx z (by simp [hz])) b hb
  refine h4 _ ?_ _ h2
  intro y hy
  exact List.eq_of_mem_replicate (List.mem_filter.1 hy).1

theorem thematic_ends {l : Str} (h : isThematic l = true) : EndsInRule l := by
  obtain ⟨_, c, hc, h1, h2⟩ := (isThematic_iff l).1 h
  refine ⟨c, hc, ?_⟩
  have h3 : (l.filter fun x => !isWs x) = List.replicate (l.filter fun x => !isWs x).length c := by
    rw [List.eq_replicate_iff]
    refine ⟨rfl, fun x hx => ?_⟩
    rw [List.mem_filter] at hx
    exact h2 x hx.1 (by simpa using hx.2)
  rw [h3]
  exact ⟨List.replicate ((l.filter fun x => !isWs x).length - 3) c, by
    rw [show [c, c, c] = List.replicate 3 c from rfl, List.replicate_append_replicate]
    congr 1
    omega⟩

theorem filter_suffix {a b : Str} (h : a <:+ b) : (a.filter fun c => !isWs c) <:+ b.filter fun c => !isWs c := by
  obtain ⟨x, rfl⟩ := h
  rw [List.filter_append]
  exact List.suffix_append _ _

theorem quoteInner_line {ls : List Str} {x : Str} (hx : x ∈ (quoteInner ls).1) : ∃ l ∈ ls, ∃ k, x <:+ List.replicate k '>' ++ l := by
  have h1 : ∀ (ls : List Str) (d : Nat), ∀ x ∈ fullyQuote d ls, ∃ l ∈ ls, ∃ k, x = List.replicate k '>' ++ l := by
    intro ls
    induction ls with
    | nil => intro d x hx; cases hx
    | cons l ls ih =>
      intro d x hx
      unfold fullyQuote at hx
      split at hx
      · rcases List.mem_cons.1 hx with rfl | hx
        · exact ⟨_, by simp, 0, rfl⟩
        · obtain ⟨y, hy, k, e⟩ := ih _ x hx
          exact ⟨y, by simp [hy], k, e⟩
      · rcases List.mem_cons.1 hx with rfl | hx
        · exact ⟨_, by simp, d, rfl⟩
        · obtain ⟨y, hy, k, e⟩ := ih _ x hx
          exact ⟨y, by simp [hy], k, e⟩
  have h2 : ∀ x ∈ (fullyQuote 0 ls).map unquote, ∃ l ∈ ls, ∃ k, x <:+ List.replicate k '>' ++ l := by
    intro x hx
    obtain ⟨y, hy, rfl⟩ := List.mem_map.1 hx
    obtain ⟨l, hl, k, rfl⟩ := h1 ls 0 y hy
    exact ⟨l, hl, k, unquote_suffix _⟩
  unfold quoteInner at hx
  simp only at hx
  split at hx
  · obtain ⟨y, hy, rfl⟩ := List.mem_map.1 hx
    obtain ⟨l, hl, k, h⟩ := h2 y hy
    refine ⟨l, hl, k, List.IsSuffix.trans ?_ h⟩
    cases y with
    | nil => exact List.suffix_refl _
    | cons c r =>
      simp only [dropSpace]
      split
      · exact List.suffix_cons _ _
      · exact List.suffix_refl _
  · exact h2 x hx

theorem dedentEntry_line {e d : List Str} (h : dedentEntry e = .ok d) : d ≠ [] ∧ ∀ x ∈ d, ∃ l ∈ e, (∀ c ∈ x, c ∈ l) ∧
    (x.filter fun c => !isWs c) <:+ l.filter fun c => !isWs c := by
  cases e with
  | nil => cases h
  | cons l ls =>
    simp only [dedentEntry, bind, Except.bind] at h
    split at h
    · cases h
    · rename_i pos _
      cases h
      refine ⟨by simp, fun x hx => ?_⟩
      rcases List.mem_cons.1 hx with rfl | hx
      · exact ⟨l, by simp, fun c hc => List.mem_of_mem_drop hc, filter_suffix (List.drop_suffix _ _)⟩
      · obtain ⟨y, hy, rfl⟩ := List.mem_map.1 hx
        refine ⟨y, by simp [hy], ?_, ?_⟩
        · intro c hc
          rcases List.mem_append.1 hc with hc | hc
          · exact List.mem_of_mem_take (mem_of_mem_lstrip hc)
          · exact List.mem_of_mem_drop hc
        · have h1 : ((lstrip (y.take (pos + 1))).filter fun c => !isWs c) = (y.take (pos + 1)).filter fun c => !isWs c := by
            obtain ⟨t, ht, hw⟩ := lstrip_split (y.take (pos + 1))
            have h0 : (t.filter fun c => !isWs c) = [] := List.filter_eq_nil_iff.2 (by intro c hc; simp [hw c hc])
            conv => rhs; rw [ht]
            rw [List.filter_append, h0, List.nil_append]
          rw [List.filter_append, h1, ← List.filter_append, List.take_append_drop]
          exact List.suffix_refl _

theorem fmtSection_settles {n : Nat} {lines : List Str} {secs : List (Sec × List Str)} (hp : parse n lines = .ok secs)
    {ty : Sec} {content : List Str} (hm : (ty, content) ∈ secs) (hlb : ∀ l ∈ content, NoLB l) (hr : ∀ l ∈ content, ¬ EndsInRule l)
    {sub : Width → Str → Except Err Str} (i : Nat)
    (hsub : ∀ t : Str, (∀ l ∈ splitlines t, ¬ EndsInRule l) → Settles fun w => sub w t) :
    Settles fun w => fmtSection sub w i ty content := by
  obtain ⟨l, ls, rfl, hhead⟩ := parse_quote_head hp hm
  have hlist : ty = .bullet ∨ ty = .ordered → ∃ es, splitList (l :: ls) = .ok es ∧
      ∀ ds, dedentEntries es = .ok ds → ∀ d ∈ ds, Settles fun w => sub w (pyJoin ['\n'] d ++ ['\n']) := by
    intro hty
    obtain ⟨es, h1, _, h2, _⟩ := C19_entries_partition n lines secs hp ty _ hm hty
    refine ⟨es, h1, fun ds hds d hd => ?_⟩
    obtain ⟨e, he, hed⟩ := dedentEntries_mem es ds hds d hd
    obtain ⟨hne, hlines⟩ := dedentEntry_line hed
    have hmem : ∀ x ∈ e, x ∈ l :: ls := fun x hx => by rw [← h2]; exact List.mem_flatten.2 ⟨_, he, hx⟩
    refine hsub _ ?_
    rw [splitlines_join_nl d (fun x hx => ?_) hne]
    · intro x hx hx'
      obtain ⟨y, hy, _, h3⟩ := hlines x hx
      exact hr y (hmem y hy) (hx'.of_suffix h3)
    · obtain ⟨y, hy, h3, _⟩ := hlines x hx
      exact (hlb y (hmem y hy)).of_mem h3
  cases ty with
  | quote =>
    refine fmtQuote_settles (l :: ls) (hsub _ ?_)
    have hne : (quoteInner (l :: ls)).1 ≠ [] := by
      have : (fullyQuote 0 (l :: ls)).length = (l :: ls).length := fullyQuote_length _ _
      intro h0
      unfold quoteInner at h0
      simp only at h0
      split at h0
      · simp only [List.map_eq_nil_iff] at h0; rw [h0] at this; cases this
      · simp only [List.map_eq_nil_iff] at h0; rw [h0] at this; cases this
    rw [splitlines_join_nl _ (fun x hx => ?_) hne]
    · intro x hx hx'
      obtain ⟨y, hy, k, h3⟩ := quoteInner_line hx
      exact hr y hy (hx'.of_suffix (filter_suffix h3)).of_marked
    · obtain ⟨y, hy, k, h3⟩ := quoteInner_line hx
      intro c hc
      rcases List.mem_append.1 (h3.subset hc) with h4 | h4
      · rw [List.eq_of_mem_replicate h4]; decide
      · exact hlb y hy c h4
  | bullet =>
    obtain ⟨es, h1, h2⟩ := hlist (.inl rfl)
    simp only [fmtSection, fmtBullet, h1]
    refine (Settles.const _).bind fun es' hes => ?_
    cases hes
    refine (Settles.const (dedentEntries es)).bind fun ds hds => ?_
    cases lstrip l with
    | nil => exact .const _
    | cons c r => exact (fmtBulletEntries_settles ds (h2 ds hds)).bind fun _ _ => .const _
  | ordered =>
    obtain ⟨es, h1, h2⟩ := hlist (.inr rfl)
    simp only [fmtSection, fmtOrdered, h1]
    refine (Settles.const _).bind fun es' hes => ?_
    cases hes
    refine (Settles.const (firstNumber l)).bind fun k _ => (Settles.const (dedentEntries es)).bind fun ds hds => ?_
    exact (fmtOrderedEntries_settles ds (h2 ds hds) _).bind fun _ _ => .const _
  | thematic => exact absurd (thematic_ends hhead) (hr l (by simp))
  | par => exact fmtPar_settles _
  | setext => exact fmtSetext_settles _
  | lrd => exact fmtLrd_settles _
  | atx => exact .const _
  | blank => exact .const _
  | indented => exact .const _
  | fenced => exact .const _
  | table => exact .const _

theorem fmtAll_settles {sub : Width → Str → Except Err Str} (fs : List Fmt)
    (h : ∀ f ∈ fs, Settles fun w => fmtSection sub w f.lineIndex f.ty f.lines) : Settles fun w => fmtAll sub w fs := by
  induction fs with
  | nil => exact .const _
  | cons f fs ih =>
    exact ((h f (by simp)).map fun r => r.mapError genError).bind fun _ _ => (ih fun x hx => h x (by simp [hx])).bind fun _ _ => .const _

/-- C108: from some width on a pass gives what it gives for unlimited width. -/
theorem C108_pass : ∀ (n : Nat) (t : Str), (∀ l ∈ splitlines t, ¬ EndsInRule l) →
    ∃ W : Int, ∀ w, W ≤ w → reformatText n (.fin w) t = reformatText n .inf t := by
  suffices h : ∀ (n : Nat) (t : Str), (∀ l ∈ splitlines t, ¬ EndsInRule l) → Settles fun w => reformatText n w t from h
  intro n
  induction n with
  | zero => intro t _; exact .const _
  | succ n ih =>
    intro t ht
    refine (Settles.const (parse n (splitlines t))).bind fun secs hp => (Settles.const (buildFmts 0 none secs)).bind fun fs hfs =>
      (fmtAll_settles fs fun f hf => ?_).bind fun _ _ => .const _
    rcases buildFmts_fmt _ _ _ _ hfs f hf with hm | ⟨e1, e2⟩
    · have hpart := (C08_parse_partition n _ _ hp).1
      have hmem : ∀ l ∈ f.lines, l ∈ splitlines t := fun l hl => by
        rw [← hpart]
        exact List.mem_flatten.2 ⟨_, List.mem_map.2 ⟨_, hm, rfl⟩, hl⟩
      exact fmtSection_settles hp hm (fun l hl => splitlines_noLB t l (hmem l hl)) (fun l hl => ht l (hmem l hl)) _ ih
    · rw [e1, e2]
      exact .const _

/-- C108: from some width on the program's answer is that for unlimited width. -/
theorem C108_program {n : Nat} {t : Str} (ht : ∀ l ∈ splitlines t, ¬ EndsInRule l)
    (hp : ∀ p, reformatText n .inf t = .ok p → ∀ l ∈ splitlines p, ¬ EndsInRule l) :
    ∃ W : Int, ∀ w, W ≤ w → reformatMarkdownText n (.fin w) t = reformatMarkdownText n .inf t := by
  show Settles fun w => reformatMarkdownText n w t
  exact Settles.bind (C108_pass n t ht) fun p h => Settles.bind (C108_pass n p (hp p h)) fun _ _ => .const _

/-- C108: this is not so for a thematic break. -/
theorem C108_break {n : Nat} : ¬ ∃ W : Int, ∀ w, W ≤ w → reformatMarkdownText (n + 2) (.fin w) c!"***" = reformatMarkdownText (n + 2) .inf c!"***" := by
  rintro ⟨W, h⟩
  have hs : splitlines c!"***" = [c!"***"] := by decide
  have hk : kindOf c!"***" = some .thematic := by decide
  obtain ⟨c, _, _, h1, _⟩ := C104_exact (n := n) (w := .fin (max W 4)) hs hk
  obtain ⟨d, _, _, h2, _⟩ := C104_exact (n := n) (w := .inf) hs hk
  have := h (max W 4) (by omega)
  rw [h1, h2] at this
  have := congrArg List.length (Except.ok.inj this)
  simp only [List.length_append, List.length_replicate, ruleLen] at this
  omega

/-- Lists, quotes, tables, headings, code and text; a width of 11 is wide enough. -/
theorem C108_example : (∀ l ∈ splitlines c!"# a\n* b c\n  d\n\nf --\n> * e\n> f --\n\n| x |\n|---|\n", ¬ EndsInRule l) ∧
    reformatText 9 .inf c!"# a\n* b c\n  d\n\nf --\n> * e\n> f --\n\n| x |\n|---|\n" = .ok c!"# a\n* b c d\n\nf --\n> * e f --\n\n| x |\n|---|\n" ∧
    reformatMarkdownText 9 (.fin 11) c!"# a\n* b c\n  d\n\nf --\n> * e\n> f --\n\n| x |\n|---|\n" =
      reformatMarkdownText 9 .inf c!"# a\n* b c\n  d\n\nf --\n> * e\n> f --\n\n| x |\n|---|\n" ∧
    reformatMarkdownText 9 (.fin 8) c!"# a\n* b c\n  d\n\nf --\n> * e\n> f --\n\n| x |\n|---|\n" ≠
      reformatMarkdownText 9 .inf c!"# a\n* b c\n  d\n\nf --\n> * e\n> f --\n\n| x |\n|---|\n" := by
  refine ⟨?_, by decide +kernel, by decide +kernel, by decide +kernel⟩
  have h : ∀ l ∈ splitlines c!"# a\n* b c\n  d\n\nf --\n> * e\n> f --\n\n| x |\n|---|\n", ∀ c ∈ ['*', '_', '-'],
      ¬ [c, c, c] <:+ l.filter fun c => !isWs c := by decide +kernel
  rintro l hl ⟨c, hc, h1⟩
  exact h l hl c (by simpa using hc) h1

/-! ## C109: sections that do not depend on the width -/

/-- Headings with `#`, blank lines, code and tables. -/
def Stiff (ty : Sec) : Prop := ty = .atx ∨ ty = .blank ∨ ty = .fenced ∨ ty = .indented ∨ ty = .table

theorem Stiff.same {ty : Sec} (h : Stiff ty) (sub : Width → Str → Except Err Str) (w w' : Width) (i : Nat) (ls : List Str) :
    fmtSection sub w i ty ls = fmtSection sub w' i ty ls := by
  rcases h with rfl | rfl | rfl | rfl | rfl <;> rfl

theorem fmtAll_parts {sub : Width → Str → Except Err Str} {w w' : Width} : ∀ (fs : List Fmt) (ps qs : List Str),
    fmtAll sub w fs = .ok ps → fmtAll sub w' fs = .ok qs → ∃ parts : List (Sec × Str × Str), parts.map (·.1) = fs.map (·.ty) ∧
      parts.map (·.2.1) = ps ∧ parts.map (·.2.2) = qs ∧ ∀ x ∈ parts, Stiff x.1 → x.2.1 = x.2.2 := by
  intro fs
  induction fs with
  | nil => intro ps qs h1 h2; cases h1; cases h2; exact ⟨[], rfl, rfl, rfl, by simp⟩
  | cons f fs ih =>
    intro ps qs h1 h2
    simp only [fmtAll, bind, Except.bind] at h1 h2
    split at h1
    · cases h1
    rename_i t ht
    split at h1
    · cases h1
    rename_i ts hts
    cases h1
    split at h2
    · cases h2
    rename_i t' ht'
    split at h2
    · cases h2
    rename_i ts' hts'
    cases h2
    obtain ⟨parts, e1, e2, e3, e4⟩ := ih ts ts' hts hts'
    refine ⟨(f.ty, t, t') :: parts, by simp [e1], by simp [e2], by simp [e3], ?_⟩
    intro x hx hs
    rcases List.mem_cons.1 hx with rfl | hx
    · simp only at hs ⊢
      rw [hs.same sub w w'] at ht
      rw [ht] at ht'
      exact Except.ok.inj ht'
    · exact e4 x hx hs

theorem buildFmts_kinds : ∀ (secs : List (Sec × List Str)) (i : Nat) (last : Option Sec) (fs : List Fmt), buildFmts i last secs = .ok fs →
    (fs.map (·.ty)).filter (· != .blank) = (secs.map (·.1)).filter (· != .blank) := by
  intro secs
  induction secs with
  | nil => intro i last fs h; cases h; rfl
  | cons s secs ih =>
    obtain ⟨ty, content⟩ := s
    intro i last fs h
    simp only [buildFmts, bind, Except.bind] at h
    split at h
    · cases h
    split at h
    · cases h
    rename_i gs hgs
    have := ih _ _ gs hgs
    split at h
    · cases h
      simp only [List.map_cons, List.filter_cons, this]
      simp
    · cases h
      simp only [List.map_cons, List.filter_cons, this]

/-- C109: the results for two widths are put together from parts, one for each section that is not blank lines, and the parts
for headings with `#`, blank lines, code and tables are the same. -/
theorem C109_parts {n : Nat} {w w' : Width} {t p q : Str} (h1 : reformatText (n + 1) w t = .ok p)
    (h2 : reformatText (n + 1) w' t = .ok q) : ∃ secs, parse n (splitlines t) = .ok secs ∧
      ∃ parts : List (Sec × Str × Str), (parts.map (·.1)).filter (· != .blank) = (secs.map (·.1)).filter (· != .blank) ∧
        p = pyJoin ['\n'] (parts.map (·.2.1)) ++ ['\n'] ∧ q = pyJoin ['\n'] (parts.map (·.2.2)) ++ ['\n'] ∧
        ∀ x ∈ parts, Stiff x.1 → x.2.1 = x.2.2 := by
  simp only [reformatText, reformatBody, bind, Except.bind] at h1 h2
  split at h1
  · cases h1
  rename_i secs hp
  rw [hp] at h2
  simp only at h2
  split at h1
  · cases h1
  rename_i fs hfs
  rw [hfs] at h2
  simp only at h2
  split at h1
  · cases h1
  rename_i ps hps
  split at h2
  · cases h2
  rename_i qs hqs
  cases h1
  cases h2
  obtain ⟨parts, e1, rfl, rfl, e4⟩ := fmtAll_parts fs ps qs hps hqs
  exact ⟨secs, hp, parts, by rw [e1]; exact buildFmts_kinds _ _ _ _ hfs, rfl, rfl, e4⟩

/-- C109: if there are no other sections, the width makes no difference, not even to the exceptions. -/
theorem C109_document {n : Nat} {t : Str} (h : ∀ secs, parse n (splitlines t) = .ok secs → ∀ s ∈ secs, Stiff s.1) (w w' : Width) :
    reformatText (n + 1) w t = reformatText (n + 1) w' t := by
  have key : ∀ fs : List Fmt, (∀ f ∈ fs, Stiff f.ty) → fmtAll (reformatText n) w fs = fmtAll (reformatText n) w' fs := by
    intro fs
    induction fs with
    | nil => intro _; rfl
    | cons f fs ih =>
      intro hf
      simp only [fmtAll, (hf f (by simp)).same (reformatText n) w w', ih fun x hx => hf x (by simp [hx])]
  simp only [reformatText, reformatBody, bind, Except.bind]
  cases hp : parse n (splitlines t) with
  | error e => rfl
  | ok secs =>
    simp only
    cases hfs : buildFmts 0 none secs with
    | error e => rfl
    | ok fs =>
      simp only
      rw [key fs]
      intro f hf
      rcases buildFmts_fmt _ _ _ _ hfs f hf with hm | ⟨e1, _⟩
      · exact h secs hp _ hm
      · rw [e1]; exact .inr (.inl rfl)

/-- C109: and so for the program's answer, if the first pass leaves no other sections either. -/
theorem C109_program {n : Nat} {t : Str} (h : ∀ secs, parse n (splitlines t) = .ok secs → ∀ s ∈ secs, Stiff s.1) (w w' : Width)
    (hp : ∀ p, reformatText (n + 1) w t = .ok p → ∀ secs, parse n (splitlines p) = .ok secs → ∀ s ∈ secs, Stiff s.1) :
    reformatMarkdownText (n + 1) w t = reformatMarkdownText (n + 1) w' t := by
  have h1 := C109_document h w w'
  simp only [reformatMarkdownText, bind, Except.bind, ← h1]
  cases h2 : reformatText (n + 1) w t with
  | error e => rfl
  | ok p =>
    simp only
    rw [C109_document (hp p h2) w w']

instance (ty : Sec) : Decidable (Stiff ty) := by unfold Stiff; infer_instance

theorem C109_example : parse 5 (splitlines c!"# a  b\n\n    c\n\n~~~\nd\n~~~\n|e f|g|\n|--|-|\n") =
      .ok [(.atx, [c!"# a  b"]), (.blank, [[]]), (.indented, [c!"    c"]), (.blank, [[]]), (.fenced, [c!"~~~", c!"d", c!"~~~"]),
        (.table, [c!"|e f|g|", c!"|--|-|"])] ∧
    reformatMarkdownText 6 (.fin 1) c!"# a  b\n\n    c\n\n~~~\nd\n~~~\n|e f|g|\n|--|-|\n" =
      .ok c!"# a  b\n\n    c\n\n~~~\nd\n~~~\n| e f | g |\n|-----|---|\n" ∧
    (∃ p q, reformatText 6 (.fin 3) c!"# a\nb c" = .ok p ∧ reformatText 6 .inf c!"# a\nb c" = .ok q ∧ p = q) ∧
    reformatText 6 (.fin 2) c!"# a\nb c" = .ok c!"# a\nb\nc\n" ∧ reformatText 6 .inf c!"# a\nb c" = .ok c!"# a\nb c\n" := by
  refine ⟨by decide +kernel, by decide +kernel, ⟨c!"# a\nb c\n", c!"# a\nb c\n", by decide +kernel, by decide +kernel, rfl⟩,
    by decide +kernel, by decide +kernel⟩

end MF
