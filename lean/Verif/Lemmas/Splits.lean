import Verif.Props.Parse
import Verif.Props.Paragraphs
import Verif.Props.Blocks
import Verif.Props.Lrd
/-!
# Which splitter recognises which lines

Exact results of the splitters for lines whose predicates are known.
-/

namespace MF

theorem splitQuote_unquoted (n : Nat) {l : Str} (ls : List Str) (h : isQuote l = false) :
    splitQuote (n + 1) (l :: ls) = .ok ([], l :: ls) := by
  simp only [splitQuote, quoteLoop, h, List.length_cons]
  rfl

theorem splitBullet_eq_nil {l : Str} (ls : List Str) (h : isBulletStart l = false) :
    splitBullet (l :: ls) = .ok ([], l :: ls) := by
  simp only [splitBullet, h]; rfl

theorem splitOrdered_eq_nil {l : Str} (ls : List Str) (h : isOrderedStart l = false) :
    splitOrdered (l :: ls) = .ok ([], l :: ls) := by
  simp only [splitOrdered, h]; rfl

theorem splitAtx_eq_nil {l : Str} (ls : List Str) (h : isAtx l = false) : splitAtx (l :: ls) = .ok ([], l :: ls) := by
  simp only [splitAtx, h]; rfl

theorem splitBlank_eq_nil {l : Str} (ls : List Str) (h : isBlankLine l = false) :
    splitBlank (l :: ls) = .ok ([], l :: ls) := by
  simp only [splitBlank, h]; rfl

theorem splitThematic_eq_nil {l : Str} (ls : List Str) (h : isThematic l = false) :
    splitThematic (l :: ls) = .ok ([], l :: ls) := by
  simp only [splitThematic, h]; rfl

theorem splitTable_eq_nil {l : Str} (ls : List Str) (h : isTableStart l = false) :
    splitTable (l :: ls) = .ok ([], l :: ls) := by
  simp only [splitTable, h]; rfl

theorem splitFenced_eq_nil {l : Str} (ls : List Str) (h : isFenceStart l = false) :
    splitFenced (l :: ls) = .ok ([], l :: ls) := by
  simp only [splitFenced, (openFence_none l).2 h]

theorem splitIndented_eq_nil {l : Str} (ls : List Str) (h : isIndentedStart l = false) :
    splitIndented (l :: ls) = .ok ([], l :: ls) := by
  unfold isIndentedStart at h
  simp only [splitIndented, h]
  rfl

theorem splitParIgn_eq_nil {sbq : List Str → Split} {l : Str} (ls : List Str) (h : isParStart l = false) :
    splitParIgn sbq (l :: ls) = .ok ([], l :: ls) := by
  simp only [splitParIgn, h]; rfl

theorem splitPar_eq_nil {sbq : List Str → Split} {l : Str} (ls : List Str) (h : isParStart l = false) :
    splitPar sbq (l :: ls) = .ok ([], l :: ls) := by
  simp only [splitPar, splitParIgn_eq_nil ls h, bind, Except.bind]
  split <;> rfl

theorem splitSetext_eq_nil {sbq : List Str → Split} {l : Str} (ls : List Str) (h : isParStart l = false) :
    splitSetext sbq (l :: ls) = .ok ([], l :: ls) := by
  simp only [splitSetext, splitParIgn_eq_nil ls h, bind, Except.bind]

/-- The line is no link definition. -/
def NoLabel (l : Str) : Prop := firstCh l = some '[' → ¬ c!"]:" <:+: l

theorem splitLrd_eq_nil {l : Str} (ls : List Str) (h : NoLabel l) :
    splitLrd (l :: ls) = .ok ([], l :: ls) := by
  simp only [splitLrd]
  split
  · rfl
  · have : lrdFirstRx.match? (lstrip l) = none := by
      cases hm : lrdFirstRx.match? (lstrip l) with
      | none => rfl
      | some m =>
        exfalso
        obtain ⟨name, r, h1, _⟩ := lrdFirst_shape hm
        obtain ⟨t, ht, _⟩ := lstrip_split l
        refine h ?_ ⟨t ++ '[' :: name, r, ?_⟩
        · unfold firstCh; rw [h1]; rfl
        · rw [ht, h1]; simp
    rw [this]

/-- the lines after which a paragraph cannot go on -/
def interrupts (l : Str) : Bool :=
  isAtx l || isBlankLine l || isBulletStart l || isFenceStart l || isOrderedStart l || isTableStart l || isThematic l

theorem anySplits_cons {l : Str} {ls : List Str} {f : List Str → Split} {fs : List (List Str → Split)} {p : Bool}
    (h : p = false → f (l :: ls) = .ok ([], l :: ls)) (h2 : p = true → ∃ a b, f (l :: ls) = .ok (a, b) ∧ a ≠ []) :
    anySplits (l :: ls) (f :: fs) = if p then .ok true else anySplits (l :: ls) fs := by
  cases p with
  | false => simp only [anySplits, h rfl, bind, Except.bind]; rfl
  | true =>
    obtain ⟨a, b, h3, h4⟩ := h2 rfl
    simp only [anySplits, h3, bind, Except.bind]
    cases a with
    | nil => exact absurd rfl h4
    | cons x a => rfl

theorem splitFenced_some {l : Str} (ls : List Str) (h : isFenceStart l = true) :
    ∃ a b, splitFenced (l :: ls) = .ok (a, b) ∧ a ≠ [] := by
  simp only [splitFenced]
  split
  · rename_i h1
    rw [(openFence_none l).1 h1] at h; cases h
  · exact ⟨_, _, rfl, by simp⟩

theorem isParCont_eq {n : Nat} {l : Str} (ls : List Str) (h : isQuote l = false) :
    isParCont (splitQuote (n + 1)) (l :: ls) = .ok (!interrupts l && !isSetextUnderline l) := by
  have e : anySplits (l :: ls) [splitAtx, splitBlank, splitQuote (n + 1), splitBullet, splitFenced, splitOrdered,
      splitTable, splitThematic] = .ok (interrupts l) := by
    rw [anySplits_cons (p := isAtx l) (splitAtx_eq_nil ls) (fun h => ⟨[l], ls, by simp [splitAtx, h], by simp⟩),
      anySplits_cons (p := isBlankLine l) (splitBlank_eq_nil ls) (fun h => ⟨[l], ls, by simp [splitBlank, h], by simp⟩),
      anySplits_cons (p := false) (fun _ => splitQuote_unquoted n ls h) (fun h => by cases h),
      anySplits_cons (p := isBulletStart l) (splitBullet_eq_nil ls)
        (fun h => ⟨l :: (listLoop 0 ls).1, _, by simp only [splitBullet, h]; rfl, by simp⟩),
      anySplits_cons (p := isFenceStart l) (splitFenced_eq_nil ls) (splitFenced_some ls),
      anySplits_cons (p := isOrderedStart l) (splitOrdered_eq_nil ls)
        (fun h => ⟨l :: (listLoop 0 ls).1, _, by simp only [splitOrdered, h]; rfl, by simp⟩),
      anySplits_cons (p := isTableStart l) (splitTable_eq_nil ls)
        (fun h => ⟨l :: (tableLoop 0 ls).1, _, by simp only [splitTable, h]; rfl, by simp⟩),
      anySplits_cons (p := isThematic l) (splitThematic_eq_nil ls)
        (fun h => ⟨[l], ls, by simp [splitThematic, h], by simp⟩)]
    simp only [anySplits, interrupts]
    cases isAtx l <;> cases isBlankLine l <;> cases isBulletStart l <;> cases isFenceStart l <;>
      cases isOrderedStart l <;> cases isTableStart l <;> cases isThematic l <;> rfl
  simp only [isParCont, e, bind, Except.bind]
  cases interrupts l <;> cases isSetextUnderline l <;> rfl

/-- a line that continues a paragraph -/
structure Continues (l : Str) : Prop where
  quote : isQuote l = false
  inter : interrupts l = false
  setext : isSetextUnderline l = false

/-- lines after a paragraph: none, or one that ends it -/
def Stops (rest : List Str) : Prop :=
  ∀ l, rest.head? = some l → isQuote l = false ∧ (interrupts l = true ∨ isSetextUnderline l = true)

theorem parLoop_eq {n : Nat} (body rest : List Str) (hb : ∀ l ∈ body, Continues l ∧ endsWith l c!"  " = false)
    (hr : Stops rest) : parLoop (splitQuote (n + 1)) (body ++ rest) = .ok (body, rest) := by
  induction body with
  | nil =>
    cases rest with
    | nil => rfl
    | cons l ls =>
      obtain ⟨h1, h2⟩ := hr l rfl
      simp only [List.nil_append, parLoop, isParCont_eq ls h1, bind, Except.bind]
      rcases h2 with h2 | h2 <;> simp [h2]
  | cons l body ih =>
    obtain ⟨h1, h2⟩ := hb l (by simp)
    simp only [List.cons_append, parLoop, isParCont_eq _ h1.quote, bind, Except.bind, h1.inter, h1.setext, h2,
      ih fun x hx => hb x (by simp [hx])]
    rfl

theorem splitParIgn_eq {n : Nat} {l : Str} (body rest : List Str) (hl : isParStart l = true)
    (hl2 : endsWith l c!"  " = false) (hb : ∀ x ∈ body, Continues x ∧ endsWith x c!"  " = false) (hr : Stops rest) :
    splitParIgn (splitQuote (n + 1)) (l :: body ++ rest) = .ok (l :: body, rest) := by
  simp only [List.cons_append, splitParIgn, hl, hl2, parLoop_eq body rest hb hr, bind, Except.bind]
  rfl

theorem firstSection_skip {f : List Str → Split} {ty : Sec} {fs : List (Sec × (List Str → Split))} {lines : List Str}
    (h : f lines = .ok ([], lines)) : firstSection ((ty, f) :: fs) lines = firstSection fs lines := by
  simp only [firstSection, h, bind, Except.bind]; rfl

theorem firstSection_take {f : List Str → Split} {ty : Sec} {fs : List (Sec × (List Str → Split))} {lines a b : List Str}
    (h : f lines = .ok (a, b)) (ha : a ≠ []) : firstSection ((ty, f) :: fs) lines = .ok (ty, a, b) := by
  simp only [firstSection, h, bind, Except.bind]
  cases a with
  | nil => exact absurd rfl ha
  | cons x a => rfl

theorem firstSection_atx {sbq : List Str → Split} {l : Str} (ls : List Str) (h : isAtx l = true) :
    firstSection (splitters sbq) (l :: ls) = .ok (.atx, [l], ls) :=
  firstSection_take (by simp [splitAtx, h]) (by simp)

theorem firstSection_blank {sbq : List Str → Split} {l : Str} (ls : List Str) (h : isBlankLine l = true) :
    firstSection (splitters sbq) (l :: ls) = .ok (.blank, [l], ls) := by
  have h1 : isAtx l = false := by
    cases h1 : isAtx l with
    | false => rfl
    | true => rw [← firstCh_none] at h; rw [isAtx_first h1] at h; cases h
  unfold splitters
  rw [firstSection_skip (splitAtx_eq_nil ls h1)]
  exact firstSection_take (by simp [splitBlank, h]) (by simp)

/-- the predicates that depend on the first character -/
theorem false_of_first {l : Str} {c : Char} (h : firstCh l = some c) :
    (c ≠ '#' → isAtx l = false) ∧ (c ≠ '>' → isQuote l = false) ∧ (c ≠ '|' → isTableStart l = false) ∧
    (c ≠ '`' → c ≠ '~' → isFenceStart l = false) ∧ (c ≠ '*' → c ≠ '+' → c ≠ '-' → isBulletStart l = false) ∧
    (isDigit c = false → isOrderedStart l = false) ∧ (c ≠ '*' → c ≠ '_' → c ≠ '-' → isThematic l = false) ∧
    (c ≠ '=' → c ≠ '-' → isSetextUnderline l = false) ∧ isBlankLine l = false := by
  refine ⟨?_, ?_, ?_, ?_, ?_, ?_, ?_, ?_, ?_⟩
  · intro hc
    cases h1 : isAtx l with
    | false => rfl
    | true => rw [isAtx_first h1] at h; cases h; exact absurd rfl hc
  · intro hc
    cases h1 : isQuote l with
    | false => rfl
    | true => rw [isQuote_first h1] at h; cases h; exact absurd rfl hc
  · intro hc
    cases h1 : isTableStart l with
    | false => rfl
    | true => rw [isTableStart_first.1 h1] at h; cases h; exact absurd rfl hc
  · intro hc hc2
    cases h1 : isFenceStart l with
    | false => rfl
    | true =>
      rcases isFenceStart_first h1 with h2 | h2 <;> rw [h2] at h <;> cases h
      · exact absurd rfl hc
      · exact absurd rfl hc2
  · intro hc hc2 hc3
    cases h1 : isBulletStart l with
    | false => rfl
    | true =>
      obtain ⟨d, h2, h3⟩ := isBulletStart_first h1
      rw [h2] at h; cases h
      rcases h3 with rfl | rfl | rfl
      · exact absurd rfl hc
      · exact absurd rfl hc2
      · exact absurd rfl hc3
  · intro hc
    cases h1 : isOrderedStart l with
    | false => rfl
    | true =>
      obtain ⟨d, h2, h3⟩ := isOrderedStart_first h1
      rw [h2] at h; cases h
      rw [h3] at hc; cases hc
  · intro hc hc2 hc3
    cases h1 : isThematic l with
    | false => rfl
    | true =>
      obtain ⟨d, h2, h3⟩ := isThematic_first h1
      rw [h2] at h; cases h
      rcases h3 with rfl | rfl | rfl
      · exact absurd rfl hc
      · exact absurd rfl hc2
      · exact absurd rfl hc3
  · intro hc hc2
    cases h1 : isSetextUnderline l with
    | false => rfl
    | true =>
      obtain ⟨d, r, h2, h3, _⟩ := underline_char h1
      have := firstCh_strip l
      rw [h2, h] at this
      cases this
      rcases h3 with rfl | rfl
      · exact absurd rfl hc
      · exact absurd rfl hc2
  · cases h1 : isBlankLine l with
    | false => rfl
    | true => rw [← firstCh_none, h] at h1; cases h1

theorem firstSection_thematic {n : Nat} {l : Str} (ls : List Str) (h : isThematic l = true) (hb : isBulletStart l = false) :
    firstSection (splitters (splitQuote (n + 1))) (l :: ls) = .ok (.thematic, [l], ls) := by
  obtain ⟨c, hc, hc2⟩ := isThematic_first h
  obtain ⟨h1, h2, h3, h4, _, h6, _, _, h9⟩ := false_of_first hc
  have hi : isIndentedStart l = false := by
    cases hi : isIndentedStart l with
    | false => rfl
    | true => simp [isThematic, hi] at h
  have hp : isParStart l = false := by simp [isParStart, h]
  have hd : isDigit c = false := by rcases hc2 with rfl | rfl | rfl <;> decide
  have hne : ∀ x ∈ c!"#>|`~[", c ≠ x := by
    intro x hx e
    subst e
    rcases hc2 with rfl | rfl | rfl <;> exact absurd hx (by decide)
  unfold splitters
  rw [firstSection_skip (splitAtx_eq_nil ls (h1 (hne _ (by decide)))), firstSection_skip (splitBlank_eq_nil ls h9),
    firstSection_skip (splitQuote_unquoted n ls (h2 (hne _ (by decide)))), firstSection_skip (splitBullet_eq_nil ls hb),
    firstSection_skip (splitFenced_eq_nil ls (h4 (hne _ (by decide)) (hne _ (by decide)))),
    firstSection_skip (splitIndented_eq_nil ls hi),
    firstSection_skip (splitLrd_eq_nil ls (by intro e; rw [hc] at e; exact absurd (Option.some.inj e) (hne '[' (by decide)))),
    firstSection_skip (splitOrdered_eq_nil ls (h6 hd)), firstSection_skip (splitPar_eq_nil ls hp),
    firstSection_skip (splitSetext_eq_nil ls hp), firstSection_skip (splitTable_eq_nil ls (h3 (hne _ (by decide))))]
  exact firstSection_take (by simp [splitThematic, h]) (by simp)

theorem firstSection_fenced {n : Nat} {l : Str} (content rest : List Str) (close : Str) (F : Str) (hF : openFence l = some F)
    (hc : ∀ c ∈ content, strip c ≠ F) (hcl : strip close = F) :
    firstSection (splitters (splitQuote (n + 1))) (l :: content ++ close :: rest) =
      .ok (.fenced, l :: content ++ [close], rest) := by
  have hfs : isFenceStart l = true := by
    cases h : isFenceStart l with
    | true => rfl
    | false => rw [(openFence_none l).2 h] at hF; cases hF
  have key : ∀ c, firstCh l = some c → c = '`' ∨ c = '~' →
      firstSection (splitters (splitQuote (n + 1))) (l :: content ++ close :: rest) =
        .ok (.fenced, l :: content ++ [close], rest) := by
    intro c hc1 hc2
    obtain ⟨h1, h2, _, _, h5, _, _, _, h9⟩ := false_of_first hc1
    have hne : ∀ x ∈ c!"#>*+-", c ≠ x := by
      intro x hx e
      subst e
      rcases hc2 with rfl | rfl <;> exact absurd hx (by decide)
    unfold splitters
    rw [List.cons_append, firstSection_skip (splitAtx_eq_nil _ (h1 (hne _ (by decide)))),
      firstSection_skip (splitBlank_eq_nil _ h9), firstSection_skip (splitQuote_unquoted n _ (h2 (hne _ (by decide)))),
      firstSection_skip (splitBullet_eq_nil _ (h5 (hne _ (by decide)) (hne _ (by decide)) (hne _ (by decide))))]
    exact firstSection_take ((C14_extent l _ F hF).1 content close rest rfl hc hcl) (by simp)
  rcases isFenceStart_first hfs with h | h
  · exact key _ h (.inl rfl)
  · exact key _ h (.inr rfl)

theorem firstSection_par {n : Nat} {l : Str} (body rest : List Str) (hl : isParStart l = true) (hlrd : NoLabel l)
    (hl2 : endsWith l c!"  " = false) (hb : ∀ x ∈ body, Continues x ∧ endsWith x c!"  " = false) (hr : Stops rest)
    (hs : ∀ x, rest.head? = some x → isSetextUnderline x = false) :
    firstSection (splitters (splitQuote (n + 1))) (l :: body ++ rest) = .ok (.par, l :: body, rest) := by
  have hp := hl
  simp only [isParStart, List.any_cons, List.any_nil, Bool.or_false, Bool.not_eq_true', Bool.or_eq_false_iff] at hp
  obtain ⟨p1, p2, p3, p4, p5, p6, p7, p8, p9⟩ := hp
  unfold splitters
  rw [List.cons_append, firstSection_skip (splitAtx_eq_nil _ p2), firstSection_skip (splitBlank_eq_nil _ p3),
    firstSection_skip (splitQuote_unquoted n _ p5), firstSection_skip (splitBullet_eq_nil _ p4),
    firstSection_skip (splitFenced_eq_nil _ p6), firstSection_skip (splitIndented_eq_nil _ p1),
    firstSection_skip (splitLrd_eq_nil _ hlrd), firstSection_skip (splitOrdered_eq_nil _ p7)]
  refine firstSection_take ?_ (by simp)
  have := splitParIgn_eq (n := n) body rest hl hl2 hb hr
  rw [List.cons_append] at this
  simp only [splitPar, this, bind, Except.bind]
  cases rest with
  | nil => rfl
  | cons x xs => simp [hs x rfl]

theorem firstSection_setext {n : Nat} {l : Str} (body rest : List Str) (under : Str) (hl : isParStart l = true)
    (hlrd : NoLabel l) (hl2 : endsWith l c!"  " = false)
    (hb : ∀ x ∈ body, Continues x ∧ endsWith x c!"  " = false) (hu : isSetextUnderline under = true) :
    firstSection (splitters (splitQuote (n + 1))) (l :: body ++ under :: rest) =
      .ok (.setext, l :: body ++ [under], rest) := by
  have hp := hl
  simp only [isParStart, List.any_cons, List.any_nil, Bool.or_false, Bool.not_eq_true', Bool.or_eq_false_iff] at hp
  obtain ⟨p1, p2, p3, p4, p5, p6, p7, p8, p9⟩ := hp
  have hr : Stops (under :: rest) := by
    intro x hx
    cases hx
    refine ⟨?_, .inr hu⟩
    obtain ⟨c, r, h1, h2, _⟩ := underline_char hu
    have hfc : firstCh under = some c := by rw [← firstCh_strip, h1]; rfl
    refine (false_of_first hfc).2.1 ?_
    rcases h2 with rfl | rfl <;> decide
  have := splitParIgn_eq (n := n) body (under :: rest) hl hl2 hb hr
  rw [List.cons_append] at this
  unfold splitters
  rw [List.cons_append, firstSection_skip (splitAtx_eq_nil _ p2), firstSection_skip (splitBlank_eq_nil _ p3),
    firstSection_skip (splitQuote_unquoted n _ p5), firstSection_skip (splitBullet_eq_nil _ p4),
    firstSection_skip (splitFenced_eq_nil _ p6), firstSection_skip (splitIndented_eq_nil _ p1),
    firstSection_skip (splitLrd_eq_nil _ hlrd), firstSection_skip (splitOrdered_eq_nil _ p7), firstSection_skip (f := splitPar _)]
  · refine firstSection_take ?_ (by simp)
    simp only [splitSetext, this, bind, Except.bind, hu]
    rfl
  · simp only [splitPar, this, bind, Except.bind, hu]
    rfl

end MF
