import Verif.Props.CommonBlocks
/-!
# C125: how CommonMark reads documents in normal form
-/

namespace MF

open CM (Piece Ev Leaf Ctr State)

/-! ## Paragraphs -/

theorem splitWs_glue (a L : Str) {c d : Char} (hc : isWs c = false) (hd : isWs d = false) :
    ∃ pre x y post, splitWs (a ++ [c]) = pre ++ [x ++ [c]] ∧ splitWs (d :: L) = y :: post ∧
      splitWs (a ++ c :: d :: L) = pre ++ (x ++ c :: y) :: post := by
  obtain ⟨y, post, hy⟩ := List.exists_cons_of_ne_nil (splitWs_ne_nil (r := L) hd)
  induction a with
  | nil =>
    refine ⟨[], [], y, post, by simp [splitWs_single hc], hy, ?_⟩
    rw [List.nil_append, splitWs_more hc hd, hy]; rfl
  | cons b a ih =>
    obtain ⟨pre, x, y', post', h1, h2, h3⟩ := ih
    rw [hy] at h2
    obtain ⟨rfl, rfl⟩ := List.cons.inj h2
    cases hb : isWs b with
    | true =>
      refine ⟨pre, x, y, post, ?_, hy, ?_⟩
      · rw [List.cons_append, splitWs_ws _ _ hb, h1]
      · rw [List.cons_append, splitWs_ws _ _ hb, h3]
    | false =>
      cases a with
      | nil =>
        rw [List.nil_append, splitWs_single hc] at h1
        rw [List.nil_append, splitWs_more hc hd, hy] at h3
        refine ⟨[], [b], y, post, ?_, hy, ?_⟩
        · show splitWs (b :: [c]) = _
          rw [splitWs_more hb hc, splitWs_single hc]; rfl
        · show splitWs (b :: c :: d :: L) = _
          rw [splitWs_more hb hc, splitWs_more hc hd, hy]; rfl
      | cons e a =>
        simp only [List.cons_append] at h1 h3 ⊢
        cases he : isWs e with
        | true =>
          rw [splitWs_ws _ _ he] at h1 h3
          refine ⟨[b] :: pre, x, y, post, ?_, hy, ?_⟩
          · rw [splitWs_end hb he, h1]; rfl
          · rw [splitWs_end hb he, h3]; rfl
        | false =>
          rw [splitWs_more hb he, splitWs_more hb he, h1, h3]
          cases pre with
          | nil => exact ⟨[], b :: x, y, post, rfl, hy, rfl⟩
          | cons p pre => exact ⟨(b :: p) :: pre, x, y, post, rfl, hy, rfl⟩

theorem finePieces_words (ws : List Str) (X : List Piece) :
    finePieces (ws.map .word ++ X) = ws.foldr fineWord (finePieces X) := by
  induction ws with
  | nil => rfl
  | cons w ws ih => simp [finePieces, ih]

/-- the target of a link may be on the same line or not -/
theorem fineWord_glue {x y : Str} (hx : targetNext x = true) (hy : y ≠ []) (X : List Piece) :
    fineWord (x ++ y) X = fineWord x (fineWord y X) := by
  have hxe : ∃ r o, x = r ++ [']', o] ∧ (o = '(' ∨ o = '[') := by
    simp only [targetNext, Bool.or_eq_true] at hx
    rcases hx with h | h
    · obtain ⟨r, rfl⟩ := (endsWith_iff _ _).1 h; exact ⟨r, _, rfl, .inl rfl⟩
    · obtain ⟨r, rfl⟩ := (endsWith_iff _ _).1 h; exact ⟨r, _, rfl, .inr rfl⟩
  have key : targetNext (x ++ y) = targetNext y := by
    obtain ⟨r, o, rfl, ho⟩ := hxe
    have hs : ∀ p, (p = '(' ∨ p = '[') → endsWith (r ++ [']', o] ++ y) [']', p] = endsWith y [']', p] := by
      intro p hp
      rw [Bool.eq_iff_iff, endsWith_iff, endsWith_iff]
      constructor
      · rintro ⟨q, hq⟩
        obtain ⟨y', c, rfl⟩ : ∃ y' c, y = y' ++ [c] := ⟨_, _, (List.dropLast_concat_getLast hy).symm⟩
        have h1 := congrArg List.reverse hq
        simp at h1
        obtain ⟨rfl, h1⟩ := h1
        cases hz : y'.reverse with
        | nil =>
          rw [hz] at h1
          simp at h1
          rcases ho with rfl | rfl <;> cases h1.1
        | cons e f =>
          rw [hz] at h1
          simp at h1
          refine ⟨f.reverse, ?_⟩
          have : y' = f.reverse ++ [e] := by rw [← List.reverse_reverse y', hz]; simp
          rw [this, h1.1]; simp
      · rintro ⟨q, rfl⟩
        exact ⟨r ++ [']', o] ++ q, by simp⟩
    unfold targetNext
    rw [hs '(' (.inl rfl), hs '[' (.inr rfl)]
  cases X with
  | nil => simp [fineWord, hx]
  | cons p X =>
    cases p with
    | br => simp [fineWord, hx]
    | word v =>
      simp only [fineWord, key]
      cases hty : targetNext y <;> simp [hx]

/-- the last word of a text that ends in `](` or `][` ends in it, too -/
theorem last_targets {s v : Str} {pre : List Str} (hs : splitWs s = pre ++ [v]) (h : targetNext s = true) :
    targetNext v = true := by
  have key : ∀ o, isWs o = false → endsWith s [']', o] = true → endsWith v [']', o] = true := by
    intro o ho he
    obtain ⟨q, rfl⟩ := (endsWith_iff _ _).1 he
    obtain ⟨pre', x, y, post, _, h2, h3⟩ := splitWs_glue q [] (c := ']') (d := o) (by decide) ho
    rw [splitWs_single ho] at h2
    obtain ⟨rfl, rfl⟩ := List.cons.inj h2
    rw [hs] at h3
    have := congrArg List.getLast? h3
    rw [List.getLast?_concat, List.getLast?_concat] at this
    rw [Option.some.inj this]
    exact (endsWith_iff _ _).2 ⟨x, rfl⟩
  simp only [targetNext, Bool.or_eq_true] at h ⊢
  rcases h with h | h
  · exact .inl (key _ (by decide) h)
  · exact .inr (key _ (by decide) h)

/-- a line of tokens -/
structure LineOk (L : Str) : Prop where
  spaced : Spaced L
  starts : ∃ c r, L = c :: r ∧ isWs c = false
  ends : ∃ r c, L = r ++ [c] ∧ isWs c = false ∧ c ≠ '\\'
  opens : CmOpens L

theorem CmTok.line {t : Tok} (h : CmTok t) : LineOk t.text := by
  obtain ⟨w, ws, hw, hcw⟩ := h.opens
  have hne : t.text ≠ [] := by intro e; rw [e] at hw; cases hw
  have hst : Stripped t.text := ⟨hne, h.stripped⟩
  refine ⟨h.spaced, hst.starts, ?_, w, ws, hw, hcw⟩
  obtain ⟨r, c, e, hc⟩ := hst.ends
  refine ⟨r, c, e, hc, ?_⟩
  rintro rfl
  exact h.noSlash (by rw [e]; simp)

theorem word_extended {x y : Str} (h : CmWord x) (ht : targetNext x = true) (hy : ∀ c ∈ y, isWs c = false) : CmWord (x ++ y) := by
  have hm : ∃ r o, x = r ++ [']', o] := by
    simp only [targetNext, Bool.or_eq_true] at ht
    rcases ht with h | h
    · obtain ⟨r, rfl⟩ := (endsWith_iff _ _).1 h; exact ⟨r, _, rfl⟩
    · obtain ⟨r, rfl⟩ := (endsWith_iff _ _).1 h; exact ⟨r, _, rfl⟩
  have hno : ∀ e, ¬ ∃ ds, x ++ y = ds ++ [e] ∧ ∀ d ∈ ds, isDigit d = true := by
    rintro e ⟨ds, he, hd⟩
    obtain ⟨r, o, rfl⟩ := hm
    have h1 := congrArg List.dropLast he
    rw [List.dropLast_concat, List.append_assoc] at h1
    have : ']' ∈ ds := by
      rw [← h1, List.dropLast_append_of_ne_nil (by simp)]
      simp
    exact absurd (hd _ this) (by decide)
  obtain ⟨c, r, e⟩ := List.exists_cons_of_ne_nil h.ne
  have hh : (x ++ y).head? = x.head? := by rw [e]; rfl
  refine ⟨⟨by simp [h.ne], ?_, by rw [hh]; exact h.start, ?_, ?_, hno _⟩, hno _, by rw [hh]; exact h.noHtml⟩
  · intro c hc
    rcases List.mem_append.1 hc with hc | hc
    · exact h.noWs c hc
    · exact hy c hc
  · intro z hz
    obtain ⟨c, hc, hn⟩ := h.fence z hz
    refine ⟨c, ?_, hn⟩
    rw [List.take_append]
    exact List.mem_append_left _ hc
  · intro z hz
    obtain ⟨c, hc, hn⟩ := h.rule z hz
    exact ⟨c, List.mem_append_left _ hc, hn⟩

/-- the text of a line, and its words -/
theorem line_ok {g : List Tok} {t : Tok} (h : ∀ x ∈ t :: g, CmTok x)
    (ha : Adj (fun a b => b.gap = .space ∨ b.gap = .link ∧ targetNext a.text = true) (t :: g)) :
    LineOk (lineText (t :: g)) ∧
      ∀ X, (splitWs (lineText (t :: g))).foldr fineWord X = (tokWords (t :: g)).foldr fineWord X := by
  induction g generalizing t with
  | nil =>
    have : lineText [t] = t.text := by simp [lineText]
    rw [this]
    exact ⟨(h t (by simp)).line, fun X => by simp [tokWords, words]⟩
  | cons u g ih =>
    obtain ⟨h1, h2⟩ := ih (t := u) (fun x hx => h x (by simp [hx])) ha.tail
    have ht := h t (by simp)
    have hl := ht.line
    obtain ⟨r, c, ec, hc, hcs⟩ := hl.ends
    obtain ⟨d, L, ed, hd⟩ := h1.starts
    have hw : tokWords (t :: u :: g) = splitWs t.text ++ tokWords (u :: g) := by simp [tokWords, words]
    have starts : ∀ s, ∃ c r, t.text ++ s = c :: r ∧ isWs c = false := by
      intro s
      obtain ⟨c, r, e, hc⟩ := hl.starts
      exact ⟨c, r ++ s, by rw [e]; rfl, hc⟩
    have ends : ∀ s, ∃ r c, s ++ lineText (u :: g) = r ++ [c] ∧ isWs c = false ∧ c ≠ '\\' := by
      intro s
      obtain ⟨r, c, e, hc⟩ := h1.ends
      exact ⟨s ++ r, c, by rw [e]; simp, hc⟩
    rcases ha.head with hg | ⟨hg, htn⟩
    · have e : lineText (t :: u :: g) = t.text ++ ' ' :: lineText (u :: g) := by
        simp [lineText, Tok.spaced, hg]
      have hs : splitWs (lineText (t :: u :: g)) = splitWs t.text ++ splitWs (lineText (u :: g)) := by
        rw [e, splitWs_append_ws _ _ _ (by decide)]
      refine ⟨⟨?_, ?_, ?_, ?_⟩, fun X => ?_⟩
      · rw [e]
        intro x hx hxw
        rcases List.mem_append.1 hx with hx | hx
        · exact hl.spaced x hx hxw
        · rcases List.mem_cons.1 hx with rfl | hx
          · rfl
          · exact h1.spaced x hx hxw
      · rw [e]; exact starts _
      · rw [e]
        have := ends (t.text ++ [' '])
        simpa using this
      · obtain ⟨w, ws, hws, hcw⟩ := hl.opens
        exact ⟨w, ws ++ splitWs (lineText (u :: g)), by rw [hs, hws]; rfl, hcw⟩
      · rw [hs, hw, List.foldr_append, List.foldr_append, h2]
    · have e : lineText (t :: u :: g) = t.text ++ lineText (u :: g) := by
        simp [lineText, Tok.spaced, hg]
      obtain ⟨pre, x, y, post, g1, g2, g3⟩ := splitWs_glue r L hc hd
      rw [← ec] at g1
      rw [← ed] at g2 g3
      have hs : splitWs (lineText (t :: u :: g)) = pre ++ ((x ++ [c]) ++ y) :: post := by
        rw [e, ec, List.append_assoc, List.singleton_append, g3]; simp
      have hy := splitWs_word (s := lineText (u :: g)) (w := y) (by rw [g2]; simp)
      have hx := splitWs_word (s := t.text) (w := x ++ [c]) (by rw [g1]; simp)
      have hxt : targetNext (x ++ [c]) = true := last_targets g1 htn
      refine ⟨⟨?_, ?_, ?_, ?_⟩, fun X => ?_⟩
      · rw [e]
        intro x hx hxw
        rcases List.mem_append.1 hx with hx | hx
        · exact hl.spaced x hx hxw
        · exact h1.spaced x hx hxw
      · rw [e]; exact starts _
      · rw [e]; exact ends _
      · obtain ⟨w, ws, hws, hcw⟩ := hl.opens
        rw [g1] at hws
        cases pre with
        | nil =>
          rw [List.nil_append] at hws
          obtain ⟨rfl, _⟩ := List.cons.inj hws
          exact ⟨_, post, hs, word_extended hcw hxt hy.2.1⟩
        | cons p pre =>
          obtain ⟨rfl, _⟩ := List.cons.inj hws
          exact ⟨p, _, hs, hcw⟩
      · rw [hs, hw, g1, List.foldr_append, List.foldr_append, List.foldr_append, ← h2, g2]
        simp only [List.foldr_cons, List.foldr_nil]
        rw [fineWord_glue hxt hy.1]

/-- labels of link definitions are within tokens -/
theorem line_labelled {g : List Tok} {t : Tok} (h : ∀ x ∈ t :: g, CM.labelled x.text = false)
    (ha : Adj (fun a b => b.gap = .space ∨ b.gap = .link ∧ targetNext a.text = true) (t :: g)) :
    CM.labelled (lineText (t :: g)) = false := by
  induction g generalizing t with
  | nil => simpa [lineText] using h t (by simp)
  | cons u g ih =>
    have h1 := ih (t := u) (fun x hx => h x (by simp [hx])) ha.tail
    have ht := h t (by simp)
    rcases ha.head with hg | ⟨hg, htn⟩
    · have e : lineText (t :: u :: g) = t.text ++ ' ' :: lineText (u :: g) := by
        simp [lineText, Tok.spaced, hg]
      rw [e, labelled_append (.inr (by simp)), ht]
      show (false || ((' ' == ']' && _) || CM.labelled (lineText (u :: g)))) = false
      rw [h1]; rfl
    · have e : lineText (t :: u :: g) = t.text ++ lineText (u :: g) := by
        simp [lineText, Tok.spaced, hg]
      rw [e, labelled_append (.inl ?_), ht, h1]
      · rfl
      · simp only [targetNext, Bool.or_eq_true] at htn
        rcases htn with h | h <;> (obtain ⟨r, hr⟩ := (endsWith_iff _ _).1 h; rw [hr]; simp)

/-- the first line starts with the first token -/
theorem lay_start (w : Width) {ts : List Tok} (h : CmToks ts)
    (hs : ∀ t, ts.head? = some t → t.text.head? ≠ some '[') : ∀ l, (layLines w ts).head? = some l → l.head? ≠ some '[' := by
  have hfl := lay_flatten w ts []
  rw [List.nil_append] at hfl
  have hgn := lay_ne w ts []
  intro l hl
  unfold layLines at hl
  cases hlay : lay w [] ts with
  | nil => rw [hlay] at hl; cases hl
  | cons g gs =>
    rw [hlay] at hl
    have : lineText g = l := by simpa using hl
    rw [← this]
    obtain ⟨t, r, rfl⟩ := List.exists_cons_of_ne_nil (hgn g (by rw [hlay]; simp))
    have ht := hs t (by rw [← hfl, hlay]; simp)
    obtain ⟨c, s, e, _⟩ := (h.tok t (by rw [← hfl, hlay]; simp)).line.starts
    rw [e] at ht
    simpa [lineText, e] using ht

theorem lay_text (w : Width) {ts : List Tok} (h : CmToks ts) :
    RText (layLines w ts) ts ∧ ∀ l ∈ layLines w ts, CM.indent l = 0 := by
  have hfl := lay_flatten w ts []
  rw [List.nil_append] at hfl
  have hgn := lay_ne w ts []
  have adj : ∀ {g}, g ∈ lay w [] ts → Adj (fun a b : Tok => b.gap = .space ∨ b.gap = .link ∧ targetNext a.text = true) g := by
    intro g hg
    obtain ⟨a, b, e⟩ := List.append_of_mem hg
    refine Adj.infix (p := a.flatten) (r := b.flatten) ?_
    have := h.gaps
    rw [← hfl, e] at this
    simpa using this
  have facts : ∀ g ∈ lay w [] ts, LineOk (lineText g) ∧
      ∀ X, (splitWs (lineText g)).foldr fineWord X = (tokWords g).foldr fineWord X := by
    intro g hg
    have ha := adj hg
    obtain ⟨t, r, rfl⟩ := List.exists_cons_of_ne_nil (hgn g hg)
    exact line_ok (fun x hx => h.tok x (by rw [← hfl]; exact List.mem_flatten.2 ⟨_, hg, hx⟩)) ha
  have hind : ∀ {L : Str}, LineOk L → CM.indent L = 0 ∧ CM.text L = L := by
    intro L hL
    obtain ⟨c, r, e, hc⟩ := hL.starts
    have : c ≠ ' ' := by rintro rfl; cases hc
    rw [e]; simp [CM.indent, CM.text, this]
  refine ⟨⟨?_, ?_, ?_, ?_⟩, ?_⟩
  · intro e
    unfold layLines at e
    rw [List.map_eq_nil_iff.1 e] at hfl
    exact h.ne hfl.symm
  · have key : ∀ gs : List (List Tok), (∀ g ∈ gs, ∀ X, (splitWs (lineText g)).foldr fineWord X = (tokWords g).foldr fineWord X) →
        (words (gs.map lineText)).foldr fineWord [] = (tokWords gs.flatten).foldr fineWord [] := by
      intro gs
      induction gs with
      | nil => intro _; rfl
      | cons g gs ih =>
        intro hg
        have e1 : words ((g :: gs).map lineText) = splitWs (lineText g) ++ words (gs.map lineText) := by simp [words]
        have e2 : tokWords (g :: gs).flatten = tokWords g ++ tokWords gs.flatten := by simp [tokWords, words]
        rw [e1, e2, List.foldr_append, List.foldr_append, ih fun x hx => hg x (by simp [hx]), hg g (by simp)]
    have h1 := finePieces_words (words (layLines w ts)) []
    have h2 := finePieces_words (tokWords ts) []
    rw [List.append_nil] at h1 h2
    rw [h1, tokPieces, h2]
    have := key (lay w [] ts) fun g hg => (facts g hg).2
    rw [hfl] at this
    exact this
  · intro l hl
    obtain ⟨g, hg, rfl⟩ := List.mem_map.1 hl
    have hL := (facts g hg).1
    obtain ⟨r, c, e, hc, hcs⟩ := hL.ends
    refine ⟨hL.spaced, by rw [(hind hL).1]; omega, hL.opens, ?_, ?_⟩
    · rw [e]; simpa using hcs
    · rintro ⟨q, hq⟩
      rw [e] at hq
      have := congrArg List.getLast? hq
      simp at this
      subst this
      cases hc
  · have htx : (layLines w ts).map CM.text = layLines w ts := by
      conv => rhs; rw [← List.map_id (layLines w ts)]
      refine List.map_congr_left fun l hl => ?_
      obtain ⟨g, hg, rfl⟩ := List.mem_map.1 hl
      exact (hind (facts g hg).1).2
    rw [htx]
    rcases defines_cases h.start with hs | hs
    · refine defines_start (lay_start w h fun t ht => hs t.text ?_)
      rw [List.head?_map, ht]; rfl
    · refine defines_none fun l hl => ?_
      obtain ⟨g, hg, rfl⟩ := List.mem_map.1 hl
      obtain ⟨t, r, rfl⟩ := List.exists_cons_of_ne_nil (hgn g hg)
      refine line_labelled (fun x hx => hs _ (List.mem_map.2 ⟨x, ?_, rfl⟩)) (adj hg)
      rw [← hfl]; exact List.mem_flatten.2 ⟨_, hg, hx⟩
  · intro l hl
    obtain ⟨g, hg, rfl⟩ := List.mem_map.1 hl
    exact (hind (facts g hg).1).1

theorem opens_ne {l : Str} (h : CmOpens l) : splitWs l ≠ [] := by
  obtain ⟨w, ws, e, _⟩ := h
  rw [e]; simp

theorem rtext_nonblank {ls : List Str} {ts : List Tok} (h : RText ls ts) : ∀ l ∈ ls, CM.blank l = false := by
  intro l hl
  have := opens_ne (h.line l hl).2.2.1
  cases hb : CM.blank l with
  | false => rfl
  | true =>
    exfalso
    apply this
    exact splitWs_all_ws (blank_ws hb)

theorem rtext_busy {ls : List Str} {ts : List Tok} (h : RText ls ts) : ∀ l ∈ ls, Busy l := by
  intro l hl x hx
  obtain ⟨w, u, hw, hcw⟩ := (h.line l hl).2.2.1
  obtain ⟨c, hc, hne⟩ := hcw.rule x (by revert hx; simp; intro hx; rcases hx with rfl | rfl | rfl <;> simp)
  obtain ⟨rest, h1, _⟩ := first_word hw
  refine ⟨c, (List.dropWhile_suffix _).subset (show c ∈ lstrip l by rw [h1]; simp [hc]), ?_, hne⟩
  rintro rfl
  exact absurd (hcw.noWs ' ' hc) (by decide)

theorem blank_blanks (n : Nat) (l : Str) : CM.blank (blanks n ++ l) = CM.blank l := by
  simp [CM.blank, blanks]

theorem indent_blanks (n : Nat) (l : Str) : CM.indent (blanks n ++ l) = n + CM.indent l := by
  induction n with
  | zero => simp [blanks]
  | succ n ih =>
    have : CM.indent (blanks (n + 1) ++ l) = CM.indent (blanks n ++ l) + 1 := by
      simp [CM.indent, blanks, List.replicate_succ]
    rw [this, ih]; omega

theorem spaced_append {a b : Str} (ha : Spaced a) (hb : Spaced b) : Spaced (a ++ b) := by
  intro c hc hw
  rcases List.mem_append.1 hc with h | h
  · exact ha c h hw
  · exact hb c h hw

theorem spaced_noWs {a : Str} (h : ∀ c ∈ a, isWs c = false) : Spaced a := by
  intro c hc hw
  rw [h c hc] at hw; cases hw

theorem spaced_blanks (n : Nat) : Spaced (blanks n) := fun _ hc _ => List.eq_of_mem_replicate hc

/-! ## Blocks in normal form -/

/-- what holds for a block that is written down -/
structure PNode (d : Nat) (w : Width) (a : Node) : Prop where
  read : RNode (RDoc d) (a.print w) a
  spaced : ∀ l ∈ a.print w, Spaced l
  full : a.solid → ∀ l ∈ a.print w, CM.blank l = false
  first : a ≠ .blank → ∃ l r, a.print w = l :: r ∧ CM.blank l = false ∧
    (CM.indent l = 0 ∧ (∀ b, a ≠ .indented b) ∨ 4 ≤ CM.indent l ∧ ∃ b, a = .indented b) ∧ (a.solid → Busy l)
  text : a.isText = true → ∀ ls', Slid ls' (a.print w) → RNode (RDoc d) ls' a
  slide : a.slides = true → ∀ x, x < 4 → RNode (RDoc d) ((a.print w).map (blanks x ++ ·)) a

/-- the same for a document -/
structure PDoc (d : Nat) (w : Width) (doc : List Node) : Prop where
  read : RDoc d (printDoc w doc) doc
  spaced : ∀ l ∈ printDoc w doc, Spaced l
  full : (∀ a ∈ doc, a.solid) → ∀ l ∈ printDoc w doc, CM.blank l = false
  first : doc ≠ [] → (∀ a ∈ doc, a.solid) → ∃ l r, printDoc w doc = l :: r ∧ (CM.indent l = 0 ∨ 4 ≤ CM.indent l) ∧ Busy l
  hung : slidesDoc doc = true → (∀ a ∈ doc, a.solid) → ∀ x, x < 4 → RDoc d (hang [] (blanks x) (printDoc w doc)) doc

theorem text_indent (n : Nat) (l : Str) : CM.text (blanks n ++ l) = CM.text l := by
  induction n with
  | zero => rfl
  | succ n ih => exact ih

theorem blanks_ws (n : Nat) : ∀ c ∈ blanks n, isWs c = true := replicate_ws n

theorem words_slid {ls' ls : List Str} (h : Slid ls' ls) : words ls' = words ls := by
  induction h with
  | nil => rfl
  | cons h _ ih =>
    obtain ⟨i, _, rfl⟩ := h
    show splitWs _ ++ words _ = splitWs _ ++ words _
    rw [ih, splitWs_prepend_all (replicate_ws i)]

theorem slid_texts {ls' ls : List Str} (h : Slid ls' ls) : ls'.map CM.text = ls.map CM.text := by
  induction h with
  | nil => rfl
  | cons h _ ih =>
    obtain ⟨i, _, rfl⟩ := h
    rw [List.map_cons, List.map_cons, ih]
    congr 1
    exact text_indent i _

/-- indented text -/
theorem rtext_slid {ls' ls : List Str} {ts : List Tok} (h : RText ls ts) (h0 : ∀ l ∈ ls, CM.indent l = 0) (hs : Slid ls' ls) :
    RText ls' ts := by
  refine ⟨?_, by rw [words_slid hs]; exact h.words, ?_, ?_⟩
  · rintro rfl
    cases hs
    exact h.ne rfl
  · intro l' hl'
    obtain ⟨l, hl, i, hi, rfl⟩ := slid_mem hs l' hl'
    obtain ⟨h1, h2, h3, h4, h5⟩ := h.line l hl
    have hne : l ≠ [] := by rintro rfl; exact opens_ne h3 rfl
    refine ⟨spaced_append (spaced_blanks i) h1, ?_, ?_, ?_, ?_⟩
    · have := indent_blanks i l
      rw [h0 l hl] at this
      show CM.indent (blanks i ++ l) < 4
      omega
    · obtain ⟨w, ws, e, hw⟩ := h3
      exact ⟨w, ws, by rw [splitWs_prepend_all (replicate_ws i)]; exact e, hw⟩
    · rw [List.getLast?_append, List.getLast?_eq_some_getLast hne] at *; exact h4
    · rintro ⟨r, e⟩
      rcases List.suffix_or_suffix_of_suffix (⟨_, e.symm⟩ : c!"  " <:+ List.replicate i ' ' ++ l) ⟨_, rfl⟩ with ⟨t, ht⟩ | ht
      · exact h5 ⟨t, ht.symm⟩
      · apply opens_ne h3
        refine splitWs_all_ws fun c hc => ?_
        have := ht.subset hc
        simp at this
        rw [this]; decide
  · rw [slid_texts hs]
    exact h.start

/-- blocks of text that are indented -/
theorem text_cm {d : Nat} {w : Width} {a : Node} (hr : a.Reg (d + 1)) (ht : a.isText = true) {ls' : List Str}
    (hs : Slid ls' (a.print w)) : RNode (RDoc d) ls' a := by
  cases a with
  | heading k t =>
    obtain ⟨h1, h6, hne, hst, hsp⟩ := hr
    cases hs with
    | cons h hs =>
      cases hs
      obtain ⟨i, hi, rfl⟩ := h
      have := RNode.heading (R := RDoc d) (i := i) (k := k) (t := ' ' :: t) hi rfl
      rw [strip_space, hst] at this
      exact this
  | underlined c ts =>
    obtain ⟨hc, hts⟩ := hr
    obtain ⟨ht, hi0⟩ := lay_text w hts
    have hnb := rtext_nonblank ht
    obtain ⟨m, hm⟩ : ∃ m, longestLine (layLines w ts) = m + 1 := by
      obtain ⟨l, r, e⟩ := List.exists_cons_of_ne_nil ht.ne
      have := (longestLine_spec ht.ne).1 l (by rw [e]; simp)
      have h2 : l ≠ [] := by
        rintro rfl
        have := hnb [] (by rw [e]; simp)
        cases this
      have : 1 ≤ l.length := by cases l with | nil => exact absurd rfl h2 | cons => simp
      exact ⟨longestLine (layLines w ts) - 1, by omega⟩
    obtain ⟨xs, x, rfl, hxs, i, hi, rfl⟩ := each_snoc hs
    have := RNode.underlined (R := RDoc d) (i := i) (m := m) (j := 0) (c := c) (rtext_slid ht hi0 hxs) hi
    simpa [hm, blanks] using this
  | par ts =>
    obtain ⟨ht, hi0⟩ := lay_text w hr
    exact .par (rtext_slid ht hi0 hs)
  | hard ts =>
    obtain ⟨hr, hrs⟩ := hr
    obtain ⟨ht, hi0⟩ := lay_text w hr
    obtain ⟨r, l, e1, e2⟩ := hardLast_ne ht.ne
    rw [Node.print, e2] at hs
    obtain ⟨xs, x, rfl, hxs, i, hi, rfl⟩ := each_snoc hs
    rw [← List.append_assoc]
    have : Slid (xs ++ [List.replicate i ' ' ++ l]) (layLines w ts) := by
      rw [e1]
      clear hs e1 e2
      induction hxs with
      | nil => exact .cons ⟨i, hi, rfl⟩ .nil
      | cons h _ ih => exact .cons h ih
    refine .hard (j := 0) (rtext_slid ht hi0 this) fun x hx => ?_
    have h2 : (layLines w ts).map CM.text = layLines w ts := by
      conv => rhs; rw [← List.map_id (layLines w ts)]
      refine List.map_congr_left fun l hl => ?_
      have := (cm_split l).1
      rw [hi0 l hl] at this
      exact this.symm
    refine lay_start w hr hrs _ ?_
    rw [← h2, ← slid_texts this, List.head?_map, hx]
    rfl
  | _ => cases ht

/-- nothing comes after a list in an entry -/
theorem solid_flush {p : Prev} {doc : List Node} (hp : ∀ m loose, p ≠ .list m true loose) (hs : ∀ a ∈ doc, a.solid)
    (hf : CmFlow p doc) (parts : List (List Str)) : CmFlush p parts doc := by
  induction doc generalizing p parts with
  | nil => cases parts <;> trivial
  | cons a r ih =>
    cases parts with
    | nil => trivial
    | cons b bs =>
      have ha := hs a (by simp)
      refine ⟨?_, ih ?_ (fun x hx => hs x (by simp [hx])) hf.2 bs⟩
      · intro hl hb
        exfalso
        cases p with
        | list m g loose =>
          cases g with
          | true => exact hp m loose rfl
          | false => cases a <;> first | exact hf.1 | exact ha
        | _ => cases hl
      · intro m loose e
        cases a <;> first | exact ha | cases e

theorem flow_flush {d : Nat} {w : Width} {doc : List Node} {p : Prev} (h : ∀ a ∈ doc, PNode d w a) (hf : CmFlow p doc) :
    CmFlush p (doc.map (Node.print w)) doc := by
  induction doc generalizing p with
  | nil => trivial
  | cons a r ih =>
    refine ⟨?_, ih (fun x hx => h x (by simp [hx])) hf.2⟩
    intro hp hb
    obtain ⟨l, ls, e, _, h1, _⟩ := (h a (by simp)).first hb
    rw [e]
    rcases h1 with h1 | ⟨_, b, rfl⟩
    · exact h1.1
    · exfalso
      have := hf.1
      cases p with
      | list m g => cases g <;> exact this
      | _ => cases hp

theorem pdoc_of {d : Nat} {w : Width} {doc : List Node} (h : ∀ a ∈ doc, PNode d w a) (hf : CmFlow .free doc) : PDoc (d + 1) w doc := by
  have hm : ∀ l ∈ printDoc w doc, ∃ a ∈ doc, l ∈ a.print w := by
    intro l hl
    rw [← printDoc_flatten] at hl
    obtain ⟨x, hx, hl⟩ := List.mem_flatten.1 hl
    obtain ⟨a, ha, rfl⟩ := List.mem_map.1 hx
    exact ⟨a, ha, hl⟩
  refine ⟨⟨doc.map (Node.print w), printDoc_flatten w doc, ?_, flow_flush h hf⟩, ?_, ?_, ?_, ?_⟩
  · clear hf hm
    induction doc with
    | nil => exact .nil
    | cons a r ih => exact .cons (h a (by simp)).read (ih fun x hx => h x (by simp [hx]))
  · intro l hl
    obtain ⟨a, ha, hl⟩ := hm l hl
    exact (h a ha).spaced l hl
  · intro hs l hl
    obtain ⟨a, ha, hl⟩ := hm l hl
    exact (h a ha).full (hs a ha) l hl
  · intro hne hs
    obtain ⟨a, r, rfl⟩ := List.exists_cons_of_ne_nil hne
    have hb : a ≠ .blank := by
      rintro rfl
      exact hs .blank (by simp)
    obtain ⟨l, ls, e, _, h1, h2⟩ := (h a (by simp)).first hb
    refine ⟨l, ls ++ printDoc w r, by simp [printDoc, e], ?_, h2 (hs a (by simp))⟩
    rcases h1 with h1 | h1
    · exact .inl h1.1
    · exact .inr h1.1
  · intro hsl hs x hx
    cases doc with
    | nil => exact ⟨[], rfl, .nil, trivial⟩
    | cons b doc =>
      rw [slidesDoc, Bool.and_eq_true] at hsl
      have hb : b ≠ .blank := by rintro rfl; exact hs .blank (by simp)
      obtain ⟨l, ls, e, _⟩ := (h b (by simp)).first hb
      refine ⟨hang [] (blanks x) (b.print w) :: doc.map fun a => (a.print w).map (blanks x ++ ·), ?_,
        .cons ((h b (by simp)).text hsl.1 _ (slid_hang hx _)) ?_, solid_flush (by simp) hs hf _⟩
      · have hm : ∀ doc : List Node, (doc.map fun a => (a.print w).map (blanks x ++ ·)).flatten =
            (printDoc w doc).map (blanks x ++ ·) := by
          intro doc
          induction doc with
          | nil => rfl
          | cons b doc ih => rw [List.map_cons, List.flatten_cons, ih, printDoc, List.map_append]
        rw [List.flatten_cons, hm, printDoc, e]
        simp [hang]
      · have h2 : ∀ a ∈ doc, PNode d w a := fun a ha => h a (by simp [ha])
        have h3 := hsl.2
        clear hf hm hs hsl h
        induction doc with
        | nil => exact .nil
        | cons a r ih =>
          rw [List.all_cons, Bool.and_eq_true] at h3
          exact .cons ((h2 a (by simp)).slide h3.1 x hx) (ih (fun x hx => h2 x (by simp [hx])) h3.2)

theorem busy_of {r t : Str} (h : Busy r) (hs : ∀ c ∈ r, c ∈ t) : Busy t := fun x hx => by
  obtain ⟨c, hc, h1⟩ := h x hx
  exact ⟨c, hs c hc, h1⟩

theorem busy_rule {t : Str} (h : Busy t) : CM.isRule t = false := by
  cases hr : CM.isRule t with
  | false => rfl
  | true =>
    exfalso
    unfold CM.isRule at hr
    rw [List.any_eq_true] at hr
    obtain ⟨x, hx, h1⟩ := hr
    obtain ⟨c, hc, h2, h3⟩ := h x (by simpa using hx)
    rw [Bool.and_eq_true, List.all_eq_true] at h1
    have := h1.1 c hc
    simp [h2, h3] at this

theorem busy_blank {t : Str} (h : Busy t) : CM.blank t = false := by
  obtain ⟨c, hc, h1, _⟩ := h '*' (by decide)
  exact cm_blank_false hc h1

theorem busy_char {t : Str} {c : Char} (hc : c ∈ t) (h1 : c ≠ ' ') (h2 : c ∉ c!"*-_") : Busy t := by
  intro x hx
  exact ⟨c, hc, h1, by rintro rfl; exact h2 hx⟩

theorem map_blanks_zero (ls : List Str) : ls.map (blanks 0 ++ ·) = ls := List.map_id ls

/-- list entries in normal form -/
theorem print_cmItems {d n : Nat} {w : Width} {mark : Str → Prop} {m : Nat → Str} {items : List (List Node)}
    (hit : ∀ it ∈ items, it ≠ [] ∧ (∀ a ∈ it, a.solid) ∧ PDoc d w it) (k : Nat) (hR : ItemsRead (RDoc d) w m n k items)
    (hm : ∀ j, j < items.length → mark (m (k + j)) ∧ ∀ c ∈ m (k + j), isWs c = false) :
    ∃ es, es.flatten = printItems w (fun k => m k ++ [' ']) (blanks (n + 1)) k items ∧
      (∀ x k0, x < 4 → x < k0 → RItems (RDoc d) mark k0 (es.map (List.map (blanks x ++ ·))) items) ∧
      (∀ l ∈ es.flatten, Spaced l ∧ CM.blank l = false) ∧
      (items ≠ [] → ∃ r conts es', es = ((m k ++ ' ' :: r) :: conts) :: es' ∧ Busy r) := by
  induction items generalizing k with
  | nil => exact ⟨[], rfl, fun _ _ _ _ => trivial, by simp, by simp⟩
  | cons it items ih =>
    obtain ⟨hne, hs, hp⟩ := hit it (by simp)
    obtain ⟨r, rest, e, hin, hbusy⟩ := hp.first hne hs
    obtain ⟨hmk, hws⟩ := hm 0 (by simp)
    rw [Nat.add_zero] at hmk hws
    obtain ⟨hlen, hR, hrest⟩ := hR
    obtain ⟨es, he, hRs, hl, _⟩ := ih (fun x hx => hit x (by simp [hx])) (k + 1) hrest
      (fun j hj => by
        have := hm (j + 1) (by simpa using hj)
        rwa [show k + (j + 1) = k + 1 + j by omega] at this)
    have hrn := busy_blank hbusy
    have hsp : ∀ l ∈ r :: rest, Spaced l := by rw [← e]; exact hp.spaced
    have hfu : ∀ l ∈ r :: rest, CM.blank l = false := by rw [← e]; exact hp.full hs
    refine ⟨((m k ++ ' ' :: r) :: rest.map (blanks (n + 1) ++ ·)) :: es, ?_, ?_, ?_, fun _ => ⟨r, _, es, rfl, hbusy⟩⟩
    · simp [printItems, e, hang, he]
    · intro x k0 hx hxk
      have hadd : ∀ y : Str, blanks x ++ (blanks (n + 1) ++ y) = blanks (x + (n + 1)) ++ y := by
        intro y
        unfold blanks
        rw [← List.append_assoc, List.replicate_append_replicate]
      rw [List.map_cons, List.map_cons, List.map_map,
        List.map_congr_left (f := (blanks x ++ ·) ∘ (blanks (n + 1) ++ ·)) (g := (blanks (x + (n + 1)) ++ ·)) fun y _ => hadd y]
      refine ⟨x, m k, r, rest.map (blanks (x + (n + 1)) ++ ·), rfl, hxk, hx, hmk, hrn, hin,
        busy_rule (busy_of hbusy (by simp +contextual)), ?_, ?_, hRs x _ hx (by omega)⟩
      · intro l hl
        obtain ⟨y, hy, rfl⟩ := List.mem_map.1 hl
        rw [blank_blanks, indent_blanks]
        exact ⟨hfu y (by simp [hy]), by omega⟩
      · have : (rest.map (blanks (x + (n + 1)) ++ ·)).map (CM.unindent (x + (m k).length + 1)) =
            rest.map (blanks (n - (m k).length) ++ ·) := by
          rw [List.map_map]
          refine List.map_congr_left fun y _ => ?_
          have e2 : x + (n + 1) = x + (m k).length + 1 + (n - (m k).length) := by omega
          simp only [Function.comp_apply]
          rw [e2, blanks, ← List.replicate_append_replicate, List.append_assoc]
          exact unindent_blanks _ _
        rw [this]
        rw [e] at hR
        exact hR
    · intro l hl'
      rw [List.flatten_cons, List.mem_append] at hl'
      rcases hl' with hl' | hl'
      · rcases List.mem_cons.1 hl' with rfl | hl'
        · refine ⟨spaced_append (spaced_noWs hws) ?_, busy_blank (busy_of hbusy (by simp +contextual))⟩
          intro c hc hw
          rcases List.mem_cons.1 hc with rfl | hc
          · rfl
          · exact hsp r (by simp) c hc hw
        · obtain ⟨x, hx, rfl⟩ := List.mem_map.1 hl'
          exact ⟨spaced_append (spaced_blanks (n + 1)) (hsp x (by simp [hx])), by rw [blank_blanks]; exact hfu x (by simp [hx])⟩
      · exact hl l hl'

theorem items_cm {d n : Nat} {w : Width} {first : Nat} {items : List (List Node)} (k : Nat)
    (hf : fitsItems n (first + k) items = true) (hle : ∀ j, j < k + items.length → (natStr (first + j)).length ≤ n)
    (hit : ∀ it ∈ items, (∀ a ∈ it, a.solid) ∧ PDoc d w it) :
    ItemsRead (RDoc d) w (fun j => natStr (first + j) ++ c!".") (n + 1) k items := by
  induction items generalizing k with
  | nil => trivial
  | cons it items ih =>
    rw [fitsItems, Bool.and_eq_true] at hf
    have hk := hle k (by simp)
    obtain ⟨hs, hp⟩ := hit it (by simp)
    refine ⟨by simpa using hk, ?_, ih (k + 1) hf.2 (fun j hj => hle j (by simp; omega)) fun x hx => hit x (by simp [hx])⟩
    have e : n + 1 - (natStr (first + k) ++ ['.']).length = n - (natStr (first + k)).length := by simp
    rw [e]
    rcases Bool.or_eq_true _ _ ▸ hf.1 with h | h
    · rw [show n - (natStr (first + k)).length = 0 by simp at h; omega]
      have : hang [] (List.replicate 0 ' ') (printDoc w it) = printDoc w it := by
        cases printDoc w it with
        | nil => rfl
        | cons l r => simp [hang]
      rw [this]
      exact hp.read
    · rw [Bool.and_eq_true, decide_eq_true_eq] at h
      exact hp.hung h.2 hs _ (by omega)

theorem indent_head {c : Char} {r : Str} (h : c ≠ ' ') : CM.indent (c :: r) = 0 := by
  simp [CM.indent, h]

theorem closes_rep {f : Char} (hf : f = '`' ∨ f = '~') (k : Nat) (hk : 3 ≤ k) : CM.closes f k (List.replicate k f) = true := by
  obtain ⟨j, rfl⟩ : ∃ j, k = j + 1 := ⟨k - 1, by omega⟩
  have h1 : CM.indent (List.replicate (j + 1) f) = 0 := indent_head (by rcases hf with rfl | rfl <;> decide)
  have h2 : CM.text (List.replicate (j + 1) f) = List.replicate (j + 1) f := by
    rcases hf with rfl | rfl <;> simp [CM.text, List.replicate_succ]
  unfold CM.closes
  rw [h1, h2]
  simp [CM.blank]

theorem wide_rule {c : Char} {w : Width} (h : w.ge 3 = true) : ∃ k, 3 ≤ k ∧ MF.rule c w = List.replicate k c := by
  apply rule_facts
  cases w with
  | inf => exact .inl rfl
  | fin n => exact .inr ⟨n, rfl, by simpa [Width.ge] using h⟩

theorem hardLast_snoc (ls : List Str) (l : Str) : hardLast (ls ++ [l]) = ls ++ [l ++ c!"  "] := by
  induction ls with
  | nil => rfl
  | cons a r ih =>
    cases r with
    | nil => simp [hardLast]
    | cons b r => simpa [hardLast] using ih

/-- blocks in normal form -/
theorem print_cm {d : Nat} {w : Width} {a : Node} (hr : a.Reg (d + 1)) (hw : a.wide w = true)
    (ih : ∀ w doc, (∀ a ∈ doc, a.Reg d) → CmFlow .free doc → wideDoc w doc = true → doc ≠ [] → PDoc d w doc) : PNode d w a := by
  have ftext : a.isText = true → ∀ ls', Slid ls' (a.print w) → RNode (RDoc d) ls' a := fun ht _ hs => text_cm hr ht hs
  have fslide : a.isText = true → ∀ x, x < 4 → RNode (RDoc d) ((a.print w).map (blanks x ++ ·)) a :=
    fun ht x hx => text_cm hr ht (slid_map hx _)
  cases a with
  | blank =>
    refine ⟨.blank rfl, ?_, fun h => h.elim, fun h => absurd rfl h, ftext, by simp [Node.slides, Node.isText]⟩
    intro l hl
    rw [List.mem_singleton.1 hl]
    intro c hc; cases hc
  | heading k t =>
    obtain ⟨h1, h6, hne, hst, hsp⟩ := hr
    have h0 : (List.replicate k '#' ++ ' ' :: t) = '#' :: (List.replicate (k - 1) '#' ++ ' ' :: t) := by
      obtain ⟨j, rfl⟩ : ∃ j, k = j + 1 := ⟨k - 1, by omega⟩
      rfl
    have hb : Busy (List.replicate k '#' ++ ' ' :: t) := by
      rw [h0]; exact busy_char (c := '#') (by simp) (by decide) (by decide)
    refine ⟨?_, ?_, ?_, fun _ => ⟨_, _, rfl, busy_blank hb, .inl ⟨by rw [h0]; exact indent_head (by decide), by simp⟩, fun _ => hb⟩,
      ftext, fslide⟩
    · have := RNode.heading (R := RDoc d) (i := 0) (k := k) (t := ' ' :: t) (by omega) rfl
      rw [strip_space, hst] at this
      exact this
    · intro l hl
      rw [List.mem_singleton.1 hl]
      refine spaced_append (spaced_noWs fun c hc => by rw [List.eq_of_mem_replicate hc]; rfl) ?_
      intro c hc hw
      rcases List.mem_cons.1 hc with rfl | hc
      · rfl
      · exact hsp c hc hw
    · intro _ l hl
      rw [List.mem_singleton.1 hl]
      exact busy_blank hb
  | underlined c ts =>
    obtain ⟨hc, hts⟩ := hr
    obtain ⟨ht, hi⟩ := lay_text w hts
    have hnb := rtext_nonblank ht
    obtain ⟨m, hm⟩ : ∃ m, longestLine (layLines w ts) = m + 1 := by
      obtain ⟨l, r, e⟩ := List.exists_cons_of_ne_nil ht.ne
      have := (longestLine_spec ht.ne).1 l (by rw [e]; simp)
      have h2 : l ≠ [] := by
        rintro rfl
        have := hnb [] (by rw [e]; simp)
        cases this
      have : 1 ≤ l.length := by cases l with | nil => exact absurd rfl h2 | cons => simp
      exact ⟨longestLine (layLines w ts) - 1, by omega⟩
    have hcs : c ≠ ' ' := by rcases hc with rfl | rfl <;> decide
    refine ⟨?_, ?_, ?_, ?_, ftext, fslide⟩
    · have := RNode.underlined (R := RDoc d) (i := 0) (m := m) (j := 0) (c := c) ht (by omega)
      simpa [Node.print, hm, blanks] using this
    · intro l hl
      rcases List.mem_append.1 hl with hl | hl
      · exact (ht.line l hl).1
      · rw [List.mem_singleton.1 hl]
        exact spaced_noWs fun x hx => by rw [List.eq_of_mem_replicate hx]; rcases hc with rfl | rfl <;> rfl
    · intro _ l hl
      rcases List.mem_append.1 hl with hl | hl
      · exact hnb l hl
      · rw [List.mem_singleton.1 hl, hm]
        exact cm_blank_false (c := c) (by simp [List.replicate_succ]) hcs
    · intro _
      obtain ⟨l, r, e⟩ := List.exists_cons_of_ne_nil ht.ne
      have hl : l ∈ layLines w ts := by rw [e]; simp
      refine ⟨l, _, by simp [Node.print, e]; rfl, hnb l hl, .inl ⟨hi l hl, by simp⟩, fun _ => rtext_busy ht l hl⟩
  | par ts =>
    obtain ⟨ht, hi⟩ := lay_text w hr
    have hnb := rtext_nonblank ht
    refine ⟨.par ht, fun l hl => (ht.line l hl).1, fun _ => hnb, fun _ => ?_, ftext, fslide⟩
    obtain ⟨l, r, e⟩ := List.exists_cons_of_ne_nil ht.ne
    have hl : l ∈ layLines w ts := by rw [e]; simp
    exact ⟨l, r, e, hnb l hl, .inl ⟨hi l hl, by simp⟩, fun _ => rtext_busy ht l hl⟩
  | hard ts =>
    obtain ⟨ht, hi⟩ := lay_text w hr.1
    have hnb := rtext_nonblank ht
    obtain ⟨ls, l, e⟩ : ∃ ls l, layLines w ts = ls ++ [l] := ⟨_, _, (List.dropLast_concat_getLast ht.ne).symm⟩
    have hp : (Node.hard ts).print w = ls ++ [l ++ blanks 2] := by
      rw [Node.print, e, hardLast_snoc]; rfl
    rw [e] at ht hi hnb
    have key : ∀ x ∈ (Node.hard ts).print w, ∃ y ∈ ls ++ [l], ∃ n, x = y ++ blanks n := by
      intro x hx
      rw [hp] at hx
      rcases List.mem_append.1 hx with hx | hx
      · exact ⟨x, by simp [hx], 0, by simp [blanks]⟩
      · exact ⟨l, by simp, 2, List.mem_singleton.1 hx⟩
    have hfull : ∀ x ∈ (Node.hard ts).print w, CM.blank x = false := by
      intro x hx
      obtain ⟨y, hy, n, rfl⟩ := key x hx
      have := hnb y hy
      simp only [CM.blank, List.all_append] at this ⊢
      rw [this]; rfl
    refine ⟨?_, ?_, fun _ => hfull, fun _ => ?_, ftext, fslide⟩
    · have := fslide rfl 0 (by omega)
      rw [map_blanks_zero] at this
      exact this
    · intro x hx
      obtain ⟨y, hy, n, rfl⟩ := key x hx
      exact spaced_append (ht.line y hy).1 fun c hc _ => List.eq_of_mem_replicate hc
    · obtain ⟨x, r, e2⟩ := List.exists_cons_of_ne_nil (show (Node.hard ts).print w ≠ [] by rw [hp]; simp)
      obtain ⟨y, hy, n, rfl⟩ := key x (by rw [e2]; simp)
      refine ⟨_, r, e2, hfull _ (by rw [e2]; simp), .inl ⟨?_, by simp⟩, fun _ => busy_of (rtext_busy ht y hy) (by simp +contextual)⟩
      obtain ⟨c, z, e3, _⟩ := ((ht.texts y hy).2).first
      have h0 := hi y hy
      have e4 := (cm_split y).1
      rw [h0] at e4
      rw [e4, e3]
      apply indent_head
      rintro rfl
      exact (cm_split y).2 (by rw [e3]; rfl)
  | indented body =>
    obtain ⟨hb, ⟨l0, r0, rfl, hl0⟩, _⟩ := hr
    have hbl : ∀ l ∈ l0 :: r0, l ≠ [] → CM.blank l = false := by
      intro l hl hne
      cases h : CM.blank l with
      | false => rfl
      | true =>
        exfalso
        apply hne
        rw [← (hb l hl).1]
        exact (rstrip_eq_nil l).2 (blank_ws h)
    refine ⟨?_, fun l hl => (hb l hl).2.1, ?_, ?_, ftext, fslide⟩
    · have := RNode.indented (R := RDoc d) (ls := l0 :: r0) (fun l hl => by
        rcases (hb l hl).2.2 with rfl | h
        · exact .inl rfl
        · exact .inr h)
      have hid : (l0 :: r0).map rstrip = l0 :: r0 := by
        conv => rhs; rw [← List.map_id (l0 :: r0)]
        exact List.map_congr_left fun l hl => (hb l hl).1
      rw [hid] at this
      exact this
    · intro hs l hl
      exact busy_blank (hs l hl)
    · intro _
      refine ⟨l0, r0, rfl, hbl l0 (by simp) hl0, .inr ⟨?_, _, rfl⟩, fun hs => hs l0 (by simp)⟩
      rcases (hb l0 (by simp)).2.2 with h | h
      · exact absurd h hl0
      · exact h
  | rule c =>
    obtain ⟨k, hk, e⟩ := wide_rule (c := c) (w := w) hw
    have hcs : c ≠ ' ' := by rcases hr with rfl | rfl | rfl <;> decide
    have e0 : List.replicate k c = c :: List.replicate (k - 1) c := by
      obtain ⟨j, rfl⟩ : ∃ j, k = j + 1 := ⟨k - 1, by omega⟩
      rfl
    refine ⟨?_, ?_, fun h => h.elim, fun _ => ⟨_, _, rfl, ?_, .inl ⟨?_, by simp⟩, fun h => h.elim⟩, ftext, fslide⟩
    · have := RNode.rule (R := RDoc d) (i := 0) (l := List.replicate k c) (c := c) (by omega) (by rw [e0]; rfl)
        (fun x hx => .inr (List.eq_of_mem_replicate hx)) (by simpa using hk)
      rw [← e] at this
      exact this
    · intro l hl
      rw [List.mem_singleton.1 hl, e]
      exact spaced_noWs fun x hx => by rw [List.eq_of_mem_replicate hx]; rcases hr with rfl | rfl | rfl <;> rfl
    · rw [e, e0]; exact cm_blank_false (c := c) (by simp) hcs
    · rw [e, e0]; exact indent_head hcs
  | code f k info body =>
    obtain ⟨hf, hk, hst, hh, hti, hsi, hb⟩ := hr
    have hfs : f ≠ ' ' := by rcases hf with rfl | rfl <;> decide
    have e0 : ∀ x, List.replicate k f ++ x = f :: (List.replicate (k - 1) f ++ x) := by
      obtain ⟨j, rfl⟩ : ∃ j, k = j + 1 := ⟨k - 1, by omega⟩
      intro x; rfl
    have hfw : Spaced (List.replicate k f) :=
      spaced_noWs fun x hx => by rw [List.eq_of_mem_replicate hx]; rcases hf with rfl | rfl <;> rfl
    refine ⟨?_, ?_, fun h => h.elim, fun _ => ⟨_, _, rfl, ?_, .inl ⟨?_, by simp⟩, fun h => h.elim⟩, ftext, fslide⟩
    · have := RNode.code (R := RDoc d) (f := f) (k := k) (info := info) (close := List.replicate k f) (content := body) hh hti
        (closes_rep hf k hk) (fun l hl => (hb l hl).2.2)
      have hid : body.map rstrip = body := by
        conv => rhs; rw [← List.map_id body]
        exact List.map_congr_left fun l hl => (hb l hl).1
      rw [hid, hst] at this
      exact this
    · intro l hl
      simp only [Node.print, List.mem_cons, List.mem_append, List.cons_append] at hl
      rcases hl with rfl | hl | rfl | hl
      · exact spaced_append hfw hsi
      · exact (hb l hl).2.1
      · exact hfw
      · cases hl
    · rw [e0]; exact cm_blank_false (c := f) (by simp) hfs
    · rw [e0]; exact indent_head hfs
  | quote sp inner =>
    obtain ⟨rfl, hne, hreg, hflow⟩ := hr
    have hp := ih (w.sub 2) inner hreg hflow hw hne
    have hq : ∀ l ∈ (Node.quote true inner).print w, ∃ x ∈ printDoc (w.sub 2) inner, l = '>' :: spaced x := by
      intro l hl
      simp only [Node.print, if_true, List.mem_map] at hl
      obtain ⟨x, hx, rfl⟩ := hl
      exact ⟨x, hx, rfl⟩
    have hb : ∀ x : Str, Busy ('>' :: x) := fun x => busy_char (c := '>') (by simp) (by decide) (by decide)
    refine ⟨?_, ?_, ?_, ?_, ftext, fslide⟩
    · have := RNode.quote (R := RDoc d) (rs := (printDoc (w.sub 2) inner).map spaced) (inner := inner) (by
        rw [List.map_map]
        have : (CM.unindent 1 ∘ spaced) = id := by
          funext l
          cases l <;> rfl
        rw [this, List.map_id]
        exact hp.read)
      rw [List.map_map] at this
      exact this
    · intro l hl
      obtain ⟨x, hx, rfl⟩ := hq l hl
      intro c hc hwc
      rcases List.mem_cons.1 hc with rfl | hc
      · cases hwc
      · cases x with
        | nil => cases hc
        | cons y ys =>
          rcases List.mem_cons.1 (show c ∈ ' ' :: y :: ys from hc) with rfl | hc
          · rfl
          · exact hp.spaced _ hx c hc hwc
    · intro _ l hl
      obtain ⟨x, hx, rfl⟩ := hq l hl
      exact busy_blank (hb _)
    · intro _
      have hn := rdoc_ne d d _ _ hp.read hreg hne
      obtain ⟨l, r, e⟩ := List.exists_cons_of_ne_nil hn
      refine ⟨'>' :: spaced l, r.map fun l => '>' :: spaced l, by simp [Node.print, e], busy_blank (hb _),
        .inl ⟨indent_head (by decide), by simp⟩, fun _ => hb _⟩
  | bullets c items =>
    obtain ⟨hc, hne, hit⟩ := hr
    have hcs : c ≠ ' ' := by rcases hc with rfl | rfl | rfl <;> decide
    have hwi := wideItems_mem.1 hw
    have hpd : ∀ it ∈ items, PDoc d (w.sub 2) it := fun it hm =>
      ih _ it (fun a ha => ((hit it hm).2.1 a ha).1) (hit it hm).2.2 (hwi it hm) (hit it hm).1
    obtain ⟨es, he, hR, hl, hf⟩ := print_cmItems (mark := (· = [c])) (m := fun _ => [c]) (n := 1) (d := d) (w := w.sub 2) (items := items)
      (fun it hm => ⟨(hit it hm).1, fun a ha => ((hit it hm).2.1 a ha).2, hpd it hm⟩) 0
      (itemsRead_same _ (fun it hm => (hpd it hm).read) 0 fun _ _ _ => rfl)
      (fun j _ => ⟨rfl, by intro x hx; rw [List.mem_singleton.1 hx]; rcases hc with rfl | rfl | rfl <;> rfl⟩)
    have hpr : (Node.bullets c items).print w = es.flatten := by rw [he]; rfl
    have hsl : ∀ x, x < 4 → RNode (RDoc d) (((Node.bullets c items).print w).map (blanks x ++ ·)) (.bullets c items) := by
      intro x hx
      rw [hpr, List.map_flatten]
      exact .bullets (hR x 4 hx hx)
    obtain ⟨r, conts, es', rfl, hbusy⟩ := hf hne
    refine ⟨by rw [← map_blanks_zero ((Node.bullets c items).print w)]; exact hsl 0 (by omega), by rw [hpr]; exact fun l h => (hl l h).1,
      fun _ => by rw [hpr]; exact fun l h => (hl l h).2, fun _ => ?_, ftext, fun _ => hsl⟩
    have hb : Busy ([c] ++ ' ' :: r) := busy_of hbusy (by simp +contextual)
    refine ⟨[c] ++ ' ' :: r, conts ++ es'.flatten, by rw [hpr]; simp, busy_blank hb, .inl ⟨indent_head hcs, by simp⟩, fun _ => hb⟩
  | numbers first items =>
    obtain ⟨h9, hfit, hne, hit⟩ := hr
    have hwi := wideItems_mem.1 hw
    have hlen : ∀ j, j < 0 + items.length → (natStr (first + j)).length ≤ (natStr (first + items.length - 1)).length :=
      fun j hj => natStr_length_mono (by omega)
    have hpd : ∀ it ∈ items, PDoc d (w.sub ((natStr (first + items.length - 1)).length + 2 : Nat)) it := fun it hm =>
      ih _ it (fun a ha => ((hit it hm).2.1 a ha).1) (hit it hm).2.2 (hwi it hm) (hit it hm).1
    obtain ⟨es, he, hR, hl, hf⟩ := print_cmItems (mark := NumberMark) (m := fun k => natStr (first + k) ++ c!".")
      (n := (natStr (first + items.length - 1)).length + 1) (d := d)
      (w := w.sub ((natStr (first + items.length - 1)).length + 2 : Nat)) (items := items)
      (fun it hm => ⟨(hit it hm).1, fun a ha => ((hit it hm).2.1 a ha).2, hpd it hm⟩) 0
      (items_cm 0 hfit hlen fun it hm => ⟨fun a ha => ((hit it hm).2.1 a ha).2, hpd it hm⟩)
      (fun j hj => by
        obtain ⟨n1, n2, n3⟩ := natStr_spec (first + (0 + j))
        refine ⟨⟨_, rfl, ?_, ?_, n2⟩, ?_⟩
        · cases hx : natStr (first + (0 + j)) with
          | nil => exact absurd hx n1
          | cons => simp
        · exact Nat.le_trans (hlen (0 + j) (by omega)) h9
        · intro c hc
          rcases List.mem_append.1 hc with hc | hc
          · exact digit_ws (n2 c hc)
          · rw [List.mem_singleton.1 hc]; rfl)
    have hpr : (Node.numbers first items).print w = es.flatten := by
      rw [he]
      simp only [Node.print, blanks, List.append_assoc]
      rfl
    obtain ⟨r, conts, es', rfl, hbusy⟩ := hf hne
    obtain ⟨n1, n2, n3⟩ := natStr_spec first
    have hsl : ∀ x, x < 4 → RNode (RDoc d) (((Node.numbers first items).print w).map (blanks x ++ ·)) (.numbers first items) := by
      intro x hx
      have := RNode.numbers (R := RDoc d) (i := x) (ds := natStr first) (r := r) (conts := conts.map (blanks x ++ ·))
        (es := es'.map (List.map (blanks x ++ ·))) (items := items) (hR x 4 hx hx) n2
      rw [n3] at this
      rw [hpr, List.map_flatten]
      exact this
    refine ⟨by rw [← map_blanks_zero ((Node.numbers first items).print w)]; exact hsl 0 (by omega), by rw [hpr]; exact fun l h => (hl l h).1,
      fun _ => by rw [hpr]; exact fun l h => (hl l h).2, fun _ => ?_, ftext, fun _ => hsl⟩
    have hb : Busy ((natStr (first + 0) ++ c!".") ++ ' ' :: r) := busy_of hbusy (by simp +contextual)
    refine ⟨(natStr (first + 0) ++ c!".") ++ ' ' :: r, conts ++ es'.flatten, by rw [hpr]; simp, busy_blank hb, .inl ⟨?_, by simp⟩, fun _ => hb⟩
    rw [Nat.add_zero]
    cases hx : natStr first with
    | nil => exact absurd hx n1
    | cons x y =>
      apply indent_head
      rintro rfl
      have := n2 ' ' (by rw [hx]; simp)
      cases this
  | ref a b c => exact hr.elim
  | tail a b => exact hr.elim
  | table a b c => exact hr.elim

/-- documents in normal form -/
theorem print_cmDoc (d : Nat) : ∀ w doc, (∀ a ∈ doc, a.Reg d) → CmFlow .free doc → wideDoc w doc = true → doc ≠ [] → PDoc d w doc := by
  induction d with
  | zero =>
    intro w doc hr _ _ hne
    obtain ⟨a, r, rfl⟩ := List.exists_cons_of_ne_nil hne
    exact (hr a (by simp)).elim
  | succ d ih =>
    intro w doc hr hf hw _
    rw [wideDoc_mem] at hw
    exact pdoc_of (fun a ha => print_cm (hr a ha) (hw a ha) ih) hf

end MF
