import Verif.Lemmas.TreeTables
/-!
# The lines of trees that are written down
-/

namespace MF

theorem mem_printDoc {w : Width} {doc : List Node} {l : Str} : l ∈ printDoc w doc ↔ ∃ a ∈ doc, l ∈ a.print w := by
  induction doc with
  | nil => simp [printDoc]
  | cons a r ih => simp [printDoc, ih]

theorem printDoc_append (w : Width) (a b : List Node) : printDoc w (a ++ b) = printDoc w a ++ printDoc w b := by
  induction a with
  | nil => rfl
  | cons x a ih => rw [List.cons_append, printDoc, printDoc, ih, List.append_assoc]

theorem mem_hang {p q : Str} {ls : List Str} {l : Str} (h : l ∈ hang p q ls) : ∃ x ∈ ls, l = p ++ x ∨ l = q ++ x := by
  cases ls with
  | nil => cases h
  | cons x xs =>
    rcases List.mem_cons.1 h with rfl | h
    · exact ⟨x, by simp, .inl rfl⟩
    · obtain ⟨y, hy, rfl⟩ := List.mem_map.1 h
      exact ⟨y, by simp [hy], .inr rfl⟩

theorem mem_printItems {w : Width} {mark : Nat → Str} {cont : Str} {l : Str} (items : List (List Node)) : ∀ k,
    l ∈ printItems w mark cont k items →
      ∃ it ∈ items, ∃ j, ∃ x ∈ printDoc w it, l = mark j ++ x ∨ l = cont ++ x := by
  induction items with
  | nil => intro k h; simp [printItems] at h
  | cons it items ih =>
    intro k h
    rw [printItems] at h
    rcases List.mem_append.1 h with h | h
    · obtain ⟨x, hx, e⟩ := mem_hang h
      exact ⟨it, by simp, k, x, hx, e⟩
    · obtain ⟨it', h1, h2⟩ := ih _ h
      exact ⟨it', by simp [h1], h2⟩

theorem wideDoc_mem {w : Width} {doc : List Node} : wideDoc w doc = true ↔ ∀ a ∈ doc, a.wide w = true := by
  induction doc with
  | nil => simp [wideDoc]
  | cons a r ih => simp [wideDoc, ih]

theorem wideItems_mem {w : Width} {items : List (List Node)} :
    wideItems w items = true ↔ ∀ it ∈ items, wideDoc w it = true := by
  induction items with
  | nil => simp [wideItems]
  | cons a r ih => simp [wideItems, ih]

theorem softDoc_mem {doc : List Node} : softDoc doc = true ↔ ∀ a ∈ doc, a.soft = true := by
  induction doc with
  | nil => simp [softDoc]
  | cons a r ih => simp [softDoc, ih]

theorem softItems_mem {items : List (List Node)} : softItems items = true ↔ ∀ it ∈ items, softDoc it = true := by
  induction items with
  | nil => simp [softItems]
  | cons a r ih => simp [softItems, ih]

theorem opnDoc_concat (doc : List Node) (a : Node) : opnDoc (doc ++ [a]) = a.opn := by
  induction doc with
  | nil => rfl
  | cons x doc ih =>
    cases doc with
    | nil => rfl
    | cons y doc => exact ih

/-- A line that ends no list and is no fence. -/
structure Tame (l : Str) : Prop where
  chars : ∀ x ∈ c!"*_-", ∃ c ∈ l, isWs c = false ∧ c ≠ x
  bar : firstCh l ≠ some '|'
  fence : ¬ FenceLine l

theorem Tame.strip {l : Str} (h : Tame l) : strip l ≠ [] := by
  obtain ⟨c, hc, hw, _⟩ := h.chars '*' (by decide)
  intro e
  rw [(strip_eq_nil l).1 e c hc] at hw; cases hw

theorem Tame.listEnd {l : Str} (h : Tame l) : listEnd l = false := by
  rw [listEnd_eq]
  simp only [Bool.or_eq_false_iff]
  refine ⟨⟨?_, ?_⟩, ?_⟩
  · rw [isBlankLine]; simpa using h.strip
  · cases e : isTableStart l with
    | false => rfl
    | true => exact absurd (isTableStart_first.1 e) h.bar
  · cases e : isThematic l with
    | false => rfl
    | true =>
      obtain ⟨_, c, hc, _, hall⟩ := (isThematic_iff l).1 e
      obtain ⟨y, hy, hyw, hne⟩ := h.chars c (by rcases hc with rfl | rfl | rfl <;> decide)
      exact absurd (hall y hy hyw) hne

theorem Tame.indent {p l : Str} (hp : ∀ c ∈ p, isWs c = true) (h : Tame l) : Tame (p ++ l) := by
  have e : lstrip (p ++ l) = lstrip l := lstrip_append_ws p l hp
  refine ⟨?_, ?_, ?_⟩
  · intro x hx
    obtain ⟨c, hc, h1⟩ := h.chars x hx
    exact ⟨c, by simp [hc], h1⟩
  · unfold firstCh; rw [e]; exact h.bar
  · unfold FenceLine; rw [e]; exact h.fence

theorem Tame.after {c : Char} {p l : Str} (hw : isWs c = false) (hc : c ∉ c!"|`~") (h : Tame l) : Tame (c :: p ++ l) := by
  have e : lstrip (c :: p ++ l) = c :: p ++ l := lstrip_cons_of_not _ _ hw
  refine ⟨?_, ?_, ?_⟩
  · intro x hx
    obtain ⟨y, hy, h1⟩ := h.chars x hx
    exact ⟨y, by simp [hy], h1⟩
  · unfold firstCh; rw [e]
    intro h; simp at h; subst h; exact hc (by decide)
  · unfold FenceLine; rw [e]
    rintro ⟨r, h | h⟩ <;> simp only [List.cons_append, List.cons.injEq] at h <;> rw [h.1] at hc <;> exact hc (by decide)

theorem Tame.of_first {c : Char} {l : Str} (hw : isWs c = false) (hc : c ∉ c!"*_-|`~") : Tame (c :: l) := by
  have e : lstrip (c :: l) = c :: l := lstrip_cons_of_not _ _ hw
  simp only [List.mem_cons, List.not_mem_nil, or_false, not_or] at hc
  refine ⟨?_, ?_, ?_⟩
  · intro x hx
    refine ⟨c, by simp, hw, ?_⟩
    intro e; subst e
    simp only [List.mem_cons, List.not_mem_nil, or_false] at hx
    rcases hx with h | h | h
    · exact hc.1 h
    · exact hc.2.1 h
    · exact hc.2.2.1 h
  · unfold firstCh; rw [e]
    intro h; simp at h; exact hc.2.2.2.1 h
  · unfold FenceLine; rw [e]
    rintro ⟨r, h | h⟩ <;> simp only [List.cons.injEq] at h
    · exact hc.2.2.2.2.1 h.1
    · exact hc.2.2.2.2.2 h.1

theorem TextLine.tame {l : Str} (h : TextLine l) : Tame l := by
  obtain ⟨w, ws, hs, hw⟩ := h.opens
  obtain ⟨rest, h1, h2⟩ := first_word hs
  obtain ⟨⟨c, hc, hcn⟩, _, _, _, _, h6, _⟩ := opener_line hs hw h.indent
  · refine ⟨?_, ?_, ?_⟩
    · intro x hx
      obtain ⟨c, hc, hne⟩ := hw.rule x (by
        simp only [List.mem_cons, List.not_mem_nil, or_false] at hx ⊢
        rcases hx with h | h | h <;> simp [h])
      exact ⟨c, mem_of_mem_lstrip (by rw [h1]; simp [hc]), hw.noWs c hc, hne⟩
    · rw [hc]; intro e; cases e; exact hcn (by decide)
    · intro e
      rw [(fenceLine_iff l).1 e] at h6; cases h6

theorem Tame.trail {l ws : Str} (h : Tame l) (hws : ∀ c ∈ ws, isWs c = true) : Tame (l ++ ws) := by
  have hl : lstrip l ≠ [] := by intro e; exact h.strip (by rw [MF.strip, e]; rfl)
  have e : lstrip (l ++ ws) = lstrip l ++ ws := by
    obtain ⟨t, ht, hs⟩ := lstrip_split l
    cases hl' : lstrip l with
    | nil => exact absurd hl' hl
    | cons c r =>
      rw [hl'] at ht
      have hc : isWs c = false := by
        rcases lstrip_head l with h0 | ⟨c', r', h0, hc⟩
        · exact absurd h0 hl
        · rw [hl'] at h0; cases h0; exact hc
      rw [ht, List.append_assoc, lstrip_append_ws t _ hs, List.cons_append, lstrip_cons_of_not _ _ hc]
  refine ⟨?_, ?_, ?_⟩
  · intro x hx
    obtain ⟨c, hc, h1⟩ := h.chars x hx
    exact ⟨c, by simp [hc], h1⟩
  · have hb := h.bar
    unfold firstCh at hb ⊢
    rw [e]
    cases hl' : lstrip l with
    | nil => exact absurd hl' hl
    | cons c r => rw [hl'] at hb; exact hb
  · rw [fenceLine_iff]
    have hs : MF.strip (l ++ ws) = MF.strip l := by
      rw [MF.strip, e, rstrip_append_ws _ _ hws]; rfl
    unfold isFenceStart
    rw [hs]
    intro h0
    exact h.fence ((fenceLine_iff l).2 h0)

theorem plainCode_tame {l : Str} (h : plainCode l = true) : Tame l := by
  simp only [plainCode, Bool.and_eq_true, List.all_eq_true, List.any_eq_true, bne_iff_ne, Bool.not_eq_true'] at h
  obtain ⟨⟨⟨h1, h2⟩, h3⟩, h4⟩ := h
  refine ⟨fun x hx => ?_, h2, ?_⟩
  · obtain ⟨c, hc, hw, hne⟩ := h1 x hx
    exact ⟨c, hc, hw, hne⟩
  · rintro ⟨r, e | e⟩
    · rw [e] at h3; exact h3 rfl
    · rw [e] at h4; exact h4 rfl

theorem layLines_lines (w : Width) {ts : List Tok} (h : Layable ts) :
    ∀ l ∈ layLines w ts, getIndent l = 0 ∧ rstrip l = l ∧ TextLine l := by
  obtain ⟨h1, _, h3⟩ := text_layLines h w
  intro l hl
  exact ⟨(h3 l hl).2, by rw [← (h3 l hl).1.2, rstrip_strip], h1.lines l hl⟩

theorem rstrip_replicate {c : Char} (h : isWs c = false) (k : Nat) : rstrip (List.replicate k c) = List.replicate k c := by
  cases k with
  | zero => rfl
  | succ k => rw [List.replicate_succ', rstrip_concat_of_not _ _ h]

theorem rstrip_append_of_strip {p l : Str} (h : strip l ≠ []) (hr : rstrip l = l) : rstrip (p ++ l) = p ++ l := by
  have hne : rstrip l ≠ [] := by
    intro e; exact h (by rw [strip_eq_nil]; exact (rstrip_eq_nil l).1 e)
  have := rstripBy_append_of_ne isWs p l hne
  exact this.trans (by rw [show rstripBy isWs l = rstrip l from rfl, hr])

theorem natStr_head (n : Nat) : ∃ c t, natStr n = c :: t ∧ isDigit c = true := by
  obtain ⟨h1, h2, _⟩ := natStr_spec n
  cases e : natStr n with
  | nil => exact absurd e h1
  | cons c t => exact ⟨c, t, rfl, h2 c (by rw [e]; simp)⟩

theorem digit_tame {c : Char} (h : isDigit c = true) : c ∉ c!"*_-|`~" := by
  intro hm
  simp only [List.mem_cons, List.not_mem_nil, or_false] at hm
  rcases hm with rfl | rfl | rfl | rfl | rfl | rfl <;> revert h <;> decide

theorem digit_noLB {c : Char} (h : isDigit c = true) : isLB c = false := by
  cases e : isLB c with
  | false => rfl
  | true => have := isLB_ws e; rw [digit_not_ws h] at this; cases this

theorem natStr_noLB (n : Nat) : NoLB (natStr n) := fun c hc => digit_noLB ((natStr_spec n).2.1 c hc)

/-- The markers of list entries. -/
def Mark (m : Str) : Prop := ∃ c p, m = c :: p ∧ isWs c = false ∧ c ∉ c!"|`~" ∧ NoLB m

theorem mark_bullet {c : Char} (hc : c = '*' ∨ c = '+' ∨ c = '-') : Mark [c, ' '] := by
  refine ⟨c, [' '], rfl, ?_⟩
  rcases hc with rfl | rfl | rfl <;> exact ⟨by decide, by decide, by unfold NoLB; decide⟩

theorem mark_number (n : Nat) : Mark (natStr n ++ c!". ") := by
  obtain ⟨c, t, e, hd⟩ := natStr_head n
  refine ⟨c, t ++ c!". ", by rw [e]; rfl, digit_not_ws hd, ?_, (natStr_noLB n).append (by unfold NoLB; decide)⟩
  have := digit_tame hd
  simp only [List.mem_cons, List.not_mem_nil, or_false, not_or] at this ⊢
  exact ⟨this.2.2.2.1, this.2.2.2.2.1, this.2.2.2.2.2⟩

theorem items_lines {w : Width} {mark : Nat → Str} {cont : Str} {k : Nat} {items : List (List Node)}
    (hm : ∀ j, Mark (mark j)) (hc : ∀ c ∈ cont, c = ' ')
    (h : ∀ it ∈ items, ∀ l ∈ printDoc w it, NoLB l ∧ (softDoc it = true → rstrip l = l) ∧ Tame l) :
    ∀ l ∈ printItems w mark cont k items, NoLB l ∧ (softItems items = true → rstrip l = l) ∧ Tame l := by
  intro l hl
  obtain ⟨it, hit, j, x, hx, e⟩ := mem_printItems items k hl
  obtain ⟨h1, h2, h3⟩ := h it hit x hx
  replace h2 : softItems items = true → rstrip x = x := fun hs => h2 (softItems_mem.1 hs it hit)
  rcases e with rfl | rfl
  · obtain ⟨c, p, ep, hcw, hcn, hnl⟩ := hm j
    refine ⟨hnl.append h1, fun hs => rstrip_append_of_strip h3.strip (h2 hs), ?_⟩
    rw [ep]; exact Tame.after hcw hcn h3
  · have hcw : ∀ c ∈ cont, isWs c = true := fun c hx => by rw [hc c hx]; decide
    refine ⟨NoLB.append (fun c hx => by rw [hc c hx]; decide) h1, fun hs => rstrip_append_of_strip h3.strip (h2 hs), h3.indent hcw⟩

/-- Lines of blocks: no line breaks in them; no whitespace at their ends, except for hard breaks; those in list entries
are tame. -/
theorem print_lines : ∀ (d : Nat) (a : Node), a.WF d → ∀ w, ∀ l ∈ a.print w, NoLB l ∧ (a.soft = true → rstrip l = l) ∧
    (a.inside = true → Tame l) := by
  intro d
  induction d with
  | zero => intro a h; exact h.elim
  | succ d ih =>
    intro a hw w
    cases a with
    | blank =>
      intro l hl
      simp only [Node.print, List.mem_singleton] at hl
      subst hl; exact ⟨noLB_nil, fun _ => rfl, by intro h; cases h⟩
    | heading k t =>
      obtain ⟨hk, hne, hst, hlb⟩ := hw
      intro l hl
      simp only [Node.print, List.mem_singleton] at hl
      subst hl
      refine ⟨(replicate_noLB' (by decide) k).append (.cons (by decide) hlb), fun _ => ?_, fun _ => ?_⟩
      · have : rstrip t = t := by rw [← hst, rstrip_strip]
        have := rstrip_append_of_strip (p := List.replicate k '#' ++ [' ']) (l := t) (by rw [hst]; exact hne) this
        simpa using this
      · obtain ⟨k, rfl⟩ : ∃ j, k = j + 1 := ⟨k - 1, by omega⟩
        exact Tame.of_first (by decide) (by decide)
    | underlined c ts =>
      obtain ⟨hc, hts⟩ := hw
      have hcw : isWs c = false := by rcases hc with rfl | rfl <;> decide
      intro l hl
      simp only [Node.print, List.mem_append, List.mem_singleton] at hl
      rcases hl with hl | rfl
      · obtain ⟨h1, h2, h3⟩ := layLines_lines w hts l hl
        exact ⟨h3.facts.2.2.2.2, fun _ => h2, fun _ => h3.tame⟩
      · refine ⟨replicate_noLB' hcw _, fun _ => rstrip_replicate hcw _, ?_⟩
        intro hi
        have : c = '=' := by simpa [Node.inside] using hi
        subst this
        obtain ⟨h1, h2, _⟩ := text_layLines hts w
        have hpos := longestLine_pos h2 h1.lines
        obtain ⟨m, hm⟩ : ∃ m, longestLine (layLines w ts) = m + 1 := ⟨longestLine (layLines w ts) - 1, by omega⟩
        rw [hm]
        exact Tame.of_first (by decide) (by decide)
    | par ts =>
      have hts : Layable ts := hw
      intro l hl
      obtain ⟨h1, h2, h3⟩ := layLines_lines w hts l hl
      exact ⟨h3.facts.2.2.2.2, fun _ => h2, fun _ => h3.tame⟩
    | hard ts =>
      have hts : Layable ts := hw
      obtain ⟨_, hne, _⟩ := text_layLines hts w
      obtain ⟨r, x, e1, e2⟩ := hardLast_ne hne
      have hall := layLines_lines w hts
      rw [e1] at hall
      intro l hl
      refine ⟨?_, (by intro h0; cases h0), fun _ => ?_⟩
      all_goals
        rw [Node.print, e2] at hl
        rcases List.mem_append.1 hl with hl | hl
      · exact (hall l (by simp [hl])).2.2.facts.2.2.2.2
      · rw [List.mem_singleton.1 hl]
        exact (hard_facts (hall x (by simp)).2.2 (by decide)).2.2.2
      · exact (hall l (by simp [hl])).2.2.tame
      · rw [List.mem_singleton.1 hl]
        exact (hall x (by simp)).2.2.tame.trail (by decide)
    | indented body =>
      obtain ⟨hall, _⟩ := hw
      intro l hl
      exact ⟨(hall l hl).2.1, fun _ => (hall l hl).1, fun hi => plainCode_tame (List.all_eq_true.1 hi l hl)⟩
    | ref label link title =>
      obtain ⟨hr, _⟩ := hw
      intro l hl
      simp only [Node.print, List.mem_singleton] at hl
      subst hl
      exact ⟨refLine_noLB hr, fun _ => by rw [← refLine_strip hr, rstrip_strip], fun _ => Tame.of_first (by decide) (by decide)⟩
    | tail label link =>
      obtain ⟨hr, _⟩ := hw
      intro l hl
      simp only [Node.print, List.mem_singleton] at hl
      subst hl
      exact ⟨refLine_noLB hr, fun _ => by rw [← refLine_strip hr, rstrip_strip], fun _ => Tame.of_first (by decide) (by decide)⟩
    | rule c =>
      have hcc : c = '*' ∨ c = '_' ∨ c = '-' := hw
      have hcw : isWs c = false := by rcases hcc with rfl | rfl | rfl <;> decide
      intro l hl
      have hl : l = MF.rule c w := by simpa [Node.print] using hl
      have : ∃ k, l = List.replicate k c := by
        rw [hl]
        cases w with
        | inf => exact ⟨3, rfl⟩
        | fin n => exact ⟨n.toNat, rfl⟩
      obtain ⟨k, rfl⟩ := this
      exact ⟨replicate_noLB' hcw _, fun _ => rstrip_replicate hcw _, by intro h; cases h⟩
    | code f k info body =>
      obtain ⟨hf, hk, hst, hinfo, hlb, hbody⟩ := hw
      have hfw : isWs f = false := by rcases hf with rfl | rfl <;> decide
      intro l hl
      refine ⟨?_, fun _ => ?_, by intro h; cases h⟩
      · simp only [Node.print, List.cons_append, List.mem_cons, List.mem_append, List.not_mem_nil, or_false] at hl
        rcases hl with rfl | hl | rfl
        · exact (replicate_noLB' hfw _).append hlb
        · exact (hbody l hl).2.1
        · exact replicate_noLB' hfw _
      · simp only [Node.print, List.cons_append, List.mem_cons, List.mem_append, List.not_mem_nil, or_false] at hl
        rcases hl with rfl | hl | rfl
        · cases hi : info with
          | nil => rw [List.append_nil]; exact rstrip_replicate hfw _
          | cons x xs =>
            rw [← hi]
            exact rstrip_append_of_strip (by rw [hst, hi]; simp) (by rw [← hst, rstrip_strip])
        · exact (hbody l hl).1
        · exact rstrip_replicate hfw _
    | table as head rows =>
      obtain ⟨_, _, _, _, _, _, _, _, _, _, _, h⟩ := table_lines hw
      intro l hl
      exact ⟨(h l hl).1, fun _ => (h l hl).2.2, by intro h; cases h⟩
    | quote sp inner =>
      obtain ⟨hne, hin, hadj, hsoft, hsp⟩ := hw
      intro l hl
      simp only [Node.print] at hl
      obtain ⟨x, hx, rfl⟩ := List.mem_map.1 hl
      obtain ⟨a, ha, hxa⟩ := mem_printDoc.1 hx
      obtain ⟨h1, h2, _⟩ := ih a (hin a ha) _ x hxa
      replace h2 := h2 (softDoc_mem.1 hsoft a ha)
      refine ⟨?_, fun _ => ?_, fun _ => Tame.of_first (by decide) (by decide)⟩
      · refine .cons (by decide) ?_
        split
        · unfold spaced; split
          · exact noLB_nil
          · exact .cons (by decide) h1
        · exact h1
      · have key : ∀ p : Str, rstrip ('>' :: p ++ x) = (if x = [] then '>' :: rstrip p else '>' :: p ++ x) := by
          intro p
          split
          · rename_i e; rw [e, List.append_nil]
            rcases hp : rstrip p with _ | ⟨c, r⟩
            · have := (rstrip_eq_nil p).1 hp
              rw [show '>' :: p = ['>'] ++ p from rfl, rstrip_append_ws _ _ this]; rfl
            · have := rstripBy_append_of_ne isWs ['>'] p (by show rstrip p ≠ []; rw [hp]; simp)
              rw [show '>' :: p = ['>'] ++ p from rfl]
              exact this.trans (by rw [show rstripBy isWs p = rstrip p from rfl, hp]; rfl)
          · rename_i e
            have : rstrip x ≠ [] := by rw [h2]; exact e
            exact (rstripBy_append_of_ne isWs ('>' :: p) x this).trans (by rw [show rstripBy isWs x = rstrip x from rfl, h2])
        cases sp with
        | false =>
          have := key []
          simp only [List.cons_append, List.nil_append] at this ⊢
          rw [show (if false = true then spaced x else x) = x from rfl, this]
          split
          · rename_i e; rw [e]; rfl
          · rfl
        | true =>
          rw [show (if true = true then spaced x else x) = spaced x from rfl]
          unfold spaced
          split
          · rename_i e; decide
          · have := key [' ']
            rw [if_neg (by rename_i e; intro h; rw [h] at e; exact e rfl)] at this
            exact this
    | bullets c items =>
      obtain ⟨hc, hne, hit⟩ := hw
      intro l hl
      have := items_lines (w := w.sub 2) (mark := fun _ => [c, ' ']) (cont := c!"  ") (k := 0) (items := items)
        (fun _ => mark_bullet hc) (by decide) (by
          intro it hi l hl
          obtain ⟨a, ha, hla⟩ := mem_printDoc.1 hl
          obtain ⟨h1, h2, h3⟩ := ih a ((hit it hi).2.1 a ha).1 _ l hla
          exact ⟨h1, fun hs => h2 (softDoc_mem.1 hs a ha), h3 ((hit it hi).2.1 a ha).2⟩) l hl
      exact ⟨this.1, this.2.1, fun _ => this.2.2⟩
    | numbers first items =>
      obtain ⟨hc, hne, hit⟩ := hw
      intro l hl
      have := items_lines (w := w.sub ((natStr (first + items.length - 1)).length + 2 : Nat))
        (mark := fun k => natStr (first + k) ++ c!". ")
        (cont := List.replicate ((natStr (first + items.length - 1)).length + 2) ' ') (k := 0) (items := items)
        (fun _ => mark_number _) (fun c hc => List.eq_of_mem_replicate hc) (by
          intro it hi l hl
          obtain ⟨a, ha, hla⟩ := mem_printDoc.1 hl
          obtain ⟨h1, h2, h3⟩ := ih a ((hit it hi).2.1 a ha).1 _ l hla
          exact ⟨h1, fun hs => h2 (softDoc_mem.1 hs a ha), h3 ((hit it hi).2.1 a ha).2⟩) l hl
      exact ⟨this.1, this.2.1, fun _ => this.2.2⟩

/-- The first line of a block. -/
theorem print_head : ∀ (d : Nat) (a : Node), a.WF d → ∀ w, a.wide w = true →
    ∃ l r, a.print w = l :: r ∧ (a.kind ≠ .blank → strip l ≠ [] ∧ (a.kind ≠ .indented → getIndent l = 0)) := by
  have first : ∀ (c : Char) (l : Str) (P : Prop), isWs c = false → strip (c :: l) ≠ [] ∧ (P → getIndent (c :: l) = 0) := by
    intro c l P h
    refine ⟨?_, fun _ => getIndent_not_ws h⟩
    intro e; have := (strip_eq_nil _).1 e c (by simp); rw [h] at this; cases this
  intro d
  induction d with
  | zero => intro a h; exact h.elim
  | succ d ih =>
    intro a hw w hwide
    have items : ∀ (w' : Width) (mark : Nat → Str) (cont : Str) (items : List (List Node)), (∀ j, Mark (mark j)) → items ≠ [] →
        (∀ it ∈ items, it ≠ [] ∧ (∀ a ∈ it, a.WF d ∧ a.inside = true) ∧ Flow it) → wideItems w' items = true →
        ∃ l r, printItems w' mark cont 0 items = l :: r ∧ ∀ P : Prop, strip l ≠ [] ∧ (P → getIndent l = 0) := by
      intro w' mark cont items hm hne hit hwi
      obtain ⟨it, its, rfl⟩ := List.exists_cons_of_ne_nil hne
      obtain ⟨h1, h2, _⟩ := hit it (by simp)
      obtain ⟨a, as, rfl⟩ := List.exists_cons_of_ne_nil h1
      obtain ⟨l, r, e, _⟩ := ih a (h2 a (by simp)).1 w' (wideDoc_mem.1 (wideItems_mem.1 hwi (a :: as) (by simp)) a (by simp))
      obtain ⟨c, p, ep, hcw, _⟩ := hm 0
      refine ⟨mark 0 ++ l, _, by rw [printItems, printDoc, e]; rfl, ?_⟩
      rw [ep]
      exact fun P => first _ _ P hcw
    cases a with
    | blank => exact ⟨[], [], rfl, by intro h; exact absurd rfl h⟩
    | heading k t =>
      obtain ⟨hk, _⟩ := hw
      refine ⟨_, _, rfl, fun _ => ?_⟩
      obtain ⟨k, rfl⟩ : ∃ j, k = j + 1 := ⟨k - 1, by omega⟩
      exact first _ _ _ (by decide)
    | underlined c ts =>
      obtain ⟨hc, hts⟩ := hw
      obtain ⟨_, h1, _⟩ := text_layLines hts w
      have h4 := layLines_lines w hts
      obtain ⟨l, r, e⟩ := List.exists_cons_of_ne_nil h1
      refine ⟨l, _, by rw [Node.print, e]; rfl, fun _ => ⟨?_, fun _ => (h4 l (by rw [e]; simp)).1⟩⟩
      exact ((h4 l (by rw [e]; simp)).2.2).tame.strip
    | par ts =>
      have hts : Layable ts := hw
      obtain ⟨_, h1, _⟩ := text_layLines hts w
      have h4 := layLines_lines w hts
      obtain ⟨l, r, e⟩ := List.exists_cons_of_ne_nil h1
      refine ⟨l, r, e, fun _ => ⟨?_, fun _ => (h4 l (by rw [e]; simp)).1⟩⟩
      exact ((h4 l (by rw [e]; simp)).2.2).tame.strip
    | hard ts =>
      have hts : Layable ts := hw
      obtain ⟨_, h1, _⟩ := text_layLines hts w
      have h4 := layLines_lines w hts
      obtain ⟨l, r, e⟩ := List.exists_cons_of_ne_nil h1
      obtain ⟨h5, _, h6⟩ := h4 l (by rw [e]; simp)
      cases r with
      | nil =>
        refine ⟨l ++ c!"  ", [], by rw [Node.print, e]; rfl, fun _ => ⟨?_, fun _ => ?_⟩⟩
        · exact (h6.tame.trail (by decide)).strip
        · rw [getIndent_append_ws h6.tame.strip]; exact h5
      | cons m r => exact ⟨l, _, by rw [Node.print, e]; rfl, fun _ => ⟨h6.tame.strip, fun _ => h5⟩⟩
    | indented body =>
      obtain ⟨hall, ⟨l, r, rfl, hne, _⟩, _⟩ := hw
      exact ⟨l, r, rfl, fun _ => ⟨strip_ne_of_rstrip (hall l (by simp)).1 hne, fun h0 => absurd rfl h0⟩⟩
    | ref | tail => exact ⟨_, [], rfl, fun _ => first _ _ _ (by decide)⟩
    | rule c =>
      have hcc : c = '*' ∨ c = '_' ∨ c = '-' := hw
      have hcw : isWs c = false := by rcases hcc with rfl | rfl | rfl <;> decide
      obtain ⟨k, hk, e⟩ := rule_facts c (wide_width hwide)
      refine ⟨MF.rule c w, [], rfl, fun _ => ?_⟩
      obtain ⟨j, rfl⟩ : ∃ j, k = j + 1 := ⟨k - 1, by omega⟩
      rw [e]
      exact first _ _ _ hcw
    | code f k info body =>
      obtain ⟨hf, hk, _⟩ := hw
      have hfw : isWs f = false := by rcases hf with rfl | rfl <;> decide
      refine ⟨_, _, rfl, fun _ => ?_⟩
      obtain ⟨k, rfl⟩ : ∃ j, k = j + 1 := ⟨k - 1, by omega⟩
      exact first _ _ _ hfw
    | table as head rows =>
      obtain ⟨header, divider, body, dc, e, _, _, _, _, _, _, h⟩ := table_lines hw
      refine ⟨header, _, e, fun _ => ?_⟩
      obtain ⟨r, hr⟩ := (h header (by rw [e]; simp)).2.1
      rw [hr]
      exact first _ _ _ (by decide)
    | quote sp inner =>
      obtain ⟨hne, hin, hadj, hsoft, hsp⟩ := hw
      obtain ⟨a, as, rfl⟩ := List.exists_cons_of_ne_nil hne
      obtain ⟨l, r, e, _⟩ := ih a (hin a (by simp)) _ (wideDoc_mem.1 hwide a (by simp))
      refine ⟨_, _, by rw [Node.print, printDoc, e]; rfl, fun _ => ?_⟩
      exact first _ _ _ (by decide)
    | bullets c items' =>
      obtain ⟨hc, hne, hit⟩ := hw
      obtain ⟨l, r, h1, h2⟩ := items (w.sub 2) (fun _ => [c, ' ']) c!"  " items' (fun _ => mark_bullet hc) hne hit hwide
      exact ⟨l, r, h1, fun _ => h2 _⟩
    | numbers k items' =>
      obtain ⟨hc, hne, hit⟩ := hw
      obtain ⟨l, r, h1, h2⟩ := items (w.sub ((natStr (k + items'.length - 1)).length + 2 : Nat))
        (fun j => natStr (k + j) ++ c!". ") (List.replicate ((natStr (k + items'.length - 1)).length + 2) ' ') items'
        (fun _ => mark_number _) hne hit hwide
      exact ⟨l, r, h1, fun _ => h2 _⟩

/-- Lines of these blocks are not indented. -/
theorem print_low {d : Nat} {a : Node} (hw : a.WF (d + 1)) (w : Width) (hwide : a.wide w = true) (h1 : a.kind ≠ .bullet)
    (h2 : a.kind ≠ .ordered) (h3 : a.kind ≠ .fenced) (h4 : a.kind ≠ .indented) : ∀ l ∈ a.print w, getIndent l = 0 := by
  obtain ⟨hl, hr, e, hh⟩ := print_head (d + 1) a hw w hwide
  cases a with
  | blank => intro l hl; simp only [Node.print, List.mem_singleton] at hl; subst hl; rfl
  | heading k t =>
    intro l h
    rw [e] at h
    have : hr = [] := by simp only [Node.print, List.cons.injEq] at e; exact e.2.symm
    rw [this, List.mem_singleton] at h
    rw [h]; exact (hh (by simp [Node.kind])).2 (by simp [Node.kind])
  | underlined c ts =>
    obtain ⟨hc, hts⟩ := hw
    have hcw : isWs c = false := by rcases hc with rfl | rfl <;> decide
    intro l hl
    simp only [Node.print, List.mem_append, List.mem_singleton] at hl
    rcases hl with hl | rfl
    · exact (layLines_lines w hts l hl).1
    · cases longestLine (layLines w ts) with
      | zero => rfl
      | succ n => exact getIndent_not_ws hcw
  | par ts => intro l hl; exact (layLines_lines w hw l hl).1
  | hard ts =>
    have hts : Layable ts := hw
    obtain ⟨_, hne, _⟩ := text_layLines hts w
    obtain ⟨r, x, e1, e2⟩ := hardLast_ne hne
    have hall := layLines_lines w hts
    rw [e1] at hall
    intro l hl
    rw [Node.print, e2] at hl
    rcases List.mem_append.1 hl with hl | hl
    · exact (hall l (by simp [hl])).1
    · rw [List.mem_singleton.1 hl, getIndent_append_ws (hall x (by simp)).2.2.tame.strip]
      exact (hall x (by simp)).1
  | indented => exact absurd rfl h4
  | ref | tail =>
    intro l h
    simp only [Node.print, List.mem_singleton] at h
    rw [h]; exact getIndent_not_ws (by decide)
  | rule c =>
    intro l h
    have hr0 : hr = [] := by simp only [Node.print, List.cons.injEq] at e; exact e.2.symm
    rw [e, hr0, List.mem_singleton] at h
    rw [h]; exact (hh (by simp [Node.kind])).2 (by simp [Node.kind])
  | table as head rows =>
    obtain ⟨_, _, _, _, _, _, _, _, _, _, _, h⟩ := table_lines hw
    intro l hl
    obtain ⟨r, hr⟩ := (h l hl).2.1
    rw [hr]; exact getIndent_not_ws (by decide)
  | quote sp inner =>
    intro l hl
    simp only [Node.print] at hl
    obtain ⟨x, hx, rfl⟩ := List.mem_map.1 hl
    exact getIndent_not_ws (by decide)
  | code => exact absurd rfl h3
  | bullets => exact absurd rfl h1
  | numbers => exact absurd rfl h2

end MF
