import Verif.Props.Prose
import Verif.Props.Lists
import Verif.Props.Quotes
import Verif.Props.Extents
import Verif.Lemmas.Refs
import Verif.Lemmas.Unquote
import Verif.Lemmas.Local
/-!
# Dividing nested documents into sections
-/

namespace MF

/-- A section: kind, lines, and whether it ends with an open paragraph. -/
structure Blk where
  ty : Sec
  ls : List Str
  opn : Bool

/-- The lines of a list of sections. -/
def blkLines (doc : List Blk) : List Str := (doc.map (·.ls)).flatten

/-- All elements but the last one, and the last one. -/
def cutLast : List Str → List (List Str)
  | [] => [[]]
  | [l] => [[l]]
  | l :: m :: r => [(l :: m :: r).dropLast, [(m :: r).getLast (by simp)]]

theorem cutLast_flatten (ls : List Str) : (cutLast ls).flatten = ls := by
  match ls with
  | [] | [l] => rfl
  | l :: m :: r =>
    simp only [cutLast, List.flatten_cons, List.flatten_nil, List.append_nil]
    rw [← List.getLast_cons (a := l) (by simp)]
    exact List.dropLast_concat_getLast (by simp)

/-- The parser cuts the last line off indented code. -/
def Blk.secs (b : Blk) : List (Sec × List Str) :=
  if b.ty = .indented then (cutLast b.ls).map (.indented, ·) else [(b.ty, b.ls)]

/-- The sections as the parser returns them. -/
def blkSecs (doc : List Blk) : List (Sec × List Str) := (doc.map Blk.secs).flatten

theorem linesOf_secs (b : Blk) : linesOf b.secs = b.ls := by
  unfold Blk.secs
  split
  · unfold linesOf
    rw [List.map_map]
    exact (congrArg List.flatten (List.map_id _)).trans (cutLast_flatten _)
  · simp [linesOf]

theorem blkSecs_cons (b : Blk) (doc : List Blk) : blkSecs (b :: doc) = b.secs ++ blkSecs doc := rfl

theorem blkLines_secs (doc : List Blk) : linesOf (blkSecs doc) = blkLines doc := by
  induction doc with
  | nil => rfl
  | cons b doc ih => rw [blkSecs_cons, linesOf_append, linesOf_secs, ih]; rfl

theorem secs_other {b : Blk} (h : b.ty ≠ .indented) : b.secs = [(b.ty, b.ls)] := by
  unfold Blk.secs; rw [if_neg h]

theorem secs_last (b : Blk) : ∃ r L, b.secs = r ++ [(b.ty, L)] ∧ (b.ty ≠ .indented → L = b.ls) := by
  by_cases h : b.ty = .indented
  · unfold Blk.secs
    rw [if_pos h, h]
    match b.ls with
    | [] => exact ⟨[], _, rfl, fun h0 => absurd rfl h0⟩
    | [l] => exact ⟨[], _, rfl, fun h0 => absurd rfl h0⟩
    | l :: m :: r => exact ⟨[_], _, rfl, fun h0 => absurd rfl h0⟩
  · exact ⟨[], b.ls, secs_other h, fun _ => rfl⟩

theorem blkLines_append (a b : List Blk) : blkLines (a ++ b) = blkLines a ++ blkLines b := by simp [blkLines]

theorem blkLines_cons (b : Blk) (doc : List Blk) : blkLines (b :: doc) = b.ls ++ blkLines doc := rfl

/-- Lines and what is behind their quote markers. -/
inductive Quoted : List Str → List Str → Prop
  | nil : Quoted [] []
  | cons {l r : Str} {ls rs : List Str} (h : Marked l r) (hs : Quoted ls rs) : Quoted (l :: ls) (r :: rs)

theorem Quoted.unquote {ls rs : List Str} (h : Quoted ls rs) : ls.map unquote = rs := by
  induction h with
  | nil => rfl
  | cons h _ ih => rw [List.map_cons, unquote_marked h, ih]

theorem Quoted.isQuote {ls rs : List Str} (h : Quoted ls rs) : ∀ l ∈ ls, isQuote l = true := by
  induction h with
  | nil => intro l hl; cases hl
  | cons h _ ih =>
    intro l hl
    rcases List.mem_cons.1 hl with rfl | hl
    · exact h.isQuote
    · exact ih l hl

/-- A section of a nested document. `P` describes the sections behind quote markers. -/
inductive SecOK (P : List Blk → Prop) : Sec → List Str → Bool → Prop
  | flat {ty : Sec} {ls : List Str} (h : Flat ty ls) : SecOK P ty ls (ty == .par)
  | bullet {l : Str} {ls : List Str} (h : isBulletStart l = true) (hu : isSetextUnderline l = false)
      (hl : ∀ x ∈ ls, listEnd x = false) :
      SecOK P .bullet (l :: ls) false
  | ordered {l : Str} {ls : List Str} (h : isOrderedStart l = true) (hl : ∀ x ∈ ls, listEnd x = false) :
      SecOK P .ordered (l :: ls) false
  | table {ls : List Str} (hne : ls ≠ []) (h : ∀ x ∈ ls, isTableStart x = true)
      (hi : ∀ l, ls.head? = some l → getIndent l < 4) : SecOK P .table ls false
  | hard {ls : List Str} {l ws : Str} {ts : List Tok} (h : Text (ls ++ [l]) ts) (hws : ∀ c ∈ ws, c = ' ')
      (h2 : 2 ≤ ws.length) : SecOK P .par (ls ++ [l ++ ws]) true
  | indented {ls : List Str} (h : ∀ l ∈ ls, isIndentedStart l = true ∨ isBlankLine l = true)
      (h1 : ∃ l r, ls = l :: r ∧ isIndentedStart l = true ∧ isFenceStart l = false)
      (h2 : ∃ r l, ls = r ++ [l] ∧ isIndentedStart l = true ∧ isFenceStart l = false) : SecOK P .indented ls false
  | ref {l label link title : Str} (hr : Ref label link title) (h : RefAt l label link title) : SecOK P .lrd [l] false
  | tail {l label link : Str} (hr : Ref label link []) (h : TailAt l label link) : SecOK P .par [l] true
  | quote {ls : List Str} {doc : List Blk} {b : Blk} (hq : Quoted ls (blkLines (doc ++ [b]))) (hp : P (doc ++ [b])) :
      SecOK P .quote ls b.opn

/-- The last line ends with a hard break. -/
def Breaks (ls : List Str) : Prop := ∃ r l, ls = r ++ [l] ∧ endsWith l c!"  " = true

/-- What may follow a section. -/
structure Next (a b : Blk) : Prop where
  par : a.ty = .par → (b.ty = .thematic → ∀ l ∈ b.ls, '-' ∉ l) ∧
    (Breaks a.ls ∨ b.ty ≠ .par ∧ b.ty ≠ .setext ∧ b.ty ≠ .indented ∧ b.ty ≠ .lrd)
  label : a.ty = .par → ∀ l, a.ls.head? = some l → NoLabel l
  lrd : a.ty = .lrd → ∀ l, b.ls.head? = some l → ∀ q ∈ c!"'\"", l.head? ≠ some q
  quote : a.ty = .quote → b.ty ≠ .quote ∧ b.ty ≠ .setext ∧ (a.opn = true → b.ty ≠ .par ∧ b.ty ≠ .indented ∧ b.ty ≠ .lrd)
  list : a.ty = .bullet ∨ a.ty = .ordered → b.ty = .blank ∨ b.ty = .thematic ∨ b.ty = .table
  table : a.ty = .table → b.ty ≠ .table ∧ b.ty ≠ .indented

/-- What may be at the end of a document, and after indented code. -/
structure Sealed (doc : List Blk) : Prop where
  last : ∀ a b, doc = a ++ [b] → b.ty = .par → ¬ Breaks b.ls
  title : ∀ a b, doc = a ++ [b] → b.ty = .lrd → ∃ l label link title, b.ls = [l] ∧ Ref label link title ∧
    RefAt l label link title ∧ title ≠ []
  apart : ∀ a b c, doc = a ++ b :: c → b.ty = .indented → NoIndentFirst (blkLines c)

/-- Documents with sections nested at most `d` deep. -/
def Sections : Nat → List Blk → Prop
  | 0, _ => False
  | d + 1, doc => (∀ b ∈ doc, SecOK (Sections d) b.ty b.ls b.opn) ∧ Adj Next doc ∧ Sealed doc

theorem endsWith_spaces (l : Str) {ws : Str} (hws : ∀ c ∈ ws, c = ' ') (h2 : 2 ≤ ws.length) :
    endsWith (l ++ ws) c!"  " = true := by
  rw [endsWith_iff]
  obtain ⟨k, hk⟩ : ∃ k, ws.length = k + 2 := ⟨ws.length - 2, by omega⟩
  have hr : ws = List.replicate (k + 2) ' ' := by rw [← hk]; exact List.eq_replicate_of_mem hws
  refine ⟨l ++ List.replicate k ' ', ?_⟩
  rw [hr, List.append_assoc, List.replicate_succ', List.replicate_succ']
  simp

theorem getIndent_append_ws {l ws : Str} (hl : strip l ≠ []) : getIndent (l ++ ws) = getIndent l := by
  have : lstrip l ≠ [] := by intro e; exact hl (by rw [strip, e]; rfl)
  obtain ⟨t, ht, hws⟩ := lstrip_split l
  have h2 : lstrip (l ++ ws) = lstrip l ++ ws := by
    cases e : lstrip l with
    | nil => exact absurd e this
    | cons c r =>
      have hc : isWs c = false := by
        have := lstrip_idem l
        rw [e] at this
        cases hcw : isWs c with
        | false => rfl
        | true =>
          have h3 := congrArg List.length this
          have h4 : lstrip (c :: r) = lstrip r := lstrip_append_ws [c] r (by simp [hcw])
          obtain ⟨t', ht', _⟩ := lstrip_split r
          have h5 := congrArg List.length ht'
          rw [h4] at h3
          simp at h3 h5
          omega
      rw [e] at ht
      rw [ht, List.append_assoc, lstrip_append_ws t _ hws, List.cons_append, lstrip_cons_of_not _ _ hc]
  unfold getIndent
  rw [h2]
  simp only [List.length_append]
  omega

/-- A line of text with a hard break at its end. -/
theorem hard_facts {l ws : Str} (h : TextLine l) (hws : ∀ c ∈ ws, c = ' ') :
    isParStart (l ++ ws) = true ∧ Continues (l ++ ws) ∧ NoLabel (l ++ ws) ∧ NoLB (l ++ ws) := by
  obtain ⟨w, us, hw, ho⟩ := h.opens
  have hsp : ∀ c ∈ ws, isWs c = true := fun c hc => by rw [hws c hc]; decide
  have hst : strip l ≠ [] := by
    intro e
    rw [splitWs_all_ws ((strip_eq_nil l).1 e)] at hw
    cases hw
  have hi : getIndent (l ++ ws) < 4 := by rw [getIndent_append_ws hst]; exact h.indent
  have hw' : splitWs (l ++ ws) = w :: us := by rw [splitWs_append_all hsp]; exact hw
  obtain ⟨⟨c, h0, h0'⟩, h1, h2, h3, h4, h5, h6, h7, h8, h9, h10⟩ := opener_line hw' ho hi
  refine ⟨by simp [isParStart, h1, h2, h3, h4, h5, h6, h7, h8, h10], ⟨h3, by simp [interrupts, h1, h2, h4, h5, h6, h7, h8],
    h9⟩, ?_, ?_⟩
  · intro hb hin
    have hfc : firstCh l = some '[' := by
      obtain ⟨⟨c', h0'', _⟩, _⟩ := opener_line hw ho h.indent
      obtain ⟨r1, e1, _⟩ := first_word hw
      obtain ⟨r2, e2, _⟩ := first_word hw'
      obtain ⟨x, y, e⟩ := List.exists_cons_of_ne_nil ho.ne
      unfold firstCh at hb ⊢
      rw [e2, e] at hb
      rw [e1, e]
      exact hb
    refine h.label hfc ?_
    obtain ⟨p, q, e⟩ := hin
    -- the bracket and the colon are no spaces
    have key : ∀ k q, p ++ c!"]:" ++ q = l ++ List.replicate k ' ' → c!"]:" <:+: l := by
      intro k
      induction k with
      | zero => intro q e; exact ⟨p, q, by simpa using e⟩
      | succ k ih =>
        intro q e
        rw [List.replicate_succ', ← List.append_assoc] at e
        rcases List.eq_nil_or_concat q with rfl | ⟨q', x, rfl⟩
        · have h1 : (p ++ c!"]:" ++ []).getLast? = some ':' := by simp
          rw [e] at h1
          simp at h1
        · rw [List.concat_eq_append, ← List.append_assoc] at e
          exact ih q' (List.append_inj_left' e rfl)
    exact key ws.length q (by rw [e]; congr 1; exact List.eq_replicate_of_mem hws)
  · intro c hc
    rcases List.mem_append.1 hc with hc | hc
    · exact spaces_noLB h.spaces c hc
    · rw [hws c hc]; decide

theorem SecOK.ne {P : List Blk → Prop} (hP : ∀ doc, P doc → ∀ b ∈ doc, b.ls ≠ []) {ty : Sec} {ls : List Str} {o : Bool}
    (h : SecOK P ty ls o) : ls ≠ [] := by
  cases h with
  | flat h => exact flat_ne h
  | bullet | ordered => simp
  | table hne h hi => exact hne
  | hard => simp
  | indented _ h1 _ => obtain ⟨l, r, rfl, _⟩ := h1; simp
  | ref | tail => simp
  | @quote _ doc b hq hp =>
    have := hP _ hp b (by simp)
    intro e
    rw [e] at hq
    generalize hg : blkLines (doc ++ [b]) = L at hq
    cases hq
    apply this
    have h2 : blkLines (doc ++ [b]) = blkLines doc ++ b.ls := by simp [blkLines]
    rw [hg] at h2
    exact (List.append_eq_nil_iff.1 h2.symm).2

theorem Sections.ne {d : Nat} : ∀ {doc : List Blk}, Sections d doc → ∀ b ∈ doc, b.ls ≠ [] := by
  induction d with
  | zero => intro doc h; exact h.elim
  | succ d ih => intro doc h b hb; exact (h.1 b hb).ne fun doc h => ih h

/-- The first line of a section. -/
theorem SecOK.head {P : List Blk → Prop} (hP : ∀ doc, P doc → ∀ b ∈ doc, b.ls ≠ []) {ty : Sec} {ls : List Str} {o : Bool}
    (h : SecOK P ty ls o) : ∃ l r, ls = l :: r ∧ (ty ≠ .quote → isQuote l = false) ∧ (ty = .quote → isQuote l = true) ∧
      (ty ≠ .quote → ty ≠ .par → ty ≠ .setext → ty ≠ .indented → ty ≠ .lrd → interrupts l = true) ∧
      ((ty = .thematic → ∀ x ∈ ls, '-' ∉ x) → isSetextUnderline l = false) ∧
      (ty = .blank ∨ ty = .thematic ∨ ty = .table → listEnd l = true) ∧
      (ty ≠ .table → ty ≠ .indented → isTableStart l = false) := by
  have hne := h.ne hP
  cases h with
  | flat h =>
    have hnq : ty ≠ .quote := by intro e; subst e; cases h
    have hnt : ty ≠ .table := by intro e; subst e; cases h
    cases h with
    | @blank l h hl =>
      have hfc := (firstCh_none l).2 h
      refine ⟨l, [], rfl, ?_, fun e => absurd e hnq, ?_, ?_, ?_, ?_⟩
      · intro _
        cases hq : isQuote l with
        | false => rfl
        | true => rw [isQuote_first hq] at hfc; cases hfc
      · intro _ _ _ _ _; simp [interrupts, h]
      · intro _
        cases hq : isSetextUnderline l with
        | false => rfl
        | true =>
          obtain ⟨c, r, hc, _⟩ := underline_char hq
          have : strip l = [] := by simpa [isBlankLine] using h
          rw [this] at hc; cases hc
      · intro _; rw [listEnd_eq]; simp [h]
      · intro _ _
        cases hq : isTableStart l with
        | false => rfl
        | true => rw [isTableStart_first.1 hq] at hfc; cases hfc
    | @atx l h hl =>
      obtain ⟨_, p2, p3, _, _, _, _, p8, _⟩ := false_of_first (isAtx_first h)
      exact ⟨l, [], rfl, fun _ => p2 (by decide), fun e => absurd e hnq,
        fun _ _ _ _ _ => by simp [interrupts, h], fun _ => p8 (by decide) (by decide), by simp, fun _ _ => p3 (by decide)⟩
    | @thematic l h hb hl =>
      obtain ⟨c, hfc, hc⟩ := isThematic_first h
      have hm : c ∈ l := by unfold firstCh at hfc; exact mem_of_mem_lstrip (List.mem_of_head? hfc)
      obtain ⟨_, p2, p3, _, _, _, _, p8, _⟩ := false_of_first hfc
      refine ⟨l, [], rfl, fun _ => p2 ?_, fun e => absurd e hnq, ?_, fun hd => p8 ?_ ?_, ?_, fun _ _ => p3 ?_⟩
      · rcases hc with rfl | rfl | rfl <;> decide
      · intro _ _ _ _ _; simp [interrupts, h]
      · rcases hc with rfl | rfl | rfl <;> decide
      · intro e; subst e; exact hd rfl l (by simp) hm
      · intro _; rw [listEnd_eq]; simp [h]
      · rcases hc with rfl | rfl | rfl <;> decide
    | par h =>
      have hne := h.ne
      replace h := h.lines
      cases ls with
      | nil => exact absurd rfl hne
      | cons l r =>
        have hf := (h l (by simp)).facts
        have hp := hf.1
        simp only [isParStart, List.any_cons, List.any_nil, Bool.or_false, Bool.not_eq_true', Bool.or_eq_false_iff] at hp
        exact ⟨l, r, rfl, fun _ => hf.2.1.quote, fun e => absurd e hnq, fun _ h1 => absurd rfl h1, fun _ => hf.2.1.setext,
          by simp, fun _ _ => hp.2.2.2.2.2.2.2.1⟩
    | @setext ls u ts h hu hl =>
      have hne' := h.ne
      replace h := h.lines
      cases ls with
      | nil => exact absurd rfl hne'
      | cons l r =>
        have hf := (h l (by simp)).facts
        have hp := hf.1
        simp only [isParStart, List.any_cons, List.any_nil, Bool.or_false, Bool.not_eq_true', Bool.or_eq_false_iff] at hp
        exact ⟨l, _, rfl, fun _ => hf.2.1.quote, fun e => absurd e hnq, fun _ _ h1 => absurd rfl h1, fun _ => hf.2.1.setext,
          by simp, fun _ _ => hp.2.2.2.2.2.2.2.1⟩
    | @fenced f k ws info close content hf hk hws hinfo hinfo2 hcontent hclose hl =>
      have hfw : isWs f = false := by rcases hf with rfl | rfl <;> decide
      have hfc : firstCh (ws ++ List.replicate k f ++ info) = some f := by
        unfold firstCh
        obtain ⟨j, rfl⟩ : ∃ j, k = j + 1 := ⟨k - 1, by omega⟩
        rw [List.append_assoc, lstrip_append_ws _ _ hws, List.replicate_succ, List.cons_append,
          lstrip_cons_of_not _ _ hfw]
        rfl
      obtain ⟨_, p2, p3, _, _, _, _, p8, _⟩ := false_of_first hfc
      have hint : interrupts (ws ++ List.replicate k f ++ info) = true := by
        have : isFenceStart (ws ++ List.replicate k f ++ info) = true := by
          cases h0 : isFenceStart (ws ++ List.replicate k f ++ info) with
          | true => rfl
          | false =>
            have := (openFence_none _).2 h0
            rw [fence_open hf hk hws hinfo] at this; cases this
        unfold interrupts
        rw [this]
        simp
      refine ⟨_, _, rfl, fun _ => p2 ?_, fun e => absurd e hnq, fun _ _ _ _ _ => hint, fun _ => p8 ?_ ?_, by simp, fun _ _ => p3 ?_⟩
      all_goals rcases hf with rfl | rfl <;> decide
  | @bullet l r h hu hl =>
    obtain ⟨c, hfc, hc⟩ := isBulletStart_first h
    obtain ⟨_, p2, p3, _⟩ := false_of_first hfc
    refine ⟨l, r, rfl, fun _ => p2 ?_, by simp, fun _ _ _ _ _ => by simp [interrupts, h], fun _ => hu, by simp, fun _ _ => p3 ?_⟩
    all_goals rcases hc with rfl | rfl | rfl <;> decide
  | @ordered l r h hl =>
    obtain ⟨c, hfc, hc⟩ := isOrderedStart_first h
    obtain ⟨_, p2, p3, _, _, _, _, p8, _⟩ := false_of_first hfc
    have hd : ∀ x, isDigit x = false → c ≠ x := by intro x hx e; rw [e, hx] at hc; cases hc
    exact ⟨l, r, rfl, fun _ => p2 (hd _ (by decide)), by simp,
      fun _ _ _ _ _ => by simp [interrupts, h], fun _ => p8 (hd _ (by decide)) (hd _ (by decide)), by simp,
      fun _ _ => p3 (hd _ (by decide))⟩
  | table hne h hi =>
    cases ls with
    | nil => exact absurd rfl hne
    | cons l r =>
      have hl := h l (by simp)
      obtain ⟨_, p2, _, _, _, _, _, p8, _⟩ := false_of_first (isTableStart_first.1 hl)
      exact ⟨l, r, rfl, fun _ => p2 (by decide), by simp,
        fun _ _ _ _ _ => by simp [interrupts, hl], fun _ => p8 (by decide) (by decide),
        fun _ => by rw [listEnd_eq]; simp [hl], by simp⟩
  | @hard ls l ws ts h hws h2 =>
    have hfacts : ∃ x r, ls ++ [l ++ ws] = x :: r ∧ isParStart x = true ∧ Continues x := by
      cases ls with
      | nil =>
        have := hard_facts (h.lines l (by simp)) hws
        exact ⟨_, _, rfl, this.1, this.2.1⟩
      | cons x ls =>
        have := (h.lines x (by simp)).facts
        exact ⟨_, _, rfl, this.1, this.2.1⟩
    obtain ⟨x, r, e, hp, hc⟩ := hfacts
    simp only [isParStart, List.any_cons, List.any_nil, Bool.or_false, Bool.not_eq_true', Bool.or_eq_false_iff] at hp
    exact ⟨x, r, e, fun _ => hc.quote, by simp, fun _ h1 => absurd rfl h1, fun _ => hc.setext, by simp,
      fun _ _ => hp.2.2.2.2.2.2.2.1⟩
  | indented h h1 h2 =>
    obtain ⟨l, r, rfl, hi, _⟩ := h1
    exact ⟨l, r, rfl, fun _ => by simp [isQuote, hi], by simp, fun _ _ _ h0 => absurd rfl h0,
      fun _ => by simp [isSetextUnderline, hi], by simp, fun _ h0 => absurd rfl h0⟩
  | @ref l label link title hr h =>
    obtain ⟨_, _, _, hfc, _⟩ := h.lstrip
    obtain ⟨_, p2, p3, _, _, _, _, p8, _⟩ := false_of_first hfc
    exact ⟨l, [], rfl, fun _ => p2 (by decide), by simp, fun _ _ _ _ h0 => absurd rfl h0, fun _ => p8 (by decide) (by decide),
      by simp, fun _ _ => p3 (by decide)⟩
  | @tail l label link hr h =>
    obtain ⟨_, _, _, hfc, _⟩ := h.refAt.lstrip
    obtain ⟨_, p2, p3, _, _, _, _, p8, _⟩ := false_of_first hfc
    exact ⟨l, [], rfl, fun _ => p2 (by decide), by simp, fun _ h0 => absurd rfl h0, fun _ => p8 (by decide) (by decide),
      by simp, fun _ _ => p3 (by decide)⟩
  | @quote _ doc b hq hp =>
    generalize hg : blkLines (doc ++ [b]) = L at hq
    cases hq with
    | nil => exact absurd rfl hne
    | @cons l r ls rs hm _ =>
      have hl := hm.isQuote
      obtain ⟨_, _, p3, _, _, _, _, p8, _⟩ := false_of_first (isQuote_first hl)
      exact ⟨l, ls, rfl, by simp, fun _ => hl, by simp, fun _ => p8 (by decide) (by decide), by simp, fun _ _ => p3 (by decide)⟩

/-! ## Block quotes -/

theorem isQuoteCont_stop {sbq : List Str → Split} {l : Str} (ls : List Str) (h : interrupts l = true) :
    isQuoteCont sbq (l :: ls) = .ok false := by
  have e : anySplits (l :: ls) [splitAtx, splitBlank, splitBullet, splitFenced, splitOrdered, splitSetext sbq,
      splitTable, splitThematic] = .ok true := by
    rw [anySplits_cons (p := isAtx l) (splitAtx_eq_nil ls) (fun h => ⟨[l], ls, by simp [splitAtx, h], by simp⟩),
      anySplits_cons (p := isBlankLine l) (splitBlank_eq_nil ls) (fun h => ⟨[l], ls, by simp [splitBlank, h], by simp⟩),
      anySplits_cons (p := isBulletStart l) (splitBullet_eq_nil ls)
        (fun h => ⟨l :: (listLoop 0 ls).1, _, by simp only [splitBullet, h]; rfl, by simp⟩),
      anySplits_cons (p := isFenceStart l) (splitFenced_eq_nil ls) (splitFenced_some ls),
      anySplits_cons (p := isOrderedStart l) (splitOrdered_eq_nil ls)
        (fun h => ⟨l :: (listLoop 0 ls).1, _, by simp only [splitOrdered, h]; rfl, by simp⟩)]
    cases h1 : isAtx l with
    | true => rfl
    | false =>
    cases h2 : isBlankLine l with
    | true => rfl
    | false =>
    cases h3 : isBulletStart l with
    | true => rfl
    | false =>
    cases h4 : isFenceStart l with
    | true => rfl
    | false =>
    cases h5 : isOrderedStart l with
    | true => rfl
    | false =>
      have hp : isTableStart l = true ∨ isThematic l = true := by simpa [interrupts, h1, h2, h3, h4, h5] using h
      have hps : isParStart l = false := by rcases hp with hp | hp <;> simp [isParStart, hp]
      simp only [Bool.false_eq_true, if_false]
      rw [anySplits_cons (p := false) (fun _ => splitSetext_eq_nil ls hps) (fun h => by cases h),
        anySplits_cons (p := isTableStart l) (splitTable_eq_nil ls)
          (fun h => ⟨l :: (tableLoop 0 ls).1, _, by simp only [splitTable, h]; rfl, by simp⟩),
        anySplits_cons (p := isThematic l) (splitThematic_eq_nil ls)
          (fun h => ⟨[l], ls, by simp [splitThematic, h], by simp⟩)]
      rcases hp with hp | hp
      · simp [hp]
      · simp [hp]
  simp only [isQuoteCont, e, bind, Except.bind]
  rfl

theorem takeWhile_append_all {α : Type} (p : α → Bool) (a b : List α) (ha : ∀ x ∈ a, p x = true)
    (hb : ∀ x, b.head? = some x → p x = false) : (a ++ b).takeWhile p = a ∧ (a ++ b).dropWhile p = b := by
  induction a with
  | nil =>
    cases b with
    | nil => exact ⟨rfl, rfl⟩
    | cons x b => simp [hb x rfl]
  | cons x a ih =>
    obtain ⟨h1, h2⟩ := ih fun y hy => ha y (by simp [hy])
    constructor
    · rw [List.cons_append, List.takeWhile_cons, if_pos (ha x (by simp)), h1]
    · rw [List.cons_append, List.dropWhile_cons, if_pos (ha x (by simp)), h2]

/-- a quote is split off whole -/
theorem splitQuote_take {n : Nat} {ls rest : List Str} {o : Bool} (hne : ls ≠ []) (hq : ∀ l ∈ ls, isQuote l = true)
    (he : endsWithPar (parseWith (splitQuote n)) n ls = .ok o) (hr : ∀ x, rest.head? = some x → isQuote x = false)
    (hro : o = true → ∀ x, rest.head? = some x → interrupts x = true) :
    splitQuote (n + 1) (ls ++ rest) = .ok (ls, rest) := by
  obtain ⟨l, ls', rfl⟩ := List.exists_cons_of_ne_nil hne
  obtain ⟨t1, t2⟩ := takeWhile_append_all isQuote (l :: ls') rest hq hr
  simp only [splitQuote]
  rw [show (l :: ls' ++ rest).length + 1 = ((ls' ++ rest).length + 1) + 1 by simp]
  have hl := hq l (by simp)
  rw [List.cons_append] at t1 t2 ⊢
  simp only [quoteLoop, hl, List.nil_append, t1, t2, he, bind, Except.bind]
  cases o with
  | false => rfl
  | true =>
    have hc : contLoop (splitQuote n) true rest = .ok ([], rest) := by
      cases rest with
      | nil => rfl
      | cons x xs =>
        simp only [contLoop, isQuoteCont_stop xs (hro rfl x rfl), bind, Except.bind]
        rfl
    simp only [Bool.not_true, Bool.false_eq_true, if_false, if_true, hc, List.append_nil]
    cases rest with
    | nil => rfl
    | cons x xs => simp [quoteLoop, hr x rfl]

/-! ## Lists and tables -/

theorem listLoop_take (a b : List Str) (ha : ∀ x ∈ a, listEnd x = false) (hb : ∀ x, b.head? = some x → listEnd x = true) :
    ∀ i, listLoop i (a ++ b) = (a, i + 1 + a.length) := by
  induction a with
  | nil =>
    intro i
    cases b with
    | nil => rfl
    | cons x b => simp only [List.nil_append, listLoop, ← listEnd_eq, hb x rfl]; rfl
  | cons x a ih =>
    intro i
    simp only [List.cons_append, listLoop, ← listEnd_eq, ha x (by simp), ih (fun y hy => ha y (by simp [hy]))]
    simp only [Bool.false_eq_true, if_false, List.length_cons, Prod.mk.injEq, true_and]
    omega

theorem tableLoop_take (a b : List Str) (ha : ∀ x ∈ a, isTableStart x = true)
    (hb : ∀ x, b.head? = some x → isTableStart x = false) : ∀ i, tableLoop i (a ++ b) = (a, i + 1 + a.length) := by
  induction a with
  | nil =>
    intro i
    cases b with
    | nil => rfl
    | cons x b => simp only [List.nil_append, tableLoop, hb x rfl]; rfl
  | cons x a ih =>
    intro i
    simp only [List.cons_append, tableLoop, ha x (by simp), ih (fun y hy => ha y (by simp [hy]))]
    simp only [Bool.not_true, Bool.false_eq_true, if_false, List.length_cons, Prod.mk.injEq, true_and]
    omega

theorem isOrdered_not_bullet {l : Str} (h : isOrderedStart l = true) : isBulletStart l = false := by
  obtain ⟨c, hc, hd⟩ := isOrderedStart_first h
  have hd' : ∀ x, isDigit x = false → c ≠ x := by intro x hx e; rw [e, hx] at hd; cases hd
  obtain ⟨_, _, _, _, p5, _⟩ := false_of_first hc
  exact p5 (hd' _ (by decide)) (hd' _ (by decide)) (hd' _ (by decide))

/-! ## Paragraphs before a quote -/

theorem isParCont_quote {sbq : List Str → Split} {l : Str} {ls a b : List Str} (hq : isQuote l = true)
    (h : sbq (l :: ls) = .ok (a, b)) (ha : a ≠ []) : isParCont sbq (l :: ls) = .ok false := by
  have hfc := isQuote_first hq
  obtain ⟨p1, _, _, _, _, _, _, _, p9⟩ := false_of_first hfc
  have e : anySplits (l :: ls) [splitAtx, splitBlank, sbq, splitBullet, splitFenced, splitOrdered,
      splitTable, splitThematic] = .ok true := by
    rw [anySplits_cons (p := false) (fun _ => splitAtx_eq_nil ls (p1 (by decide))) (fun h => by cases h),
      anySplits_cons (p := false) (fun _ => splitBlank_eq_nil ls p9) (fun h => by cases h),
      anySplits_cons (p := true) (fun h => by cases h) (fun _ => ⟨a, b, h, ha⟩)]
    rfl
  simp only [isParCont, e, bind, Except.bind]
  rfl

theorem parLoop_stop {n : Nat} (body rest : List Str) (hb : ∀ l ∈ body, Continues l ∧ endsWith l c!"  " = false)
    (hr : rest = [] ∨ isParCont (splitQuote (n + 1)) rest = .ok false) :
    parLoop (splitQuote (n + 1)) (body ++ rest) = .ok (body, rest) := by
  induction body with
  | nil =>
    cases rest with
    | nil => rfl
    | cons l ls =>
      rcases hr with hr | hr
      · cases hr
      · simp only [List.nil_append, parLoop, hr, bind, Except.bind]; rfl
  | cons l body ih =>
    obtain ⟨h1, h2⟩ := hb l (by simp)
    simp only [List.cons_append, parLoop, isParCont_eq _ h1.quote, bind, Except.bind, h1.inter, h1.setext, h2,
      ih fun x hx => hb x (by simp [hx])]
    rfl

theorem firstSection_par_stop {n : Nat} {l : Str} (body rest : List Str) (hl : isParStart l = true)
    (hlrd : NoLabel l) (hl2 : endsWith l c!"  " = false)
    (hb : ∀ x ∈ body, Continues x ∧ endsWith x c!"  " = false)
    (hr : rest = [] ∨ isParCont (splitQuote (n + 1)) rest = .ok false)
    (hs : ∀ x, rest.head? = some x → isSetextUnderline x = false) :
    firstSection (splitters (splitQuote (n + 1))) (l :: body ++ rest) = .ok (.par, l :: body, rest) := by
  have hp := hl
  simp only [isParStart, List.any_cons, List.any_nil, Bool.or_false, Bool.not_eq_true', Bool.or_eq_false_iff] at hp
  obtain ⟨p1, p2, p3, p4, p5, p6, p7, p8, p9⟩ := hp
  unfold splitters
  rw [List.cons_append, firstSection_skip (splitAtx_eq_nil _ p2), firstSection_skip (splitBlank_eq_nil _ p3),
    firstSection_skip (splitQuote_unquoted n _ p5), firstSection_skip (splitBullet_eq_nil _ p4),
    firstSection_skip (splitFenced_eq_nil _ p6), firstSection_skip (splitIndented_eq_nil _ p1),
    firstSection_skip (splitLrd_eq_nil _ hlrd), firstSection_skip (splitOrdered_eq_nil _ p7)]
  refine firstSection_take ?_ (by simp)
  have : splitParIgn (splitQuote (n + 1)) (l :: (body ++ rest)) = .ok (l :: body, rest) := by
    simp only [splitParIgn, hl, hl2, parLoop_stop body rest hb hr, bind, Except.bind]
    rfl
  simp only [splitPar, this, bind, Except.bind]
  cases rest with
  | nil => rfl
  | cons x xs => simp [hs x rfl]

/-! ## The parser -/

theorem isQuote_not_bullet {l : Str} (h : isBulletStart l = true) : isQuote l = false := by
  obtain ⟨c, hc, hd⟩ := isBulletStart_first h
  obtain ⟨_, p2, _⟩ := false_of_first hc
  apply p2
  rcases hd with rfl | rfl | rfl <;> decide

theorem firstSection_bullet {n : Nat} {l : Str} (ls rest : List Str) (h : isBulletStart l = true)
    (hl : ∀ x ∈ ls, listEnd x = false) (hr : ∀ x, rest.head? = some x → listEnd x = true) :
    firstSection (splitters (splitQuote (n + 1))) (l :: ls ++ rest) = .ok (.bullet, l :: ls, rest) := by
  obtain ⟨c, hc, hd⟩ := isBulletStart_first h
  obtain ⟨p1, p2, _, _, _, _, _, _, p9⟩ := false_of_first hc
  unfold splitters
  rw [List.cons_append, firstSection_skip (splitAtx_eq_nil _ (p1 ?_)), firstSection_skip (splitBlank_eq_nil _ p9),
    firstSection_skip (splitQuote_unquoted n _ (p2 ?_))]
  · refine firstSection_take ?_ (by simp)
    simp only [splitBullet, h, listLoop_take ls rest hl hr]
    rw [show 0 + 1 + ls.length = ls.length + 1 by omega, List.drop_succ_cons, List.drop_left]
    rfl
  all_goals rcases hd with rfl | rfl | rfl <;> decide

theorem firstSection_ordered {n : Nat} {l : Str} (ls rest : List Str) (h : isOrderedStart l = true)
    (hl : ∀ x ∈ ls, listEnd x = false) (hr : ∀ x, rest.head? = some x → listEnd x = true) :
    firstSection (splitters (splitQuote (n + 1))) (l :: ls ++ rest) = .ok (.ordered, l :: ls, rest) := by
  obtain ⟨c, hc, hd⟩ := isOrderedStart_first h
  have hd' : ∀ x, isDigit x = false → c ≠ x := by intro x hx e; rw [e, hx] at hd; cases hd
  obtain ⟨p1, p2, _, p4, _, _, _, _, p9⟩ := false_of_first hc
  have hind : isIndentedStart l = false := by
    simp only [isOrderedStart, Bool.and_eq_true, Bool.not_eq_true'] at h
    exact h.1
  unfold splitters
  rw [List.cons_append, firstSection_skip (splitAtx_eq_nil _ (p1 (hd' _ (by decide)))),
    firstSection_skip (splitBlank_eq_nil _ p9),
    firstSection_skip (splitQuote_unquoted n _ (p2 (hd' _ (by decide)))),
    firstSection_skip (splitBullet_eq_nil _ (isOrdered_not_bullet h)),
    firstSection_skip (splitFenced_eq_nil _ (p4 (hd' _ (by decide)) (hd' _ (by decide)))),
    firstSection_skip (splitIndented_eq_nil _ hind),
    firstSection_skip (splitLrd_eq_nil _ (by intro e; rw [hc] at e; exact absurd (Option.some.inj e) (hd' '[' (by decide))))]
  refine firstSection_take ?_ (by simp)
  simp only [splitOrdered, h, listLoop_take ls rest hl hr]
  rw [show 0 + 1 + ls.length = ls.length + 1 by omega, List.drop_succ_cons, List.drop_left]
  rfl

theorem firstSection_table {n : Nat} {l : Str} (ls rest : List Str) (h : isTableStart l = true) (hind : getIndent l < 4)
    (hl : ∀ x ∈ ls, isTableStart x = true) (hr : ∀ x, rest.head? = some x → isTableStart x = false) :
    firstSection (splitters (splitQuote (n + 1))) (l :: ls ++ rest) = .ok (.table, l :: ls, rest) := by
  have hc := isTableStart_first.1 h
  obtain ⟨p1, p2, _, p4, p5, p6, _, _, p9⟩ := false_of_first hc
  have hps : isParStart l = false := by simp [isParStart, h]
  unfold splitters
  rw [List.cons_append, firstSection_skip (splitAtx_eq_nil _ (p1 (by decide))), firstSection_skip (splitBlank_eq_nil _ p9),
    firstSection_skip (splitQuote_unquoted n _ (p2 (by decide))),
    firstSection_skip (splitBullet_eq_nil _ (p5 (by decide) (by decide) (by decide))),
    firstSection_skip (splitFenced_eq_nil _ (p4 (by decide) (by decide))),
    firstSection_skip (splitIndented_eq_nil _ (by simp [isIndentedStart]; intro _; exact hind)),
    firstSection_skip (splitLrd_eq_nil _ (by intro e; rw [hc] at e; cases e)),
    firstSection_skip (splitOrdered_eq_nil _ (p6 (by decide))),
    firstSection_skip (splitPar_eq_nil _ hps), firstSection_skip (splitSetext_eq_nil _ hps)]
  refine firstSection_take ?_ (by simp)
  simp only [splitTable, h, tableLoop_take ls rest hl hr]
  rw [show 0 + 1 + ls.length = ls.length + 1 by omega, List.drop_succ_cons, List.drop_left]
  rfl

theorem firstSection_quote {sbq : List Str → Split} {l : Str} {ls rest : List Str} (hq : isQuote l = true)
    (h : sbq (l :: ls ++ rest) = .ok (l :: ls, rest)) :
    firstSection (splitters sbq) (l :: ls ++ rest) = .ok (.quote, l :: ls, rest) := by
  obtain ⟨p1, _, _, _, _, _, _, _, p9⟩ := false_of_first (isQuote_first hq)
  unfold splitters
  rw [List.cons_append] at h ⊢
  rw [firstSection_skip (splitAtx_eq_nil _ (p1 (by decide))), firstSection_skip (splitBlank_eq_nil _ p9)]
  exact firstSection_take h (by simp)

theorem parLoop_hard {n : Nat} (body : List Str) {l : Str} {rest : List Str} (hb : ∀ x ∈ body, Continues x ∧ endsWith x c!"  " = false)
    (hl : Continues l) (hl2 : endsWith l c!"  " = true) (hr : rest ≠ []) :
    parLoop (splitQuote (n + 1)) (body ++ l :: rest) = .ok (body ++ [l], rest) := by
  induction body with
  | nil =>
    obtain ⟨x, xs, rfl⟩ := List.exists_cons_of_ne_nil hr
    simp only [List.nil_append, parLoop, isParCont_eq _ hl.quote, bind, Except.bind, hl.inter, hl.setext, hl2]
    rfl
  | cons x body ih =>
    obtain ⟨h1, h2⟩ := hb x (by simp)
    simp only [List.cons_append, parLoop, isParCont_eq _ h1.quote, bind, Except.bind, h1.inter, h1.setext, h2,
      ih fun x hx => hb x (by simp [hx])]
    rfl

theorem firstSection_hard {n : Nat} {ls : List Str} {l ws : Str} {ts : List Tok} {rest : List Str} (h : Text (ls ++ [l]) ts)
    (hws : ∀ c ∈ ws, c = ' ') (h2 : 2 ≤ ws.length) (hr : rest ≠ [])
    (hs : ∀ x, rest.head? = some x → isSetextUnderline x = false) :
    firstSection (splitters (splitQuote (n + 1))) (ls ++ [l ++ ws] ++ rest) = .ok (.par, ls ++ [l ++ ws], rest) := by
  obtain ⟨f1, f2, f3, _⟩ := hard_facts (h.lines l (by simp)) hws
  have he := endsWith_spaces l hws h2
  have hbody : ∀ x ∈ ls, isParStart x = true ∧ NoLabel x ∧ Continues x ∧ endsWith x c!"  " = false := by
    intro x hx
    have := (h.lines x (by simp [hx])).facts
    exact ⟨this.1, this.2.2.1, this.2.1, this.2.2.2.1⟩
  have hig : splitParIgn (splitQuote (n + 1)) (ls ++ [l ++ ws] ++ rest) = .ok (ls ++ [l ++ ws], rest) := by
    cases ls with
    | nil => simp only [List.nil_append, List.cons_append, splitParIgn, f1, he]; rfl
    | cons x ls =>
      obtain ⟨b1, b2, b3, b4⟩ := hbody x (by simp)
      have hp := parLoop_hard (n := n) (l := l ++ ws) (rest := rest) ls
        (fun x hx => ⟨(hbody x (by simp [hx])).2.2.1, (hbody x (by simp [hx])).2.2.2⟩) f2 he hr
      simp only [List.cons_append, List.append_assoc, List.nil_append, splitParIgn, b1, b4, hp, bind, Except.bind]
      rfl
  obtain ⟨x, r, e, hps, hlab⟩ : ∃ x r, ls ++ [l ++ ws] ++ rest = x :: r ∧ isParStart x = true ∧ NoLabel x := by
    cases ls with
    | nil => exact ⟨_, _, rfl, f1, f3⟩
    | cons x ls => exact ⟨_, _, rfl, (hbody x (by simp)).1, (hbody x (by simp)).2.1⟩
  have hp := hps
  simp only [isParStart, List.any_cons, List.any_nil, Bool.or_false, Bool.not_eq_true', Bool.or_eq_false_iff] at hp
  obtain ⟨p1, p2, p3, p4, p5, p6, p7, p8, p9⟩ := hp
  rw [e] at hig ⊢
  unfold splitters
  rw [firstSection_skip (splitAtx_eq_nil _ p2), firstSection_skip (splitBlank_eq_nil _ p3),
    firstSection_skip (splitQuote_unquoted n _ p5), firstSection_skip (splitBullet_eq_nil _ p4),
    firstSection_skip (splitFenced_eq_nil _ p6), firstSection_skip (splitIndented_eq_nil _ p1),
    firstSection_skip (splitLrd_eq_nil _ hlab), firstSection_skip (splitOrdered_eq_nil _ p7)]
  refine firstSection_take ?_ (by simp)
  simp only [splitPar, hig, bind, Except.bind]
  cases rest with
  | nil => rfl
  | cons x xs => simp [hs x rfl]

/-- Indented code is cut before its last line. -/
theorem indentLoop_run (r : List Str) {l : Str} {rest : List Str} (hr : ∀ x ∈ r, isIndentedStart x = true ∨ isBlankLine x = true)
    (hl : isIndentedStart l = true) (hn : NoIndentFirst rest) : ∀ i c, indentLoop i c (r ++ l :: rest) = i + r.length := by
  have hcode : ∀ {x : Str}, isIndentedStart x = true → (strip x).isEmpty = false ∧ getIndent x ≥ 4 := by
    intro x hx
    simp only [isIndentedStart, Bool.and_eq_true, Bool.not_eq_true', decide_eq_true_eq] at hx
    exact hx
  induction r with
  | nil =>
    intro i c
    obtain ⟨h1, h2⟩ := hcode hl
    simp only [List.nil_append, indentLoop, h1, Bool.false_eq_true, if_false, if_pos h2, indentLoop_stop hn, List.length_nil,
      Nat.add_zero]
  | cons x r ih =>
    intro i c
    have := ih fun y hy => hr y (by simp [hy])
    rcases hr x (by simp) with h | h
    · obtain ⟨h1, h2⟩ := hcode h
      simp only [List.cons_append, indentLoop, h1, Bool.false_eq_true, if_false, if_pos h2, this, List.length_cons]
      omega
    · have h1 : (strip x).isEmpty = true := h
      simp only [List.cons_append, indentLoop, h1, if_true, this, List.length_cons]
      omega

theorem splitIndented_last {l : Str} {rest : List Str} (hl : isIndentedStart l = true) (hn : NoIndentFirst rest) :
    splitIndented (l :: rest) = .ok ([l], rest) := by
  have : (!(strip l).isEmpty && decide (getIndent l ≥ 4)) = true := hl
  simp only [splitIndented, this, indentLoop_stop hn]
  rfl

theorem splitIndented_run {x l : Str} (r : List Str) {rest : List Str} (hx : isIndentedStart x = true)
    (hr : ∀ x ∈ r, isIndentedStart x = true ∨ isBlankLine x = true) (hl : isIndentedStart l = true) (hn : NoIndentFirst rest) :
    splitIndented (x :: r ++ l :: rest) = .ok (x :: r, l :: rest) := by
  have : (!(strip x).isEmpty && decide (getIndent x ≥ 4)) = true := hx
  simp only [List.cons_append, splitIndented, this, indentLoop_run r hr hl hn]
  rw [show 1 + r.length = r.length + 1 by omega, List.take_succ_cons, List.drop_succ_cons, List.take_left, List.drop_left]
  rfl

theorem firstSection_indented {n : Nat} {x : Str} {ls a b : List Str} (hx : isIndentedStart x = true) (hf : isFenceStart x = false)
    (h : splitIndented (x :: ls) = .ok (a, b)) (ha : a ≠ []) :
    firstSection (splitters (splitQuote (n + 1))) (x :: ls) = .ok (.indented, a, b) := by
  have hb : isBlankLine x = false := by
    simp only [isIndentedStart, Bool.and_eq_true, Bool.not_eq_true'] at hx
    exact hx.1
  unfold splitters
  rw [firstSection_skip (splitAtx_eq_nil _ (by simp [isAtx, hx])), firstSection_skip (splitBlank_eq_nil _ hb),
    firstSection_skip (splitQuote_unquoted n _ (by simp [isQuote, hx])),
    firstSection_skip (splitBullet_eq_nil _ (by simp [isBulletStart, hx])), firstSection_skip (splitFenced_eq_nil _ hf)]
  exact firstSection_take h ha

theorem RefAt.facts {l label link title : Str} (h : RefAt l label link title) : isParStart l = true ∧ Continues l := by
  obtain ⟨_, _, _, hfc, hi⟩ := h.lstrip
  obtain ⟨p1, p2, p3, p4, p5, p6, p7, p8, p9⟩ := false_of_first hfc
  have q1 := p1 (by decide)
  have q2 := p2 (by decide)
  have q3 := p3 (by decide)
  have q4 := p4 (by decide) (by decide)
  have q5 := p5 (by decide) (by decide) (by decide)
  have q6 := p6 (by decide)
  have q7 := p7 (by decide) (by decide) (by decide)
  refine ⟨?_, q2, ?_, p8 (by decide) (by decide)⟩
  · simp [isParStart, q1, q2, q3, q4, q5, q6, q7, p9, hi]
  · simp [interrupts, q1, q3, q4, q5, q6, q7, p9]

theorem RefAt.label {l label link title : Str} (h : RefAt l label link title) : ¬ NoLabel l := by
  obtain ⟨_, _, _, hfc, _⟩ := h.lstrip
  obtain ⟨ws, g, g', e, rfl, _⟩ := h
  intro h0
  exact h0 hfc ⟨ws ++ '[' :: label, g ++ (link ++ (g' ++ (title ++ e))), by simp⟩

theorem firstSection_ref {n : Nat} {l label link title : Str} {ls a b : List Str} (h : RefAt l label link title)
    (hs : splitLrd (l :: ls) = .ok (a, b)) (ha : a ≠ []) :
    firstSection (splitters (splitQuote (n + 1))) (l :: ls) = .ok (.lrd, a, b) := by
  have hp := h.facts.1
  simp only [isParStart, List.any_cons, List.any_nil, Bool.or_false, Bool.not_eq_true', Bool.or_eq_false_iff] at hp
  obtain ⟨p1, p2, p3, p4, p5, p6, p7, p8, p9⟩ := hp
  unfold splitters
  rw [firstSection_skip (splitAtx_eq_nil _ p2), firstSection_skip (splitBlank_eq_nil _ p3),
    firstSection_skip (splitQuote_unquoted n _ p5), firstSection_skip (splitBullet_eq_nil _ p4),
    firstSection_skip (splitFenced_eq_nil _ p6), firstSection_skip (splitIndented_eq_nil _ p1)]
  exact firstSection_take hs ha

theorem firstSection_tail {n : Nat} {l label link : Str} (hr : Ref label link []) (h : TailAt l label link) :
    firstSection (splitters (splitQuote (n + 1))) [l] = .ok (.par, [l], []) := by
  have hps := h.refAt.facts.1
  have hp := hps
  simp only [isParStart, List.any_cons, List.any_nil, Bool.or_false, Bool.not_eq_true', Bool.or_eq_false_iff] at hp
  obtain ⟨p1, p2, p3, p4, p5, p6, p7, p8, p9⟩ := hp
  unfold splitters
  rw [firstSection_skip (splitAtx_eq_nil _ p2), firstSection_skip (splitBlank_eq_nil _ p3),
    firstSection_skip (splitQuote_unquoted n _ p5), firstSection_skip (splitBullet_eq_nil _ p4),
    firstSection_skip (splitFenced_eq_nil _ p6), firstSection_skip (splitIndented_eq_nil _ p1),
    firstSection_skip (splitLrd_tail hr h.refAt), firstSection_skip (splitOrdered_eq_nil _ p7)]
  refine firstSection_take ?_ (by simp)
  simp only [splitPar, splitParIgn, hps, h.noBreak hr, parLoop, bind, Except.bind]
  rfl

/-- how a quote ends, once the text behind its markers is parsed as expected -/
theorem endsWithPar_eq {d : Nat} (hA : ∀ e ≤ d, ∀ n, e ≤ n → ∀ doc, Sections e doc → parse n (blkLines doc) = .ok (blkSecs doc))
    {n : Nat} (hn : d ≤ n) : ∀ e ≤ d, ∀ k, e ≤ k → ∀ ls o, SecOK (Sections e) .quote ls o →
      endsWithPar (parseWith (splitQuote n)) k ls = .ok o := by
  intro e
  induction e with
  | zero =>
    intro _ k _ ls o h
    cases h with
    | flat h => cases h
    | quote _ hp => exact hp.elim
  | succ e ih =>
    intro he k hk ls o h
    cases h with
    | flat h => cases h
    | @quote _ doc b hq hp =>
      obtain ⟨k, rfl⟩ : ∃ j, k = j + 1 := ⟨k - 1, by omega⟩
      have hpar : parseWith (splitQuote n) (ls.map unquote) = .ok (blkSecs (doc ++ [b])) := by
        rw [hq.unquote]
        exact hA (e + 1) he n (by omega) _ hp
      obtain ⟨L, hlast, hL⟩ : ∃ L, (blkSecs (doc ++ [b])).getLast? = some (b.ty, L) ∧ (b.ty ≠ .indented → L = b.ls) := by
        obtain ⟨r, L, h1, h2⟩ := secs_last b
        exact ⟨L, by simp [blkSecs, h1], h2⟩
      have hb := hp.1 b (by simp)
      simp only [endsWithPar, hpar, bind, Except.bind, hlast]
      cases hty : b.ty with
      | quote =>
        rw [hty] at hb hL
        rw [hL (by decide)]
        exact ih (by omega) k (by omega) _ _ hb
      | par =>
        rw [hty] at hb
        generalize b.ls = L at hb
        generalize b.opn = O at hb
        cases hb <;> rfl
      | _ =>
        rw [hty] at hb
        generalize b.ls = L at hb
        generalize b.opn = O at hb
        cases hb <;> rfl

theorem parse_sections : ∀ d n, d ≤ n → ∀ doc, Sections d doc → parse n (blkLines doc) = .ok (blkSecs doc) := by
  intro d
  induction d using Nat.strongRecOn with
  | ind d ih =>
  intro n hn doc hdoc
  cases d with
  | zero => exact hdoc.elim
  | succ d =>
  obtain ⟨n, rfl⟩ : ∃ m, n = m + 1 := ⟨n - 1, by omega⟩
  have hne := fun b hb => Sections.ne (d := d + 1) hdoc b hb
  have hP : ∀ doc, Sections d doc → ∀ b ∈ doc, b.ls ≠ [] := fun doc h => Sections.ne h
  have hE := endsWithPar_eq (d := d) (fun e he n hn doc h => ih e (by omega) n hn doc h) (n := n) (by omega) d (by omega)
    n (by omega)
  rw [← blkLines_secs]
  apply parse_of_first
  intro a b' c e
  -- back to sections with flags
  obtain ⟨a0, b, c0, p, q, hdoc', hsec, rfl⟩ : ∃ a0 b c0 p q, doc = a0 ++ b :: c0 ∧ b.secs = p ++ b' :: q ∧
      c = q ++ blkSecs c0 := by
    clear hdoc hne
    induction doc generalizing a with
    | nil => simp [blkSecs] at e
    | cons b doc ihd =>
      rw [blkSecs_cons, List.append_eq_append_iff] at e
      rcases e with ⟨t, h1, h2⟩ | ⟨t, h1, h2⟩
      · obtain ⟨a0, b1, c0, p, q, h3, h4, h5⟩ := ihd t h2
        exact ⟨b :: a0, b1, c0, p, q, by rw [h3]; rfl, h4, h5⟩
      · cases t with
        | nil =>
          obtain ⟨a0, b1, c0, p, q, h3, h4, h5⟩ := ihd [] h2.symm
          exact ⟨b :: a0, b1, c0, p, q, by rw [h3]; rfl, h4, h5⟩
        | cons x t =>
          simp only [List.cons_append, List.cons.injEq] at h2
          exact ⟨[], b, doc, a, t, rfl, by rw [h1, h2.1], h2.2⟩
  rw [linesOf_append, blkLines_secs]
  have hb := hdoc.1 b (by rw [hdoc']; simp)
  by_cases hind : b.ty = .indented
  · -- indented code
    have hrest := hdoc.2.2.apart a0 b c0 hdoc' hind
    have hb' := hb
    rw [hind] at hb'
    generalize b.opn = O at hb'
    obtain ⟨hall, ⟨x, r, hx1, hx2, hx3⟩, r2, y, hy1, hy2, hy3⟩ : (∀ l ∈ b.ls, isIndentedStart l = true ∨ isBlankLine l = true) ∧
        (∃ l r, b.ls = l :: r ∧ isIndentedStart l = true ∧ isFenceStart l = false) ∧
        ∃ r l, b.ls = r ++ [l] ∧ isIndentedStart l = true ∧ isFenceStart l = false := by
      generalize b.ls = L at hb'
      cases hb' with
      | flat h => cases h
      | indented h h1 h2 => exact ⟨h, h1, h2⟩
    have hone : ∀ rest, NoIndentFirst rest →
        firstSection (splitters (splitQuote (n + 1))) (y :: rest) = .ok (.indented, [y], rest) :=
      fun rest hr => firstSection_indented hy2 hy3 (splitIndented_last hy2 hr) (by simp)
    unfold Blk.secs at hsec
    rw [if_pos hind, hy1] at hsec
    cases r2 with
    | nil =>
      cases p with
      | cons x p => simp [cutLast] at hsec
      | nil =>
        simp only [List.nil_append, cutLast, List.map_cons, List.map_nil, List.cons.injEq] at hsec
        obtain ⟨rfl, rfl⟩ := hsec
        exact ⟨by simp, hone _ hrest⟩
    | cons x' r2 =>
      have hcut : cutLast (x' :: r2 ++ [y]) = [x' :: r2, [y]] := by
        cases r2 with
        | nil => rfl
        | cons z r2 =>
          simp only [List.cons_append, cutLast]
          rw [show x' :: z :: (r2 ++ [y]) = (x' :: z :: r2) ++ [y] from rfl, List.dropLast_concat]
          have hg : ∀ (L : List Str) (h : L ≠ []), L = (z :: r2) ++ [y] → L.getLast h = y := by
            intro L h e; subst e; exact List.getLast_concat
          exact congrArg (fun z => [_, [z]]) (hg _ (by simp) rfl)
      rw [hcut] at hsec
      have hxx : x' = x := by rw [hx1] at hy1; simp only [List.cons_append, List.cons.injEq] at hy1; exact hy1.1.symm
      subst hxx
      cases p with
      | nil =>
        simp only [List.nil_append, List.map_cons, List.map_nil, List.cons.injEq] at hsec
        obtain ⟨rfl, rfl⟩ := hsec
        refine ⟨by simp, firstSection_indented hx2 hx3 (a := x' :: r2) (b := y :: blkLines c0) ?_ (by simp)⟩
        exact splitIndented_run r2 hx2 (fun z hz => hall z (by rw [hy1]; simp [hz])) hy2 hrest
      | cons w p =>
        simp only [List.cons_append, List.map_cons, List.map_nil, List.cons.injEq] at hsec
        obtain ⟨rfl, hsec⟩ := hsec
        cases p with
        | cons x p => simp at hsec
        | nil =>
          simp only [List.nil_append, List.cons.injEq] at hsec
          obtain ⟨rfl, rfl⟩ := hsec
          exact ⟨by simp, hone _ hrest⟩
  rw [secs_other hind] at hsec
  obtain ⟨rfl, rfl⟩ : b' = (b.ty, b.ls) ∧ q = [] := by
    cases p with
    | cons x p => simp at hsec
    | nil => simp only [List.nil_append, List.cons.injEq] at hsec; exact ⟨hsec.1.symm, hsec.2.symm⟩
  clear hsec
  rw [show linesOf [] = [] from rfl, List.nil_append]
  refine ⟨hne b (by rw [hdoc']; simp), ?_⟩
  -- what is known about the next line
  have hnext : ∀ x, (blkLines c0).head? = some x → ∃ b2 c1 r, c0 = b2 :: c1 ∧ b2.ls = x :: r ∧ Next b b2 ∧
      SecOK (Sections d) b2.ty b2.ls b2.opn := by
    intro x hx
    cases c0 with
    | nil => cases hx
    | cons b2 c1 =>
      have h2 := hdoc.1 b2 (by rw [hdoc']; simp)
      obtain ⟨l, r, hl, _⟩ := h2.head hP
      rw [blkLines_cons, hl] at hx
      cases hx
      exact ⟨b2, c1, r, rfl, hl, hdoc.2.1 a0 b b2 c1 hdoc', h2⟩
  have hquote : ∀ (b : Blk) (c0 : List Blk), SecOK (Sections d) b.ty b.ls b.opn → b.ty = .quote →
      (∀ x, (blkLines c0).head? = some x → ∃ b2 c1 r, c0 = b2 :: c1 ∧ b2.ls = x :: r ∧ Next b b2 ∧
        SecOK (Sections d) b2.ty b2.ls b2.opn) →
      splitQuote (n + 1) (b.ls ++ blkLines c0) = .ok (b.ls, blkLines c0) := by
    intro b c0 hb hty hnext
    have hb' := hb
    rw [hty] at hb'
    refine splitQuote_take (o := b.opn) (hb.ne hP) ?_ (hE _ _ hb') ?_ ?_
    · generalize b.ls = L at hb'
      generalize b.opn = O at hb'
      cases hb' with
      | flat h => cases h
      | quote hq _ => exact hq.isQuote
    · intro x hx
      obtain ⟨b2, c1, r, _, h1, h2, h3⟩ := hnext x hx
      obtain ⟨l, r', h4, h5, _⟩ := h3.head hP
      rw [h1] at h4
      cases h4
      exact h5 (h2.quote hty).1
    · intro ho x hx
      obtain ⟨b2, c1, r, _, h1, h2, h3⟩ := hnext x hx
      obtain ⟨l, r', h4, _, _, h6, _⟩ := h3.head hP
      rw [h1] at h4
      cases h4
      obtain ⟨q1, q2, q3⟩ := h2.quote hty
      exact h6 q1 (q3 ho).1 q2 (q3 ho).2.1 (q3 ho).2.2
  show firstSection (splitters (splitQuote (n + 1))) (b.ls ++ blkLines c0) = .ok (b.ty, b.ls, blkLines c0)
  by_cases hty : b.ty = .quote
  · have h1 := hquote b c0 hb hty hnext
    obtain ⟨l, r, hl, _, h3, _⟩ := hb.head hP
    rw [hty]
    rw [hl] at h1 ⊢
    exact firstSection_quote (h3 hty) h1
  · by_cases hpar : b.ty = .par
    · have hb' := hb
      rw [hpar] at hb'
      have hset : ∀ x, (blkLines c0).head? = some x → isSetextUnderline x = false := by
        intro x hx
        obtain ⟨b2, c1, r, hc1, h1, h2, h3⟩ := hnext x hx
        obtain ⟨l', r', h4, _, _, _, h7, _⟩ := h3.head hP
        rw [h1] at h4
        cases h4
        exact h7 (h2.par hpar).1
      rw [hpar]
      generalize b.opn = O at hb'
      generalize hL : b.ls = L at hb'
      cases hb' with
      | hard h hws h2 =>
        refine firstSection_hard h hws h2 ?_ hset
        intro h0
        cases c0 with
        | nil => exact hdoc.2.2.last a0 b hdoc' hpar (by rw [hL]; exact ⟨_, _, rfl, endsWith_spaces _ hws h2⟩)
        | cons b2 c1 =>
          rw [blkLines_cons] at h0
          exact hne b2 (by rw [hdoc']; simp) (List.append_eq_nil_iff.1 h0).1
      | @tail l label link hr h =>
        cases c0 with
        | nil => exact firstSection_tail hr h
        | cons b2 c1 => exact absurd ((hdoc.2.1 a0 b b2 c1 hdoc').label hpar l (by rw [hL]; rfl)) h.refAt.label
      | flat hflat =>
      cases hflat with
      | par h =>
        have hne' := h.ne
        replace h := h.lines
        have hnb : ¬ Breaks b.ls := by
          rintro ⟨r, x, e1, e2⟩
          have := (h x (by rw [← hL, e1]; simp)).facts.2.2.2.1
          rw [e2] at this; cases this
        cases L with
        | nil => exact absurd rfl hne'
        | cons l body =>
          have hf := (h l (by simp)).facts
          refine firstSection_par_stop body _ hf.1 hf.2.2.1 hf.2.2.2.1
            (fun x hx => ⟨(h x (by simp [hx])).facts.2.1, (h x (by simp [hx])).facts.2.2.2.1⟩) ?_ hset
          cases hc : blkLines c0 with
          | nil => exact .inl rfl
          | cons x xs =>
            right
            obtain ⟨b2, c1, r, hc1, h1, h2, h3⟩ := hnext x (by rw [hc]; rfl)
            obtain ⟨q1, q2, q3⟩ := (h2.par hpar).2.resolve_left hnb
            obtain ⟨l', r', h4, h5, h6, h7, _⟩ := h3.head hP
            rw [h1] at h4
            cases h4
            by_cases hq2 : b2.ty = .quote
            · have hc2 : blkLines c0 = b2.ls ++ blkLines c1 := by rw [hc1]; rfl
              have h8 := hquote b2 c1 h3 hq2 (by
                intro y hy
                cases c1 with
                | nil => cases hy
                | cons b3 c2 =>
                  have h9 := hdoc.1 b3 (by rw [hdoc', hc1]; simp)
                  obtain ⟨l, r, hl, _⟩ := h9.head hP
                  rw [blkLines_cons, hl] at hy
                  cases hy
                  exact ⟨b3, c2, r, rfl, hl, hdoc.2.1 (a0 ++ [b]) b2 b3 c2 (by rw [hdoc', hc1]; simp), h9⟩)
              rw [← hc, hc2, h1] at *
              exact isParCont_quote (h6 hq2) h8 (by simp)
            · rw [isParCont_eq xs (h5 hq2), h7 hq2 q1 q2 q3.1 q3.2]
              rfl
    · have hlist : b.ty = .bullet ∨ b.ty = .ordered → ∀ x, (blkLines c0).head? = some x → listEnd x = true := by
        intro hl x hx
        obtain ⟨b2, c1, r, hc1, h1, h2, h3⟩ := hnext x hx
        obtain ⟨l', r', h4, _, _, _, _, h8, _⟩ := h3.head hP
        rw [h1] at h4
        cases h4
        exact h8 (h2.list hl)
      have htab : b.ty = .table → ∀ x, (blkLines c0).head? = some x → isTableStart x = false := by
        intro hl x hx
        obtain ⟨b2, c1, r, hc1, h1, h2, h3⟩ := hnext x hx
        obtain ⟨l', r', h4, _, _, _, _, _, h9⟩ := h3.head hP
        rw [h1] at h4
        cases h4
        exact h9 (h2.table hl).1 (h2.table hl).2
      by_cases hlrd : b.ty = .lrd
      · have hb' := hb
        rw [hlrd] at hb' ⊢
        generalize b.opn = O at hb'
        generalize hL : b.ls = L at hb'
        cases hb' with
        | flat h => cases h
        | @ref l label link title hr h =>
          cases hc : blkLines c0 with
          | nil =>
            have h0 : c0 = [] := by
              cases c0 with
              | nil => rfl
              | cons b2 c1 =>
                rw [blkLines_cons] at hc
                exact absurd (List.append_eq_nil_iff.1 hc).1 (hne b2 (by rw [hdoc']; simp))
            subst h0
            obtain ⟨l', lb, lk, t, e1, e2, e3, e4⟩ := hdoc.2.2.title a0 b hdoc' hlrd
            rw [hL] at e1
            cases e1
            exact firstSection_ref e3 (splitLrd_titled e2 e3 e4) (by simp)
          | cons x xs =>
            obtain ⟨b2, c1, r, hc1, h1, h2, h3⟩ := hnext x (by rw [hc]; rfl)
            by_cases ht : title = []
            · subst ht
              exact firstSection_ref h (splitLrd_untitled hr h (h2.lrd hlrd x (by rw [h1]; rfl))) (by simp)
            · exact firstSection_ref h (splitLrd_titled hr h ht) (by simp)
      generalize b.ty = T at hb hty hpar hlist htab hind hlrd
      generalize b.ls = L at hb
      generalize b.opn = O at hb
      cases hb with
      | flat h => exact flat_first h n _ (fun e => absurd e hpar)
      | bullet h hu hl => exact firstSection_bullet _ _ h hl (hlist (.inl rfl))
      | ordered h hl => exact firstSection_ordered _ _ h hl (hlist (.inr rfl))
      | table hne h hi =>
        obtain ⟨l, r, rfl⟩ := List.exists_cons_of_ne_nil hne
        exact firstSection_table _ _ (h l (by simp)) (hi l rfl) (fun x hx => h x (by simp [hx])) (htab rfl)
      | quote => exact absurd rfl hty
      | hard => exact absurd rfl hpar
      | tail => exact absurd rfl hpar
      | ref => exact absurd rfl hlrd
      | indented => exact absurd rfl hind

end MF
