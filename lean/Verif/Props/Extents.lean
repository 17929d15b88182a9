import Verif.Props.Parse
import Verif.Props.Paragraphs
import Verif.Props.Lrd
import Verif.Lemmas.Splits
import Verif.Lemmas.ListMark
/-!
# Where sections begin and end

C51: the first line of a section decides its kind. C52: where a section of each kind ends.
-/

namespace MF

/-! ## Specification of lines -/

/-- The text of the line behind its leading whitespace starts with a bullet and a space. -/
def bulletLine (l : Str) : Bool :=
  match l.dropWhile isWs with
  | c :: ' ' :: _ => c == '*' || c == '+' || c == '-'
  | _ => false

/-- The text starts with digits, a period and a space. -/
def numberLine (l : Str) : Bool :=
  let t := l.dropWhile isWs
  !(t.takeWhile isDigit).isEmpty && (t.dropWhile isDigit).take 2 == ['.', ' ']

/-- At least three of one of the characters `*`, `_`, `-`, and whitespace. -/
def ruleLine (l : Str) : Bool :=
  let t := l.filter (fun c => !isWs c)
  decide (3 ≤ t.length) && (t.all (· == '*') || t.all (· == '_') || t.all (· == '-'))

/-- Three backticks or tildes. -/
def fenceLine (l : Str) : Bool :=
  let t := (l.dropWhile isWs).take 3
  t == ['`', '`', '`'] || t == ['~', '~', '~']

/-- The kind of section that starts at a line; `none` for text, which may be a paragraph, a heading with an underline or
a link reference definition. -/
def kindOf (l : Str) : Option Sec :=
  match (l.dropWhile isWs).head? with
  | none => some .blank
  | some c =>
    if fenceLine l then some .fenced
    else if 4 ≤ getIndent l then some .indented
    else if c == '#' then some .atx
    else if c == '>' then some .quote
    else if bulletLine l then some .bullet
    else if numberLine l then some .ordered
    else if c == '|' then some .table
    else if ruleLine l then some .thematic
    else none

/-! ## The predicates of the program -/

theorem bulletLine_eq (l : Str) : bulletLine l = (bulletStartRx.search l).isSome := by
  have h := isBulletStart_iff l
  unfold bulletLine
  show (match lstrip l with | c :: ' ' :: _ => c == '*' || c == '+' || c == '-' | _ => false) = _
  cases hq : (bulletStartRx.search l).isSome with
  | true =>
    obtain ⟨c, r, e, hc⟩ := h.1 hq
    rw [e]
    rcases hc with rfl | rfl | rfl <;> rfl
  | false =>
    split
    · rename_i c r e
      cases hc : (c == '*' || c == '+' || c == '-') with
      | false => rfl
      | true =>
        have : (bulletStartRx.search l).isSome = true := h.2 ⟨c, r, e, by simpa [or_assoc] using hc⟩
        rw [hq] at this; cases this
    · rfl

theorem numberLine_eq (l : Str) : numberLine l = (orderedStartRx.search l).isSome := by
  have h := isOrderedStart_iff l
  unfold numberLine
  show (!((lstrip l).takeWhile isDigit).isEmpty && ((lstrip l).dropWhile isDigit).take 2 == ['.', ' ']) = _
  cases hq : (orderedStartRx.search l).isSome with
  | true =>
    obtain ⟨d, r, e, hd, hdd⟩ := h.1 hq
    have h1 : (lstrip l).takeWhile isDigit = d := by
      rw [e]
      exact takeWhile_append_stop _ _ _ _ hdd (by decide)
    have h2 : (lstrip l).dropWhile isDigit = '.' :: ' ' :: r := by
      have := List.takeWhile_append_dropWhile (p := isDigit) (l := lstrip l)
      rw [h1] at this
      rw [e] at this ⊢
      exact List.append_cancel_left this
    rw [h1, h2]
    cases d with
    | nil => exact absurd rfl hd
    | cons => rfl
  | false =>
    cases hc : (!((lstrip l).takeWhile isDigit).isEmpty && ((lstrip l).dropWhile isDigit).take 2 == ['.', ' ']) with
    | false => rfl
    | true =>
      simp only [Bool.and_eq_true] at hc
      obtain ⟨h1, h2⟩ := hc
      have e := List.takeWhile_append_dropWhile (p := isDigit) (l := lstrip l)
      have h2' : ((lstrip l).dropWhile isDigit).take 2 = ['.', ' '] := by simpa using h2
      obtain ⟨r, hr⟩ : ∃ r, (lstrip l).dropWhile isDigit = '.' :: ' ' :: r := by
        cases hx : (lstrip l).dropWhile isDigit with
        | nil => rw [hx] at h2'; cases h2'
        | cons a t =>
          cases t with
          | nil => rw [hx] at h2'; cases h2'
          | cons b t =>
            rw [hx] at h2'
            cases h2'
            exact ⟨t, rfl⟩
      have : (orderedStartRx.search l).isSome = true := by
        refine h.2 ⟨(lstrip l).takeWhile isDigit, r, ?_, ?_, fun c hc => takeWhile_all _ _ c hc⟩
        · rw [← hr]; exact e.symm
        · intro h0; rw [h0] at h1; cases h1
      rw [hq] at this; cases this

theorem fenceLine_eq (l : Str) : fenceLine l = isFenceStart l := by
  have key : ∀ c, isWs c = false → ((l.dropWhile isWs).take 3 == [c, c, c]) = startsWith (strip l) (List.replicate 3 c) := by
    intro c hc
    show ((lstrip l).take 3 == [c, c, c]) = _
    cases hq : startsWith (strip l) (List.replicate 3 c) with
    | true =>
      obtain ⟨r, hr⟩ := (startsWith_iff _ _).1 hq
      obtain ⟨s, hs1, hs2⟩ := rstrip_split (lstrip l)
      have : strip l = rstrip (lstrip l) := rfl
      rw [← this, hr] at hs1
      rw [hs1]
      simp [List.replicate]
    | false =>
      cases hx : ((lstrip l).take 3 == [c, c, c]) with
      | false => rfl
      | true =>
        have hx : (lstrip l).take 3 = [c, c, c] := by simpa using hx
        have e := List.take_append_drop 3 (lstrip l)
        rw [hx] at e
        have : startsWith (strip l) (List.replicate 3 c) = true := by
          refine (startsWith_iff _ _).2 ?_
          obtain ⟨s, hs1, hs2⟩ := rstrip_split (lstrip l)
          have hs1 : lstrip l = strip l ++ s := hs1
          rw [← e] at hs1
          rcases List.append_eq_append_iff.1 hs1 with ⟨a, h1, h2⟩ | ⟨a, h1, h2⟩
          · exact ⟨a, h1⟩
          · cases a with
            | nil => exact ⟨[], by rw [List.append_nil] at h1 ⊢; rw [← h1]; rfl⟩
            | cons x a =>
              exfalso
              have hx1 : x ∈ [c, c, c] := by rw [h1]; simp
              have hx2 := hs2 x (by rw [h2]; simp)
              have : x = c := by simpa using hx1
              rw [this, hc] at hx2
              cases hx2
        rw [hq] at this; cases this
  unfold fenceLine isFenceStart
  simp only [List.any_cons, List.any_nil, Bool.or_false]
  rw [← key '`' (by decide), ← key '~' (by decide)]

theorem ruleLine_eq (l : Str) : (!isIndentedStart l && ruleLine l) = isThematic l := by
  have h := isThematic_iff l
  cases hq : isThematic l with
  | true =>
    obtain ⟨h1, c, hc, h3, h4⟩ := h.1 hq
    unfold ruleLine
    simp only [h1, h3, decide_true, Bool.true_and, Bool.not_false]
    have : ∀ x ∈ l.filter (fun c => !isWs c), x = c := by
      intro x hx
      obtain ⟨hx1, hx2⟩ := List.mem_filter.1 hx
      exact h4 x hx1 (by simpa using hx2)
    have : (l.filter (fun c => !isWs c)).all (· == c) = true := by
      rw [List.all_eq_true]
      intro x hx
      simp [this x hx]
    rcases hc with rfl | rfl | rfl <;> simp [this]
  | false =>
    cases hx : (!isIndentedStart l && ruleLine l) with
    | false => rfl
    | true =>
      unfold ruleLine at hx
      simp only [Bool.and_eq_true, decide_eq_true_eq, Bool.or_eq_true, Bool.not_eq_true'] at hx
      obtain ⟨h1, h3, h4⟩ := hx
      have : isThematic l = true := by
        have mk : ∀ c, (l.filter (fun c => !isWs c)).all (· == c) = true → ∀ x ∈ l, isWs x = false → x = c := by
          intro c hc x hx hxw
          have := List.all_eq_true.1 hc x (List.mem_filter.2 ⟨hx, by simp [hxw]⟩)
          simpa using this
        refine h.2 ⟨h1, ?_⟩
        rcases h4 with (h4 | h4) | h4
        · exact ⟨'*', by simp, h3, mk _ h4⟩
        · exact ⟨'_', by simp, h3, mk _ h4⟩
        · exact ⟨'-', by simp, h3, mk _ h4⟩
      rw [hq] at this; cases this

/-! ## C51: the first line decides -/

/-- a successful search: everything before the splitter that recognised the section recognised nothing -/
theorem firstSection_spec {fs : List (Sec × (List Str → Split))} (hk : ∀ p ∈ fs, Keeps p.2) {l : Str} {ls : List Str}
    {ty : Sec} {a b : List Str} (h : firstSection fs (l :: ls) = .ok (ty, a, b)) :
    ∃ pre f post, fs = pre ++ (ty, f) :: post ∧ (∀ p ∈ pre, p.2 (l :: ls) = .ok ([], l :: ls)) ∧
      f (l :: ls) = .ok (a, b) ∧ a ≠ [] := by
  induction fs with
  | nil => cases h
  | cons p fs ih =>
    obtain ⟨t, f⟩ := p
    simp only [firstSection, bind, Except.bind] at h
    cases hf : f (l :: ls) with
    | error e => rw [hf] at h; cases h
    | ok r =>
      obtain ⟨x, y⟩ := r
      rw [hf] at h
      simp only at h
      have hxy := hk (t, f) (by simp) _ _ _ _ hf
      split at h
      · rename_i hne
        cases h
        refine ⟨[], f, fs, rfl, by simp, hf, ?_⟩
        intro h0; subst h0; simp at hne
      · rename_i hne
        have hx : x = [] := by simpa using hne
        subst hx
        simp only [List.nil_append] at hxy
        subst hxy
        obtain ⟨pre, g, post, h1, h2, h3, h4⟩ := ih (fun p hp => hk p (by simp [hp])) h
        refine ⟨(t, f) :: pre, g, post, by rw [h1]; rfl, ?_, h3, h4⟩
        intro p hp
        rcases List.mem_cons.1 hp with rfl | hp
        · exact hf
        · exact h2 p hp

/-- what the parser saw where a section starts -/
theorem parse_at {n : Nat} {lines : List Str} {pre post : List (Sec × List Str)} {ty : Sec} {content : List Str}
    (h : parse n lines = .ok (pre ++ (ty, content) :: post)) :
    firstSection (splitters (splitQuote n)) (content ++ (post.map (·.2)).flatten) =
      .ok (ty, content, (post.map (·.2)).flatten) ∧ content ≠ [] := by
  have key : ∀ pre fuel lines, parseLoop (splitQuote n) fuel lines = .ok (pre ++ (ty, content) :: post) →
      firstSection (splitters (splitQuote n)) (content ++ (post.map (·.2)).flatten) =
        .ok (ty, content, (post.map (·.2)).flatten) ∧ content ≠ [] := by
    intro pre
    induction pre with
    | nil =>
      intro fuel lines h
      have hp := parseLoop_partition n _ _ _ h
      cases lines with
      | nil => cases fuel <;> cases h
      | cons l ls =>
        cases fuel with
        | zero => cases h
        | succ fuel =>
          simp only [parseLoop, bind, Except.bind] at h
          cases hf : firstSection (splitters (splitQuote n)) (l :: ls) with
          | error e => rw [hf] at h; cases h
          | ok r =>
            rw [hf] at h
            simp only at h
            cases hr : parseLoop (splitQuote n) fuel r.2.2 with
            | error e => rw [hr] at h; cases h
            | ok rest =>
              rw [hr] at h
              have h := Except.ok.inj h
              obtain ⟨e1, e2⟩ := List.cons.inj h
              obtain ⟨ty', c', r'⟩ := r
              cases e1
              subst e2
              have hr' := (parseLoop_partition n _ _ _ hr).1
              refine ⟨?_, hp.2 (ty', c') (by simp)⟩
              have := hp.1
              simp only [List.nil_append, List.map_cons, List.flatten_cons] at this
              rw [this, hf, hr']
    | cons p pre ih =>
      intro fuel lines h
      cases lines with
      | nil => cases fuel <;> cases h
      | cons l ls =>
        cases fuel with
        | zero => cases h
        | succ fuel =>
          simp only [parseLoop, bind, Except.bind] at h
          cases hf : firstSection (splitters (splitQuote n)) (l :: ls) with
          | error e => rw [hf] at h; cases h
          | ok r =>
            rw [hf] at h
            simp only at h
            cases hr : parseLoop (splitQuote n) fuel r.2.2 with
            | error e => rw [hr] at h; cases h
            | ok rest =>
              rw [hr] at h
              have h := Except.ok.inj h
              obtain ⟨e1, e2⟩ := List.cons.inj h
              rw [e2] at hr
              exact ih fuel _ hr
  exact key pre _ _ h

/-- the program's predicate for the first line of a section, for every kind that does not start with text -/
theorem not_recognised (n : Nat) {ty : Sec} {f : List Str → Split} (hmem : (ty, f) ∈ splitters (splitQuote n)) {l : Str}
    {ls : List Str} (h : f (l :: ls) = .ok ([], l :: ls)) (h1 : ty ≠ .lrd) (h2 : ty ≠ .par) (h3 : ty ≠ .setext) :
    headPred ty l = false := by
  simp only [splitters, List.mem_cons, Prod.mk.injEq, List.not_mem_nil, or_false] at hmem
  rcases hmem with ⟨rfl, rfl⟩ | ⟨rfl, rfl⟩ | ⟨rfl, rfl⟩ | ⟨rfl, rfl⟩ | ⟨rfl, rfl⟩ | ⟨rfl, rfl⟩ | ⟨rfl, rfl⟩ | ⟨rfl, rfl⟩ |
    ⟨rfl, rfl⟩ | ⟨rfl, rfl⟩ | ⟨rfl, rfl⟩ | ⟨rfl, rfl⟩
  · exact (splitAtx_nil h).1 rfl
  · exact (splitBlank_nil h).1 rfl
  · exact (splitQuote_nil h).1 rfl
  · exact (splitBullet_nil h).1 rfl
  · exact (splitFenced_nil h).1 rfl
  · exact (splitIndented_nil h).1 rfl
  · exact absurd rfl h1
  · exact (splitOrdered_nil h).1 rfl
  · exact absurd rfl h2
  · exact absurd rfl h3
  · exact (splitTable_nil h).1 rfl
  · exact (splitThematic_nil h).1 rfl

theorem kindOf_eq (l : Str) : kindOf l =
    if isBlankLine l then some .blank else if isFenceStart l then some .fenced
    else if isIndentedStart l then some .indented else if isAtx l then some .atx
    else if isQuote l then some .quote else if isBulletStart l then some .bullet
    else if isOrderedStart l then some .ordered else if isTableStart l then some .table
    else if isThematic l then some .thematic else none := by
  unfold kindOf
  show (match firstCh l with
    | none => some Sec.blank
    | some c =>
      if fenceLine l then some .fenced
      else if 4 ≤ getIndent l then some .indented
      else if c == '#' then some .atx
      else if c == '>' then some .quote
      else if bulletLine l then some .bullet
      else if numberLine l then some .ordered
      else if c == '|' then some .table
      else if ruleLine l then some .thematic
      else none) = _
  cases hc : firstCh l with
  | none => simp [(firstCh_none l).1 hc]
  | some c =>
    have hnb : isBlankLine l = false := by
      cases hb : isBlankLine l with
      | false => rfl
      | true => rw [(firstCh_none l).2 hb] at hc; cases hc
    have hi : isIndentedStart l = decide (4 ≤ getIndent l) := by
      unfold isIndentedStart
      unfold isBlankLine at hnb
      rw [hnb]
      simp
    have hfirst : ∀ d : Char, startsWith (lstrip l) [d] = (c == d) := by
      intro d
      cases hl : lstrip l with
      | nil => unfold firstCh at hc; rw [hl] at hc; cases hc
      | cons a r =>
        unfold firstCh at hc; rw [hl] at hc
        cases hc
        rw [Bool.eq_iff_iff, startsWith_iff]
        simp only [List.cons_append, List.nil_append, List.cons.injEq, beq_iff_eq]
        exact ⟨fun ⟨_, h, _⟩ => h, fun h => ⟨r, h, rfl⟩⟩
    simp only [hnb, Bool.false_eq_true, if_false, fenceLine_eq, bulletLine_eq, numberLine_eq]
    split
    · rfl
    · cases hg : decide (4 ≤ getIndent l) with
      | true =>
        rw [hg] at hi
        rw [if_pos (of_decide_eq_true hg), if_pos hi]
      | false =>
        rw [hg] at hi
        rw [if_neg (of_decide_eq_false hg), hi]
        have hr := ruleLine_eq l
        rw [hi] at hr
        simp only [Bool.not_false, Bool.true_and] at hr
        unfold isAtx isQuote isBulletStart isOrderedStart isTableStart
        rw [hi, hr]
        simp only [Bool.not_false, Bool.true_and, hfirst, Bool.false_eq_true, if_false]

def secOrder : List Sec :=
  [.atx, .blank, .quote, .bullet, .fenced, .indented, .lrd, .ordered, .par, .setext, .table, .thematic]

/-- C51: the first line of a section decides what the section is. A line that is text, `none`, starts a paragraph, a
heading with an underline or a link reference definition. -/
theorem C51_kind {n : Nat} {lines : List Str} {pre post : List (Sec × List Str)} {ty : Sec} {l : Str} {ls : List Str}
    (h : parse n lines = .ok (pre ++ (ty, l :: ls) :: post)) :
    match kindOf l with
    | some k => ty = k
    | none => ty = .par ∨ ty = .setext ∨ ty = .lrd := by
  obtain ⟨hf, _⟩ := parse_at h
  rw [List.cons_append] at hf
  obtain ⟨before, f, after, h1, h2, h3, h4⟩ := firstSection_spec (splitters_keep n) hf
  have hmem : (ty, f) ∈ splitters (splitQuote n) := by rw [h1]; simp
  have hp : headPred ty l = true := headPred_of_recognises n hmem ⟨_, _, h3, h4⟩
  have hbefore : ∀ p ∈ before, p.1 ≠ .lrd → p.1 ≠ .par → p.1 ≠ .setext → headPred p.1 l = false := fun p hp h5 h6 h7 =>
    not_recognised n (ty := p.1) (f := p.2) (by rw [h1]; simp [hp]) (h2 p hp) h5 h6 h7
  have hearlier : ∀ sec, ((∀ k < 12, secOrder[k]? = some ty → sec ∈ secOrder.take k) ∧ sec ≠ .lrd ∧ sec ≠ .par ∧
      sec ≠ .setext) → headPred sec l = false := by
    intro sec ⟨h5, h6, h7, h8⟩
    have h9 : before.map (·.1) ++ ty :: after.map (·.1) = secOrder := by
      have := congrArg (List.map (·.1)) h1
      rw [List.map_append, List.map_cons] at this
      exact this.symm
    have h10 : sec ∈ before.map (·.1) := by
      have := h5 (before.map (·.1)).length
        (by
          have := congrArg List.length h9
          simp only [List.length_append, List.length_cons, secOrder, List.length_nil] at this
          omega)
        (by rw [← h9]; simp)
      rw [← h9, List.take_left] at this
      exact this
    obtain ⟨p, hp1, rfl⟩ := List.mem_map.1 h10
    exact hbefore p hp1 h6 h7 h8
  have excl : ∀ sec, headPred sec l = true → sec ≠ .par → sec ≠ .setext → ty ≠ .par → ty ≠ .setext →
      (∀ k ∈ secKeys ty, k ∉ secKeys sec) → False :=
    fun sec h5 h6 h7 h8 h9 h10 => h10 _ (lineKey_mem hp h8 h9) (lineKey_mem h5 h6 h7)
  have no : ∀ sec, (sec ≠ .par ∧ sec ≠ .setext ∧ ty ≠ .par ∧ ty ≠ .setext ∧ ∀ k ∈ secKeys ty, k ∉ secKeys sec) →
      headPred sec l = false := by
    intro sec ⟨h6, h7, h8, h9, h10⟩
    cases hq : headPred sec l with
    | false => rfl
    | true => exact (excl sec hq h6 h7 h8 h9 h10).elim
  have hpar : isParStart l = true → kindOf l = none := by
    intro hq
    have hx := hq
    rw [kindOf_eq]
    simp only [isParStart, List.any_cons, List.any_nil, Bool.or_false, Bool.not_eq_true', Bool.or_eq_false_iff] at hx
    obtain ⟨x1, x2, x3, x4, x5, x6, x7, x8, x9⟩ := hx
    simp [x1, x2, x3, x4, x5, x6, x7, x8, x9]
  cases ty
  · have x1 : isBlankLine l = false := no .blank (by decide)
    have x2 : isFenceStart l = false := no .fenced (by decide)
    have x3 : isIndentedStart l = false := no .indented (by decide)
    have x4 : isAtx l = true := hp
    rw [kindOf_eq]; simp [x1, x2, x3, x4]
  · have x1 : isBlankLine l = true := hp
    rw [kindOf_eq]; simp [x1]
  · have x1 : isBlankLine l = false := no .blank (by decide)
    have x2 : isFenceStart l = false := no .fenced (by decide)
    have x3 : isIndentedStart l = false := no .indented (by decide)
    have x4 : isAtx l = false := no .atx (by decide)
    have x5 : isQuote l = true := hp
    rw [kindOf_eq]; simp [x1, x2, x3, x4, x5]
  · have x1 : isBlankLine l = false := no .blank (by decide)
    have x2 : isFenceStart l = false := no .fenced (by decide)
    have x3 : isIndentedStart l = false := no .indented (by decide)
    have x4 : isAtx l = false := no .atx (by decide)
    have x5 : isQuote l = false := no .quote (by decide)
    have x6 : isBulletStart l = true := hp
    rw [kindOf_eq]; simp [x1, x2, x3, x4, x5, x6]
  · have x1 : isBlankLine l = false := no .blank (by decide)
    have x2 : isFenceStart l = true := hp
    rw [kindOf_eq]; simp [x1, x2]
  · have x1 : isBlankLine l = false := no .blank (by decide)
    have x2 : isFenceStart l = false := hearlier .fenced (by decide)
    have x3 : isIndentedStart l = true := hp
    rw [kindOf_eq]; simp [x1, x2, x3]
  · have x1 : isBlankLine l = false := no .blank (by decide)
    have x2 : isFenceStart l = false := no .fenced (by decide)
    have x3 : isIndentedStart l = false := no .indented (by decide)
    have x4 : isAtx l = false := no .atx (by decide)
    have x5 : isQuote l = false := no .quote (by decide)
    have x6 : isBulletStart l = false := no .bullet (by decide)
    have x7 : isOrderedStart l = false := no .ordered (by decide)
    have x8 : isTableStart l = false := no .table (by decide)
    have x9 : isThematic l = false := no .thematic (by decide)
    rw [kindOf_eq]; simp [x1, x2, x3, x4, x5, x6, x7, x8, x9]
  · have x1 : isBlankLine l = false := no .blank (by decide)
    have x2 : isFenceStart l = false := no .fenced (by decide)
    have x3 : isIndentedStart l = false := no .indented (by decide)
    have x4 : isAtx l = false := no .atx (by decide)
    have x5 : isQuote l = false := no .quote (by decide)
    have x6 : isBulletStart l = false := no .bullet (by decide)
    have x7 : isOrderedStart l = true := hp
    rw [kindOf_eq]; simp [x1, x2, x3, x4, x5, x6, x7]
  · rw [hpar hp]; exact .inl rfl
  · rw [hpar hp]; exact .inr (.inl rfl)
  · have x1 : isBlankLine l = false := no .blank (by decide)
    have x2 : isFenceStart l = false := no .fenced (by decide)
    have x3 : isIndentedStart l = false := hearlier .indented (by decide)
    have x4 : isAtx l = false := no .atx (by decide)
    have x5 : isQuote l = false := no .quote (by decide)
    have x6 : isBulletStart l = false := no .bullet (by decide)
    have x7 : isOrderedStart l = false := no .ordered (by decide)
    have x8 : isTableStart l = true := hp
    rw [kindOf_eq]; simp [x1, x2, x3, x4, x5, x6, x7, x8]
  · have x1 : isBlankLine l = false := no .blank (by decide)
    have x2 : isFenceStart l = false := no .fenced (by decide)
    have x3 : isIndentedStart l = false := no .indented (by decide)
    have x4 : isAtx l = false := no .atx (by decide)
    have x5 : isQuote l = false := no .quote (by decide)
    have x6 : isBulletStart l = false := hearlier .bullet (by decide)
    have x7 : isOrderedStart l = false := no .ordered (by decide)
    have x8 : isTableStart l = false := no .table (by decide)
    have x9 : isThematic l = true := hp
    rw [kindOf_eq]; simp [x1, x2, x3, x4, x5, x6, x7, x8, x9]

/-- C51, seen from two documents: sections that start with the same line are of the same kind, unless the line is text. -/
theorem C51_same_first_line {n m : Nat} {lines lines' : List Str} {pre post pre' post' : List (Sec × List Str)}
    {ty ty' : Sec} {l : Str} {ls ls' : List Str} (h : parse n lines = .ok (pre ++ (ty, l :: ls) :: post))
    (h' : parse m lines' = .ok (pre' ++ (ty', l :: ls') :: post')) (hl : kindOf l ≠ none) : ty = ty' := by
  have h1 := C51_kind h
  have h2 := C51_kind h'
  cases hk : kindOf l with
  | none => exact absurd hk hl
  | some k =>
    rw [hk] at h1 h2
    exact h1.trans h2.symm

theorem C51_example :
    (parse 4 [c!"  # a", c!"- b", c!"", c!"   12. c", c!"", c!"    d", c!"", c!"~~~", c!"~~~", c!"> e", c!"", c!"| f",
      c!"- - -", c!"", c!"_ _ _", c!"g", c!"===", c!"[h]: i", c!"j"]).map (·.map fun s => (s.1, kindOf (s.2.headD []))) =
    .ok [(.atx, some .atx), (.bullet, some .bullet), (.blank, some .blank), (.ordered, some .ordered),
      (.blank, some .blank), (.indented, some .indented), (.blank, some .blank), (.fenced, some .fenced),
      (.quote, some .quote), (.blank, some .blank), (.table, some .table), (.bullet, some .bullet),
      (.blank, some .blank), (.thematic, some .thematic), (.setext, none), (.lrd, none), (.par, none)] := by
  decide +kernel

/-! ## C52: where sections end -/

/-- The line is empty or white space only. -/
def emptyLine (l : Str) : Bool := l.all isWs

/-- The text of the line starts with a vertical bar. -/
def rowLine (l : Str) : Bool := (l.dropWhile isWs).head? == some '|'

/-- The text starts with `>`, after at most three columns. -/
def quotedLine (l : Str) : Bool := decide (getIndent l < 4) && (l.dropWhile isWs).head? == some '>'

/-- The underline of a heading: only `=` or only `-`, after at most three columns. -/
def underline (l : Str) : Bool :=
  decide (getIndent l < 4) && !emptyLine l && ((strip l).all (· == '=') || (strip l).all (· == '-'))

/-- A list ends before such a line. -/
def listEnd (l : Str) : Bool := emptyLine l || rowLine l || (decide (getIndent l < 4) && ruleLine l)

/-- A line of text is not followed by such a line in the same paragraph. -/
def textEnd (l : Str) : Bool :=
  emptyLine l || rowLine l || fenceLine l || quotedLine l || underline l ||
    (decide (getIndent l < 4) &&
      ((l.dropWhile isWs).head? == some '#' || bulletLine l || numberLine l || ruleLine l))

/-- The line has a hard break at its end. -/
def hardBreak (l : Str) : Bool := endsWith l c!"  "

/-- The run of characters that opens a fenced block. -/
def fenceRun (l : Str) : Str :=
  match l.dropWhile isWs with
  | [] => []
  | c :: r => (c :: r).takeWhile (· == c)

/-- The lines of a paragraph: the first is text, further lines do not end it, and only the last has a hard break. -/
structure TextBlock (body : List Str) : Prop where
  first : ∀ l, body.head? = some l → kindOf l = none
  further : ∀ l ∈ body.tail, textEnd l = false
  hard : ∀ l ∈ body.dropLast, hardBreak l = false
  some : body ≠ []

/-- The section ends here: for lines `content` followed by lines `rest`. -/
def Extent (ty : Sec) (content rest : List Str) : Prop :=
  match ty with
  | .atx | .blank | .thematic => content.length = 1
  | .bullet | .ordered =>
    (∀ l ∈ content.tail, listEnd l = false) ∧ ∀ l, rest.head? = some l → listEnd l = true
  | .table => (∀ l ∈ content, rowLine l = true) ∧ ∀ l, rest.head? = some l → rowLine l = false
  | .indented =>
    (∀ l ∈ content, emptyLine l = true ∨ 4 ≤ getIndent l) ∧
      ∃ last empty tail, rest = last ++ empty ++ tail ∧ (∀ l ∈ empty, emptyLine l = true) ∧
        (∀ l, tail.head? = some l → emptyLine l = false ∧ getIndent l < 4) ∧
        (last = [] ∧ content.length = 1 ∨ ∃ l, last = [l] ∧ emptyLine l = false ∧ 4 ≤ getIndent l)
  | .fenced =>
    ∃ l body, (∀ x ∈ body, strip x ≠ fenceRun l) ∧
      (content = l :: body ∧ rest = [] ∨ ∃ close, content = l :: body ++ [close] ∧ strip close = fenceRun l)
  | .par =>
    TextBlock content ∧ (∀ l, content.getLast? = some l → hardBreak l = false → ∀ r, rest.head? = some r → textEnd r = true) ∧
      ∀ r, rest.head? = some r → underline r = false
  | .setext => ∃ body u, content = body ++ [u] ∧ TextBlock body ∧ underline u = true
  | .quote =>
    (∀ l, content.head? = some l → quotedLine l = true) ∧ (∀ l ∈ content, quotedLine l = true ∨ textEnd l = false) ∧
      ∀ l, rest.head? = some l → quotedLine l = false
  | .lrd => StartsLabel content

theorem openFence_run {l F : Str} (h : openFence l = some F) : F = fenceRun l := by
  unfold openFence at h
  obtain ⟨c, hc, h⟩ := List.exists_of_findSome?_eq_some h
  split at h
  · rename_i hs
    cases h
    have hw : isWs c = false := by
      simp only [List.mem_cons, List.not_mem_nil, or_false] at hc
      rcases hc with rfl | rfl <;> decide
    obtain ⟨r, hr⟩ := (startsWith_iff _ _).1 hs
    obtain ⟨t, ht, _⟩ := rstrip_split (lstrip l)
    have ht : lstrip l = strip l ++ t := ht
    rw [hr] at ht
    unfold fenceRun
    show _ = match lstrip l with | [] => [] | c :: r => (c :: r).takeWhile (· == c)
    have hl : lstrip l = c :: (c :: c :: r ++ t) := ht
    have e := List.takeWhile_append_dropWhile (p := (· == c)) (l := lstrip l)
    have e2 := congrArg List.length e
    rw [List.length_append] at e2
    have e3 : (lstrip l).length - (lstripBy (· == c) (lstrip l)).length = ((lstrip l).takeWhile (· == c)).length := by
      show _ - ((lstrip l).dropWhile (· == c)).length = _
      omega
    rw [e3, hl]
    show _ = (c :: (c :: c :: r ++ t)).takeWhile (· == c)
    symm
    rw [List.eq_replicate_iff]
    exact ⟨rfl, fun b hb => by simpa using takeWhile_all _ _ b hb⟩
  · cases h

theorem emptyLine_eq (l : Str) : emptyLine l = isBlankLine l := by
  unfold emptyLine isBlankLine
  rw [Bool.eq_iff_iff, List.all_eq_true, List.isEmpty_iff]
  exact (strip_eq_nil l).symm

theorem firstIs_eq (l : Str) (c : Char) : ((l.dropWhile isWs).head? == some c) = startsWith (lstrip l) [c] := by
  show ((lstrip l).head? == some c) = _
  cases lstrip l with
  | nil => rfl
  | cons a r =>
    rw [Bool.eq_iff_iff, startsWith_iff]
    simp only [List.head?_cons, beq_iff_eq, Option.some.injEq, List.cons_append, List.nil_append, List.cons.injEq]
    exact ⟨fun h => ⟨r, h, rfl⟩, fun ⟨_, h, _⟩ => h⟩

theorem rowLine_eq (l : Str) : rowLine l = isTableStart l := firstIs_eq l '|'

theorem indented_eq {l : Str} (h : isBlankLine l = false) : decide (getIndent l < 4) = !isIndentedStart l := by
  unfold isIndentedStart
  unfold isBlankLine at h
  rw [h, Bool.not_false, Bool.true_and, Bool.eq_iff_iff]
  simp

theorem quotedLine_eq (l : Str) : quotedLine l = isQuote l := by
  unfold quotedLine
  rw [firstIs_eq]
  cases hb : isBlankLine l with
  | true =>
    have : lstrip l = [] := by
      rw [lstrip_eq_nil_iff_strip]
      simpa [isBlankLine] using hb
    unfold isQuote
    rw [this]
    simp [startsWith]
  | false => rw [indented_eq hb]; rfl

theorem underline_eq (l : Str) : underline l = isSetextUnderline l := by
  unfold underline isSetextUnderline
  rw [emptyLine_eq]
  cases hb : isBlankLine l with
  | true =>
    have : (strip l).isEmpty = true := hb
    rw [this]; simp
  | false =>
    rw [indented_eq hb]
    have : (strip l).isEmpty = false := hb
    rw [this]

theorem rule_eq {l : Str} (h : isBlankLine l = false) : (decide (getIndent l < 4) && ruleLine l) = isThematic l := by
  rw [indented_eq h, ruleLine_eq]

theorem listEnd_eq (l : Str) : listEnd l = (isBlankLine l || isTableStart l || isThematic l) := by
  unfold listEnd
  rw [emptyLine_eq, rowLine_eq]
  cases hb : isBlankLine l with
  | true => rfl
  | false => rw [rule_eq hb]

theorem textEnd_eq (l : Str) : textEnd l = (interrupts l || isQuote l || isSetextUnderline l) := by
  unfold textEnd interrupts
  rw [emptyLine_eq, rowLine_eq, fenceLine_eq, quotedLine_eq, underline_eq, firstIs_eq, bulletLine_eq, numberLine_eq]
  cases hb : isBlankLine l with
  | true => simp
  | false =>
    have h1 := rule_eq hb
    have h2 := indented_eq hb
    rw [h2] at h1 ⊢
    unfold isAtx isBulletStart isOrderedStart
    rw [← h1]
    cases isIndentedStart l <;> cases isTableStart l <;> cases isFenceStart l <;> cases isQuote l <;>
      cases isSetextUnderline l <;> cases startsWith (lstrip l) c!"#" <;> cases (bulletStartRx.search l).isSome <;>
      cases (orderedStartRx.search l).isSome <;> cases ruleLine l <;> rfl

/-! ### The splitters -/

theorem anySplits_true {lines : List Str} {fs : List (List Str → Split)} (h : anySplits lines fs = .ok true) :
    ∃ f ∈ fs, ∃ a b, f lines = .ok (a, b) ∧ a ≠ [] := by
  induction fs with
  | nil => cases h
  | cons f fs ih =>
    simp only [anySplits, bind, Except.bind] at h
    cases hf : f lines with
    | error e => rw [hf] at h; cases h
    | ok r =>
      rw [hf] at h
      simp only at h
      split at h
      · rename_i hne
        exact ⟨f, by simp, r.1, r.2, hf, by intro h0; rw [h0] at hne; cases hne⟩
      · obtain ⟨g, hg, x⟩ := ih h
        exact ⟨g, by simp [hg], x⟩

theorem anySplits_false {lines : List Str} {fs : List (List Str → Split)} (h : anySplits lines fs = .ok false) :
    ∀ f ∈ fs, ∃ b, f lines = .ok ([], b) := by
  induction fs with
  | nil => intro f hf; cases hf
  | cons f fs ih =>
    simp only [anySplits, bind, Except.bind] at h
    cases hf : f lines with
    | error e => rw [hf] at h; cases h
    | ok r =>
      rw [hf] at h
      simp only at h
      split at h
      · cases h
      · rename_i hne
        intro g hg
        rcases List.mem_cons.1 hg with rfl | hg
        · exact ⟨r.2, by rw [hf, ← show r.1 = [] by simpa using hne]⟩
        · exact ih h g hg

theorem isParCont_textEnd {n : Nat} {l : Str} {ls : List Str} {v : Bool}
    (h : isParCont (splitQuote n) (l :: ls) = .ok v) : textEnd l = !v := by
  rw [textEnd_eq]
  simp only [isParCont, bind, Except.bind] at h
  cases ha : anySplits (l :: ls)
      [splitAtx, splitBlank, splitQuote n, splitBullet, splitFenced, splitOrdered, splitTable, splitThematic] with
  | error e => rw [ha] at h; cases h
  | ok b =>
    rw [ha] at h
    simp only at h
    cases b with
    | true =>
      cases h
      obtain ⟨f, hf, x, y, hxy, hne⟩ := anySplits_true ha
      unfold interrupts
      simp only [List.mem_cons, List.not_mem_nil, or_false] at hf
      have conv : ∀ {p : Bool}, (x = [] ↔ p = false) → p = true := by
        intro p hp
        cases p with
        | true => rfl
        | false => exact absurd (hp.2 rfl) hne
      rcases hf with rfl | rfl | rfl | rfl | rfl | rfl | rfl | rfl
      · simp [conv (splitAtx_nil hxy)]
      · simp [conv (splitBlank_nil hxy)]
      · simp [conv (splitQuote_nil hxy)]
      · simp [conv (splitBullet_nil hxy)]
      · simp [conv (splitFenced_nil hxy)]
      · simp [conv (splitOrdered_nil hxy)]
      · simp [conv (splitTable_nil hxy)]
      · simp [conv (splitThematic_nil hxy)]
    | false =>
      have hall := anySplits_false ha
      simp only [Bool.false_eq_true, if_false] at h
      have get : ∀ {f : List Str → Split} {p : Bool}, f ∈ [splitAtx, splitBlank, splitQuote n, splitBullet, splitFenced,
          splitOrdered, splitTable, splitThematic] → (∀ {a b}, f (l :: ls) = .ok (a, b) → (a = [] ↔ p = false)) →
          p = false := by
        intro f p hf hp
        obtain ⟨b, hb⟩ := hall f hf
        exact (hp hb).1 rfl
      have x1 := get (by simp) (fun h => splitAtx_nil h)
      have x2 := get (by simp) (fun h => splitBlank_nil h)
      have x3 := get (f := splitQuote n) (by simp) (fun h => splitQuote_nil h)
      have x4 := get (by simp) (fun h => splitBullet_nil h)
      have x5 := get (by simp) (fun h => splitFenced_nil h)
      have x6 := get (by simp) (fun h => splitOrdered_nil h)
      have x7 := get (by simp) (fun h => splitTable_nil h)
      have x8 := get (by simp) (fun h => splitThematic_nil h)
      unfold interrupts
      rw [x1, x2, x3, x4, x5, x6, x7, x8]
      cases hs : isSetextUnderline l with
      | true => rw [hs] at h; cases h; rfl
      | false => rw [hs] at h; cases h; rfl

theorem isQuoteCont_textEnd {sbq : List Str → Split} {l : Str} {ls : List Str}
    (h : isQuoteCont sbq (l :: ls) = .ok true) : quotedLine l = true ∨ textEnd l = false := by
  rw [textEnd_eq, quotedLine_eq]
  simp only [isQuoteCont, bind, Except.bind] at h
  cases ha : anySplits (l :: ls)
      [splitAtx, splitBlank, splitBullet, splitFenced, splitOrdered, splitSetext sbq, splitTable, splitThematic] with
  | error e => rw [ha] at h; cases h
  | ok b =>
    rw [ha] at h
    simp only at h
    cases b with
    | true => cases h
    | false =>
      have hall := anySplits_false ha
      simp only [Bool.false_eq_true, if_false] at h
      have get : ∀ {f : List Str → Split} {p : Bool}, f ∈ [splitAtx, splitBlank, splitBullet, splitFenced,
          splitOrdered, splitSetext sbq, splitTable, splitThematic] →
          (∀ {a b}, f (l :: ls) = .ok (a, b) → (a = [] ↔ p = false)) → p = false := by
        intro f p hf hp
        obtain ⟨b, hb⟩ := hall f hf
        exact (hp hb).1 rfl
      have x1 := get (by simp) (fun h => splitAtx_nil h)
      have x2 := get (by simp) (fun h => splitBlank_nil h)
      have x4 := get (by simp) (fun h => splitBullet_nil h)
      have x5 := get (by simp) (fun h => splitFenced_nil h)
      have x6 := get (by simp) (fun h => splitOrdered_nil h)
      have x7 := get (by simp) (fun h => splitTable_nil h)
      have x8 := get (by simp) (fun h => splitThematic_nil h)
      unfold interrupts
      rw [x1, x2, x4, x5, x6, x7, x8]
      cases hs : isSetextUnderline l with
      | true => rw [hs] at h; cases h
      | false =>
        cases isQuote l with
        | true => exact .inl rfl
        | false => exact .inr rfl

theorem listLoop_extent (ls : List Str) : ∀ i, ∃ k, listLoop i ls = (ls.take k, i + 1 + k) ∧
    (∀ l ∈ ls.take k, listEnd l = false) ∧ ∀ l, (ls.drop k).head? = some l → listEnd l = true := by
  induction ls with
  | nil => intro i; exact ⟨0, rfl, by simp, by simp⟩
  | cons l ls ih =>
    intro i
    simp only [listLoop, ← listEnd_eq]
    cases hl : listEnd l with
    | true => exact ⟨0, by simp, by simp, by simp [hl]⟩
    | false =>
      obtain ⟨k, h1, h2, h3⟩ := ih (i + 1)
      refine ⟨k + 1, ?_, ?_, ?_⟩
      · simp only [Bool.false_eq_true, if_false, h1, List.take_succ_cons, Prod.mk.injEq, true_and]; omega
      · intro x hx
        rw [List.take_succ_cons] at hx
        rcases List.mem_cons.1 hx with rfl | hx
        · exact hl
        · exact h2 x hx
      · rw [List.drop_succ_cons]; exact h3

theorem list_extent {l : Str} {ls a b : List Str}
    (h : (Except.ok (l :: (listLoop 0 ls).1, (l :: ls).drop (listLoop 0 ls).2) : Split) = .ok (a, b)) :
    (∀ x ∈ a.tail, listEnd x = false) ∧ ∀ x, b.head? = some x → listEnd x = true := by
  obtain ⟨k, h1, h2, h3⟩ := listLoop_extent ls 0
  rw [h1] at h
  cases h
  refine ⟨h2, ?_⟩
  rw [show 0 + 1 + k = k + 1 by omega, List.drop_succ_cons]
  exact h3

theorem tableLoop_extent (ls : List Str) : ∀ i, ∃ k, tableLoop i ls = (ls.take k, i + 1 + k) ∧
    (∀ l ∈ ls.take k, rowLine l = true) ∧ ∀ l, (ls.drop k).head? = some l → rowLine l = false := by
  induction ls with
  | nil => intro i; exact ⟨0, rfl, by simp, by simp⟩
  | cons l ls ih =>
    intro i
    simp only [tableLoop, ← rowLine_eq]
    cases hl : rowLine l with
    | false => exact ⟨0, by simp, by simp, by simp [hl]⟩
    | true =>
      obtain ⟨k, h1, h2, h3⟩ := ih (i + 1)
      refine ⟨k + 1, ?_, ?_, ?_⟩
      · simp only [Bool.not_true, Bool.false_eq_true, if_false, h1, List.take_succ_cons, Prod.mk.injEq, true_and]; omega
      · intro x hx
        rw [List.take_succ_cons] at hx
        rcases List.mem_cons.1 hx with rfl | hx
        · exact hl
        · exact h2 x hx
      · rw [List.drop_succ_cons]; exact h3

theorem fenceLoop_extent (F : Str) (ls : List Str) : ∀ i,
    ((∀ x ∈ ls, strip x ≠ F) ∧ fenceLoop F i ls = (ls, i + ls.length)) ∨
    ∃ body close rest, ls = body ++ close :: rest ∧ (∀ x ∈ body, strip x ≠ F) ∧ strip close = F ∧
      fenceLoop F i ls = (body ++ [close], i + body.length + 1) := by
  induction ls with
  | nil => intro i; exact .inl ⟨by simp, rfl⟩
  | cons l ls ih =>
    intro i
    simp only [fenceLoop]
    cases hl : (strip l == F) with
    | true => exact .inr ⟨[], l, ls, rfl, by simp, by simpa using hl, rfl⟩
    | false =>
      have hl' : strip l ≠ F := by simpa using hl
      rcases ih (i + 1) with ⟨h1, h2⟩ | ⟨body, close, rest, h1, h2, h3, h4⟩
      · refine .inl ⟨?_, ?_⟩
        · intro x hx
          rcases List.mem_cons.1 hx with rfl | hx
          · exact hl'
          · exact h1 x hx
        · simp only [Bool.false_eq_true, if_false, h2, List.length_cons, Prod.mk.injEq, true_and]; omega
      · refine .inr ⟨l :: body, close, rest, by rw [h1]; rfl, ?_, h3, ?_⟩
        · intro x hx
          rcases List.mem_cons.1 hx with rfl | hx
          · exact hl'
          · exact h2 x hx
        · simp only [Bool.false_eq_true, if_false, h4, List.length_cons, List.cons_append, Prod.mk.injEq, true_and]; omega

theorem parLoop_extent (n : Nat) (ls : List Str) : ∀ a b, parLoop (splitQuote n) ls = .ok (a, b) →
    (∀ l ∈ a, textEnd l = false) ∧ (∀ l ∈ a.dropLast, hardBreak l = false) ∧
    ((∀ l, a.getLast? = some l → hardBreak l = false) → ∀ r, b.head? = some r → textEnd r = true) := by
  induction ls with
  | nil => intro a b h; cases h; exact ⟨by simp, by simp, by simp⟩
  | cons l ls ih =>
    intro a b h
    simp only [parLoop, bind, Except.bind] at h
    cases hc : isParCont (splitQuote n) (l :: ls) with
    | error e => rw [hc] at h; cases h
    | ok v =>
      rw [hc] at h
      have ht := isParCont_textEnd hc
      simp only at h
      cases v with
      | false =>
        cases h
        refine ⟨by simp, by simp, fun _ r hr => ?_⟩
        cases hr
        simpa using ht
      | true =>
        simp only [if_true] at h
        have ht : textEnd l = false := by simpa using ht
        cases he : endsWith l c!"  " with
        | true =>
          rw [he] at h
          simp only [if_true] at h
          cases ls with
          | nil => cases h
          | cons l2 ls =>
            cases h
            refine ⟨by simpa using ht, by simp, fun hx => ?_⟩
            have := hx l rfl
            unfold hardBreak at this
            rw [he] at this; cases this
        | false =>
          rw [he] at h
          simp only [Bool.false_eq_true, if_false] at h
          cases hp : parLoop (splitQuote n) ls with
          | error e => rw [hp] at h; cases h
          | ok r =>
            rw [hp] at h
            cases h
            obtain ⟨h1, h2, h3⟩ := ih _ _ hp
            refine ⟨?_, ?_, ?_⟩
            · intro x hx
              rcases List.mem_cons.1 hx with rfl | hx
              · exact ht
              · exact h1 x hx
            · intro x hx
              cases hr : r.1 with
              | nil => rw [hr] at hx; cases hx
              | cons y ys =>
                rw [hr, List.dropLast_cons_of_ne_nil (by simp)] at hx
                rcases List.mem_cons.1 hx with rfl | hx
                · exact he
                · exact h2 x (by rw [hr]; exact hx)
            · intro hx
              apply h3
              intro y hy
              apply hx
              cases hr : r.1 with
              | nil => rw [hr] at hy; cases hy
              | cons z zs =>
                rw [hr] at hy
                rw [List.getLast?_cons_cons]
                exact hy

theorem isParStart_kind (l : Str) : isParStart l = true ↔ kindOf l = none := by
  rw [kindOf_eq]
  simp only [isParStart, List.any_cons, List.any_nil, Bool.or_false]
  cases isBlankLine l <;> cases isFenceStart l <;> cases isIndentedStart l <;> cases isAtx l <;> cases isQuote l <;>
    cases isBulletStart l <;> cases isOrderedStart l <;> cases isTableStart l <;> cases isThematic l <;> decide

theorem parIgn_extent {n : Nat} {ls a b : List Str} (h : splitParIgn (splitQuote n) ls = .ok (a, b)) (ha : a ≠ []) :
    TextBlock a ∧
    ((∀ l, a.getLast? = some l → hardBreak l = false) → ∀ r, b.head? = some r → textEnd r = true) := by
  cases ls with
  | nil => cases h
  | cons l ls =>
    simp only [splitParIgn] at h
    cases hp : isParStart l with
    | false => rw [hp] at h; cases h; exact absurd rfl ha
    | true =>
      rw [hp] at h
      have hk := (isParStart_kind l).1 hp
      simp only [if_true] at h
      cases he : endsWith l c!"  " with
      | true =>
        rw [he] at h
        cases h
        refine ⟨⟨?_, by simp, by simp, by simp⟩, ?_⟩
        · intro x hx; cases hx; exact hk
        · intro hx
          have := hx l rfl
          unfold hardBreak at this
          rw [he] at this; cases this
      | false =>
        rw [he] at h
        simp only [Bool.false_eq_true, if_false, bind, Except.bind] at h
        cases hq : parLoop (splitQuote n) ls with
        | error e => rw [hq] at h; cases h
        | ok r =>
          rw [hq] at h
          cases h
          obtain ⟨h1, h2, h3⟩ := parLoop_extent n ls _ _ hq
          refine ⟨⟨?_, h1, ?_, by simp⟩, ?_⟩
          · intro x hx; cases hx; exact hk
          · intro x hx
            cases hr : r.1 with
            | nil => rw [hr] at hx; cases hx
            | cons y ys =>
              rw [hr, List.dropLast_cons_of_ne_nil (by simp)] at hx
              rcases List.mem_cons.1 hx with rfl | hx
              · exact he
              · exact h2 x (by rw [hr]; exact hx)
          · intro hx
            apply h3
            intro y hy
            apply hx
            cases hr : r.1 with
            | nil => rw [hr] at hy; cases hy
            | cons z zs =>
              rw [hr] at hy
              rw [List.getLast?_cons_cons]
              exact hy

theorem contLoop_extent (sbq : List Str → Split) (ls : List Str) : ∀ first a b, contLoop sbq first ls = .ok (a, b) →
    ∀ l ∈ a, quotedLine l = true ∨ textEnd l = false := by
  induction ls with
  | nil => intro f a b h; cases h; simp
  | cons l ls ih =>
    intro f a b h
    simp only [contLoop, bind, Except.bind] at h
    cases hc : isQuoteCont sbq (l :: ls) with
    | error e => rw [hc] at h; cases h
    | ok v =>
      rw [hc] at h
      simp only at h
      cases v with
      | false => cases h; simp
      | true =>
        simp only [if_true] at h
        split at h
        · cases h; simp
        · cases hr : contLoop sbq false ls with
          | error e => rw [hr] at h; cases h
          | ok r =>
            rw [hr] at h
            cases h
            intro x hx
            rcases List.mem_cons.1 hx with rfl | hx
            · exact isQuoteCont_textEnd hc
            · exact ih _ _ _ hr x hx

theorem quoteLoop_extent (ends : List Str → Except Err Bool) (sbq : List Str → Split) : ∀ fuel bq rem a b,
    quoteLoop ends sbq fuel bq rem = .ok (a, b) → (∀ l ∈ bq, quotedLine l = true ∨ textEnd l = false) →
    (∀ l ∈ a, quotedLine l = true ∨ textEnd l = false) ∧ ∀ l, b.head? = some l → quotedLine l = false := by
  intro fuel
  induction fuel with
  | zero => intro bq rem a b h; cases h
  | succ fuel ih =>
    intro bq rem a b h hbq
    cases rem with
    | nil => cases h; exact ⟨hbq, by simp⟩
    | cons l ls =>
      simp only [quoteLoop] at h
      cases hl : isQuote l with
      | false =>
        rw [hl] at h
        cases h
        refine ⟨hbq, ?_⟩
        intro x hx; cases hx
        rw [quotedLine_eq]; exact hl
      | true =>
        rw [hl] at h
        simp only [Bool.not_true, Bool.false_eq_true, if_false, bind, Except.bind] at h
        have hbq' : ∀ x ∈ bq ++ (l :: ls).takeWhile isQuote, quotedLine x = true ∨ textEnd x = false := by
          intro x hx
          rcases List.mem_append.1 hx with hx | hx
          · exact hbq x hx
          · exact .inl (by rw [quotedLine_eq]; exact takeWhile_all _ _ x hx)
        cases he : ends (bq ++ (l :: ls).takeWhile isQuote) with
        | error e => rw [he] at h; cases h
        | ok v =>
          rw [he] at h
          simp only at h
          cases v with
          | false =>
            cases h
            refine ⟨hbq', ?_⟩
            intro x hx
            rw [quotedLine_eq]
            have := List.head?_dropWhile_not isQuote (l :: ls)
            rw [hx] at this
            simpa using this
          | true =>
            simp only [if_true] at h
            cases hr : contLoop sbq true ((l :: ls).dropWhile isQuote) with
            | error e => rw [hr] at h; cases h
            | ok r =>
              rw [hr] at h
              refine ih _ _ _ _ h ?_
              intro x hx
              rcases List.mem_append.1 hx with hx | hx
              · exact hbq' x hx
              · exact contLoop_extent sbq _ _ _ _ hr x hx

theorem indentLoop_extent (ls : List Str) : ∀ i c,
    ∃ body last empty tail, ls = body ++ (last ++ empty ++ tail) ∧ (∀ l ∈ body, emptyLine l = true ∨ 4 ≤ getIndent l) ∧
      (∀ l ∈ empty, emptyLine l = true) ∧ (∀ l, tail.head? = some l → emptyLine l = false ∧ getIndent l < 4) ∧
      (last = [] ∧ body = [] ∧ indentLoop i c ls = c ∨
        (∃ l, last = [l] ∧ emptyLine l = false ∧ 4 ≤ getIndent l) ∧ indentLoop i c ls = i + body.length) := by
  induction ls with
  | nil => intro i c; exact ⟨[], [], [], [], rfl, by simp, by simp, by simp, .inl ⟨rfl, rfl, rfl⟩⟩
  | cons l ls ih =>
    intro i c
    have hb : (strip l).isEmpty = emptyLine l := (emptyLine_eq l).symm
    simp only [indentLoop, hb]
    cases he : emptyLine l with
    | true =>
      simp only [if_true]
      obtain ⟨body, last, empty, tail, h1, h2, h3, h4, h5⟩ := ih (i + 1) c
      rcases h5 with ⟨rfl, rfl, h7⟩ | ⟨h6, h7⟩
      · refine ⟨[], [], l :: empty, tail, by rw [h1]; rfl, by simp, ?_, h4, .inl ⟨rfl, rfl, h7⟩⟩
        intro x hx
        rcases List.mem_cons.1 hx with rfl | hx
        · exact he
        · exact h3 x hx
      · refine ⟨l :: body, last, empty, tail, by rw [h1]; rfl, ?_, h3, h4, .inr ⟨h6, ?_⟩⟩
        · intro x hx
          rcases List.mem_cons.1 hx with rfl | hx
          · exact .inl he
          · exact h2 x hx
        · rw [h7, List.length_cons]; omega
    | false =>
      simp only [Bool.false_eq_true, if_false]
      by_cases hg : getIndent l ≥ 4
      · rw [if_pos hg]
        obtain ⟨body, last, empty, tail, h1, h2, h3, h4, h5⟩ := ih (i + 1) i
        rcases h5 with ⟨rfl, rfl, h7⟩ | ⟨h6, h7⟩
        · exact ⟨[], [l], empty, tail, by rw [h1]; rfl, by simp, h3, h4, .inr ⟨⟨l, rfl, he, hg⟩, h7⟩⟩
        · refine ⟨l :: body, last, empty, tail, by rw [h1]; rfl, ?_, h3, h4, .inr ⟨h6, ?_⟩⟩
          · intro x hx
            rcases List.mem_cons.1 hx with rfl | hx
            · exact .inr hg
            · exact h2 x hx
          · rw [h7, List.length_cons]; omega
      · rw [if_neg hg]
        refine ⟨[], [], [], l :: ls, rfl, by simp, by simp, ?_, .inl ⟨rfl, rfl, rfl⟩⟩
        intro x hx; cases hx
        exact ⟨he, by omega⟩

/-- C52: every section ends where the grammar of the program says it ends. `rest` are the lines of the document after
the section. -/
theorem C52_extent {n : Nat} {lines : List Str} {pre post : List (Sec × List Str)} {ty : Sec} {content : List Str}
    (h : parse n lines = .ok (pre ++ (ty, content) :: post)) : Extent ty content (post.map (·.2)).flatten := by
  obtain ⟨hf, hne⟩ := parse_at h
  generalize (post.map (·.2)).flatten = rest at hf
  obtain ⟨l, ls, rfl⟩ := List.exists_cons_of_ne_nil hne
  rw [List.cons_append] at hf
  obtain ⟨before, f, after, h1, h2, h3, h4⟩ := firstSection_spec (splitters_keep n) hf
  have hmem : (ty, f) ∈ splitters (splitQuote n) := by rw [h1]; simp
  have hp : headPred ty l = true := headPred_of_recognises n hmem ⟨_, _, h3, h4⟩
  simp only [splitters, List.mem_cons, Prod.mk.injEq, List.not_mem_nil, or_false] at hmem
  rcases hmem with ⟨rfl, rfl⟩ | ⟨rfl, rfl⟩ | ⟨rfl, rfl⟩ | ⟨rfl, rfl⟩ | ⟨rfl, rfl⟩ | ⟨rfl, rfl⟩ | ⟨rfl, rfl⟩ | ⟨rfl, rfl⟩ |
    ⟨rfl, rfl⟩ | ⟨rfl, rfl⟩ | ⟨rfl, rfl⟩ | ⟨rfl, rfl⟩
  · -- heading
    have hp : isAtx l = true := hp
    simp only [splitAtx, hp, if_true] at h3
    cases h3
    rfl
  · have hp : isBlankLine l = true := hp
    simp only [splitBlank, hp, if_true] at h3
    cases h3
    rfl
  · -- quote
    have hp : isQuote l = true := hp
    cases n with
    | zero => cases h3
    | succ n =>
      obtain ⟨h5, h6⟩ := quoteLoop_extent _ _ _ _ _ _ _ h3 (by simp)
      refine ⟨?_, h5, h6⟩
      intro x hx; cases hx
      rw [quotedLine_eq]; exact hp
  · have hp : isBulletStart l = true := hp
    simp only [splitBullet, hp, Bool.not_true, Bool.false_eq_true, if_false] at h3
    exact list_extent h3
  · -- fence
    simp only [splitFenced] at h3
    cases hF : openFence l with
    | none => rw [hF] at h3; cases h3
    | some F =>
      rw [hF] at h3
      obtain rfl := openFence_run hF
      simp only at h3
      rcases fenceLoop_extent (fenceRun l) (ls ++ rest) 0 with ⟨h5, h6⟩ | ⟨body, close, tail, h5, h6, h7, h8⟩
      · rw [h6] at h3
        simp only [Nat.zero_add, List.drop_succ_cons, List.drop_length] at h3
        have h3 := Except.ok.inj h3
        have e1 := congrArg Prod.fst h3
        have e2 := congrArg Prod.snd h3
        simp only at e1 e2
        exact ⟨l, ls ++ rest, h5, .inl ⟨e1.symm, e2.symm⟩⟩
      · rw [h8] at h3
        have h3 := Except.ok.inj h3
        have e1 := congrArg Prod.fst h3
        simp only at e1
        exact ⟨l, body, h6, .inr ⟨close, e1.symm, h7⟩⟩
  · -- indented code
    have hp : isIndentedStart l = true := hp
    unfold isIndentedStart at hp
    simp only [splitIndented, hp, if_true] at h3
    obtain ⟨body, last, empty, tail, g1, g2, g3, g4, g5⟩ := indentLoop_extent (ls ++ rest) 1 1
    have h3 := Except.ok.inj h3
    have e1 := congrArg Prod.fst h3
    have e2 := congrArg Prod.snd h3
    simp only at e1 e2
    have hl : 4 ≤ getIndent l := by simp only [Bool.and_eq_true, decide_eq_true_eq] at hp; exact hp.2
    rcases g5 with ⟨rfl, rfl, g6⟩ | ⟨g6, g7⟩
    · rw [g6, g1] at e1 e2
      simp only [List.take_succ_cons, List.take_zero, List.drop_succ_cons, List.drop_zero, List.nil_append] at e1 e2
      refine ⟨?_, [], empty, tail, e2.symm, g3, g4, .inl ⟨rfl, by rw [← e1]; rfl⟩⟩
      intro x hx
      rw [← e1] at hx
      rw [List.mem_singleton.1 hx]
      exact .inr hl
    · rw [g7, g1, show 1 + body.length = body.length + 1 by omega] at e1 e2
      simp only [List.take_succ_cons, List.take_left', List.drop_succ_cons, List.drop_left'] at e1 e2
      refine ⟨?_, last, empty, tail, e2.symm, g3, g4, .inr g6⟩
      intro x hx
      rw [← e1] at hx
      rcases List.mem_cons.1 hx with rfl | hx
      · exact .inr hl
      · exact g2 x hx
  · -- link reference definition
    exact parse_lrd h (by simp)
  · have hp : isOrderedStart l = true := hp
    simp only [splitOrdered, hp, Bool.not_true, Bool.false_eq_true, if_false] at h3
    exact list_extent h3
  · -- paragraph
    simp only [splitPar, bind, Except.bind] at h3
    cases hs : splitParIgn (splitQuote n) (l :: (ls ++ rest)) with
    | error e => rw [hs] at h3; cases h3
    | ok r =>
      obtain ⟨a, b⟩ := r
      rw [hs] at h3
      simp only at h3
      have key : ∀ x y, a = x → b = y → x ≠ [] → (∀ r, y.head? = some r → underline r = false) →
          Extent .par x y := by
        rintro x y rfl rfl hx hu
        obtain ⟨k1, k2⟩ := parIgn_extent hs hx
        refine ⟨k1, ?_, hu⟩
        intro z hz hh
        exact k2 (fun z' hz' => by rw [hz] at hz'; cases hz'; exact hh)
      cases hb : b with
      | nil =>
        rw [hb] at h3
        cases h3
        exact key _ _ rfl hb h4 (by simp)
      | cons y ys =>
        rw [hb] at h3
        simp only at h3
        cases hu : isSetextUnderline y with
        | true => rw [hu] at h3; cases h3
        | false =>
          rw [hu] at h3
          cases h3
          refine key _ _ rfl hb h4 ?_
          intro r hr; cases hr
          rw [underline_eq]; exact hu
  · -- heading with an underline
    simp only [splitSetext, bind, Except.bind] at h3
    cases hs : splitParIgn (splitQuote n) (l :: (ls ++ rest)) with
    | error e => rw [hs] at h3; cases h3
    | ok r =>
      obtain ⟨a, b⟩ := r
      rw [hs] at h3
      simp only at h3
      cases a with
      | nil => cases h3
      | cons p ps =>
        cases b with
        | nil => cases h3
        | cons y ys =>
          simp only at h3
          cases hu : isSetextUnderline y with
          | false => rw [hu] at h3; cases h3
          | true =>
            rw [hu] at h3
            have h3 := Except.ok.inj h3
            have e1 := congrArg Prod.fst h3
            simp only at e1
            exact ⟨p :: ps, y, e1.symm, (parIgn_extent hs (by simp)).1, by rw [underline_eq]; exact hu⟩
  · -- table
    have hp : isTableStart l = true := hp
    simp only [splitTable, hp, if_true] at h3
    obtain ⟨k, g1, g2, g3⟩ := tableLoop_extent (ls ++ rest) 0
    rw [g1, show 0 + 1 + k = k + 1 by omega, List.drop_succ_cons] at h3
    have h3 := Except.ok.inj h3
    have e1 := congrArg Prod.fst h3
    have e2 := congrArg Prod.snd h3
    simp only at e1 e2
    refine ⟨?_, by rw [← e2]; exact g3⟩
    intro x hx
    rw [← e1] at hx
    rcases List.mem_cons.1 hx with rfl | hx
    · rw [rowLine_eq]; exact hp
    · exact g2 x hx
  · have hp : isThematic l = true := hp
    simp only [splitThematic, hp, if_true] at h3
    cases h3
    rfl

/-- A document with sections of nine kinds; the list goes on over a heading, a fence and a line of text, and ends at the
table. The sections are the ones that the extents describe. -/
theorem C52_example :
    parse 4 [c!"- a", c!"# b", c!"```", c!"c", c!"| d |", c!"|---|", c!"> e", c!"f", c!"# g", c!"~~~ x", c!"~~", c!" ~~~ ",
      c!"    h", c!"", c!"    i", c!"j  ", c!"k", c!"---", c!"***"] =
    .ok [(.bullet, [c!"- a", c!"# b", c!"```", c!"c"]), (.table, [c!"| d |", c!"|---|"]), (.quote, [c!"> e", c!"f"]),
      (.atx, [c!"# g"]), (.fenced, [c!"~~~ x", c!"~~", c!" ~~~ "]), (.indented, [c!"    h", c!""]),
      (.indented, [c!"    i"]), (.par, [c!"j  "]), (.setext, [c!"k", c!"---"]), (.thematic, [c!"***"])] := by
  decide +kernel

end MF
