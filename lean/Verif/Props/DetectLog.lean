import Verif.Lemmas.DetectLog
import Verif.Props.Extents
import Verif.Props.Lrd
import Verif.Props.Kept
import Verif.Lemmas.Refs
/-!
# C70, C71, C72: log messages of section detection
-/

namespace MF

/-! ## Specification -/

/-- Lines `p` and `q` open and close a fenced block, and line `q` is indented more than three columns deeper than line
`p`. -/
def TooDeep (lines : List Str) (p q : Nat) : Prop :=
  ∃ o c, lines[p]? = some o ∧ lines[q]? = some c ∧ p < q ∧ fenceLine o = true ∧ strip c = fenceRun o ∧
    (∀ i l, p < i → i < q → lines[i]? = some l → strip l ≠ fenceRun o) ∧ 3 + getIndent o < getIndent c

/-- Line `s` has a label and nothing else, and line `s + 1` is empty, starts with a bracket, or does not exist. -/
def LinkMissing (lines : List Str) (s : Nat) : Prop :=
  ∃ ws name e, lines[s]? = some (ws ++ '[' :: (name ++ ']' :: ':' :: e)) ∧ (∀ c ∈ ws ++ e, isWs c = true) ∧
    ws.length < 4 ∧ name ≠ [] ∧ name.length ≤ 999 ∧ ']' ∉ name ∧
    ∀ l, lines[s + 1]? = some l → emptyLine l = true ∨ l.head? = some '['

/-- The parser gets to line `s` (counted from 0): the lines before it are divided into sections. -/
inductive Begins (n : Nat) (lines : List Str) : Nat → Prop
  | zero : Begins n lines 0
  | next (s : Nat) (ty : Sec) (content rest : List Str) (h : Begins n lines s) (hs : s < lines.length)
    (hf : firstSection (splitters (splitQuote n)) (lines.drop s) = .ok (ty, content, rest)) :
    Begins n lines (s + content.length)

/-- The lines that the parser is applied to while it divides `lines` into sections: the lines themselves, and, with their
quote marks removed, runs of lines that start with a quote mark. -/
inductive Analysed : Nat → List Str → Nat → List Str → Prop
  | self (n : Nat) (lines : List Str) : Analysed n lines n lines
  | quote (n : Nat) (pre : List Str) (l : Str) (ls post : List Str) (m k : Nat) (ex : List Str) (hl : quotedLine l = true)
    (hm : m ≤ n) (h : Analysed m ((l :: ls).map unquote) k ex) : Analysed n (pre ++ l :: (ls ++ post)) k ex

/-- The message is about these lines. -/
def About (n : Nat) (lines : List Str) : Msg → Prop
  | .found a b ty => ∃ s content rest, Begins n lines s ∧ s < lines.length ∧
      firstSection (splitters (splitQuote n)) (lines.drop s) = .ok (ty, content, rest) ∧ a = s + 1 ∧ b = s + content.length
  | .overIndented k =>
      (∃ s p q, Begins n lines s ∧ s ≤ p ∧ TooDeep lines p q ∧ k = q - s + 1) ∨
      ((∃ l ∈ lines, quotedLine l = true) ∧ ∃ p q, TooDeep lines p q ∧ k ≤ q + 1)
  | .noLink k => ∃ s, Begins n lines s ∧ LinkMissing lines s ∧ k = if s + 1 = lines.length then 0 else 1
  | _ => False

/-- The message is about lines that are analysed on the way. -/
def ParseMsg (n : Nat) (lines : List Str) (x : Msg) : Prop := ∃ m ex, Analysed n lines m ex ∧ About m ex x

/-- The message is loud enough for the loggers of the parser and the detectors. -/
def Loud (l : LogSt) : Msg → Prop
  | .found .. => DEBUG ≥ l.parent
  | .overIndented _ => WARNING ≥ l.parent
  | .noLink _ => WARNING ≥ l.parent
  | _ => False

/-! ## Messages of the detectors -/

theorem Adds.imp {α : Type} {Q Q' : LogSt → Msg → Prop} {m : LogM α} (h : Adds Q m) (hQ : ∀ l x, Q l x → Q' l x) :
    Adds Q' m := by
  intro s
  obtain ⟨h1, h2, h3, ms, h4, h5⟩ := h s
  exact ⟨h1, h2, h3, ms, h4, fun x hx => hQ _ _ (h5 x hx)⟩

/-- The message comes from reading the lines of a quote. -/
def FromQuote (n : Nat) (lines : List Str) (x : Msg) : Prop :=
  ∃ pre l ls post m, lines = pre ++ l :: (ls ++ post) ∧ quotedLine l = true ∧ m ≤ n ∧ ParseMsg m ((l :: ls).map unquote) x

/-- The messages of a splitter other than the one for definitions, called with `line_offset = o`. -/
def SplitMsg (n : Nat) (lines : List Str) (o : Nat) (x : Msg) : Prop :=
  (∃ p q k, x = .overIndented k ∧ TooDeep lines p q ∧ k = q + o + 1) ∨
  ((∃ l ∈ lines, quotedLine l = true) ∧ ∃ p q k, x = .overIndented k ∧ TooDeep lines p q ∧ k ≤ q + o + 1) ∨
  FromQuote n lines x

def Says (n : Nat) (lines : List Str) (o : Nat) (l : LogSt) (x : Msg) : Prop := Loud l x ∧ SplitMsg n lines o x

theorem TooDeep.append {lines : List Str} {p q : Nat} (pre : List Str) (h : TooDeep lines p q) :
    TooDeep (pre ++ lines) (pre.length + p) (pre.length + q) := by
  obtain ⟨o, c, h1, h2, h3, h4, h5, h6, h7⟩ := h
  have key : ∀ i, (pre ++ lines)[pre.length + i]? = lines[i]? := fun i => by
    rw [List.getElem?_append_right (Nat.le_add_right _ _), Nat.add_sub_cancel_left]
  refine ⟨o, c, (key p).trans h1, (key q).trans h2, by omega, h4, h5, fun i l hi hi' hl => ?_, h7⟩
  obtain ⟨j, rfl⟩ : ∃ j, i = pre.length + j := ⟨i - pre.length, by omega⟩
  rw [key] at hl
  exact h6 j l (by omega) (by omega) hl

theorem SplitMsg.shift {n : Nat} {l : Str} {ls : List Str} {o : Nat} {x : Msg} (h : SplitMsg n ls (o + 1) x) :
    SplitMsg n (l :: ls) o x := by
  rcases h with ⟨p, q, k, rfl, h1, h2⟩ | ⟨⟨y, hy, hy'⟩, p, q, k, rfl, h1, h2⟩ | ⟨pre, y, ys, post, m, h1, h2⟩
  · exact .inl ⟨_, _, _, rfl, h1.append [l], by simp only [List.length_singleton]; omega⟩
  · exact .inr (.inl ⟨⟨y, by simp [hy], hy'⟩, _, _, _, rfl, h1.append [l], by simp only [List.length_singleton]; omega⟩)
  · exact .inr (.inr ⟨l :: pre, y, ys, post, m, by rw [h1, List.cons_append], h2⟩)

theorem SplitMsg.weaken {n n' : Nat} {pre ls : List Str} {o o' : Nat} {x : Msg} (h : SplitMsg n ls o' x) (hn : n ≤ n')
    (ho : o' ≤ o + pre.length) (hq : ∃ l ∈ pre ++ ls, quotedLine l = true) : SplitMsg n' (pre ++ ls) o x := by
  rcases h with ⟨p, q, k, rfl, h1, h2⟩ | ⟨⟨y, hy, hy'⟩, p, q, k, rfl, h1, h2⟩ | ⟨pr, y, ys, post, m, h1, h2, h3, h4⟩
  · exact .inr (.inl ⟨hq, _, _, _, rfl, h1.append pre, by omega⟩)
  · exact .inr (.inl ⟨hq, _, _, _, rfl, h1.append pre, by omega⟩)
  · exact .inr (.inr ⟨pre ++ pr, y, ys, post, m, by rw [h1, List.append_assoc], h2, by omega, h4⟩)

theorem adds_fenceLoop (F : Str) (d o : Nat) (ls : List Str) : ∀ i, Adds
    (fun l x => Loud l x ∧ ∃ j c, ls[j]? = some c ∧ strip c = F ∧ (∀ a y, a < j → ls[a]? = some y → strip y ≠ F) ∧
      3 + d < getIndent c ∧ x = .overIndented (i + 1 + j + o + 1)) (fenceLoopL F d o i ls) := by
  induction ls with
  | nil => exact fun _ => adds_pure _
  | cons l ls ih =>
    intro i
    unfold fenceLoopL
    split
    · rename_i hl
      refine adds_bind (adds_ite fun hd => adds_other fun s hs => ⟨hs, 0, l, rfl, by simpa using hl, ?_, by simpa using hd,
        by simp⟩) fun _ _ => adds_pure _
      intro a y ha
      omega
    · rename_i hl
      refine adds_bind ((ih (i + 1)).imp fun st x hx => ?_) fun _ _ => adds_pure _
      obtain ⟨h0, j, c, h1, h2, h3, h4, rfl⟩ := hx
      refine ⟨h0, j + 1, c, h1, h2, fun a y ha hy => ?_, h4, by congr 1; omega⟩
      cases a with
      | zero => cases hy; simpa using hl
      | succ a => exact h3 a y (by omega) hy

theorem adds_fenced (n : Nat) (lines : List Str) (o : Nat) : Adds (Says n lines o) (splitFencedL lines o) := by
  cases lines with
  | nil => exact adds_lift _
  | cons l ls =>
    unfold splitFencedL
    dsimp only
    cases hF : openFence l with
    | none => exact adds_pure _
    | some F =>
      obtain rfl := openFence_run hF
      refine adds_bind ((adds_fenceLoop _ _ _ _ _).imp fun st x hx => ?_) fun _ _ => adds_pure _
      obtain ⟨h0, j, c, h1, h2, h3, h4, rfl⟩ := hx
      refine ⟨h0, .inl ⟨0, j + 1, _, rfl, ⟨l, c, rfl, h1, by omega, ?_, h2, fun i y hi hi' hy => ?_, h4⟩, by omega⟩⟩
      · rw [fenceLine_eq]
        cases hb : isFenceStart l with
        | true => rfl
        | false => rw [(openFence_none l).2 hb] at hF; cases hF
      · cases i with
        | zero => omega
        | succ i => exact h3 i y (by omega) hy

theorem adds_quiet {Q : LogSt → Msg → Prop} (f : List Str → Split) (lines : List Str) (o : Nat) : Adds Q (quiet f lines o) :=
  adds_lift _

theorem adds_any {Q : LogSt → Msg → Prop} {lines : List Str} {o : Nat} {fs : List (List Str → Nat → SplitL)}
    (h : ∀ f ∈ fs, Adds Q (f lines o)) : Adds Q (anySplitsL lines o fs) := by
  induction fs with
  | nil => exact adds_pure _
  | cons f fs ih =>
    refine adds_bind (h f (by simp)) fun r _ => ?_
    split
    · exact adds_pure _
    · exact ih fun f hf => h f (by simp [hf])

section
variable {n : Nat} {sbq : List Str → Nat → SplitL} (hs : ∀ lines o, Adds (Says n lines o) (sbq lines o))
include hs

theorem adds_parCont (lines : List Str) (o : Nat) : Adds (Says n lines o) (isParContL sbq lines o) := by
  refine adds_bind (adds_any ?_) fun b _ => ?_
  · simp only [List.mem_cons, List.not_mem_nil, or_false]
    rintro f (rfl | rfl | rfl | rfl | rfl | rfl | rfl | rfl)
    · exact adds_quiet _ _ _
    · exact adds_quiet _ _ _
    · exact hs _ _
    · exact adds_quiet _ _ _
    · exact adds_fenced _ _ _
    · exact adds_quiet _ _ _
    · exact adds_quiet _ _ _
    · exact adds_quiet _ _ _
  · split
    · exact adds_pure _
    · cases lines with
      | nil => exact adds_lift _
      | cons l ls =>
        dsimp only
        split
        · exact adds_pure _
        · exact adds_pure _

theorem adds_parLoop (ls : List Str) : ∀ o, Adds (Says n ls o) (parLoopL sbq o ls) := by
  induction ls with
  | nil => exact fun _ => adds_pure _
  | cons l ls ih =>
    intro o
    refine adds_bind (adds_parCont hs _ _) fun b _ => ?_
    split
    · split
      · cases ls with
        | nil => exact adds_lift _
        | cons => exact adds_pure _
      · exact adds_bind ((ih (o + 1)).imp fun st x hx => ⟨hx.1, hx.2.shift⟩) fun _ _ => adds_pure _
    · exact adds_pure _

theorem adds_parIgn (lines : List Str) (o : Nat) : Adds (Says n lines o) (splitParIgnL sbq lines o) := by
  cases lines with
  | nil => exact adds_lift _
  | cons l ls =>
    unfold splitParIgnL
    dsimp only
    split
    · split
      · exact adds_pure _
      · exact adds_bind ((adds_parLoop hs ls (o + 1)).imp fun st x hx => ⟨hx.1, hx.2.shift⟩) fun _ _ => adds_pure _
    · exact adds_pure _

theorem adds_par (lines : List Str) (o : Nat) : Adds (Says n lines o) (splitParL sbq lines o) := by
  refine adds_bind (adds_parIgn hs lines o) fun r _ => ?_
  obtain ⟨a, b⟩ := r
  cases b with
  | nil => exact adds_pure _
  | cons l ls =>
    dsimp only
    split
    · exact adds_pure _
    · exact adds_pure _

theorem adds_setext (lines : List Str) (o : Nat) : Adds (Says n lines o) (splitSetextL sbq lines o) := by
  refine adds_bind (adds_parIgn hs lines o) fun r _ => ?_
  obtain ⟨a, b⟩ := r
  cases a with
  | nil => exact adds_pure _
  | cons p ps =>
    cases b with
    | nil => exact adds_pure _
    | cons l ls =>
      dsimp only
      split
      · exact adds_pure _
      · exact adds_pure _

end

/-- The message of the splitter for definitions. -/
def LinkMsg (lines : List Str) (x : Msg) : Prop := LinkMissing lines 0 ∧ x = .noLink (if lines.length = 1 then 0 else 1)

theorem splitMax1_nil_all {s : Str} (h : splitMax1 s = []) : ∀ c ∈ s, isWs c = true := by
  have : lstrip s = [] := by
    unfold splitMax1 at h
    split at h
    · assumption
    · split at h <;> cases h
  intro c hc
  obtain ⟨t, ht, hall⟩ := lstrip_split s
  rw [this, List.append_nil] at ht
  rw [ht] at hc
  exact hall c hc

theorem adds_lrd (lines : List Str) (o : Nat) : Adds (fun l x => Loud l x ∧ LinkMsg lines x) (splitLrdL lines o) := by
  cases lines with
  | nil => exact adds_lift _
  | cons l0 tail =>
    unfold splitLrdL
    dsimp only
    by_cases hi : getIndent l0 ≥ 4
    · rw [if_pos hi]; exact adds_pure _
    · rw [if_neg hi]
      cases hm : lrdFirstRx.match? (lstrip l0) with
      | none => exact adds_pure _
      | some m =>
        dsimp only
        rcases hsp : splitMax1 ((lstrip l0).drop m.stop) with _ | ⟨a, _ | ⟨b, _ | ⟨c, r⟩⟩⟩
        · dsimp only
          split
          · rename_i hc
            refine adds_bind (adds_other fun s hs => ⟨hs, ?_, ?_⟩) fun _ _ => adds_pure _
            · obtain ⟨name, r, h1, h2, h3, h4⟩ := lrdFirst_shape hm
              obtain ⟨m', h5, h6⟩ := lrdFirst_intro (r := r) h2 h3 h4
              rw [← h1, hm] at h5
              cases h5
              obtain ⟨ws, hws, hall⟩ := lstrip_split l0
              have hr : (lstrip l0).drop m.stop = r := by
                rw [h1, h6, show '[' :: (name ++ ']' :: ':' :: r) = ('[' :: (name ++ [']', ':'])) ++ r by simp]
                exact List.drop_left' (by simp)
              rw [hr] at hsp
              refine ⟨ws, name, r, ?_, ?_, ?_, h2, h3, h4, ?_⟩
              · rw [← h1, ← hws]; rfl
              · intro c hc
                rcases List.mem_append.1 hc with hc | hc
                · exact hall c hc
                · exact splitMax1_nil_all hsp c hc
              · have h7 := congrArg List.length hws
                rw [List.length_append] at h7
                unfold getIndent at hi
                omega
              · intro l hl
                cases tail with
                | nil => cases hl
                | cons y ys =>
                  have hl : some y = some l := hl
                  cases hl
                  simp only [List.headD_cons, Bool.or_eq_true] at hc
                  rcases hc with hc | hc
                  · obtain ⟨r, rfl⟩ := (startsWith_single _ _).1 hc
                    exact .inr rfl
                  · refine .inl ?_
                    rw [emptyLine_eq]
                    exact hc
            · cases tail with
              | nil => rfl
              | cons => rfl
          · rcases splitMax1 (tail.headD []) with _ | ⟨a, _ | ⟨b, r⟩⟩
            · exact adds_lift _
            · dsimp only
              cases tail.drop 1 with
              | nil => exact adds_lift _
              | cons => exact adds_lift _
            · exact adds_lift _
        · cases tail with
          | nil => exact adds_lift _
          | cons => exact adds_lift _
        · exact adds_lift _
        · exfalso
          unfold splitMax1 at hsp
          split at hsp
          · cases hsp
          · split at hsp <;> cases hsp

/-- The messages of looking for one section at the start of the lines. -/
def FirstMsg (n : Nat) (lines : List Str) (l : LogSt) (x : Msg) : Prop := Loud l x ∧ (SplitMsg n lines 0 x ∨ LinkMsg lines x)

theorem adds_first {Q : LogSt → Msg → Prop} {l : Str} {ls : List Str} :
    ∀ {fs : List (Sec × (List Str → Nat → SplitL))} {gs : List (Sec × (List Str → Split))}
    (_ : fs.length = gs.length) (_ : ∀ x ∈ (fs.map (·.2)).zip (gs.map (·.2)), ErasesAll x.1 x.2)
    (_ : ∀ g ∈ gs, Keeps g.2) (_ : ∀ f ∈ fs, Adds Q (f.2 (l :: ls) 0)), Adds Q (firstSectionL fs (l :: ls))
  | [], [], _, _, _, _ => adds_lift _
  | (ty, f) :: fs, (ty', g) :: gs, hl, he, hk, ha => by
    refine adds_bind (ha (ty, f) (by simp)) fun r hr => ?_
    obtain ⟨s, hr⟩ := hr
    split
    · exact adds_pure _
    · rename_i hne
      have h1 : g (l :: ls) = .ok r := ((he (f, g) (by simp)) (l :: ls) 0 s).symm.trans hr
      have h2 := hk (ty', g) (by simp) l ls r.1 r.2 h1
      have h3 : r.1 = [] := by simpa using hne
      rw [h3, List.nil_append] at h2
      rw [h2]
      exact adds_first (by simpa using hl) (fun x hx => he x (by simp [hx])) (fun g hg => hk g (by simp [hg]))
        fun f hf => ha f (by simp [hf])
  | [], _ :: _, hl, _, _, _ => by cases hl
  | _ :: _, [], hl, _, _, _ => by cases hl

theorem splitters_paired {sbqL : List Str → Nat → SplitL} {sbq : List Str → Split} (he : ErasesAll sbqL sbq) :
    ∀ x ∈ ((splittersL sbqL).map (·.2)).zip ((splitters sbq).map (·.2)), ErasesAll x.1 x.2 := by
  simp only [splittersL, splitters, List.map_cons, List.map_nil, List.zip_cons_cons, List.zip_nil_right, List.mem_cons,
    List.not_mem_nil, or_false]
  rintro x (rfl | rfl | rfl | rfl | rfl | rfl | rfl | rfl | rfl | rfl | rfl | rfl)
  · exact erases_quiet _
  · exact erases_quiet _
  · exact he
  · exact erases_quiet _
  · exact erases_fenced
  · exact erases_quiet _
  · exact erases_lrd
  · exact erases_quiet _
  · exact erases_par he
  · exact erases_setext he
  · exact erases_quiet _
  · exact erases_quiet _

section
variable {n : Nat} (hs : ∀ lines o, Adds (Says n lines o) (splitQuoteL n lines o))
include hs

theorem adds_section_at (l : Str) (ls : List Str) :
    Adds (FirstMsg n (l :: ls)) (firstSectionL (splittersL (splitQuoteL n)) (l :: ls)) := by
  refine adds_first (gs := splitters (splitQuote n)) rfl (splitters_paired (erases_quote n)) (splitters_keep n) ?_
  have says : ∀ {m : SplitL}, Adds (Says n (l :: ls) 0) m → Adds (FirstMsg n (l :: ls)) m :=
    fun h => h.imp fun _ _ hx => ⟨hx.1, .inl hx.2⟩
  simp only [splittersL, List.mem_cons, List.not_mem_nil, or_false]
  rintro f (rfl | rfl | rfl | rfl | rfl | rfl | rfl | rfl | rfl | rfl | rfl | rfl)
  · exact adds_lift _
  · exact adds_lift _
  · exact says (hs _ _)
  · exact adds_lift _
  · exact says (adds_fenced _ _ _)
  · exact adds_lift _
  · exact (adds_lrd _ _).imp fun _ _ hx => ⟨hx.1, .inr hx.2⟩
  · exact adds_lift _
  · exact says (adds_par hs _ _)
  · exact says (adds_setext hs _ _)
  · exact adds_lift _
  · exact adds_lift _

omit hs in
theorem FirstMsg.about {lines : List Str} {s : Nat} {st : LogSt} {x : Msg} (hb : Begins n lines s) (hlt : s < lines.length)
    (h : FirstMsg n (lines.drop s) st x) : ParseMsg n lines x := by
  have e : lines.take s ++ lines.drop s = lines := List.take_append_drop _ _
  have hlen : (lines.take s).length = s := by rw [List.length_take]; omega
  rcases h.2 with (⟨p, q, k, rfl, h1, h2⟩ | ⟨⟨y, hy, hy'⟩, p, q, k, rfl, h1, h2⟩ | ⟨pre, y, ys, post, m, h1, h2, h3, m', ex, h4, h5⟩) | ⟨h1, rfl⟩
  · have h3 := h1.append (lines.take s)
    rw [e, hlen] at h3
    exact ⟨n, lines, .self _ _, .inl ⟨s, _, _, hb, Nat.le_add_right _ _, h3, by omega⟩⟩
  · have h3 := h1.append (lines.take s)
    rw [e, hlen] at h3
    exact ⟨n, lines, .self _ _, .inr ⟨⟨y, List.mem_of_mem_drop hy, hy'⟩, _, _, h3, by omega⟩⟩
  · refine ⟨m', ex, ?_, h5⟩
    rw [← e, h1, ← List.append_assoc]
    exact .quote n _ y ys post m m' ex h2 h3 h4
  · obtain ⟨ws, name, r, g1, g2, g3, g4, g5, g6, g7⟩ := h1
    refine ⟨n, lines, .self _ _, s, hb, ⟨ws, name, r, ?_, g2, g3, g4, g5, g6, fun l hl => g7 l ?_⟩, ?_⟩
    · rw [← g1, List.getElem?_drop, Nat.add_zero]
    · rw [List.getElem?_drop, Nat.zero_add]; exact hl
    · rw [List.length_drop]
      congr 1
      exact propext ⟨fun _ => by omega, fun _ => by omega⟩

theorem adds_parseLoop (lines : List Str) (fuel : Nat) : ∀ s, Begins n lines s →
    Adds (fun l x => Loud l x ∧ ParseMsg n lines x) (parseLoopL (splitQuoteL n) fuel (s + 1) (lines.drop s)) := by
  induction fuel with
  | zero =>
    intro s _
    cases hd : lines.drop s with
    | nil => exact adds_pure _
    | cons => exact adds_lift _
  | succ fuel ih =>
    intro s hb
    cases hd : lines.drop s with
    | nil => exact adds_pure _
    | cons l ls =>
      have hlt : s < lines.length := by
        have := congrArg List.length hd
        rw [List.length_drop, List.length_cons] at this
        omega
      have h1 := adds_section_at hs l ls
      rw [← hd] at h1
      refine adds_bind (hd ▸ h1.imp fun st x hx => ⟨hx.1, hx.about hb hlt⟩) fun r hr => ?_
      obtain ⟨s0, hr⟩ := hr
      have hf : firstSection (splitters (splitQuote n)) (l :: ls) = .ok r :=
        (erases_splitters (erases_quote n) (l :: ls) s0).symm.trans hr
      obtain ⟨ty, c, rest⟩ := r
      obtain ⟨hk, hne, _⟩ := firstSection_keeps (splitters_keep n) hf
      rw [← hd] at hf hk
      refine adds_bind (adds_other fun s1 hs1 => ⟨hs1, n, lines, .self _ _, s, c, rest, hb, hlt, hf, rfl, ?_⟩) fun _ _ => ?_
      · show s + 1 + c.length - 1 = _
        omega
      · have e : rest = lines.drop (s + c.length) := by
          rw [← List.drop_drop, ← hk, List.drop_left]
        have := ih (s + c.length) (.next s ty c rest hb hlt hf)
        rw [← e, show s + c.length + 1 = s + 1 + c.length by omega] at this
        exact adds_bind this fun _ _ => adds_pure _

theorem adds_parseWith (lines : List Str) :
    Adds (fun l x => Loud l x ∧ ParseMsg n lines x) (parseWithL (splitQuoteL n) lines) :=
  adds_parseLoop hs lines _ 0 .zero

omit hs in
theorem loud_info {l : LogSt} {x : Msg} {i : Nat} (h : Loud { l with info := i } x) : Loud l x := by
  cases x <;> exact h

theorem adds_ends (k : Nat) : ∀ lines, Adds (fun l x => Loud l x ∧ ParseMsg n (lines.map unquote) x)
    (endsWithParL (parseWithL (splitQuoteL n)) k lines) := by
  induction k with
  | zero => exact fun _ => adds_lift _
  | succ k ih =>
    intro lines
    refine adds_bind (adds_redirected (Q' := fun l x => Loud l x ∧ ParseMsg n (lines.map unquote) x)
      (adds_bind (adds_parseWith hs _) fun secs _ => ?_) fun l x hx => ⟨loud_info hx.1, hx.2⟩) fun r hr => ?_
    · cases secs.getLast? with
      | none => exact adds_lift _
      | some => exact adds_pure _
    · obtain ⟨ty, content⟩ := r
      cases ty with
      | quote =>
        refine (ih content).imp fun l x hx => ⟨hx.1, ?_⟩
        obtain ⟨s, hr⟩ := hr
        have h1 : Erases (redirected do
            let secs ← parseWithL (splitQuoteL n) (lines.map unquote)
            match secs.getLast? with
            | none => lift (.error .indexError)
            | some s => pure s) ((parse n (lines.map unquote)).bind fun secs =>
              match secs.getLast? with
              | none => .error .indexError
              | some s => .ok s) := by
          refine erases_redirected (erases_bind (erases_parse n _) fun secs _ => ?_)
          cases secs.getLast? with
          | none => exact erases_lift _
          | some s => exact erases_pure _
        have h2 := (h1 s).symm.trans hr
        cases hp : parse n (lines.map unquote) with
        | error e => rw [hp] at h2; cases h2
        | ok secs =>
          rw [hp] at h2
          simp only [Except.bind] at h2
          cases hl : secs.getLast? with
          | none => rw [hl] at h2; cases h2
          | some z =>
            rw [hl] at h2
            cases h2
            obtain ⟨pre, rfl⟩ := List.getLast?_eq_some_iff.1 hl
            obtain ⟨hflat, hne⟩ := C08_parse_partition n _ _ hp
            obtain ⟨y, ys, rfl⟩ := List.exists_cons_of_ne_nil (hne (Sec.quote, content) (by simp))
            have hq := (parse_headPred hp (s := (Sec.quote, y :: ys)) (by simp)).2 y rfl
            obtain ⟨m, ex, h3, h4⟩ := hx.2
            refine ⟨m, ex, ?_, h4⟩
            have e : lines.map unquote = (pre.map (·.2)).flatten ++ y :: (ys ++ []) := by
              rw [← hflat]; simp
            rw [e]
            refine .quote n _ y ys [] n m ex ?_ (Nat.le_refl _) h3
            rw [quotedLine_eq]
            exact hq
      | _ => exact adds_pure _

theorem adds_quoteCont (lines : List Str) (o : Nat) : Adds (Says n lines o) (isQuoteContL (splitQuoteL n) lines o) := by
  have red : ∀ {m : SplitL}, Adds (Says n lines o) m → Adds (Says n lines o) (redirected m) :=
    fun h => adds_redirected h fun _ _ hx => ⟨loud_info hx.1, hx.2⟩
  refine adds_bind (adds_any ?_) fun b _ => ?_
  · simp only [List.map_cons, List.map_nil, List.mem_cons, List.not_mem_nil, or_false]
    rintro f (rfl | rfl | rfl | rfl | rfl | rfl | rfl | rfl)
    · exact red (adds_quiet _ _ _)
    · exact red (adds_quiet _ _ _)
    · exact red (adds_quiet _ _ _)
    · exact red (adds_fenced _ _ _)
    · exact red (adds_quiet _ _ _)
    · exact red (adds_setext hs _ _)
    · exact red (adds_quiet _ _ _)
    · exact red (adds_quiet _ _ _)
  · split
    · exact adds_pure _
    · cases lines with
      | nil => exact adds_lift _
      | cons l ls =>
        dsimp only
        split
        · exact adds_pure _
        · exact adds_pure _

theorem adds_contLoop (ls : List Str) : ∀ b o, Adds (Says n ls o) (contLoopL (splitQuoteL n) b o ls) := by
  induction ls with
  | nil => exact fun _ _ => adds_pure _
  | cons l ls ih =>
    intro b o
    refine adds_bind (adds_quoteCont hs _ _) fun c _ => ?_
    split
    · split
      · exact adds_pure _
      · exact adds_bind ((ih _ (o + 1)).imp fun st x hx => ⟨hx.1, hx.2.shift⟩) fun _ _ => adds_pure _
    · exact adds_pure _

theorem adds_quoteLoop (whole : List Str) (o k : Nat) (fuel : Nat) : ∀ o' bq lines, whole = bq ++ lines →
    (∀ y, bq.head? = some y → quotedLine y = true) → o' ≤ o + bq.length →
    Adds (Says (n + 1) whole o)
      (quoteLoopL (endsWithParL (parseWithL (splitQuoteL n)) k) (splitQuoteL n) fuel o' bq lines) := by
  induction fuel with
  | zero => exact fun _ _ _ _ _ _ => adds_lift _
  | succ fuel ih =>
    intro o' bq lines hw hq ho
    cases lines with
    | nil => exact adds_pure _
    | cons l ls =>
      unfold quoteLoopL
      split
      · exact adds_pure _
      · rename_i hl
        have hl : isQuote l = true := by simpa using hl
        have e : (l :: ls).takeWhile isQuote ++ (l :: ls).dropWhile isQuote = l :: ls := List.takeWhile_append_dropWhile
        have e2 : (l :: ls).takeWhile isQuote = l :: ls.takeWhile isQuote := by rw [List.takeWhile_cons, if_pos hl]
        have hw' : whole = (bq ++ (l :: ls).takeWhile isQuote) ++ (l :: ls).dropWhile isQuote := by
          rw [List.append_assoc, e, hw]
        obtain ⟨y, ys, hy, hy'⟩ : ∃ y ys, bq ++ (l :: ls).takeWhile isQuote = y :: ys ∧ quotedLine y = true := by
          cases bq with
          | nil => exact ⟨l, _, by rw [e2]; rfl, by rw [quotedLine_eq]; exact hl⟩
          | cons z zs => exact ⟨z, _, rfl, hq z rfl⟩
        have hmem : ∃ z ∈ whole, quotedLine z = true := ⟨y, by rw [hw', hy]; simp, hy'⟩
        refine adds_bind ((adds_ends hs k _).imp fun st x hx => ⟨hx.1, .inr (.inr ?_)⟩) fun b _ => ?_
        · refine ⟨[], y, ys, (l :: ls).dropWhile isQuote, n, ?_, hy', Nat.le_succ _, hy ▸ hx.2⟩
          rw [hw', hy]; rfl
        · cases b with
          | false => exact adds_pure _
          | true =>
            rw [if_pos rfl]
            refine adds_bind ((adds_contLoop hs _ _ _).imp fun st x hx => ⟨hx.1, ?_⟩) fun r hr => ?_
            · have := hx.2.weaken (n' := n + 1) (o := o) (pre := bq ++ (l :: ls).takeWhile isQuote) (Nat.le_succ _)
                (by rw [List.length_append]; omega) (by rw [← hw']; exact hmem)
              rwa [← hw'] at this
            · obtain ⟨s, hr⟩ := hr
              have h1 : contLoop (splitQuote n) true ((l :: ls).dropWhile isQuote) = .ok r :=
                (erases_contLoop (erases_quote n) _ true o' s).symm.trans hr
              have h2 := contLoop_keeps _ _ _ _ _ h1
              refine ih _ _ _ ?_ ?_ ?_
              · rw [List.append_assoc, h2, ← hw']
              · rw [hy]
                intro z hz
                cases hz
                exact hy'
              · simp only [List.length_append] at ho ⊢
                omega

end

theorem adds_quote (n : Nat) : ∀ lines o, Adds (Says n lines o) (splitQuoteL n lines o) := by
  induction n with
  | zero => exact fun _ _ => adds_lift _
  | succ n ih => exact fun lines o => adds_quoteLoop ih lines o n _ o [] lines rfl (by simp) (by simp)

theorem adds_parse (n : Nat) (lines : List Str) : Adds (fun l x => Loud l x ∧ ParseMsg n lines x) (parseL n lines) :=
  adds_parseWith (adds_quote n) lines

end MF
