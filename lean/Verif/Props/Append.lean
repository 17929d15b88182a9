import Verif.Model.Append
import Verif.Props.Kept
/-!
# C69: building formatters line by line
-/

namespace MF

/-- Kinds of sections that have exactly one line. -/
def OneLine (ty : Sec) : Prop := ty = .atx ∨ ty = .thematic ∨ ty = .blank

theorem appendLine_ok {ty : Sec} {lines : List Str} {l : Str} {r : List Str} :
    appendLine ty lines l = .ok r ↔
      ty ≠ .ordered ∧ r = lines ++ [l] ∧ (OneLine ty → lines = []) ∧ (ty = .blank → ∀ c ∈ l, isWs c = true) := by
  have hb : ((strip l).isEmpty = true ↔ ∀ c ∈ l, isWs c = true) := by
    rw [List.isEmpty_iff, strip_eq_nil]
  have hcomm : ∀ x : List Str, (Except.ok (ε := AppendErr) (lines ++ [l]) = .ok x) ↔ x = lines ++ [l] :=
    fun x => ⟨fun h => by cases h; rfl, fun h => by rw [h]⟩
  cases ty <;> simp only [appendLine, OneLine]
  case blank =>
    by_cases h1 : (strip l).isEmpty = true
    · cases lines with
      | nil =>
        have h2 := hb.1 h1
        simp only [h1, Bool.not_true, Bool.false_eq_true, if_false, List.isEmpty_nil]
        exact ⟨fun h => ⟨by decide, (hcomm r).1 h, fun _ => trivial, fun _ => h2⟩, fun h => (hcomm r).2 h.2.1⟩
      | cons a as => simp [h1]
    · have h2 := fun h => h1 (hb.2 h)
      simp only [h1]
      simp
      intro _ _
      simpa using h2
  case atx | thematic =>
    cases lines with
    | nil => simp; exact eq_comm
    | cons a as => simp
  all_goals simp [hcomm]

/-- C69: adding lines to a formatter raises in exactly these cases: an ordered list, a second line of a heading or
thematic break, a second blank line, and a line that is not blank added to a blank line. Otherwise the formatter has the
given lines, in order. -/
theorem C69_append (ty : Sec) (content : List Str) : ∀ lines r,
    appendLines ty lines content = .ok r ↔
      r = lines ++ content ∧ (ty = .ordered → content = []) ∧ (OneLine ty → content = [] ∨ (lines = [] ∧ content.length = 1)) ∧
      (ty = .blank → ∀ l ∈ content, ∀ c ∈ l, isWs c = true) := by
  induction content with
  | nil =>
    intro lines r
    simp only [appendLines, List.append_nil, true_or, implies_true, List.not_mem_nil, false_implies, and_true]
    exact ⟨fun h => by cases h; rfl, fun h => by rw [h]⟩
  | cons l ls ih =>
    intro lines r
    simp only [appendLines, bind, Except.bind]
    constructor
    · intro h
      split at h
      · cases h
      · rename_i lines' h1
        obtain ⟨hne, rfl, h2, h3⟩ := appendLine_ok.1 h1
        obtain ⟨rfl, _, h4, h5⟩ := (ih _ _).1 h
        refine ⟨by simp, fun h0 => absurd h0 hne, fun h0 => .inr ⟨h2 h0, ?_⟩, fun h0 x hx => ?_⟩
        · rcases h4 h0 with h6 | ⟨h6, _⟩
          · simp [h6]
          · simp at h6
        · rcases List.mem_cons.1 hx with rfl | hx
          · exact h3 h0
          · exact h5 h0 x hx
    · rintro ⟨rfl, hno, h2, h3⟩
      have h1 : appendLine ty lines l = .ok (lines ++ [l]) := by
        refine appendLine_ok.2 ⟨fun h0 => (by cases hno h0), rfl, fun h0 => ?_, fun h0 => h3 h0 l (by simp)⟩
        rcases h2 h0 with h4 | h4
        · cases h4
        · exact h4.1
      rw [h1]
      refine (ih _ _).2 ⟨by simp, fun h0 => (by cases hno h0), fun h0 => .inl ?_, fun h0 x hx => h3 h0 x (by simp [hx])⟩
      rcases h2 h0 with h4 | h4
      · cases h4
      · simpa using h4.2

/-- Every section found by the parser can be built line by line. False: see `C69_refuted`. -/
def C69_statement : Prop := ∀ (n : Nat) (lines : List Str) (secs : List (Sec × List Str)), parse n lines = .ok secs →
  ∀ s ∈ secs, appendLines s.1 newLines s.2 = .ok s.2

/-- Ordered lists have no `append`. -/
theorem C69_refuted : ¬ C69_statement := fun h => by
  have := h 3 [c!"1. a"] [(.ordered, [c!"1. a"])] (by decide +kernel) (.ordered, [c!"1. a"]) (by simp)
  exact absurd this (by decide)

/-- C69: a section found by the parser can be added line by line to an empty formatter of its kind, which then has the
same lines and so formats to the same text. -/
theorem C69_sections_partial (n : Nat) (lines : List Str) (secs : List (Sec × List Str)) (h : parse n lines = .ok secs)
    (s : Sec × List Str) (hs : s ∈ secs) (hno : s.1 ≠ .ordered) : appendLines s.1 newLines s.2 = .ok s.2 := by
  obtain ⟨h1, h2⟩ := parse_headPred h hs
  refine (C69_append _ _ _ _).2 ⟨rfl, fun h0 => absurd h0 hno, fun h0 => .inr ⟨rfl, h1 ?_⟩, fun h0 l hl => ?_⟩
  · rcases h0 with h0 | h0 | h0
    · exact .inl h0
    · exact .inr (.inr h0)
    · exact .inr (.inl h0)
  · have hlen := h1 (.inr (.inl h0))
    obtain ⟨x, hx⟩ := List.length_eq_one_iff.1 hlen
    rw [hx] at hl h2
    have := h2 x rfl
    rw [h0] at this
    rw [List.mem_singleton.1 hl]
    have hb : isBlankLine x = true := this
    exact (strip_eq_nil x).1 (List.isEmpty_iff.1 hb)

/-- Sections of one and of more lines; a second heading line is refused. -/
theorem C69_example :
    appendLines .quote newLines [c!"> a", c!"b"] = .ok [c!"> a", c!"b"] ∧
    appendLines .blank newLines [c!" \t"] = .ok [c!" \t"] ∧
    appendLines .atx newLines [c!"# a", c!"# b"] = .error .runtime ∧
    appendLines .blank newLines [c!"a"] = .error .runtime := by
  decide +kernel

end MF
