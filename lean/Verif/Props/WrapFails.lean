import Verif.Lemmas.Pieces
import Verif.Props.Wrap
/-!
# C89: when exactly wrapping fails
-/

namespace MF

/-- C89: exactly when `wrap` fails, for every text: it raises an `IndexError`, and does so if and only if the text has no
backticks and starts with a single period, or some stretch of text between code spans starts with a single period (one
that does not follow a code span directly) and has no link. -/
theorem C89_exact {text : Str} {ps : List Str} (width : Width) (e : Err) (hp : Pieces false (wrapInput text) ps) :
    wrap text width = .error e ↔ e = .indexError ∧
      (('`' ∉ wrapInput text ∧ startsSingleDot (wrapInput text) = true) ∨
        ∃ p ∈ ps, startsSingleDot p = true ∧ ¬ HasLink p) := by
  rw [← wrapToks_fails hp]
  simp only [wrap, bind, Except.bind]
  cases wrapToks (wrapInput text) <;> simp

/-- The stretches exist for every text, so `C89_exact` decides every text. -/
theorem C89_total (text : Str) : ∃ ps, Pieces false (wrapInput text) ps := pieces_total _ _

/-- Whether wrapping fails does not depend on the width. -/
theorem C89_width {text : Str} {w w' : Width} {e : Err} : wrap text w = .error e ↔ wrap text w' = .error e := by
  obtain ⟨ps, hp⟩ := C89_total text
  rw [C89_exact w e hp, C89_exact w' e hp]

/-- A period behind a space behind a code span makes `wrap` fail; a link in that stretch of text prevents it, and a
period directly behind the code span does no harm. -/
theorem C89_example :
    Pieces false (wrapInput c!"see `a` .b\nhere") [c!"see", c!".b here"] ∧
    wrap c!"see `a` .b\nhere" (.fin 80) = .error .indexError ∧
    Pieces false (wrapInput c!"see `a` .b [c](d)") [c!"see", c!".b [c](d)"] ∧ HasLink c!".b [c](d)" ∧
    wrap c!"see `a` .b [c](d)" (.fin 80) = .ok c!"see `a` .b [c](d)" ∧
    Pieces false (wrapInput c!"`a`.b") [[], c!"b"] ∧ wrap c!"`a`.b" (.fin 80) = .ok c!"`a`.b" := by
  have hrun : ¬ HasRun 1 c!"a" := by
    rintro ⟨a, b, h, _⟩
    have hc := congrArg (List.count '`') h
    simp [ticks] at hc
  refine ⟨?_, by decide +kernel, ?_, ?_, by decide +kernel, ?_, by decide +kernel⟩
  · rw [show wrapInput c!"see `a` .b\nhere" = c!"see `a` .b here" by decide +kernel]
    exact .span (a := c!"see ") (body := c!"a") (rest := c!" .b here") (k := 1) (ps := [c!".b here"]) (by decide) (by decide)
      (by decide) (by decide) (by decide) hrun (by decide) (.none (by decide))
  · rw [show wrapInput c!"see `a` .b [c](d)" = c!"see `a` .b [c](d)" by decide +kernel]
    exact .span (a := c!"see ") (body := c!"a") (rest := c!" .b [c](d)") (k := 1) (ps := [c!".b [c](d)"]) (by decide)
      (by decide) (by decide) (by decide) (by decide) hrun (by decide) (.none (by decide))
  · exact ⟨c!".b ", c!"c", c!"d", [], '(', ')', .inl ⟨rfl, rfl⟩, rfl, by decide, by decide, by decide, by decide⟩
  · rw [show wrapInput c!"`a`.b" = c!"`a`.b" by decide +kernel]
    exact .span (a := []) (body := c!"a") (rest := c!".b") (k := 1) (ps := [c!"b"]) (by decide) (by decide)
      (by decide) (by decide) (by decide) hrun (by decide) (.none (by decide))

end MF
