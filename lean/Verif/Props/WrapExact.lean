import Verif.Lemmas.LinkRef
/-!
# C118: what wrapping does to any text

C27, C41, C94 and others say what wrapping keeps or where the lines end for texts of some kind. Here it is what comes out
for every text and every width, errors included, against a reference that uses no regular expressions
(`Verif.Props.WrapRef`).
-/

namespace MF

/-- C118: wrapping is the reference. -/
theorem C118_wrap (text : Str) (w : Width) : wrap text w = wrapRef text w := wrap_ref text w

/-- C118: the pieces that are put into lines are those of the reference, in the same order and with the same spaces in
front. -/
theorem C118_pieces (text : Str) : wrapToks (wrapInput text) = (do
    let bs ← codePieces false (wrapInput text)
    let bs ← refine linkPieces bs
    let bs ← refine (fun l s => .ok (brPieces l s)) bs
    let bs ← refine (fun l s => .ok (wordPieces l s)) bs
    .ok (toToks bs)) := by
  unfold wrapToks
  rw [show (⟨[wrapInput text], [false], [true]⟩ : Toks) = toToks [⟨false, wrapInput text, true⟩] from rfl,
    splitPass_ref (f := codePieces) (fun l s => codeSplit_ref s l)]
  have hone : refine codePieces [⟨false, wrapInput text, true⟩] = codePieces false (wrapInput text) := by
    simp only [refine, if_true, bind, Except.bind]
    cases codePieces false (wrapInput text) <;> simp
  rw [hone]
  simp only [bind, Except.bind]
  cases codePieces false (wrapInput text) with
  | error e => rfl
  | ok b1 =>
    simp only [Except.map]
    rw [splitPass_ref (f := linkPieces) (fun l s => linkSplit_ref s l)]
    cases refine linkPieces b1 with
    | error e => rfl
    | ok b2 =>
      simp only [Except.map]
      rw [splitPass_ref (f := fun l s => .ok (brPieces l s)) (fun l s => newlineSplit_ref s l)]
      cases refine (fun l s => .ok (brPieces l s)) b2 with
      | error e => rfl
      | ok b3 =>
        simp only [Except.map]
        rw [splitPass_ref (f := fun l s => .ok (wordPieces l s)) (fun l s => spaceSplit_ref s l)]
        cases refine (fun l s => .ok (wordPieces l s)) b3 <;> rfl

/-- The reference at work: code that stays whole, a link with text against it, a line break, a reference, an
unclosed run of backticks, and a text that is an error. -/
theorem C118_example :
    wrapRef c!"see  ``a  ` b``. and x[a b](c d)y. z<br/>then [u][v w] `z" (.fin 12) =
      .ok c!"see\n``a  ` b``.\nand x[a b](\nc d)y. z\n<br/>\nthen [u][\nv w] `z" ∧
    wrapRef c!"one\n  two [a](b) <br>`` c `d`` e" .inf = .ok c!"one two [a](b) <br>\n`` c `d`` e" ∧
    wrapRef c!". a" (.fin 12) = .error .indexError ∧
    (codeBits (.out (some false) c!"a ") (tickRuns c!"`b` . c `d").2).length = 4 := by
  decide +kernel

end MF
