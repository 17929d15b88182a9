import Verif.Props.Tree
/-!
# Properties C57 and C58: what formatting a sound text may do to it

C57: formatting a text twice is formatting it once, so the consistency check never fails. C58: formatting keeps the words of a
paragraph. Both are false of the program; the theorems with `partial` in their name say where they hold.
-/

namespace MF

/-! ## C57 -/

/-- C57: the consistency check does not fail on texts that stand for a tree. -/
theorem C57_consistent_partial (text : Str) (doc : List Node) (h : StandsFor text doc) (w : Width) (hw : wideDoc w doc = true) :
    ∃ n, ∀ m, n ≤ m → reformatMarkdownText m w text ≠ .error .inconsistent := by
  obtain ⟨d, h1, h2⟩ := h
  refine ⟨d + 1, fun m hm => ?_⟩
  rw [C54_format d m hm w text doc h1 h2 hw]
  simp

/-- C57 is false: a quote that is indented by two is wrapped at a larger width at first. -/
theorem C57_refuted_quote : reformatMarkdownText 9 (.fin 20) c!"  > aaa bbb ccc ddd eee\n" = .error .inconsistent := by
  decide +kernel

/-- C57 is false: entries are indented for the longest number of the list. So a quote in an entry with a shorter number is
indented by more than the text of the entry, and then it is wrapped at a larger width. -/
theorem C57_refuted_digits : reformatMarkdownText 9 (.fin 12) c!"9. a\n   > aaa bbb\n10. x\n" = .error .inconsistent ∧
    reformatText 9 (.fin 12) c!"9. a\n   > aaa bbb\n10. x\n" = .ok c!"9. a\n    > aaa\n    > bbb\n10. x\n" ∧
    reformatText 9 (.fin 12) c!"9. a\n    > aaa\n    > bbb\n10. x\n" = .ok c!"9. a\n    > aaa bbb\n10. x\n" := by
  decide +kernel

/-- C57 is false: a reference link with a comma behind it and another link behind that. The space gets lost, and then the
comma is written twice. -/
theorem C57_refuted_links : reformatMarkdownText 9 (.fin 80) c!"see [a][b], [c](d) and so on\n" = .error .inconsistent ∧
    reformatText 9 (.fin 80) c!"see [a][b], [c](d) and so on\n" = .ok c!"see [a][b],[c](d) and so on\n" ∧
    reformatText 9 (.fin 80) c!"see [a][b],[c](d) and so on\n" = .ok c!"see [a][b],,[c](d) and so on\n" := by
  decide +kernel

/-- C57 is false: the target of a link that starts a line may be a heading. -/
theorem C57_refuted_anchor : reformatMarkdownText 9 (.fin 12) c!"foo bar [a](#anchor) z\n" = .error .inconsistent := by
  decide +kernel

/-- C57 is false: a hard break in a quote. -/
theorem C57_refuted_break : reformatMarkdownText 9 (.fin 80) c!"> foo  \n> bar\n" = .error .inconsistent := by
  decide +kernel

/-- Texts that stand for a tree, at widths with room for them. -/
example : ∃ n, ∀ m, n ≤ m →
    reformatMarkdownText m (.fin 16) c!"* see (as in [the  docs](\n   http://x.y \"T\").) and [a][b]\n  [c][d], z\n" ≠
      .error .inconsistent :=
  C57_consistent_partial _ _ C54_example_links _ (by decide +kernel)

/-! ## C58 -/

theorem Runs.rest_ws {k : Ctx} {s : Str} {ts : List Tok} (h : Runs k s ts) (hg : ∀ t ∈ ts, t.gap = .space) :
    s = [] ∨ ∃ c r, s = c :: r ∧ isWs c = true := by
  cases ts with
  | nil =>
    have := h.nil_ws
    cases s with
    | nil => exact .inl rfl
    | cons c r => exact .inr ⟨c, r, rfl, this c (by simp)⟩
  | cons t ts =>
    obtain ⟨g, r, hgw, hs, hgap, _⟩ := h.first
    have h1 := hg t (by simp)
    cases g with
    | cons c g => exact .inr ⟨c, _, hs, hgw c (by simp)⟩
    | nil =>
      exfalso
      rcases hgap with h2 | h2
      · rw [h1] at h2; cases h2
      · cases k <;> (rw [h1] at h2; cases h2)

/-- the words of a text whose tokens all have a space in front of them -/
theorem Runs.spaced_words {k : Ctx} {s : Str} {ts : List Tok} (h : Runs k s ts) (hg : ∀ t ∈ ts.tail, t.gap = .space) :
    splitWs s = ts.flatMap fun t => splitWs t.text := by
  have step : ∀ {k : Ctx} {g x rest : Str} {ts : List Tok}, (∀ c ∈ g, isWs c = true) → Runs k rest ts →
      (∀ t ∈ ts, t.gap = .space) → splitWs rest = (ts.flatMap fun t => splitWs t.text) →
      splitWs (g ++ (x ++ rest)) = splitWs x ++ ts.flatMap fun t => splitWs t.text := by
    intro k g x rest ts hg h hsp ih
    rw [splitWs_prepend_all hg]
    rcases h.rest_ws hsp with rfl | ⟨c, r, rfl, hc⟩
    · rw [← ih]; simp [splitWs]
    · rw [← ih, splitWs_append_ws _ _ _ hc, splitWs_ws _ _ hc]
  have tl : ∀ {ts : List Tok}, (∀ t ∈ ts, t.gap = .space) → ∀ t ∈ ts.tail, t.gap = .space := fun h t ht =>
    h t (List.mem_of_mem_tail ht)
  induction h with
  | nil h => rw [splitWs_all_ws h]; rfl
  | @word k g w rest ts hgw hk hw hr h ih => exact step hgw h hg (ih (tl hg))
  | @br k g b rest ts hgw hk hb h ih => exact step hgw h hg (ih (tl hg))
  | @code k g body dot rest n ts hgw hs hd h ih =>
    have := step (x := ticks n ++ (body ++ (ticks n ++ dot))) hgw h hg (ih (tl hg))
    simpa using this
  | @link k g pre name v target tail rest o c ts hgw hk hl hv h ih =>
    exfalso
    obtain ⟨ws, w, e, _⟩ := hl.words
    rw [e] at hg
    have : (⟨.link, target ++ c :: tail⟩ : Tok) ∈ (wordToks (k.gap g) (ws ++ [w]) ++ ⟨.link, target ++ c :: tail⟩ :: ts).tail := by
      cases ws <;> simp [wordToks]
    exact absurd (hg _ this) (by simp)

/-- C58: wrapping keeps the words of a text in which all tokens have a space in front of them: a text of words and code spans
that do not touch. -/
theorem C58_words_partial {text s : Str} {t : Tok} {ts : List Tok} {w : Width} (h : Inline (wrapInput text) (t :: ts))
    (hsp : ∀ x ∈ ts, x.gap = .space) (hs : wrap text w = .ok s) : splitWs (wrapInput s) = splitWs (wrapInput text) := by
  have h2 := C56_tokens h hs
  rw [settle_spaced (fun x hx => by rw [hsp x hx]; decide)] at h2
  rw [h.runs.spaced_words hsp, h2.runs.spaced_words hsp]

/-- C58 is false: the space between two links gets lost. -/
theorem C58_refuted_links : reformatMarkdownText 9 (.fin 80) c!"[a](b) [c](d)\n" = .ok c!"[a](b)[c](d)\n" := by decide +kernel

/-- C58 is false: text that touches a code span is moved to the next line. -/
theorem C58_refuted_code : reformatMarkdownText 9 (.fin 6) c!"the `code`s here\n" = .ok c!"the\n`code`\ns here\n" := by decide +kernel

/-- C58 is false: the target of a link is moved to the next line. -/
theorem C58_refuted_target : reformatMarkdownText 9 (.fin 8) c!"the [code](here) now\n" = .ok c!"the\n[code](\nhere)\nnow\n" := by
  decide +kernel

/-- a text with the words in other lines -/
example : ∃ s, wrap c!"use `a  b` or  ``x`` now" (.fin 9) = .ok s ∧ s = c!"use\n`a  b` or\n``x`` now" ∧
    splitWs (wrapInput s) = splitWs (wrapInput c!"use `a  b` or  ``x`` now") := ⟨_, by decide +kernel, rfl, by decide +kernel⟩

/-! ## A paragraph behind a list -/

/-- A list ends at a blank line, whatever comes behind it: a paragraph that is indented to belong to the last entry is
moved out of the list. -/
theorem C52_paragraph_leaves_list : reformatMarkdownText 9 (.fin 80) c!"1. one\n2. two\n\n   more\n3. three\n" =
    .ok c!"1. one\n2. two\n\nmore\n3. three\n" := by decide +kernel

end MF
