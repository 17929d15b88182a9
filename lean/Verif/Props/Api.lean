import Verif.Model.Reformat
import Verif.Lemmas.Str
/-!
# C01, C02: the shape of `reformat_markdown_text`
-/

namespace MF

/-! ## C01 -/

/-- A text is some body and one newline, and the body is empty or ends in a non-whitespace character. -/
def EndsInOneNewline (y : Str) : Prop :=
  ∃ body, y = body ++ ['\n'] ∧ (body = [] ∨ ∃ front c, body = front ++ [c] ∧ isWs c = false)

/-- C01. Whatever the text, width and recursion budget, a returned string ends in exactly one newline. -/
theorem C01_one_trailing_newline (n : Nat) (w : Width) (text y : Str)
    (h : reformatMarkdownText n w text = .ok y) : EndsInOneNewline y := by
  unfold reformatMarkdownText at h
  cases h1 : reformatText n w text with
  | error e => rw [h1] at h; cases h
  | ok t =>
    rw [h1] at h
    simp only [bind, Except.bind] at h
    cases h2 : reformatText n w t with
    | error e => rw [h2] at h; cases h
    | ok t2 =>
      rw [h2] at h
      simp only at h
      split at h
      · cases h
      · cases h
        exact ⟨rstrip t, rfl, rstrip_last t⟩

/-- non-vacuity: trailing blank lines and spaces are cut down to one newline -/
example : reformatMarkdownText 5 (.fin 88) c!"# a\nb c  \n \n\n" = .ok c!"# a\nb c\n" := by decide +kernel

/-! ## C02 -/

/-- One formatting pass as a relation between texts; nothing else is known about it. -/
abbrev Pass := Str → Except Err Str

/-- What the caller of the gated formatter must see, given one pass: a declarative description of C02. -/
inductive Gate (pass : Pass) (text : Str) : Except Err Str → Prop
  | first (e : Err) : pass text = .error e → Gate pass text (.error e)
  | second (a : Str) (e : Err) : pass text = .ok a → pass a = .error e → Gate pass text (.error e)
  | differ (a b : Str) : pass text = .ok a → pass a = .ok b → b ≠ a → Gate pass text (.error .inconsistent)
  | same (a core ws : Str) : pass text = .ok a → pass a = .ok a → a = core ++ ws → (∀ c ∈ ws, isWs c = true) →
      (core = [] ∨ ∃ front c, core = front ++ [c] ∧ isWs c = false) → Gate pass text (.ok (core ++ ['\n']))

/-- C02. `reformat_markdown_text` is exactly the two-pass gate. -/
theorem C02_gate (n : Nat) (w : Width) (text : Str) :
    Gate (reformatText n w) text (reformatMarkdownText n w text) := by
  unfold reformatMarkdownText
  cases h1 : reformatText n w text with
  | error e => exact .first e h1
  | ok a =>
    simp only [bind, Except.bind]
    cases h2 : reformatText n w a with
    | error e => exact .second a e h1 h2
    | ok b =>
      by_cases hab : b = a
      · subst hab
        simp only [bne_self_eq_false, Bool.false_eq_true, if_false]
        obtain ⟨ws, hws, hall⟩ := rstripBy_split isWs b
        exact .same b (rstrip b) ws h1 h2 hws hall (rstrip_last b)
      · simp only [bne_iff_ne, ne_eq, hab, not_false_iff, if_true]
        exact .differ a b h1 h2 hab

/-- The gate leaves no freedom: it determines the outcome. -/
theorem C02_gate_unique (pass : Pass) (text : Str) (r s : Except Err Str) (hr : Gate pass text r)
    (hs : Gate pass text s) : r = s := by
  have key : ∀ core ws core' ws' : Str, core ++ ws = core' ++ ws' → (∀ c ∈ ws, isWs c = true) →
      (∀ c ∈ ws', isWs c = true) → (core = [] ∨ ∃ front c, core = front ++ [c] ∧ isWs c = false) →
      (core' = [] ∨ ∃ front c, core' = front ++ [c] ∧ isWs c = false) → core = core' := by
    intro core ws core' ws' h hw hw' hc hc'
    have e1 : rstrip (core ++ ws) = core := by
      rw [rstrip_append_ws _ _ hw]
      rcases hc with h' | ⟨f, c, h', hcc⟩
      · rw [h']; rfl
      · rw [h', rstrip_concat_of_not _ _ hcc]
    have e2 : rstrip (core' ++ ws') = core' := by
      rw [rstrip_append_ws _ _ hw']
      rcases hc' with h' | ⟨f, c, h', hcc⟩
      · rw [h']; rfl
      · rw [h', rstrip_concat_of_not _ _ hcc]
    rw [← e1, ← e2, h]
  cases hr with
  | first e h =>
    cases hs with
    | first e' h' => rw [h] at h'; cases h'; rfl
    | second a' e' h' _ => rw [h] at h'; cases h'
    | differ a' b' h' _ _ => rw [h] at h'; cases h'
    | same a' core' ws' h' _ _ _ _ => rw [h] at h'; cases h'
  | second a e h h2 =>
    cases hs with
    | first e' h' => rw [h] at h'; cases h'
    | second a' e' h' h2' => rw [h] at h'; cases h'; rw [h2] at h2'; cases h2'; rfl
    | differ a' b' h' h2' _ => rw [h] at h'; cases h'; rw [h2] at h2'; cases h2'
    | same a' core' ws' h' h2' _ _ _ => rw [h] at h'; cases h'; rw [h2] at h2'; cases h2'
  | differ a b h h2 hne =>
    cases hs with
    | first e' h' => rw [h] at h'; cases h'
    | second a' e' h' h2' => rw [h] at h'; cases h'; rw [h2] at h2'; cases h2'
    | differ a' b' h' h2' _ => rfl
    | same a' core' ws' h' h2' _ _ _ =>
      rw [h] at h'; cases h'; rw [h2] at h2'; cases h2'; exact absurd rfl hne
  | same a core ws h h2 heq hws hcore =>
    cases hs with
    | first e' h' => rw [h] at h'; cases h'
    | second a' e' h' h2' => rw [h] at h'; cases h'; rw [h2] at h2'; cases h2'
    | differ a' b' h' h2' hne =>
      rw [h] at h'; cases h'; rw [h2] at h2'; cases h2'; exact absurd rfl hne
    | same a' core' ws' h' h2' heq' hws' hcore' =>
      rw [h] at h'; cases h'
      rw [key core ws core' ws' (heq.symm.trans heq') hws hws' hcore hcore']

/-- non-vacuity: a text for which the passes differ, so the gate raises -/
example : reformatMarkdownText 3 (.fin 88) c!"| a\n| b" = .error .inconsistent := by decide +kernel

end MF
