import Verif.Props.LineEndsDoc
import Verif.Props.Idempotent
/-!
# White space at the ends of lines: the program

C126: two documents whose lines differ only in white space at their ends are formatted alike, if the same lines end in a
hard line break and nothing changes behind a list marker that stands at the end of a line.
-/

namespace MF

/-- **C126.** One pass. -/
theorem C126_pass (n : Nat) (w : Width) (t t' : Str) (h : Each SameText (splitlines t) (splitlines t'))
    (hn : reformatText n w t ≠ .error .recursion) :
    reformatText (n + 1) w t' = reformatText n w t ∧
    (reformatText n w t' ≠ .error .recursion → reformatText n w t' = reformatText n w t) := by
  have e1 := C119_format n w t hn
  have e2 := formatRef_same n w t t' h
  refine ⟨?_, ?_⟩
  · rw [e1, e2]
    exact C119_enough n w t' (by rw [← e2, ← e1]; exact hn)
  · intro hn'
    rw [e1, e2]
    exact C119_format n w t' hn'

theorem callRef_same (n : Nat) (w : Width) (t t' : Str) (h : Each SameText (splitlines t) (splitlines t')) :
    callRef n w t = callRef n w t' := by
  unfold callRef
  rw [formatRef_same n w t t' h]

/-- **C126.** The program. -/
theorem C126_line_ends (n : Nat) (w : Width) (t t' : Str) (h : Each SameText (splitlines t) (splitlines t'))
    (hn : reformatMarkdownText n w t ≠ .error .recursion) :
    reformatMarkdownText (n + 1) w t' = reformatMarkdownText n w t ∧
    (reformatMarkdownText n w t' ≠ .error .recursion → reformatMarkdownText n w t' = reformatMarkdownText n w t) := by
  have e1 := C119_call n w t hn
  have e2 := callRef_same n w t t' h
  refine ⟨?_, ?_⟩
  · rw [e1, e2]
    exact C119_call_enough n w t' (by rw [← e2, ← e1]; exact hn)
  · intro hn'
    rw [e1, e2]
    exact C119_call n w t' hn'

/-- White space at the ends of lines removed, where no line of text ends in a hard line break or in a bare list marker. -/
theorem each_rstrip {L : List Str} (h : ∀ l ∈ L, emptyLine l = true ∨ (hardBreak l = false ∧ bareEnd l = false)) :
    Each SameText L (L.map rstrip) := by
  induction L with
  | nil => exact .nil
  | cons l L ih =>
    refine .cons ⟨(rstrip_idem l).symm, ?_, ?_⟩ (ih fun x hx => h x (by simp [hx]))
    · intro he
      rcases h l (by simp) with h0 | ⟨h1, _⟩
      · rw [he] at h0; cases h0
      · rw [h1]
        cases hq : hardBreak (rstrip l) with
        | false => rfl
        | true =>
          obtain ⟨r, hr⟩ := (endsWith_iff _ _).1 hq
          rcases rstrip_last l with h2 | ⟨x, c, h2, h3⟩
          · rw [h2] at hr
            have := congrArg List.length hr
            simp at this
          · have : (rstrip l).getLast? = some ' ' := by rw [hr]; simp
            rw [h2] at this
            simp at this
            subst this
            cases h3
    · intro hb
      rcases h l (by simp) with h0 | ⟨_, h3⟩
      · have h1 : rstrip l = [] := by
          have : l = [] ++ l := rfl
          rw [this, rstrip_append_ws _ _ (by simpa [emptyLine] using h0)]
          rfl
        simp only [bareEnd, lastWord, h1] at hb
        exact absurd hb (by decide)
      · rw [hb] at h3; cases h3

/-- **C126.** The white space at the ends of all lines can be removed, where no line of text ends in a hard line break or
in a bare list marker. -/
theorem C126_trim (n : Nat) (w : Width) (t t' : Str) (h : splitlines t' = (splitlines t).map rstrip)
    (hl : ∀ l ∈ splitlines t, emptyLine l = true ∨ (hardBreak l = false ∧ bareEnd l = false))
    (hn : reformatMarkdownText n w t ≠ .error .recursion) :
    reformatMarkdownText (n + 1) w t' = reformatMarkdownText n w t :=
  (C126_line_ends n w t t' (by rw [h]; exact each_rstrip hl) hn).1

/-- **C126.** Documents whose only white space within lines is spaces: with any sufficient number of levels. -/
theorem C126_spaces (w : Width) (t t' : Str) (h : Each SameText (splitlines t) (splitlines t'))
    (hs : OnlySpaces t) (hs' : OnlySpaces t') :
    (∀ n, depthOf t ≤ n → depthOf t' ≤ n → reformatText n w t' = reformatText n w t) ∧
    ∃ N, ∀ n, N ≤ n → reformatMarkdownText n w t' = reformatMarkdownText n w t := by
  constructor
  · intro n hn hn'
    rw [(C119_spaces t hs w n hn).1, (C119_spaces t' hs' w n hn').1, formatRef_same n w t t' h]
  · obtain ⟨N, h1⟩ := C06_terminates_api t hs w
    obtain ⟨N', h2⟩ := C06_terminates_api t' hs' w
    refine ⟨max N N', fun n hn => ?_⟩
    exact (C126_line_ends n w t t' h (h1 n (by omega))).2 (h2 n (by omega))

/-- Is this pair of lines related? -/
def sameTextB (l l' : Str) : Bool :=
  decide (rstrip l = rstrip l') && (emptyLine l || decide (hardBreak l = hardBreak l')) && (!bareEnd l || decide (l = l'))

theorem sameTextB_iff {l l' : Str} (h : sameTextB l l' = true) : SameText l l' := by
  simp only [sameTextB, Bool.and_eq_true, decide_eq_true_eq, Bool.or_eq_true, Bool.not_eq_true'] at h
  obtain ⟨⟨h1, h2⟩, h3⟩ := h
  refine ⟨h1, ?_, ?_⟩
  · intro he
    rcases h2 with h2 | h2
    · rw [he] at h2; cases h2
    · exact h2
  · intro hb
    rcases h3 with h3 | h3
    · rw [hb] at h3; cases h3
    · exact h3

def sameTextsB : List Str → List Str → Bool
  | [], [] => true
  | l :: ls, m :: ms => sameTextB l m && sameTextsB ls ms
  | _, _ => false

theorem sameTextsB_iff : ∀ {L M : List Str}, sameTextsB L M = true → Each SameText L M
  | [], [], _ => .nil
  | l :: ls, m :: ms, h => by
    simp only [sameTextsB, Bool.and_eq_true] at h
    exact .cons (sameTextB_iff h.1) (sameTextsB_iff h.2)

/-- C126: a heading, a list, code, a quote, a table and a paragraph with a hard line break, with white space of all kinds
at the ends of the lines. -/
theorem C126_example :
    Each SameText (splitlines c!"# A\t\n* x \n\n  ```\n  y \n  ```\t\n> q\n>\n> - a \n\n \n|a|b| \n|-|-|\nz  \nc \n")
      (splitlines c!"# A\n* x\n\t\n  ``` \n  y\n  ```\n> q\t\n> \n> - a\n   \n\n|a|b|\n|-|-| \nz \t  \nc\n") ∧
    reformatMarkdownText 9 (.fin 20) c!"# A\t\n* x \n\n  ```\n  y \n  ```\t\n> q\n>\n> - a \n\n \n|a|b| \n|-|-|\nz  \nc \n" =
      .ok c!"# A\n* x\n\n```\n  y\n```\n> q\n>\n> - a\n\n\n| a | b |\n|---|---|\nz  \nc\n" ∧
    reformatMarkdownText 9 (.fin 20) c!"# A\n* x\n\t\n  ``` \n  y\n  ```\n> q\t\n> \n> - a\n   \n\n|a|b|\n|-|-| \nz \t  \nc\n" =
      .ok c!"# A\n* x\n\n```\n  y\n```\n> q\n>\n> - a\n\n\n| a | b |\n|---|---|\nz  \nc\n" :=
  ⟨sameTextsB_iff (by decide +kernel), by decide +kernel, by decide +kernel⟩

/-- The conditions are needed: a bare marker and a hard line break. -/
theorem C126_needed :
    reformatMarkdownText 4 (.fin 20) c!"a\n*\nb\n" = .ok c!"a * b\n" ∧
    reformatMarkdownText 4 (.fin 20) c!"a\n* \nb\n" = .ok c!"a\n* \n  b\n" ∧
    reformatMarkdownText 4 (.fin 20) c!"a\nb\n" = .ok c!"a b\n" ∧
    reformatMarkdownText 4 (.fin 20) c!"a  \nb\n" = .ok c!"a  \nb\n" := by
  decide +kernel

/-! ## C03: the end of a result -/

theorem each_refl {α : Type} {R : α → α → Prop} (h : ∀ a, R a a) : ∀ L : List α, Each R L L
  | [] => .nil
  | a :: L => .cons (h a) (each_refl h L)

theorem splitlines_tail (x : Str) (c : Char) (hc : isLB c = false) :
    ∃ front l, ∀ ws, NoLB ws → splitlines (x ++ [c] ++ ws ++ ['\n']) = front ++ [l ++ [c] ++ ws] := by
  induction x with
  | nil =>
    refine ⟨[], [], fun ws hws => ?_⟩
    have := splitlines_line (c :: ws) (by
      intro d hd
      rcases List.mem_cons.1 hd with rfl | hd
      · exact hc
      · exact hws d hd) []
    simpa [splitlines] using this
  | cons d x ih =>
    obtain ⟨f, l, e⟩ := ih
    have hh : ∀ ws : Str, (x ++ [c] ++ ws ++ ['\n']).head? = (x ++ [c]).head? := by intro ws; cases x <;> rfl
    by_cases h1 : (d == '\r' && (x ++ [c]).head? == some '\n') = true
    · refine ⟨f, l, fun ws hws => ?_⟩
      rw [List.cons_append, List.cons_append, List.cons_append, splitlines, hh, if_pos h1]
      exact e ws hws
    · by_cases h2 : isLB d = true
      · refine ⟨[] :: f, l, fun ws hws => ?_⟩
        rw [List.cons_append, List.cons_append, List.cons_append, splitlines, hh, if_neg h1, if_pos h2, e ws hws]
        rfl
      · cases f with
        | nil =>
          refine ⟨[], d :: l, fun ws hws => ?_⟩
          rw [List.cons_append, List.cons_append, List.cons_append, splitlines, hh, if_neg h1, if_neg h2, e ws hws]
          rfl
        | cons a f =>
          refine ⟨(d :: a) :: f, l, fun ws hws => ?_⟩
          rw [List.cons_append, List.cons_append, List.cons_append, splitlines, hh, if_neg h1, if_neg h2, e ws hws]
          rfl

/-- **C03 (partial).** The text the program checked may also end in a line with white space at its end, if that is no
hard line break and does not follow a bare list marker. -/
theorem C03_last_line_partial {n : Nat} {w : Width} {text t y ws : Str} {k : Nat}
    (h : reformatMarkdownText (n + 1) w text = .ok y) (ht : reformatText (n + 1) w text = .ok t)
    (htrim : t = rstrip t ++ ws ++ ['\n'] ++ List.replicate k '\n') (hws : NoLB ws) (hsp : ∀ c ∈ ws, isWs c = true)
    (hhard : endsWith ws c!"  " = false) (hbare : ∀ l, (splitlines y).getLast? = some l → bareEnd l = false)
    (hlrd : ∀ S a T, parse n (splitlines t) = .ok (S ++ (.lrd, a) :: T) → (∀ p ∈ T, p.1 = .blank) →
      Good a ∧ splitLrd a = .ok (a, [])) :
    reformatMarkdownText (n + 2) w y = .ok y ∧
    (reformatMarkdownText (n + 1) w y ≠ .error .recursion → reformatMarkdownText (n + 1) w y = .ok y) := by
  simp only [reformatMarkdownText, bind, Except.bind, ht] at h
  cases h2 : reformatText (n + 1) w t with
  | error e => rw [h2] at h; cases h
  | ok t' =>
    rw [h2] at h
    simp only at h
    split at h
    · cases h
    · rename_i hne
      have e : t' = t := by simpa using hne
      subst e
      have hy : y = rstrip t' ++ ['\n'] := (Except.ok.inj h).symm
      by_cases he : rstrip t' = []
      · rw [he, List.nil_append] at hy
        rw [hy]
        exact ⟨rfl, fun _ => rfl⟩
      · obtain ⟨x, c, hx, hc⟩ : ∃ x c, rstrip t' = x ++ [c] ∧ isWs c = false := by
          rcases rstrip_last t' with h0 | ⟨x, c, h0, h1⟩
          · exact absurd h0 he
          · exact ⟨x, c, h0, h1⟩
        have hlb : isLB c = false := by
          cases hq : isLB c with
          | false => rfl
          | true => rw [isLB_ws hq] at hc; cases hc
        obtain ⟨front, l, hl⟩ := splitlines_tail x c hlb
        have hu : splitlines (x ++ [c] ++ ws ++ ['\n']) = front ++ [l ++ [c] ++ ws] := hl ws hws
        have hv : splitlines y = front ++ [l ++ [c]] := by
          have := hl [] (by intro d hd; cases hd)
          rw [hy, hx]
          simpa using this
        have hb := hbare (l ++ [c]) (by rw [hv]; simp)
        have hgood : Good (splitlines (x ++ [c] ++ ws ++ ['\n'])) := by
          refine ⟨front, _, hu, ?_, ?_⟩
          · cases hq : isBlankLine (l ++ [c] ++ ws) with
            | false => rfl
            | true =>
              have : strip (l ++ [c] ++ ws) = [] := by simpa [isBlankLine] using hq
              rw [(strip_eq_nil _).1 this c (by simp)] at hc
              cases hc
          · exact ((hardBreak_tail hc).trans rfl).trans hhard
        have hfix : reformatText (n + 1) w (x ++ [c] ++ ws ++ ['\n']) = .ok (x ++ [c] ++ ws ++ ['\n']) := by
          rw [hx] at htrim
          cases k with
          | zero =>
            rw [List.replicate_zero, List.append_nil] at htrim
            rw [← htrim]; exact h2
          | succ k =>
            rw [htrim] at h2 hlrd
            exact reformatText_trimmed hgood h2 hlrd
        have hr1 : rstrip (l ++ [c] ++ ws) = rstrip (l ++ [c]) := rstrip_append_ws _ _ hsp
        have hsame : Each SameText (splitlines (x ++ [c] ++ ws ++ ['\n'])) (splitlines y) := by
          rw [hu, hv]
          refine each_append (each_refl SameText.refl front) (.cons ⟨hr1, ?_, ?_⟩ .nil)
          · intro _
            rw [hardBreak_tail hc, show hardBreak ws = false from hhard]
            have := hardBreak_tail (r := l) (s := []) hc
            rw [List.append_nil] at this
            rw [this]
            rfl
          · intro hq
            exfalso
            have hbb : bareEnd (l ++ [c] ++ ws) = bareEnd (l ++ [c]) := by
              unfold bareEnd lastWord
              rw [hr1]
            rw [hbb, hb] at hq
            cases hq
        have hry : rstrip (x ++ [c] ++ ws ++ ['\n']) ++ ['\n'] = y := by
          rw [rstrip_append_ws _ _ (by intro d hd; rw [List.mem_singleton.1 hd]; decide), rstrip_append_ws _ _ hsp, ← hx, rstrip_idem, hy]
        have hok : reformatMarkdownText (n + 1) w (x ++ [c] ++ ws ++ ['\n']) = .ok y := by
          simp only [reformatMarkdownText, bind, Except.bind, hfix]
          rw [hry]
          simp
        have := C126_line_ends (n + 1) w _ y hsame (by rw [hok]; intro h; cases h)
        rw [hok] at this
        exact this

/-- `C03_last_line_partial` applies: the text ends in an empty heading. -/
theorem C03_last_line_example :
    reformatText 4 (.fin 20) c!"a\n* b\n  ## \n\n" = .ok c!"a\n* b\n  ## \n\n" ∧
    reformatMarkdownText 4 (.fin 20) c!"a\n* b\n  ## \n\n" = .ok c!"a\n* b\n  ##\n" ∧
    c!"a\n* b\n  ## \n\n" = rstrip c!"a\n* b\n  ## \n\n" ++ [' '] ++ ['\n'] ++ List.replicate 1 '\n' ∧
    bareEnd c!"  ##" = false ∧
    parse 3 (splitlines c!"a\n* b\n  ## \n\n") = .ok [(.par, [c!"a"]), (.bullet, [c!"* b", c!"  ## "]), (.blank, [[]])] ∧
    reformatMarkdownText 4 (.fin 20) c!"a\n* b\n  ##\n" = .ok c!"a\n* b\n  ##\n" := by
  decide +kernel

end MF
