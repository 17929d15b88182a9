import Verif.Props.Errors
import Verif.Props.Chars
/-!
# C133: no markup out of nothing

A kind of section that the formatted text has, at the top or in quotes and list entries at any depth, is one whose characters the text
had before it was formatted. A text without any of these characters stays a text of paragraphs, blank lines and indented code.
-/

namespace MF

/-! ## Specification -/

/-- The text has the characters from which a section of this kind may come. -/
def Needs (text : Str) : Sec → Prop
  | .atx => '#' ∈ text
  | .quote => '>' ∈ text
  | .fenced => '`' ∈ text ∨ '~' ∈ text
  | .lrd => '[' ∈ text
  | .table => '|' ∈ text
  | .ordered => '.' ∈ text ∧ ∃ d ∈ text, d ∈ c!"0123456789"
  | .bullet => '*' ∈ text ∨ '+' ∈ text ∨ '-' ∈ text ∨ '|' ∈ text
  | .thematic => '*' ∈ text ∨ '_' ∈ text ∨ '-' ∈ text ∨ '|' ∈ text
  | .setext => '=' ∈ text ∨ '-' ∈ text ∨ '|' ∈ text
  | .blank | .par | .indented => True

/-! ## Proofs -/

theorem Fine.lines {src : Char → Prop} {t : Str} (h : Fine src t) : ∀ l ∈ splitlines t, Fine src l :=
  fun l hl => h.of_mem fun _ hc => splitlines_mem t l hl _ hc

theorem parse_lines_mem {n : Nat} {lines : List Str} {secs : List (Sec × List Str)} (h : parse n lines = .ok secs)
    {s : Sec × List Str} (hs : s ∈ secs) {l : Str} (hl : l ∈ s.2) : l ∈ lines := by
  rw [← (C08_parse_partition n _ _ h).1]
  exact List.mem_flatten.2 ⟨s.2, List.mem_map.2 ⟨s, hs, rfl⟩, hl⟩

/-- Nested documents have no characters of their own. -/
theorem Inner.fine {src : Char → Prop} {ty : Sec} {content : List Str} {t : Str} (h : Inner ty content t)
    (hl : ∀ l ∈ content, Fine src l) : Fine src t := by
  cases h with
  | quote => exact (Fine.pyJoin (fine_mk _ (by decide)) (quoteInner_fine hl)).append (fine_mk _ (by decide))
  | entry ty content es e d hty hes he hd =>
    exact (Fine.pyJoin (fine_mk _ (by decide))
      (dedentEntry_fine hd fun x hx => hl x (splitList_mem hes e he x hx))).append (fine_mk _ (by decide))

theorem Within.fine {src : Char → Prop} {n m : Nat} {t t' : Str} (h : Within n t m t') : Fine src t → Fine src t' := by
  induction h with
  | here => exact id
  | inside n text secs s text1 m text' hparse hs hin h ih =>
    intro hf
    exact ih (hin.fine fun l hl => hf.lines l (parse_lines_mem hparse hs hl))

theorem Made.hyphen {text : Str} (h : Made (· ∈ text) '-') : '-' ∈ text ∨ '|' ∈ text := by
  rcases h with h | ⟨_, h⟩ | ⟨h, _⟩
  · exact .inl h
  · exact .inr h
  · cases h

/-- A section of these characters has the characters of its kind. -/
theorem section_needs {text : Str} {n : Nat} {lines : List Str} {secs : List (Sec × List Str)} (h : parse n lines = .ok secs)
    (hl : ∀ l ∈ lines, Fine (Made (· ∈ text)) l) {s : Sec × List Str} (hs : s ∈ secs) : Needs text s.1 := by
  obtain ⟨l, hm, hp⟩ := parse_first h hs
  have hf : Fine (Made (· ∈ text)) l := hl l (parse_lines_mem h hs hm)
  have key : ∀ {c : Char}, c ≠ '\n' → c ≠ ' ' → firstCh l = some c → Made (· ∈ text) c := fun {c} h1 h2 hc =>
    hf.src (mem_of_mem_lstrip (List.mem_of_head? hc)) h1 h2
  have only : ∀ {c : Char}, c ≠ '\n' → c ≠ ' ' → c ≠ '-' → isDigit c = false → firstCh l = some c → c ∈ text :=
    fun h1 h2 h3 h4 hc => (key h1 h2 hc).other h3 h4
  obtain ⟨ty, content⟩ := s
  cases ty with
  | atx => exact only (by decide) (by decide) (by decide) (by decide) (isAtx_first hp)
  | quote => exact only (by decide) (by decide) (by decide) (by decide) (isQuote_first hp)
  | table => exact only (by decide) (by decide) (by decide) (by decide) (isTableStart_first.1 hp)
  | fenced =>
    rcases isFenceStart_first hp with e | e
    · exact .inl (only (by decide) (by decide) (by decide) (by decide) e)
    · exact .inr (only (by decide) (by decide) (by decide) (by decide) e)
  | lrd =>
    simp only [headPred, Bool.and_eq_true, beq_iff_eq] at hp
    exact only (by decide) (by decide) (by decide) (by decide) hp.1
  | bullet =>
    obtain ⟨c, e, rfl | rfl | rfl⟩ := isBulletStart_first hp
    · exact .inl (only (by decide) (by decide) (by decide) (by decide) e)
    · exact .inr (.inl (only (by decide) (by decide) (by decide) (by decide) e))
    · exact .inr (.inr (key (by decide) (by decide) e).hyphen)
  | thematic =>
    obtain ⟨c, e, rfl | rfl | rfl⟩ := isThematic_first hp
    · exact .inl (only (by decide) (by decide) (by decide) (by decide) e)
    · exact .inr (.inl (only (by decide) (by decide) (by decide) (by decide) e))
    · exact .inr (.inr (key (by decide) (by decide) e).hyphen)
  | ordered =>
    simp only [headPred, isOrderedStart, Bool.and_eq_true] at hp
    obtain ⟨d, r, e, hne, hd⟩ := (isOrderedStart_iff l).1 hp.2
    have hdot : Made (· ∈ text) '.' := hf.src (mem_of_mem_lstrip (by rw [e]; simp)) (by decide) (by decide)
    have hdot := hdot.other (by decide) (by decide)
    obtain ⟨c, d, rfl⟩ := List.exists_cons_of_ne_nil hne
    have hc := hd c (by simp)
    have hm := hf.src (mem_of_mem_lstrip (by rw [e]; simp)) (isDigit_ne hc).1 (isDigit_ne hc).2
    refine ⟨hdot, ?_⟩
    rcases hm with h1 | ⟨rfl, _⟩ | ⟨_, _, d, h1, h2⟩
    · exact ⟨c, h1, isDigit_mem hc⟩
    · cases hc
    · exact ⟨d, h2, isDigit_mem h1⟩
  | setext =>
    obtain ⟨pre, post, rfl⟩ := List.append_of_mem hs
    obtain ⟨body, u, rfl, _, hu⟩ := C52_extent h
    have hfu := hl u (parse_lines_mem h hs (by simp))
    simp only [underline, Bool.and_eq_true, Bool.not_eq_true', Bool.or_eq_true, List.all_eq_true, beq_iff_eq] at hu
    obtain ⟨⟨_, hne⟩, hu⟩ := hu
    have hne : strip u ≠ [] := by
      intro e
      rw [emptyLine_eq, isBlankLine, e] at hne
      cases hne
    obtain ⟨c, cs, e⟩ := List.exists_cons_of_ne_nil hne
    have hmem : c ∈ u := mem_of_mem_strip (by rw [e]; simp)
    rcases hu with hu | hu
    · have := hu c (by rw [e]; simp)
      subst this
      exact .inl ((hfu.src hmem (by decide) (by decide)).other (by decide) (by decide))
    · have := hu c (by rw [e]; simp)
      subst this
      exact .inr (hfu.src hmem (by decide) (by decide)).hyphen
  | blank => trivial
  | par => trivial
  | indented => trivial

/-- **C133**: every kind of section of the formatted text, at any depth, comes from characters that the text had. -/
theorem C133_kinds {n k m : Nat} {w : Width} {text y t : Str} (h : reformatMarkdownText n w text = .ok y)
    (hw : Within k y (m + 1) t) {secs : List (Sec × List Str)} (hp : parse m (splitlines t) = .ok secs) {s : Sec × List Str}
    (hs : s ∈ secs) : Needs text s.1 :=
  section_needs hp (hw.fine (reformatMarkdownText_fine h)).lines hs

/-- **C133**: the same for one pass. -/
theorem C133_pass {n k m : Nat} {w : Width} {text y t : Str} (h : reformatText n w text = .ok y)
    (hw : Within k y (m + 1) t) {secs : List (Sec × List Str)} (hp : parse m (splitlines t) = .ok secs) {s : Sec × List Str}
    (hs : s ∈ secs) : Needs text s.1 :=
  section_needs hp (hw.fine (reformatText_fine _ _ _ _ h)).lines hs

/-- **C133**: without any of these characters, the result has paragraphs, blank lines and indented code only. -/
theorem C133_plain {n m : Nat} {w : Width} {text y : Str} (hn : ∀ c ∈ c!"#>`~[|.*+-_=", c ∉ text)
    (h : reformatMarkdownText n w text = .ok y) {secs : List (Sec × List Str)} (hp : parse m (splitlines y) = .ok secs)
    {s : Sec × List Str} (hs : s ∈ secs) : s.1 = .par ∨ s.1 = .blank ∨ s.1 = .indented := by
  have key := C133_kinds h (Within.here (m + 1) y) hp hs
  simp only [List.mem_cons, List.not_mem_nil, or_false, forall_eq_or_imp, forall_eq] at hn
  obtain ⟨ty, content⟩ := s
  cases ty <;> simp_all [Needs]

/-- **C133** is not vacuous: a numbered list in a quote, which is reached as a nested document, and a plain text. -/
theorem C133_example :
    reformatMarkdownText 5 (.fin 9) c!">9. a\n>1. cd ef g" = .ok c!">9. a\n>10. cd\n>    ef g\n" ∧
    Within 4 c!">9. a\n>10. cd\n>    ef g\n" 3 c!"9. a\n10. cd\n    ef g\n" ∧
    parse 2 (splitlines c!"9. a\n10. cd\n    ef g\n") = .ok [(.ordered, [c!"9. a", c!"10. cd", c!"    ef g"])] ∧
    reformatMarkdownText 5 (.fin 4) c!"a cd\nef\n\n    g" = .ok c!"a cd\nef\n\n    g\n" := by
  refine ⟨by decide +kernel, ?_, by decide +kernel, by decide +kernel⟩
  refine .inside _ _ [(.quote, [c!">9. a", c!">10. cd", c!">    ef g"])] (.quote, [c!">9. a", c!">10. cd", c!">    ef g"]) _ _ _
    (by decide +kernel) (by simp) (.quote _) ?_
  exact .here _ _

end MF
