import Verif.Lemmas.RenameFormat
/-!
# C131: formatting knows only the characters of the markup

A one-to-one renaming of characters that leaves white space and the characters of `marks` alone carries every text, every way it can
fail and every result along: formatting the renamed text gives the renamed result. The list of characters is exact: exchanging any of
them with any other character is noticed for some text.
-/

namespace MF

/-- A renaming of characters that spares white space and markup. -/
def Renaming (f : Char → Char) : Prop := (∀ a b, f a = f b → a = b) ∧ (∀ c, isMark c = true → f c = c)

theorem Renaming.ren {f : Char → Char} (h : Renaming f) : Ren f := ⟨fun {_ _} e => h.1 _ _ e, fun {_} e => h.2 _ e⟩

theorem map_inj {f : Char → Char} (h : ∀ a b, f a = f b → a = b) : ∀ {s t : Str}, s.map f = t.map f → s = t
  | [], [], _ => rfl
  | [], _ :: _, e => by simp at e
  | _ :: _, [], e => by simp at e
  | a :: s, b :: t, e => by
    simp only [List.map_cons, List.cons.injEq] at e
    rw [h a b e.1, map_inj h e.2]

/-- **C131**, sections: the sections of the renamed text are the renamed sections, and the same exceptions are raised. -/
theorem C131_parse {f : Char → Char} (h : Renaming f) (n : Nat) (ls : List Str) :
    parse n (ls.map (List.map f)) = (parse n ls).map (List.map fun s => (s.1, s.2.map (List.map f))) :=
  have := h.ren
  ren_parse n ls

/-- **C131**, wrapping: the wrapped renamed text is the renamed wrapped text. -/
theorem C131_wrap {f : Char → Char} (h : Renaming f) (s : Str) (w : Width) : wrap (s.map f) w = (wrap s w).map (List.map f) :=
  have := h.ren
  ren_wrap s w

/-- **C131**, one pass. -/
theorem C131_pass {f : Char → Char} (h : Renaming f) (n : Nat) (w : Width) (t : Str) :
    reformatText n w (t.map f) = (reformatText n w t).map (List.map f) :=
  have := h.ren
  ren_reformatText n w t

/-- **C131**: formatting the renamed text gives the renamed result, or raises the same exception. -/
theorem C131_rename {f : Char → Char} (h : Renaming f) (n : Nat) (w : Width) (t : Str) :
    reformatMarkdownText n w (t.map f) = (reformatMarkdownText n w t).map (List.map f) := by
  have := h.ren
  simp only [reformatMarkdownText, C131_pass h]
  cases reformatText n w t with
  | error e => rfl
  | ok a =>
    simp only [Except.map, bind, Except.bind, C131_pass h]
    cases reformatText n w a with
    | error e => rfl
    | ok b =>
      simp only [bne, ren_str_beq]
      split
      · rfl
      · simp only [ren_rstrip, List.map_append, ren_nl]

/-- **C131**, what is in order already stays so. -/
theorem C131_fixed {f : Char → Char} (h : Renaming f) (n : Nat) (w : Width) (t : Str) :
    reformatMarkdownText n w (t.map f) = .ok (t.map f) ↔ reformatMarkdownText n w t = .ok t := by
  rw [C131_rename h]
  cases reformatMarkdownText n w t with
  | error e => simp [Except.map]
  | ok o =>
    simp only [Except.map, Except.ok.injEq]
    exact ⟨map_inj h.1, fun e => by rw [e]⟩

/-- Exchanging two characters. -/
def swapChar (c d : Char) (x : Char) : Char := if x = c then d else if x = d then c else x

theorem swapChar_swap (c d x : Char) : swapChar c d (swapChar c d x) = x := by
  unfold swapChar
  by_cases h1 : x = c
  · by_cases h2 : d = c <;> simp [h1, h2]
  · by_cases h2 : x = d
    · simp [h2]
    · simp [h1, h2]

theorem swapChar_inj (c d a b : Char) (h : swapChar c d a = swapChar c d b) : a = b := by
  rw [← swapChar_swap c d a, h, swapChar_swap]

theorem swapChar_renaming {c d : Char} (hc : isMark c = false) (hd : isMark d = false) : Renaming (swapChar c d) := by
  refine ⟨swapChar_inj c d, fun x hx => ?_⟩
  unfold swapChar
  rw [if_neg (fun e => by rw [e, hc] at hx; cases hx), if_neg (fun e => by rw [e, hd] at hx; cases hx)]

/-- All characters that are not free. -/
def allMarks : Str := ([9, 10, 11, 12, 13, 28, 29, 30, 31, 32, 0x85, 0xa0, 0x1680, 0x2000, 0x2001, 0x2002, 0x2003, 0x2004, 0x2005, 0x2006,
  0x2007, 0x2008, 0x2009, 0x200a, 0x2028, 0x2029, 0x202f, 0x205f, 0x3000].map Char.ofNat) ++ marks

theorem mem_allMarks {c : Char} (h : isMark c = true) : c ∈ allMarks := by
  simp only [isMark, Bool.or_eq_true] at h
  rw [allMarks, List.mem_append]
  rcases h with h | h
  · refine .inl (List.mem_map.2 ⟨c.toNat, ?_, Char.ofNat_toNat c⟩)
    simp only [isWs, Bool.or_eq_true, Bool.and_eq_true, decide_eq_true_eq, beq_iff_eq] at h
    simp only [List.mem_cons, List.not_mem_nil, or_false]
    omega
  · exact .inr (by simpa using h)

/-- A text, and a width, that show what a character means. -/
def showMark (c : Char) : Width × Str :=
  if isWs c then (.fin 20, [c])
  else if c == '#' then (.fin 20, c!"#a")
  else if c == '>' then (.fin 20, c!"> a\n> b")
  else if c == '`' || c == '~' then (.fin 20, [c, c, c] ++ c!"\na\n" ++ [c, c, c])
  else if c == '*' || c == '+' || c == '-' then (.fin 20, [c] ++ c!" a\n" ++ [c] ++ c!" b")
  else if c == '_' then (.fin 20, c!"___")
  else if c == '=' then (.fin 20, c!"a\n=")
  else if c == '.' then (.fin 20, c!"1. a\n2. b")
  else if c == '|' then (.fin 20, c!"|a|\n|---|\n|b|")
  else if c == '[' || c == ']' || c == '(' || c == ')' then (.fin 3, c!"[a b](c d)")
  else if c == ':' then (.fin 20, c!"[a]:\nb")
  else if c == '\\' then (.fin 20, c!"| a\\|b |\n|---|")
  else if c == '\'' || c == '"' then (.fin 3, c!"[a]: b " ++ [c] ++ c!"c\nd" ++ [c])
  else if isDigit c then (.fin 20, [c] ++ c!". a\n" ++ [c] ++ c!". b")
  else (.fin 20, c!"a<br/>b")

theorem showMark_shows : ∀ c ∈ allMarks, reformatMarkdownText 5 (showMark c).1 ((showMark c).2.map (swapChar c 'Q')) ≠
    (reformatMarkdownText 5 (showMark c).1 (showMark c).2).map (List.map (swapChar c 'Q')) := by
  decide +kernel

theorem swap_conj (c d x : Char) (hcd : c ≠ d) (hc : c ≠ 'Q') :
    swapChar c d (swapChar 'Q' d x) = swapChar 'Q' d (swapChar c 'Q' x) := by
  unfold swapChar
  by_cases h1 : x = 'Q'
  · subst h1
    by_cases h2 : d = 'Q'
    · subst h2; simp [hc, Ne.symm hc]
    · simp [hcd, hc, Ne.symm hc, Ne.symm hcd]
  · by_cases h2 : x = d
    · subst h2
      simp [h1, Ne.symm h1, Ne.symm hcd, Ne.symm hc]
    · by_cases h3 : x = c
      · subst h3; simp [h1, h2]
      · simp [h1, h2, h3]

/-- **C131**, the list is exact: the exchange of a character with one that is not on the list is noticed for some text exactly if the
character is on the list. -/
theorem C131_exact (c d : Char) (hd : isMark d = false) : isMark c = true ↔
    ∃ n w t, reformatMarkdownText n w (t.map (swapChar c d)) ≠ (reformatMarkdownText n w t).map (List.map (swapChar c d)) := by
  constructor
  · intro hc
    have hcd : c ≠ d := fun e => by rw [e, hd] at hc; cases hc
    have hcQ : c ≠ 'Q' := fun e => by rw [e] at hc; exact absurd hc (by decide)
    have hg := swapChar_renaming (c := 'Q') (d := d) (by decide) hd
    refine ⟨5, (showMark c).1, (showMark c).2.map (swapChar 'Q' d), fun e => showMark_shows c (mem_allMarks hc) ?_⟩
    have key : ∀ s : Str, (s.map (swapChar 'Q' d)).map (swapChar c d) = (s.map (swapChar c 'Q')).map (swapChar 'Q' d) := fun s => by
      simp only [List.map_map]
      congr 1
      funext x
      exact swap_conj c d x hcd hcQ
    rw [key, C131_rename hg, C131_rename hg] at e
    revert e
    cases reformatMarkdownText 5 (showMark c).1 ((showMark c).2.map (swapChar c 'Q')) with
    | error e1 =>
      cases reformatMarkdownText 5 (showMark c).1 (showMark c).2 with
      | error e2 => simp [Except.map]
      | ok o2 => simp [Except.map]
    | ok o1 =>
      cases reformatMarkdownText 5 (showMark c).1 (showMark c).2 with
      | error e2 => simp [Except.map]
      | ok o2 =>
        simp only [Except.map, Except.ok.injEq, key]
        exact map_inj hg.1
  · rintro ⟨n, w, t, hne⟩
    cases hc : isMark c with
    | true => rfl
    | false => exact absurd (C131_rename (swapChar_renaming hc hd) n w t) hne

/-- **C131** is not vacuous: a text with a heading, a list in a quote and a link, and the same text in other letters. -/
theorem C131_example :
    Renaming (swapChar 'a' 'é') ∧
    reformatMarkdownText 5 (.fin 12) c!"#  aha\n>* a [a c](a d) ca\n> e, aa" =
      .ok c!"# aha\n>* a [a c](\n>  a d) ca\n>  e, aa\n" ∧
    reformatMarkdownText 5 (.fin 12) c!"#  éhé\n>* é [é c](é d) cé\n> e, éé" =
      .ok c!"# éhé\n>* é [é c](\n>  é d) cé\n>  e, éé\n" :=
  ⟨swapChar_renaming (by decide) (by decide), by decide +kernel, by decide +kernel⟩

end MF
