import Verif.Props.Parse
import Verif.Model.Format
import Verif.Lemmas.WrapLines
/-!
# C16, C33: setext headings and paragraphs

`fmtSection sub w i ty lines` is `FORMATTERS[ty](i, lines).reformatted(w)`. The lines of a string are `splitlines` of
it. `wrap` is the subject of `Props/Wrap.lean`.
-/

namespace MF

/-- every section of a parsed document is what one of the splitters takes off the lines from there on -/
theorem parse_section {n : Nat} {lines : List Str} {secs : List (Sec × List Str)} (h : parse n lines = .ok secs)
    {ty : Sec} {content : List Str} (hm : (ty, content) ∈ secs) :
    ∃ f rest, (ty, f) ∈ splitters (splitQuote n) ∧ content ≠ [] ∧ f (content ++ rest) = .ok (content, rest) := by
  have key : ∀ fuel lines secs, parseLoop (splitQuote n) fuel lines = .ok secs → (ty, content) ∈ secs →
      ∃ f rest, (ty, f) ∈ splitters (splitQuote n) ∧ content ≠ [] ∧ f (content ++ rest) = .ok (content, rest) := by
    intro fuel
    induction fuel with
    | zero =>
      intro lines secs h hm
      cases lines with
      | nil => cases h; cases hm
      | cons l ls => cases h
    | succ fuel ih =>
      intro lines secs h hm
      cases lines with
      | nil => cases h; cases hm
      | cons l ls =>
        simp only [parseLoop, bind, Except.bind] at h
        split at h
        · cases h
        · rename_i r hr
          split at h
          · cases h
          · rename_i rest hrest
            cases h
            rcases List.mem_cons.1 hm with hm | hm
            · cases hm
              obtain ⟨h1, h2, f, h3, h4⟩ := firstSection_keeps (splitters_keep n) hr
              exact ⟨f, r.2.2, h3, h2, by rw [h1]; exact h4⟩
            · exact ih _ _ hrest hm
  exact key _ _ _ h hm

theorem splitSetext_shape {sbq : List Str → Split} {lines a b : List Str} (h : splitSetext sbq lines = .ok (a, b))
    (ha : a ≠ []) : ∃ body under, a = body ++ [under] ∧ body ≠ [] ∧ isSetextUnderline under = true ∧
      ∀ l, body.head? = some l → isParStart l = true := by
  simp only [splitSetext, bind, Except.bind] at h
  split at h
  · cases h
  · rename_i r hr
    split at h
    · rename_i p ps l ls h1 h2
      split at h
      · rename_i hu
        cases h
        refine ⟨p :: ps, l, by simp, by simp, hu, ?_⟩
        intro x hx
        cases hx
        cases lines with
        | nil => cases hr
        | cons y ys =>
          obtain ⟨r1, r2⟩ := r
          dsimp only at h1 h2
          subst h1
          have hk := splitParIgn_keeps sbq _ _ _ _ hr
          cases hk
          cases hp : isParStart p with
          | true => rfl
          | false => exact absurd ((splitParIgn_nil hr).2 hp) (by simp)
      · cases h; exact absurd rfl ha
    · cases h; exact absurd rfl ha

/-- A setext section of a parsed document: heading lines, the first of which can start a paragraph, and an
underline. -/
theorem parse_setext {n : Nat} {lines : List Str} {secs : List (Sec × List Str)} (h : parse n lines = .ok secs)
    {content : List Str} (hm : (Sec.setext, content) ∈ secs) :
    ∃ body under, content = body ++ [under] ∧ body ≠ [] ∧ isSetextUnderline under = true := by
  obtain ⟨f, rest, h1, h2, h3⟩ := parse_section h hm
  have hf : f = splitSetext (splitQuote n) := by simpa [splitters] using h1
  subst hf
  obtain ⟨body, under, g1, g2, g3, _⟩ := splitSetext_shape h3 h2
  exact ⟨body, under, g1, g2, g3⟩

/-! ## C16 -/

theorem foldl_max (ls : List Str) : ∀ (m : Nat), (∀ l ∈ ls, l.length ≤ ls.foldl (fun n s => max n s.length) m) ∧
    m ≤ ls.foldl (fun n s => max n s.length) m ∧
    (ls.foldl (fun n s => max n s.length) m = m ∨ ∃ l ∈ ls, l.length = ls.foldl (fun n s => max n s.length) m) := by
  induction ls with
  | nil => intro m; simp
  | cons l ls ih =>
    intro m
    obtain ⟨h1, h2, h3⟩ := ih (max m l.length)
    refine ⟨?_, ?_, ?_⟩
    · intro x hx
      rcases List.mem_cons.1 hx with rfl | hx
      · exact Nat.le_trans (Nat.le_max_right ..) h2
      · exact h1 x hx
    · exact Nat.le_trans (Nat.le_max_left ..) h2
    · simp only [List.foldl_cons]
      rcases h3 with h3 | ⟨x, hx, h3⟩
      · rw [h3]
        rcases Nat.le_total m l.length with h | h
        · right; exact ⟨l, by simp, by omega⟩
        · left; omega
      · right; exact ⟨x, by simp [hx], h3⟩

theorem maxLen_ok {ls : List Str} {m : Nat} (h : maxLen ls = .ok m) :
    (∀ l ∈ ls, l.length ≤ m) ∧ ∃ l ∈ ls, l.length = m := by
  cases ls with
  | nil => cases h
  | cons l ls =>
    cases h
    obtain ⟨h1, h2, h3⟩ := foldl_max ls l.length
    refine ⟨?_, ?_⟩
    · intro x hx
      rcases List.mem_cons.1 hx with rfl | hx
      · exact h2
      · exact h1 x hx
    · rcases h3 with h3 | ⟨x, hx, h3⟩
      · exact ⟨l, by simp, h3.symm⟩
      · exact ⟨x, by simp [hx], h3⟩

theorem underline_char {l : Str} (h : isSetextUnderline l = true) :
    ∃ c r, strip l = c :: r ∧ (c = '=' ∨ c = '-') ∧ ∀ x ∈ l, isWs x = true ∨ x = c := by
  simp only [isSetextUnderline, Bool.and_eq_true, Bool.or_eq_true, Bool.not_eq_true', List.all_eq_true,
    beq_iff_eq] at h
  obtain ⟨⟨_, hne⟩, hall⟩ := h
  cases hs : strip l with
  | nil => rw [hs] at hne; cases hne
  | cons c r =>
    have hmem : ∀ x ∈ l, isWs x = true ∨ x ∈ strip l := by
      intro x hx
      obtain ⟨a, b, hab, ha, hb⟩ := strip_split l
      rw [hab] at hx
      rcases List.mem_append.1 hx with hx | hx
      · exact .inl (ha x hx)
      · rcases List.mem_append.1 hx with hx | hx
        · exact .inr hx
        · exact .inl (hb x hx)
    rcases hall with hall | hall
    · have hc := hall c (by rw [hs]; simp)
      exact ⟨c, r, rfl, .inl hc, fun x hx => (hmem x hx).imp_right fun hx => by rw [hall x hx, hc]⟩
    · have hc := hall c (by rw [hs]; simp)
      exact ⟨c, r, rfl, .inr hc, fun x hx => (hmem x hx).imp_right fun hx => by rw [hall x hx, hc]⟩

theorem underline_replicate {c : Char} (hc : c = '=' ∨ c = '-') {m : Nat} (hm : 0 < m) :
    isSetextUnderline (List.replicate m c) = true := by
  have hw : isWs c = false := by rcases hc with rfl | rfl <;> decide
  have hall : ∀ x ∈ List.replicate m c, isWs x = false := fun x hx => by rw [List.eq_of_mem_replicate hx]; exact hw
  have hs := strip_noWs _ hall
  obtain ⟨k, rfl⟩ : ∃ k, m = k + 1 := ⟨m - 1, by omega⟩
  have hi : isIndentedStart (List.replicate (k + 1) c) = false := by
    have h0 : getIndent (List.replicate (k + 1) c) = 0 := by
      unfold getIndent
      rw [List.replicate_succ, lstrip_cons_of_not _ _ hw]
      omega
    simp [isIndentedStart, h0]
  simp only [isSetextUnderline, hi, hs]
  rcases hc with rfl | rfl <;> simp

/-- C16: a setext heading becomes its wrapped text and one underline of the original character, as long as the longest
line of the text. -/
theorem C16_setext (sub : Width → Str → Except Err Str) (w : Width) (i : Nat) (body : List Str) (under out : Str)
    (hu : isSetextUnderline under = true) (h : fmtSection sub w i .setext (body ++ [under]) = .ok out) :
    ∃ heading c m, wrap (pyJoin [' '] (body.map strip)) w = .ok heading ∧
      (c = '=' ∨ c = '-') ∧ (∀ x ∈ under, isWs x = true ∨ x = c) ∧
      splitlines out = splitlines heading ++ [List.replicate m c] ∧
      (∀ l ∈ splitlines heading, l.length ≤ m) ∧ (∃ l ∈ splitlines heading, l.length = m) ∧
      isSetextUnderline (List.replicate m c) = true := by
  simp only [fmtSection, fmtSetext] at h
  split at h
  · cases h
  · simp only [List.dropLast_concat, bind, Except.bind, parContent] at h
    split at h
    · cases h
    · rename_i heading hh
      split at h
      · cases h
      · rename_i m hm
        obtain ⟨c, r, h1, h2, h3⟩ := underline_char hu
        have hl : (body ++ [under]).getLastD [] = under := by simp
        rw [hl, h1] at h
        cases h
        obtain ⟨m1, l, m2, m3⟩ := maxLen_ok hm
        obtain ⟨w1, w2, w3⟩ := wrap_shape hh
        have hpos : 0 < m := by
          obtain ⟨d, r, hd, _⟩ := (w1 l m2).1
          rw [← m3, hd]; simp
        have hcl : NoLB (List.replicate m c) := by
          intro x hx
          rw [List.eq_of_mem_replicate hx]
          rcases h2 with rfl | rfl <;> decide
        refine ⟨heading, c, m, hh, h2, h3, ?_, m1, ⟨l, m2, m3⟩, underline_replicate h2 hpos⟩
        have hne : splitlines heading ≠ [] := by intro h0; rw [h0] at m2; cases m2
        have hjoin : heading ++ ['\n'] ++ List.replicate m c =
            pyJoin ['\n'] (splitlines heading ++ [List.replicate m c]) := by
          rw [pyJoin_append hne (by simp), ← w2]; rfl
        rw [hjoin, splitlines_join]
        · intro x hx
          rcases List.mem_append.1 hx with hx | hx
          · exact (w1 x hx).2
          · simp at hx; rw [hx]; exact hcl
        · simp; omega

/-- When the text of the heading can be wrapped, and is not empty, the heading can be formatted. -/
theorem C16_setext_returns (sub : Width → Str → Except Err Str) (w : Width) (i : Nat) (body : List Str)
    (under heading : Str) (hb : body ≠ []) (hu : isSetextUnderline under = true)
    (hw : wrap (pyJoin [' '] (body.map strip)) w = .ok heading) (hne : heading ≠ []) :
    ∃ out, fmtSection sub w i .setext (body ++ [under]) = .ok out := by
  obtain ⟨c, r, h1, h2, h3⟩ := underline_char hu
  have hlen : ¬ (body ++ [under]).length < 2 := by
    cases body with
    | nil => exact absurd rfl hb
    | cons => simp
  have hl : (body ++ [under]).getLastD [] = under := by simp
  obtain ⟨_, w2, _⟩ := wrap_shape hw
  cases hs : splitlines heading with
  | nil => rw [hs] at w2; exact absurd w2 hne
  | cons x xs =>
    simp only [fmtSection, fmtSetext, hlen, if_false, List.dropLast_concat, parContent, hw, hs, maxLen, bind,
      Except.bind, hl, h1]
    exact ⟨_, rfl⟩

example : fmtSection (fun _ _ => .error .runtime) (.fin 12) 0 .setext [c!"A rather long", c!" heading", c!" --- "] =
    .ok c!"A rather\nlong heading\n------------" := by decide +kernel

example : (parse 3 [c!"A rather long", c!" heading", c!" --- ", c!"b"]).map (·.map (·.1)) = .ok [.setext, .par] := by
  decide +kernel

/-! ## C33 -/

/-- C33: what a paragraph is rewritten to is its wrapped text, which does not end in whitespace, followed by two spaces
if the last line of the paragraph ended in two spaces, and by nothing otherwise. -/
theorem C33_hard_breaks (sub : Width → Str → Except Err Str) (w : Width) (i : Nat) (body : List Str) (last out : Str)
    (h : fmtSection sub w i .par (body ++ [last]) = .ok out) :
    ∃ text, wrap (pyJoin [' '] ((body ++ [last]).map strip)) w = .ok text ∧
      (text = [] ∨ ∃ r c, text = r ++ [c] ∧ isWs c = false) ∧
      ((∃ r, last = r ++ c!"  ") → out = text ++ c!"  ") ∧ ((¬ ∃ r, last = r ++ c!"  ") → out = text) := by
  simp only [fmtSection, fmtPar, bind, Except.bind, parContent] at h
  split at h
  · cases h
  · rename_i text ht
    rw [List.getLast?_concat] at h
    cases h
    refine ⟨text, ht, ?_, ?_, ?_⟩
    · rcases (wrap_shape ht).2.2 with h | h
      · exact .inl h
      · exact .inr h.ends
    · intro hr
      rw [if_pos ((endsWith_iff last c!"  ").2 hr)]
    · intro hr
      rw [if_neg]
      intro hc
      exact hr ((endsWith_iff last c!"  ").1 hc)

/-- C33, lines: with spaces as the only horizontal whitespace no line of the wrapped text ends in whitespace either. -/
theorem C33_lines (sub : Width → Str → Except Err Str) (w : Width) (i : Nat) (body : List Str) (last out : Str)
    (hsp : ∀ l ∈ body ++ [last], OnlySpaces l)
    (h : fmtSection sub w i .par (body ++ [last]) = .ok out) :
    ∃ lines, (∀ l ∈ lines, ∃ r c, l = r ++ [c] ∧ isWs c = false) ∧
      out = pyJoin ['\n'] lines ++ (if endsWith last c!"  " then c!"  " else []) := by
  simp only [fmtSection, fmtPar, bind, Except.bind, parContent] at h
  split at h
  · cases h
  · rename_i text ht
    rw [List.getLast?_concat] at h
    cases h
    refine ⟨splitlines text, ?_, ?_⟩
    · intro l hl
      refine (wrap_lines_stripped ht ?_ l hl).ends
      intro c hc hw
      rcases mem_pyJoin hc with hc | ⟨x, hx, hc⟩
      · left; simpa using hc
      · obtain ⟨y, hy, rfl⟩ := List.mem_map.1 hx
        exact hsp y hy c (mem_of_mem_strip hc) hw
    · rw [← (wrap_shape ht).2.1]
      split <;> simp

example : fmtSection (fun _ _ => .error .runtime) (.fin 7) 0 .par [c!" one two ", c!"three  "] =
    .ok c!"one two\nthree  " ∧
    fmtSection (fun _ _ => .error .runtime) (.fin 7) 0 .par [c!"one two  ", c!"three "] = .ok c!"one two\nthree" := by
  decide +kernel

end MF
