import Verif.Props.Quotes
import Verif.Props.Lrd
/-!
# C32: trailing whitespace
-/

namespace MF

/-- the line is empty or does not end in whitespace -/
def CleanLine (l : Str) : Prop := l = [] ∨ ∃ r c, l = r ++ [c] ∧ isWs c = false

/-- all lines of a text with `\n` as separator are clean -/
def Clean (s : Str) : Prop := ∀ l ∈ splitChar '\n' s, CleanLine l

theorem splitChar_append (sep : Char) (a b : Str) : splitChar sep (a ++ sep :: b) = splitChar sep a ++ splitChar sep b := by
  induction a with
  | nil => simp [splitChar]
  | cons c a ih =>
    simp only [List.cons_append, splitChar, ih]
    split
    · rfl
    · cases h : splitChar sep a with
      | nil => exact absurd h (splitChar_ne_nil sep a)
      | cons x xs => rfl

theorem Clean.nl {a b : Str} (ha : Clean a) (hb : Clean b) : Clean (a ++ '\n' :: b) := by
  intro l hl
  rw [splitChar_append] at hl
  rcases List.mem_append.1 hl with h | h
  · exact ha l h
  · exact hb l h

theorem Clean.nil : Clean [] := by
  intro l hl
  simp [splitChar] at hl
  exact .inl hl

theorem Clean.pyJoin {ls : List Str} (h : ∀ l ∈ ls, Clean l) : Clean (pyJoin ['\n'] ls) := by
  induction ls with
  | nil => exact Clean.nil
  | cons x xs ih =>
    cases xs with
    | nil => exact h x (by simp)
    | cons y ys =>
      simp only [MF.pyJoin]
      rw [List.append_assoc]
      exact (h x (by simp)).nl (ih fun l hl => h l (by simp [List.mem_cons.1 hl]))

theorem Clean.of_line {l : Str} (h : '\n' ∉ l) (hl : CleanLine l) : Clean l := by
  intro x hx
  rw [splitChar_noSep _ _ h] at hx
  simp at hx
  exact hx ▸ hl

theorem NoLB.no_nl {l : Str} (h : NoLB l) : '\n' ∉ l := fun hm => by have := h _ hm; revert this; decide

theorem cleanLine_of_ends {l : Str} (h : EndsNonWs l) : CleanLine l := .inr h

theorem rstrip_clean (l : Str) : CleanLine (rstrip l) := rstrip_last l

theorem wrap_clean {text s : Str} {w : Width} (h : wrap text w = .ok s) (ho : OnlySpaces text) : Clean s := by
  obtain ⟨h1, h2, _⟩ := wrap_shape h
  rw [h2]
  apply Clean.pyJoin
  intro l hl
  exact Clean.of_line (h1 l hl).2.no_nl (cleanLine_of_ends (wrap_lines_stripped h ho l hl).ends)

theorem onlySpaces_of_mem {a : Str} (h : ∀ c ∈ a, isWs c = true → c = ' ') : OnlySpaces a :=
  fun c hc hw => .inl (h c hc hw)

theorem parContent_spaces {lines : List Str} (h : ∀ l ∈ lines, ∀ c ∈ l, isWs c = true → c = ' ') :
    OnlySpaces (parContent lines) := by
  apply onlySpaces_of_mem
  intro c hc hw
  rcases mem_pyJoin hc with h1 | ⟨l, hl, hc⟩
  · simpa using h1
  · obtain ⟨x, hx, rfl⟩ := List.mem_map.1 hl
    exact h x hx c (mem_of_mem_strip hc) hw

theorem spaces_noLB {l : Str} (h : ∀ c ∈ l, isWs c = true → c = ' ') : NoLB l := by
  intro c hc
  cases hl : isLB c with
  | false => rfl
  | true =>
    have := h c hc (isLB_ws hl)
    rw [this] at hl; revert hl; decide

theorem replicate_clean (n : Nat) {c : Char} (h : isWs c = false) : Clean (List.replicate n c) := by
  apply Clean.of_line
  · intro hm
    have := List.eq_of_mem_replicate hm
    rw [← this] at h; revert h; decide
  · cases n with
    | zero => exact .inl rfl
    | succ n => exact .inr ⟨List.replicate n c, c, by rw [← List.replicate_succ'], h⟩

theorem tableRow_clean {cells : List Str} (h : ∀ c ∈ cells, NoLB c) : Clean (tableRow cells) := by
  apply Clean.of_line
  · intro hm
    unfold tableRow at hm
    simp only [List.mem_append, List.mem_singleton] at hm
    rcases hm with (hm | hm) | hm
    · revert hm; decide
    · rcases mem_pyJoin hm with h1 | ⟨l, hl, hc⟩
      · simp at h1
      · exact (h l hl).no_nl hc
    · revert hm; decide
  · exact .inr ⟨['|'] ++ pyJoin ['|'] cells, '|', rfl, by decide⟩

theorem zipCells_noLB {f : Str → Nat → Align → Str} (hf : ∀ c w a, NoLB c → NoLB (f c w a)) :
    ∀ cs ws as, (∀ c ∈ cs, NoLB c) → ∀ x ∈ zipCells f cs ws as, NoLB x := by
  intro cs
  induction cs with
  | nil => intro ws as _ x hx; simp [zipCells] at hx
  | cons c cs ih =>
    intro ws as h x hx
    match ws, as with
    | [], _ => simp [zipCells] at hx
    | _ :: _, [] => simp [zipCells] at hx
    | w :: ws, a :: as =>
      simp only [zipCells, List.mem_cons] at hx
      rcases hx with rfl | hx
      · exact hf _ _ _ (h c (by simp))
      · exact ih ws as (fun c hc => h c (by simp [hc])) x hx

theorem replicate_noLB (n : Nat) {c : Char} (h : isLB c = false) : NoLB (List.replicate n c) := fun x hx => by
  rw [List.eq_of_mem_replicate hx]; exact h

theorem align_noLB {s : Str} (h : NoLB s) (w : Nat) :
    NoLB (centerAlign s w) ∧ NoLB (leftAlign s w) ∧ NoLB (rightAlign s w) := by
  have hsp : ∀ n, NoLB (mul ' ' n) := fun n => replicate_noLB _ (by decide)
  exact ⟨((hsp _).append h).append (hsp _), h.append (hsp _), (hsp _).append h⟩

theorem headerCell_noLB (c : Str) (w : Nat) (a : Align) (h : NoLB c) : NoLB (headerCell c w a) := by
  have hsp : NoLB [' '] := replicate_noLB 1 (by decide)
  obtain ⟨h1, h2, h3⟩ := align_noLB (h.of_mem fun _ hx => mem_of_mem_strip hx) w
  cases a
  · exact (hsp.append h1).append hsp
  · exact (hsp.append h1).append hsp
  · exact (hsp.append h2).append hsp
  · exact (hsp.append h3).append hsp

theorem bodyCell_noLB (c : Str) (w : Nat) (a : Align) (h : NoLB c) : NoLB (bodyCell c w a) := by
  have hsp : NoLB [' '] := replicate_noLB 1 (by decide)
  obtain ⟨h1, h2, h3⟩ := align_noLB (h.of_mem fun _ hx => mem_of_mem_strip hx) w
  cases a
  · exact (hsp.append h2).append hsp
  · exact (hsp.append h1).append hsp
  · exact (hsp.append h2).append hsp
  · exact (hsp.append h3).append hsp

theorem dividerCell_noLB (w : Nat) (a : Align) : NoLB (dividerCell w a) := by
  have hd : NoLB (List.replicate w '-') := replicate_noLB w (by decide)
  have h1 : NoLB [':'] := replicate_noLB 1 (by decide)
  have h2 : NoLB ['-'] := replicate_noLB 1 (by decide)
  cases a
  · exact (h2.append hd).append h2
  · exact (h1.append hd).append h1
  · exact (h1.append hd).append h2
  · exact (h2.append hd).append h1

theorem fmtLrd_clean {w : Width} {lines : List Str} {out : Str} (h : fmtLrd w lines = .ok out) (hs : StartsLabel lines)
    (hsp : ∀ l ∈ lines, ∀ c ∈ l, isWs c = true → c = ' ') : Clean out := by
  have hjoin : ∀ c ∈ pyJoin [' '] lines, isWs c = true → c = ' ' := by
    intro c hc hw
    rcases mem_pyJoin hc with h1 | ⟨l, hl, hc⟩
    · simpa using h1
    · exact hsp l hl c hc hw
  obtain ⟨name, link, title, hp, h1, h2, h3, h4, h5, h6, h7, h8⟩ := lrd_parts hs fun l hl => spaces_noLB (hsp l hl)
  have hlinkLB : NoLB link := fun c hc => by
    cases hc2 : isLB c with
    | false => rfl
    | true => have := h4 c hc; rw [isLB_ws hc2] at this; cases this
  have hname : ∀ c ∈ name, isWs c = true → c = ' ' := by
    obtain ⟨pre, body, e1, _⟩ := lrdParts_shape hp
    intro c hc hw
    exact hjoin c (by rw [e1]; simp [hc]) hw
  have htitle : ∀ c ∈ title, isWs c = true → c = ' ' := by
    intro c hc hw
    rw [h5] at hc
    rcases mem_pyJoin hc with h0 | ⟨l, hl, hc⟩
    · simpa using h0
    · rw [(splitWs_word hl).2.1 c hc] at hw; cases hw
  have hheadLB : NoLB (['['] ++ name ++ c!"]:") :=
    NoLB.append (NoLB.append (replicate_noLB 1 (by decide)) h1)
      (by intro c hc; exact (by decide : ∀ c ∈ c!"]:", isLB c = false) c hc)
  have hhead : Clean (['['] ++ name ++ c!"]:") := Clean.of_line hheadLB.no_nl (.inr ⟨['['] ++ name ++ [']'], ':', by simp, by decide⟩)
  have hlink : CleanLine link := by
    rcases List.eq_nil_or_concat link with h0 | ⟨r, c, h0⟩
    · exact .inl h0
    · exact .inr ⟨r, c, by simpa using h0, h4 c (by simp [h0])⟩
  simp only [fmtLrd, bind, Except.bind, hp] at h
  split at h
  · cases h; exact hhead
  · rename_i he
    have he' : link ≠ [] := by simpa using he
    have hlinkEnd : EndsNonWs link := by
      rcases hlink with h0 | h0
      · exact absurd h0 he'
      · exact h0
    split at h
    · cases h
    · rename_i l0 rest
      have hstr : Clean (if isIn link l0 = true then ['['] ++ name ++ c!"]:" ++ [' '] ++ link
            else ['['] ++ name ++ c!"]:" ++ ['\n'] ++ link) := by
        split
        · exact Clean.of_line ((hheadLB.append (replicate_noLB 1 (by decide))).append hlinkLB).no_nl
            (.inr (hlinkEnd.prepend _))
        · rw [List.append_assoc]
          exact hhead.nl (Clean.of_line hlinkLB.no_nl hlink)
      generalize hstrq : (if isIn link l0 = true then ['['] ++ name ++ c!"]:" ++ [' '] ++ link
            else ['['] ++ name ++ c!"]:" ++ ['\n'] ++ link) = str at h hstr
      have hstrsp : ∀ l ∈ splitlines str, (∀ c ∈ l, isWs c = true → c = ' ') ∧ CleanLine l := by
        have hchars : ∀ c ∈ ['['] ++ name ++ c!"]:", isWs c = true → c = ' ' := by
          intro c hc hw
          simp only [List.mem_append] at hc
          rcases hc with (hc | hc) | hc
          · simp at hc; rw [hc] at hw; exact absurd hw (by decide)
          · exact hname c hc hw
          · revert hw
            exact (by decide : ∀ c ∈ c!"]:", isWs c = true → c = ' ') c hc
        have hlw : ∀ c ∈ link, isWs c = true → c = ' ' := by
          intro c hc hw; rw [h4 c hc] at hw; cases hw
        intro l hl
        by_cases hon : isIn link l0 = true
        · simp only [hon, if_true] at hstrq
          rw [← hstrq, splitlines_single _ ((hheadLB.append (b := [' ']) (replicate_noLB 1 (by decide))).append hlinkLB) (by simp)] at hl
          simp only [List.mem_singleton] at hl
          subst hl
          refine ⟨?_, .inr (hlinkEnd.prepend _)⟩
          intro c hc hw
          rcases List.mem_append.1 hc with hc | hc
          · rcases List.mem_append.1 hc with hc | hc
            · exact hchars c hc hw
            · simpa using hc
          · exact hlw c hc hw
        · simp only [hon, if_false, Bool.false_eq_true] at hstrq
          rw [List.append_assoc] at hstrq
          have hsl : splitlines str = [['['] ++ name ++ c!"]:", link] := by
            rw [← hstrq]
            show splitlines (['['] ++ name ++ c!"]:" ++ '\n' :: link) = _
            rw [splitlines_line _ hheadLB, splitlines_single _ hlinkLB he']
          rw [hsl] at hl
          simp only [List.mem_cons, List.not_mem_nil, or_false] at hl
          rcases hl with rfl | rfl
          · exact ⟨hchars, .inr ⟨['['] ++ name ++ [']'], ':', by simp, by decide⟩⟩
          · exact ⟨hlw, hlink⟩
      split at h
      · cases h; exact hstr
      · split at h
        · split at h
          · split at h
            · split at h
              · cases h
              · rename_i hw
                cases h
                apply Clean.pyJoin
                intro x hx
                rcases List.mem_append.1 hx with hx | hx
                · have := hstrsp x ((List.dropLast_sublist _).subset hx)
                  exact Clean.of_line (spaces_noLB this.1).no_nl this.2
                · simp only [List.mem_singleton] at hx
                  subst hx
                  apply wrap_clean hw
                  apply onlySpaces_of_mem
                  intro c hc hw'
                  rcases List.mem_append.1 hc with hc | hc
                  · rcases List.mem_append.1 hc with hc | hc
                    · cases hlast : (splitlines str).getLast? with
                      | none => rw [List.getLastD_eq_getLast?, hlast] at hc; cases hc
                      | some z =>
                        rw [List.getLastD_eq_getLast?, hlast] at hc
                        exact (hstrsp z (getLast?_mem hlast)).1 c hc hw'
                    · simpa using hc
                  · exact htitle c hc hw'
            · split at h
              · cases h
              · rename_i hw
                cases h
                exact Clean.nl (a := []) Clean.nil (wrap_clean hw (onlySpaces_of_mem htitle))
          · split at h
            · cases h
            · rename_i hw
              cases h
              rw [List.append_assoc]
              exact hstr.nl (wrap_clean hw (onlySpaces_of_mem htitle))
        · cases h

/-- Sections other than lists are written without trailing whitespace, if no other whitespace than spaces is used, if
a heading is not empty and if a paragraph does not end in a hard line break. -/
theorem fmtSection_clean {sub : Width → Str → Except Err Str} {w : Width} {i : Nat} {ty : Sec} {lines : List Str}
    {out : Str} (h : fmtSection sub w i ty lines = .ok out) (hsp : ∀ l ∈ lines, ∀ c ∈ l, isWs c = true → c = ' ')
    (h1 : ty ≠ .bullet) (h2 : ty ≠ .ordered) (h3 : ty = .atx → ∀ l ∈ lines, atxContent l ≠ [])
    (h4 : ty = .par → ∀ l ∈ lines, endsWith l c!"  " = false) (h5 : ty = .lrd → StartsLabel lines) : Clean out := by
  have hnl : ∀ l ∈ lines, NoLB l := fun l hl => spaces_noLB (hsp l hl)
  cases ty with
  | bullet => exact absurd rfl h1
  | ordered => exact absurd rfl h2
  | atx =>
    cases lines with
    | nil => cases h
    | cons l ls =>
      cases h
      have hne := h3 rfl l (by simp)
      apply Clean.of_line
      · intro hm
        simp only [List.mem_append, List.mem_replicate, List.mem_singleton] at hm
        rcases hm with (⟨_, hm⟩ | hm) | hm
        · revert hm; decide
        · revert hm; decide
        · exact (hnl l (by simp)).no_nl (mem_of_mem_strip (lstripBy_mem (mem_of_mem_strip hm)))
      · rcases strip_last (lstripBy (· == '#') (strip l)) with h0 | ⟨r, c, h0, hc⟩
        · exact absurd h0 hne
        · refine .inr ⟨List.replicate (atxDepth l) '#' ++ [' '] ++ r, c, ?_, hc⟩
          unfold atxContent
          rw [h0]; simp
  | blank => cases h; exact Clean.nil
  | quote =>
    obtain ⟨text, p, hp, rfl⟩ := fmtQuote_out h
    have h29 := C29_quote_lines sub w i lines _ h
    rw [quoted_splitlines hp] at h29
    apply Clean.pyJoin
    intro l hl
    exact Clean.of_line (quoted_lines hp l hl).1.no_nl (.inr (h29 l hl).2)
  | fenced =>
    cases lines with
    | nil => cases h
    | cons l ls =>
      simp only [fmtSection, fmtFenced] at h
      split at h
      · cases h
      · rename_i c r hr
        cases h
        have hcl : ∀ x ∈ c :: r, isLB x = false := fun x hx => hnl l (by simp) x (mem_of_mem_strip (by rw [hr]; exact hx))
        apply Clean.pyJoin
        intro x hx
        obtain ⟨y, hy, rfl⟩ := List.mem_map.1 hx
        refine Clean.of_line (NoLB.no_nl (NoLB.of_mem ?_ fun c hc => mem_of_mem_rstrip hc)) (rstrip_clean y)
        rcases List.mem_append.1 hy with hy | hy
        · rcases List.mem_append.1 hy with hy | hy
          · simp only [List.mem_singleton] at hy
            subst hy
            intro x hx
            rcases List.mem_append.1 hx with hx | hx
            · rw [List.eq_of_mem_replicate hx]; exact hcl c (by simp)
            · exact hcl x (lstripBy_mem (mem_of_mem_strip hx))
          · exact hnl y (inner_mem hy)
        · simp only [List.mem_singleton] at hy
          subst hy
          intro x hx
          rw [List.eq_of_mem_replicate hx]; exact hcl c (by simp)
  | indented =>
    cases h
    apply Clean.pyJoin
    intro l hl
    obtain ⟨x, hx, rfl⟩ := List.mem_map.1 hl
    exact Clean.of_line ((hnl x hx).of_mem fun c hc => mem_of_mem_rstrip hc).no_nl (rstrip_clean x)
  | lrd => exact fmtLrd_clean h (h5 rfl) hsp
  | par =>
    simp only [fmtSection, fmtPar, bind, Except.bind] at h
    split at h
    · cases h
    · rename_i text ht
      split at h
      · cases h
      · rename_i l hl
        rw [h4 rfl l (getLast?_mem hl)] at h
        cases h
        exact wrap_clean ht (parContent_spaces hsp)
  | setext =>
    simp only [fmtSection, fmtSetext, bind, Except.bind] at h
    split at h
    · cases h
    · split at h
      · cases h
      · rename_i text ht
        split at h
        · cases h
        · split at h
          · cases h
          · rename_i c r hr
            cases h
            rw [List.append_assoc]
            apply Clean.nl
            · exact wrap_clean ht (parContent_spaces fun l hl => hsp l ((List.dropLast_sublist _).subset hl))
            · apply replicate_clean
              rcases strip_head (lines.getLastD []) with h0 | ⟨c', r', h0, hc⟩
              · rw [h0] at hr; cases hr
              · rw [h0] at hr; cases hr; exact hc
  | table =>
    match lines with
    | [] => cases h
    | [_] => cases h
    | header :: divider :: body =>
      simp only [fmtSection, fmtTable, bind, Except.bind] at h
      split at h
      · cases h
      · cases h
        apply Clean.pyJoin
        intro l hl
        rcases List.mem_cons.1 hl with rfl | hl
        · apply tableRow_clean
          apply zipCells_noLB headerCell_noLB
          intro c hc
          exact (hnl header (by simp)).of_mem fun x hx => splitAt'_mem _ _ _ c (inner_mem hc) x hx
        · rcases List.mem_cons.1 hl with rfl | hl
          · apply tableRow_clean
            intro c hc
            obtain ⟨p, _, rfl⟩ := List.mem_map.1 hc
            exact dividerCell_noLB _ _
          · obtain ⟨b, hb, rfl⟩ := List.mem_map.1 hl
            apply tableRow_clean
            apply zipCells_noLB bodyCell_noLB
            intro c hc
            exact (hnl b (by simp [hb])).of_mem fun x hx => (splitChar_mem _ _ c (inner_mem hc) x hx).1
  | thematic =>
    cases lines with
    | nil => cases h
    | cons l ls =>
      simp only [fmtSection, fmtThematic] at h
      split at h
      · cases h
      · rename_i c r hr
        have hc : isWs c = false := by
          rcases strip_head l with h0 | ⟨c', r', h0, hc⟩
          · rw [h0] at hr; cases hr
          · rw [h0] at hr; cases hr; exact hc
        split at h
        · cases h; exact replicate_clean 3 hc
        · cases h; exact replicate_clean _ hc


theorem natStr_no_nl (k : Nat) : '\n' ∉ natStr k := by
  have : ∀ fuel n, '\n' ∉ digitsAux fuel n := by
    intro fuel
    induction fuel with
    | zero => intro n h; cases h
    | succ fuel ih =>
      intro n
      have hd : ∀ k < 10, Char.ofNat (48 + k) ≠ '\n' := by decide
      simp only [digitsAux]
      split
      · rename_i h
        simp only [List.mem_singleton]
        exact fun h0 => hd _ h h0.symm
      · simp only [List.mem_append, List.mem_singleton, not_or]
        exact ⟨ih _, fun h0 => hd _ (Nat.mod_lt _ (by decide)) h0.symm⟩
  exact this _ _

/-! ## Documents -/

theorem buildFmts_fmt (secs : List (Sec × List Str)) : ∀ i last fs, buildFmts i last secs = .ok fs →
    ∀ f ∈ fs, (f.ty, f.lines) ∈ secs ∨ (f.ty = .blank ∧ f.lines = [[]]) := by
  induction secs with
  | nil => intro i last fs h f hf; cases h; cases hf
  | cons s secs ih =>
    obtain ⟨ty, content⟩ := s
    intro i last fs h f hf
    simp only [buildFmts, bind, Except.bind] at h
    split at h
    · cases h
    · split at h
      · cases h
      · rename_i fs1 h1
        split at h
        · cases h
          simp only [List.mem_cons] at hf
          rcases hf with rfl | rfl | hf
          · exact .inr ⟨rfl, rfl⟩
          · exact .inl (by simp)
          · rcases ih _ _ _ h1 f hf with h2 | h2
            · exact .inl (by simp [h2])
            · exact .inr h2
        · cases h
          simp only [List.mem_cons] at hf
          rcases hf with rfl | hf
          · exact .inl (by simp)
          · rcases ih _ _ _ h1 f hf with h2 | h2
            · exact .inl (by simp [h2])
            · exact .inr h2

theorem fmtAll_mem {sub : Width → Str → Except Err Str} {w : Width} (fs : List Fmt) : ∀ ts, fmtAll sub w fs = .ok ts →
    ∀ t ∈ ts, ∃ f ∈ fs, fmtSection sub w f.lineIndex f.ty f.lines = .ok t := by
  induction fs with
  | nil => intro ts h t ht; cases h; cases ht
  | cons f fs ih =>
    intro ts h t ht
    simp only [fmtAll, bind, Except.bind] at h
    split at h
    · cases h
    · rename_i t1 h1
      split at h
      · cases h
      · rename_i ts1 h2
        cases h
        rcases List.mem_cons.1 ht with rfl | ht
        · exact ⟨f, by simp, mapError_ok h1⟩
        · obtain ⟨g, hg, h3⟩ := ih ts1 h2 t ht
          exact ⟨g, by simp [hg], h3⟩

theorem cleanLine_rstrip (l : Str) (h : CleanLine l) : rstrip l = l := by
  rcases h with rfl | ⟨r, c, rfl, hc⟩
  · rfl
  · exact rstrip_concat_of_not _ _ hc

/-- cut behind a character that is not whitespace, the lines of a text stay, but for the last one -/
theorem splitChar_prefix : ∀ (s : Str) (t : Str), (∃ r c, s = r ++ [c] ∧ isWs c = false) → ∀ l ∈ splitChar '\n' s,
    (∃ r c, l = r ++ [c] ∧ isWs c = false) ∨ l ∈ splitChar '\n' (s ++ t) := by
  intro s t ⟨r, c, hs, hc⟩ l hl
  have hsplit : ∃ pre last, splitChar '\n' s = pre ++ [last] := by
    rcases List.eq_nil_or_concat (splitChar '\n' s) with h1 | ⟨pre, last, h1⟩
    · exact absurd h1 (splitChar_ne_nil _ _)
    · exact ⟨pre, last, by simpa using h1⟩
  obtain ⟨pre, last, hpl⟩ := hsplit
  have hj := pyJoin_splitChar '\n' s
  rw [hpl] at hj hl
  have hlastnl : '\n' ∉ last := by
    intro hm
    exact (splitChar_mem '\n' s last (by rw [hpl]; simp) _ hm).2 rfl
  rcases List.mem_append.1 hl with hl | hl
  · right
    cases hpre : pre with
    | nil => rw [hpre] at hl; cases hl
    | cons x xs =>
      rw [pyJoin_append (by rw [hpre]; simp) (by simp)] at hj
      rw [← hj]
      simp only [MF.pyJoin, List.append_assoc]
      show l ∈ splitChar '\n' (MF.pyJoin ['\n'] pre ++ '\n' :: (last ++ t))
      rw [splitChar_append]
      apply List.mem_append_left
      rw [splitChar_join '\n' pre (fun y hy hm =>
        (splitChar_mem '\n' s y (by rw [hpl]; simp [hy]) _ hm).2 rfl) (by rw [hpre]; simp)]
      exact hl
  · left
    simp only [List.mem_singleton] at hl
    subst hl
    cases hlc : l with
    | nil =>
      exfalso
      rw [hlc] at hj
      cases hpre : pre with
      | nil => rw [hpre] at hj; simp only [List.nil_append, MF.pyJoin] at hj; rw [← hj] at hs; simp at hs
      | cons x xs =>
        rw [pyJoin_append (by rw [hpre]; simp) (by simp)] at hj
        simp only [MF.pyJoin, List.append_nil] at hj
        rw [hs] at hj
        have := (List.append_inj_right' hj rfl)
        simp at this
        rw [← this] at hc; revert hc; decide
    | cons d ds =>
      obtain ⟨r', c', hlast⟩ : ∃ r' c', l = r' ++ [c'] := by
        rcases List.eq_nil_or_concat l with h1 | ⟨r', c', h1⟩
        · rw [hlc] at h1; cases h1
        · exact ⟨r', c', by simpa using h1⟩
      refine ⟨r', c', hlc ▸ hlast, ?_⟩
      have hend : ∃ z, s = z ++ [c'] := by
        cases hpre : pre with
        | nil => rw [hpre] at hj; simp only [List.nil_append, MF.pyJoin] at hj; exact ⟨r', by rw [← hj, hlast]⟩
        | cons x xs =>
          rw [pyJoin_append (by rw [hpre]; simp) (by simp)] at hj
          simp only [MF.pyJoin] at hj
          exact ⟨MF.pyJoin ['\n'] pre ++ ['\n'] ++ r', by rw [← hj, hlast]; simp⟩
      obtain ⟨z, hz⟩ := hend
      rw [hs] at hz
      have := List.append_inj_right' hz rfl
      simp at this
      rw [← this]; exact hc

/-- lines of a clean text stay clean when the end is trimmed -/
theorem Clean.rstrip {s : Str} (h : Clean s) : Clean (rstrip s) := by
  obtain ⟨t, ht, hall⟩ := rstripBy_split isWs s
  have hrs : MF.rstrip s = rstripBy isWs s := rfl
  rw [hrs]
  rcases rstripBy_last isWs s with h0 | ⟨r, c, h0, hc⟩
  · rw [h0]; exact Clean.nil
  · -- the trimmed text is a prefix of `s` that ends in a non-whitespace character
    rw [h0] at ht ⊢
    rw [ht] at h
    clear ht h0 hrs
    intro l hl
    rcases splitChar_prefix (r ++ [c]) t ⟨r, c, rfl, hc⟩ l hl with h1 | h1
    · exact .inr h1
    · exact h l h1

/-- with `\n` as the only line break, `splitlines` gives no other lines than cutting at `\n` -/
theorem splitlines_splitChar : ∀ s : Str, (∀ c ∈ s, isLB c = true → c = '\n') → ∀ l ∈ MF.splitlines s, l ∈ splitChar '\n' s := by
  intro s hn l hl
  have hparts : ∀ x ∈ splitChar '\n' s, NoLB x := by
    intro x hx c hc
    obtain ⟨h1, h2⟩ := splitChar_mem _ _ x hx c hc
    cases h3 : isLB c with
    | false => rfl
    | true => exact absurd (hn c h1 h3) h2
  have hj := pyJoin_splitChar '\n' s
  by_cases hlast : (splitChar '\n' s).getLast? = some []
  · obtain ⟨init, hinit⟩ : ∃ init, splitChar '\n' s = init ++ [[]] := by
      rcases List.eq_nil_or_concat (splitChar '\n' s) with h1 | ⟨pre, last, h1⟩
      · exact absurd h1 (splitChar_ne_nil _ _)
      · rw [h1] at hlast
        simp at hlast
        exact ⟨pre, by rw [h1, hlast]; simp⟩
    rw [hinit] at hj hparts ⊢
    cases hi : init with
    | nil => rw [hi] at hj; simp [MF.pyJoin] at hj; rw [hj] at hl; cases hl
    | cons x xs =>
      rw [pyJoin_append (by rw [hi]; simp) (by simp)] at hj
      simp only [MF.pyJoin, List.append_nil] at hj
      rw [← hj, splitlines_join_nl _ (fun y hy => hparts y (by simp [hy])) (by rw [hi]; simp)] at hl
      rw [← hi]
      exact List.mem_append_left _ hl
  · rw [← hj, splitlines_join _ hparts hlast] at hl
    exact hl

theorem Clean.splitlines {s : Str} (h : Clean s) (hn : ∀ c ∈ s, isLB c = true → c = '\n') :
    ∀ l ∈ splitlines s, CleanLine l := by
  exact fun l hl => h l (splitlines_splitChar s hn l hl)

/-- Full statement of C32: no line of the result ends in whitespace. False of the code: `C32_refuted_hard_break`,
`C32_refuted_heading`, `C32_refuted_entry`. -/
def C32_statement : Prop := ∀ (n : Nat) (w : Width) (text y : Str), reformatMarkdownText n w text = .ok y →
  ∀ l ∈ splitlines y, CleanLine l

/-- C32 for documents without tabs and the like, without lists at the top level, without empty headings and without
hard line breaks: no line of the result ends in whitespace. Block quotes, code blocks, tables, setext headings, link
reference definitions and thematic breaks are all allowed, with anything (also lists) inside block quotes.
Missing: hard breaks and empty headings, where C32 is false, and lists (see `C32_list_partial`). -/
theorem C32_no_trailing_whitespace_partial (n : Nat) (w : Width) (text y : Str) (secs : List (Sec × List Str))
    (hsp : OnlySpaces text) (hparse : parse n (splitlines text) = .ok secs)
    (hlist : ∀ s ∈ secs, s.1 ≠ .bullet ∧ s.1 ≠ .ordered)
    (hatx : ∀ s ∈ secs, s.1 = .atx → ∀ l ∈ s.2, atxContent l ≠ [])
    (hpar : ∀ s ∈ secs, s.1 = .par → ∀ l ∈ s.2, endsWith l c!"  " = false)
    (h : reformatMarkdownText (n + 1) w text = .ok y) : ∀ l ∈ splitlines y, CleanLine l := by
  have h4 := C04_only_newlines (n + 1) w text y h
  refine Clean.splitlines ?_ h4
  simp only [reformatMarkdownText, bind, Except.bind] at h
  split at h
  · cases h
  · rename_i a ha
    split at h
    · cases h
    · split at h
      · cases h
      · cases h
        refine Clean.nl (Clean.rstrip ?_) Clean.nil
        simp only [reformatText, reformatBody, bind, Except.bind, hparse] at ha
        split at ha
        · cases ha
        · rename_i fmts hf
          split at ha
          · cases ha
          · rename_i parts hparts
            cases ha
            refine Clean.nl (Clean.pyJoin ?_) Clean.nil
            intro t ht
            obtain ⟨f, hfm, hfs⟩ := fmtAll_mem _ _ hparts t ht
            rcases buildFmts_fmt _ _ _ _ hf f hfm with hs | ⟨hb, hb2⟩
            · have hmem : ∀ l ∈ f.lines, l ∈ splitlines text := by
                intro l hl
                rw [← (C08_parse_partition n _ _ hparse).1]
                exact List.mem_flatten.2 ⟨f.lines, List.mem_map.2 ⟨_, hs, rfl⟩, hl⟩
              refine fmtSection_clean hfs ?_ (hlist _ hs).1 (hlist _ hs).2 (hatx _ hs) (hpar _ hs) ?_
              · intro l hl c hc hw
                have hl' := hmem l hl
                rcases hsp c (splitlines_mem _ l hl' c hc) hw with h1 | h1
                · exact h1
                · rw [splitlines_noLB _ l hl' c hc] at h1; cases h1
              · intro hty
                exact parse_lrd hparse (by rw [← hty]; exact hs)
            · rw [hb] at hfs
              cases hfs
              exact Clean.nil

/-- C32 inside lists: an entry is written without trailing whitespace if its text is, and has no empty line. -/
theorem C32_list_partial (sub : Width → Str → Except Err Str) (w : Width) (i : Nat) (ty : Sec)
    (lines : List Str) (out : Str) (hty : ty = .bullet ∨ ty = .ordered) (h : fmtSection sub w i ty lines = .ok out)
    (hsub : ∀ w' t s, sub w' t = .ok s → ∀ l ∈ splitChar '\n' (rstripBy (· == '\n') s), ∃ r c, l = r ++ [c] ∧ isWs c = false) :
    Clean out := by
  have hentry : ∀ indent marker e t, '\n' ∉ marker → fmtEntry sub w indent marker e = .ok t → Clean t := by
    intro indent marker e t hm h
    simp only [fmtEntry, bind, Except.bind] at h
    split at h
    · cases h
    · rename_i text ht
      cases h
      have hls := hsub _ _ _ ht
      have hnl : ∀ l ∈ splitChar '\n' (rstripBy (· == '\n') text), '\n' ∉ l := fun l hl hm =>
        (splitChar_mem _ _ l hl _ hm).2 rfl
      have hne := splitChar_ne_nil '\n' (rstripBy (· == '\n') text)
      generalize splitChar '\n' (rstripBy (· == '\n') text) = ls at hls hnl hne
      have key : ∀ (ls : List Str) (p : Str), '\n' ∉ p → ls ≠ [] → (∀ l ∈ ls, EndsNonWs l) → (∀ l ∈ ls, '\n' ∉ l) →
          Clean (p ++ pyJoin (['\n'] ++ List.replicate indent ' ') ls) := by
        intro ls
        induction ls with
        | nil => intro p _ h; exact absurd rfl h
        | cons x xs ih =>
          intro p hp _ h1 h2
          have hline : Clean (p ++ x) := Clean.of_line (by
            simp only [List.mem_append, not_or]; exact ⟨hp, h2 x (by simp)⟩) (.inr ((h1 x (by simp)).prepend p))
          cases xs with
          | nil => exact hline
          | cons y ys =>
            simp only [pyJoin]
            have := ih (List.replicate indent ' ') (by intro hm; have := List.eq_of_mem_replicate hm; revert this; decide)
              (by simp) (fun l hl => h1 l (by simp [List.mem_cons.1 hl])) (fun l hl => h2 l (by simp [List.mem_cons.1 hl]))
            have e : p ++ (x ++ (['\n'] ++ List.replicate indent ' ') ++ pyJoin (['\n'] ++ List.replicate indent ' ') (y :: ys)) =
                (p ++ x) ++ '\n' :: (List.replicate indent ' ' ++ pyJoin (['\n'] ++ List.replicate indent ' ') (y :: ys)) := by
              simp
            rw [e]
            exact hline.nl this
      exact key ls _ (by simp only [List.mem_append, not_or]; exact ⟨hm, by decide⟩) hne hls hnl
  rcases hty with rfl | rfl
  · cases lines with
    | nil => cases h
    | cons l ls =>
      simp only [fmtSection, fmtBullet, bind, Except.bind] at h
      split at h
      · cases h
      · split at h
        · cases h
        · split at h
          · cases h
          · rename_i m r hr
            split at h
            · cases h
            · rename_i ts hts
              cases h
              apply Clean.pyJoin
              have hmk : '\n' ∉ [m] := by
                rcases lstrip_head l with h0 | ⟨c, r', h0, hc⟩
                · rw [h0] at hr; cases hr
                · rw [h0] at hr; cases hr
                  intro hm; simp at hm; rw [← hm] at hc; revert hc; decide
              have : ∀ es ts, fmtBulletEntries sub w [m] es = .ok ts → ∀ t ∈ ts, Clean t := by
                intro es
                induction es with
                | nil => intro ts h t ht; cases h; cases ht
                | cons e es ih =>
                  intro ts h t ht
                  simp only [fmtBulletEntries, bind, Except.bind] at h
                  split at h
                  · cases h
                  · rename_i t1 h1
                    split at h
                    · cases h
                    · rename_i ts1 h2
                      cases h
                      rcases List.mem_cons.1 ht with rfl | ht
                      · exact hentry _ _ _ _ hmk h1
                      · exact ih ts1 h2 t ht
              exact this _ _ hts
  · cases lines with
    | nil => cases h
    | cons l ls =>
      simp only [fmtSection, fmtOrdered, bind, Except.bind] at h
      split at h
      · cases h
      · split at h
        · cases h
        · split at h
          · cases h
          · split at h
            · cases h
            · rename_i ts hts
              cases h
              apply Clean.pyJoin
              have : ∀ ind es k ts, fmtOrderedEntries sub w ind k es = .ok ts → ∀ t ∈ ts, Clean t := by
                intro ind es
                induction es with
                | nil => intro k ts h t ht; cases h; cases ht
                | cons e es ih =>
                  intro k ts h t ht
                  simp only [fmtOrderedEntries, bind, Except.bind] at h
                  split at h
                  · cases h
                  · rename_i t1 h1
                    split at h
                    · cases h
                    · rename_i ts1 h2
                      cases h
                      rcases List.mem_cons.1 ht with rfl | ht
                      · refine hentry _ _ _ _ ?_ h1
                        intro hm
                        rcases List.mem_append.1 hm with hm | hm
                        · exact absurd hm (natStr_no_nl _)
                        · revert hm; decide
                      · exact ih _ ts1 h2 t ht
              exact this _ _ _ _ hts

/-- Hard line breaks are kept (the README asks for that elsewhere): two spaces stay. -/
theorem C32_refuted_hard_break : ¬ C32_statement := by
  intro h
  have h1 : reformatMarkdownText 3 (.fin 80) c!"a  \nb\n" = .ok c!"a  \nb\n" := by decide +kernel
  rcases h 3 (.fin 80) _ _ h1 c!"a  " (by decide) with h2 | ⟨r, c, h2, hc⟩
  · cases h2
  · have := congrArg List.getLast? h2
    simp at this
    rw [← this] at hc; revert hc; decide

/-- An empty heading gets a trailing space, which was not there before. -/
theorem C32_refuted_heading : ¬ C32_statement := by
  intro h
  have h1 : reformatMarkdownText 3 (.fin 80) c!"#\na\n" = .ok c!"# \na\n" := by decide +kernel
  rcases h 3 (.fin 80) _ _ h1 c!"# " (by decide) with h2 | ⟨r, c, h2, hc⟩
  · cases h2
  · have := congrArg List.getLast? h2
    simp at this
    rw [← this] at hc; revert hc; decide

/-- An empty list entry keeps a trailing space, and gets one where there was none. -/
theorem C32_refuted_entry : ¬ C32_statement := by
  intro h
  have h1 : reformatMarkdownText 5 (.fin 80) c!"- a\n-\n- b\n" = .ok c!"- a\n- \n- b\n" := by decide +kernel
  rcases h 5 (.fin 80) _ _ h1 c!"- " (by decide) with h2 | ⟨r, c, h2, hc⟩
  · cases h2
  · have := congrArg List.getLast? h2
    simp at this
    rw [← this] at hc; revert hc; decide

/-- A document that meets the conditions of `C32_no_trailing_whitespace_partial`, with plenty of trailing spaces. -/
example :
    (parse 5 (splitlines c!"# a \n> - b \n\n    code   \n\n```  \nx \n```\nTitle \n===  \npar \n")).map (·.map (·.1)) =
      .ok [.atx, .quote, .blank, .indented, .blank, .fenced, .setext, .par] ∧
    reformatMarkdownText 6 (.fin 80) c!"# a \n> - b \n\n    code   \n\n```  \nx \n```\nTitle \n===  \npar \n" =
      .ok c!"# a\n> - b\n\n    code\n\n```\nx\n```\nTitle\n=====\npar\n" := by decide +kernel

end MF
