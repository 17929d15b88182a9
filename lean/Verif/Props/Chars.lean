import Verif.Model.Reformat
import Verif.Props.Extents
import Verif.Lemmas.Lrd
import Verif.Lemmas.WrapLines
/-!
# C04, C05: which characters the result is made of
-/

namespace MF

/-- the character the formatters write whatever the text is, other than the newline -/
def markup : List Char := c!" "

/-- Where there are bars, hyphens may be written, and where there are digits and periods, all digits. -/
structure MarkClosed (src : Char → Prop) : Prop where
  hyphen : src '|' → src '-'
  digits : ∀ {d}, src '.' → isDigit d = true → src d → ∀ {e}, isDigit e = true → src e

/-- What may be written for a text of such characters. -/
def Made (src : Char → Prop) (c : Char) : Prop :=
  src c ∨ (c = '-' ∧ src '|') ∨ (isDigit c = true ∧ src '.' ∧ ∃ d, isDigit d = true ∧ src d)

theorem Made.other {src : Char → Prop} {c : Char} (h : Made src c) (h1 : c ≠ '-') (h2 : isDigit c = false) : src c := by
  rcases h with h | ⟨h, _⟩ | ⟨h, _⟩
  · exact h
  · exact absurd h h1
  · rw [h2] at h; cases h

theorem Made.closed (src : Char → Prop) : MarkClosed (Made src) := by
  refine ⟨fun h => .inr (.inl ⟨rfl, h.other (by decide) (by decide)⟩), fun {d} h1 h2 h3 {e} h4 => ?_⟩
  refine .inr (.inr ⟨h4, h1.other (by decide) (by decide), ?_⟩)
  rcases h3 with h3 | ⟨h3, _⟩ | ⟨_, _, h3⟩
  · exact ⟨d, h2, h3⟩
  · subst h3; cases h2
  · exact h3

theorem MarkClosed.made {src : Char → Prop} (h : MarkClosed src) {c : Char} (hm : Made src c) : src c := by
  rcases hm with h1 | ⟨rfl, h1⟩ | ⟨h1, h2, d, h3, h4⟩
  · exact h1
  · exact h.hyphen h1
  · exact h.digits h2 h3 h4 h1

/-- every character is a newline, or no line separator and either from the source or markup -/
def Fine (src : Char → Prop) (s : Str) : Prop := ∀ c ∈ s, c = '\n' ∨ isLB c = false ∧ (src c ∨ c ∈ markup)

theorem Fine.nil {src : Char → Prop} : Fine src [] := by intro c hc; cases hc

theorem Fine.append {src : Char → Prop} {a b : Str} (ha : Fine src a) (hb : Fine src b) : Fine src (a ++ b) := by
  intro c hc
  rcases List.mem_append.1 hc with hc | hc
  · exact ha c hc
  · exact hb c hc

theorem Fine.of_mem {src : Char → Prop} {a b : Str} (hb : Fine src b) (h : ∀ c ∈ a, c ∈ b) : Fine src a :=
  fun c hc => hb c (h c hc)

theorem Fine.mono {src src' : Char → Prop} {a : Str} (ha : Fine src a) (h : ∀ c, isLB c = false → src c → src' c) :
    Fine src' a := by
  intro c hc
  rcases ha c hc with h1 | ⟨h1, h2⟩
  · exact .inl h1
  · exact .inr ⟨h1, h2.imp_left (h c h1)⟩

theorem markup_noLB : ∀ c ∈ markup, isLB c = false := by decide

theorem Fine.of_markup {src : Char → Prop} {a : Str} (h : ∀ c ∈ a, c = '\n' ∨ c ∈ markup) : Fine src a := by
  intro c hc
  rcases h c hc with h | h
  · exact .inl h
  · exact .inr ⟨markup_noLB c h, .inr h⟩

theorem Fine.pyJoin {src : Char → Prop} {sep : Str} {ls : List Str} (hs : Fine src sep) (hl : ∀ l ∈ ls, Fine src l) :
    Fine src (pyJoin sep ls) := by
  intro c hc
  rcases mem_pyJoin hc with hc | ⟨l, h1, h2⟩
  · exact hs c hc
  · exact hl l h1 c h2

theorem Fine.replicate {src : Char → Prop} {c : Char} (h : Fine src [c]) (n : Nat) : Fine src (List.replicate n c) :=
  h.of_mem fun x hx => by rw [List.eq_of_mem_replicate hx]; simp

theorem Fine.strip {src : Char → Prop} {s : Str} (h : Fine src s) : Fine src (strip s) :=
  h.of_mem fun _ hc => mem_of_mem_strip hc

theorem Fine.rstrip {src : Char → Prop} {s : Str} (h : Fine src s) : Fine src (rstrip s) :=
  h.of_mem fun _ hc => mem_of_mem_rstrip hc

theorem fine_mk {src : Char → Prop} (a : Str) (h : a.all (fun c => c == '\n' || markup.contains c) = true) :
    Fine src a := by
  apply Fine.of_markup
  intro c hc
  have := List.all_eq_true.1 h c hc
  simpa using this

theorem wrap_fine {src : Char → Prop} {text s : Str} {width : Width} (h : wrap text width = .ok s)
    (ht : Fine src text) : Fine src s := by
  obtain ⟨t, ht', rfl⟩ := wrap_ok h
  apply Fine.pyJoin (fine_mk _ (by decide))
  intro l hl c hc
  rcases joinPairs_mem _ _ l hl c hc with ⟨rfl, _⟩ | ⟨w, b, hw, hc⟩
  · exact .inr ⟨by decide, .inr (by decide)⟩
  · rcases mem_wrapInput ((ht'.pair hw).2.1 c hc) with hc | rfl
    · exact ht c hc
    · exact .inr ⟨by decide, .inr (by decide)⟩

theorem splitWs_fine {src : Char → Prop} {s : Str} (h : Fine src s) : ∀ w ∈ splitWs s, Fine src w :=
  fun _ hw => h.of_mem fun _ hc => (splitWs_word hw).2.2.subset hc

/-- what the nested formatting passes are known to do -/
def SubFine (sub : Width → Str → Except Err Str) : Prop :=
  ∀ w t out, sub w t = .ok out → Fine (Made (· ∈ t)) out

theorem Fine.src {src : Char → Prop} {s : Str} (h : Fine src s) {c : Char} (hc : c ∈ s) (h1 : c ≠ '\n') (h2 : c ≠ ' ') : src c := by
  rcases h c hc with e | ⟨_, e | e⟩
  · exact absurd e h1
  · exact e
  · exact absurd (by simpa [markup] using e) h2

theorem isDigit_ne {c : Char} (h : isDigit c = true) : c ≠ '\n' ∧ c ≠ ' ' := by
  refine ⟨?_, ?_⟩ <;> rintro rfl <;> cases h

theorem isDigit_noLB {c : Char} (h : isDigit c = true) : isLB c = false := by
  simp only [isDigit, Bool.and_eq_true, decide_eq_true_eq] at h
  cases hc : isLB c with
  | false => rfl
  | true =>
    simp only [isLB, Bool.or_eq_true, Bool.and_eq_true, decide_eq_true_eq, beq_iff_eq] at hc
    omega

theorem sub_fine {src : Char → Prop} {sub : Width → Str → Except Err Str} (hk : MarkClosed src) (hs : SubFine sub) {w : Width}
    {lines : List Str} {out : Str} (h : reformatLines sub lines w = .ok out) (hl : ∀ l ∈ lines, Fine src l) :
    Fine src out := by
  have hall : Fine src (pyJoin ['\n'] lines ++ ['\n']) :=
    (Fine.pyJoin (fine_mk c!"\n" (by decide)) hl).append (fine_mk c!"\n" (by decide))
  intro c hc
  rcases hs _ _ _ h c hc with h1 | ⟨h1, h2 | h2⟩
  · exact .inl h1
  · rcases h2 with h2 | ⟨rfl, h2⟩ | ⟨h2, h3, d, h4, h5⟩
    · exact hall c h2
    · exact .inr ⟨h1, .inl (hk.hyphen (hall.src h2 (by decide) (by decide)))⟩
    · exact .inr ⟨h1, .inl (hk.digits (hall.src h3 (by decide) (by decide)) h4
        (hall.src h5 (isDigit_ne h4).1 (isDigit_ne h4).2) h2)⟩
  · exact .inr ⟨h1, .inr h2⟩

/-! ## The formatters -/

/-- the leading run of a character is made of the text -/
theorem replicate_run (x : Char) (s : Str) :
    ∀ c ∈ List.replicate (s.length - (lstripBy (· == x) s).length) x, c ∈ s.takeWhile (· == x) := by
  intro c hc
  have h := congrArg List.length (List.takeWhile_append_dropWhile (p := (· == x)) (l := s))
  rw [List.length_append] at h
  obtain ⟨h1, rfl⟩ := List.mem_replicate.1 hc
  unfold lstripBy at h1
  have hlen : 0 < (s.takeWhile (· == c)).length := by omega
  cases ht : s.takeWhile (· == c) with
  | nil => rw [ht] at hlen; cases hlen
  | cons d r =>
    have := List.all_eq_true.1 (List.all_takeWhile (p := (· == c)) (l := s)) d (by rw [ht]; simp)
    rw [beq_iff_eq.1 this]; simp

theorem fmtAtx_fine {src : Char → Prop} {lines : List Str} {out : Str} (h : fmtAtx lines = .ok out)
    (hl : ∀ l ∈ lines, Fine src l) : Fine src out := by
  cases lines with
  | nil => cases h
  | cons l ls =>
    cases h
    refine Fine.append (Fine.append ?_ (fine_mk c!" " (by decide))) ?_
    · exact ((hl l (by simp)).of_mem fun c hc => mem_of_mem_strip ((List.takeWhile_sublist _).subset
        (replicate_run '#' (strip l) c hc)))
    exact (hl l (by simp)).of_mem fun c hc => mem_of_mem_strip (mem_of_mem_dropWhile (mem_of_mem_strip hc))

theorem lstripBy_mem {p : Char → Bool} {s : Str} {c : Char} (h : c ∈ lstripBy p s) : c ∈ s := mem_of_mem_dropWhile h

theorem splitAt'_mem (s : Str) : ∀ ms last, ∀ x ∈ splitAt' s last ms, ∀ c ∈ x, c ∈ s := by
  intro ms
  induction ms with
  | nil => intro last x hx c hc; simp [splitAt'] at hx; rw [hx] at hc; exact List.mem_of_mem_drop hc
  | cons m ms ih =>
    intro last x hx c hc
    rcases List.mem_cons.1 hx with rfl | hx
    · exact mem_slice hc
    · exact ih _ x hx c hc

theorem unquote_mem {l : Str} {c : Char} (h : c ∈ unquote l) : c ∈ l := by
  obtain ⟨x, hx, hc⟩ := List.mem_flatten.1 h
  exact splitAt'_mem l _ _ x hx c hc

theorem spaceless_mem {l : Str} {c : Char} (h : c ∈ spaceless l) : c ∈ l := by
  obtain ⟨w, hw, hc⟩ := List.mem_flatten.1 h
  exact (splitWs_word hw).2.2.subset hc

theorem fullyQuote_fine {src : Char → Prop} (lines : List Str) : ∀ d, Fine src (List.replicate d '>') →
    (∀ l ∈ lines, Fine src l) → ∀ l ∈ fullyQuote d lines, Fine src l := by
  induction lines with
  | nil => intro d _ _ l hl; cases hl
  | cons x xs ih =>
    intro d hd h l hl
    simp only [fullyQuote] at hl
    split at hl
    · rcases List.mem_cons.1 hl with rfl | hl
      · exact h _ (by simp)
      · exact ih _ ((h x (by simp)).of_mem fun c hc => spaceless_mem ((List.takeWhile_sublist _).subset
          (replicate_run '>' _ c hc))) (fun y hy => h y (by simp [hy])) l hl
    · rcases List.mem_cons.1 hl with rfl | hl
      · exact hd.append (h _ (by simp))
      · exact ih _ hd (fun y hy => h y (by simp [hy])) l hl

theorem dropSpace_mem {l : Str} {c : Char} (h : c ∈ dropSpace l) : c ∈ l := by
  cases l with
  | nil => exact h
  | cons x xs =>
    simp only [dropSpace] at h
    split at h
    · simp [h]
    · exact h

theorem quoteInner_fine {src : Char → Prop} {lines : List Str} (h : ∀ l ∈ lines, Fine src l) :
    ∀ l ∈ (quoteInner lines).1, Fine src l := by
  have h1 : ∀ l ∈ (fullyQuote 0 lines).map unquote, Fine src l := by
    intro l hl
    obtain ⟨x, hx, rfl⟩ := List.mem_map.1 hl
    exact (fullyQuote_fine lines 0 Fine.nil h x hx).of_mem fun _ hc => unquote_mem hc
  intro l hl
  simp only [quoteInner] at hl
  split at hl
  · obtain ⟨x, hx, rfl⟩ := List.mem_map.1 hl
    exact (h1 x hx).of_mem fun _ hc => dropSpace_mem hc
  · exact h1 l hl

theorem splitlines_fine {src : Char → Prop} {s : Str} (h : Fine src s) : ∀ l ∈ splitlines s, Fine src l :=
  fun l hl => h.of_mem fun c hc => splitlines_mem s l hl c hc

theorem mul_fine {src : Char → Prop} (c : Char) (hc : Fine src [c]) (n : Int) : Fine src (mul c n) :=
  hc.replicate _

theorem fmtQuote_fine {src : Char → Prop} {sub : Width → Str → Except Err Str} (hk : MarkClosed src) (hs : SubFine sub) {w : Width}
    {lines : List Str} {out : Str} (h : fmtQuote sub w lines = .ok out) (hl : ∀ l ∈ lines, Fine src l) (hq : Fine src ['>']) :
    Fine src out := by
  cases lines with
  | nil => cases h
  | cons l ls =>
    simp only [fmtQuote, bind, Except.bind] at h
    split at h
    · cases h
    · rename_i text ht
      cases h
      apply Fine.pyJoin (fine_mk _ (by decide))
      intro x hx
      obtain ⟨y, hy, rfl⟩ := List.mem_map.1 hx
      apply Fine.strip
      apply Fine.append
      · split
        · exact (((mul_fine _ (fine_mk _ (by decide)) _).append hq).append (fine_mk _ (by decide)))
        · exact ((mul_fine _ (fine_mk _ (by decide)) _).append hq)
      · exact splitlines_fine (sub_fine hk hs ht (quoteInner_fine hl)) y hy

theorem fmtFenced_fine {src : Char → Prop} {lines : List Str} {out : Str} (h : fmtFenced lines = .ok out)
    (hl : ∀ l ∈ lines, Fine src l) : Fine src out := by
  cases lines with
  | nil => cases h
  | cons l ls =>
    simp only [fmtFenced] at h
    split at h
    · cases h
    · rename_i f r hr
      cases h
      have h1 : Fine src (f :: r) := by rw [← hr]; exact (hl l (by simp)).strip
      apply Fine.pyJoin (fine_mk _ (by decide))
      intro x hx
      obtain ⟨y, hy, rfl⟩ := List.mem_map.1 hx
      apply Fine.rstrip
      have hf : Fine src [f] := h1.of_mem (by simp)
      rcases List.mem_append.1 hy with hy | hy
      · rcases List.mem_append.1 hy with hy | hy
        · simp only [List.mem_singleton] at hy
          subst hy
          exact (hf.replicate _).append (h1.of_mem fun _ hc => lstripBy_mem (mem_of_mem_strip hc))
        · exact hl y (List.mem_of_mem_drop ((List.dropLast_sublist _).subset hy))
      · simp only [List.mem_singleton] at hy
        subst hy
        exact hf.replicate _

theorem lrdParts_fine {src : Char → Prop} {lines : List Str} {name link title : Str}
    (h : lrdParts lines = .ok (name, link, title)) (hl : ∀ l ∈ lines, Fine src l) :
    Fine src ['['] ∧ Fine src c!"]:" ∧ Fine src name ∧ Fine src link ∧ Fine src title := by
  obtain ⟨pre, body, h1, _, _, _, h2, h3⟩ := lrdParts_shape h
  have hall : Fine src (pyJoin [' '] lines) := Fine.pyJoin (fine_mk _ (by decide)) hl
  rw [h1] at hall
  have hb : Fine src body := hall.of_mem (by intro c hc; simp [hc])
  have hbr : Fine src c!"]:" := hall.of_mem (by intro c hc; simp at hc; rcases hc with rfl | rfl <;> simp)
  refine ⟨hall.of_mem (by intro c hc; simp at hc; simp [hc]), hbr, hall.of_mem (by intro c hc; simp [hc]), ?_, ?_⟩
  · rw [h2]
    exact hb.of_mem fun c hc => mem_of_mem_lstrip ((List.takeWhile_sublist _).subset hc)
  · rw [h3]
    apply Fine.pyJoin (fine_mk _ (by decide))
    apply splitWs_fine
    exact hb.of_mem fun c hc => mem_of_mem_lstrip (mem_of_mem_dropWhile (mem_of_mem_lstrip
      ((List.takeWhile_sublist _).subset hc)))

theorem fmtLrd_fine {src : Char → Prop} {w : Width} {lines : List Str} {out : Str} (h : fmtLrd w lines = .ok out)
    (hl : ∀ l ∈ lines, Fine src l) : Fine src out := by
  simp only [fmtLrd, bind, Except.bind] at h
  split at h
  · cases h
  · rename_i p hp
    obtain ⟨name, link, title⟩ := p
    obtain ⟨b1, b2, f1, f2, f3⟩ := lrdParts_fine hp hl
    have g1 : Fine src (['['] ++ name ++ c!"]:") := (b1.append f1).append b2
    dsimp only at h
    split at h
    · cases h; exact g1
    · split at h
      · cases h
      · rename_i l0 rest
        have g2 : Fine src (if isIn link l0 = true then ['['] ++ name ++ c!"]:" ++ [' '] ++ link
            else ['['] ++ name ++ c!"]:" ++ ['\n'] ++ link) := by
          split
          · exact (g1.append (fine_mk _ (by decide))).append f2
          · exact (g1.append (fine_mk _ (by decide))).append f2
        generalize hstr : (if isIn link l0 = true then ['['] ++ name ++ c!"]:" ++ [' '] ++ link
            else ['['] ++ name ++ c!"]:" ++ ['\n'] ++ link) = str at h g2
        split at h
        · cases h; exact g2
        · split at h
          · split at h
            · split at h
              · split at h
                · cases h
                · rename_i hw
                  cases h
                  apply Fine.pyJoin (fine_mk _ (by decide))
                  have hsl := splitlines_fine g2
                  intro x hx
                  rcases List.mem_append.1 hx with hx | hx
                  · exact hsl x ((List.dropLast_sublist _).subset hx)
                  · simp only [List.mem_singleton] at hx
                    subst hx
                    refine wrap_fine hw ((Fine.append ?_ (fine_mk _ (by decide))).append f3)
                    cases hlast : (splitlines str).getLast? with
                    | none => rw [List.getLastD_eq_getLast?, hlast]; exact Fine.nil
                    | some z => rw [List.getLastD_eq_getLast?, hlast]; exact hsl z (getLast?_mem hlast)
              · split at h
                · cases h
                · rename_i hw
                  cases h
                  exact (fine_mk _ (by decide)).append (wrap_fine hw f3)
            · split at h
              · cases h
              · rename_i hw
                cases h
                exact (g2.append (fine_mk _ (by decide))).append (wrap_fine hw f3)
          · cases h

/-! ### Lists -/

theorem appendToLast_mem {es es' : List (List Str)} {x : Str} (h : appendToLast es x = .ok es') :
    ∀ e ∈ es', ∀ l ∈ e, (∃ e0 ∈ es, l ∈ e0) ∨ l = x := by
  simp only [appendToLast] at h
  split at h
  · cases h
  · rename_i z hz
    cases h
    intro e he l hl
    rcases List.mem_append.1 he with he | he
    · exact .inl ⟨e, (List.dropLast_sublist _).subset he, hl⟩
    · simp only [List.mem_singleton] at he
      subst he
      rcases List.mem_append.1 hl with hl | hl
      · exact .inl ⟨z, getLast?_mem hz, hl⟩
      · simp at hl; exact .inr hl

theorem splitListStep_mem {st st' : SplitListSt} {line : Str} (h : splitListStep st line = .ok st') :
    ∀ e ∈ st'.entries, ∀ l ∈ e, (∃ e0 ∈ st.entries, l ∈ e0) ∨ l = line := by
  simp only [splitListStep, bind, Except.bind] at h
  split at h
  · split at h
    · cases h
      intro e he l hl
      rcases List.mem_append.1 he with he | he
      · exact .inl ⟨e, he, hl⟩
      · simp only [List.mem_singleton] at he
        subst he
        simp at hl; exact .inr hl
    · split at h
      · cases h
      · rename_i hes
        cases h
        exact appendToLast_mem hes
  · split at h
    · cases h
    · rename_i hes
      cases h
      exact appendToLast_mem hes

theorem splitList_mem {lines : List Str} {es : List (List Str)} (h : splitList lines = .ok es) :
    ∀ e ∈ es, ∀ l ∈ e, l ∈ lines := by
  cases lines with
  | nil => cases h
  | cons x xs =>
    simp only [splitList, bind, Except.bind] at h
    split at h
    · cases h
    · split at h
      · cases h
      · rename_i st hst
        cases h
        have key : ∀ (ls : List Str) (st st' : SplitListSt), ls.foldlM splitListStep st = .ok st' →
            ∀ e ∈ st'.entries, ∀ l ∈ e, (∃ e0 ∈ st.entries, l ∈ e0) ∨ l ∈ ls := by
          intro ls
          induction ls with
          | nil => intro st st' h; cases h; intro e he l hl; exact .inl ⟨e, he, hl⟩
          | cons y ys ih =>
            intro st st' h
            simp only [List.foldlM_cons, bind, Except.bind] at h
            split at h
            · cases h
            · rename_i st1 h1
              intro e he l hl
              rcases ih st1 st' h e he l hl with ⟨e0, he0, hl0⟩ | hl
              · rcases splitListStep_mem h1 e0 he0 l hl0 with h2 | rfl
                · exact .inl h2
                · exact .inr (by simp)
              · exact .inr (by simp [hl])
        intro e he l hl
        rcases key _ _ _ hst e he l hl with ⟨e0, he0, _⟩ | h
        · cases he0
        · exact h

theorem dedentEntry_fine {src : Char → Prop} {e e' : List Str} (h : dedentEntry e = .ok e') (hl : ∀ l ∈ e, Fine src l) :
    ∀ l ∈ e', Fine src l := by
  cases e with
  | nil => cases h
  | cons x xs =>
    simp only [dedentEntry, bind, Except.bind] at h
    split at h
    · cases h
    · cases h
      intro l hm
      rcases List.mem_cons.1 hm with rfl | hm
      · exact (hl x (by simp)).of_mem fun _ hc => List.mem_of_mem_drop hc
      · obtain ⟨y, hy, rfl⟩ := List.mem_map.1 hm
        have := hl y (by simp [hy])
        exact (this.of_mem fun _ hc => List.mem_of_mem_take (mem_of_mem_lstrip hc)).append
          (this.of_mem fun _ hc => List.mem_of_mem_drop hc)

theorem mapM_cons_ok {α β : Type} {f : α → Except Err β} {x : α} {xs : List α} {ys : List β}
    (h : (x :: xs).mapM f = .ok ys) : ∃ y ys', f x = .ok y ∧ xs.mapM f = .ok ys' ∧ ys = y :: ys' := by
  rw [List.mapM_cons] at h
  simp only [bind, Except.bind, pure, Except.pure] at h
  split at h
  · cases h
  · rename_i y hy
    split at h
    · cases h
    · rename_i ys' hys
      cases h
      exact ⟨y, ys', hy, hys, rfl⟩

theorem dedentEntries_fine {src : Char → Prop} (es : List (List Str)) : ∀ es', dedentEntries es = .ok es' →
    (∀ e ∈ es, ∀ l ∈ e, Fine src l) → ∀ e ∈ es', ∀ l ∈ e, Fine src l := by
  induction es with
  | nil => intro es' h _ e he; cases h; cases he
  | cons x xs ih =>
    intro es' h hl
    obtain ⟨y, ys, h1, h2, rfl⟩ := mapM_cons_ok h
    intro e he
    rcases List.mem_cons.1 he with rfl | he
    · exact dedentEntry_fine h1 (hl x (by simp))
    · exact ih ys h2 (fun e he => hl e (by simp [he])) e he

theorem splitChar_fine {src : Char → Prop} {s : Str} {sep : Char} (h : Fine src s) : ∀ l ∈ splitChar sep s, Fine src l :=
  fun l hl => h.of_mem fun c hc => (splitChar_mem sep s l hl c hc).1

theorem fmtEntry_fine {src : Char → Prop} {sub : Width → Str → Except Err Str} (hk : MarkClosed src) (hs : SubFine sub) {w : Width}
    {indent : Nat} {marker : Str} {e : List Str} {out : Str} (h : fmtEntry sub w indent marker e = .ok out)
    (hm : Fine src marker) (hl : ∀ l ∈ e, Fine src l) : Fine src out := by
  simp only [fmtEntry, bind, Except.bind] at h
  split at h
  · cases h
  · rename_i text ht
    cases h
    refine (hm.append (fine_mk _ (by decide))).append ?_
    refine Fine.pyJoin ((fine_mk _ (by decide)).append ((fine_mk c!" " (by decide)).replicate _)) ?_
    exact splitChar_fine ((sub_fine hk hs ht hl).of_mem fun _ hc => mem_of_mem_rstripBy hc)

theorem fmtBulletEntries_fine {src : Char → Prop} {sub : Width → Str → Except Err Str} (hk : MarkClosed src) (hs : SubFine sub) {w : Width}
    {marker : Str} (hm : Fine src marker) (es : List (List Str)) : ∀ ts, fmtBulletEntries sub w marker es = .ok ts →
    (∀ e ∈ es, ∀ l ∈ e, Fine src l) → ∀ t ∈ ts, Fine src t := by
  induction es with
  | nil => intro ts h _ t ht; cases h; cases ht
  | cons e es ih =>
    intro ts h hl t ht
    simp only [fmtBulletEntries, bind, Except.bind] at h
    split at h
    · cases h
    · rename_i t1 h1
      split at h
      · cases h
      · rename_i ts1 h2
        cases h
        rcases List.mem_cons.1 ht with rfl | ht
        · exact fmtEntry_fine hk hs h1 hm (hl e (by simp))
        · exact ih ts1 h2 (fun e he => hl e (by simp [he])) t ht

theorem fmtBullet_fine {src : Char → Prop} {sub : Width → Str → Except Err Str} (hk : MarkClosed src) (hs : SubFine sub) {w : Width}
    {lines : List Str} {out : Str} (h : fmtBullet sub w lines = .ok out) (hl : ∀ l ∈ lines, Fine src l) :
    Fine src out := by
  cases lines with
  | nil => cases h
  | cons l ls =>
    simp only [fmtBullet, bind, Except.bind] at h
    split at h
    · cases h
    · rename_i es hes
      split at h
      · cases h
      · rename_i ds hds
        split at h
        · cases h
        · rename_i m r hr
          split at h
          · cases h
          · rename_i ts hts
            cases h
            apply Fine.pyJoin (fine_mk _ (by decide))
            refine fmtBulletEntries_fine hk hs ?_ ds ts hts ?_
            · exact (hl l (by simp)).of_mem fun c hc => mem_of_mem_lstrip (by rw [hr]; simp at hc; simp [hc])
            · exact dedentEntries_fine es ds hds fun e he x hx => hl x (splitList_mem hes e he x hx)

theorem digit_isDigit {k : Nat} (h : k < 10) : isDigit (Char.ofNat (48 + k)) = true := by
  match k, h with
  | 0, _ | 1, _ | 2, _ | 3, _ | 4, _ | 5, _ | 6, _ | 7, _ | 8, _ | 9, _ => decide

theorem digitsAux_fine {src : Char → Prop} (hd : ∀ d, isDigit d = true → src d) : ∀ fuel n, Fine src (digitsAux fuel n) := by
  have key : ∀ {k}, k < 10 → Fine src [Char.ofNat (48 + k)] := fun {k} h c hc => by
    rw [List.mem_singleton.1 hc]
    exact .inr ⟨isDigit_noLB (digit_isDigit h), .inl (hd _ (digit_isDigit h))⟩
  intro fuel
  induction fuel with
  | zero => intro n; exact Fine.nil
  | succ fuel ih =>
    intro n
    simp only [digitsAux]
    split
    · rename_i h
      exact key h
    · exact (ih _).append (key (Nat.mod_lt _ (by decide)))

theorem fmtOrderedEntries_fine {src : Char → Prop} {sub : Width → Str → Except Err Str} (hk : MarkClosed src) (hs : SubFine sub) {w : Width}
    {indent : Nat} (hd : Fine src ['.'] ∧ ∀ d, isDigit d = true → src d) (es : List (List Str)) : ∀ k ts, fmtOrderedEntries sub w indent k es = .ok ts →
    (∀ e ∈ es, ∀ l ∈ e, Fine src l) → ∀ t ∈ ts, Fine src t := by
  induction es with
  | nil => intro k ts h _ t ht; cases h; cases ht
  | cons e es ih =>
    intro k ts h hl t ht
    simp only [fmtOrderedEntries, bind, Except.bind] at h
    split at h
    · cases h
    · rename_i t1 h1
      split at h
      · cases h
      · rename_i ts1 h2
        cases h
        rcases List.mem_cons.1 ht with rfl | ht
        · exact fmtEntry_fine hk hs h1 ((digitsAux_fine hd.2 _ _).append hd.1) (hl e (by simp))
        · exact ih _ ts1 h2 (fun e he => hl e (by simp [he])) t ht

theorem fmtOrdered_fine {src : Char → Prop} {sub : Width → Str → Except Err Str} (hk : MarkClosed src) (hs : SubFine sub) {w : Width}
    {lines : List Str} {out : Str} (h : fmtOrdered sub w lines = .ok out) (hl : ∀ l ∈ lines, Fine src l)
    (hd : Fine src ['.'] ∧ ∀ d, isDigit d = true → src d) :
    Fine src out := by
  cases lines with
  | nil => cases h
  | cons l ls =>
    simp only [fmtOrdered, bind, Except.bind] at h
    split at h
    · cases h
    · rename_i es hes
      split at h
      · cases h
      · split at h
        · cases h
        · rename_i ds hds
          split at h
          · cases h
          · rename_i ts hts
            cases h
            apply Fine.pyJoin (fine_mk _ (by decide))
            refine fmtOrderedEntries_fine hk hs hd ds _ ts hts ?_
            exact dedentEntries_fine es ds hds fun e he x hx => hl x (splitList_mem hes e he x hx)

/-! ### Text, tables -/

theorem parContent_fine {src : Char → Prop} {lines : List Str} (hl : ∀ l ∈ lines, Fine src l) :
    Fine src (parContent lines) := by
  apply Fine.pyJoin (fine_mk _ (by decide))
  intro x hx
  obtain ⟨y, hy, rfl⟩ := List.mem_map.1 hx
  exact (hl y hy).strip

theorem fmtPar_fine {src : Char → Prop} {w : Width} {lines : List Str} {out : Str} (h : fmtPar w lines = .ok out)
    (hl : ∀ l ∈ lines, Fine src l) : Fine src out := by
  simp only [fmtPar, bind, Except.bind] at h
  split at h
  · cases h
  · rename_i text ht
    have := wrap_fine ht (parContent_fine hl)
    split at h
    · cases h
    · cases h
      split
      · exact this.append (fine_mk _ (by decide))
      · exact this

theorem fmtSetext_fine {src : Char → Prop} {w : Width} {lines : List Str} {out : Str} (h : fmtSetext w lines = .ok out)
    (hl : ∀ l ∈ lines, Fine src l) : Fine src out := by
  simp only [fmtSetext, bind, Except.bind] at h
  split at h
  · cases h
  · split at h
    · cases h
    · rename_i text ht
      split at h
      · cases h
      · split at h
        · cases h
        · rename_i c r hr
          cases h
          have h1 := wrap_fine ht (parContent_fine fun l hm => hl l ((List.dropLast_sublist _).subset hm))
          refine (h1.append (fine_mk _ (by decide))).append (Fine.replicate ?_ _)
          cases hlast : lines.getLast? with
          | none => rw [List.getLastD_eq_getLast?, hlast] at hr; cases hr
          | some z =>
            rw [List.getLastD_eq_getLast?, hlast] at hr
            exact (hl z (getLast?_mem hlast)).of_mem fun x hx => mem_of_mem_strip (by
              simp only [Option.getD_some] at hr
              rw [hr]; simp at hx; simp [hx])

theorem fmtThematic_fine {src : Char → Prop} {w : Width} {lines : List Str} {out : Str}
    (h : fmtThematic w lines = .ok out) (hl : ∀ l ∈ lines, Fine src l) : Fine src out := by
  cases lines with
  | nil => cases h
  | cons l ls =>
    simp only [fmtThematic] at h
    split at h
    · cases h
    · rename_i c r hr
      have hc : Fine src [c] := (hl l (by simp)).of_mem fun x hx => mem_of_mem_strip (by rw [hr]; simp at hx; simp [hx])
      split at h
      · cases h; exact hc.replicate 3
      · cases h; exact mul_fine c hc _

theorem zipCells_fine {src : Char → Prop} {f : Str → Nat → Align → Str}
    (hf : ∀ c w a, Fine src c → Fine src (f c w a)) : ∀ cs ws as, (∀ c ∈ cs, Fine src c) →
    ∀ x ∈ zipCells f cs ws as, Fine src x := by
  intro cs
  induction cs with
  | nil => intro ws as _ x hx; simp [zipCells] at hx
  | cons c cs ih =>
    intro ws as h x hx
    match ws, as with
    | [], _ => simp [zipCells] at hx
    | _ :: _, [] => simp [zipCells] at hx
    | w :: ws, a :: as =>
      simp only [zipCells, List.mem_cons] at hx
      rcases hx with rfl | hx
      · exact hf _ _ _ (h c (by simp))
      · exact ih ws as (fun c hc => h c (by simp [hc])) x hx

theorem tableRow_fine {src : Char → Prop} {cells : List Str} (hb : Fine src ['|']) (h : ∀ c ∈ cells, Fine src c) :
    Fine src (tableRow cells) :=
  (hb.append (Fine.pyJoin hb h)).append hb

theorem align_fine {src : Char → Prop} {s : Str} (h : Fine src s) (w : Nat) :
    Fine src (centerAlign s w) ∧ Fine src (leftAlign s w) ∧ Fine src (rightAlign s w) := by
  have hsp : ∀ n, Fine src (mul ' ' n) := mul_fine ' ' (fine_mk _ (by decide))
  exact ⟨((hsp _).append h).append (hsp _), h.append (hsp _), (hsp _).append h⟩

theorem headerCell_fine {src : Char → Prop} (c : Str) (w : Nat) (a : Align) (h : Fine src c) :
    Fine src (headerCell c w a) := by
  have hsp : Fine src [' '] := fine_mk _ (by decide)
  obtain ⟨h1, h2, h3⟩ := align_fine h.strip w
  cases a
  · exact (hsp.append h1).append hsp
  · exact (hsp.append h1).append hsp
  · exact (hsp.append h2).append hsp
  · exact (hsp.append h3).append hsp

theorem bodyCell_fine {src : Char → Prop} (c : Str) (w : Nat) (a : Align) (h : Fine src c) :
    Fine src (bodyCell c w a) := by
  have hsp : Fine src [' '] := fine_mk _ (by decide)
  obtain ⟨h1, h2, h3⟩ := align_fine h.strip w
  cases a
  · exact (hsp.append h2).append hsp
  · exact (hsp.append h1).append hsp
  · exact (hsp.append h2).append hsp
  · exact (hsp.append h3).append hsp

theorem dividerCell_fine {src : Char → Prop} (w : Nat) (a : Align) (hm : Fine src ['-']) (h : a ≠ .none → Fine src [':']) :
    Fine src (dividerCell w a) := by
  have hd : Fine src (List.replicate w '-') := hm.replicate w
  cases a with
  | none => exact (hm.append hd).append hm
  | center => exact ((h (by decide)).append hd).append (h (by decide))
  | left => exact ((h (by decide)).append hd).append hm
  | right => exact (hm.append hd).append (h (by decide))

theorem startsWith_mem {s : Str} {c : Char} (h : startsWith s [c] = true) : c ∈ s := by
  cases s with
  | nil => cases h
  | cons d r =>
    simp only [startsWith, List.isPrefixOf_cons_cons, Bool.and_eq_true, beq_iff_eq] at h
    simp [h.1]

theorem endsWith_mem {s : Str} {c : Char} (h : endsWith s [c] = true) : c ∈ s := by
  have : startsWith s.reverse [c] = true := h
  simpa using startsWith_mem this

theorem dividerAlign_mem {d : Str} (h : dividerAlign d ≠ .none) : ':' ∈ d := by
  unfold dividerAlign at h
  dsimp only at h
  split at h
  · rename_i e
    exact mem_of_mem_strip (startsWith_mem (by simpa using (Bool.and_eq_true _ _ ▸ e).1))
  · split at h
    · rename_i e; exact mem_of_mem_strip (startsWith_mem e)
    · split at h
      · rename_i e; exact mem_of_mem_strip (endsWith_mem e)
      · exact absurd rfl h

theorem inner_mem {α : Type} {xs : List α} {x : α} (h : x ∈ inner xs) : x ∈ xs :=
  List.mem_of_mem_drop ((List.dropLast_sublist _).subset h)

theorem fmtTable_fine {src : Char → Prop} (hk : MarkClosed src) {i : Nat} {lines : List Str} {out : Str} (h : fmtTable i lines = .ok out)
    (hl : ∀ l ∈ lines, Fine src l) (hb : Fine src ['|']) : Fine src out := by
  match lines with
  | [] => cases h
  | [_] => cases h
  | header :: divider :: body =>
    simp only [fmtTable, bind, Except.bind] at h
    split at h
    · cases h
    · cases h
      apply Fine.pyJoin (fine_mk _ (by decide))
      intro l hm
      rcases List.mem_cons.1 hm with rfl | hm
      · apply tableRow_fine hb
        apply zipCells_fine headerCell_fine
        intro c hc
        exact (hl header (by simp)).of_mem fun x hx => splitAt'_mem _ _ _ c (inner_mem hc) x hx
      · rcases List.mem_cons.1 hm with rfl | hm
        · apply tableRow_fine hb
          intro c hc
          obtain ⟨p, hp, rfl⟩ := List.mem_map.1 hc
          have hm : Fine src ['-'] := fun x hx => by
            rw [List.mem_singleton.1 hx]
            exact .inr ⟨by decide, .inl (hk.hyphen (hb.src (by simp) (by decide) (by decide)))⟩
          refine dividerCell_fine _ _ hm fun hne => ?_
          obtain ⟨d, hd, e⟩ := List.mem_map.1 (List.of_mem_zip hp).2
          rw [← e] at hne
          refine (hl divider (by simp)).of_mem fun x hx => ?_
          rw [List.mem_singleton.1 hx]
          exact mem_of_mem_strip (inner_mem (splitChar_mem _ _ _ hd _ (dividerAlign_mem hne)).1)
        · obtain ⟨b, hbm, rfl⟩ := List.mem_map.1 hm
          apply tableRow_fine hb
          apply zipCells_fine bodyCell_fine
          intro c hc
          exact splitChar_fine (hl b (by simp [hbm])) c (inner_mem hc)

/-! ## The whole program -/

/-- what a section is known to have in it by its kind -/
def Has (src : Char → Prop) (ty : Sec) : Prop :=
  (ty = .quote → Fine src ['>']) ∧ (ty = .ordered → Fine src ['.'] ∧ ∀ d, isDigit d = true → src d) ∧ (ty = .table → Fine src ['|'])

theorem headPred_has {src : Char → Prop} (hk : MarkClosed src) {ty : Sec} {l : Str} (h : headPred ty l = true) (hl : Fine src l) : Has src ty := by
  have key : ∀ {x : Char}, x ∈ lstrip l → Fine src [x] := fun {x} hx => hl.of_mem fun c hc => by
    rw [List.mem_singleton.1 hc]; exact mem_of_mem_lstrip hx
  refine ⟨?_, ?_, ?_⟩ <;> rintro rfl
  · simp only [headPred, isQuote, Bool.and_eq_true] at h
    exact key (startsWith_mem h.2)
  · simp only [headPred, isOrderedStart, Bool.and_eq_true] at h
    obtain ⟨d, r, e, hne, hd⟩ := (isOrderedStart_iff l).1 h.2
    have hdot : Fine src ['.'] := key (by rw [e]; simp)
    obtain ⟨c, d, rfl⟩ := List.exists_cons_of_ne_nil hne
    have hc := hd c (by simp)
    exact ⟨hdot, fun x hx => hk.digits (hdot.src (by simp) (by decide) (by decide)) hc
      ((key (x := c) (by rw [e]; simp)).src (by simp) (isDigit_ne hc).1 (isDigit_ne hc).2) hx⟩
  · simp only [headPred, isTableStart] at h
    exact key (startsWith_mem h)

/-- the first line of a section shows its kind -/
theorem parse_first {n : Nat} {lines : List Str} {secs : List (Sec × List Str)} (h : parse n lines = .ok secs)
    {s : Sec × List Str} (hs : s ∈ secs) : ∃ l ∈ s.2, headPred s.1 l = true := by
  obtain ⟨ty, content⟩ := s
  obtain ⟨pre, post, rfl⟩ := List.append_of_mem hs
  obtain ⟨hf, hne⟩ := parse_at h
  obtain ⟨l, ls, rfl⟩ := List.exists_cons_of_ne_nil hne
  rw [List.cons_append] at hf
  obtain ⟨before, f, after, h1, h2, h3, h4⟩ := firstSection_spec (splitters_keep n) hf
  have hmem : (ty, f) ∈ splitters (splitQuote n) := by rw [h1]; simp
  exact ⟨l, by simp, headPred_of_recognises n hmem ⟨_, _, h3, h4⟩⟩

theorem fmtSection_fine {src : Char → Prop} {sub : Width → Str → Except Err Str} (hk : MarkClosed src) (hs : SubFine sub) {w : Width}
    {i : Nat} {ty : Sec} {lines : List Str} {out : Str} (h : fmtSection sub w i ty lines = .ok out)
    (hl : ∀ l ∈ lines, Fine src l) (hh : Has src ty) : Fine src out := by
  cases ty with
  | atx => exact fmtAtx_fine h hl
  | blank => cases h; exact Fine.nil
  | quote => exact fmtQuote_fine hk hs h hl (hh.1 rfl)
  | bullet => exact fmtBullet_fine hk hs h hl
  | fenced => exact fmtFenced_fine h hl
  | indented =>
    cases h
    apply Fine.pyJoin (fine_mk _ (by decide))
    intro x hx
    obtain ⟨y, hy, rfl⟩ := List.mem_map.1 hx
    exact (hl y hy).rstrip
  | lrd => exact fmtLrd_fine h hl
  | ordered => exact fmtOrdered_fine hk hs h hl (hh.2.1 rfl)
  | par => exact fmtPar_fine h hl
  | setext => exact fmtSetext_fine h hl
  | table => exact fmtTable_fine hk h hl (hh.2.2 rfl)
  | thematic => exact fmtThematic_fine h hl

/-- the formatters of a document have the lines of its sections, and blank ones -/
theorem buildFmts_lines (secs : List (Sec × List Str)) : ∀ i last fs, buildFmts i last secs = .ok fs →
    ∀ f ∈ fs, (∃ s ∈ secs, f.ty = s.1 ∧ f.lines = s.2) ∨ (f.ty = .blank ∧ f.lines = [[]]) := by
  induction secs with
  | nil => intro i last fs h f hf; cases h; cases hf
  | cons s secs ih =>
    obtain ⟨ty, content⟩ := s
    intro i last fs h f hf
    simp only [buildFmts, bind, Except.bind] at h
    split at h
    · cases h
    · split at h
      · cases h
      · rename_i fs1 h1
        split at h
        · cases h
          simp only [List.mem_cons] at hf
          rcases hf with rfl | rfl | hf
          · exact .inr ⟨rfl, rfl⟩
          · exact .inl ⟨(ty, content), by simp, rfl, rfl⟩
          · rcases ih _ _ _ h1 f hf with ⟨s, hs, h2⟩ | h2
            · exact .inl ⟨s, by simp [hs], h2⟩
            · exact .inr h2
        · cases h
          simp only [List.mem_cons] at hf
          rcases hf with rfl | hf
          · exact .inl ⟨(ty, content), by simp, rfl, rfl⟩
          · rcases ih _ _ _ h1 f hf with ⟨s, hs, h2⟩ | h2
            · exact .inl ⟨s, by simp [hs], h2⟩
            · exact .inr h2

theorem mapError_ok {α ε ε' : Type} {f : ε → ε'} {x : Except ε α} {a : α} (h : x.mapError f = .ok a) : x = .ok a := by
  cases x with
  | error e => cases h
  | ok b => cases h; rfl

theorem fmtAll_fine {src : Char → Prop} {sub : Width → Str → Except Err Str} (hk : MarkClosed src) (hs : SubFine sub) {w : Width}
    (fs : List Fmt) : ∀ ts, fmtAll sub w fs = .ok ts → (∀ f ∈ fs, (∀ l ∈ f.lines, Fine src l) ∧ Has src f.ty) → ∀ t ∈ ts, Fine src t := by
  induction fs with
  | nil => intro ts h _ t ht; cases h; cases ht
  | cons f fs ih =>
    intro ts h hl t ht
    simp only [fmtAll, bind, Except.bind] at h
    split at h
    · cases h
    · rename_i t1 h1
      split at h
      · cases h
      · rename_i ts1 h2
        cases h
        rcases List.mem_cons.1 ht with rfl | ht
        · exact fmtSection_fine hk hs (mapError_ok h1) (hl f (by simp)).1 (hl f (by simp)).2
        · exact ih ts1 h2 (fun g hg => hl g (by simp [hg])) t ht

theorem reformatText_fine : ∀ n w text out, reformatText n w text = .ok out → Fine (Made (· ∈ text)) out := by
  intro n
  induction n with
  | zero => intro w text out h; cases h
  | succ n ih =>
    intro w text out h
    simp only [reformatText, reformatBody, bind, Except.bind] at h
    split at h
    · cases h
    · rename_i secs hp
      split at h
      · cases h
      · rename_i fmts hf
        split at h
        · cases h
        · rename_i parts hparts
          cases h
          refine (Fine.pyJoin (fine_mk _ (by decide)) ?_).append (fine_mk _ (by decide))
          refine fmtAll_fine (Made.closed _) ih fmts parts hparts ?_
          intro f hfm
          rcases buildFmts_lines secs _ _ _ hf f hfm with ⟨s, hs, h1, h2⟩ | ⟨h1, h2⟩
          · have hlines : ∀ l ∈ s.2, Fine (Made (· ∈ text)) l := by
              intro l hl c hc
              have hmem : l ∈ splitlines text := by
                rw [← (C08_parse_partition n _ _ hp).1]
                exact List.mem_flatten.2 ⟨s.2, List.mem_map.2 ⟨s, hs, rfl⟩, hl⟩
              exact .inr ⟨splitlines_noLB _ l hmem c hc, .inl (.inl (splitlines_mem _ l hmem c hc))⟩
            obtain ⟨l, hl, hh⟩ := parse_first hp hs
            rw [h1, h2]
            exact ⟨hlines, headPred_has (Made.closed _) hh (hlines l hl)⟩
          · rw [h1, h2]
            refine ⟨fun l hl => ?_, ⟨fun e => (nomatch e), fun e => (nomatch e), fun e => (nomatch e)⟩⟩
            simp at hl
            rw [hl]; exact Fine.nil

theorem reformatMarkdownText_fine {n : Nat} {w : Width} {text y : Str} (h : reformatMarkdownText n w text = .ok y) :
    Fine (Made (· ∈ text)) y := by
  simp only [reformatMarkdownText, bind, Except.bind] at h
  split at h
  · cases h
  · rename_i a ha
    split at h
    · cases h
    · split at h
      · cases h
      · cases h
        exact (reformatText_fine _ _ _ _ ha).rstrip.append (fine_mk _ (by decide))

/-- C04: the result has no line separator other than the newline. -/
theorem C04_only_newlines (n : Nat) (w : Width) (text y : Str) (h : reformatMarkdownText n w text = .ok y) :
    ∀ c ∈ y, isLB c = true → c = '\n' := by
  intro c hc hlb
  rcases reformatMarkdownText_fine h c hc with h1 | ⟨h1, _⟩
  · exact h1
  · rw [h1] at hlb; cases hlb

/-- C04, named: none of the other line separators of Python's `str.splitlines` is left. -/
theorem C04_no_other_separator (n : Nat) (w : Width) (text y : Str) (h : reformatMarkdownText n w text = .ok y) :
    ∀ c ∈ c!"\r\x0b\x0c\x1c\x1d\x1e\u0085\u2028\u2029", c ∉ y := by
  intro c hc hy
  have hsep : ∀ c ∈ c!"\r\x0b\x0c\x1c\x1d\x1e\u0085\u2028\u2029", isLB c = true ∧ c ≠ '\n' := by decide
  exact (hsep c hc).2 (C04_only_newlines n w text y h c hy (hsep c hc).1)

/-- A character other than white space, hyphen and digit comes from the text. -/
theorem reformatText_from {n : Nat} {w : Width} {t o : Str} (h : reformatText n w t = .ok o) {c : Char} (hc : c ∈ o)
    (h1 : c ∉ c!"\n -") (h2 : isDigit c = false) : c ∈ t := by
  simp only [List.mem_cons, List.not_mem_nil, or_false, not_or] at h1
  exact ((reformatText_fine n w t o h).src hc h1.1 h1.2.1).other h1.2.2 h2

/-- A digit is one of ten. -/
theorem isDigit_mem {c : Char} (h : isDigit c = true) : c ∈ c!"0123456789" := by
  have hc : c = Char.ofNat c.toNat := (Char.ofNat_toNat c).symm
  simp only [isDigit, Bool.and_eq_true, decide_eq_true_eq] at h
  have : c.toNat = 48 ∨ c.toNat = 49 ∨ c.toNat = 50 ∨ c.toNat = 51 ∨ c.toNat = 52 ∨ c.toNat = 53 ∨ c.toNat = 54 ∨ c.toNat = 55 ∨
    c.toNat = 56 ∨ c.toNat = 57 := by omega
  rcases this with h | h | h | h | h | h | h | h | h | h <;> rw [h] at hc <;> rw [hc] <;> decide

/-- C05, with the reasons: a character of the result is from the input, or a newline or space, or a hyphen of a table, or a digit of
a numbered list. -/
theorem C05_reasons (n : Nat) (w : Width) (text y : Str) (h : reformatMarkdownText n w text = .ok y) :
    ∀ c ∈ y, c ∈ text ∨ c = '\n' ∨ c = ' ' ∨ (c = '-' ∧ '|' ∈ text) ∨
      (c ∈ c!"0123456789" ∧ '.' ∈ text ∧ ∃ d ∈ text, d ∈ c!"0123456789") := by
  intro c hc
  rcases reformatMarkdownText_fine h c hc with h1 | ⟨_, (h1 | h1 | ⟨h1, h2, d, h3, h4⟩) | h1⟩
  · exact .inr (.inl h1)
  · exact .inl h1
  · exact .inr (.inr (.inr (.inl h1)))
  · exact .inr (.inr (.inr (.inr ⟨isDigit_mem h1, h2, d, h4, isDigit_mem h3⟩)))
  · exact .inr (.inr (.inl (by simpa [markup] using h1)))

/-- C05: every character of the result is from the input, or a newline, a space, a hyphen or a digit. -/
theorem C05_no_invented_characters (n : Nat) (w : Width) (text y : Str) (h : reformatMarkdownText n w text = .ok y) :
    ∀ c ∈ y, c ∈ text ∨ c ∈ c!"\n -0123456789" := by
  intro c hc
  rcases C05_reasons n w text y h c hc with h | rfl | rfl | ⟨rfl, _⟩ | ⟨h, _⟩
  · exact .inl h
  · right; decide
  · right; decide
  · right; decide
  · right; simp only [List.mem_cons] at h ⊢; exact .inr (.inr (.inr h))

/-- A text without this character whose result has it. -/
def inventing (c : Char) : Str :=
  if c == '\n' then c!"a" else if c == ' ' then c!"#a" else if c == '-' then c!"|a|\n|b|"
  else if c == '0' then c!"9. a\n9. b" else [Char.ofNat (c.toNat - 1)] ++ c!". a\n" ++ [Char.ofNat (c.toNat - 1)] ++ c!". b"

theorem inventing_invents : ∀ c ∈ c!"\n -0123456789", c ∉ inventing c ∧
    ∃ y ∈ (reformatMarkdownText 3 (.fin 80) (inventing c)).toOption, c ∈ y := by
  have : ∀ c ∈ c!"\n -0123456789", c ∉ inventing c ∧
      ((reformatMarkdownText 3 (.fin 80) (inventing c)).toOption.getD []).contains c = true := by decide +kernel
  intro c hc
  obtain ⟨h1, h2⟩ := this c hc
  refine ⟨h1, ?_⟩
  cases ho : (reformatMarkdownText 3 (.fin 80) (inventing c)).toOption with
  | none => rw [ho] at h2; cases h2
  | some y => rw [ho] at h2; exact ⟨y, rfl, by simpa using h2⟩

/-- C05, the list is exact: a character is written anew for some input exactly if it is a newline, a space, a hyphen or a digit. -/
theorem C05_exact (c : Char) : c ∈ c!"\n -0123456789" ↔
    ∃ n w text y, reformatMarkdownText n w text = .ok y ∧ c ∈ y ∧ c ∉ text := by
  constructor
  · intro hc
    obtain ⟨h1, y, h2, h3⟩ := inventing_invents c hc
    refine ⟨3, .fin 80, inventing c, y, ?_, h3, h1⟩
    cases ho : reformatMarkdownText 3 (.fin 80) (inventing c) with
    | error e => rw [ho] at h2; cases h2
    | ok z => rw [ho] at h2; cases h2; rfl
  · rintro ⟨n, w, text, y, h, h1, h2⟩
    exact (C05_no_invented_characters n w text y h c h1).resolve_left h2

/-- other separators in the input are turned into newlines or spaces -/
example : reformatMarkdownText 3 (.fin 80) c!"a\r\nb\u2028c\x0c* d\r" = .ok c!"a b c\n* d\n" := by decide +kernel

end MF
