import Verif.Lemmas.Lrd
import Verif.Props.Paragraphs
import Verif.Props.Wrap
import Verif.Model.Reformat
/-!
# C31: link reference definitions
-/

namespace MF

/-- The lines start with a label: `[name]:`, perhaps indented. -/
def StartsLabel (content : List Str) : Prop :=
  ∃ l0 more ws name r, content = l0 :: more ∧ l0 = ws ++ '[' :: (name ++ ']' :: ':' :: r) ∧
    (∀ c ∈ ws, isWs c = true) ∧ name ≠ [] ∧ name.length ≤ 999 ∧ ']' ∉ name

theorem lrdFirst_shape {s : Str} {m : Match} (h : lrdFirstRx.match? s = some m) :
    ∃ name r, s = '[' :: (name ++ ']' :: ':' :: r) ∧ name ≠ [] ∧ name.length ≤ 999 ∧ ']' ∉ name := by
  obtain ⟨st, hst, _⟩ := Rx.matchAt_sound h
  simp only [lrdFirstRx, Rx.seqs] at hst
  obtain ⟨s1, ⟨c1, cs1, e1, e2, rfl⟩, s2, e3, s3, ⟨c3, cs3, e9, e10, rfl⟩, ⟨c4, cs4, e11, e12, rfl⟩⟩ := hst
  obtain ⟨nm, e4, e5, e6, e7, e8⟩ := repStep_chr e3
  have d1 : s = c1 :: cs1 := e1
  have d2 : cs1 = nm ++ s2.post := e4.1
  have d3 : s2.post = c3 :: cs3 := e9
  have d4 : cs3 = c4 :: cs4 := e11
  have b1 : c1 = '[' := by simpa using e2
  have b3 : c3 = ']' := by simpa using e10
  have b4 : c4 = ':' := by simpa using e12
  refine ⟨nm, cs4, by simp [d1, d2, d3, d4, b1, b3, b4], ?_, e7 999 rfl, ?_⟩
  · intro h0; rw [h0] at e6; simp at e6
  · intro hm
    have := e5 _ hm
    simp at this

theorem splitLrd_label {lines a b : List Str} (h : splitLrd lines = .ok (a, b)) (ha : a ≠ []) (hab : a ++ b = lines) :
    StartsLabel a := by
  cases lines with
  | nil => cases h
  | cons l0 tail =>
    obtain ⟨y, ys, rfl⟩ := List.exists_cons_of_ne_nil ha
    simp only [List.cons_append, List.cons.injEq] at hab
    obtain ⟨rfl, _⟩ := hab
    simp only [splitLrd] at h
    split at h
    · cases h
    · split at h
      · cases h
      · rename_i m hm
        obtain ⟨name, r, h1, h2, h3, h4⟩ := lrdFirst_shape hm
        obtain ⟨t, ht, hall⟩ := lstrip_split y
        exact ⟨y, ys, t, name, r, rfl, by rw [← h1]; exact ht, hall, h2, h3, h4⟩

/-- the definitions the parser finds start with a label -/
theorem parse_lrd {n : Nat} {lines : List Str} {secs : List (Sec × List Str)} (h : parse n lines = .ok secs)
    {content : List Str} (hm : (Sec.lrd, content) ∈ secs) : StartsLabel content := by
  obtain ⟨f, rest, hf, hne, hs⟩ := parse_section h hm
  have : f = splitLrd := by
    simp only [splitters, List.mem_cons, Prod.mk.injEq, reduceCtorEq, false_and, List.not_mem_nil, or_false, false_or,
      true_and] at hf
    exact hf
  subst this
  exact splitLrd_label hs hne rfl

theorem join_cons (l0 : Str) (more : List Str) : ∃ b, pyJoin [' '] (l0 :: more) = l0 ++ b := by
  cases more with
  | nil => exact ⟨[], by simp [pyJoin]⟩
  | cons x xs => exact ⟨[' '] ++ pyJoin [' '] (x :: xs), by simp [pyJoin]⟩

theorem nw_noWs {s : Str} (h : ∀ c ∈ s, isWs c = false) : nw s = s := by
  unfold nw
  rw [List.filter_eq_self]
  intro c hc
  simp [h c hc]

theorem nw_words (s : Str) : nw (pyJoin [' '] (splitWs s)) = nw s := by
  rw [nw_pyJoin (by intro c hc; simp at hc; rw [hc]; decide), splitWs_flatten]
  unfold nw
  simp

theorem splitWs_join_words (s : Str) : splitWs (pyJoin [' '] (splitWs s)) = splitWs s := by
  rw [splitWs_pyJoin]
  have : ∀ ws : List Str, (∀ w ∈ ws, w ≠ [] ∧ ∀ c ∈ w, isWs c = false) → (ws.map splitWs).flatten = ws := by
    intro ws
    induction ws with
    | nil => intro _; rfl
    | cons w ws ih =>
      intro h
      simp only [List.map_cons, List.flatten_cons]
      rw [ih fun x hx => h x (by simp [hx]), splitWs_self (h w (by simp)).1 (h w (by simp)).2]
      rfl
  exact this _ fun w hw => ⟨(splitWs_word hw).1, (splitWs_word hw).2.1⟩

theorem takeWhile_eq_self {p : Char → Bool} {s : Str} (h : ∀ c ∈ s, p c = true) : s.takeWhile p = s := by
  induction s with
  | nil => rfl
  | cons c s ih =>
    rw [List.takeWhile_cons, if_pos (h c (by simp)), ih fun x hx => h x (by simp [hx])]

/-- label, link and title of a section that starts with a label -/
theorem lrd_parts {content : List Str} (h : StartsLabel content) (hlb : ∀ l ∈ content, NoLB l) :
    ∃ name link title, lrdParts content = .ok (name, link, title) ∧ NoLB name ∧ name ≠ [] ∧ ']' ∉ name ∧
      (∀ c ∈ link, isWs c = false) ∧ title = pyJoin [' '] (splitWs title) ∧ NoLB title ∧ (link = [] → title = []) ∧
      nw (pyJoin [' '] content) = '[' :: (nw name ++ ']' :: ':' :: (link ++ nw title)) := by
  obtain ⟨l0, more, ws, name, r, rfl, rfl, hws, h1, h2, h3⟩ := h
  obtain ⟨b, hb⟩ := join_cons (ws ++ '[' :: (name ++ ']' :: ':' :: r)) more
  have hjoin : pyJoin [' '] ((ws ++ '[' :: (name ++ ']' :: ':' :: r)) :: more) =
      ws ++ ('[' :: (name ++ (']' :: ':' :: (r ++ b)))) := by rw [hb]; simp
  have hnolb : NoLB (pyJoin [' '] ((ws ++ '[' :: (name ++ ']' :: ':' :: r)) :: more)) := by
    intro c hc
    rcases mem_pyJoin hc with h | ⟨l, hl, hc⟩
    · simp at h; rw [h]; decide
    · exact hlb l hl c hc
  have hbody : NoLB (r ++ b) := hnolb.of_mem fun c hc => by rw [hjoin]; simp [List.mem_append.1 hc]
  have hname : NoLB name := hnolb.of_mem fun c hc => by rw [hjoin]; simp [hc]
  have hwsb : '[' ∉ ws := fun hm => by have := hws _ hm; revert this; decide
  have hp := lrdParts_of_shape hjoin hwsb h1 h2 h3
  generalize hB : r ++ b = body at *
  refine ⟨_, _, _, hp, hname, h1, h3, fun c hc => by simpa using takeWhile_all _ _ c hc, ?_, ?_, ?_, ?_⟩
  · rw [splitWs_join_words]
  · intro c hc
    rcases mem_pyJoin hc with h | ⟨l, hl, hc⟩
    · simp at h; rw [h]; decide
    · obtain ⟨_, _, hin⟩ := splitWs_word hl
      have hc1 := hin.subset hc
      have hc2 := (List.takeWhile_sublist _).subset hc1
      have hc3 := mem_of_mem_dropWhile (mem_of_mem_lstrip hc2)
      exact hbody c (mem_of_mem_lstrip hc3)
  · intro h0
    rcases lstrip_head body with h4 | ⟨c, r', h4, h5⟩
    · rw [h4]; rfl
    · rw [h4] at h0; simp [h5] at h0
  · have htw : (lstrip ((lstrip body).dropWhile (fun c => !isWs c))).takeWhile (· != '\n') =
        lstrip ((lstrip body).dropWhile (fun c => !isWs c)) := by
      apply takeWhile_eq_self
      intro c hc
      simp only [bne_iff_ne, ne_eq]
      intro h0
      have := hbody c (mem_of_mem_lstrip (mem_of_mem_dropWhile (mem_of_mem_lstrip hc)))
      rw [h0] at this; cases this
    rw [hjoin, nw_append, nw_ws hws, htw, nw_words, nw_lstrip]
    have hsplit : nw body = (lstrip body).takeWhile (fun c => !isWs c) ++ nw ((lstrip body).dropWhile (fun c => !isWs c)) := by
      rw [← nw_lstrip body]
      conv => lhs; rw [← @List.takeWhile_append_dropWhile _ (fun c => !isWs c) (lstrip body)]
      rw [nw_append, nw_noWs fun c hc => by simpa using takeWhile_all _ _ c hc]
    rw [List.nil_append, ← hsplit, show ('[' :: (name ++ ']' :: ':' :: body)) = ['['] ++ name ++ [']', ':'] ++ body by simp]
    simp only [nw_append]
    rw [show nw ['['] = ['['] from by decide, show nw [']', ':'] = [']', ':'] from by decide]
    simp

theorem wrapInput_infix {s : Str} (h : NoLB s) : wrapInput s <:+: s := by
  unfold wrapInput
  cases hs : s with
  | nil => exact List.nil_infix
  | cons c r =>
    rw [← hs, splitlines_single s h (by rw [hs]; simp)]
    simp only [List.map_cons, List.map_nil, pyJoin]
    obtain ⟨a, ha, _⟩ := lstrip_split s
    obtain ⟨b, hb, _⟩ := rstripBy_split isWs (lstrip s)
    refine ⟨a, b, ?_⟩
    have : strip s = rstripBy isWs (lstrip s) := rfl
    rw [this, List.append_assoc, ← hb, ← ha]

theorem wrap_apart {s full out : Str} {w : Width} (h : wrap s w = .ok out) (hs : NoLB s) (hi : s <:+: full)
    (hl : LinksApart full) : nw out = nw s :=
  C23_wrap_partial h (hl.infix ((wrapInput_infix hs).trans hi))

/-- Full statement of C31: a definition is written with all that is not whitespace, in order, so with its label, its
link and the words of its title. False of the code: `C31_refuted`. -/
def C31_statement : Prop := ∀ (sub : Width → Str → Except Err Str) (n i : Nat) (w : Width) (lines : List Str)
  (secs : List (Sec × List Str)) (content : List Str) (out : Str), (∀ l ∈ lines, NoLB l) → parse n lines = .ok secs →
  (Sec.lrd, content) ∈ secs → fmtSection sub w i .lrd content = .ok out → nw out = nw (pyJoin [' '] content)

/-- C31 for definitions whose links are apart (in particular, without `](` and `][`), when the label, the link and the
first word of the title fit on a line. Missing: titles that start on the link's line and whose first word does not fit
there, for which label and link are lost (`C31_label_and_link_lost`). -/
theorem C31_lrd_kept_partial (sub : Width → Str → Except Err Str) (i : Nat) (w : Width) (content : List Str) (out : Str)
    (hlabel : StartsLabel content) (hlb : ∀ l ∈ content, NoLB l) (h : fmtSection sub w i .lrd content = .ok out)
    (name link title : Str) (hp : lrdParts content = .ok (name, link, title))
    (hfit : ∀ word, (splitWs title).head? = some word → w.ge (word.length + (name.length + link.length + 4)) = true)
    (hl : LinksApart (c!"[" ++ name ++ c!"]: " ++ link ++ c!" " ++ title)) :
    nw out = nw (pyJoin [' '] content) := by
  obtain ⟨name', link', title', hp', h1, h2, h3, h4, h5, h6, h7, h8⟩ := lrd_parts hlabel hlb
  rw [hp] at hp'
  cases hp'
  rw [h8]
  have hlinkLB : NoLB link := fun c hc => by
    cases hc2 : isLB c with
    | false => rfl
    | true => have := h4 c hc; rw [isLB_ws hc2] at this; cases this
  have nwhead : nw (['['] ++ name ++ c!"]:") = '[' :: (nw name ++ c!"]:") := by
    rw [nw_append, nw_append, show nw ['['] = ['['] from by decide, show nw c!"]:" = c!"]:" from by decide]; rfl
  have hheadLB : NoLB (['['] ++ name ++ c!"]:") :=
    NoLB.append (NoLB.append (by intro c hc; simp at hc; rw [hc]; decide) h1)
      (by intro c hc; exact (by decide : ∀ c ∈ c!"]:", isLB c = false) c hc)
  simp only [fmtSection, fmtLrd, bind, Except.bind, hp] at h
  split at h
  · rename_i he
    cases h
    have he' : link = [] := by simpa using he
    rw [nwhead, he', h7 he']
    simp [nw_nil]
  · rename_i he
    have he' : link ≠ [] := by simpa using he
    split at h
    · cases h
    · rename_i l0 rest
      by_cases hon : isIn link l0 = true
      · simp only [hon, if_true] at h
        have hstrLB : NoLB (['['] ++ name ++ c!"]:" ++ [' '] ++ link) :=
          (hheadLB.append (by intro c hc; simp at hc; rw [hc]; decide)).append hlinkLB
        have nwstr : nw (['['] ++ name ++ c!"]:" ++ [' '] ++ link) = '[' :: (nw name ++ c!"]:") ++ link := by
          rw [nw_append, nw_append, nwhead, show nw [' '] = [] from by decide, nw_noWs h4]; simp
        split at h
        · rename_i ht
          cases h
          have ht' : title = [] := by simpa using ht
          rw [nwstr, ht', nw_nil]
          simp
        · split at h
          · rename_i lastLine word ws hw1 hw2
            have hf := hfit word (by rw [hw2]; rfl)
            rw [splitlines_single _ hstrLB (by simp)] at h
            simp only [List.getLastD_cons, List.getLastD_nil, List.dropLast_singleton, List.nil_append, pyJoin] at h
            split at h
            · rw [if_pos (by
                rw [← hf]; congr 2; simp; omega)] at h
              split at h
              · cases h
              · rename_i wr hwr
                cases h
                rw [wrap_apart hwr ((hstrLB.append (by intro c hc; simp at hc; rw [hc]; decide)).append h6)
                  ⟨[], [], by simp⟩ hl, nw_append, nw_append, nwstr, show nw [' '] = [] from by decide]
                simp
            · split at h
              · cases h
              · rename_i wr hwr
                cases h
                rw [nw_append, nw_append, nwstr, show nw ['\n'] = [] from by decide,
                  wrap_apart hwr h6 ⟨c!"[" ++ name ++ c!"]: " ++ link ++ c!" ", [], by simp⟩ hl]
                simp
          · cases h
      · simp only [hon, if_false, Bool.false_eq_true] at h
        have nwstr : nw (['['] ++ name ++ c!"]:" ++ ['\n'] ++ link) = '[' :: (nw name ++ c!"]:") ++ link := by
          rw [nw_append, nw_append, nwhead, show nw ['\n'] = [] from by decide, nw_noWs h4]; simp
        split at h
        · rename_i ht
          cases h
          have ht' : title = [] := by simpa using ht
          rw [nwstr, ht', nw_nil]
          simp
        · split at h
          · rename_i lastLine word ws hw1 hw2
            have hf := hfit word (by rw [hw2]; rfl)
            have hsl : splitlines (['['] ++ name ++ c!"]:" ++ ['\n'] ++ link) = [['['] ++ name ++ c!"]:", link] := by
              rw [List.append_assoc]
              show splitlines (['['] ++ name ++ c!"]:" ++ '\n' :: link) = _
              rw [splitlines_line _ hheadLB, splitlines_single _ hlinkLB he']
            rw [hsl] at h
            simp only [List.getLastD_cons, List.getLastD_nil, List.dropLast, List.cons_append, List.nil_append, pyJoin] at h
            split at h
            · rw [if_pos (by
                cases w with
                | inf => rfl
                | fin k => simp only [Width.ge, decide_eq_true_eq] at hf ⊢; omega)] at h
              split at h
              · cases h
              · rename_i wr hwr
                cases h
                show nw (['['] ++ name ++ c!"]:" ++ ['\n'] ++ wr) = _
                rw [nw_append (['['] ++ name ++ c!"]:" ++ ['\n']) wr, nw_append _ ['\n'],
                  show nw ['\n'] = [] from by decide, wrap_apart hwr ((hlinkLB.append (by intro c hc; simp at hc; rw [hc]; decide)).append h6)
                  ⟨c!"[" ++ name ++ c!"]: ", [], by simp⟩ hl, nwhead, nw_append, nw_append, nw_noWs h4,
                  show nw [' '] = [] from by decide]
                simp
            · split at h
              · cases h
              · rename_i wr hwr
                cases h
                show nw (['['] ++ name ++ c!"]:" ++ ['\n'] ++ link ++ ['\n'] ++ wr) = _
                rw [nw_append, nw_append, nwstr, show nw ['\n'] = [] from by decide,
                  wrap_apart hwr h6 ⟨c!"[" ++ name ++ c!"]: " ++ link ++ c!" ", [], by simp⟩ hl]
                simp
          · cases h

/-- What happens otherwise: a title whose first word is on the link's line and does not fit after it is written alone,
after an empty line, without label and link. -/
theorem C31_label_and_link_lost (sub : Width → Str → Except Err Str) (i : Nat) (w : Width) (l0 : Str) (more : List Str)
    (out name link title word : Str) (h : fmtSection sub w i .lrd (l0 :: more) = .ok out)
    (hp : lrdParts (l0 :: more) = .ok (name, link, title)) (hne : link ≠ []) (hnl : NoLB name) (hll : NoLB link)
    (hword : (splitWs title).head? = some word)
    (hon : isIn link l0 = true) (hon' : isIn word l0 = true)
    (hfit : w.ge (word.length + (name.length + link.length + 4)) = false) :
    ∃ t, wrap title w = .ok t ∧ out = '\n' :: t := by
  have htne : title.isEmpty = false := by
    cases title with
    | nil => simp [splitWs] at hword
    | cons c r => rfl
  have hlne : link.isEmpty = false := by simpa using hne
  have hstrLB : NoLB (['['] ++ name ++ c!"]:" ++ [' '] ++ link) := by
    intro c hc
    simp only [List.mem_append] at hc
    rcases hc with (((hc | hc) | hc) | hc) | hc
    · simp at hc; rw [hc]; decide
    · exact hnl c hc
    · exact (by decide : ∀ c ∈ c!"]:", isLB c = false) c hc
    · simp at hc; rw [hc]; decide
    · exact hll c hc
  simp only [fmtSection, fmtLrd, bind, Except.bind, hp, hlne, htne, hon, if_true, Bool.false_eq_true, if_false] at h
  cases hs : splitWs title with
  | nil => rw [hs] at hword; cases hword
  | cons x xs =>
    rw [hs] at hword h
    simp only [List.head?_cons, Option.some.injEq] at hword
    subst hword
    simp only [hon', if_true] at h
    rw [splitlines_single _ hstrLB (by simp)] at h
    simp only [List.getLastD_cons, List.getLastD_nil] at h
    rw [if_neg (by
      rw [← Bool.not_eq_true] at hfit
      intro h0
      apply hfit
      rw [← h0]; congr 2; simp; omega)] at h
    split at h
    · cases h
    · rename_i wr hwr
      cases h
      exact ⟨wr, hwr, rfl⟩

theorem C31_refuted : ¬ C31_statement := by
  intro h
  have := h (fun _ _ => .error .runtime) 3 0 (.fin 7) [c!"[a]: b \"x y z w\"", []]
    [(.lrd, [c!"[a]: b \"x y z w\""]), (.blank, [[]])] [c!"[a]: b \"x y z w\""] c!"\n\"x y z\nw\""
    (by unfold NoLB; decide) (by decide +kernel) (by decide) (by decide +kernel)
  revert this; decide +kernel

/-- The whole program loses label and link. -/
example : reformatMarkdownText 3 (.fin 7) c!"[a]: b \"x y z w\"\n\n" = .ok c!"\n\"x y z\nw\"\n" := by decide +kernel

/-- A definition with a title on lines of its own. -/
example : fmtSection (fun _ _ => .error .runtime) (.fin 16) 0 .lrd [c!" [a b]: c", c!"  'some  title", c!"words'"] =
    .ok c!"[a b]: c\n'some title\nwords'" ∧
    lrdParts [c!" [a b]: c", c!"  'some  title", c!"words'"] = .ok (c!"a b", c!"c", c!"'some title words'") := by
  decide +kernel

end MF
