import Verif.Lemmas.TreeNest
/-!
# Trees that are written down are read back
-/

namespace MF

theorem getIndent_spaced (l : Str) (h : strip l ≠ []) : getIndent (spaced l) = getIndent l + 1 := by
  unfold spaced
  split
  · rename_i e; rw [List.isEmpty_iff] at e; subst e; exact absurd rfl h
  · exact getIndent_space l

theorem strip_spaced (l : Str) : strip (spaced l) = strip l := by
  unfold spaced
  split
  · rename_i e; rw [List.isEmpty_iff] at e; subst e; rfl
  · exact strip_space l

theorem lstrip_spaced (l : Str) : lstrip (spaced l) = lstrip l := by
  unfold spaced
  split
  · rename_i e; rw [List.isEmpty_iff] at e; subst e; rfl
  · exact lstrip_append_ws [' '] l (by decide)

theorem noLB_spaced {l : Str} (h : NoLB l) : NoLB (spaced l) := by
  unfold spaced
  split
  · exact noLB_nil
  · exact .cons (by decide) h

theorem dropSpace_spaced (l : Str) : dropSpace (spaced l) = l := by
  unfold spaced
  split
  · rename_i e; rw [List.isEmpty_iff] at e; subst e; rfl
  · rfl

theorem indented_spaced {l : Str} (h : getIndent l < 3) : isIndentedStart (spaced l) = false := by
  unfold isIndentedStart
  rw [strip_spaced]
  cases e : strip l with
  | nil => rfl
  | cons c r =>
    rw [getIndent_spaced l (by rw [e]; simp)]
    simp; omega

theorem firstCh_spaced (l : Str) : firstCh (spaced l) = firstCh l := by unfold firstCh; rw [lstrip_spaced]

theorem isTableStart_spaced (l : Str) : isTableStart (spaced l) = isTableStart l := by
  unfold isTableStart; rw [lstrip_spaced]

theorem mem_spaced {l : Str} {c : Char} (h : c ∈ spaced l) : c = ' ' ∨ c ∈ l := by
  unfold spaced at h
  split at h
  · cases h
  · simpa using h

theorem filter_spaced (l : Str) : (spaced l).filter (fun x => !isWs x) = l.filter fun x => !isWs x := by
  unfold spaced
  split
  · rename_i e; rw [List.isEmpty_iff] at e; subst e; rfl
  · rfl

theorem mem_spaced_of {l : Str} {c : Char} (h : c ∈ l) : c ∈ spaced l := by
  unfold spaced
  split
  · rename_i e; rw [List.isEmpty_iff] at e; subst e; exact h
  · simp [h]

theorem isThematic_spaced {l : Str} (h : isThematic (spaced l) = true) : isThematic l = true := by
  rw [isThematic_iff] at h ⊢
  obtain ⟨h1, c, hc, h3, hall⟩ := h
  rw [filter_spaced] at h3
  refine ⟨?_, c, hc, h3, fun x hx => hall x (mem_spaced_of hx)⟩
  unfold isIndentedStart at h1 ⊢
  rw [strip_spaced] at h1
  cases e : strip l with
  | nil => rfl
  | cons y r =>
    rw [getIndent_spaced l (by rw [e]; simp), e] at h1
    simp at h1 ⊢; omega

theorem listEnd_spaced {l : Str} (h : listEnd l = false) : listEnd (spaced l) = false := by
  rw [listEnd_eq] at h ⊢
  simp only [Bool.or_eq_false_iff] at h ⊢
  refine ⟨⟨?_, ?_⟩, ?_⟩
  · unfold isBlankLine; rw [strip_spaced]; exact h.1.1
  · rw [isTableStart_spaced]; exact h.1.2
  · cases e : isThematic (spaced l) with
    | false => rfl
    | true => rw [isThematic_spaced e] at h; exact h.2

theorem bulletLine_spaced (l : Str) : bulletLine (spaced l) = bulletLine l := by
  unfold bulletLine
  rw [show (spaced l).dropWhile isWs = l.dropWhile isWs from lstrip_spaced l]

theorem splitWs_spaced (l : Str) : splitWs (spaced l) = splitWs l := by
  unfold spaced
  split
  · rename_i e; rw [List.isEmpty_iff] at e; subst e; rfl
  · rfl

theorem textLine_spaced {l : Str} (h : TextLine l) (hi : getIndent l < 3) : TextLine (spaced l) := by
  have hne : spaced l = ' ' :: l := by
    unfold spaced
    rw [if_neg]
    intro e; rw [List.isEmpty_iff] at e; subst e; exact h.ne rfl
  constructor
  · intro c hc hw
    rcases mem_spaced hc with e | hc
    · exact e
    · exact h.spaces c hc hw
  · rw [getIndent_spaced l h.tame.strip]; omega
  · unfold Opens; rw [splitWs_spaced]; exact h.opens
  · unfold firstCh
    rw [lstrip_spaced, hne]
    intro hb hin
    refine h.label hb ?_
    obtain ⟨p, q, e⟩ := hin
    cases p with
    | nil => cases e
    | cons c p =>
      simp only [List.cons_append, List.cons.injEq] at e
      exact ⟨p, q, e.2⟩
  · rw [hne]
    rintro ⟨r, e⟩
    cases r with
    | nil =>
      simp only [List.nil_append, List.cons.injEq, true_and] at e
      subst e; exact h.ne rfl
    | cons c r =>
      simp only [List.cons_append, List.cons.injEq] at e
      exact h.noBreak ⟨r, e.2⟩

theorem text_spaced {ls : List Str} {ts : List Tok} (h : Text ls ts) (hi : ∀ l ∈ ls, getIndent l < 3) :
    Text (ls.map spaced) ts := by
  refine ⟨?_, ?_, h.layable⟩
  · intro l hl
    obtain ⟨x, hx, rfl⟩ := List.mem_map.1 hl
    exact textLine_spaced (h.lines x hx) (hi x hx)
  · have : ls.map (strip ∘ spaced) = ls.map strip := List.map_congr_left fun l _ => strip_spaced l
    rw [List.map_map, this]
    exact h.inline

theorem isSetext_spaced {l : Str} (hi : getIndent l < 3) (h : isSetextUnderline l = true) : isSetextUnderline (spaced l) = true := by
  unfold isSetextUnderline at h ⊢
  rw [strip_spaced, indented_spaced hi]
  simp only [Bool.and_eq_true] at h ⊢
  exact ⟨⟨rfl, h.1.2⟩, h.2⟩

theorem flat_spaced {ty : Sec} {ls : List Str} (h : Flat ty ls) (hi : ty ≠ .fenced → ∀ l ∈ ls, getIndent l < 3) :
    Flat ty (ls.map spaced) := by
  cases h with
  | @blank l h hl =>
    refine .blank ?_ (noLB_spaced hl)
    unfold isBlankLine at h ⊢; rw [strip_spaced]; exact h
  | @atx l h hl =>
    refine .atx ?_ (noLB_spaced hl)
    have hl3 := hi (by decide) l (by simp)
    unfold isAtx at h ⊢
    rw [indented_spaced hl3, lstrip_spaced]
    simp only [Bool.and_eq_true] at h ⊢
    exact ⟨rfl, h.2⟩
  | @thematic l h hb hl =>
    have hl3 := hi (by decide) l (by simp)
    refine .thematic ?_ ?_ (noLB_spaced hl)
    · rw [isThematic_iff] at h ⊢
      obtain ⟨h1, c, hc, h3, hall⟩ := h
      refine ⟨indented_spaced hl3, c, hc, by rw [filter_spaced]; exact h3, fun x hx hw => ?_⟩
      rcases mem_spaced hx with rfl | hx
      · cases hw
      · exact hall x hx hw
    · unfold isBulletStart at hb ⊢
      rw [← bulletLine_eq] at hb ⊢
      rw [bulletLine_spaced]
      have : isIndentedStart l = false := by
        unfold isIndentedStart; simp; intro _; omega
      rw [this] at hb
      have : bulletLine l = false := by simpa using hb
      rw [this]; simp
  | par h => exact .par (text_spaced h (hi (by decide)))
  | @setext ls u ts h hu hl =>
    rw [List.map_append, List.map_singleton]
    exact .setext (text_spaced h fun x hx => hi (by decide) x (by simp [hx]))
      (isSetext_spaced (hi (by decide) u (by simp)) hu) (noLB_spaced hl)
  | @fenced f k ws info close content hf hk hws hinfo hinfo2 hcontent hclose hl =>
    have e : (((ws ++ List.replicate k f ++ info) :: content ++ [close]).map spaced) =
        ((' ' :: ws) ++ List.replicate k f ++ info) :: content.map spaced ++ [spaced close] := by
      rw [List.map_append, List.map_cons, List.map_singleton]
      congr 2
      unfold spaced
      rw [if_neg]
      · simp
      · rw [List.isEmpty_iff]
        intro e
        have := congrArg List.length e
        simp at this; omega
    rw [e]
    refine .fenced hf hk ?_ hinfo hinfo2 ?_ (by rw [strip_spaced]; exact hclose) ⟨.cons (by decide) hl.1, hl.2.1, noLB_spaced hl.2.2.1, ?_⟩
    · intro c hc
      rcases List.mem_cons.1 hc with rfl | hc
      · decide
      · exact hws c hc
    · intro c hc
      obtain ⟨x, hx, rfl⟩ := List.mem_map.1 hc
      rw [strip_spaced]; exact hcontent x hx
    · intro c hc
      obtain ⟨x, hx, rfl⟩ := List.mem_map.1 hc
      exact noLB_spaced (hl.2.2.2 x hx)

theorem RefAt.ne {l label link title : Str} (h : RefAt l label link title) : l ≠ [] := by
  obtain ⟨_, _, _, _, rfl, _⟩ := h
  simp

theorem RefAt.strip_ne {l label link title : Str} (h : RefAt l label link title) : MF.strip l ≠ [] := by
  intro e
  obtain ⟨_, e1, _⟩ := h.lstrip
  have h1 := (lstrip_eq_nil_iff_strip l).2 e
  rw [e1] at h1; cases h1

theorem spaced_ne {l : Str} (h : l ≠ []) : spaced l = ' ' :: l := by
  unfold spaced; rw [if_neg (by simpa using h)]

theorem refAt_spaced {l label link title : Str} (h : RefAt l label link title) (hi : getIndent l < 3) :
    RefAt (spaced l) label link title := by
  rw [spaced_ne h.ne]
  obtain ⟨ws, g, g', e, rfl, h1, h2, h3, h4⟩ := h
  rw [getIndent_ws_append (h1 ws (by simp)), getIndent_not_ws (by decide)] at hi
  refine ⟨' ' :: ws, g, g', e, rfl, ?_, ?_, by simp; omega, h4⟩
  · intro x hx c hc
    rcases List.mem_cons.1 hx with rfl | hx
    · rcases List.mem_cons.1 hc with rfl | hc
      · decide
      · exact h1 ws (by simp) c hc
    · exact h1 x (List.mem_cons_of_mem _ hx) c hc
  · intro x hx
    rcases List.mem_cons.1 hx with rfl | hx
    · exact .cons (by decide) (h2 ws (by simp))
    · exact h2 x (List.mem_cons_of_mem _ hx)

theorem tailAt_spaced {l label link : Str} (h : TailAt l label link) (hi : getIndent l < 3) : TailAt (spaced l) label link := by
  rw [spaced_ne h.refAt.ne]
  obtain ⟨ws, g, e, rfl, h1, h2, h3, h4⟩ := h
  rw [getIndent_ws_append (fun c hc => by rw [h1 ws (by simp) c hc]; decide), getIndent_not_ws (by decide)] at hi
  refine ⟨' ' :: ws, g, e, rfl, ?_, by simp; omega, h3, h4⟩
  intro x hx c hc
  rcases List.mem_cons.1 hx with rfl | hx
  · rcases List.mem_cons.1 hc with rfl | hc
    · rfl
    · exact h1 ws (by simp) c hc
  · exact h1 x (List.mem_cons_of_mem _ hx) c hc

theorem noLabel_spaced {l : Str} (h : NoLabel l) : NoLabel (spaced l) := by
  intro hb
  rw [firstCh_spaced] at hb
  have hne : l ≠ [] := by intro e; subst e; cases hb
  rw [spaced_ne hne]
  rintro ⟨p, q, e⟩
  refine h hb ?_
  cases p with
  | nil => cases e
  | cons c p =>
    simp only [List.cons_append, List.cons.injEq] at e
    exact ⟨p, q, e.2⟩

/-- Lines of sections that may not be indented further. -/
def Low (ty : Sec) (ls : List Str) : Prop := ty ≠ .fenced → ty ≠ .indented → ∀ l, (ty = .bullet ∨ ty = .ordered → ls.head? = some l) → l ∈ ls →
  getIndent l < 3

theorem secOK_spaced {P : List Blk → Prop} {ty : Sec} {ls : List Str} {o : Bool} (h : SecOK P ty ls o) (hi : Low ty ls) :
    SecOK P ty (ls.map spaced) o := by
  cases h with
  | flat h =>
    refine .flat (flat_spaced h fun hf l hl => hi hf (by intro e; subst e; cases h) l ?_ hl)
    intro e
    exfalso
    rcases e with e | e <;> subst e <;> cases h
  | @bullet l ls h hu hl =>
    have h3 := hi (by decide) (by decide) l (by simp) (by simp)
    rw [List.map_cons]
    refine .bullet ?_ ?_ ?_
    · unfold isBulletStart at h ⊢
      rw [← bulletLine_eq] at h ⊢
      rw [bulletLine_spaced, indented_spaced h3]
      simp only [Bool.and_eq_true] at h ⊢
      exact ⟨rfl, h.2⟩
    · cases e : isSetextUnderline (spaced l) with
      | false => rfl
      | true =>
        have : isSetextUnderline l = true := by
          unfold isSetextUnderline at e ⊢
          rw [strip_spaced] at e
          simp only [Bool.and_eq_true] at e ⊢
          refine ⟨⟨?_, e.1.2⟩, e.2⟩
          unfold isIndentedStart; simp; right; omega
        rw [this] at hu; cases hu
    · intro x hx
      obtain ⟨y, hy, rfl⟩ := List.mem_map.1 hx
      exact listEnd_spaced (hl y hy)
  | @ordered l ls h hl =>
    have h3 := hi (by decide) (by decide) l (by simp) (by simp)
    rw [List.map_cons]
    refine .ordered ?_ ?_
    · unfold isOrderedStart at h ⊢
      simp only [Bool.and_eq_true] at h ⊢
      refine ⟨by rw [indented_spaced h3]; rfl, ?_⟩
      have := h.2
      rw [isOrderedStart_iff] at this ⊢
      rw [lstrip_spaced]; exact this
    · intro x hx
      obtain ⟨y, hy, rfl⟩ := List.mem_map.1 hx
      exact listEnd_spaced (hl y hy)
  | table hne h hi2 =>
    refine .table (by simpa using hne) ?_ ?_
    · intro x hx
      obtain ⟨y, hy, rfl⟩ := List.mem_map.1 hx
      rw [isTableStart_spaced]; exact h y hy
    · intro l hl
      rw [List.head?_map] at hl
      cases e : ls.head? with
      | none => rw [e] at hl; cases hl
      | some y =>
        rw [e] at hl; simp only [Option.map_some, Option.some.injEq] at hl
        subst hl
        have hm := List.mem_of_head? e
        have h3 := hi (by decide) (by decide) y (by simp) hm
        have hs : strip y ≠ [] := by
          intro es
          have := isTableStart_first.1 (h y hm)
          rw [(firstCh_none y).2 (by rw [isBlankLine, es]; rfl)] at this; cases this
        rw [getIndent_spaced y hs]; omega
  | @hard ls l ws ts h hws h2 =>
    have hl := hi (by decide) (by decide)
    have hst := (h.lines l (by simp)).tame.strip
    have e : (ls ++ [l ++ ws]).map spaced = ls.map spaced ++ [spaced l ++ ws] := by
      rw [List.map_append, List.map_singleton]
      congr 2
      have hne : l ≠ [] := by intro e; rw [e] at hst; exact hst rfl
      unfold spaced
      rw [if_neg (by simp [hne]), if_neg (by simp [hne])]
      rfl
    rw [e]
    refine .hard (ts := ts) ?_ hws h2
    have := text_spaced h (fun x hx => ?_)
    · rwa [List.map_append, List.map_singleton] at this
    · rcases List.mem_append.1 hx with hx | hx
      · exact hl x (by simp) (by simp [hx])
      · rw [List.mem_singleton.1 hx, ← getIndent_append_ws (ws := ws) hst]
        exact hl (l ++ ws) (by simp) (by simp)
  | @indented ls h h1 h2 =>
    have hs : ∀ l, isIndentedStart l = true → isIndentedStart (spaced l) = true := by
      intro l hl
      unfold isIndentedStart at hl ⊢
      rw [Bool.and_eq_true] at hl ⊢
      have hne : strip l ≠ [] := by simpa using hl.1
      rw [strip_spaced, getIndent_spaced l hne]
      exact ⟨hl.1, by have := hl.2; simp at this ⊢; omega⟩
    have hf : ∀ l, isFenceStart l = false → isFenceStart (spaced l) = false := by
      intro l hl; unfold isFenceStart at hl ⊢; rwa [strip_spaced]
    refine .indented ?_ ?_ ?_
    · intro x hx
      obtain ⟨y, hy, rfl⟩ := List.mem_map.1 hx
      rcases h y hy with h | h
      · exact .inl (hs y h)
      · right; unfold isBlankLine at h ⊢; rwa [strip_spaced]
    · obtain ⟨l, r, rfl, p1, p2⟩ := h1
      exact ⟨spaced l, r.map spaced, rfl, hs l p1, hf l p2⟩
    · obtain ⟨r, l, rfl, p1, p2⟩ := h2
      exact ⟨r.map spaced, spaced l, by simp, hs l p1, hf l p2⟩
  | @ref l label link title hr h =>
    exact .ref hr (refAt_spaced h (hi (by decide) (by decide) l (by simp) (by simp)))
  | @tail l label link hr h =>
    exact .tail hr (tailAt_spaced h (hi (by decide) (by decide) l (by simp) (by simp)))
  | @quote _ doc b hq hp =>
    refine .quote (doc := doc) (b := b) ?_ hp
    have key : ∀ (ls rs : List Str), Quoted ls rs → (∀ l ∈ ls, getIndent l < 3) → Quoted (ls.map spaced) rs := by
      intro ls rs h
      induction h with
      | nil => intro _; exact .nil
      | @cons l r ls rs h _ ih =>
        intro hi
        refine .cons ?_ (ih fun l hl => hi l (by simp [hl]))
        obtain ⟨k, hk, e⟩ := h
        have h3 := hi l (by simp)
        refine ⟨k + 1, ?_, ?_⟩
        · rw [e, getIndent_ws_append (by intro c hc; rw [List.eq_of_mem_replicate hc]; decide)] at h3
          simp at h3; omega
        · rw [e]
          unfold spaced
          rw [if_neg (by simp)]
          rfl
    exact key _ _ hq fun l hl => hi (by decide) (by decide) l (by simp) hl

theorem next_spaced {a b : Blk} (h : Next a b) :
    Next { a with ls := a.ls.map spaced } { b with ls := b.ls.map spaced } := by
  refine ⟨fun e => ?_, fun e l hl => ?_, fun e l hl q hq => ?_, h.quote, h.list, h.table⟩
  rotate_left
  · simp only [List.head?_map, Option.map_eq_some_iff] at hl
    obtain ⟨x, hx, rfl⟩ := hl
    exact noLabel_spaced (h.label e x hx)
  · simp only [List.head?_map, Option.map_eq_some_iff] at hl
    obtain ⟨x, hx, rfl⟩ := hl
    by_cases hn : x = []
    · subst hn; simp [spaced]
    · rw [spaced_ne hn]
      intro h0
      simp only [List.head?_cons, Option.some.injEq] at h0
      subst h0
      exact absurd hq (by decide)
  obtain ⟨h3, h1⟩ := h.par e
  refine ⟨fun e l hl hm => ?_, h1.imp_left ?_⟩
  · obtain ⟨x, hx, rfl⟩ := List.mem_map.1 hl
    rcases mem_spaced hm with e' | hm
    · cases e'
    · exact h3 e x hx hm
  · rintro ⟨r, l, e1, e2⟩
    refine ⟨r.map spaced, spaced l, by simp [e1], ?_⟩
    rw [endsWith_iff] at e2 ⊢
    obtain ⟨t, rfl⟩ := e2
    refine ⟨' ' :: t, ?_⟩
    unfold spaced
    rw [if_neg (by simp)]
    rfl

theorem adj_map {α β : Type} {R : α → α → Prop} {S : β → β → Prop} {f : α → β} (h : ∀ a b, R a b → S (f a) (f b)) :
    ∀ {ls : List α}, Adj R ls → Adj S (ls.map f) := by
  intro ls
  induction ls with
  | nil => intro _; exact Adj.nil
  | cons x ls ih =>
    intro hs
    refine Adj.cons ?_ (ih hs.tail)
    intro y hy
    cases ls with
    | nil => cases hy
    | cons z ls =>
      simp only [List.map_cons, List.head?_cons, Option.some.injEq] at hy
      subst hy; exact h _ _ hs.head

theorem divides_spaced {d : Nat} {doc : List Blk} {b : Blk} (h : Sections d (doc ++ [b]))
    (hlow : ∀ x ∈ doc ++ [b], Low x.ty x.ls)
    (hc : Sealed ((doc ++ [b]).map fun x => { x with ls := x.ls.map spaced })) : Divides d ((blkLines (doc ++ [b])).map spaced) b.opn := by
  cases d with
  | zero => exact h.elim
  | succ d =>
    refine ⟨doc.map fun x => { x with ls := x.ls.map spaced }, { b with ls := b.ls.map spaced }, ⟨?_, ?_, by simpa using hc⟩, ?_, rfl⟩
    · intro x hx
      have : (doc.map fun x => { x with ls := x.ls.map spaced }) ++ [({ b with ls := b.ls.map spaced } : Blk)] =
          (doc ++ [b]).map fun x => { x with ls := x.ls.map spaced } := by simp
      rw [this] at hx
      obtain ⟨y, hy, rfl⟩ := List.mem_map.1 hx
      exact secOK_spaced (h.1 y hy) (hlow y hy)
    · have := adj_map (f := fun (x : Blk) => { x with ls := x.ls.map spaced }) (fun a b h => next_spaced h) h.2.1
      simpa using this
    · simp [blkLines, List.map_flatten, Function.comp_def]

/-! ## From text to sections -/

theorem listReads_first {R : List Str → List Node → Prop} {m : Str} {ls : List Str} {items : List (List Node)}
    (h : ListReads R m ls items) (hm : IsMarker m) : ∃ l rest ws r, ls = l :: rest ∧ MarkerAt l ws m (' ' :: r) ∧
      getIndent l < 4 ∧ strip r ≠ [] ∧ ∀ x ∈ rest, listEnd x = false := by
  obtain ⟨ws, r, rest, es, h1, h2, h3, h4, h5, h6, h7, h8⟩ := h.split
  have hma : MarkerAt (ws ++ (m ++ ' ' :: r)) ws m (' ' :: r) := ⟨rfl, h3, hm, .inr (.inr ⟨r, rfl⟩)⟩
  exact ⟨_, rest, ws, r, h1, hma, by rw [hma.indent]; exact h4, h5, fun x hx => (h7 x hx).1⟩

theorem reads_secOK {d : Nat} {ls : List Str} {a : Node} {R : List Str → List Node → Prop} (h : ReadsNode R (Divides d) ls a)
    (hw : a.WF (d + 1)) : SecOK (Sections d) a.kind ls a.opn := by
  cases hl : a.leaf with
  | true =>
    have hf := (leaf_flat h hw hl).1
    have := SecOK.flat (P := Sections d) hf
    cases a <;> first | exact this | cases hl
  | false =>
    cases h with
    | @table header divider body hc dc rows hi hh hd hb hdc hesc hnl =>
      refine .table (by simp) ?_ ?_
      · have hrow : ∀ l c, Row l c → isTableStart l = true := by
          rintro l c ⟨ws, raw, post, rfl, hws, _⟩
          rw [isTableStart_first]
          unfold firstCh
          rw [lstrip_append_ws _ _ hws, lstrip_cons_of_not _ _ (by decide)]; rfl
        have hrows : ∀ (body : List Str) (rows : List (List Str)), Rows body rows → ∀ l ∈ body, isTableStart l = true := by
          intro body
          induction body with
          | nil => intro _ _ l hl; cases hl
          | cons b body ih =>
            intro rows h l hl
            cases rows with
            | nil => exact h.elim
            | cons r rows =>
              rcases List.mem_cons.1 hl with rfl | hl
              · exact hrow _ _ h.1
              · exact ih rows h.2 l hl
        intro l hl
        rcases List.mem_cons.1 hl with rfl | hl
        · exact hrow _ _ hh
        · rcases List.mem_cons.1 hl with rfl | hl
          · exact hrow _ _ hd
          · exact hrows _ _ hb l hl
      · intro l hl
        simp only [List.head?_cons, Option.some.injEq] at hl
        subst hl; exact hi
    | @quote sp ls rs inner h0 hq hsp hR hS hnl =>
      obtain ⟨doc, b, h1, h2, h3⟩ := hS
      show SecOK (Sections d) .quote ls (opnDoc inner)
      rw [← h3]
      refine .quote (doc := doc) (b := b) ?_ h1
      rw [h2]; exact hq
    | hard h hws h2 => exact .hard h hws h2
    | ref h => exact .ref hw.1 h
    | tail h => exact .tail hw.1 h
    | indented h hnl =>
      obtain ⟨h1, h2, h3⟩ := indented_facts h hw
      exact .indented h1 h2 h3
    | @bullets c ls items h =>
      obtain ⟨hc, _, _⟩ := hw
      obtain ⟨l, rest, ws, r, rfl, hm, hi, hr, hend⟩ := listReads_first h (by
        rcases hc with rfl | rfl | rfl
        · exact .inl rfl
        · exact .inr (.inr (.inl rfl))
        · exact .inr (.inl rfl))
      refine .bullet ?_ ?_ hend
      · unfold isBulletStart
        rw [Bool.and_eq_true]
        refine ⟨by unfold isIndentedStart; simp; right; omega, ?_⟩
        rw [isBulletStart_iff]
        exact ⟨c, r, by rw [hm.lstrip]; rfl, hc⟩
      · cases e : isSetextUnderline l with
        | false => rfl
        | true =>
          exfalso
          obtain ⟨_, _, hs, _, hall⟩ := underline_char e
          have hmem : ' ' ∈ strip l := by
            show ' ' ∈ rstrip (lstrip l)
            rw [hm.lstrip]
            have hrr : rstrip r ≠ [] := by
              intro e; exact hr (by rw [strip_eq_nil]; exact (rstrip_eq_nil r).1 e)
            have := rstripBy_append_of_ne isWs [c, ' '] r hrr
            have e2 : rstrip ([c] ++ ' ' :: r) = [c, ' '] ++ rstrip r := this
            rw [e2]; simp
          simp only [isSetextUnderline, Bool.and_eq_true, Bool.or_eq_true, List.all_eq_true, beq_iff_eq] at e
          rcases e.2 with h | h
          · exact absurd (h _ hmem) (by decide)
          · exact absurd (h _ hmem) (by decide)
    | @numbers ds ls items hds hd h =>
      obtain ⟨l, rest, ws, r, rfl, hm, hi, hr, hend⟩ := listReads_first h (.inr (.inr (.inr ⟨ds, hds, hd, rfl⟩)))
      refine .ordered ?_ hend
      unfold isOrderedStart
      rw [Bool.and_eq_true]
      refine ⟨by unfold isIndentedStart; simp; right; omega, ?_⟩
      rw [isOrderedStart_iff]
      exact ⟨ds, r, by rw [hm.lstrip]; simp, hds, hd⟩
    | _ => cases hl

/-- Blocks other than text do not start with a quotation mark. -/
theorem reads_unquoted {R' : List Str → List Node → Prop} {S' : List Str → Bool → Prop} {ls : List Str} {a : Node} {d : Nat}
    (h : ReadsNode R' S' ls a) (hw : a.WF (d + 1)) (h1 : a.kind ≠ .setext) (h2 : a.kind = .par → ∃ label link, a = .tail label link) :
    ∀ l, ls.head? = some l → ∀ q ∈ c!"'\"", l.head? ≠ some q := by
  have key : ∀ (l : Str), (∀ q ∈ c!"'\"", firstCh l ≠ some q) → ∀ q ∈ c!"'\"", l.head? ≠ some q := by
    intro l h q hq e
    refine h q hq ?_
    have hqw : isWs q = false := by
      simp only [List.mem_cons, List.not_mem_nil, or_false] at hq
      rcases hq with rfl | rfl <;> decide
    cases l with
    | nil => cases e
    | cons c l =>
      simp only [List.head?_cons, Option.some.injEq] at e
      subst e
      unfold firstCh
      rw [lstrip_cons_of_not _ _ hqw]; rfl
  have first : ∀ (ws : Str) (c : Char) (r : Str), (∀ x ∈ ws, isWs x = true) → isWs c = false → c ∉ c!"'\"" →
      ∀ q ∈ c!"'\"", (ws ++ c :: r).head? ≠ some q := by
    intro ws c r h1 h2 h3
    refine key _ fun q hq e => h3 ?_
    unfold firstCh at e
    rw [lstrip_append_ws _ _ h1, lstrip_cons_of_not _ _ h2] at e
    simp only [List.head?_cons, Option.some.injEq] at e
    rw [e]; exact hq
  have digit : ∀ c, isDigit c = true → isWs c = false ∧ c ∉ c!"'\"" := by
    intro c hc
    refine ⟨isDigit_not_ws c hc, fun h => ?_⟩
    simp only [List.mem_cons, List.not_mem_nil, or_false] at h
    rcases h with rfl | rfl <;> exact absurd hc (by decide)
  intro l0 hl0
  cases h with
  | @blank l h hl =>
    simp only [List.head?_cons, Option.some.injEq] at hl0
    subst hl0
    refine key _ fun q _ e => ?_
    rw [(firstCh_none _).2 (by rw [isBlankLine, (strip_eq_nil _).2 h]; rfl)] at e
    cases e
  | @heading ws text k hws hi ht hl =>
    obtain ⟨hk, _⟩ := hw
    obtain ⟨k, rfl⟩ : ∃ j, k = j + 1 := ⟨k - 1, by omega⟩
    simp only [List.head?_cons, Option.some.injEq] at hl0
    subst hl0
    rw [List.append_assoc, List.replicate_succ, List.cons_append]
    exact first _ _ _ hws (by decide) (by decide)
  | underlined => exact absurd rfl h1
  | par => obtain ⟨_, _, e⟩ := h2 rfl; cases e
  | hard => obtain ⟨_, _, e⟩ := h2 rfl; cases e
  | @indented ls h hl =>
    cases ls with
    | nil => cases hl0
    | cons l ls =>
      simp only [List.head?_cons, Option.some.injEq] at hl0
      subst hl0
      intro q hq e
      cases l with
      | nil => cases e
      | cons c l =>
        simp only [List.head?_cons, Option.some.injEq] at e
        subst e
        have hqw : isWs c = false := by
          simp only [List.mem_cons, List.not_mem_nil, or_false] at hq
          rcases hq with rfl | rfl <;> decide
        rcases h _ (List.mem_cons_self ..) with h | h
        · have := (strip_eq_nil _).1 h c (by simp)
          rw [hqw] at this; cases this
        · rw [getIndent_not_ws hqw] at h; omega
  | @ref l _ _ _ h =>
    simp only [List.head?_cons, Option.some.injEq] at hl0
    subst hl0
    obtain ⟨ws, g, g', e, rfl, h1, _⟩ := h
    exact first _ _ _ (h1 ws (by simp)) (by decide) (by decide)
  | @tail l _ _ h =>
    simp only [List.head?_cons, Option.some.injEq] at hl0
    subst hl0
    obtain ⟨ws, g, g', e, rfl, h1, _⟩ := h.refAt
    exact first _ _ _ (h1 ws (by simp)) (by decide) (by decide)
  | @rule l c hi hc h3 hb hl =>
    have hcc : c = '*' ∨ c = '_' ∨ c = '-' := hw
    simp only [List.head?_cons, Option.some.injEq] at hl0
    subst hl0
    intro q hq e
    have hm := List.mem_of_head? e
    simp only [List.mem_cons, List.not_mem_nil, or_false] at hq
    rcases hc _ hm with hx | hx
    · rcases hq with rfl | rfl <;> exact absurd hx (by decide)
    · rcases hcc with rfl | rfl | rfl <;> rcases hq with rfl | rfl <;> exact absurd hx (by decide)
  | @code f k ws info close content hws hi hinfo hclose hl =>
    obtain ⟨hf, hk, _⟩ := hw
    obtain ⟨k, rfl⟩ : ∃ j, k = j + 1 := ⟨k - 1, by omega⟩
    simp only [List.cons_append, List.head?_cons, Option.some.injEq] at hl0
    subst hl0
    rw [List.append_assoc, List.replicate_succ, List.cons_append]
    exact first _ _ _ hws (by rcases hf with rfl | rfl <;> decide) (by rcases hf with rfl | rfl <;> decide)
  | @table header divider body hc dc rows hi hh hd hb hdc hesc hl =>
    simp only [List.head?_cons, Option.some.injEq] at hl0
    subst hl0
    obtain ⟨ws, raw, post, rfl, hws, _⟩ := hh
    exact first _ _ _ hws (by decide) (by decide)
  | @quote sp ls rs inner h0 hq hsp hR hS hl =>
    obtain ⟨r, h0⟩ := h0
    rw [hl0] at h0
    simp only [Option.some.injEq] at h0
    subst h0
    exact first [] _ _ (by simp) (by decide) (by decide)
  | @bullets c ls items h =>
    obtain ⟨hc, _, _⟩ := hw
    obtain ⟨ws, r, rest, es, rfl, _, hws, _⟩ := h.split
    simp only [List.head?_cons, Option.some.injEq] at hl0
    subst hl0
    exact first _ _ _ hws (by rcases hc with rfl | rfl | rfl <;> decide) (by rcases hc with rfl | rfl | rfl <;> decide)
  | @numbers ds ls items hds hd h =>
    obtain ⟨ws, r, rest, es, rfl, _, hws, _⟩ := h.split
    simp only [List.head?_cons, Option.some.injEq] at hl0
    subst hl0
    obtain ⟨x, ds, rfl⟩ := List.exists_cons_of_ne_nil hds
    have := digit x (hd x (by simp))
    exact first _ _ _ hws this.1 this.2

theorem reads_next {R' : List Str → List Node → Prop} {S' : List Str → Bool → Prop} {ls ls' : List Str} {a b : Node}
    {d : Nat} (h : a.Before b) (ha : ReadsNode R' S' ls a) (hb : ReadsNode R' S' ls' b) (hwb : b.WF (d + 1)) :
    Next ⟨a.kind, ls, a.opn⟩ ⟨b.kind, ls', b.opn⟩ := by
  refine ⟨fun e => ?_, fun e l hl => ?_, fun e => reads_unquoted hb hwb (h.lrd e).1 (h.lrd e).2, h.quote, h.list, h.table⟩
  rotate_left
  · have ht : ∀ {ls : List Str} {ts : List Tok}, Text ls ts → ∀ l, ls.head? = some l → NoLabel l :=
      fun h l hl => (h.lines l (List.mem_of_head? hl)).label
    cases ha with
    | par ht' => exact ht ht' l hl
    | @hard ls x ws ts ht' hws h2 =>
      cases ls with
      | cons y ls => exact ht ht' l hl
      | nil =>
        simp only [List.nil_append, List.head?_cons, Option.some.injEq] at hl
        subst hl
        exact (hard_facts (ht'.lines x (by simp)) hws).2.2.1
    | tail => exact absurd rfl (h.tail _ _)
    | _ => cases e
  obtain ⟨h3, h1⟩ := h.par e
  refine ⟨fun e l hl hm => ?_, h1.imp_left ?_⟩
  rotate_left
  · rintro ⟨ts, rfl⟩
    cases ha with
    | hard h hws h2 => exact ⟨_, _, rfl, endsWith_spaces _ hws h2⟩
  cases hb with
  | @rule l' c hi hc h3' hb hnl =>
    have hl : l = l' := by simpa using hl
    subst hl
    rcases hc _ hm with hx | hx
    · exact absurd hx (by decide)
    · exact h3 (by rw [hx])
  | _ => simp [Node.kind] at e

theorem Each.mem {α β : Type} {R : α → β → Prop} {xs : List α} {ys : List β} (h : Each R xs ys) :
    xs.length = ys.length := by
  induction h with
  | nil => rfl
  | cons _ _ ih => simp [ih]

/-- The sections of a document. -/
def blks : List (List Str) → List Node → List Blk
  | p :: ps, a :: as => ⟨a.kind, p, a.opn⟩ :: blks ps as
  | _, _ => []

/-- The first line of a block, for what is in front of it. -/
def Starts (p : List Str) (a : Node) : Prop :=
  (a.kind = .blank → ∀ l ∈ p, isBlankLine l = true) ∧
    (a.kind ≠ .blank → a.kind ≠ .indented → ∃ l r, p = l :: r ∧ isBlankLine l = false ∧ getIndent l < 4)

theorem blks_apart {parts : List (List Str)} {doc : List Node} (h : Each Starts parts doc) : ∀ s, apart s doc = true →
    (s = true → NoIndentFirst (blkLines (blks parts doc))) ∧
      ∀ a b c, blks parts doc = a ++ b :: c → b.ty = .indented → NoIndentFirst (blkLines c) := by
  induction h with
  | nil =>
    intro s _
    refine ⟨fun _ => ?_, ?_⟩
    · intro pre l post e; simp [blks, blkLines] at e
    · intro a b c e; simp [blks] at e
  | @cons p a ps as h hs ih =>
    intro s hap
    rw [blks, blkLines_cons]
    have tail : ∀ s', apart s' as = true → a.kind ≠ .indented → ∀ a' b c,
        ⟨a.kind, p, a.opn⟩ :: blks ps as = a' ++ b :: c → b.ty = .indented → NoIndentFirst (blkLines c) := by
      intro s' hs' hk a' b c e hb
      cases a' with
      | nil =>
        simp only [List.nil_append, List.cons.injEq] at e
        rw [← e.1] at hb; exact absurd hb hk
      | cons x a' =>
        simp only [List.cons_append, List.cons.injEq] at e
        exact (ih s' hs').2 a' b c e.2 hb
    by_cases hb : a.kind = .blank
    · have hap' : apart s as = true := by
        cases a <;> first | (cases hb; done) | exact hap
      refine ⟨fun hs' => ?_, tail s hap' (by rw [hb]; decide)⟩
      have hr := (ih s hap').1 hs'
      have hall := h.1 hb
      clear h tail
      induction p with
      | nil => exact hr
      | cons l p ihp => exact (ihp (fun x hx => hall x (by simp [hx]))).cons (hall l (by simp))
    · by_cases hi : a.kind = .indented
      · have hap' : s = false ∧ apart true as = true := by
          cases a <;> first | (cases hi; done) | (rw [apart] at hap; simpa using hap)
        refine ⟨fun e => (by rw [hap'.1] at e; cases e), ?_⟩
        intro a' b c e hbt
        cases a' with
        | nil =>
          simp only [List.nil_append, List.cons.injEq] at e
          rw [← e.2]
          exact (ih true hap'.2).1 rfl
        | cons x a' =>
          simp only [List.cons_append, List.cons.injEq] at e
          exact (ih true hap'.2).2 a' b c e.2 hbt
      · have hap' : apart false as = true := by
          cases a <;> first | exact absurd rfl hb | exact absurd rfl hi | exact hap
        refine ⟨fun _ => ?_, tail false hap' hi⟩
        obtain ⟨l, r, rfl, h1, h2⟩ := h.2 hb hi
        intro pre x post e hp hx
        cases pre with
        | nil =>
          simp only [List.cons_append, List.nil_append, List.cons.injEq] at e
          rw [← e.1]; exact h2
        | cons y pre =>
          simp only [List.cons_append, List.cons.injEq] at e
          have := hp y (by simp)
          rw [← e.1, h1] at this; cases this

theorem blks_last {Q : List Str → Node → Prop} {parts : List (List Str)} {doc : List Node} (h : Each Q parts doc)
    (hl : ∀ r a, trimEnd doc = r ++ [a] → a.ahead = false) : ∀ a b, blks parts doc = a ++ [b] →
      (b.ty = .par → (∃ ts, Q b.ls (.par ts)) ∨ ∃ label link, Q b.ls (.tail label link)) ∧
      (b.ty = .lrd → ∃ label link title, Q b.ls (.ref label link title) ∧ title ≠ []) := by
  have key : ∀ a b, blks parts doc = a ++ [b] → ∃ p r x, Q p x ∧ doc = r ++ [x] ∧ b = ⟨x.kind, p, x.opn⟩ := by
    clear hl
    induction h with
    | nil => intro a b e; simp [blks] at e
    | @cons p x ps as h hs ih =>
      intro a b e
      rw [blks] at e
      cases a with
      | nil =>
        simp only [List.nil_append, List.cons.injEq] at e
        cases hs with
        | nil => exact ⟨p, [], x, h, rfl, e.1.symm⟩
        | cons => simp [blks] at e
      | cons y a =>
        simp only [List.cons_append, List.cons.injEq] at e
        obtain ⟨p', r, x', h1, h2, h3⟩ := ih a b e.2
        exact ⟨p', x :: r, x', h1, by rw [h2]; rfl, h3⟩
  intro a b e
  obtain ⟨p, r, x, h1, h2, h3⟩ := key a b e
  rw [h3]
  have ht : x.kind ≠ .blank → x.ahead = false := fun hk => hl r x (by rw [h2]; exact trimEnd_concat r _ hk)
  refine ⟨fun hb => ?_, fun hb => ?_⟩
  · cases x with
    | par ts => exact .inl ⟨ts, h1⟩
    | tail label link => exact .inr ⟨label, link, h1⟩
    | hard ts => cases ht (by simp [Node.kind])
    | _ => cases hb
  · cases x with
    | ref label link title =>
      refine ⟨label, link, title, h1, ?_⟩
      have := ht (by simp [Node.kind])
      simpa [Node.ahead] using this
    | _ => cases hb

theorem reads_starts {d : Nat} {ls : List Str} {a : Node} {R : List Str → List Node → Prop} {S : List Str → Bool → Prop}
    (h : ReadsNode R S ls a) (hw : a.WF (d + 1)) : Starts ls a := by
  have first : ∀ {l : Str}, strip l ≠ [] → isBlankLine l = false := by
    intro l h; rw [isBlankLine]; simpa using h
  have mark : ∀ {l ws m r : Str}, MarkerAt l ws m (' ' :: r) → strip l ≠ [] := by
    intro l ws m r hm e
    have h1 := (lstrip_eq_nil_iff_strip l).2 e
    rw [hm.lstrip] at h1
    simp at h1
  cases h with
  | @blank l h hl =>
    refine ⟨fun _ x hx => ?_, fun h0 => absurd rfl h0⟩
    rw [List.mem_singleton.1 hx, isBlankLine, List.isEmpty_iff, strip_eq_nil]; exact h
  | @heading ws text k hws hi ht hl =>
    refine ⟨(by intro e; cases e), fun _ _ => ⟨_, _, rfl, first ?_, ?_⟩⟩
    · intro e
      have := (strip_eq_nil _).1 e '#' (by
        obtain ⟨hk, _⟩ := hw
        obtain ⟨k, rfl⟩ : ∃ j, k = j + 1 := ⟨k - 1, by omega⟩
        simp [List.replicate_succ])
      exact absurd this (by decide)
    · obtain ⟨hk, _⟩ := hw
      obtain ⟨k, rfl⟩ : ∃ j, k = j + 1 := ⟨k - 1, by omega⟩
      rw [List.append_assoc, getIndent_ws_append hws, List.replicate_succ, List.cons_append, getIndent_not_ws (by decide)]
      omega
  | @underlined ls ts u c m h hi hu hl =>
    obtain ⟨l, r, rfl⟩ := List.exists_cons_of_ne_nil h.ne
    have := h.lines l (by simp)
    exact ⟨(by intro e; cases e), fun _ _ => ⟨l, _, rfl, first this.tame.strip, this.indent⟩⟩
  | par h =>
    obtain ⟨l, r, rfl⟩ := List.exists_cons_of_ne_nil h.ne
    have := h.lines l (by simp)
    exact ⟨(by intro e; cases e), fun _ _ => ⟨l, _, rfl, first this.tame.strip, this.indent⟩⟩
  | @hard ls l ws ts h hws h2 =>
    refine ⟨(by intro e; cases e), fun _ _ => ?_⟩
    cases ls with
    | nil =>
      have := h.lines l (by simp)
      refine ⟨_, _, rfl, first (this.tame.trail fun c hc => by rw [hws c hc]; decide).strip, ?_⟩
      rw [getIndent_append_ws this.tame.strip]; exact this.indent
    | cons x ls =>
      have := h.lines x (by simp)
      exact ⟨x, _, rfl, first this.tame.strip, this.indent⟩
  | indented => exact ⟨(by intro e; cases e), fun _ h0 => absurd rfl h0⟩
  | @ref l label link title h =>
    exact ⟨(by intro e; cases e), fun _ _ => ⟨l, [], rfl, first h.strip_ne, h.lstrip.choose_spec.2.1⟩⟩
  | @tail l label link h =>
    exact ⟨(by intro e; cases e), fun _ _ => ⟨l, [], rfl, first h.refAt.strip_ne, h.refAt.lstrip.choose_spec.2.1⟩⟩
  | @rule l c hi hc h3 hb hl =>
    refine ⟨(by intro e; cases e), fun _ _ => ⟨l, [], rfl, first ?_, hi⟩⟩
    intro e
    have h0 := (strip_eq_nil l).1 e
    rw [List.filter_eq_nil_iff.2 (fun x hx => by simp [h0 x hx])] at h3
    simp at h3
  | @code f k ws info close content hws hi hinfo hclose hl =>
    obtain ⟨hf, hk, _⟩ := hw
    have hfw : isWs f = false := by rcases hf with rfl | rfl <;> decide
    obtain ⟨k, rfl⟩ : ∃ j, k = j + 1 := ⟨k - 1, by omega⟩
    refine ⟨(by intro e; cases e), fun _ _ => ⟨_, _, rfl, first ?_, ?_⟩⟩
    · intro e
      have := (strip_eq_nil _).1 e f (by simp [List.replicate_succ])
      rw [hfw] at this; cases this
    · rw [List.append_assoc, getIndent_ws_append hws, List.replicate_succ, List.cons_append, getIndent_not_ws hfw]
      omega
  | @table header divider body hc dc rows hi hh hd hb hdc hesc hl =>
    refine ⟨(by intro e; cases e), fun _ _ => ⟨_, _, rfl, first ?_, hi⟩⟩
    obtain ⟨ws, raw, post, rfl, hws, _⟩ := hh
    intro e
    exact absurd ((strip_eq_nil _).1 e '|' (by simp)) (by decide)
  | @quote sp ls rs inner h0 hq hsp hR hS hl =>
    obtain ⟨r, h0⟩ := h0
    refine ⟨(by intro e; cases e), fun _ _ => ?_⟩
    cases ls with
    | nil => cases h0
    | cons l ls =>
      cases h0
      refine ⟨_, _, rfl, first ?_, by rw [getIndent_not_ws (by decide)]; omega⟩
      intro e
      exact absurd ((strip_eq_nil _).1 e '>' (by simp)) (by decide)
  | @bullets c ls items h =>
    obtain ⟨hc, _, _⟩ := hw
    obtain ⟨l, rest, ws, r, rfl, hm, hi, hr, hend⟩ := listReads_first h (by
      rcases hc with rfl | rfl | rfl
      · exact .inl rfl
      · exact .inr (.inr (.inl rfl))
      · exact .inr (.inl rfl))
    exact ⟨(by intro e; cases e), fun _ _ => ⟨l, rest, rfl, first (mark hm), hi⟩⟩
  | @numbers ds ls items hds hd h =>
    obtain ⟨l, rest, ws, r, rfl, hm, hi, hr, hend⟩ := listReads_first h (.inr (.inr (.inr ⟨ds, hds, hd, rfl⟩)))
    exact ⟨(by intro e; cases e), fun _ _ => ⟨l, rest, rfl, first (mark hm), hi⟩⟩

theorem each_imp {α β : Type} {R S : α → β → Prop} {xs : List α} {ys : List β} (he : Each R xs ys)
    (h : ∀ x y, y ∈ ys → R x y → S x y) : Each S xs ys := by
  induction he with
  | nil => exact .nil
  | cons hx _ ih => exact .cons (h _ _ (by simp) hx) (ih fun x y hy => h x y (by simp [hy]))

theorem no_breaks {ls : List Str} (h : ∀ l ∈ ls, TextLine l) : ¬ Breaks ls := by
  rintro ⟨r, l, rfl, e⟩
  rw [endsWith_iff] at e
  obtain ⟨t, e⟩ := e
  exact (h l (by simp)).noBreak ⟨t, e⟩

theorem reads_closed {d : Nat} {R : List Str → List Node → Prop} {S : List Str → Bool → Prop} {parts : List (List Str)}
    {doc : List Node} (h : Each (ReadsNode R S) parts doc) (hw : WFDoc (d + 1) doc) : Sealed (blks parts doc) := by
  have h' : Each (fun p (a : Node) => ReadsNode R S p a ∧ a.WF (d + 1)) parts doc :=
    each_imp h fun x y hy hr => ⟨hr, hw.1 y hy⟩
  refine ⟨?_, ?_, (blks_apart (each_imp h fun x y hy hr => reads_starts hr (hw.1 y hy)) false hw.2.apart).2⟩
  · intro a b e hb
    rcases (blks_last h' hw.2.last a b e).1 hb with ⟨ts, h1, _⟩ | ⟨label, link, h1, hw1⟩
    · generalize b.ls = L at h1
      cases h1 with
      | par h => exact no_breaks h.lines
    · generalize b.ls = L at h1
      cases h1 with
      | @tail l _ _ h =>
        rintro ⟨r, x, e1, e2⟩
        have : x = l := by
          have := congrArg List.getLast? e1
          simpa using this.symm
        subst this
        rw [h.noBreak hw1.1] at e2; cases e2
  · intro a b e hb
    obtain ⟨label, link, title, ⟨h1, hw1⟩, h2⟩ := (blks_last h' hw.2.last a b e).2 hb
    generalize b.ls = L at h1
    cases h1 with
    | @ref l _ _ _ h => exact ⟨l, label, link, title, rfl, hw1.1, h, h2⟩

theorem reads_sections {d : Nat} {R : List Str → List Node → Prop} {parts : List (List Str)} {doc : List Node}
    (h : Each (ReadsNode R (Divides d)) parts doc) (hw : WFDoc (d + 1) doc) :
    Sections (d + 1) (blks parts doc) ∧ blkLines (blks parts doc) = parts.flatten ∧
      (blks parts doc).map (fun b => (b.ty, b.opn)) = doc.map fun a => (a.kind, a.opn) := by
  have hc := reads_closed h hw
  suffices (∀ b ∈ blks parts doc, SecOK (Sections d) b.ty b.ls b.opn) ∧ Adj Next (blks parts doc) ∧
      blkLines (blks parts doc) = parts.flatten ∧
      (blks parts doc).map (fun b => (b.ty, b.opn)) = doc.map fun a => (a.kind, a.opn) from
    ⟨⟨this.1, this.2.1, hc⟩, this.2.2⟩
  clear hc
  obtain ⟨hw1, hw2⟩ := hw
  replace hw2 := hw2.adj
  induction h with
  | nil => exact ⟨fun b hb => (List.not_mem_nil hb).elim, Adj.nil, rfl, rfl⟩
  | @cons p a ps as h hs ih =>
    obtain ⟨i1, i2, i3, i4⟩ := ih (fun x hx => hw1 x (by simp [hx])) hw2.tail
    refine ⟨?_, ?_, ?_, ?_⟩
    · intro b hb
      rcases List.mem_cons.1 hb with rfl | hb
      · exact reads_secOK h (hw1 a (by simp))
      · exact i1 b hb
    · refine Adj.cons ?_ i2
      intro y hy
      cases hs with
      | nil => cases hy
      | @cons p2 b ps as h2 hs =>
        simp only [blks, List.head?_cons, Option.some.injEq] at hy
        subst hy
        exact reads_next hw2.head h h2 (hw1 b (by simp))
    · rw [blks, blkLines_cons, i3]; rfl
    · rw [blks, List.map_cons, List.map_cons, i4]

theorem blks_concat {ps : List (List Str)} : ∀ {as : List Node}, ps.length = as.length → ∀ p a,
    blks (ps ++ [p]) (as ++ [a]) = blks ps as ++ [⟨a.kind, p, a.opn⟩] := by
  induction ps with
  | nil => intro as h p a; cases as with | nil => rfl | cons => simp at h
  | cons q ps ih =>
    intro as h p a
    cases as with
    | nil => simp at h
    | cons b as => simp only [List.cons_append, blks]; rw [ih (by simpa using h)]

theorem each_snoc {α β : Type} {R : α → β → Prop} {ys : List β} {y : β} : ∀ {xs : List α}, Each R xs (ys ++ [y]) →
    ∃ xs' x, xs = xs' ++ [x] ∧ Each R xs' ys ∧ R x y := by
  induction ys with
  | nil =>
    intro xs h
    cases h with
    | @cons x _ xs _ h hs => cases hs; exact ⟨[], x, rfl, .nil, h⟩
  | cons z ys ih =>
    intro xs h
    cases h with
    | @cons x _ xs _ h hs =>
      obtain ⟨xs', x', rfl, h1, h2⟩ := ih hs
      exact ⟨x :: xs', x', rfl, .cons h h1, h2⟩

theorem reads_divides {d : Nat} {ls : List Str} {doc : List Node} (h : Reads d ls doc) (hw : WFDoc d doc) (hne : doc ≠ []) :
    Divides d ls (opnDoc doc) := by
  cases d with
  | zero => exact h.elim
  | succ d =>
    obtain ⟨parts, rfl, he⟩ := h
    rcases List.eq_nil_or_concat doc with e | ⟨doc', a, e⟩
    · exact absurd e hne
    rw [List.concat_eq_append] at e
    subst e
    obtain ⟨ps, p, rfl, h1, h2⟩ := each_snoc he
    obtain ⟨s1, s2, s3⟩ := reads_sections he hw
    rw [blks_concat h1.mem] at s1 s2
    exact ⟨_, _, s1, s2, by rw [opnDoc_concat]⟩

theorem reads_divides_spaced {d : Nat} {w : Width} {doc : List Node} (h : Reads d (printDoc w doc) doc)
    (he : d = 0 ∨ Each (ReadsNode (Reads (d - 1)) (Divides (d - 1))) (doc.map (·.print w)) doc) (hw : WFDoc d doc)
    (hwide : wideDoc w doc = true) (hne : doc ≠ []) :
    Divides d ((printDoc w doc).map spaced) (opnDoc doc) := by
  cases d with
  | zero => exact h.elim
  | succ d =>
    rcases he with he | he
    · cases he
    rcases List.eq_nil_or_concat doc with e | ⟨doc', a, e⟩
    · exact absurd e hne
    rw [List.concat_eq_append] at e
    subst e
    obtain ⟨s1, s2, s3⟩ := reads_sections he hw
    have hb : blks ((doc' ++ [a]).map (·.print w)) (doc' ++ [a]) =
        blks (doc'.map (·.print w)) doc' ++ [⟨a.kind, a.print w, a.opn⟩] := by
      rw [List.map_append]; exact blks_concat (by simp) _ _
    have hlow : ∀ (doc : List Node), (∀ a ∈ doc, a.WF (d + 1) ∧ a.wide w = true) →
        ∀ x ∈ blks (doc.map (·.print w)) doc, Low x.ty x.ls := by
      intro doc
      induction doc with
      | nil => intro _ x hx; cases hx
      | cons b doc ih =>
        intro hall x hx
        simp only [List.map_cons, blks] at hx
        rcases List.mem_cons.1 hx with rfl | hx
        · obtain ⟨hb1, hb2⟩ := hall b (by simp)
          intro hf hni l hh hl
          simp only at hf hni hh hl
          by_cases hli : b.kind = .bullet ∨ b.kind = .ordered
          · obtain ⟨l', r, e, h'⟩ := print_head _ _ hb1 w hb2
            have h1 := hh hli
            rw [e] at h1
            simp only [List.head?_cons, Option.some.injEq] at h1
            subst h1
            rw [(h' (by rcases hli with e | e <;> rw [e] <;> decide)).2 hni]; omega
          · have := print_low hb1 w hb2 (fun e => hli (.inl e)) (fun e => hli (.inr e)) hf hni l hl
            omega
        · exact ih (fun a ha => hall a (by simp [ha])) x hx
    have hlow := hlow (doc' ++ [a]) fun x hx => ⟨hw.1 x hx, wideDoc_mem.1 hwide x hx⟩
    rw [hb] at s1 s2 hlow
    have hp : ((doc' ++ [a]).map (·.print w)).flatten = printDoc w (doc' ++ [a]) := by
      have : ∀ doc : List Node, (doc.map (·.print w)).flatten = printDoc w doc := by
        intro doc
        induction doc with
        | nil => rfl
        | cons b doc ih => rw [List.map_cons, List.flatten_cons, ih, printDoc]
      exact this _
    have hm : ∀ doc : List Node, (blks (doc.map (·.print w)) doc).map (fun x : Blk => { x with ls := x.ls.map spaced }) =
        blks (doc.map fun a => (a.print w).map spaced) doc := by
      intro doc
      induction doc with
      | nil => rfl
      | cons b doc ih => simp only [List.map_cons, blks, ih]
    have hQ : ∀ doc : List Node, (∀ a ∈ doc, a.WF (d + 1) ∧ a.wide w = true) →
        Each (fun p (a : Node) => p = (a.print w).map spaced ∧ a.WF (d + 1) ∧ a.wide w = true)
          (doc.map fun a => (a.print w).map spaced) doc := by
      intro doc
      induction doc with
      | nil => intro _; exact .nil
      | cons b doc ih => intro h; exact .cons ⟨rfl, h b (by simp)⟩ (ih fun x hx => h x (by simp [hx]))
    have hQ := hQ (doc' ++ [a]) fun x hx => ⟨hw.1 x hx, wideDoc_mem.1 hwide x hx⟩
    have hcl : Sealed (blks ((doc' ++ [a]).map fun a => (a.print w).map spaced) (doc' ++ [a])) := by
      refine ⟨?_, ?_, (blks_apart (each_imp hQ ?_) false hw.2.apart).2⟩
      · intro x b e hb
        rcases (blks_last hQ hw.2.last x b e).1 hb with ⟨ts, h1, h2, _⟩ | ⟨label, link, h1, h2, _⟩
        · rw [h1]
          refine no_breaks fun l hl => ?_
          obtain ⟨y, hy, rfl⟩ := List.mem_map.1 hl
          obtain ⟨p1, _, p2⟩ := layLines_lines w h2 y hy
          exact textLine_spaced p2 (by omega)
        · rw [h1]
          rintro ⟨r, y, e1, e2⟩
          have : y = spaced (refLine label link []) := by
            have := congrArg List.getLast? e1
            simpa [Node.print] using this.symm
          subst this
          rw [(tailAt_spaced (refLine_tailAt label link) (by rw [refLine, getIndent_not_ws (by decide)]; omega)).noBreak h2.1] at e2
          cases e2
      · intro x b e hb
        obtain ⟨label, link, title, ⟨h1, h2, _⟩, h3⟩ := (blks_last hQ hw.2.last x b e).2 hb
        rw [h1]
        exact ⟨_, label, link, title, rfl, h2.1,
          refAt_spaced (refLine_refAt label link title) (by rw [refLine, getIndent_not_ws (by decide)]; omega), h3⟩
      · rintro p b _ ⟨rfl, h1, h2⟩
        obtain ⟨l, r, e, h3⟩ := print_head _ b h1 w h2
        refine ⟨fun hb => ?_, fun hb hi => ?_⟩
        · cases b <;> first | (cases hb; done) | skip
          intro l hl
          simp only [Node.print, List.map_singleton, List.mem_singleton] at hl
          rw [hl]; rfl
        · obtain ⟨h4, h5⟩ := h3 hb
          refine ⟨spaced l, r.map spaced, by rw [e]; rfl, ?_, ?_⟩
          · rw [isBlankLine, strip_spaced]; simpa using h4
          · rw [getIndent_spaced l h4, h5 hi]; omega
    rw [← hm, hb] at hcl
    have := divides_spaced s1 hlow hcl
    rw [s2, hp] at this
    rw [opnDoc_concat]; exact this

end MF
