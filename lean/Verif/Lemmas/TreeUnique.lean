import Verif.Lemmas.TreeFormat
/-!
# Text stands for one tree only
-/

namespace MF

theorem each_unique {α β : Type} {R : α → β → Prop} {xs : List α} {ys : List β} (h : Each R xs ys) :
    ∀ {ys' : List β}, Each R xs ys' → (∀ x y y', y ∈ ys → y' ∈ ys' → R x y → R x y' → y = y') → ys = ys' := by
  induction h with
  | nil => intro ys' h' _; cases h'; rfl
  | cons h hs ih =>
    intro ys' h' hu
    cases h' with
    | cons h' hs' =>
      rw [hu _ _ _ (by simp) (by simp) h h', ih hs' fun x y y' hy hy' => hu x y y' (by simp [hy]) (by simp [hy'])]

theorem entryReads_unique {R : List Str → List Node → Prop} {e : List Str} {it it' : List Node} (h : EntryReads R e it)
    (h' : EntryReads R e it') (hR : ∀ ls, R ls it → R ls it' → it = it') : it = it' := by
  obtain ⟨head, conts, ws, m, r, rfl, hm, h⟩ := h
  obtain ⟨head', conts', ws', m', r', e, hm', h'⟩ := h'
  cases e
  obtain ⟨rfl, rfl, e⟩ := hm.unique hm'
  cases e
  exact hR _ h h'

theorem listReads_unique {R : List Str → List Node → Prop} {m m' : Str} {ls : List Str} {items items' : List (List Node)}
    (hm : IsMarker m) (hm' : IsMarker m') (h : ListReads R m ls items) (h' : ListReads R m' ls items')
    (hR : ∀ it it', it ∈ items → it' ∈ items' → ∀ ls, R ls it → R ls it' → it = it') : m = m' ∧ items = items' := by
  obtain ⟨ws, r, rest, es, rfl, hfl, hws, _, _, hes, _, heach⟩ := h.split
  obtain ⟨ws', r', rest', es', e, hfl', hws', _, _, hes', _, heach'⟩ := h'.split
  have hmk : MarkerAt (ws ++ (m ++ ' ' :: r)) ws m (' ' :: r) := ⟨rfl, hws, hm, .inr (.inr ⟨r, rfl⟩)⟩
  injection e with e1 e2
  have hmk' : MarkerAt (ws ++ (m ++ ' ' :: r)) ws' m' (' ' :: r') := ⟨e1, hws', hm', .inr (.inr ⟨r', rfl⟩)⟩
  obtain ⟨rfl, rfl, _⟩ := hmk.unique hmk'
  have := EntriesFrom.unique es es' _ hes hes' (by rw [hfl, hfl'])
  subst this
  exact ⟨rfl, each_unique heach heach' fun x y y' hy hy' hx hx' => entryReads_unique hx hx' (hR y y' hy hy')⟩

theorem quoted_unique {ls rs rs' : List Str} (h : Quoted ls rs) (h' : Quoted ls rs') : rs = rs' := by
  rw [← h.unquote, ← h'.unquote]

theorem space_unique {sp sp' : Bool} {rs : List Str} (h : Space sp rs) (h' : Space sp' rs) : sp = sp' := by
  rw [← space_hasSpace h, ← space_hasSpace h']

theorem refAt_unique {l label link title label' link' title' : Str} (hr : Ref label link title) (hr' : Ref label' link' title')
    (h : RefAt l label link title) (h' : RefAt l label' link' title') : label = label' ∧ link = link' ∧ title = title' := by
  have e := refAt_parts hr h
  rw [refAt_parts hr' h'] at e
  injection e with e
  simp only [Prod.mk.injEq] at e
  exact ⟨e.1.symm, e.2.1.symm, e.2.2.symm⟩

/-- A block is determined by its kind and its lines. -/
theorem node_unique {R : List Str → List Node → Prop} {S S' : List Str → Bool → Prop} {ls : List Str} {a b : Node} {d : Nat}
    (ha : ReadsNode R S ls a) (hb : ReadsNode R S' ls b) (hk : a.kind = b.kind) (hwa : a.WF (d + 1)) (hwb : b.WF (d + 1))
    (hR : ∀ ls doc doc', R ls doc → R ls doc' → WFDoc d doc → WFDoc d doc' → doc = doc') : a = b := by
  have list_eq : ∀ {items items' : List (List Node)},
      (∀ it ∈ items, it ≠ [] ∧ (∀ a ∈ it, a.WF d ∧ a.inside = true) ∧ Flow it) →
      (∀ it ∈ items', it ≠ [] ∧ (∀ a ∈ it, a.WF d ∧ a.inside = true) ∧ Flow it) →
      ∀ it it', it ∈ items → it' ∈ items' → ∀ ls, R ls it → R ls it' → it = it' := by
    intro items items' h h' it it' hi hi' ls hr hr'
    exact hR ls it it' hr hr' ⟨fun a ha => ((h it hi).2.1 a ha).1, (h it hi).2.2⟩
      ⟨fun a ha => ((h' it' hi').2.1 a ha).1, (h' it' hi').2.2⟩
  cases ha with
  | @blank l h hl =>
    generalize [l] = ls at hb
    cases hb <;> first | rfl | cases hk
  | @heading ws text k hws hi ht hl =>
    generalize e : [ws ++ List.replicate k '#' ++ text] = ls at hb
    cases hb with
    | @heading ws' text' k' hws' hi' ht' hl' =>
      injection e with e
      obtain ⟨rfl, rfl⟩ := marker_unique (c := '#') (by decide) hwa.1 hwb.1 hws hws' ht ht' e
      rfl
    | _ => cases hk
  | @underlined ls ts u c m h hi hu hl =>
    generalize e : ls ++ [u] = ls0 at hb
    cases hb with
    | @underlined ls' ts' u' c' m' h' hi' hu' hl' =>
      obtain ⟨rfl, e2⟩ := List.append_inj' e rfl
      cases e2
      rw [hu, List.replicate_succ, List.replicate_succ] at hu'
      injection hu' with e1 _
      rw [e1, h.unique h']
    | _ => cases hk
  | par h =>
    generalize e : ls = ls0 at hb
    cases hb with
    | par h' => subst e; rw [h.unique h']
    | hard h' hws h2 =>
      subst e
      exact (no_breaks h.lines ⟨_, _, rfl, endsWith_spaces _ hws h2⟩).elim
    | tail h' =>
      subst e
      exact (h'.refAt.label (h.lines _ (by simp)).label).elim
    | _ => cases hk
  | @hard ls l ws ts h hws h2 =>
    generalize e : ls ++ [l ++ ws] = ls0 at hb
    cases hb with
    | par h' =>
      subst e
      exact (no_breaks h'.lines ⟨_, _, rfl, endsWith_spaces _ hws h2⟩).elim
    | @hard ls' l' ws' ts' h' hws' h2' =>
      obtain ⟨rfl, e2⟩ := List.append_inj' e rfl
      injection e2 with e2
      have e1 : strip l = strip l' := by
        rw [← strip_trail l hws, ← strip_trail l' hws', e2]
      have i1 := h.inline
      have i2 := h'.inline
      rw [List.map_append, List.map_singleton] at i1 i2
      rw [e1] at i1
      rw [inline_unique i1 i2]
    | @tail l' _ _ h' =>
      cases ls with
      | nil =>
        injection e with e
        subst e
        exact (h'.refAt.label (hard_facts (h.lines l (by simp)) hws).2.2.1).elim
      | cons y ls => simp at e
    | _ => cases hk
  | @ref l label link title h =>
    generalize e : [l] = ls0 at hb
    cases hb with
    | ref h' =>
      injection e with e
      subst e
      obtain ⟨rfl, rfl, rfl⟩ := refAt_unique hwa.1 hwb.1 h h'
      rfl
    | _ => cases hk
  | @tail l label link h =>
    generalize e : [l] = ls0 at hb
    cases hb with
    | tail h' =>
      injection e with e
      subst e
      obtain ⟨rfl, rfl, _⟩ := refAt_unique hwa.1 hwb.1 h.refAt h'.refAt
      rfl
    | par h' =>
      subst e
      exact (h.refAt.label (h'.lines l (by simp)).label).elim
    | @hard ls' l' ws' ts' h' hws' h2' =>
      cases ls' with
      | nil =>
        injection e with e
        subst e
        exact (h.refAt.label (hard_facts (h'.lines l' (by simp)) hws').2.2.1).elim
      | cons y ls => simp at e
    | _ => cases hk
  | indented h hn =>
    cases hb with
    | indented => rfl
    | _ => cases hk
  | @rule l c hi hc h3 hbl hl =>
    generalize e : [l] = ls0 at hb
    cases hb with
    | @rule l' c' hi' hc' h3' hbl' hl' =>
      cases e
      obtain ⟨x, hx⟩ : ∃ x, x ∈ l.filter fun x => !isWs x := by
        cases hf : l.filter fun x => !isWs x with
        | nil => rw [hf] at h3; simp at h3
        | cons x r => exact ⟨x, by simp⟩
      obtain ⟨hx1, hx2⟩ := List.mem_filter.1 hx
      have hx3 : isWs x = false := by simpa using hx2
      have e1 : x = c := (hc x hx1).resolve_left (by rw [hx3]; simp)
      have e2 : x = c' := (hc' x hx1).resolve_left (by rw [hx3]; simp)
      rw [← e1, ← e2]
    | _ => cases hk
  | @code f k ws info close content hws hi hinfo hclose hl =>
    generalize e : (ws ++ List.replicate k f ++ info) :: content ++ [close] = ls0 at hb
    cases hb with
    | @code f' k' ws' info' close' content' hws' hi' hinfo' hclose' hl' =>
      obtain ⟨e1, e2⟩ := List.append_inj' e rfl
      injection e1 with e1 e3
      obtain ⟨hf, h3k, _⟩ := hwa
      obtain ⟨hf', h3k', _⟩ := hwb
      have hfw : isWs f = false := by rcases hf with rfl | rfl <;> decide
      have hfw' : isWs f' = false := by rcases hf' with rfl | rfl <;> decide
      have hff : f = f' := by
        obtain ⟨j, rfl⟩ : ∃ j, k = j + 1 := ⟨k - 1, by omega⟩
        obtain ⟨j', rfl⟩ : ∃ j, k' = j + 1 := ⟨k' - 1, by omega⟩
        have g : ∀ (ws info : Str) (f : Char) (j : Nat), (∀ c ∈ ws, isWs c = true) → isWs f = false →
            (lstrip (ws ++ List.replicate (j + 1) f ++ info)).head? = some f := by
          intro ws info f j h1 h2
          rw [List.append_assoc]
          show (List.dropWhile isWs (ws ++ _)).head? = _
          rw [dropWhile_append_all _ _ _ h1]
          simp [List.replicate_succ, h2]
        have g1 := g ws info f j hws hfw
        have g2 := g ws' info' f' j' hws' hfw'
        rw [e1, g2] at g1
        injection g1 with g1
        exact g1.symm
      subst hff
      obtain ⟨rfl, rfl⟩ := marker_unique hfw (by omega) (by omega) hws hws' hinfo hinfo' e1
      rw [e3]
    | _ => cases hk
  | @table header divider body hc dc rows hi hh hd hbd hdc hesc hl =>
    generalize e : header :: divider :: body = ls0 at hb
    cases hb with
    | @table header' divider' body' hc' dc' rows' hi' hh' hd' hbd' hdc' hesc' hl' =>
      injection e with e1 e
      injection e with e2 e3
      subst e1 e2 e3
      rw [← hh.cols, ← hh'.cols, ← hd.aligns hdc, ← hd'.aligns hdc', ← rows_cols hbd, ← rows_cols hbd']
    | _ => cases hk
  | @quote sp ls rs inner h0 hq hsp hR1 hS hl =>
    cases hb with
    | @quote sp' _ rs' inner' h0' hq' hsp' hR1' hS' hl' =>
      have := quoted_unique hq hq'
      subst this
      have := space_unique hsp hsp'
      subst this
      rw [hR _ _ _ hR1 hR1' ⟨hwa.2.1, hwa.2.2.1⟩ ⟨hwb.2.1, hwb.2.2.1⟩]
    | _ => cases hk
  | @bullets c ls items h =>
    cases hb with
    | @bullets c' _ items' h' =>
      have hm : ∀ {c : Char}, (c = '*' ∨ c = '+' ∨ c = '-') → IsMarker [c] := by
        rintro c (rfl | rfl | rfl)
        · exact .inl rfl
        · exact .inr (.inr (.inl rfl))
        · exact .inr (.inl rfl)
      obtain ⟨e1, e2⟩ := listReads_unique (hm hwa.1) (hm hwb.1) h h' (list_eq hwa.2.2 hwb.2.2)
      injection e1 with e1
      rw [e1, e2]
    | _ => cases hk
  | @numbers ds ls items hds hd h =>
    cases hb with
    | @numbers ds' _ items' hds' hd' h' =>
      obtain ⟨e1, e2⟩ := listReads_unique (.inr (.inr (.inr ⟨_, hds, hd, rfl⟩))) (.inr (.inr (.inr ⟨_, hds', hd', rfl⟩)))
        h h' (list_eq hwa.2.2 hwb.2.2)
      have := (List.append_inj' e1 rfl).1
      rw [this, e2]
    | _ => cases hk

theorem secs_head (b : Blk) : ∃ L t, b.secs = (b.ty, L) :: t := by
  by_cases h : b.ty = .indented
  · unfold Blk.secs
    rw [if_pos h, h]
    match b.ls with
    | [] | [l] | l :: m :: r => exact ⟨_, _, rfl⟩
  · exact ⟨_, _, secs_other h⟩

theorem blkSecs_head {ps : List (List Str)} {doc : List Node} (hlen : ps.length = doc.length) {ty : Sec} {L : List Str}
    {t : List (Sec × List Str)} (e : blkSecs (blks ps doc) = (ty, L) :: t) : ∃ a r, doc = a :: r ∧ a.kind = ty := by
  cases ps with
  | nil =>
    cases doc with
    | nil => cases e
    | cons => cases hlen
  | cons p ps =>
    cases doc with
    | nil => cases hlen
    | cons a doc =>
      obtain ⟨L', t', e'⟩ := secs_head ⟨a.kind, p, a.opn⟩
      rw [blks, blkSecs_cons, e'] at e
      injection e with e _
      injection e with e _
      exact ⟨a, doc, rfl, e⟩

theorem apart_adj {doc : List Node} : ∀ {s : Bool}, apart s doc = true →
    (s = true → ∀ a, doc.head? = some a → a.kind ≠ .indented) ∧
      Adj (fun a b : Node => a.kind = .indented → b.kind ≠ .indented) doc := by
  induction doc with
  | nil => intro s _; exact ⟨(by intro _ a h; cases h), .nil⟩
  | cons a doc ih =>
    intro s h
    by_cases hi : a.kind = .indented
    · have h' : s = false ∧ apart true doc = true := by
        cases a <;> first | (cases hi; done) | (rw [apart] at h; simpa using h)
      obtain ⟨i1, i2⟩ := ih h'.2
      refine ⟨(by intro e; rw [h'.1] at e; cases e), Adj.cons ?_ i2⟩
      intro b hb _
      exact i1 rfl b hb
    · have h' : ∃ s', apart s' doc = true := by
        cases a <;> first | exact absurd rfl hi | exact ⟨_, h⟩
      obtain ⟨s', h'⟩ := h'
      refine ⟨fun _ b hb => (by cases hb; exact hi), Adj.cons ?_ (ih h').2⟩
      intro b _ e
      exact absurd e hi

theorem blks_inj {parts : List (List Str)} : ∀ {doc : List Node} {parts' : List (List Str)} {doc' : List Node},
    parts.length = doc.length → parts'.length = doc'.length →
    Adj (fun a b : Node => a.kind = .indented → b.kind ≠ .indented) doc →
    Adj (fun a b : Node => a.kind = .indented → b.kind ≠ .indented) doc' →
    blkSecs (blks parts doc) = blkSecs (blks parts' doc') → parts = parts' ∧ doc.map (·.kind) = doc'.map (·.kind) := by
  induction parts with
  | nil =>
    intro doc parts' doc' h h' _ _ e
    cases doc with
    | cons => cases h
    | nil =>
      cases parts' with
      | nil => cases doc' with
        | nil => exact ⟨rfl, rfl⟩
        | cons => cases h'
      | cons p ps => cases doc' with
        | nil => cases h'
        | cons a' doc' =>
          obtain ⟨L, t, e'⟩ := secs_head ⟨a'.kind, p, a'.opn⟩
          rw [blks, blkSecs_cons, e'] at e
          cases e
  | cons p ps ih =>
    intro doc parts' doc' h h' had had' e
    cases doc with
    | nil => cases h
    | cons a doc =>
      cases parts' with
      | nil => cases doc' with
        | nil =>
          obtain ⟨L, t, e'⟩ := secs_head ⟨a.kind, p, a.opn⟩
          rw [blks, blkSecs_cons, e'] at e
          cases e
        | cons => cases h'
      | cons p' ps' => cases doc' with
        | nil => cases h'
        | cons a' doc' =>
          have hlen : ps.length = doc.length := by simpa using h
          have hlen' : ps'.length = doc'.length := by simpa using h'
          have hk : a.kind = a'.kind := by
            obtain ⟨L, t, e1⟩ := secs_head ⟨a.kind, p, a.opn⟩
            obtain ⟨L', t', e2⟩ := secs_head ⟨a'.kind, p', a'.opn⟩
            rw [blks, blks, blkSecs_cons, blkSecs_cons, e1, e2] at e
            injection e with e _
            injection e with e _
          suffices p = p' ∧ blkSecs (blks ps doc) = blkSecs (blks ps' doc') by
            obtain ⟨i1, i2⟩ := ih hlen hlen' had.tail had'.tail this.2
            exact ⟨by rw [this.1, i1], by simp [hk, i2]⟩
          have first : ∀ {a b : Node} {doc : List Node} {ps : List (List Str)} {L : List Str} {t : List (Sec × List Str)},
              ps.length = doc.length → a.kind = .indented →
              Adj (fun a b : Node => a.kind = .indented → b.kind ≠ .indented) (a :: doc) →
              blkSecs (blks ps doc) = (.indented, L) :: t → False := by
            intro a b doc ps L t hl hi had e
            obtain ⟨b, r, rfl, hb⟩ := blkSecs_head hl e
            exact had.head hi hb
          rw [blks, blks, blkSecs_cons, blkSecs_cons] at e
          by_cases hi : a.kind = .indented
          · have hi' : a'.kind = .indented := by rw [← hk]; exact hi
            have e0 : ∀ (k : Node) (p : List Str), k.kind = .indented → Blk.secs ⟨k.kind, p, k.opn⟩ = (cutLast p).map (Sec.indented, ·) := by
              intro k p hk; unfold Blk.secs; rw [if_pos hk]
            rw [e0 a p hi, e0 a' p' hi'] at e
            have cut : ∀ p, (cutLast p = [p]) ∨ ∃ r x, p = r ++ [x] ∧ cutLast p = [r, [x]] := by
              intro p
              match p with
              | [] => exact .inl rfl
              | [l] => exact .inl rfl
              | l :: m :: r =>
                refine .inr ⟨_, _, ?_, rfl⟩
                have := List.dropLast_concat_getLast (l := l :: m :: r) (by simp)
                rw [List.getLast_cons (by simp)] at this
                exact this.symm
            rcases cut p with c1 | ⟨r, x, c0, c1⟩ <;> rcases cut p' with c2 | ⟨r', x', c0', c2⟩
            · rw [c1, c2] at e
              simpa using e
            · rw [c1, c2] at e
              simp only [List.map_cons, List.map_nil, List.cons_append, List.nil_append, List.cons.injEq] at e
              exact (first (b := a) hlen hi had e.2).elim
            · rw [c1, c2] at e
              simp only [List.map_cons, List.map_nil, List.cons_append, List.nil_append, List.cons.injEq] at e
              exact (first (b := a) hlen' hi' had' e.2.symm).elim
            · rw [c1, c2] at e
              simp only [List.map_cons, List.map_nil, List.cons_append, List.nil_append, List.cons.injEq, Prod.mk.injEq,
                true_and, and_true] at e
              obtain ⟨e1, e2, e3⟩ := e
              exact ⟨by rw [c0, c0', e1, e2], e3⟩
          · rw [secs_other hi, secs_other (by rw [← hk]; exact hi)] at e
            simp only [List.singleton_append, List.cons.injEq, Prod.mk.injEq] at e
            exact ⟨e.1.2, e.2⟩

theorem each_unique_kind {α : Type} {R : α → Node → Prop} {xs : List α} {ys : List Node} (h : Each R xs ys) :
    ∀ {ys' : List Node}, Each R xs ys' → ys.map (·.kind) = ys'.map (·.kind) →
      (∀ x y y', y ∈ ys → y' ∈ ys' → y.kind = y'.kind → R x y → R x y' → y = y') → ys = ys' := by
  induction h with
  | nil => intro ys' h' _ _; cases h'; rfl
  | cons h hs ih =>
    intro ys' h' hk hu
    cases h' with
    | cons h' hs' =>
      simp only [List.map_cons, List.cons.injEq] at hk
      rw [hu _ _ _ (by simp) (by simp) hk.1 h h', ih hs' hk.2 fun x y y' hy hy' => hu x y y' (by simp [hy]) (by simp [hy'])]

/-- Lines stand for one document only. -/
theorem reads_unique : ∀ (d : Nat) (ls : List Str) (doc doc' : List Node), Reads d ls doc → Reads d ls doc' → WFDoc d doc →
    WFDoc d doc' → doc = doc' := by
  intro d
  induction d with
  | zero => intro ls doc doc' h; exact h.elim
  | succ d ih =>
    intro ls doc doc' h h' hw hw'
    obtain ⟨parts, hp, he⟩ := h
    obtain ⟨parts', hp', he'⟩ := h'
    obtain ⟨s1, s2, _⟩ := reads_sections he hw
    obtain ⟨t1, t2, _⟩ := reads_sections he' hw'
    have p1 := parse_sections (d + 1) (d + 1) (Nat.le_refl _) _ s1
    have p2 := parse_sections (d + 1) (d + 1) (Nat.le_refl _) _ t1
    rw [s2, hp] at p1
    rw [t2, hp', p1] at p2
    injection p2 with p2
    obtain ⟨rfl, hk⟩ := blks_inj he.mem he'.mem (apart_adj hw.2.apart).2 (apart_adj hw'.2.apart).2 p2
    exact each_unique_kind he he' hk fun x y y' hy hy' hky hr hr' =>
      node_unique hr hr' hky (hw.1 y hy) (hw'.1 y' hy') fun ls doc doc' h1 h2 => ih ls doc doc' h1 h2

/-! ## The bound on the depth does not matter -/

theorem secOK_mono {P Q : List Blk → Prop} (h : ∀ doc, P doc → Q doc) {ty : Sec} {ls : List Str} {o : Bool}
    (hs : SecOK P ty ls o) : SecOK Q ty ls o := by
  cases hs with
  | flat h => exact .flat h
  | bullet h hu hl => exact .bullet h hu hl
  | ordered h hl => exact .ordered h hl
  | table hne h hi => exact .table hne h hi
  | hard h hws h2 => exact .hard h hws h2
  | ref hr h => exact .ref hr h
  | tail hr h => exact .tail hr h
  | indented h h1 h2 => exact .indented h h1 h2
  | quote hq hp => exact .quote hq (h _ hp)

theorem sections_mono {d : Nat} : ∀ {doc : List Blk}, Sections d doc → Sections (d + 1) doc := by
  induction d with
  | zero => intro doc h; exact h.elim
  | succ d ih => intro doc h; exact ⟨fun b hb => secOK_mono (fun _ => ih) (h.1 b hb), h.2⟩

theorem divides_mono {d : Nat} {ls : List Str} {o : Bool} (h : Divides d ls o) : Divides (d + 1) ls o := by
  obtain ⟨doc, b, h1, h2⟩ := h
  exact ⟨doc, b, sections_mono h1, h2⟩

theorem each_mono {α β : Type} {R S : α → β → Prop} (h : ∀ x y, R x y → S x y) {xs : List α} {ys : List β}
    (he : Each R xs ys) : Each S xs ys := by
  induction he with
  | nil => exact .nil
  | cons hx _ ih => exact .cons (h _ _ hx) ih

theorem listReads_mono {R R' : List Str → List Node → Prop} (h : ∀ ls doc, R ls doc → R' ls doc) {m : Str} {ls : List Str}
    {items : List (List Node)} (hl : ListReads R m ls items) : ListReads R' m ls items := by
  obtain ⟨ws, r, rest, es, h1, h2, h3, h4, h5, h6, h7, h8⟩ := hl.split
  refine ⟨⟨ws, r, rest, es, h1, h2, h3, h4, h5, h6, h7, each_mono ?_ h8⟩, hl.noLB⟩
  rintro e it ⟨head, conts, ws, m, r, he, hm, hr⟩
  exact ⟨head, conts, ws, m, r, he, hm, h _ _ hr⟩

theorem readsNode_mono {R R' : List Str → List Node → Prop} {S S' : List Str → Bool → Prop} (h : ∀ ls doc, R ls doc → R' ls doc)
    (hS : ∀ ls o, S ls o → S' ls o) {ls : List Str} {a : Node} (ha : ReadsNode R S ls a) : ReadsNode R' S' ls a := by
  cases ha with
  | blank h hl => exact .blank h hl
  | heading hws hi ht hl => exact .heading hws hi ht hl
  | underlined h hi hu hl => exact .underlined h hi hu hl
  | par h => exact .par h
  | rule hi hc h3 hb hl => exact .rule hi hc h3 hb hl
  | hard h hws h2 => exact .hard h hws h2
  | indented h hl => exact .indented h hl
  | ref h => exact .ref h
  | tail h => exact .tail h
  | code hws hi hinfo hclose hl => exact .code hws hi hinfo hclose hl
  | table hi hh hd hb hdc hesc hl => exact .table hi hh hd hb hdc hesc hl
  | quote h0 hq hsp hR hS1 hl => exact .quote h0 hq hsp (h _ _ hR) (hS _ _ hS1) hl
  | bullets hb => exact .bullets (listReads_mono h hb)
  | numbers hds hd hn => exact .numbers hds hd (listReads_mono h hn)

theorem reads_mono {d : Nat} : ∀ {ls : List Str} {doc : List Node}, Reads d ls doc → Reads (d + 1) ls doc := by
  induction d with
  | zero => intro ls doc h; exact h.elim
  | succ d ih =>
    intro ls doc h
    obtain ⟨parts, hp, he⟩ := h
    exact ⟨parts, hp, each_mono (fun _ _ => readsNode_mono (fun _ _ => ih) fun _ _ => divides_mono) he⟩

theorem wf_mono {d : Nat} : ∀ {a : Node}, a.WF d → a.WF (d + 1) := by
  induction d with
  | zero => intro a h; exact h.elim
  | succ d ih =>
    intro a h
    have items : ∀ {items : List (List Node)},
        (∀ it ∈ items, it ≠ [] ∧ (∀ a ∈ it, a.WF d ∧ a.inside = true) ∧ Flow it) →
        ∀ it ∈ items, it ≠ [] ∧ (∀ a ∈ it, a.WF (d + 1) ∧ a.inside = true) ∧ Flow it :=
      fun h it hi => ⟨(h it hi).1, fun a ha => ⟨ih ((h it hi).2.1 a ha).1, ((h it hi).2.1 a ha).2⟩, (h it hi).2.2⟩
    cases a with
    | quote sp inner => exact ⟨h.1, fun a ha => ih (h.2.1 a ha), h.2.2⟩
    | bullets c items' => exact ⟨h.1, h.2.1, items h.2.2⟩
    | numbers c items' => exact ⟨h.1, h.2.1, items h.2.2⟩
    | _ => exact h

theorem wfDoc_le {d e : Nat} (hde : d ≤ e) {doc : List Node} (h : WFDoc d doc) : WFDoc e doc := by
  induction hde with
  | refl => exact h
  | step _ ih => exact ⟨fun a ha => wf_mono (ih.1 a ha), ih.2⟩

theorem reads_le {d e : Nat} (hde : d ≤ e) {ls : List Str} {doc : List Node} (h : Reads d ls doc) : Reads e ls doc := by
  induction hde with
  | refl => exact h
  | step _ ih => exact reads_mono ih

end MF
