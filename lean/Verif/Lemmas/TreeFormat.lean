import Verif.Lemmas.TreeBack
import Verif.Props.Errors
/-!
# Text that stands for a tree is formatted by writing the tree down
-/

namespace MF

/-- Nested documents are formatted by writing them down. -/
def Writes (d : Nat) (sub : Width → Str → Except Err Str) : Prop :=
  ∀ w ls doc, Reads d ls doc → WFDoc d doc → wideDoc w doc = true → doc ≠ [] →
    sub w (pyJoin ['\n'] ls ++ ['\n']) = .ok (pyJoin ['\n'] (printDoc w doc) ++ ['\n'])

theorem unindent_eq (n : Nat) : ∀ l : Str, lstrip (l.take n) ++ l.drop n = unindent n l := by
  induction n with
  | zero => intro l; simp [unindent]; rfl
  | succ n ih =>
    intro l
    cases l with
    | nil => rfl
    | cons c r =>
      rw [unindent, List.take_succ_cons, List.drop_succ_cons]
      by_cases hc : isWs c = true
      · rw [if_pos hc, ← ih r]
        simp [lstrip, hc]
      · rw [if_neg hc]
        simp [lstrip, hc]

theorem entry_dedent {R : List Str → List Node → Prop} {e : List Str} {it : List Node} (h : EntryReads R e it) :
    ∃ d, dedentEntry e = .ok d ∧ R d it := by
  obtain ⟨head, conts, ws, m, r, rfl, hm, hR⟩ := h
  refine ⟨_, ?_, hR⟩
  have e1 : head.drop (ws.length + m.length + 1) = r := by
    rw [hm.eq]
    have : ws ++ (m ++ ' ' :: r) = (ws ++ m ++ [' ']) ++ r := by simp
    rw [this]
    exact List.drop_left' (by simp; omega)
  simp only [dedentEntry, listMarkerEndPos, markerEnd_intro hm, bind, Except.bind, e1]
  congr 2
  exact List.map_congr_left fun l _ => unindent_eq _ l

theorem entries_dedent {R : List Str → List Node → Prop} {es : List (List Str)} {items : List (List Node)}
    (h : Each (EntryReads R) es items) : ∃ ds, dedentEntries es = .ok ds ∧ Each R ds items := by
  induction h with
  | nil => exact ⟨[], rfl, .nil⟩
  | cons h hs ih =>
    obtain ⟨d, h1, h2⟩ := entry_dedent h
    obtain ⟨ds, h3, h4⟩ := ih
    refine ⟨d :: ds, ?_, .cons h2 h4⟩
    simp only [dedentEntries] at h3 ⊢
    rw [List.mapM_cons, h1]
    simp only [bind, Except.bind, h3]
    rfl

theorem entry_format {sub : Width → Str → Except Err Str} {w : Width} {indent : Nat} {marker : Str} {e ls : List Str}
    (hsub : sub (w.sub indent) (pyJoin ['\n'] e ++ ['\n']) = .ok (pyJoin ['\n'] ls ++ ['\n'])) (hne : ls ≠ [])
    (hl : ∀ l ∈ ls, NoLB l ∧ Tame l) :
    fmtEntry sub w indent marker e = .ok (pyJoin ['\n'] (hang (marker ++ c!" ") (List.replicate indent ' ') ls)) := by
  have hnl : ∀ l ∈ ls, '\n' ∉ l := fun l h h0 => by have := (hl l h).1 _ h0; cases this
  have hr : rstripBy (· == '\n') (pyJoin ['\n'] ls ++ ['\n']) = pyJoin ['\n'] ls := by
    rw [rstripBy_append_all _ _ _ (by simp)]
    obtain ⟨init, l, rfl⟩ : ∃ init l, ls = init ++ [l] := ⟨_, _, (List.dropLast_concat_getLast hne).symm⟩
    have hln : l ≠ [] := by intro h0; exact (hl l (by simp)).2.strip (by rw [h0]; rfl)
    obtain ⟨l', c, rfl⟩ : ∃ l' c, l = l' ++ [c] := ⟨_, _, (List.dropLast_concat_getLast hln).symm⟩
    have hc : c ≠ '\n' := by intro h0; exact hnl (l' ++ [c]) (by simp) (by rw [h0]; simp)
    have := pyJoin_getLast (ls := init) (l := l' ++ [c]) (c := c) (by simp)
    obtain ⟨t, ht⟩ := List.getLast?_eq_some_iff.1 this
    rw [ht]
    exact rstripBy_concat_of_not _ _ _ (by simpa using hc)
  simp only [fmtEntry, reformatLines, hsub, bind, Except.bind, hr]
  rw [splitChar_join '\n' ls hnl hne]
  obtain ⟨l, r, rfl⟩ := List.exists_cons_of_ne_nil hne
  rw [join_indented]
  rfl

theorem bullet_entries {R : List Str → List Node → Prop} {sub : Width → Str → Except Err Str} {w : Width} {c : Char}
    {ds : List (List Str)} {items : List (List Node)} (h : Each R ds items)
    (hf : ∀ d it, it ∈ items → R d it → ∀ marker,
      fmtEntry sub w 2 marker d = .ok (pyJoin ['\n'] (hang (marker ++ c!" ") c!"  " (printDoc (w.sub 2) it)))) : ∀ k,
    fmtBulletEntries sub w [c] ds = .ok ((entryLines (w.sub 2) (fun _ => [c, ' ']) c!"  " k items).map (pyJoin ['\n'])) := by
  induction h with
  | nil => intro k; rfl
  | cons h hs ih =>
    intro k
    simp only [fmtBulletEntries, bind, Except.bind, hf _ _ (by simp) h,
      ih (fun d it hi => hf d it (by simp [hi])) (k + 1)]
    rfl

theorem ordered_entries {R : List Str → List Node → Prop} {sub : Width → Str → Except Err Str} {w : Width} {indent first : Nat}
    {ds : List (List Str)} {items : List (List Node)} (h : Each R ds items)
    (hf : ∀ d it, it ∈ items → R d it → ∀ marker, fmtEntry sub w indent marker d =
      .ok (pyJoin ['\n'] (hang (marker ++ c!" ") (List.replicate indent ' ') (printDoc (w.sub indent) it)))) : ∀ k,
    fmtOrderedEntries sub w indent (first + k) ds =
      .ok ((entryLines (w.sub indent) (fun j => natStr (first + j) ++ c!". ") (List.replicate indent ' ') k items).map
        (pyJoin ['\n'])) := by
  induction h with
  | nil => intro k; rfl
  | cons h hs ih =>
    intro k
    have := ih (fun d it hi => hf d it (by simp [hi])) (k + 1)
    rw [← Nat.add_assoc] at this
    simp only [fmtOrderedEntries, bind, Except.bind, hf _ _ (by simp) h, this]
    simp [entryLines]

theorem join_flatten (L : List (List Str)) (h : ∀ ls ∈ L, ls ≠ []) :
    pyJoin ['\n'] (L.map (pyJoin ['\n'])) = pyJoin ['\n'] L.flatten := by
  have := join_linesOf (L.map fun l => (Sec.par, l)) (by
    intro b hb
    obtain ⟨l, hl, rfl⟩ := List.mem_map.1 hb
    exact h l hl)
  simpa [linesOf, List.map_map, Function.comp_def] using this

theorem entryLines_ne {w : Width} {mark : Nat → Str} {cont : Str} {items : List (List Node)}
    (h : ∀ it ∈ items, printDoc w it ≠ []) : ∀ k, ∀ ls ∈ entryLines w mark cont k items, ls ≠ [] := by
  induction items with
  | nil => intro k ls hl; cases hl
  | cons it items ih =>
    intro k ls hl
    rw [entryLines] at hl
    rcases List.mem_cons.1 hl with rfl | hl
    · obtain ⟨l, r, _, e⟩ := hang_ne (p := mark k) (q := cont) (h it (by simp))
      rw [e]; simp
    · exact ih (fun x hx => h x (by simp [hx])) _ ls hl

theorem listReads_split {R : List Str → List Node → Prop} {m : Str} {ls : List Str} {items : List (List Node)}
    (h : ListReads R m ls items) (hm : IsMarker m) : ∃ l rest ws r es ds, ls = l :: rest ∧ MarkerAt l ws m (' ' :: r) ∧
      splitList ls = .ok es ∧ es.length = items.length ∧ dedentEntries es = .ok ds ∧ Each R ds items := by
  obtain ⟨ws, r, rest, es, rfl, hfl, hws, _, _, hes, hrest, heach⟩ := h.split
  have hmk : MarkerAt (ws ++ (m ++ ' ' :: r)) ws m (' ' :: r) := ⟨rfl, hws, hm, .inr (.inr ⟨r, rfl⟩)⟩
  obtain ⟨es', h1, _, h2, _, h3⟩ := splitList_spec _ rest _ _ _ hmk
  have := EntriesFrom.unique es es' _ hes (h3 fun x hx => (hrest x hx).2) (by rw [hfl, h2])
  subst this
  obtain ⟨ds, h4, h5⟩ := entries_dedent heach
  exact ⟨_, rest, ws, r, es, ds, rfl, hmk, h1, heach.mem, h4, h5⟩

theorem strip_quoted (sp : Bool) {l : Str} (h : rstrip l = l) :
    strip ((if sp then c!"> " else c!">") ++ l) = '>' :: (if sp then spaced l else l) := by
  by_cases hl : strip l = []
  · have : l = [] := by
      rw [← h]; exact (rstripBy_eq_nil _ _).2 ((strip_eq_nil l).1 hl)
    subst this
    cases sp <;> decide
  · have h1 : ∀ p : Str, strip ('>' :: p ++ l) = '>' :: p ++ l := by
      intro p
      have : lstrip ('>' :: p ++ l) = '>' :: p ++ l := rfl
      rw [strip, this]
      exact rstrip_append_of_strip (p := '>' :: p) hl h
    have hne : l.isEmpty = false := by
      cases l with
      | nil => exact absurd rfl hl
      | cons => rfl
    cases sp with
    | false => exact h1 []
    | true => simp only [spaced, hne]; exact h1 [' ']

theorem space_hasSpace {sp : Bool} {rs : List Str} (h : Space sp rs) : hasSpace rs = sp := by
  induction h with
  | nil => rfl
  | blank h hs ih => simp [hasSpace, h, ih]
  | @more sp l ls h hs ih =>
    have h1 : ¬ getIndent l = 1 := by omega
    have h2 : ¬ getIndent l = 0 := by omega
    simp [hasSpace, h1, h2, ih]
  | yes h hi => simp [hasSpace, h, hi]
  | no h hi => simp [hasSpace, h, hi]

theorem readsNode_noLB {R : List Str → List Node → Prop} {S : List Str → Bool → Prop} {ls : List Str} {a : Node} {d : Nat}
    (h : ReadsNode R S ls a) (hw : a.WF (d + 1)) : ∀ l ∈ ls, NoLB l := by
  cases hl : a.leaf with
  | true => exact flat_noLB (leaf_flat h hw hl).1
  | false =>
    cases h with
    | table _ _ _ _ _ _ hn => exact hn
    | hard h hws h2 =>
      intro x hx
      rcases List.mem_append.1 hx with hx | hx
      · exact spaces_noLB (h.lines x (by simp [hx])).spaces
      · rw [List.mem_singleton.1 hx]
        exact (hard_facts (h.lines _ (by simp)) hws).2.2.2
    | indented _ hn => exact hn
    | ref h => intro x hx; rw [List.mem_singleton.1 hx]; exact refAt_noLB hw.1 h
    | tail h => intro x hx; rw [List.mem_singleton.1 hx]; exact refAt_noLB hw.1 h.refAt
    | quote _ _ _ _ _ hn => exact hn
    | bullets h => exact h.noLB
    | numbers _ _ h => exact h.noLB
    | _ => cases hl

theorem each_noLB {R : List Str → List Node → Prop} {S : List Str → Bool → Prop} {parts : List (List Str)} {doc : List Node}
    {d : Nat} (h : Each (ReadsNode R S) parts doc) (hw : ∀ a ∈ doc, a.WF (d + 1)) : ∀ l ∈ parts.flatten, NoLB l := by
  induction h with
  | nil => intro l hl; cases hl
  | cons h hs ih =>
    intro l hl
    rw [List.flatten_cons, List.mem_append] at hl
    rcases hl with hl | hl
    · exact readsNode_noLB h (hw _ (by simp)) l hl
    · exact ih (fun a ha => hw a (by simp [ha])) l hl

theorem reads_noLB {d : Nat} {ls : List Str} {doc : List Node} (h : Reads d ls doc) (hw : WFDoc d doc) : ∀ l ∈ ls, NoLB l := by
  cases d with
  | zero => exact h.elim
  | succ d =>
    obtain ⟨parts, rfl, he⟩ := h
    exact each_noLB he hw.1

theorem item_format {d : Nat} {sub : Width → Str → Except Err Str} (hsub : Writes d sub) {w : Width} {indent : Nat}
    {items : List (List Node)}
    (hit : ∀ it ∈ items, it ≠ [] ∧ (∀ a ∈ it, a.WF d ∧ a.inside = true) ∧ Flow it)
    (hwide : wideItems (w.sub indent) items = true) : ∀ e it, it ∈ items → Reads d e it → ∀ marker,
    fmtEntry sub w indent marker e =
      .ok (pyJoin ['\n'] (hang (marker ++ c!" ") (List.replicate indent ' ') (printDoc (w.sub indent) it))) := by
  intro e it hi hr marker
  obtain ⟨h1, h2, h3⟩ := hit it hi
  have hwd := wideItems_mem.1 hwide it hi
  obtain ⟨l, r, hlr⟩ := printDoc_ne (fun a ha => (h2 a ha).1) hwd h1
  refine entry_format (hsub _ _ _ hr ⟨fun a ha => (h2 a ha).1, h3⟩ hwd h1) (by rw [hlr]; simp) ?_
  intro l hl
  obtain ⟨a, ha, hla⟩ := mem_printDoc.1 hl
  obtain ⟨p1, _, p3⟩ := print_lines d a (h2 a ha).1 _ l hla
  exact ⟨p1, p3 (h2 a ha).2⟩

theorem strip_trail (l : Str) {ws : Str} (hws : ∀ c ∈ ws, c = ' ') : strip (l ++ ws) = strip l := by
  rw [strip, ← lstrip_rstrip, strip, ← lstrip_rstrip, rstrip, rstrip,
    rstripBy_append_all _ _ _ (fun c hc => by rw [hws c hc]; decide)]

theorem hard_format {ls : List Str} {l ws : Str} {ts : List Tok} (h : Text (ls ++ [l]) ts) (hws : ∀ c ∈ ws, c = ' ')
    (h2 : 2 ≤ ws.length) (w : Width) : fmtPar w (ls ++ [l ++ ws]) = .ok (pyJoin ['\n'] (hardLast (layLines w ts))) := by
  have e : parContent (ls ++ [l ++ ws]) = parContent (ls ++ [l]) := by
    simp only [parContent, List.map_append, List.map_singleton]
    rw [strip_trail l hws]
  obtain ⟨r, x, e1, e2⟩ := hardLast_ne (text_layLines h.layable w).2.1
  simp only [fmtPar, e, h.wrap w, bind, Except.bind, List.getLast?_concat, endsWith_spaces l hws h2, if_true, e2]
  rw [e1]
  cases r with
  | nil => rfl
  | cons y r => rw [pyJoin_append (by simp) (by simp), pyJoin_append (by simp) (by simp)]; simp [pyJoin]

/-- Every block is formatted by writing it down. -/
theorem node_format {d : Nat} {sub : Width → Str → Except Err Str} (hsub : Writes d sub) {w : Width} {ls : List Str} {a : Node}
    (h : ReadsNode (Reads d) (Divides d) ls a) (hw : a.WF (d + 1)) (hwide : a.wide w = true) (i : Nat) :
    fmtSection sub w i a.kind ls = .ok (pyJoin ['\n'] (a.print w)) ∧ reprCheck a.kind ls = .ok () := by
  cases hl : a.leaf with
  | true => exact ⟨leaf_format h hw hl hwide sub i, reprCheck_flat (leaf_flat h hw hl).1⟩
  | false =>
    cases h with
    | hard h hws h2 => exact ⟨hard_format h hws h2 w, rfl⟩
    | @ref l label link title h =>
      refine ⟨?_, ?_⟩
      · show fmtLrd w [l] = .ok (refLine label link title)
        refine fmtLrd_ref hw.1 h fun ht => ⟨hw.2 ht, ?_⟩
        have := hwide
        simp only [Node.wide, Bool.or_eq_true, List.isEmpty_iff] at this
        exact this.resolve_left ht
      · simp only [Node.kind, reprCheck, refAt_parts hw.1 h, bind, Except.bind]
    | @tail l label link h => exact ⟨fmtPar_tail hw.1 hw.2 h hwide, rfl⟩
    | @indented ls h hn =>
      obtain ⟨_, ⟨l, r, e, _⟩, _⟩ := hw
      obtain ⟨x, ls, rfl⟩ : ∃ x r, ls = x :: r := by
        cases ls with
        | nil => cases e
        | cons x r => exact ⟨x, r, rfl⟩
      exact ⟨rfl, rfl⟩
    | table h1 h2 h3 h4 h5 h6 h7 => exact ⟨table_format (R := Reads d) (S := Divides d) (.table h1 h2 h3 h4 h5 h6 h7) hw sub i, rfl⟩
    | @quote sp ls rs inner h0 hq hsp hR hS hn =>
      obtain ⟨hne, hin, hadj, hsoft, _⟩ := hw
      have hwd : wideDoc (w.sub (if sp then 2 else 1)) inner = true := hwide
      obtain ⟨x, hx⟩ := h0
      obtain ⟨l, ls, rfl⟩ : ∃ l r, ls = l :: r := by
        cases ls with
        | nil => cases hx
        | cons l r => exact ⟨l, r, rfl⟩
      cases hx
      refine ⟨?_, rfl⟩
      have hq1 := fullyQuote_marked _ 0 hq.isQuote
      have hq2 := hq.unquote
      have hqi : quoteInner (('>' :: x) :: ls) = (if sp then rs.map dropSpace else rs, sp) := by
        simp only [quoteInner, hq1, hq2, space_hasSpace hsp]
        cases sp <;> rfl
      have hs := hsub _ _ _ hR ⟨hin, hadj⟩ hwd hne
      obtain ⟨pl, pr, hp⟩ := printDoc_ne hin hwd hne
      have hlines : ∀ l ∈ printDoc (w.sub (if sp then 2 else 1)) inner, NoLB l ∧ rstrip l = l := by
        intro l hl
        obtain ⟨a, ha, hla⟩ := mem_printDoc.1 hl
        obtain ⟨p1, p2, _⟩ := print_lines d a (hin a ha) _ l hla
        exact ⟨p1, p2 (softDoc_mem.1 hsoft a ha)⟩
      have hsl := splitlines_join_nl (printDoc (w.sub (if sp then 2 else 1)) inner) (fun l hl => (hlines l hl).1)
        (by rw [hp]; simp)
      have hst : lstrip ('>' :: x) = '>' :: x := rfl
      have hmap : (printDoc (w.sub (if sp then 2 else 1)) inner).map
          (fun l => strip ((if sp then c!"> " else c!">") ++ l)) = (Node.quote sp inner).print w := by
        rw [Node.print]
        exact List.map_congr_left fun l hl => strip_quoted sp (hlines l hl).2
      rw [← hmap]
      show fmtQuote sub w (('>' :: x) :: ls) = _
      simp only [fmtQuote, hqi, hst, Int.sub_self, sub_zero]
      cases sp with
      | false =>
        simp only [Bool.false_eq_true, if_false, reformatLines, bind, Except.bind] at hs hsl ⊢
        rw [hs]
        simp only [hsl]
        rfl
      | true =>
        simp only [if_true, reformatLines, bind, Except.bind, sub_sub_two] at hs hsl ⊢
        rw [hs]
        simp only [hsl]
        rfl
    | @bullets c ls items h =>
      obtain ⟨hc, hne, hit⟩ := hw
      have hwi : wideItems (w.sub 2) items = true := hwide
      have hm : IsMarker [c] := by
        rcases hc with rfl | rfl | rfl
        · exact .inl rfl
        · exact .inr (.inr (.inl rfl))
        · exact .inr (.inl rfl)
      obtain ⟨l, rest, ws, r, es, ds, rfl, hmk, h1, h2, h3, h4⟩ := listReads_split h hm
      have hls := hmk.lstrip
      refine ⟨?_, ?_⟩
      · have hb := bullet_entries (c := c) h4 (item_format hsub (indent := 2) hit hwi) 0
        show fmtBullet sub w (l :: rest) = _
        simp only [fmtBullet, bind, Except.bind, h1, h3, hls, List.cons_append, hb]
        rw [join_flatten _ (entryLines_ne ?_ 0), entryLines_flatten]
        · rfl
        · intro it hi
          obtain ⟨pl, pr, hp⟩ := printDoc_ne (fun a ha => ((hit it hi).2.1 a ha).1) (wideItems_mem.1 hwi it hi) (hit it hi).1
          rw [hp]; simp
      · show reprCheck .bullet (l :: rest) = _
        simp [reprCheck, hls]
    | @numbers dg ls items hd1 hd2 h =>
      obtain ⟨hlen, hne, hit⟩ := hw
      have hwi : wideItems (w.sub ((natStr (parseNat dg + items.length - 1)).length + 2 : Nat)) items = true := hwide
      have hm : IsMarker (dg ++ ['.']) := .inr (.inr (.inr ⟨_, hd1, hd2, rfl⟩))
      obtain ⟨l, rest, ws, r, es, ds, rfl, hmk, h1, h2, h3, h4⟩ := listReads_split h hm
      have hfn := firstNumber_marker hmk hd1 hd2
      refine ⟨?_, ?_⟩
      · have hb := ordered_entries (first := parseNat dg) h4 (item_format hsub hit hwi) 0
        rw [show parseNat dg + 0 = parseNat dg from rfl] at hb
        show fmtOrdered sub w (l :: rest) = _
        simp only [fmtOrdered, bind, Except.bind, h1, h3, hfn, h2, hb]
        rw [join_flatten _ (entryLines_ne ?_ 0), entryLines_flatten]
        · rfl
        · intro it hi
          obtain ⟨pl, pr, hp⟩ := printDoc_ne (fun a ha => ((hit it hi).2.1 a ha).1) (wideItems_mem.1 hwi it hi) (hit it hi).1
          rw [hp]; simp
      · show reprCheck .ordered (l :: rest) = _
        simp [reprCheck, hfn, bind, Except.bind]
    | _ => cases hl

/-- Indented code is one or two sections. -/
theorem indented_fmts {sub : Width → Str → Except Err Str} {w : Width} {ls : List Str} (hne : ls ≠ []) (opn : Bool)
    {i : Nat} {last : Option Sec} {rest : List (Sec × List Str)} {fs : List Fmt}
    (hf : buildFmts (i + ls.length) (some .indented) rest = .ok fs) {gs : List Str} (hg : fmtAll sub w fs = .ok gs) :
    ∃ (fs' : List Fmt) (gs' : List (List Str)), buildFmts i last (Blk.secs ⟨.indented, ls, opn⟩ ++ rest) = .ok fs' ∧
      fmtAll sub w fs' = .ok (gs'.map (pyJoin ['\n']) ++ gs) ∧ gs'.flatten = ls.map rstrip ∧ ∀ g ∈ gs', g ≠ [] := by
  match ls, hne with
  | [l], _ =>
    refine ⟨⟨i, .indented, [l]⟩ :: fs, [[rstrip l]], ?_, ?_, rfl, by simp⟩
    · simp only [Blk.secs, if_true, cutLast, List.map_cons, List.map_nil, List.cons_append, List.nil_append, buildFmts, reprCheck,
        bind, Except.bind, hf]
      rfl
    · simp only [fmtAll, hg, bind, Except.bind, fmtSection, fmtIndented, Except.mapError]
      rfl
  | l :: m :: r, _ =>
    generalize hx : (m :: r).getLast (by simp) = x
    have hr : (l :: m :: r).dropLast ++ [x] = l :: m :: r := by
      have := List.dropLast_concat_getLast (l := l :: m :: r) (by simp)
      rw [List.getLast_cons (by simp), hx] at this
      exact this
    have hlen : (l :: m :: r).length = (l :: m :: r).dropLast.length + 1 := by
      simp
    refine ⟨⟨i, .indented, (l :: m :: r).dropLast⟩ :: ⟨i + (l :: m :: r).dropLast.length, .indented, [x]⟩ :: fs,
      [(l :: m :: r).dropLast.map rstrip, [rstrip x]], ?_, ?_, ?_, ?_⟩
    · rw [hlen, ← Nat.add_assoc] at hf
      simp only [Blk.secs, if_true, cutLast, hx, List.map_cons, List.map_nil, List.cons_append, List.nil_append, buildFmts]
      simp only [bind, Except.bind, List.length_singleton, hf, reprCheck]
      rfl
    · simp only [fmtAll, hg, bind, Except.bind, fmtSection, fmtIndented, Except.mapError]
      rfl
    · refine Eq.trans ?_ (congrArg (List.map rstrip) hr)
      rw [List.map_append]; rfl
    · simp

/-- No blank line is added between blocks. -/
theorem doc_format {d : Nat} {sub : Width → Str → Except Err Str} (hsub : Writes d sub) {w : Width} {parts : List (List Str)}
    {doc : List Node} (h : Each (ReadsNode (Reads d) (Divides d)) parts doc) : (∀ a ∈ doc, a.WF (d + 1)) →
    Adj Node.Before doc → wideDoc w doc = true →
    ∀ i last, (last = some .quote → ∀ a, doc.head? = some a → a.kind ≠ .setext) →
    ∃ (fs : List Fmt) (gs : List (List Str)), buildFmts i last (blkSecs (blks parts doc)) = .ok fs ∧
      fmtAll sub w fs = .ok (gs.map (pyJoin ['\n'])) ∧ gs.flatten = printDoc w doc ∧ ∀ g ∈ gs, g ≠ [] := by
  induction h with
  | nil => intro _ _ _ i last _; exact ⟨[], [], rfl, rfl, rfl, by simp⟩
  | @cons ls a parts doc h hs ih =>
    intro hw1 hw2 hwide i last hlast
    rw [wideDoc_mem] at hwide
    obtain ⟨fs, gs, hf1, hf2, hf3, hf4⟩ := ih (fun x hx => hw1 x (by simp [hx])) hw2.tail
      (wideDoc_mem.2 fun x hx => hwide x (by simp [hx]))
      (i + ls.length) (some a.kind) (by
        intro he b hb
        cases doc with
        | nil => cases hb
        | cons b' doc =>
          cases hb
          exact ((hw2.head).quote (by injection he)).2.1)
    rw [blks, blkSecs_cons]
    by_cases hi : a.kind = .indented
    · cases a <;> first | (cases hi; done) | skip
      rename_i body
      obtain ⟨_, ⟨l, r, e, _⟩, _⟩ := hw1 _ List.mem_cons_self
      cases h with
      | indented h hn =>
        obtain ⟨fs', gs', h1, h2, h3, h4⟩ := indented_fmts (sub := sub) (w := w) (ls := ls) (last := last)
          (by rintro rfl; cases e) false hf1 hf2
        refine ⟨fs', gs' ++ gs, h1, by rw [h2, List.map_append], ?_, ?_⟩
        · rw [List.flatten_append, h3, hf3]; rfl
        · intro g hg
          rcases List.mem_append.1 hg with hg | hg
          · exact h4 g hg
          · exact hf4 g hg
    obtain ⟨hn1, hn2⟩ := node_format hsub h (hw1 a (by simp)) (hwide a (by simp)) i
    refine ⟨⟨i, a.kind, ls⟩ :: fs, a.print w :: gs, ?_, ?_, ?_, ?_⟩
    · have hc : (a.kind == Sec.setext && last == some Sec.quote) = false := by
        by_cases hq : last = some .quote
        · have := hlast hq a rfl
          simp [this]
        · simp [hq]
      rw [secs_other hi]
      simp only [List.singleton_append, buildFmts, hn2, bind, Except.bind]
      rw [hf1]
      simp only [hc]
      rfl
    · simp only [fmtAll, hn1, hf2, bind, Except.bind, Except.mapError]
      rfl
    · rw [List.flatten_cons, hf3]; rfl
    · intro g hg
      rcases List.mem_cons.1 hg with rfl | hg
      · obtain ⟨l, r, e, _⟩ := print_head _ a (hw1 a (by simp)) w (hwide a (by simp))
        rw [e]; simp
      · exact hf4 g hg

/-- Text that stands for a tree is formatted by writing the tree down. -/
theorem reads_format : ∀ (d n : Nat), d + 1 ≤ n → ∀ (w : Width) (text : Str) (ls : List Str) (doc : List Node),
    splitlines text = ls → Reads d ls doc → WFDoc d doc → wideDoc w doc = true →
    reformatText n w text = .ok (pyJoin ['\n'] (printDoc w doc) ++ ['\n']) := by
  intro d
  induction d with
  | zero => intro n hn w text ls doc hs h; exact h.elim
  | succ d ih =>
    intro n hn w text ls doc hs h hw hwide
    obtain ⟨n, rfl⟩ : ∃ m, n = m + 1 := ⟨n - 1, by omega⟩
    obtain ⟨parts, hp, heach⟩ := h
    obtain ⟨hsec, hlines, _⟩ := reads_sections heach hw
    have hparse := parse_sections (d + 1) n (by omega) _ hsec
    have hwr : Writes d (reformatText n) := by
      intro w ls doc hr hw' hwide' hne
      refine ih n (by omega) w _ _ doc (splitlines_join_nl ls (reads_noLB hr hw') ?_) hr hw' hwide'
      intro h0
      cases d with
      | zero => exact hr.elim
      | succ d =>
        obtain ⟨parts, hp, he⟩ := hr
        subst h0
        obtain ⟨h1, h2, _⟩ := reads_sections he hw'
        obtain ⟨a, as, rfl⟩ := List.exists_cons_of_ne_nil hne
        cases he with
        | @cons ls' _ parts' _ h hs =>
          have : ls' = [] := by
            rw [List.flatten_cons] at hp
            exact (List.append_eq_nil_iff.1 hp).1
          exact Sections.ne h1 ⟨a.kind, ls', a.opn⟩ (by simp [blks]) this
    obtain ⟨fs, gs, hf1, hf2, hf3, hf4⟩ := doc_format hwr heach hw.1 hw.2.adj hwide 0 none (by intro h; cases h)
    rw [hlines, hp] at hparse
    show reformatBody (parse n) (reformatText n) w text = _
    simp only [reformatBody, hs, hparse, hf1, hf2, bind, Except.bind]
    rw [join_flatten _ hf4, hf3]

end MF
