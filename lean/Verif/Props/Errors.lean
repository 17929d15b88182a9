import Verif.Lemmas.Errors
import Verif.Lemmas.WrapSome
import Verif.Props.Extents
import Verif.Props.Lists
import Verif.Props.Tables
import Verif.Props.Termination
/-!
# C49, C53: what formatting can fail with, and why
-/

namespace MF

/-! ## Specification -/

/-- A word starts with a period, or has a period right behind a backtick. -/
def DotWord (t : Str) : Prop := ∃ w ∈ splitWs t, w.head? = some '.' ∨ c!"`." <:+: w

/-- A section on which the program fails with IndexError: a fence that is the last line of its document, a table of one
line, or text with a period where the program wants to glue it to something before it. -/
def Unformattable (ty : Sec) (content : List Str) : Prop :=
  match ty with
  | .fenced | .table => content.length = 1
  | .par => DotWord (pyJoin [' '] content)
  | .setext => DotWord (pyJoin [' '] content.dropLast)
  | .lrd => ∃ name link title, lrdParts content = .ok (name, link, title) ∧
      DotWord (['['] ++ name ++ c!"]: " ++ link ++ [' '] ++ title)
  | _ => False

/-- Among the sections of a document is a ragged table: `line` is the number of its first ragged row, counted from the
start of this document, `expected` the number of columns of its header and `actual` that of the row. -/
def RaggedAt (secs : List (Sec × List Str)) (line expected actual : Nat) : Prop :=
  ∃ pre header divider body post good bad, secs = pre ++ (Sec.table, header :: divider :: body) :: post ∧
    FirstRagged header body good bad ∧ line = (pre.map (·.2)).flatten.length + (good.length + 2) + 1 ∧
    expected = columns header ∧ actual = columns bad

/-- The document in a block quote, and the documents in the entries of a list. -/
inductive Inner : Sec → List Str → Str → Prop
  | quote (content : List Str) : Inner .quote content (pyJoin ['\n'] (quoteInner content).1 ++ ['\n'])
  | entry (ty : Sec) (content : List Str) (es : List (List Str)) (e d : List Str) (hty : ty = .bullet ∨ ty = .ordered)
    (hes : splitList content = .ok es) (he : e ∈ es) (hd : dedentEntry e = .ok d) :
    Inner ty content (pyJoin ['\n'] d ++ ['\n'])

/-- `Within n text m text'`: the document `text'` is `text`, or is found in it by going into block quotes and list
entries; `n` and `m` are the recursion limits with which they are formatted. -/
inductive Within : Nat → Str → Nat → Str → Prop
  | here (n : Nat) (text : Str) : Within n text n text
  | inside (n : Nat) (text : Str) (secs : List (Sec × List Str)) (s : Sec × List Str) (text1 : Str) (m : Nat)
    (text' : Str) (hparse : parse n (splitlines text) = .ok secs) (hs : s ∈ secs) (hin : Inner s.1 s.2 text1)
    (h : Within n text1 m text') : Within (n + 1) text m text'

/-- Why formatting a document fails with `e`, not counting documents inside it. -/
inductive Cause : Nat → Str → Err → Prop
  /-- the recursion limit was reached -/
  | depth (text : Str) : Cause 0 text .recursion
  /-- the document cannot be divided into sections -/
  | parse (n : Nat) (text : Str) (e : Err) (h : parse n (splitlines text) = .error e)
    (he : e = .recursion ∨ e = .stopIteration) : Cause (n + 1) text e
  | index (n : Nat) (text : Str) (secs : List (Sec × List Str)) (h : MF.parse n (splitlines text) = .ok secs)
    (s : Sec × List Str) (hs : s ∈ secs) (hu : Unformattable s.1 s.2) : Cause (n + 1) text .indexError
  | ragged (n : Nat) (text : Str) (secs : List (Sec × List Str)) (h : MF.parse n (splitlines text) = .ok secs)
    (line expected actual : Nat) (hr : RaggedAt secs line expected actual) :
    Cause (n + 1) text (.format line expected actual)

/-! ## Proofs -/

theorem wrap_dotWord {t : Str} {w : Width} {e : Err} (h : wrap t w = .error e) : e = .indexError ∧ DotWord t := by
  refine ⟨(C27_wrap_partial h).1, ?_⟩
  apply Classical.byContradiction
  intro hd
  obtain ⟨s, hs⟩ := C27_wrap_no_dots_partial (text := t) w (fun x hx => ⟨fun h1 => hd ⟨x, hx, .inl h1⟩,
    fun h1 => hd ⟨x, hx, .inr h1⟩⟩)
  rw [hs] at h; cases h

theorem dotWord_parContent {lines : List Str} (h : DotWord (parContent lines)) : DotWord (pyJoin [' '] lines) := by
  unfold DotWord at h ⊢
  rw [show splitWs (parContent lines) = splitWs (pyJoin [' '] lines) by
    unfold parContent
    rw [splitWs_pyJoin, splitWs_pyJoin, List.map_map]
    congr 1
    exact List.map_congr_left fun x _ => splitWs_strip x] at h
  exact h

/-- What is known of a section of a parsed document. -/
structure SecShape (ty : Sec) (content : List Str) : Prop where
  first : ∃ l ls, content = l :: ls ∧ (ty ≠ .blank → strip l ≠ [])
  setext : ty = .setext → ∃ body under, content = body ++ [under] ∧ body ≠ [] ∧ isSetextUnderline under = true
  list : ty = .bullet ∨ ty = .ordered → ∃ l ls ws m r, content = l :: ls ∧ MarkerAt l ws m (' ' :: r) ∧
    (ty = .bullet → ∃ c, (c = '*' ∨ c = '+' ∨ c = '-') ∧ m = [c]) ∧
    (ty = .ordered → ∃ ds, ds ≠ [] ∧ (∀ d ∈ ds, isDigit d = true) ∧ m = ds ++ ['.'])
  lrd : ty = .lrd → StartsLabel content
  lines : ∀ l ∈ content, NoLB l

theorem parse_shape {n : Nat} {lines : List Str} {secs : List (Sec × List Str)} (h : parse n lines = .ok secs)
    (hlb : ∀ l ∈ lines, NoLB l) {s : Sec × List Str} (hs : s ∈ secs) : SecShape s.1 s.2 := by
  obtain ⟨ty, content⟩ := s
  refine ⟨?_, ?_, ?_, ?_, ?_⟩
  · obtain ⟨pre, post, rfl⟩ := List.append_of_mem hs
    obtain ⟨l, ls, rfl⟩ := List.exists_cons_of_ne_nil (parse_at h).2
    refine ⟨l, ls, rfl, fun hb hst => ?_⟩
    have hk := C51_kind h
    have hd : l.dropWhile isWs = [] := (lstrip_eq_nil_iff_strip l).2 hst
    have : kindOf l = some .blank := by unfold kindOf; rw [hd]; rfl
    rw [this] at hk
    exact hb hk
  · rintro rfl; exact parse_setext h hs
  · intro hty; exact parse_list_first h hs hty
  · rintro rfl; exact parse_lrd h hs
  · intro l hl
    refine hlb l ?_
    rw [← (C08_parse_partition n _ _ h).1]
    exact List.mem_flatten.2 ⟨content, List.mem_map.2 ⟨_, hs, rfl⟩, hl⟩

theorem firstNumber_marker {l ws ds r : Str} (h : MarkerAt l ws (ds ++ ['.']) r) (hne : ds ≠ [])
    (hds : ∀ d ∈ ds, isDigit d = true) : firstNumber l = .ok (parseNat ds) := by
  have e : lstrip l = ds ++ '.' :: r := by rw [h.lstrip]; simp
  have et : (lstrip l).take ((lstrip l).length - (lstripBy isDigit (lstrip l)).length) = ds := by
    show (lstrip l).take ((lstrip l).length - ((lstrip l).dropWhile isDigit).length) = ds
    rw [take_takeWhile, e, takeWhile_append_stop _ _ _ _ hds (by decide)]
  unfold firstNumber
  simp only [et]
  cases ds with
  | nil => exact absurd rfl hne
  | cons d ds => rfl

theorem reprCheck_shape {ty : Sec} {content : List Str} (h : SecShape ty content) :
    reprCheck ty content = .ok () ∨ (ty = .fenced ∧ content.length = 1 ∧ reprCheck ty content = .error .indexError) := by
  obtain ⟨l, ls, rfl, hne⟩ := h.first
  cases ty with
  | atx | blank | table | par | quote | indented => exact .inl rfl
  | fenced =>
    cases ls with
    | nil => exact .inr ⟨rfl, rfl, rfl⟩
    | cons x xs =>
      left
      have : (strip l).isEmpty = false := by simpa using hne (by decide)
      simp [reprCheck, this]
  | thematic =>
    left
    have : (strip l).isEmpty = false := by simpa using hne (by decide)
    simp [reprCheck, this]
  | bullet =>
    left
    have : (lstrip l).isEmpty = false := by
      have := hne (by decide)
      cases hl : lstrip l with
      | nil => exact absurd ((lstrip_eq_nil_iff_strip l).1 hl) this
      | cons => rfl
    simp [reprCheck, this]
  | ordered =>
    left
    obtain ⟨l', ls', ws, m, r, e, hm, _, ho⟩ := h.list (.inr rfl)
    cases e
    obtain ⟨ds, h1, h2, rfl⟩ := ho rfl
    simp only [reprCheck, firstNumber_marker hm h1 h2, bind, Except.bind]
  | lrd =>
    left
    obtain ⟨name, link, title, hp, _⟩ := lrd_parts (h.lrd rfl) h.lines
    simp only [reprCheck, hp, bind, Except.bind]
  | setext =>
    left
    obtain ⟨body, under, e, hb, hu⟩ := h.setext rfl
    obtain ⟨c, r, h1, h2, h3⟩ := underline_char hu
    rw [e]
    have hlen : ¬ (body ++ [under]).length < 2 := by
      cases body with
      | nil => exact absurd rfl hb
      | cons => simp
    have hl : (body ++ [under]).getLastD [] = under := by simp
    unfold reprCheck
    split <;> first
      | rfl
      | (rename_i h; cases h; done)
      | skip
    all_goals simp_all

theorem fmtLrd_error {w : Width} {content : List Str} {e : Err} (hlabel : StartsLabel content)
    (hlb : ∀ l ∈ content, NoLB l) (h : fmtLrd w content = .error e) :
    e = .indexError ∧ Unformattable .lrd content := by
  obtain ⟨name, link, title, hp, hn, _, _, hlink, htitle, htlb, hlt, _⟩ := lrd_parts hlabel hlb
  have key : ∀ t, wrap t w = .error e → (∀ x ∈ splitWs t, x ∈ splitWs (['['] ++ name ++ c!"]: " ++ link ++ [' '] ++ title)) →
      e = .indexError ∧ Unformattable .lrd content := by
    intro t ht hx
    obtain ⟨h1, x, h2, h3⟩ := wrap_dotWord ht
    exact ⟨h1, name, link, title, hp, x, hx x h2, h3⟩
  have hfull : splitWs (['['] ++ name ++ c!"]: " ++ link ++ [' '] ++ title) =
      splitWs (['['] ++ name ++ c!"]:" ++ [' '] ++ link) ++ splitWs title := by
    rw [← splitWs_append_ws _ ' ' _ (by decide)]
    congr 1
    simp
  have hfull2 : splitWs (['['] ++ name ++ c!"]: " ++ link ++ [' '] ++ title) =
      splitWs (['['] ++ name ++ c!"]:") ++ splitWs (link ++ [' '] ++ title) := by
    rw [← splitWs_append_ws _ ' ' _ (by decide)]
    congr 1
    simp
  have ktitle : wrap title w = .error e → e = .indexError ∧ Unformattable .lrd content := fun h1 =>
    key _ h1 fun x hx => by rw [hfull]; exact List.mem_append_right _ hx
  have hlinkLB : NoLB link := fun c hc => by
    cases hc2 : isLB c with
    | false => rfl
    | true => have := hlink c hc; rw [isLB_ws hc2] at this; cases this
  have hheadLB : NoLB (['['] ++ name ++ c!"]:") :=
    NoLB.append (NoLB.append (by intro c hc; simp at hc; rw [hc]; decide) hn)
      (by intro c hc; exact (by decide : ∀ c ∈ c!"]:", isLB c = false) c hc)
  obtain ⟨l0, more, ws0, name0, r0, hcon, _⟩ := hlabel
  subst hcon
  simp only [fmtLrd, bind, Except.bind, hp] at h
  split at h
  · cases h
  · rename_i he
    have he' : link ≠ [] := by simpa using he
    by_cases hon : isIn link l0 = true
    · simp only [hon, if_true] at h
      have hstrLB : NoLB (['['] ++ name ++ c!"]:" ++ [' '] ++ link) :=
        (hheadLB.append (by intro c hc; simp at hc; rw [hc]; decide)).append hlinkLB
      split at h
      · cases h
      · rename_i ht
        split at h
        · rename_i lastLine word ws hw1 hw2
          rw [splitlines_single _ hstrLB (by simp)] at h
          simp only [List.getLastD_cons, List.getLastD_nil] at h
          repeat' (split at h)
          all_goals first
            | (cases h; done)
            | (rename_i h1; cases h; exact ktitle h1)
            | (rename_i h1; cases h; exact key _ h1 fun x hx => by
                rw [List.append_assoc, show ([' '] ++ title : Str) = ' ' :: title from rfl,
                  splitWs_append_ws _ _ _ (by decide)] at hx
                rw [hfull]; exact hx)
        · rename_i hbad
          exfalso
          cases hst : splitWs title with
          | nil => rw [hst] at htitle; exact ht (by rw [htitle]; rfl)
          | cons x xs => exact hbad l0 x xs rfl hst
    · simp only [hon, if_false, Bool.false_eq_true] at h
      split at h
      · cases h
      · rename_i ht
        have hsl : splitlines (['['] ++ name ++ c!"]:" ++ ['\n'] ++ link) = [['['] ++ name ++ c!"]:", link] := by
          rw [List.append_assoc]
          show splitlines (['['] ++ name ++ c!"]:" ++ '\n' :: link) = _
          rw [splitlines_line _ hheadLB, splitlines_single _ hlinkLB he']
        split at h
        · rename_i lastLine word ws hw1 hw2
          rw [hsl] at h
          simp only [List.getLastD_cons, List.getLastD_nil] at h
          repeat' (split at h)
          all_goals first
            | (cases h; done)
            | (rename_i h1; cases h; exact ktitle h1)
            | (rename_i h1; cases h; exact key _ h1 fun x hx => by
                rw [hfull2]; exact List.mem_append_right _ hx)
        · rename_i hbad
          exfalso
          cases hst : splitWs title with
          | nil => rw [hst] at htitle; exact ht (by rw [htitle]; rfl)
          | cons x xs =>
            cases more with
            | cons y ys => exact hbad y x xs rfl hst
            | nil =>
              obtain ⟨pre, body, h1, _, _, _, h2, _⟩ := lrdParts_shape hp
              apply hon
              rw [isIn_iff]
              have h1 : l0 = pre ++ ('[' :: (name ++ (']' :: ':' :: body))) := h1
              have e1 := List.takeWhile_append_dropWhile (p := fun c => !isWs c) (l := lstrip body)
              have e2 := List.takeWhile_append_dropWhile (p := isWs) (l := body)
              refine ⟨pre ++ ('[' :: (name ++ (']' :: ':' :: body.takeWhile isWs))),
                (lstrip body).dropWhile (fun c => !isWs c), ?_⟩
              rw [h2, e1, h1]
              conv => lhs; rw [← e2]
              simp [lstrip]

theorem fmtSection_leaf_error {sub : Width → Str → Except Err Str} {w : Width} {i : Nat} {ty : Sec}
    {content : List Str} {e : Err} (hs : SecShape ty content) (h : fmtSection sub w i ty content = .error e)
    (h1 : ty ≠ .quote) (h2 : ty ≠ .bullet) (h3 : ty ≠ .ordered) :
    (e = .indexError ∧ Unformattable ty content) ∨
    (ty = .table ∧ ∃ header divider body good bad, content = header :: divider :: body ∧
      FirstRagged header body good bad ∧ e = .format (i + (good.length + 2) + 1) (columns header) (columns bad)) := by
  obtain ⟨l, ls, rfl, hne⟩ := hs.first
  cases ty with
  | quote => exact absurd rfl h1
  | bullet => exact absurd rfl h2
  | ordered => exact absurd rfl h3
  | atx => cases h
  | blank => cases h
  | indented => cases h
  | table =>
    cases ls with
    | nil => cases h; exact .inl ⟨rfl, rfl⟩
    | cons d body =>
      obtain ⟨good, bad, h4, h5⟩ := (C22_table _ _ _ _ _ _ _).1 h
      exact .inr ⟨rfl, _, _, _, good, bad, rfl, h4, h5⟩
  | fenced =>
    exfalso
    simp only [fmtSection, fmtFenced] at h
    split at h
    · rename_i he; exact hne (by decide) he
    · cases h
  | thematic =>
    exfalso
    simp only [fmtSection, fmtThematic] at h
    split at h
    · rename_i he; exact hne (by decide) he
    · split at h <;> cases h
  | par =>
    left
    simp only [fmtSection, fmtPar, bind, Except.bind] at h
    split at h
    · rename_i e' he
      cases h
      obtain ⟨h4, h5⟩ := wrap_dotWord he
      exact ⟨h4, dotWord_parContent h5⟩
    · split at h
      · rename_i hl; simp at hl
      · cases h
  | setext =>
    left
    obtain ⟨body, under, e1, hb, hu⟩ := hs.setext rfl
    rw [e1] at h ⊢
    cases hw : wrap (parContent body) w with
    | error e' =>
      have hlen : ¬ (body ++ [under]).length < 2 := by
        cases body with
        | nil => exact absurd rfl hb
        | cons => simp
      simp only [fmtSection, fmtSetext, hlen, if_false, List.dropLast_concat, hw, bind, Except.bind] at h
      cases h
      obtain ⟨h4, h5⟩ := wrap_dotWord hw
      exact ⟨h4, by unfold Unformattable; simp only [List.dropLast_concat]; exact dotWord_parContent h5⟩
    | ok heading =>
      exfalso
      have hnb : strip (parContent body) ≠ [] := by
        obtain ⟨b, bs, rfl⟩ := List.exists_cons_of_ne_nil hb
        have : l = b := by simp at e1; exact e1.1
        have hl : strip b ≠ [] := this ▸ hne (by decide)
        unfold parContent
        intro he
        have hn := nw_eq_nil.2 he
        rw [nw_pyJoin (by decide), List.map_cons, List.flatten_cons, nw_append] at hn
        have := (List.append_eq_nil_iff.1 hn).1
        exact hl (by have := nw_eq_nil.1 this; rwa [strip_idem] at this)
      obtain ⟨out, ho⟩ := C16_setext_returns sub w i body under heading hb hu hw
        (fun he => wrap_nonblank hnb hw (by rw [he]; rfl))
      rw [ho] at h; cases h
  | lrd => exact .inl (fmtLrd_error (hs.lrd rfl) hs.lines h)

/-- An exception in a list or block quote comes from formatting a document inside it. -/
theorem fmtSection_inner_error {sub : Width → Str → Except Err Str} {w : Width} {i : Nat} {ty : Sec}
    {content : List Str} {e : Err} (hs : SecShape ty content) (h : fmtSection sub w i ty content = .error e)
    (hty : ty = .quote ∨ ty = .bullet ∨ ty = .ordered) :
    ∃ text w', Inner ty content text ∧ sub w' text = .error e := by
  obtain ⟨l, ls, rfl, hne⟩ := hs.first
  have hentry : ∀ indent marker d, fmtEntry sub w indent marker d = .error e →
      sub (w.sub indent) (pyJoin ['\n'] d ++ ['\n']) = .error e := by
    intro indent marker d h
    simp only [fmtEntry, reformatLines, bind, Except.bind] at h
    split at h
    · rename_i e' he; cases h; exact he
    · cases h
  rcases hty with rfl | hty
  · simp only [fmtSection, fmtQuote, reformatLines, bind, Except.bind] at h
    split at h
    · rename_i e' he
      cases h
      exact ⟨_, _, .quote _, he⟩
    · cases h
  · obtain ⟨l', ls', ws, m, r, e1, hm, hbul, hord⟩ := hs.list hty
    cases e1
    obtain ⟨es, h4, h5, h6, h7, _⟩ := splitList_spec l ls ws m _ hm
    have hded : ∀ es : List (List Str), (∀ e ∈ es, StartsWithMarker e) → ∃ ds, dedentEntries es = .ok ds := by
      intro es
      induction es with
      | nil => intro _; exact ⟨[], rfl⟩
      | cons x es ih =>
        intro hx
        obtain ⟨ds, hds⟩ := ih fun e he => hx e (by simp [he])
        obtain ⟨a, as, ws, m, r, rfl, hm⟩ := hx x (by simp)
        have hd : ∃ d, dedentEntry (a :: as) = .ok d := by
          simp only [dedentEntry, listMarkerEndPos, markerEnd_intro hm, bind, Except.bind]
          exact ⟨_, rfl⟩
        obtain ⟨d, hd⟩ := hd
        refine ⟨d :: ds, ?_⟩
        unfold dedentEntries at hds ⊢
        rw [List.mapM_cons, hd]
        simp only [bind, Except.bind, hds, pure, Except.pure]
    obtain ⟨ds, hds⟩ := hded es h7
    have hinner : ∀ d ∈ ds, Inner ty (l :: ls) (pyJoin ['\n'] d ++ ['\n']) := by
      intro d hd
      obtain ⟨x, hx, hxd⟩ := dedentEntries_mem _ _ hds d hd
      exact .entry ty _ es x d hty h4 hx hxd
    rcases hty with rfl | rfl
    · have hb : ∀ (mk : Str) (ds : List (List Str)), fmtBulletEntries sub w mk ds = .error e →
          ∃ d ∈ ds, ∃ indent mk', fmtEntry sub w indent mk' d = .error e := by
        intro mk ds
        induction ds with
        | nil => intro h; cases h
        | cons d ds ih =>
          intro h
          simp only [fmtBulletEntries, bind, Except.bind] at h
          split at h
          · rename_i e' he; cases h; exact ⟨d, by simp, _, _, he⟩
          · split at h
            · rename_i e' he
              cases h
              obtain ⟨d', hd', h'⟩ := ih he
              exact ⟨d', by simp [hd'], h'⟩
            · cases h
      simp only [fmtSection, fmtBullet, h4, hds, bind, Except.bind] at h
      split at h
      · rename_i hl
        exact absurd ((lstrip_eq_nil_iff_strip l).1 hl) (hne (by decide))
      · split at h
        · rename_i e' he
          cases h
          obtain ⟨d, hd, indent, mk', h8⟩ := hb _ _ he
          exact ⟨_, _, hinner d hd, hentry _ _ _ h8⟩
        · cases h
    · have hb : ∀ (indent : Nat) (ds : List (List Str)) (k : Nat), fmtOrderedEntries sub w indent k ds = .error e →
          ∃ d ∈ ds, ∃ indent mk', fmtEntry sub w indent mk' d = .error e := by
        intro indent ds
        induction ds with
        | nil => intro k h; cases h
        | cons d ds ih =>
          intro k h
          simp only [fmtOrderedEntries, bind, Except.bind] at h
          split at h
          · rename_i e' he; cases h; exact ⟨d, by simp, _, _, he⟩
          · split at h
            · rename_i e' he
              cases h
              obtain ⟨d', hd', h'⟩ := ih _ he
              exact ⟨d', by simp [hd'], h'⟩
            · cases h
      obtain ⟨digits, h8, h9, rfl⟩ := hord rfl
      simp only [fmtSection, fmtOrdered, h4, hds, firstNumber_marker hm h8 h9, bind, Except.bind] at h
      split at h
      · rename_i e' he
        cases h
        obtain ⟨d, hd, indent, mk', h8⟩ := hb _ _ _ he
        exact ⟨_, _, hinner d hd, hentry _ _ _ h8⟩
      · cases h

theorem buildFmts_error (secs : List (Sec × List Str)) : ∀ i last e, buildFmts i last secs = .error e →
    ∃ s ∈ secs, reprCheck s.1 s.2 = .error e := by
  induction secs with
  | nil => intro i last e h; cases h
  | cons s secs ih =>
    obtain ⟨ty, content⟩ := s
    intro i last e h
    simp only [buildFmts, bind, Except.bind] at h
    split at h
    · rename_i e' he; cases h; exact ⟨(ty, content), by simp, he⟩
    · split at h
      · rename_i e' he
        cases h
        obtain ⟨s, hs, h1⟩ := ih _ _ _ he
        exact ⟨s, by simp [hs], h1⟩
      · split at h <;> cases h

theorem buildFmts_index (secs : List (Sec × List Str)) : ∀ i last fs, buildFmts i last secs = .ok fs → ∀ f ∈ fs,
    (f.ty = .blank ∧ f.lines = [[]]) ∨
    ∃ pre post, secs = pre ++ (f.ty, f.lines) :: post ∧ f.lineIndex = i + (pre.map (·.2)).flatten.length := by
  induction secs with
  | nil => intro i last fs h f hf; cases h; cases hf
  | cons s secs ih =>
    obtain ⟨ty, content⟩ := s
    intro i last fs h f hf
    simp only [buildFmts, bind, Except.bind] at h
    split at h
    · cases h
    · split at h
      · cases h
      · rename_i fs1 h1
        have htail : f ∈ fs1 → (f.ty = .blank ∧ f.lines = [[]]) ∨
            ∃ pre post, (ty, content) :: secs = pre ++ (f.ty, f.lines) :: post ∧
              f.lineIndex = i + (pre.map (·.2)).flatten.length := by
          intro hf
          rcases ih _ _ _ h1 f hf with h2 | ⟨pre, post, h2, h3⟩
          · exact .inl h2
          · exact .inr ⟨(ty, content) :: pre, post, by rw [h2]; rfl, by rw [h3]; simp; omega⟩
        split at h
        · cases h
          simp only [List.mem_cons] at hf
          rcases hf with rfl | rfl | hf
          · exact .inl ⟨rfl, rfl⟩
          · exact .inr ⟨[], secs, rfl, rfl⟩
          · exact htail hf
        · cases h
          rcases List.mem_cons.1 hf with rfl | hf
          · exact .inr ⟨[], secs, rfl, rfl⟩
          · exact htail hf

theorem fmtAll_fails {sub : Width → Str → Except Err Str} {w : Width} {e : Err} (fs : List Fmt) :
    fmtAll sub w fs = .error e →
    ∃ f ∈ fs, ∃ e', fmtSection sub w f.lineIndex f.ty f.lines = .error e' ∧ e = genError e' := by
  induction fs with
  | nil => intro h; cases h
  | cons f fs ih =>
    intro h
    simp only [fmtAll, bind, Except.bind] at h
    split at h
    · rename_i e1 h1
      cases h
      cases hs : fmtSection sub w f.lineIndex f.ty f.lines with
      | ok t => rw [hs] at h1; cases h1
      | error e2 =>
        rw [hs] at h1
        cases h1
        exact ⟨f, by simp, e2, hs, rfl⟩
    · split at h
      · rename_i e1 h1
        cases h
        obtain ⟨f', hf', h2⟩ := ih h1
        exact ⟨f', by simp [hf'], h2⟩
      · cases h

/-- C53: when formatting a document fails, there is a document in it (itself, or one nested in block quotes and list
entries) that gives the reason; StopIteration of a nested document arrives as RuntimeError (`genStop`). -/
theorem C53_cause (n : Nat) : ∀ (w : Width) (text : Str) (e : Err), reformatText n w text = .error e →
    ∃ m text' e', Within n text m text' ∧ Cause m text' e' ∧
      (e = e' ∨ (m < n ∧ e' = .stopIteration ∧ e = .genStop)) := by
  induction n with
  | zero =>
    intro w text e h
    cases h
    exact ⟨0, text, _, .here _ _, .depth _, .inl rfl⟩
  | succ n ih =>
    intro w text e h
    simp only [reformatText, reformatBody, bind, Except.bind] at h
    split at h
    · rename_i e' he
      cases h
      exact ⟨n + 1, text, e, .here _ _, .parse n text e he (parse_errors he), .inl rfl⟩
    · rename_i secs hsecs
      have hshape : ∀ s ∈ secs, SecShape s.1 s.2 := fun s hs => parse_shape hsecs (splitlines_noLB text) hs
      split at h
      · rename_i e' he
        cases h
        obtain ⟨s, hs, h1⟩ := buildFmts_error _ _ _ _ he
        rcases reprCheck_shape (hshape s hs) with h2 | ⟨h2, h3, h4⟩
        · rw [h2] at h1; cases h1
        · rw [h4] at h1
          cases h1
          refine ⟨n + 1, text, _, .here _ _, .index n text secs hsecs s hs ?_, .inl rfl⟩
          rw [h2]; exact h3
      · rename_i fs hfs
        split at h
        · rename_i e' he
          cases h
          obtain ⟨f, hf, e1, h1, h2⟩ := fmtAll_fails _ he
          rcases buildFmts_index _ _ _ _ hfs f hf with ⟨h3, h4⟩ | ⟨pre, post, h3, h4⟩
          · rw [h3] at h1; cases h1
          · have hmem : (f.ty, f.lines) ∈ secs := by rw [h3]; simp
            have hsh := hshape _ hmem
            by_cases hty : f.ty = .quote ∨ f.ty = .bullet ∨ f.ty = .ordered
            · obtain ⟨text1, w', hin, h5⟩ := fmtSection_inner_error hsh h1 hty
              obtain ⟨m, text', e2, h6, h7, h8⟩ := ih _ _ _ h5
              have hmn : m < n + 1 := by
                have : ∀ {n t m t'}, Within n t m t' → m ≤ n := by
                  intro n t m t' h
                  induction h with
                  | here => exact Nat.le_refl _
                  | inside _ _ _ _ _ _ _ _ _ _ _ ih => omega
                have := this h6
                omega
              refine ⟨m, text', e2, .inside n text secs _ text1 m text' hsecs hmem hin h6, h7, ?_⟩
              rcases h8 with rfl | ⟨_, h9, h10⟩
              · by_cases hst : e1 = .stopIteration
                · exact .inr ⟨hmn, hst, by rw [h2, hst]; rfl⟩
                · left
                  rw [h2]
                  cases e1 <;> first | rfl | exact absurd rfl hst
              · exact .inr ⟨hmn, h9, by rw [h2, h10]; rfl⟩
            · have hq : f.ty ≠ .quote ∧ f.ty ≠ .bullet ∧ f.ty ≠ .ordered := by
                refine ⟨fun h => hty (.inl h), fun h => hty (.inr (.inl h)), fun h => hty (.inr (.inr h))⟩
              rcases fmtSection_leaf_error hsh h1 hq.1 hq.2.1 hq.2.2 with ⟨h5, h6⟩ | ⟨h5, hd, dv, body, good, bad, h6, h7, h8⟩
              · refine ⟨n + 1, text, .indexError, .here _ _, .index n text secs hsecs _ hmem h6, .inl ?_⟩
                rw [h2, h5]; rfl
              · refine ⟨n + 1, text, e1, .here _ _, ?_, .inl (by rw [h2, h8]; rfl)⟩
                rw [h8]
                refine .ragged n text secs hsecs _ _ _ ⟨pre, hd, dv, body, post, good, bad, ?_, h7, ?_, rfl, rfl⟩
                · rw [h3, show f.ty = .table from h5, show f.lines = _ from h6]
                · rw [h4]; omega
        · cases h

theorem Cause.errs {n : Nat} {text : Str} {e : Err} (h : Cause n text e) :
    e = .recursion ∨ e = .stopIteration ∨ e = .indexError ∨ ∃ l x a, e = .format l x a := by
  cases h with
  | depth => exact .inl rfl
  | parse n _ _ h he => rcases he with rfl | rfl <;> simp
  | index => simp
  | ragged => simp

/-- C53: `reformat_markdown_text` fails only with RecursionError, StopIteration, the RuntimeError into which a generator
turns it, IndexError, the exception for inconsistent output, or the exception for ragged tables. None of the program's
own RuntimeErrors ("... has not been initialized" and so on) is ever raised, and no ValueError. -/
theorem C53_exceptions (n : Nat) (w : Width) (text : Str) (e : Err) (h : reformatMarkdownText n w text = .error e) :
    e = .recursion ∨ e = .stopIteration ∨ e = .genStop ∨ e = .indexError ∨ e = .inconsistent ∨
      ∃ l x a, e = .format l x a := by
  have key : ∀ t, reformatText n w t = .error e → e = .recursion ∨ e = .stopIteration ∨ e = .genStop ∨
      e = .indexError ∨ e = .inconsistent ∨ ∃ l x a, e = .format l x a := by
    intro t ht
    obtain ⟨m, text', e', _, hc, he⟩ := C53_cause n w t e ht
    rcases he with rfl | ⟨_, _, rfl⟩
    · rcases hc.errs with h1 | h1 | h1 | h1
      · exact .inl h1
      · exact .inr (.inl h1)
      · exact .inr (.inr (.inr (.inl h1)))
      · exact .inr (.inr (.inr (.inr (.inr h1))))
    · simp
  simp only [reformatMarkdownText, bind, Except.bind] at h
  split at h
  · rename_i e' he; cases h; exact key _ he
  · split at h
    · rename_i e' he; cases h; exact key _ he
    · split at h
      · cases h; simp
      · cases h

/-- Each of these exceptions occurs. -/
theorem C53_all_occur :
    reformatMarkdownText 9 (.fin 80) c!"\t> foo" = .error .recursion ∧
    reformatMarkdownText 9 (.fin 80) c!"foo\nbar  " = .error .stopIteration ∧
    reformatMarkdownText 9 (.fin 80) c!"- foo\n  bar  " = .error .genStop ∧
    reformatMarkdownText 9 (.fin 80) c!".foo" = .error .indexError ∧
    reformatMarkdownText 9 (.fin 80) c!"```" = .error .indexError ∧
    reformatMarkdownText 9 (.fin 80) c!"|a|" = .error .indexError ∧
    reformatMarkdownText 9 (.fin 80) c!"foo\n-- -" = .error .inconsistent ∧
    reformatMarkdownText 9 (.fin 80) c!"|a|\n|-|\n|b|c|" = .error (.format 3 1 2) := by decide +kernel

theorem fmtAll_each {sub : Width → Str → Except Err Str} {w : Width} (fs : List Fmt) : ∀ ts, fmtAll sub w fs = .ok ts →
    ∀ f ∈ fs, ∃ t, fmtSection sub w f.lineIndex f.ty f.lines = .ok t := by
  induction fs with
  | nil => intro ts _ f hf; cases hf
  | cons g fs ih =>
    intro ts h f hf
    simp only [fmtAll, bind, Except.bind] at h
    split at h
    · cases h
    · rename_i t ht
      split at h
      · cases h
      · rename_i ts' hts
        rcases List.mem_cons.1 hf with rfl | hf
        · cases hs : fmtSection sub w f.lineIndex f.ty f.lines with
          | ok t => exact ⟨t, rfl⟩
          | error e => rw [hs] at ht; cases ht
        · exact ih _ hts f hf

theorem buildFmts_each (secs : List (Sec × List Str)) : ∀ i last fs, buildFmts i last secs = .ok fs → ∀ s ∈ secs,
    reprCheck s.1 s.2 = .ok () ∧ ∃ f ∈ fs, f.ty = s.1 ∧ f.lines = s.2 := by
  induction secs with
  | nil => intro i last fs _ s hs; cases hs
  | cons s0 secs ih =>
    obtain ⟨ty, content⟩ := s0
    intro i last fs h s hs
    simp only [buildFmts, bind, Except.bind] at h
    split at h
    · cases h
    · rename_i u hu
      split at h
      · cases h
      · rename_i fs1 h1
        have hsub : ∀ f ∈ (⟨i, ty, content⟩ :: fs1 : List Fmt), f ∈ fs := by
          intro f hf
          split at h <;> cases h
          · exact List.mem_cons_of_mem _ hf
          · exact hf
        rcases List.mem_cons.1 hs with rfl | hs
        · exact ⟨hu, ⟨i, ty, content⟩, hsub _ (by simp), rfl, rfl⟩
        · obtain ⟨h2, f, hf, h3⟩ := ih _ _ _ h1 s hs
          exact ⟨h2, f, hsub f (by simp [hf]), h3⟩

/-- Conversely, a document with a section that is a single fence line or a single table line is never formatted. -/
theorem C53_fence_or_row_alone (n : Nat) (w : Width) (text : Str) (secs : List (Sec × List Str))
    (h : parse n (splitlines text) = .ok secs) (s : Sec × List Str) (hs : s ∈ secs)
    (hty : s.1 = .fenced ∨ s.1 = .table) (hlen : s.2.length = 1) : ∃ e, reformatText (n + 1) w text = .error e := by
  cases ht : reformatText (n + 1) w text with
  | error e => exact ⟨e, rfl⟩
  | ok t =>
    exfalso
    simp only [reformatText, reformatBody, bind, Except.bind, h] at ht
    split at ht
    · cases ht
    · rename_i fs hfs
      split at ht
      · cases ht
      · rename_i parts hparts
        obtain ⟨ty, content⟩ := s
        obtain ⟨l, rfl⟩ := List.length_eq_one_iff.1 hlen
        obtain ⟨h1, f, hf, h2, h3⟩ := buildFmts_each _ _ _ _ hfs _ hs
        rcases hty with hty | hty
        · simp only at hty
          rw [hty] at h1
          cases h1
        · obtain ⟨t', ht'⟩ := fmtAll_each _ _ hparts f hf
          simp only at hty
          rw [h2, h3, hty] at ht'
          cases ht'

/-! ## C49: line numbers of ragged tables -/

/-- C49, as one expects it: the number in the exception is that of a line of the document, which is a table row with
the given number of columns. -/
def C49_statement : Prop :=
  ∀ (n : Nat) (w : Width) (text : Str) (line expected actual : Nat),
    reformatText n w text = .error (.format line expected actual) →
    ∃ l, (splitlines text)[line - 1]? = some l ∧ columns l = actual

/-- What holds: there is a document, `text` itself or one nested in it, in which the line with that number is the first
ragged row of a table. -/
theorem C49_line_number_partial (n : Nat) (w : Width) (text : Str) (line expected actual : Nat)
    (h : reformatText n w text = .error (.format line expected actual)) :
    ∃ m text' secs, Within n text (m + 1) text' ∧ parse m (splitlines text') = .ok secs ∧
      RaggedAt secs line expected actual ∧
      ∃ l, (splitlines text')[line - 1]? = some l ∧ columns l = actual := by
  obtain ⟨m, text', e', hw, hc, he⟩ := C53_cause n w text _ h
  rcases he with rfl | ⟨_, _, he⟩
  · cases hc with
    | parse n _ _ h he => rcases he with he | he <;> cases he
    | ragged n _ secs hp _ _ _ hr =>
      refine ⟨n, text', secs, hw, hp, hr, ?_⟩
      obtain ⟨pre, header, divider, body, post, good, bad, h1, ⟨⟨more, rfl⟩, _⟩, h3, h4, h5⟩ := hr
      refine ⟨bad, ?_, h5.symm⟩
      rw [← (C08_parse_partition n _ _ hp).1, h1, h3]
      have e : ((pre ++ (Sec.table, header :: divider :: (good ++ bad :: more)) :: post).map (·.2)).flatten =
          ((pre.map (·.2)).flatten ++ (header :: divider :: good)) ++ bad :: (more ++ (post.map (·.2)).flatten) := by
        simp
      rw [e, List.getElem?_append_right (by simp)]
      have : (pre.map (·.2)).flatten.length + (good.length + 2) + 1 - 1 -
          ((pre.map (·.2)).flatten ++ (header :: divider :: good)).length = 0 := by simp
      rw [this]
      rfl
  · cases he

theorem C49_refuted : ¬ C49_statement := by
  intro h
  have h1 : reformatText 4 (.fin 80) c!"# x\n\n> |a|\n> |-|\n> |b|c|d|\n" = .error (.format 3 1 3) := by decide +kernel
  obtain ⟨l, h2, h3⟩ := h _ _ _ _ _ _ h1
  have h4 : (splitlines c!"# x\n\n> |a|\n> |-|\n> |b|c|d|\n")[3 - 1]? = some c!"> |a|" := by decide
  rw [h4] at h2
  cases h2
  exact absurd h3 (by decide)

/-- The hypothesis holds two levels down: a table in a block quote in a list entry. -/
example : reformatText 5 (.fin 80) c!"x\n\n- y\n- > |a|\n  > |-|\n  > |b|c|\n" = .error (.format 3 1 2) := by
  decide +kernel

end MF
