import Verif.Props.Errors
import Verif.Props.Lrd
import Verif.Props.Paragraphs
/-!
# C66: no text is lost, added or moved
-/

namespace MF

/-! ## Specification -/

/-- Characters that a section of this type may have as markup that is written anew. -/
def MarkupChar : Sec → Char → Prop
  | .quote, c => c = '>'
  | .bullet, c | .ordered, c => isDigit c = true ∨ c = '.' ∨ c = '-' ∨ c = '*' ∨ c = '+'
  | .thematic, c => c = '-' ∨ c = '*' ∨ c = '_'
  | .setext, c => c = '-' ∨ c = '='
  | .table, c => c = '|' ∨ c = '-' ∨ c = ':'
  | _, _ => False

/-- The links of a text neither touch nor nest. -/
def TidyLinks (t : Str) : Prop := '[' ∉ t ∨ LinksApart t

/-- The section has none of the defects for which the program is known to lose text: links that nest or touch in a
paragraph or heading; a fence that is not closed; a table that is not well-formed or has escaped bars in its body; a link
reference definition whose title does not fit behind its link. -/
def Sound (w : Width) (ty : Sec) (content : List Str) : Prop :=
  match ty with
  | .par => TidyLinks (pyJoin [' '] (content.map strip))
  | .setext => TidyLinks (pyJoin [' '] (content.dropLast.map strip))
  | .fenced => ∃ l body close, content = l :: body ++ [close] ∧ strip close = fenceRun l
  | .table => ∃ header divider body hc dc bc, content = header :: divider :: body ∧ Row header hc ∧ Row divider dc ∧
      Rows body bc ∧ dc.length = hc.length ∧ (∀ c ∈ dc, DelimCell c) ∧ (∀ r ∈ bc, r.length = hc.length) ∧
      ∀ l ∈ body, ¬ HasEscapedBar l
  | .lrd => ∀ name link title, lrdParts content = .ok (name, link, title) →
      (∀ word, (splitWs title).head? = some word → w.ge (word.length + (name.length + link.length + 4)) = true) ∧
      LinksApart (c!"[" ++ name ++ c!"]: " ++ link ++ c!" " ++ title)
  | _ => True

/-- The documents inside a section, with the width at which they are formatted. -/
inductive InnerAt (w : Width) : Sec → List Str → Width → Str → Prop
  | quote (l : Str) (ls : List Str) (k : Int) (hk : k = (lstrip l).length - l.length) :
    InnerAt w .quote (l :: ls) (((w.sub k).sub 1).sub (if (quoteInner (l :: ls)).2 then 1 else 0))
      (pyJoin ['\n'] (quoteInner (l :: ls)).1 ++ ['\n'])
  | bullet (content : List Str) (es : List (List Str)) (e d : List Str) (hes : splitList content = .ok es) (he : e ∈ es)
    (hd : dedentEntry e = .ok d) : InnerAt w .bullet content (w.sub 2) (pyJoin ['\n'] d ++ ['\n'])
  | ordered (l : Str) (ls : List Str) (es : List (List Str)) (e d : List Str) (first : Nat)
    (hes : splitList (l :: ls) = .ok es) (he : e ∈ es) (hd : dedentEntry e = .ok d) (hf : firstNumber l = .ok first) :
    InnerAt w .ordered (l :: ls) (w.sub ((natStr (first + es.length - 1)).length + 2 : Nat))
      (pyJoin ['\n'] d ++ ['\n'])

/-- In the document, and the documents nested in it, all sections are sound, and `keep` holds for none of the markup
characters of the kinds of sections that occur. The number is the recursion limit. -/
def SoundDoc (keep : Char → Bool) : Nat → Width → Str → Prop
  | 0, _, _ => True
  | n + 1, w, text => ∀ secs, parse n (splitlines text) = .ok secs → ∀ s ∈ secs,
      Sound w s.1 s.2 ∧ (∀ c, MarkupChar s.1 c → keep c = false) ∧
      ∀ w' text', InnerAt w s.1 s.2 w' text' → SoundDoc keep n w' text'

/-! ## Proofs -/

section
variable {K : Char → Bool} (hK : ∀ c, isWs c = true → K c = false)
include hK

theorem filter_ws {s : Str} (h : ∀ c ∈ s, isWs c = true) : s.filter K = [] := by
  rw [List.filter_eq_nil_iff]
  intro c hc
  simp [hK c (h c hc)]

theorem filter_nw (s : Str) : (nw s).filter K = s.filter K := by
  unfold nw
  rw [List.filter_filter]
  apply List.filter_congr
  intro c _
  cases hc : isWs c with
  | true => simp [hK c hc]
  | false => simp

theorem filter_of_nw {a b : Str} (h : nw a = nw b) : a.filter K = b.filter K := by
  rw [← filter_nw hK a, ← filter_nw hK b, h]

theorem filter_join {sep : Str} (hs : ∀ c ∈ sep, isWs c = true) (xs : List Str) :
    (pyJoin sep xs).filter K = (xs.map (·.filter K)).flatten := by
  rw [← filter_nw hK, nw_pyJoin hs]
  induction xs with
  | nil => rfl
  | cons x xs ih =>
    rw [List.flatten_cons, nw_append, List.filter_append, filter_nw hK, ih]
    rfl

theorem filter_nl (xs : List Str) : (pyJoin ['\n'] xs).filter K = (xs.map (·.filter K)).flatten :=
  filter_join hK (by decide) xs

theorem filter_strip (s : Str) : (strip s).filter K = s.filter K := filter_of_nw hK (nw_strip s)
theorem filter_rstrip (s : Str) : (rstrip s).filter K = s.filter K := filter_of_nw hK (nw_rstrip s)

theorem filter_splitlines (s : Str) : ((splitlines s).map (·.filter K)).flatten = s.filter K := by
  have hcons : ∀ (c : Char) (xs : List Str), ((consHead c xs).map (·.filter K)).flatten =
      [c].filter K ++ (xs.map (·.filter K)).flatten := by
    intro c xs
    cases xs with
    | nil => simp [consHead]
    | cons x xs =>
      simp only [consHead, List.map_cons, List.flatten_cons]
      rw [← List.append_assoc, ← List.filter_append]; rfl
  induction s with
  | nil => rfl
  | cons c s ih =>
    have hs : (c :: s).filter K = [c].filter K ++ s.filter K := by rw [← List.filter_append]; rfl
    unfold splitlines
    split
    · rename_i h
      simp only [Bool.and_eq_true, beq_iff_eq] at h
      rw [ih, hs, h.1, filter_ws hK (s := ['\r']) (by decide)]; rfl
    · split
      · rename_i h
        rw [hs, filter_ws hK (s := [c]) (by intro x hx; simp at hx; rw [hx]; exact isLB_ws h)]
        simp [ih]
      · rw [hcons, ih, hs]

omit hK in
theorem filter_none {s : Str} (h : ∀ c ∈ s, K c = false) : s.filter K = [] := by
  rw [List.filter_eq_nil_iff]
  intro c hc
  simp [h c hc]

theorem filter_parContent (xs : List Str) :
    (pyJoin [' '] (xs.map strip)).filter K = (xs.map (·.filter K)).flatten := by
  rw [filter_join hK (by decide), List.map_map]
  congr 1
  exact List.map_congr_left fun x _ => filter_strip hK x

omit hK in
theorem wrap_tidy {xs : List Str} {w : Width} {out : Str} (h : wrap (pyJoin [' '] (xs.map strip)) w = .ok out)
    (hlb : ∀ l ∈ xs, NoLB l) (hl : TidyLinks (pyJoin [' '] (xs.map strip))) :
    nw out = nw (pyJoin [' '] (xs.map strip)) := by
  rcases hl with hl | hl
  · exact C23_wrap_no_links_partial h hl
  · refine wrap_apart h ?_ (List.infix_refl _) hl
    intro c hc
    rcases mem_pyJoin hc with hc | ⟨x, hx, hc⟩
    · simp at hc; rw [hc]; decide
    · obtain ⟨l, hl, rfl⟩ := List.mem_map.1 hx
      exact hlb l hl c (mem_of_mem_strip hc)

omit hK in
theorem filter_fullyQuote (hq : K '>' = false) (ls : List Str) : ∀ d,
    ((fullyQuote d ls).map (·.filter K)) = ls.map (·.filter K) := by
  induction ls with
  | nil => intro d; rfl
  | cons l ls ih =>
    intro d
    unfold fullyQuote
    split
    · simp only [List.map_cons, ih]
    · simp only [List.map_cons, ih, List.filter_append]
      rw [filter_none (s := List.replicate d '>') (fun c hc => by rw [List.eq_of_mem_replicate hc]; exact hq)]
      rfl

theorem filter_unquote (hq : K '>' = false) (l : Str) : (unquote l).filter K = l.filter K := by
  by_cases h : ∃ r, Marked l r
  · obtain ⟨r, h⟩ := h
    rw [unquote_marked h]
    obtain ⟨k, _, rfl⟩ := h
    rw [List.filter_append, filter_ws hK (s := List.replicate k ' ') (fun c hc => by
      rw [List.eq_of_mem_replicate hc]; decide)]
    simp [hq]
  · rw [unquote_unmarked fun r hr => h ⟨r, hr⟩]

theorem filter_dropSpace (l : Str) : (dropSpace l).filter K = l.filter K := by
  cases l with
  | nil => rfl
  | cons c cs =>
    simp only [dropSpace]
    split
    · rename_i h
      simp only [beq_iff_eq] at h
      rw [h, List.filter_cons, hK ' ' (by decide)]; rfl
    · rfl

theorem filter_quoteInner (hq : K '>' = false) (ls : List Str) :
    ((quoteInner ls).1.map (·.filter K)) = ls.map (·.filter K) := by
  have h : ((fullyQuote 0 ls).map unquote).map (·.filter K) = ls.map (·.filter K) := by
    rw [List.map_map, ← filter_fullyQuote hq ls 0]
    exact List.map_congr_left fun l _ => filter_unquote hK hq l
  unfold quoteInner
  simp only
  split
  · simp only
    rw [List.map_map, ← h]
    exact List.map_congr_left fun l _ => filter_dropSpace hK l
  · exact h

theorem fmtQuote_kept (hq : K '>' = false) {sub : Width → Str → Except Err Str} {w : Width} {content : List Str}
    {out : Str} (h : fmtQuote sub w content = .ok out)
    (hsub : ∀ w' t y, InnerAt w .quote content w' t → sub w' t = .ok y → y.filter K = t.filter K) :
    out.filter K = (content.map (·.filter K)).flatten := by
  cases content with
  | nil => cases h
  | cons l ls =>
    simp only [fmtQuote, reformatLines, bind, Except.bind] at h
    split at h
    · cases h
    · rename_i text ht
      cases h
      rw [filter_nl hK, List.map_map]
      have hpre : ∀ k : Int, (mul ' ' k ++ ['>']).filter K = [] := by
        intro k
        rw [List.filter_append, filter_ws hK (s := mul ' ' k) (fun c hc => by
          rw [List.eq_of_mem_replicate hc]; decide)]
        simp [hq]
      have e : (splitlines text).map ((·.filter K) ∘ fun line => strip ((if (quoteInner (l :: ls)).2 = true then
            (((w.sub ((lstrip l).length - l.length)).sub 1).sub 1, mul ' ' ((lstrip l).length - l.length) ++ ['>'] ++ [' '])
          else ((w.sub ((lstrip l).length - l.length)).sub 1, mul ' ' ((lstrip l).length - l.length) ++ ['>'])).2 ++ line)) =
          (splitlines text).map (·.filter K) := by
        apply List.map_congr_left
        intro line _
        simp only [Function.comp, filter_strip hK, List.filter_append]
        split
        · rw [List.filter_append, hpre]; simp [hK ' ' (by decide)]
        · rw [hpre]; rfl
      rw [e, filter_splitlines hK]
      have hw : ∀ k : Int, (if (quoteInner (l :: ls)).2 = true then
            (((w.sub k).sub 1).sub 1, mul ' ' k ++ ['>'] ++ [' '])
          else ((w.sub k).sub 1, mul ' ' k ++ ['>'])).1 =
          ((w.sub k).sub 1).sub (if (quoteInner (l :: ls)).2 then 1 else 0) := by
        intro k
        split
        · rfl
        · cases w <;> simp [Width.sub]
      rw [hw] at ht
      rw [hsub _ _ _ (.quote l ls _ rfl) ht, List.filter_append, filter_nl hK, filter_quoteInner hK hq,
        filter_ws hK (s := ['\n']) (by decide), List.append_nil]

theorem dedentEntry_kept {e d : List Str} (hm : ∀ c, MarkupChar .bullet c → K c = false) (he : StartsWithMarker e)
    (h : dedentEntry e = .ok d) : (d.map (·.filter K)).flatten = (e.map (·.filter K)).flatten := by
  obtain ⟨l, ls, ws, m, r, rfl, hmk⟩ := he
  simp only [dedentEntry, listMarkerEndPos, markerEnd_intro hmk, bind, Except.bind] at h
  cases h
  simp only [List.map_cons, List.flatten_cons, List.map_map]
  congr 1
  · have hmark : m.filter K = [] := by
      apply filter_none
      intro c hc
      apply hm
      rcases hmk.marker with rfl | rfl | rfl | ⟨ds, _, hds, rfl⟩
      · simp at hc; subst hc; exact .inr (.inr (.inr (.inl rfl)))
      · simp at hc; subst hc; exact .inr (.inr (.inl rfl))
      · simp at hc; subst hc; exact .inr (.inr (.inr (.inr rfl)))
      · rcases List.mem_append.1 hc with hc | hc
        · exact .inl (hds c hc)
        · simp at hc; subst hc; exact .inr (.inl rfl)
    have hr : (r.drop 1).filter K = r.filter K := by
      rcases hmk.rest with rfl | rfl | ⟨r', rfl⟩
      · rfl
      · simp [hK '\n' (by decide)]
      · simp [hK ' ' (by decide)]
    rw [hmk.eq, ← List.append_assoc, List.drop_append, List.length_append]
    rw [List.drop_of_length_le (by simp), List.nil_append, List.filter_append, List.filter_append,
      filter_ws hK hmk.ws, hmark]
    rw [show ws.length + m.length + 1 - (ws.length + m.length) = 1 by omega]
    exact hr
  · congr 1
    apply List.map_congr_left
    intro x _
    simp only [Function.comp, List.filter_append]
    rw [filter_of_nw hK (nw_lstrip _), ← List.filter_append, List.take_append_drop]

theorem fmtEntry_kept {sub : Width → Str → Except Err Str} {w : Width} {indent : Nat} {marker out : Str}
    {d : List Str} (h : fmtEntry sub w indent marker d = .ok out) (hm : ∀ c ∈ marker, K c = false)
    (hsub : ∀ y, sub (w.sub indent) (pyJoin ['\n'] d ++ ['\n']) = .ok y →
      y.filter K = (pyJoin ['\n'] d ++ ['\n']).filter K) : out.filter K = (d.map (·.filter K)).flatten := by
  simp only [fmtEntry, reformatLines, bind, Except.bind] at h
  split at h
  · cases h
  · rename_i text ht
    cases h
    rw [List.filter_append, List.filter_append, filter_none hm, filter_ws hK (s := [' ']) (by decide), List.append_nil,
      List.nil_append, filter_join hK (by
        intro c hc
        rcases List.mem_append.1 hc with hc | hc
        · simp at hc; rw [hc]; decide
        · rw [List.eq_of_mem_replicate hc]; decide), ← filter_nl hK, pyJoin_splitChar]
    obtain ⟨t, h1, h2⟩ := rstripBy_split (· == '\n') text
    have h3 : text.filter K = (rstripBy (· == '\n') text).filter K := by
      conv => lhs; rw [h1, List.filter_append]
      rw [filter_ws hK (s := t) (fun c hc => by have := h2 c hc; simp at this; rw [this]; decide), List.append_nil]
    rw [← h3, hsub _ ht, List.filter_append, filter_nl hK, filter_ws hK (s := ['\n']) (by decide), List.append_nil]

omit hK in
theorem map_filter_flatten (es : List (List Str)) :
    (es.map fun e => (e.map (·.filter K)).flatten).flatten = (es.flatten.map (·.filter K)).flatten := by
  induction es with
  | nil => rfl
  | cons e es ih => simp only [List.map_cons, List.flatten_cons, ih, List.map_append, List.flatten_append]

theorem entries_kept (hm : ∀ c, MarkupChar .bullet c → K c = false) (es : List (List Str)) : ∀ ds,
    (∀ e ∈ es, StartsWithMarker e) → dedentEntries es = .ok ds →
    (ds.map fun d => (d.map (·.filter K)).flatten).flatten = (es.flatten.map (·.filter K)).flatten := by
  induction es with
  | nil => intro ds _ h; cases h; rfl
  | cons e es ih =>
    intro ds he h
    obtain ⟨d', ds', h1, h2, rfl⟩ := mapM_cons_ok h
    simp only [List.map_cons, List.flatten_cons, List.map_append, List.flatten_append]
    rw [ih ds' (fun x hx => he x (by simp [hx])) h2, dedentEntry_kept hK hm (he e (by simp)) h1]

theorem fmtBulletEntries_kept {sub : Width → Str → Except Err Str} {w : Width} {marker : Str}
    (hm : ∀ c ∈ marker, K c = false) (ds : List (List Str)) : ∀ ts, fmtBulletEntries sub w marker ds = .ok ts →
    (∀ d ∈ ds, ∀ y, sub (w.sub 2) (pyJoin ['\n'] d ++ ['\n']) = .ok y →
      y.filter K = (pyJoin ['\n'] d ++ ['\n']).filter K) →
    (ts.map (·.filter K)).flatten = (ds.map fun d => (d.map (·.filter K)).flatten).flatten := by
  induction ds with
  | nil => intro ts h _; cases h; rfl
  | cons d ds ih =>
    intro ts h hsub
    simp only [fmtBulletEntries, bind, Except.bind] at h
    split at h
    · cases h
    · rename_i t ht
      split at h
      · cases h
      · rename_i ts' hts
        cases h
        simp only [List.map_cons, List.flatten_cons]
        rw [ih ts' hts (fun x hx => hsub x (by simp [hx])), fmtEntry_kept hK ht hm (hsub d (by simp))]

theorem fmtOrderedEntries_kept {sub : Width → Str → Except Err Str} {w : Width} {indent : Nat}
    (hm : ∀ c, MarkupChar .ordered c → K c = false) (ds : List (List Str)) : ∀ k ts,
    fmtOrderedEntries sub w indent k ds = .ok ts →
    (∀ d ∈ ds, ∀ y, sub (w.sub indent) (pyJoin ['\n'] d ++ ['\n']) = .ok y →
      y.filter K = (pyJoin ['\n'] d ++ ['\n']).filter K) →
    (ts.map (·.filter K)).flatten = (ds.map fun d => (d.map (·.filter K)).flatten).flatten := by
  induction ds with
  | nil => intro k ts h _; cases h; rfl
  | cons d ds ih =>
    intro k ts h hsub
    simp only [fmtOrderedEntries, bind, Except.bind] at h
    split at h
    · cases h
    · rename_i t ht
      split at h
      · cases h
      · rename_i ts' hts
        cases h
        simp only [List.map_cons, List.flatten_cons]
        rw [ih _ ts' hts (fun x hx => hsub x (by simp [hx])), fmtEntry_kept hK ht ?_ (hsub d (by simp))]
        intro c hc
        apply hm
        rcases List.mem_append.1 hc with hc | hc
        · exact .inl ((natStr_spec k).2.1 c hc)
        · simp at hc; exact .inr (.inl hc)

theorem fmtBullet_kept {sub : Width → Str → Except Err Str} {w : Width} {content : List Str} {out : Str}
    (hs : SecShape .bullet content) (hm : ∀ c, MarkupChar .bullet c → K c = false) (h : fmtBullet sub w content = .ok out)
    (hsub : ∀ w' t y, InnerAt w .bullet content w' t → sub w' t = .ok y → y.filter K = t.filter K) :
    out.filter K = (content.map (·.filter K)).flatten := by
  obtain ⟨l, ls, ws, m, r, rfl, hmk, hb, _⟩ := hs.list (.inl rfl)
  obtain ⟨c, hc, rfl⟩ := hb rfl
  obtain ⟨es, h1, _, h2, h3, _⟩ := splitList_spec l ls ws _ _ hmk
  simp only [fmtBullet, h1, bind, Except.bind, hmk.lstrip, List.cons_append, List.nil_append] at h
  split at h
  · cases h
  · rename_i ds hds
    split at h
    · cases h
    · rename_i ts hts
      cases h
      rw [filter_nl hK, fmtBulletEntries_kept hK ?_ ds ts hts ?_, entries_kept hK hm es ds h3 hds, h2]
      · intro x hx
        simp at hx
        subst hx
        apply hm
        rcases hc with rfl | rfl | rfl
        · exact .inr (.inr (.inr (.inl rfl)))
        · exact .inr (.inr (.inr (.inr rfl)))
        · exact .inr (.inr (.inl rfl))
      · intro d hd y hy
        obtain ⟨e, he, hed⟩ := dedentEntries_mem _ _ hds d hd
        exact hsub _ _ _ (.bullet _ es e d h1 he hed) hy

theorem fmtOrdered_kept {sub : Width → Str → Except Err Str} {w : Width} {content : List Str} {out : Str}
    (hs : SecShape .ordered content) (hm : ∀ c, MarkupChar .ordered c → K c = false)
    (h : fmtOrdered sub w content = .ok out)
    (hsub : ∀ w' t y, InnerAt w .ordered content w' t → sub w' t = .ok y → y.filter K = t.filter K) :
    out.filter K = (content.map (·.filter K)).flatten := by
  obtain ⟨l, ls, ws, m, r, rfl, hmk, _, ho⟩ := hs.list (.inr rfl)
  obtain ⟨es, h1, _, h2, h3, _⟩ := splitList_spec l ls ws _ _ hmk
  simp only [fmtOrdered, h1, bind, Except.bind] at h
  split at h
  · cases h
  · rename_i first hf
    split at h
    · cases h
    · rename_i ds hds
      split at h
      · cases h
      · rename_i ts hts
        cases h
        rw [filter_nl hK, fmtOrderedEntries_kept hK hm ds _ ts hts ?_, entries_kept hK hm es ds h3 hds, h2]
        intro d hd y hy
        obtain ⟨e, he, hed⟩ := dedentEntries_mem _ _ hds d hd
        exact hsub _ _ _ (.ordered l ls es e d first h1 he hed hf) hy

theorem fmtAtx_kept (l : Str) : (List.replicate (atxDepth l) '#' ++ [' '] ++ atxContent l).filter K = l.filter K := by
  rw [List.filter_append, List.filter_append, filter_ws hK (s := [' ']) (by decide), List.append_nil]
  unfold atxContent atxDepth
  rw [filter_strip hK, ← List.filter_append, ← (lstripBy_run '#' (strip l)).1, filter_strip hK]

theorem fmtFenced_kept {l close : Str} {body : List Str} {out : Str} (h : fmtFenced (l :: body ++ [close]) = .ok out)
    (hc : strip close = fenceRun l) : out.filter K = ((l :: body ++ [close]).map (·.filter K)).flatten := by
  simp only [fmtFenced, List.cons_append] at h
  split at h
  · cases h
  · rename_i c r hs
    cases h
    have hrun := (lstripBy_run c (c :: r)).1
    generalize hk : (c :: r).length - (lstripBy (· == c) (c :: r)).length = k at hrun
    have hfence : List.replicate k c = fenceRun l := by
      obtain ⟨t, ht, htw⟩ := rstrip_split (lstrip l)
      have ht : lstrip l = (c :: r) ++ t := by rw [← hs]; exact ht
      have hcw : isWs c = false := by
        rcases strip_head l with h0 | ⟨x, y, h0, hx⟩
        · rw [h0] at hs; cases hs
        · rw [h0] at hs; cases hs; exact hx
      unfold fenceRun
      show _ = match lstrip l with | [] => [] | c :: r => (c :: r).takeWhile (· == c)
      rw [ht]
      show _ = (c :: (r ++ t)).takeWhile (· == c)
      have hk2 : k = ((c :: r).takeWhile (· == c)).length := by
        have e := congrArg List.length (List.takeWhile_append_dropWhile (p := (· == c)) (l := c :: r))
        rw [List.length_append] at e
        have : (lstripBy (· == c) (c :: r)) = (c :: r).dropWhile (· == c) := rfl
        rw [this] at hk
        omega
      have htt : t.takeWhile (· == c) = [] := by
        cases t with
        | nil => rfl
        | cons x t =>
          have : (x == c) = false := by
            rw [beq_eq_false_iff_ne]
            rintro rfl
            rw [htw x (by simp)] at hcw; cases hcw
          simp [this]
      rw [show c :: (r ++ t) = (c :: r) ++ t from rfl, List.takeWhile_append]
      have hite : (if ((c :: r).takeWhile (· == c)).length = (c :: r).length then (c :: r) ++ t.takeWhile (· == c)
          else (c :: r).takeWhile (· == c)) = (c :: r).takeWhile (· == c) := by
        split
        · rename_i h0
          rw [htt, List.append_nil]
          exact ((List.takeWhile_prefix _).eq_of_length h0).symm
        · rfl
      rw [hite]
      symm
      rw [hk2, List.eq_replicate_iff]
      exact ⟨rfl, fun b hb => by simpa using takeWhile_all _ _ b hb⟩
    have hin : inner (l :: (body ++ [close])) = body := by simp [inner]
    rw [filter_nl hK, List.map_map, hin]
    simp only [List.map_append, List.map_cons, List.map_nil, List.flatten_append, List.flatten_cons, List.flatten_nil,
      Function.comp, filter_rstrip hK, List.append_nil, List.append_assoc]
    rw [List.filter_append, filter_strip hK, ← List.filter_append, ← hrun, hfence, ← hc, filter_strip hK, ← hs,
      filter_strip hK, List.nil_append, show ((fun x => List.filter K x) ∘ rstrip) = fun x => List.filter K x from
        funext fun x => filter_rstrip hK x]

theorem row_kept (hb : K '|' = false) {line : Str} {cells : List Str} (h : Row line cells) :
    line.filter K = (cells.map (·.filter K)).flatten := by
  obtain ⟨ws, raw, post, rfl, hws, hpost, _, _, rfl⟩ := h
  have hj : ∀ raw : List Str, (pyJoin ['|'] raw).filter K = (raw.map (·.filter K)).flatten := by
    intro raw
    induction raw with
    | nil => rfl
    | cons x raw ih =>
      cases raw with
      | nil => simp [pyJoin]
      | cons y raw =>
        rw [show pyJoin ['|'] (x :: y :: raw) = x ++ ['|'] ++ pyJoin ['|'] (y :: raw) from rfl, List.filter_append,
          List.filter_append, ih]
        simp [hb]
  rw [List.filter_append, filter_ws hK hws, List.filter_cons, hb, List.map_map]
  simp only [List.nil_append, Bool.false_eq_true, if_false]
  rw [List.filter_append, List.filter_cons, hb, filter_ws hK hpost, hj]
  simp only [Bool.false_eq_true, if_false, List.append_nil]
  congr 1
  exact List.map_congr_left fun x _ => (filter_strip hK x).symm

theorem rows_kept (hb : K '|' = false) (ls : List Str) : ∀ cs, Rows ls cs →
    (ls.map (·.filter K)).flatten = (cs.map fun c => (c.map (·.filter K)).flatten).flatten := by
  induction ls with
  | nil => intro cs h; cases cs with | nil => rfl | cons => exact h.elim
  | cons l ls ih =>
    intro cs h
    cases cs with
    | nil => exact h.elim
    | cons c cs => simp only [List.map_cons, List.flatten_cons]; rw [row_kept hK hb h.1, ih cs h.2]

theorem fmtTable_kept (hm : ∀ c, MarkupChar .table c → K c = false) {sub : Width → Str → Except Err Str} {w : Width}
    {i : Nat} {content : List Str} {out : Str} (hs : Sound w .table content) (hlb : ∀ l ∈ content, NoLB l)
    (h : fmtTable i content = .ok out) : out.filter K = (content.map (·.filter K)).flatten := by
  obtain ⟨header, divider, body, hc, dc, bc, rfl, h1, h2, h3, h4, h5, h6, h7⟩ := hs
  obtain ⟨out', ho, header', divider', body', dc', g1, g2, _, g4, _⟩ :=
    C21_cells_kept_partial sub w i header divider body hc dc bc hlb h1 h2 h3 h4 h5 h6 h7
  have : out' = out := by
    have ho : fmtTable i (header :: divider :: body) = .ok out' := ho
    rw [h] at ho; cases ho; rfl
  subst this
  have hb : K '|' = false := hm _ (.inl rfl)
  have hdash : K '-' = false := hm _ (.inr (.inl rfl))
  have hcolon : K ':' = false := hm _ (.inr (.inr rfl))
  have hd0 : divider.filter K = [] := by
    rw [row_kept hK hb h2]
    rw [List.flatten_eq_nil_iff]
    intro x hx
    obtain ⟨c, hc, rfl⟩ := List.mem_map.1 hx
    apply filter_none
    intro a ha
    rcases (h5 c hc).2 a ha with rfl | rfl <;> assumption
  have hd1 : divider'.filter K = [] := by
    have e := (fmtTable_rows hlb h).2
    rw [g1] at e
    have e : divider' = _ := (List.cons.inj (List.cons.inj e).2).1
    rw [e]
    apply filter_none
    intro a ha
    have key : ∀ (xs : List Str), (∀ x ∈ xs, ∀ a ∈ x, a = '-' ∨ a = ':') → ∀ a ∈ tableRow xs, K a = false := by
      intro xs hxs a ha
      simp only [tableRow, List.mem_append, List.mem_singleton] at ha
      rcases ha with (rfl | ha) | rfl
      · exact hb
      · rcases mem_pyJoin ha with ha | ⟨x, hx, ha⟩
        · simp at ha; rw [ha]; exact hb
        · rcases hxs x hx a ha with rfl | rfl <;> assumption
      · exact hb
    refine key _ ?_ a ha
    intro x hx a ha
    obtain ⟨p, _, rfl⟩ := List.mem_map.1 hx
    obtain ⟨n, al⟩ := p
    cases al <;> simp [dividerCell] at ha <;> rcases ha with h | h | h <;> simp [h]
  rw [← filter_splitlines hK out', g1]
  simp only [List.map_cons, List.flatten_cons]
  rw [hd0, hd1, row_kept hK hb g2, row_kept hK hb h1, rows_kept hK hb body' bc g4, rows_kept hK hb body bc h3]

theorem fmtSection_kept {sub : Width → Str → Except Err Str} {w : Width} {i : Nat} {ty : Sec} {content : List Str}
    {out : Str} (hs : SecShape ty content) (hone : ty = .atx ∨ ty = .blank ∨ ty = .thematic → content.length = 1)
    (hhead : ∀ l, content.head? = some l → headPred ty l = true) (hm : ∀ c, MarkupChar ty c → K c = false)
    (hsound : Sound w ty content) (h : fmtSection sub w i ty content = .ok out)
    (hsub : ∀ w' t y, InnerAt w ty content w' t → sub w' t = .ok y → y.filter K = t.filter K) :
    out.filter K = (content.map (·.filter K)).flatten := by
  cases ty with
  | quote => exact fmtQuote_kept hK (hm _ rfl) h hsub
  | bullet => exact fmtBullet_kept hK hs hm h hsub
  | ordered => exact fmtOrdered_kept hK hs hm h hsub
  | table => exact fmtTable_kept hK hm (sub := sub) hsound hs.lines h
  | atx =>
    obtain ⟨l, rfl⟩ := List.length_eq_one_iff.1 (hone (.inl rfl))
    cases h
    rw [fmtAtx_kept hK]; simp
  | blank =>
    obtain ⟨l, rfl⟩ := List.length_eq_one_iff.1 (hone (.inr (.inl rfl)))
    cases h
    have hb : isBlankLine l = true := hhead l rfl
    have : strip l = [] := by simpa [isBlankLine] using hb
    have : l.filter K = [] := by rw [← filter_strip hK, this]; rfl
    simp [this]
  | indented =>
    cases h
    rw [filter_nl hK, List.map_map]
    congr 1
    exact List.map_congr_left fun x _ => filter_rstrip hK x
  | thematic =>
    obtain ⟨l, rfl⟩ := List.length_eq_one_iff.1 (hone (.inr (.inr rfl)))
    obtain ⟨c, hc, hall, ho⟩ := C13_thematic sub w i l (hhead l rfl)
    rw [ho] at h
    cases h
    have hkc : K c = false := by
      apply hm
      rcases hc with rfl | rfl | rfl
      · exact .inr (.inl rfl)
      · exact .inr (.inr rfl)
      · exact .inl rfl
    have e1 : l.filter K = [] := filter_none fun x hx => by
      rcases hall x hx with h1 | rfl
      · exact hK x h1
      · exact hkc
    simp only [List.map_cons, List.map_nil, List.flatten_cons, List.flatten_nil, e1, List.append_nil]
    apply filter_none
    intro x hx
    cases w with
    | fin n => rw [List.eq_of_mem_replicate hx]; exact hkc
    | inf => simp at hx; rw [hx]; exact hkc
  | fenced =>
    obtain ⟨l, body, close, rfl, hc⟩ := hsound
    exact fmtFenced_kept hK h hc
  | par =>
    rcases List.eq_nil_or_concat content with rfl | ⟨body, last, rfl⟩
    · obtain ⟨l, ls, e, _⟩ := hs.first; cases e
    · rw [List.concat_eq_append] at *
      obtain ⟨text, h1, _, h2, h3⟩ := C33_hard_breaks sub w i body last out h
      have e := wrap_tidy h1 hs.lines hsound
      rw [← filter_parContent hK, ← filter_of_nw hK e]
      by_cases hb : ∃ r, last = r ++ c!"  "
      · rw [h2 hb, List.filter_append, filter_ws hK (s := c!"  ") (by decide), List.append_nil]
      · rw [h3 hb]
  | setext =>
    obtain ⟨body, under, rfl, hb, hu⟩ := hs.setext rfl
    obtain ⟨heading, c, m, h1, h2, h3, h4, _⟩ := C16_setext sub w i body under out hu h
    have hsd : TidyLinks (pyJoin [' '] (body.map strip)) := by
      have : TidyLinks (pyJoin [' '] ((body ++ [under]).dropLast.map strip)) := hsound
      rwa [List.dropLast_concat] at this
    have e := wrap_tidy h1 (fun l hl => hs.lines l (by simp [hl])) hsd
    have hkc : K c = false := by
      apply hm
      rcases h2 with rfl | rfl
      · exact .inr rfl
      · exact .inl rfl
    have e1 : under.filter K = [] := filter_none fun x hx => by
      rcases h3 x hx with h1 | rfl
      · exact hK x h1
      · exact hkc
    have e2 : (List.replicate m c).filter K = [] := filter_none fun x hx => by
      rw [List.eq_of_mem_replicate hx]; exact hkc
    rw [← filter_splitlines hK, h4, List.map_append, List.flatten_append, filter_splitlines hK, filter_of_nw hK e,
      filter_parContent hK]
    simp [e1, e2]
  | lrd =>
    obtain ⟨name, link, title, hp, _⟩ := lrd_parts (hs.lrd rfl) hs.lines
    obtain ⟨h1, h2⟩ := hsound name link title hp
    rw [filter_of_nw hK (C31_lrd_kept_partial sub i w content out (hs.lrd rfl) hs.lines h name link title hp h1 h2),
      filter_join hK (by decide)]

omit hK in
theorem fmtAll_kept {sub : Width → Str → Except Err Str} {w : Width} (fs : List Fmt) : ∀ ts,
    fmtAll sub w fs = .ok ts →
    (∀ f ∈ fs, ∀ out, fmtSection sub w f.lineIndex f.ty f.lines = .ok out →
      out.filter K = (f.lines.map (·.filter K)).flatten) →
    (ts.map (·.filter K)).flatten = ((fs.map (·.lines)).flatten.map (·.filter K)).flatten := by
  induction fs with
  | nil => intro ts h _; cases h; rfl
  | cons f fs ih =>
    intro ts h hf
    simp only [fmtAll, bind, Except.bind] at h
    split at h
    · cases h
    · rename_i t ht
      split at h
      · cases h
      · rename_i ts' hts
        cases h
        have ht' : fmtSection sub w f.lineIndex f.ty f.lines = .ok t := by
          cases hs : fmtSection sub w f.lineIndex f.ty f.lines with
          | ok t' => rw [hs] at ht; cases ht; rfl
          | error e => rw [hs] at ht; cases ht
        simp only [List.map_cons, List.flatten_cons, List.map_append, List.flatten_append]
        rw [ih ts' hts (fun g hg => hf g (by simp [hg])), hf f (by simp) t ht']

omit hK in
theorem buildFmts_kept (secs : List (Sec × List Str)) : ∀ i last fs, buildFmts i last secs = .ok fs →
    ((fs.map (·.lines)).flatten.map (·.filter K)).flatten = ((secs.map (·.2)).flatten.map (·.filter K)).flatten := by
  induction secs with
  | nil => intro i last fs h; cases h; rfl
  | cons s secs ih =>
    obtain ⟨ty, content⟩ := s
    intro i last fs h
    simp only [buildFmts, bind, Except.bind] at h
    split at h
    · cases h
    · split at h
      · cases h
      · rename_i fs1 h1
        split at h <;> cases h
        all_goals
          simp only [List.map_cons, List.flatten_cons, List.map_append, List.flatten_append, ih _ _ _ h1]
          first | done | rfl

omit hK in
theorem parse_headPred {n : Nat} {lines : List Str} {secs : List (Sec × List Str)} (h : parse n lines = .ok secs)
    {s : Sec × List Str} (hs : s ∈ secs) :
    (s.1 = .atx ∨ s.1 = .blank ∨ s.1 = .thematic → s.2.length = 1) ∧
    ∀ l, s.2.head? = some l → headPred s.1 l = true := by
  obtain ⟨ty, content⟩ := s
  obtain ⟨pre, post, rfl⟩ := List.append_of_mem hs
  refine ⟨?_, ?_⟩
  · have he := C52_extent h
    rintro (h0 | h0 | h0) <;> simp only at h0 <;> subst h0 <;> exact he
  · intro l hl
    obtain ⟨hf, hne⟩ := parse_at h
    obtain ⟨l', ls, rfl⟩ := List.exists_cons_of_ne_nil hne
    cases hl
    rw [List.cons_append] at hf
    obtain ⟨before, f, after, h1, h2, h3, h4⟩ := firstSection_spec (splitters_keep n) hf
    have hmem : (ty, f) ∈ splitters (splitQuote n) := by rw [h1]; simp
    exact headPred_of_recognises n hmem ⟨_, _, h3, h4⟩

theorem reformatText_kept (n : Nat) : ∀ (w : Width) (text y : Str), reformatText n w text = .ok y → SoundDoc K n w text →
    y.filter K = text.filter K := by
  induction n with
  | zero => intro w text y h; cases h
  | succ n ih =>
    intro w text y h hd
    simp only [reformatText, reformatBody, bind, Except.bind] at h
    split at h
    · cases h
    · rename_i secs hsecs
      split at h
      · cases h
      · rename_i fs hfs
        split at h
        · cases h
        · rename_i parts hparts
          cases h
          rw [List.filter_append, filter_ws hK (s := ['\n']) (by decide), List.append_nil, filter_nl hK,
            fmtAll_kept fs parts hparts, buildFmts_kept _ _ _ _ hfs, (C08_parse_partition n _ _ hsecs).1,
            filter_splitlines hK]
          intro f hf out ho
          rcases buildFmts_index _ _ _ _ hfs f hf with ⟨h1, h2⟩ | ⟨pre, post, h1, _⟩
          · rw [h1, h2] at ho
            rw [h2]
            cases ho
            rfl
          · have hmem : (f.ty, f.lines) ∈ secs := by rw [h1]; simp
            obtain ⟨g1, g2, g3⟩ := hd secs hsecs _ hmem
            obtain ⟨g4, g5⟩ := parse_headPred hsecs hmem
            exact fmtSection_kept hK (parse_shape hsecs (splitlines_noLB text) hmem) g4 g5 g2 g1 ho
              fun w' t y hin hy => ih w' t y hy (g3 w' t hin)

end

/-- C66: take any class `keep` of characters without white space and without the markup characters of the kinds of
sections in the document. If all sections of the document and the documents nested in it are sound, the characters of
this class are the same in the result as in the input, in the same order. -/
theorem C66_kept (keep : Char → Bool) (hws : ∀ c, isWs c = true → keep c = false) (n : Nat) (w : Width) (text y : Str)
    (h : reformatMarkdownText n w text = .ok y) (hs : SoundDoc keep n w text) : y.filter keep = text.filter keep := by
  simp only [reformatMarkdownText, bind, Except.bind] at h
  split at h
  · cases h
  · rename_i t ht
    split at h
    · cases h
    · split at h
      · cases h
      · cases h
        rw [List.filter_append, filter_ws hws (s := ['\n']) (by decide), List.append_nil, filter_rstrip hws]
        exact reformatText_kept hws n w text t ht hs

/-- Neither white space nor a digit nor one of the characters of list markers, quote markers, underlines, thematic breaks
and table borders. -/
def textChar (c : Char) : Bool := !isWs c && !isDigit c && !(c!">=-*+_.|:".contains c)

/-- None of the characters that links, tables and fences need. -/
def PlainChar (c : Char) : Prop := c ≠ '[' ∧ c ≠ '|' ∧ c ≠ '`' ∧ c ≠ '~'

theorem quoteInner_plain {lines : List Str} (h : ∀ l ∈ lines, ∀ c ∈ l, PlainChar c) :
    ∀ l ∈ (quoteInner lines).1, ∀ c ∈ l, PlainChar c := by
  have h0 : ∀ (lines : List Str) (d : Nat), (∀ l ∈ lines, ∀ c ∈ l, PlainChar c) →
      ∀ l ∈ fullyQuote d lines, ∀ c ∈ l, PlainChar c := by
    intro lines
    induction lines with
    | nil => intro d _ l hl; cases hl
    | cons x xs ih =>
      intro d h l hl
      simp only [fullyQuote] at hl
      split at hl
      · rcases List.mem_cons.1 hl with rfl | hl
        · exact h _ (by simp)
        · exact ih _ (fun y hy => h y (by simp [hy])) l hl
      · rcases List.mem_cons.1 hl with rfl | hl
        · intro c hc
          rcases List.mem_append.1 hc with hc | hc
          · rw [List.eq_of_mem_replicate hc]; unfold PlainChar; decide
          · exact h x (by simp) c hc
        · exact ih _ (fun y hy => h y (by simp [hy])) l hl
  have h1 : ∀ l ∈ (fullyQuote 0 lines).map unquote, ∀ c ∈ l, PlainChar c := by
    intro l hl c hc
    obtain ⟨x, hx, rfl⟩ := List.mem_map.1 hl
    exact h0 lines 0 h x hx c (unquote_mem hc)
  intro l hl c hc
  simp only [quoteInner] at hl
  split at hl
  · obtain ⟨x, hx, rfl⟩ := List.mem_map.1 hl
    exact h1 x hx c (dropSpace_mem hc)
  · exact h1 l hl c hc

theorem dedentEntry_plain {e d : List Str} (h : dedentEntry e = .ok d) (hl : ∀ l ∈ e, ∀ c ∈ l, PlainChar c) :
    ∀ l ∈ d, ∀ c ∈ l, PlainChar c := by
  cases e with
  | nil => cases h
  | cons x xs =>
    simp only [dedentEntry, bind, Except.bind] at h
    split at h
    · cases h
    · cases h
      intro l hm c hc
      rcases List.mem_cons.1 hm with rfl | hm
      · exact hl x (by simp) c (List.mem_of_mem_drop hc)
      · obtain ⟨y, hy, rfl⟩ := List.mem_map.1 hm
        rcases List.mem_append.1 hc with hc | hc
        · exact hl y (by simp [hy]) c (List.mem_of_mem_take (mem_of_mem_lstrip hc))
        · exact hl y (by simp [hy]) c (List.mem_of_mem_drop hc)

theorem joined_plain {ls : List Str} (h : ∀ l ∈ ls, ∀ c ∈ l, PlainChar c) :
    ∀ c ∈ pyJoin ['\n'] ls ++ ['\n'], PlainChar c := by
  intro c hc
  rcases List.mem_append.1 hc with hc | hc
  · rcases mem_pyJoin hc with hc | ⟨l, hl, hc⟩
    · simp at hc; rw [hc]; unfold PlainChar; decide
    · exact h l hl c hc
  · simp at hc; rw [hc]; unfold PlainChar; decide

theorem textChar_markup {ty : Sec} {c : Char} (h : MarkupChar ty c) : textChar c = false := by
  unfold MarkupChar at h
  split at h
  · subst h; decide
  all_goals first
    | exact h.elim
    | (rcases h with h | h
       · simp [textChar, h]
       · rcases h with rfl | rfl | rfl | rfl <;> decide)
    | (rcases h with rfl | rfl | rfl <;> decide)
    | (rcases h with rfl | rfl <;> decide)

theorem soundDoc_plain (n : Nat) : ∀ (w : Width) (text : Str), (∀ c ∈ text, PlainChar c) → SoundDoc textChar n w text := by
  induction n with
  | zero => intro w text _; trivial
  | succ n ih =>
    intro w text ht secs hsecs s hs
    have hc : ∀ l ∈ s.2, ∀ c ∈ l, PlainChar c := by
      intro l hl c hc
      refine ht c (splitlines_mem text l ?_ c hc)
      rw [← (C08_parse_partition n _ _ hsecs).1]
      exact List.mem_flatten.2 ⟨s.2, List.mem_map.2 ⟨_, hs, rfl⟩, hl⟩
    have hshape := parse_shape hsecs (splitlines_noLB text) hs
    obtain ⟨_, hhead⟩ := parse_headPred hsecs hs
    obtain ⟨ty, content⟩ := s
    simp only at hc hshape hhead
    have htidy : ∀ ls : List Str, (∀ l ∈ ls, l ∈ content) → TidyLinks (pyJoin [' '] (ls.map strip)) := by
      intro ls hls
      left
      intro hm
      rcases mem_pyJoin hm with hm | ⟨x, hx, hm⟩
      · revert hm; decide
      · obtain ⟨l, hl, rfl⟩ := List.mem_map.1 hx
        exact (hc l (hls l hl) _ (mem_of_mem_strip hm)).1 rfl
    obtain ⟨l, ls, rfl, _⟩ := hshape.first
    have hl := hhead l rfl
    have hstart : ∀ (s p : Str) (a : Char), startsWith s (a :: p) = true → a ∈ s := by
      intro s p a h
      obtain ⟨r, hr⟩ := (startsWith_iff _ _).1 h
      rw [hr]; simp
    refine ⟨?_, fun c => textChar_markup, ?_⟩
    · cases ty with
      | par => exact htidy _ fun _ h => h
      | setext => exact htidy _ fun _ h => List.dropLast_subset _ h
      | fenced =>
        exfalso
        have hl : isFenceStart l = true := hl
        simp only [isFenceStart, List.any_cons, List.any_nil, Bool.or_false, Bool.or_eq_true] at hl
        rcases hl with hl | hl
        · exact (hc l (by simp) _ (mem_of_mem_strip (hstart _ _ _ hl))).2.2.1 rfl
        · exact (hc l (by simp) _ (mem_of_mem_strip (hstart _ _ _ hl))).2.2.2 rfl
      | table =>
        exfalso
        have hl : isTableStart l = true := hl
        exact (hc l (by simp) _ (mem_of_mem_lstrip (hstart _ _ _ hl))).2.1 rfl
      | lrd =>
        exfalso
        obtain ⟨l0, more, ws, name, r, e, h1, _⟩ := hshape.lrd rfl
        cases e
        exact (hc l (by simp) '[' (by rw [h1]; simp)).1 rfl
      | _ => trivial
    · intro w' text' hin
      apply ih
      cases hin with
      | quote => exact joined_plain (quoteInner_plain hc)
      | bullet _ es e d hes he hd =>
        apply joined_plain
        refine dedentEntry_plain hd fun x hx => hc x ?_
        obtain ⟨l', ls', ws, m, r, e1, hmk, _⟩ := hshape.list (.inl rfl)
        cases e1
        obtain ⟨es', h1, _, h2, _⟩ := splitList_spec l ls ws _ _ hmk
        rw [hes] at h1; cases h1
        rw [← h2]; exact List.mem_flatten.2 ⟨e, he, hx⟩
      | ordered _ _ es e d first hes he hd hf =>
        apply joined_plain
        refine dedentEntry_plain hd fun x hx => hc x ?_
        obtain ⟨l', ls', ws, m, r, e1, hmk, _⟩ := hshape.list (.inr rfl)
        cases e1
        obtain ⟨es', h1, _, h2, _⟩ := splitList_spec l ls ws _ _ hmk
        rw [hes] at h1; cases h1
        rw [← h2]; exact List.mem_flatten.2 ⟨e, he, hx⟩

/-- C66 without further conditions for texts that have none of the characters `[`, `|`, backtick and `~`: everything but
white space, digits and markup characters is the same in the result as in the input, in the same order. -/
theorem C66_plain (n : Nat) (w : Width) (text y : Str) (h : reformatMarkdownText n w text = .ok y)
    (ht : ∀ c ∈ text, PlainChar c) : y.filter textChar = text.filter textChar :=
  C66_kept textChar (fun c hc => by simp [textChar, hc]) n w text y h (soundDoc_plain n w text ht)

/-- A document with a heading, a list in a quote, a renumbered list and a thematic break: all characters of the class are
kept, while markers, numbers and white space change. -/
theorem C66_plain_example :
    reformatMarkdownText 9 (.fin 12) c!"#Some title\n\n>* a long item\n>* b\n\n7. one\n7. two\n\n***\n" =
      .ok c!"# Some title\n\n>* a long\n>  item\n>* b\n\n7. one\n8. two\n\n************\n" ∧
    (∀ c ∈ c!"#Some title\n\n>* a long item\n>* b\n\n7. one\n7. two\n\n***\n", PlainChar c) ∧
    c!"#Some title\n\n>* a long item\n>* b\n\n7. one\n7. two\n\n***\n".filter textChar = c!"#Sometitlealongitembonetwo" := by
  refine ⟨by decide +kernel, ?_, by decide +kernel⟩
  unfold PlainChar; decide +kernel

/-- A document with links, a fence and a quote: here even digits, full stops and list characters are kept, as the
document has no lists. -/
theorem C66_example :
    SoundDoc (fun c => !isWs c && c != '>') 5 (.fin 10) c!"v. 1.2  of [a b](c)\nand - [d][e]\n~~~\n 1|x\n~~~\n> a_b" ∧
    reformatMarkdownText 5 (.fin 10) c!"v. 1.2  of [a b](c)\nand - [d][e]\n~~~\n 1|x\n~~~\n> a_b" =
      .ok c!"v. 1.2 of\n[a b](c)\nand - [d][\ne]\n~~~\n 1|x\n~~~\n> a_b\n" := by
  refine ⟨?_, by decide +kernel⟩
  intro secs h
  rw [show parse 4 (splitlines c!"v. 1.2  of [a b](c)\nand - [d][e]\n~~~\n 1|x\n~~~\n> a_b") =
    .ok [(.par, [c!"v. 1.2  of [a b](c)", c!"and - [d][e]"]), (.fenced, [c!"~~~", c!" 1|x", c!"~~~"]),
      (.quote, [c!"> a_b"])] by decide +kernel] at h
  cases h
  intro s hs
  simp only [List.mem_cons, List.not_mem_nil, or_false] at hs
  rcases hs with rfl | rfl | rfl
  · refine ⟨.inr (linksApart_of_check (by decide +kernel)), fun c hc => hc.elim, fun w' t h => ?_⟩
    generalize [c!"v. 1.2  of [a b](c)", c!"and - [d][e]"] = ls at h
    cases h
  · refine ⟨⟨_, [_], _, rfl, by decide +kernel⟩, fun c hc => hc.elim, fun w' t h => ?_⟩
    cases h
  · refine ⟨trivial, fun c hc => ?_, fun w' t h => ?_⟩
    · have hc : c = '>' := hc
      subst hc; decide
    · cases h with
      | quote _ _ k hk =>
        rw [show pyJoin ['\n'] (quoteInner [c!"> a_b"]).1 ++ ['\n'] = c!"a_b\n" by decide +kernel]
        intro secs h
        rw [show parse 3 (splitlines c!"a_b\n") = .ok [(.par, [c!"a_b"])] by decide +kernel] at h
        cases h
        intro s hs
        simp only [List.mem_cons, List.not_mem_nil, or_false] at hs
        subst hs
        refine ⟨.inl (by decide +kernel), fun c hc => hc.elim, fun w' t h => ?_⟩
        cases h

end MF
