import Verif.Props.LineEnds
import Verif.Props.Effort
/-!
# C126: whole documents

The parts that are formatted, and the theorem.
-/

namespace MF

/-! ## Tables -/

theorem consHead_last {c : Char} {X Y : List Str} (hl : X.length = Y.length) (hd : X.dropLast = Y.dropLast) :
    (consHead c X).length = (consHead c Y).length ∧ (consHead c X).dropLast = (consHead c Y).dropLast := by
  cases X with
  | nil =>
    cases Y with
    | nil => exact ⟨rfl, rfl⟩
    | cons y Y => cases hl
  | cons x X =>
    cases Y with
    | nil => cases hl
    | cons y Y =>
      refine ⟨hl, ?_⟩
      cases X with
      | nil =>
        cases Y with
        | nil => rfl
        | cons z Y => cases hl
      | cons u X =>
        cases Y with
        | nil => cases hl
        | cons v Y =>
          simp only [List.dropLast_cons_cons, List.cons.injEq] at hd
          simp only [consHead, List.dropLast_cons_cons, hd.1, hd.2]

theorem splitBars_one : ∀ (s : Str) (p : Option Char), '|' ∉ s → splitBars p s = [s]
  | [], _, _ => rfl
  | c :: s, p, h => by
    have hc : c ≠ '|' := fun e => h (by rw [e]; simp)
    rw [splitBars, if_neg (by simp [hc]), splitBars_one s _ fun hm => h (List.mem_cons_of_mem _ hm)]
    rfl

theorem splitBars_ws {s : Str} (hs : '|' ∉ s) : ∀ (u : Str) (p : Option Char),
    (splitBars p (u ++ s)).length = (splitBars p u).length ∧ (splitBars p (u ++ s)).dropLast = (splitBars p u).dropLast
  | [], p => by rw [List.nil_append, splitBars_one s p hs]; exact ⟨rfl, rfl⟩
  | c :: u, p => by
    have ih := splitBars_ws hs u (some c)
    rw [List.cons_append, splitBars, splitBars]
    split
    · refine ⟨by rw [List.length_cons, List.length_cons, ih.1], ?_⟩
      rw [List.dropLast_cons_of_ne_nil (splitBars_ne_nil _ _), List.dropLast_cons_of_ne_nil (splitBars_ne_nil _ _), ih.2]
    · exact consHead_last ih.1 ih.2

theorem splitChar_one : ∀ (s : Str), '|' ∉ s → splitChar '|' s = [s]
  | [], _ => rfl
  | c :: s, h => by
    have hc : c ≠ '|' := fun e => h (by rw [e]; simp)
    rw [splitChar, if_neg (by simp [hc]), splitChar_one s fun hm => h (List.mem_cons_of_mem _ hm)]
    rfl

theorem splitChar_some : ∀ (s : Str), splitChar '|' s ≠ []
  | [] => by simp [splitChar]
  | c :: s => by
    rw [splitChar]
    split
    · simp
    · cases splitChar '|' s <;> simp [consHead]

theorem splitChar_ws {s : Str} (hs : '|' ∉ s) : ∀ (u : Str),
    (splitChar '|' (u ++ s)).length = (splitChar '|' u).length ∧ (splitChar '|' (u ++ s)).dropLast = (splitChar '|' u).dropLast
  | [] => by rw [List.nil_append, splitChar_one s hs]; exact ⟨rfl, rfl⟩
  | c :: u => by
    have ih := splitChar_ws hs u
    rw [List.cons_append, splitChar, splitChar]
    split
    · refine ⟨by rw [List.length_cons, List.length_cons, ih.1], ?_⟩
      rw [List.dropLast_cons_of_ne_nil (splitChar_some _), List.dropLast_cons_of_ne_nil (splitChar_some _), ih.2]
    · exact consHead_last ih.1 ih.2

theorem between_eq {α : Type} (xs : List α) : between xs = xs.dropLast.drop 1 := by
  rw [between, List.dropLast_eq_take, List.dropLast_eq_take, List.drop_take, List.length_drop]

theorem noBar {s : Str} (h : ∀ c ∈ s, isWs c = true) : '|' ∉ s := fun hm => by
  have := h _ hm
  revert this; decide

theorem bars_same {l l' : Str} (h : SameText l l') : between (splitBars none l) = between (splitBars none l') := by
  obtain ⟨u, s, s', rfl, rfl, hs, hs'⟩ := SameEnd.cut h.text
  rw [between_eq, between_eq, (splitBars_ws (noBar hs) u none).2, (splitBars_ws (noBar hs') u none).2]

theorem cells_same {l l' : Str} (h : SameText l l') : between (splitChar '|' l) = between (splitChar '|' l') := by
  obtain ⟨u, s, s', rfl, rfl, hs, hs'⟩ := SameEnd.cut h.text
  rw [between_eq, between_eq, (splitChar_ws (noBar hs) u).2, (splitChar_ws (noBar hs') u).2]

theorem each_getD {a b : List Str} (h : Each SameText a b) : ∀ i, SameText (a.getD i []) (b.getD i []) := by
  induction h with
  | nil => intro i; exact .refl _
  | cons hx _ ih =>
    intro i
    cases i with
    | zero => exact hx
    | succ i => simpa using ih i

theorem tableRef_same (i : Nat) {a b : List Str} (h : Each SameText a b) : tableRef i a = tableRef i b := by
  cases h with
  | nil => rfl
  | cons hx h =>
    cases h with
    | nil => rfl
    | cons hy h =>
      rename_i x y rule rule' rows rows'
      have h1 : ∀ j, between (splitBars none (rows.getD j [])) = between (splitBars none (rows'.getD j [])) := fun j =>
        bars_same (each_getD h j)
      have h2 : ∀ j, ((x :: rows).map fun l => (((between (splitBars none l)).map strip).getD j []).length) =
          (y :: rows').map fun l => (((between (splitBars none l)).map strip).getD j []).length := fun j =>
        each_map_eq (f := fun l => (((between (splitBars none l)).map strip).getD j []).length)
          (fun u v huv => by simp only [bars_same huv]) (.cons hx h)
      simp only [tableRef, h1, h2, bars_same hx, hy.strip, each_length h]
      congr 1
      funext _
      congr 4
      exact each_map_eq (fun u v huv => by simp only [cells_same huv]) h

/-! ## Definitions -/

theorem isIn_ws {p u s : Str} (hp : p ≠ []) (hw : ∀ c ∈ p, isWs c = false) (hs : ∀ c ∈ s, isWs c = true) :
    isIn p (u ++ s) = isIn p u := by
  rw [Bool.eq_iff_iff, isIn_iff, isIn_iff]
  constructor
  · rintro ⟨a, b, e⟩
    rw [← List.append_assoc] at e
    rcases List.append_eq_append_iff.1 e with ⟨c, h1, h2⟩ | ⟨c, h1, h2⟩
    · obtain ⟨q, x, rfl⟩ : ∃ q x, p = q ++ [x] := ⟨p.dropLast, p.getLast hp, (List.dropLast_concat_getLast hp).symm⟩
      cases hc : c.reverse with
      | nil =>
        rw [List.reverse_eq_nil_iff] at hc
        subst hc
        exact ⟨a, [], by rw [List.append_nil] at h1 ⊢; exact h1.symm⟩
      | cons y ys =>
        exfalso
        have hc' : c = ys.reverse ++ [y] := by rw [← List.reverse_reverse c, hc, List.reverse_cons]
        rw [hc', ← List.append_assoc, ← List.append_assoc] at h1
        have hxy : x = y := by simpa using (List.append_inj_right' h1 rfl)
        have h3 := hs y (by rw [h2, hc']; simp)
        rw [← hxy, hw x (by simp)] at h3
        cases h3
    · exact ⟨a, c, by rw [h1, List.append_assoc]⟩
  · rintro ⟨a, b, e⟩
    exact ⟨a, b ++ s, by rw [e]; simp⟩

theorem isIn_same {p l l' : Str} (hp : p ≠ []) (hw : ∀ c ∈ p, isWs c = false) (h : SameText l l') : isIn p l = isIn p l' := by
  obtain ⟨u, s, s', rfl, rfl, hs, hs'⟩ := SameEnd.cut h.text
  rw [isIn_ws hp hw hs, isIn_ws hp hw hs']

/-- The first word of a text and the further ones. -/
theorem words_of (v : Str) : (lstrip v).takeWhile (fun c => !isWs c) = (splitWs v).headD [] ∧
    splitWs ((lstrip v).drop ((lstrip v).takeWhile (fun c => !isWs c)).length) = (splitWs v).tail := by
  rw [← list_splitWs_lstrip v]
  rcases lstrip_head v with h | ⟨c, r, h, hc⟩
  · rw [h]; exact ⟨rfl, rfl⟩
  · have hd : (c :: r).drop ((c :: r).takeWhile (fun c => !isWs c)).length = (c :: r).dropWhile (fun c => !isWs c) := by
      conv => lhs; rw [← List.takeWhile_append_dropWhile (p := fun c => !isWs c) (l := c :: r)]
      exact List.drop_left' (by rw [List.takeWhile_append_dropWhile])
    rw [h, hd, splitWs_first r hc, List.takeWhile_cons, if_pos (by simp [hc]), List.dropWhile_cons, if_pos (by simp [hc])]
    exact ⟨rfl, rfl⟩

/-- A definition by its name, its words, and its first two lines. -/
def definitionWords (w : Width) (name : Str) (all : List Str) (first second : Str) : Except Err Str :=
  let link := all.headD []
  let words := all.tail
  let label := '[' :: (name ++ c!"]:")
  let here := isIn link first
  let line := if here then first else second
  let before := if here then [] else label ++ ['\n']
  let last := if here then label ++ ' ' :: link else link
  if link = [] then .ok label
  else
    match words with
    | [] => .ok (before ++ last)
    | word :: _ =>
      if isIn word line then
        if w.ge (word.length + last.length) then do
          let t ← wrapRef (last ++ ' ' :: pyJoin [' '] words) w
          .ok (before ++ t)
        else do
          let t ← wrapRef (pyJoin [' '] words) w
          .ok ('\n' :: t)
      else do
        let t ← wrapRef (pyJoin [' '] words) w
        .ok (before ++ last ++ '\n' :: t)

theorem definitionRef_words (w : Width) {l0 ws name r : Str} {more : List Str} (e : l0 = ws ++ '[' :: (name ++ ']' :: ':' :: r))
    (hws : ∀ c ∈ ws, isWs c = true) (hn : ']' ∉ name) :
    definitionRef w (l0 :: more) = definitionWords w name (splitWs r ++ (more.map splitWs).flatten) l0 (more.headD []) := by
  have hb : ∃ b, pyJoin [' '] (l0 :: more) = l0 ++ b ∧ splitWs (r ++ b) = splitWs r ++ (more.map splitWs).flatten := by
    cases more with
    | nil => exact ⟨[], by simp [pyJoin], by simp⟩
    | cons x xs =>
      refine ⟨' ' :: pyJoin [' '] (x :: xs), by simp [pyJoin], ?_⟩
      rw [splitWs_append_ws _ _ _ (by decide), splitWs_pyJoin]
  obtain ⟨b, hb, hw⟩ := hb
  have ht : (pyJoin [' '] (l0 :: more)).dropWhile isWs = '[' :: (name ++ (']' :: ':' :: (r ++ b))) := by
    show lstrip _ = _
    rw [hb, e, List.append_assoc, lstrip_append_ws _ _ hws]
    simp only [List.cons_append, List.append_assoc]
    exact lstrip_cons_of_not _ _ (by decide)
  have h1 : (('[' :: (name ++ (']' :: ':' :: (r ++ b)))).drop 1).takeWhile (· != ']') = name := by
    show (name ++ (']' :: ':' :: (r ++ b))).takeWhile (· != ']') = name
    refine takeWhile_append_stop _ _ _ _ (fun x hx => ?_) (by decide)
    simp only [bne_iff_ne, ne_eq]
    rintro rfl; exact hn hx
  have h2 : ('[' :: (name ++ (']' :: ':' :: (r ++ b)))).drop (name.length + 3) = r ++ b := by
    have : '[' :: (name ++ ']' :: ':' :: (r ++ b)) = ('[' :: (name ++ [']', ':'])) ++ (r ++ b) := by simp
    rw [this, List.drop_left' (by simp)]
  obtain ⟨h3, h4⟩ := words_of (r ++ b)
  simp only [lstrip] at h3 h4
  rw [hw] at h3 h4
  simp only [definitionRef, ht, h1, h2, h4, definitionWords]
  simp only [h3]
  rfl

theorem SameText.words {l l' : Str} (h : SameText l l') : splitWs l = splitWs l' := by
  rw [← splitWs_strip l, h.strip, splitWs_strip]

theorem definitionWords_same (w : Width) (name : Str) {all : List Str} {x x' y y' : Str}
    (ha : ∀ v ∈ all, v ≠ [] ∧ ∀ c ∈ v, isWs c = false) (hx : SameText x x') (hy : SameText y y') :
    definitionWords w name all x y = definitionWords w name all x' y' := by
  cases all with
  | nil => rfl
  | cons link words =>
    obtain ⟨hne, hw⟩ := ha link List.mem_cons_self
    have h1 := isIn_same hne hw hx
    simp only [definitionWords, List.headD_cons, List.tail_cons, h1]
    congr 1
    cases words with
    | nil => rfl
    | cons v vs =>
      obtain ⟨hne', hw'⟩ := ha v (by simp)
      have h2 : isIn v (if isIn link x' = true then x else y) = isIn v (if isIn link x' = true then x' else y') := by
        split
        · exact isIn_same hne' hw' hx
        · exact isIn_same hne' hw' hy
      simp only [h2]
      congr

theorem definitionRef_same (w : Width) {a b : List Str} (h : Each SameText a b) (hl : StartsLabel a) :
    definitionRef w a = definitionRef w b := by
  obtain ⟨l0, more, ws, name, r, rfl, e, hws, _, _, hn⟩ := hl
  cases h with
  | cons hx hs =>
    rename_i l0' more'
    have e1 : l0 = (ws ++ '[' :: (name ++ [']'])) ++ [':'] ++ r := by rw [e]; simp
    have e2 : rstrip l0 = (ws ++ '[' :: (name ++ [']'])) ++ [':'] ++ rstrip r := by
      rw [e1]
      by_cases hr : rstrip r = []
      · rw [hr, rstrip_append_ws _ _ ((rstrip_eq_nil r).1 hr), rstrip_concat_of_not _ _ (by decide), List.append_nil]
      · exact rstrip_append_of_ne _ _ hr
    obtain ⟨s, e3, hs3⟩ := rstrip_split l0'
    rw [← hx.text, e2] at e3
    have e4 : l0' = ws ++ '[' :: (name ++ ']' :: ':' :: (rstrip r ++ s)) := by rw [e3]; simp
    have e5 : splitWs (rstrip r ++ s) = splitWs r := by
      rw [splitWs_append_all hs3, ← splitWs_strip (rstrip r), strip_rstrip, splitWs_strip]
    rw [definitionRef_words w e hws hn, definitionRef_words w e4 hws hn, e5,
      each_map_eq (f := splitWs) (fun x y hxy => hxy.words) hs]
    refine definitionWords_same w name (fun v hv => ?_) hx (each_head hs)
    rcases List.mem_append.1 hv with hv | hv
    · exact ⟨(splitWs_word hv).1, (splitWs_word hv).2.1⟩
    · obtain ⟨q, hq, hv⟩ := List.mem_flatten.1 hv
      obtain ⟨q', _, rfl⟩ := List.mem_map.1 hq
      exact ⟨(splitWs_word hv).1, (splitWs_word hv).2.1⟩

/-! ## Lists -/

theorem markLen_full {l : Str} (h : (markLen l).isSome = true) : emptyLine l = false := by
  cases he : emptyLine l with
  | false => rfl
  | true =>
    have hx : ∀ c ∈ l, isWs c = true := by simpa [emptyLine] using he
    have : l.drop (margin l) = [] := by
      refine List.drop_eq_nil_iff.2 ?_
      rw [margin_eq, getIndent, (lstrip_eq_nil l).2 hx]
      simp
    simp only [markLen, this] at h
    cases h

theorem fenceAfter_same (f : Option Str) {l l' : Str} (h : SameText l l') : fenceAfter f l = fenceAfter f l' := by
  cases he : emptyLine l with
  | false => simp only [fenceAfter, h.run, h.mark, h.margin he]
  | true =>
    have e : ∀ x : Str, emptyLine x = true → fenceAfter f x = f := fun x hx => by
      have : fenceRun x = [] := by
        simp only [fenceRun, (dropWhile_eq_nil isWs x).2 (by simpa [emptyLine] using hx)]
      rw [fenceAfter, this, if_neg (by simp)]
    rw [e l he, e l' (h.empty ▸ he)]

theorem entriesRef_same {a b : List Str} (h : Each SameText a b) : ∀ (f : Option Str) (k : Nat),
    Each SameText (entriesRef f k a).1 (entriesRef f k b).1 ∧
      Each (Each SameText) (entriesRef f k a).2 (entriesRef f k b).2 := by
  induction h with
  | nil => intro f k; exact ⟨.nil, .nil⟩
  | cons hx hs ih =>
    rename_i x y xs ys
    intro f k
    simp only [entriesRef, fenceAfter_same f hx]
    cases hm : markLen x with
    | none =>
      rw [hx.marker] at hm
      rw [hm]
      exact ⟨.cons hx (ih _ _).1, (ih _ _).2⟩
    | some n =>
      have hf := markLen_full (l := x) (by rw [hm]; rfl)
      rw [hx.marker] at hm
      rw [hm]
      simp only [hx.margin hf]
      split
      · exact ⟨.nil, .cons (.cons hx (ih _ _).1) (ih _ _).2⟩
      · exact ⟨.cons hx (ih _ _).1, (ih _ _).2⟩

/-- Behind the white space at the beginning, or a part of it. -/
theorem SameText.dedent {l l' : Str} (h : SameText l l') (n : Nat) :
    SameText (l.drop (min n (MF.margin l))) (l'.drop (min n (MF.margin l'))) := by
  cases he : emptyLine l with
  | true =>
    have e : ∀ (x : Str) (k : Nat), emptyLine x = true → emptyLine (x.drop k) = true := fun x k hx => by
      rw [emptyLine, List.all_eq_true] at hx ⊢
      exact fun c hc => hx c (List.mem_of_mem_drop hc)
    exact .blank (e _ _ he) (e _ _ (h.empty ▸ he))
  | false =>
    obtain ⟨a, t, s, s', hm, hm'⟩ := h.cut he
    rw [hm.margin, hm'.margin]
    have hk : min n a.length ≤ a.length := Nat.min_le_right _ _
    generalize min n a.length = k at hk
    have hp : ∀ c ∈ wordEnd (a.take k), c = '>' := by
      rw [wordEnd_ws fun c hc => hm.before c (List.mem_of_mem_take (List.mem_of_getLast? hc))]
      simp
    have e : ∀ s : Str, a ++ (t ++ s) = a.take k ++ (a.drop k ++ (t ++ s)) := fun s => by
      rw [← List.append_assoc (a.take k), List.take_append_drop]
    have e2 : ∀ s : Str, (a ++ (t ++ s)).drop k = a.drop k ++ (t ++ s) := fun s => List.drop_append_of_le_length hk
    rw [hm.eq, hm'.eq, e2, e2]
    refine SameText.rest (p := a.take k) ?_ hp
    rw [← e, ← e, ← hm.eq, ← hm'.eq]
    exact h

/-- Behind the marker. -/
theorem SameText.content {l l' : Str} (h : SameText l l') {n : Nat} (hn : markLen l = some n) :
    SameText (l.drop (n + 1)) (l'.drop (n + 1)) := by
  cases hb : bareEnd l with
  | true => rw [← h.bare hb]; exact .refl _
  | false =>
    obtain ⟨a, t, s, s', hm, hm'⟩ := h.cut (markLen_full (by rw [hn]; rfl))
    rw [hm.marker hb] at hn
    split at hn
    · rename_i hc
      cases hn
      obtain ⟨c, r, e⟩ := hm.behind hb hc.1
      rw [e] at hc
      have hsp : c = ' ' := hc.2
      subst hsp
      have e1 : t = t.take (markerLen t) ++ ' ' :: r := by rw [← e, List.take_append_drop]
      have hl : (t.take (markerLen t)).length = markerLen t := by
        rw [List.length_take]; have := markerLen_le t; omega
      generalize t.take (markerLen t) = m at e1 hl
      rw [← hl]
      have e2 : ∀ s : Str, a ++ (t ++ s) = (a ++ m ++ [' ']) ++ (r ++ s) := fun s => by rw [e1]; simp
      have e3 : ∀ s : Str, (a ++ (t ++ s)).drop (a.length + m.length + 1) = r ++ s := fun s => by
        rw [e2, List.drop_left' (by simp [Nat.add_assoc])]
      rw [hm.eq, hm'.eq, e3, e3]
      refine SameText.rest (p := a ++ m ++ [' ']) ?_ ?_
      · rw [← e2, ← e2, ← hm.eq, ← hm'.eq]; exact h
      · rw [wordEnd_ws fun c hc => ?_]
        · simp
        · rw [List.getLast?_append] at hc
          simp at hc
          rw [← hc]; decide
    · cases hn

theorem contentsRef_same {l : Str} {a b : List Str} (h : Each SameText (l :: a) b) (hm : (markLen l).isSome = true) :
    Each SameText (contentsRef (l :: a)) (contentsRef b) := by
  cases h with
  | cons hx hs =>
    obtain ⟨n, hn⟩ := Option.isSome_iff_exists.1 hm
    simp only [contentsRef, ← hx.marker, hn, Option.getD_some]
    exact .cons (hx.content hn) (each_map (fun x y hxy => hxy.dedent _) hs)

theorem entriesIn_same {l : Str} {a b : List Str} (h : Each SameText (l :: a) b) (hm : (markLen l).isSome = true) :
    Each (Each SameText) (entriesIn (l :: a)) (entriesIn b) := by
  cases h with
  | cons hx hs =>
    simp only [entriesIn, ← hx.marker]
    have hh := entriesRef_heads a none ((markLen l).getD 0)
    obtain ⟨h1, h2⟩ := entriesRef_same hs none ((markLen l).getD 0)
    generalize entriesRef none ((markLen l).getD 0) a = A at hh h1 h2
    generalize entriesRef none ((markLen l).getD 0) _ = B at h1 h2
    refine .cons (contentsRef_same (.cons hx h1) hm) ?_
    generalize A.2 = X at hh h2
    generalize B.2 = Y at h2
    induction h2 with
    | nil => exact .nil
    | cons hy hys ih =>
      obtain ⟨q, qs, rfl, hq⟩ := hh _ List.mem_cons_self
      exact .cons (contentsRef_same hy hq) (ih fun e he => hh e (List.mem_cons_of_mem _ he))

theorem allRef_same {α : Type} {f : α → Except Err Str} {xs ys : List α} (h : Each (fun x y => f x = f y) xs ys) :
    allRef f xs = allRef f ys := by
  induction h with
  | nil => rfl
  | cons hx _ ih => simp only [allRef, hx, ih]

theorem each_zipIdx {α β : Type} {R : α → β → Prop} {xs : List α} {ys : List β} (h : Each R xs ys) : ∀ k,
    Each (fun p q => R p.1 q.1 ∧ p.2 = q.2) (xs.zipIdx k) (ys.zipIdx k) := by
  induction h with
  | nil => intro k; exact .nil
  | cons hx _ ih => intro k; exact .cons ⟨hx, rfl⟩ (ih (k + 1))

section
variable {sub : Width → Str → Except Err Str}
  (hsub : ∀ (w : Width) {a b : List Str}, Each SameText a b → a ≠ [] → (∀ l ∈ a, NoLB l) → (∀ l ∈ b, NoLB l) →
    sub w (unlines a) = sub w (unlines b))
include hsub

theorem entryRef_same (w : Width) (k : Nat) (m : Str) {a b : List Str} (h : Each SameText a b) (ha : a ≠ [])
    (h1 : ∀ l ∈ a, NoLB l) (h2 : ∀ l ∈ b, NoLB l) : entryRef sub w k m a = entryRef sub w k m b := by
  simp only [entryRef, hsub _ h ha h1 h2]

omit hsub in
theorem entries_noBreaks {lines : List Str} (h : ∀ l ∈ lines, NoLB l) : ∀ e ∈ entriesIn lines, ∀ l ∈ e, NoLB l := by
  intro e he l hl c hc
  obtain ⟨y, hy, hcy⟩ := entriesIn_mem he hl hc
  exact h y hy c hcy

omit hsub in
theorem each_both {α β : Type} {R : α → β → Prop} {P : α → Prop} {Q : β → Prop} {xs : List α} {ys : List β} (h : Each R xs ys) :
    (∀ x ∈ xs, P x) → (∀ y ∈ ys, Q y) → Each (fun x y => R x y ∧ P x ∧ Q y) xs ys := by
  induction h with
  | nil => intro _ _; exact .nil
  | cons hx _ ih =>
    intro hp hq
    exact .cons ⟨hx, hp _ List.mem_cons_self, hq _ List.mem_cons_self⟩
      (ih (fun x h => hp x (List.mem_cons_of_mem _ h)) fun y h => hq y (List.mem_cons_of_mem _ h))

omit hsub in
theorem entries_both {l : Str} {a b : List Str} (h : Each SameText (l :: a) b) (hm : (markLen l).isSome = true)
    (h1 : ∀ x ∈ l :: a, NoLB x) (h2 : ∀ x ∈ b, NoLB x) :
    Each (fun e e' => Each SameText e e' ∧ (e ≠ [] ∧ ∀ x ∈ e, NoLB x) ∧ ∀ x ∈ e', NoLB x) (entriesIn (l :: a)) (entriesIn b) :=
  each_both (entriesIn_same h hm) (fun e he => ⟨entriesIn_ne he, entries_noBreaks h1 e he⟩) (entries_noBreaks h2)

theorem bulletRef_same (w : Width) {l : Str} {a b : List Str} (h : Each SameText (l :: a) b) (hm : (markLen l).isSome = true)
    (h1 : ∀ x ∈ l :: a, NoLB x) (h2 : ∀ x ∈ b, NoLB x) : bulletRef sub w (l :: a) = bulletRef sub w b := by
  simp only [bulletRef, (each_head h).mark]
  rw [allRef_same (each_imp (entries_both h hm h1 h2) fun x y _ hxy => ?_)]
  exact entryRef_same hsub w _ _ hxy.1 hxy.2.1.1 hxy.2.1.2 hxy.2.2

omit hsub in
theorem SameText.digits {l l' : Str} (h : SameText l l') :
    (l.dropWhile isWs).takeWhile isDigit = (l'.dropWhile isWs).takeWhile isDigit := by
  cases he : emptyLine l with
  | false =>
    obtain ⟨a, t, s, s', hm, hm'⟩ := h.cut he
    rw [hm.lstrip, hm'.lstrip, takeWhile_digits_ws hm.after, takeWhile_digits_ws hm'.after]
  | true =>
    have e : ∀ x : Str, emptyLine x = true → x.dropWhile isWs = [] := fun x hx =>
      (dropWhile_eq_nil _ _).2 (by simpa [emptyLine] using hx)
    rw [e l he, e l' (h.empty ▸ he)]

theorem numberedRef_same (w : Width) {l : Str} {a b : List Str} (h : Each SameText (l :: a) b) (hm : (markLen l).isSome = true)
    (h1 : ∀ x ∈ l :: a, NoLB x) (h2 : ∀ x ∈ b, NoLB x) : numberedRef sub w (l :: a) = numberedRef sub w b := by
  have hb := entries_both h hm h1 h2
  simp only [numberedRef, (each_head h).digits, each_length hb]
  rw [allRef_same (each_imp (each_zipIdx hb 0) fun x y _ hxy => ?_)]
  simp only [hxy.2]
  exact entryRef_same hsub w _ _ hxy.1.1 hxy.1.2.1.1 hxy.1.2.1.2 hxy.1.2.2

/-! ## Quotes -/

omit hsub in
theorem wordEnd_marks (n : Nat) : ∀ c ∈ wordEnd (List.replicate n '>'), c = '>' := by
  intro c hc
  unfold wordEnd at hc
  have := (List.takeWhile_prefix _).subset (List.mem_reverse.1 hc)
  exact (List.mem_replicate.1 (List.mem_reverse.1 this)).2

omit hsub in
theorem remark_same {a b : List Str} (h : Each SameText a b) : ∀ (d : Nat), (∀ l ∈ a, emptyLine l = false) →
    Each SameText (remark d a) (remark d b) ∧ ∀ l ∈ remark d a, emptyLine l = false := by
  induction h with
  | nil => intro d _; exact ⟨.nil, by simp [remark]⟩
  | cons hx _ ih =>
    intro d hf
    have hf' := fun l hl => hf l (List.mem_cons_of_mem _ hl)
    have h0 := hf _ List.mem_cons_self
    simp only [remark, ← hx.quoted, ← hx.letters]
    split
    · refine ⟨.cons hx (ih _ hf').1, fun l hl => ?_⟩
      rcases List.mem_cons.1 hl with rfl | hl
      · exact h0
      · exact (ih _ hf').2 l hl
    · refine ⟨.cons (hx.marked h0 (wordEnd_marks d)) (ih _ hf').1, fun l hl => ?_⟩
      rcases List.mem_cons.1 hl with rfl | hl
      · rw [emptyLine, List.all_append, Bool.and_eq_false_iff]; exact .inr h0
      · exact (ih _ hf').2 l hl

omit hsub in
theorem inside_same {a b : List Str} (h : Each SameText a b) (hf : ∀ l ∈ a, emptyLine l = false) :
    Each SameText ((remark 0 a).map unmark) ((remark 0 b).map unmark) := by
  obtain ⟨h1, h2⟩ := remark_same h 0 hf
  generalize remark 0 a = x at h1 h2
  generalize remark 0 b = y at h1
  induction h1 with
  | nil => exact .nil
  | cons hx _ ih => exact .cons (hx.unmark (h2 _ List.mem_cons_self)) (ih fun l hl => h2 l (List.mem_cons_of_mem _ hl))

omit hsub in
theorem spacedQuote_same {a b : List Str} (h : Each SameText a b) : spacedQuote a = spacedQuote b := by
  induction h with
  | nil => rfl
  | cons hx hs ih =>
    rename_i x y xs ys
    simp only [spacedQuote, List.find?_cons] at ih ⊢
    have hc' : (strip x ≠ [] ∧ margin x ≤ 1) ↔ (strip y ≠ [] ∧ margin y ≤ 1) := by
      rw [← hx.strip]
      refine and_congr_right fun hne => ?_
      have he : emptyLine x = false := by
        cases he : emptyLine x with
        | false => rfl
        | true => exact absurd ((strip_eq_nil x).2 (by simpa [emptyLine] using he)) hne
      rw [hx.margin he]
    by_cases hc : strip x ≠ [] ∧ margin x ≤ 1
    · rw [decide_eq_true hc, decide_eq_true (hc'.1 hc)]
      have he : emptyLine x = false := by
        cases he : emptyLine x with
        | false => rfl
        | true => exact absurd ((strip_eq_nil x).2 (by simpa [emptyLine] using he)) hc.1
      simp only [hx.margin he]
    · rw [decide_eq_false hc, decide_eq_false fun hd => hc (hc'.2 hd)]
      exact ih

omit hsub in
theorem SameText.unspace {l l' : Str} (h : SameText l l') :
    SameText (if l.head? = some ' ' then l.drop 1 else l) (if l'.head? = some ' ' then l'.drop 1 else l') := by
  cases he : emptyLine l with
  | true =>
    have e : ∀ x : Str, emptyLine x = true → emptyLine (if x.head? = some ' ' then x.drop 1 else x) = true := fun x hx => by
      split
      · rw [emptyLine, List.all_eq_true] at hx ⊢
        exact fun c hc => hx c (List.mem_of_mem_drop hc)
      · exact hx
    exact .blank (e _ he) (e _ (h.empty ▸ he))
  | false =>
    obtain ⟨a, t, s, s', hm, hm'⟩ := h.cut he
    obtain ⟨c, r, e, hc⟩ := hm.first
    cases a with
    | nil =>
      have hc' : c ≠ ' ' := by rintro rfl; revert hc; decide
      have h1 : l.head? ≠ some ' ' := by rw [hm.eq, e]; simpa using hc'
      have h2 : l'.head? ≠ some ' ' := by rw [hm'.eq, e]; simpa using hc'
      rw [if_neg h1, if_neg h2]
      exact h
    | cons d a =>
      by_cases hd : d = ' '
      · subst hd
        have h1 : l.head? = some ' ' := by rw [hm.eq]; rfl
        have h2 : l'.head? = some ' ' := by rw [hm'.eq]; rfl
        rw [if_pos h1, if_pos h2]
        refine SameText.rest (p := [' ']) ?_ (by decide)
        have e1 : [' '] ++ l.drop 1 = l := by rw [hm.eq]; rfl
        have e2 : [' '] ++ l'.drop 1 = l' := by rw [hm'.eq]; rfl
        rw [e1, e2]; exact h
      · have h1 : l.head? ≠ some ' ' := by rw [hm.eq]; simpa using hd
        have h2 : l'.head? ≠ some ' ' := by rw [hm'.eq]; simpa using hd
        rw [if_neg h1, if_neg h2]
        exact h

omit hsub in
theorem remark_noLB : ∀ (ls : List Str) (d : Nat), (∀ l ∈ ls, NoLB l) → ∀ l ∈ remark d ls, NoLB l
  | [], _, _, l, hl => by simp [remark] at hl
  | x :: xs, d, h, l, hl => by
    have hx := h x List.mem_cons_self
    have hxs := fun y hy => h y (List.mem_cons_of_mem _ hy)
    simp only [remark] at hl
    split at hl
    · rcases List.mem_cons.1 hl with rfl | hl
      · exact hx
      · exact remark_noLB xs _ hxs l hl
    · rcases List.mem_cons.1 hl with rfl | hl
      · exact NoLB.append (fun c hc => by rw [(List.mem_replicate.1 hc).2]; decide) hx
      · exact remark_noLB xs _ hxs l hl

omit hsub in
theorem unmark_sub (l : Str) : ∀ c ∈ unmark l, c ∈ l := by
  intro c hc
  unfold unmark at hc
  split at hc
  · split at hc
    · rename_i heq
      exact (List.dropWhile_suffix _).subset (by rw [heq]; exact List.mem_cons_of_mem _ hc)
    · exact hc
  · exact hc

omit hsub in
theorem inside_noLB {ls : List Str} (h : ∀ l ∈ ls, NoLB l) : ∀ l ∈ (remark 0 ls).map unmark, NoLB l := by
  intro l hl
  obtain ⟨x, hx, rfl⟩ := List.mem_map.1 hl
  exact NoLB.of_mem (remark_noLB ls 0 h x hx) (unmark_sub x)

omit hsub in
theorem unspace_noLB {ls : List Str} (h : ∀ l ∈ ls, NoLB l) :
    ∀ l ∈ ls.map fun l => if l.head? = some ' ' then l.drop 1 else l, NoLB l := by
  intro l hl
  obtain ⟨x, hx, rfl⟩ := List.mem_map.1 hl
  refine NoLB.of_mem (h x hx) fun c hc => ?_
  split at hc
  · exact List.mem_of_mem_drop hc
  · exact hc

theorem quoteRef_same (w : Width) {a b : List Str} (h : Each SameText a b) (ha : a ≠ []) (hf : ∀ l ∈ a, emptyLine l = false)
    (h1 : ∀ l ∈ a, NoLB l) (h2 : ∀ l ∈ b, NoLB l) : quoteRef sub w a = quoteRef sub w b := by
  have hi := inside_same h hf
  have hn1 := inside_noLB h1
  have hn2 := inside_noLB h2
  have hhead : emptyLine (a.headD []) = false := by
    cases a with
    | nil => exact absurd rfl ha
    | cons x xs => exact hf x List.mem_cons_self
  have hne : (remark 0 a).map unmark ≠ [] := by
    cases a with
    | nil => exact absurd rfl ha
    | cons x xs =>
      simp only [remark]
      split <;> simp
  simp only [quoteRef, spacedQuote_same hi, (each_head h).margin hhead]
  generalize (remark 0 a).map unmark = x at hi hn1 hne
  generalize (remark 0 b).map unmark = y at hi hn2
  cases spacedQuote y with
  | false =>
    simp only [Bool.false_eq_true, if_false]
    rw [hsub _ hi hne hn1 hn2]
  | true =>
    simp only [if_true]
    rw [hsub _ (each_map (fun u v huv => huv.unspace) hi) (by simpa using hne) (unspace_noLB hn1) (unspace_noLB hn2)]

/-! ## Sections and documents -/

theorem partRef_same (w : Width) (i : Nat) {ty : Sec} {a b : List Str} (h : Each SameText a b) (hs : SecShape ty a)
    (h2 : ∀ l ∈ b, NoLB l) (hq : ty = .quote → ∀ l ∈ a, emptyLine l = false)
    (hp : ty = .par → emptyLine (a.getLastD []) = false) : partRef sub w i ty a = partRef sub w i ty b := by
  have hne : a ≠ [] := by
    obtain ⟨l, ls, e, _⟩ := hs.first
    rw [e]; simp
  have hmark : ty = .bullet ∨ ty = .ordered → ∃ l ls, a = l :: ls ∧ (markLen l).isSome = true := by
    intro ht
    obtain ⟨l, ls, ws, m, r, e, hm, _⟩ := hs.list ht
    exact ⟨l, ls, e, by rw [markLen_intro hm (hs.lines l (by rw [e]; simp))]; rfl⟩
  cases ty <;> simp only [partRef]
  case atx => rw [headingRef_same (each_head h)]
  case thematic => rw [ruleRef_same w (each_head h)]
  case fenced => rw [fenceRef_same h]
  case indented => rw [each_map_eq (f := rstrip) (fun x y hxy => hxy.text) h]
  case par => exact parRef_same w h (hp rfl)
  case setext => exact underlinedRef_same w h
  case lrd => exact definitionRef_same w h (hs.lrd rfl)
  case table => exact tableRef_same i h
  case bullet =>
    obtain ⟨l, ls, rfl, hm⟩ := hmark (.inl rfl)
    exact bulletRef_same hsub w h hm hs.lines h2
  case ordered =>
    obtain ⟨l, ls, rfl, hm⟩ := hmark (.inr rfl)
    exact numberedRef_same hsub w h hm hs.lines h2
  case quote => exact quoteRef_same hsub w h hne (hq rfl) hs.lines h2

theorem partsRef_same (w : Width) {S T : List (Sec × List Str)} (h : Each SameSec S T) : ∀ (i : Nat) (q : Bool),
    (∀ s ∈ S, SecShape s.1 s.2 ∧ (s.1 = .quote → ∀ l ∈ s.2, emptyLine l = false) ∧
      (s.1 = .par → emptyLine (s.2.getLastD []) = false)) → (∀ s ∈ T, ∀ l ∈ s.2, NoLB l) →
    partsRef sub w i q S = partsRef sub w i q T := by
  induction h with
  | nil => intro i q _ _; rfl
  | cons hx hs ih =>
    rename_i x y xs ys
    intro i q hS hT
    obtain ⟨k, a⟩ := x
    obtain ⟨k', b⟩ := y
    obtain ⟨hk, hab⟩ := hx
    simp only at hk hab
    subst hk
    obtain ⟨h1, h2, h3⟩ := hS _ List.mem_cons_self
    simp only [partsRef, partRef_same hsub w i hab h1 (hT _ List.mem_cons_self) h2 h3, each_length hab]
    rw [ih _ _ (fun s hs => hS s (List.mem_cons_of_mem _ hs)) fun s hs => hT s (List.mem_cons_of_mem _ hs)]

end

/-- What is known of the sections of a division. -/
theorem divided_shape {n : Nat} {ls : List Str} {secs : List (Sec × List Str)} (h : divideQ n ls = .ok secs)
    (hlb : ∀ l ∈ ls, NoLB l) : ∀ s ∈ secs, SecShape s.1 s.2 ∧ (s.1 = .quote → ∀ l ∈ s.2, emptyLine l = false) ∧
      (s.1 = .par → emptyLine (s.2.getLastD []) = false) := by
  intro s hs
  have hp : parse (n + 1) ls = .ok secs := by rw [C117_enough n ls (by rw [h]; simp), h]
  refine ⟨parse_shape hp hlb hs, quote_full h s hs, fun hk => ?_⟩
  obtain ⟨k, x⟩ := s
  simp only at hk ⊢
  subst hk
  obtain ⟨pre, post, rfl⟩ := List.append_of_mem hs
  have hb := (C52_extent hp).1
  obtain ⟨q, l, rfl⟩ : ∃ q l, x = q ++ [l] := ⟨x.dropLast, x.getLast hb.some, (List.dropLast_concat_getLast hb.some).symm⟩
  simp only [List.getLastD_concat]
  cases q with
  | nil => exact kind_full (by rw [hb.first l rfl]; simp)
  | cons y ys => exact textEnd_full (hb.further l (by simp))

theorem formatRef_same : ∀ (n : Nat) (w : Width) (t t' : Str), Each SameText (splitlines t) (splitlines t') →
    formatRef n w t = formatRef n w t'
  | 0, _, _, _, _ => rfl
  | n + 1, w, t, t', h => by
    have hsub : ∀ (w : Width) {a b : List Str}, Each SameText a b → a ≠ [] → (∀ l ∈ a, NoLB l) → (∀ l ∈ b, NoLB l) →
        formatRef n w (unlines a) = formatRef n w (unlines b) := by
      intro w a b hab ha h1 h2
      refine formatRef_same n w _ _ ?_
      have hb : b ≠ [] := by
        cases hab with
        | nil => exact absurd rfl ha
        | cons _ _ => simp
      rw [unlines, unlines, splitlines_join_nl a h1 ha, splitlines_join_nl b h2 hb]
      exact hab
    have hd := divideQ_same n h
    revert hd
    simp only [formatRef]
    cases ha : divideQ n (splitlines t) with
    | error e =>
      cases divideQ n (splitlines t') with
      | error e' => intro hd; rw [show e = e' from hd]
      | ok T => intro hd; exact hd.elim
    | ok S =>
      cases hb : divideQ n (splitlines t') with
      | error e' => intro hd; exact hd.elim
      | ok T =>
        intro hd'
        have hd : Each SameSec S T := hd'
        clear hd'
        have hany : (S.any fun s => s.1 == .fenced && s.2.length == 1) = T.any fun s => s.1 == .fenced && s.2.length == 1 := by
          clear ha hb
          induction hd with
          | nil => rfl
          | cons hx _ ih => rw [List.any_cons, List.any_cons, ih, hx.1, each_length hx.2]
        simp only [bind, Except.bind, hany,
          partsRef_same hsub w hd 0 false (divided_shape ha (splitlines_noLB _))
            fun s hs => (divided_shape hb (splitlines_noLB _) s hs).1.lines]

end MF
