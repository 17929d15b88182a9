import Verif.Lemmas.Sections
import Verif.Lemmas.TreeFormat
import Verif.Props.QuoteDoc
import Verif.Props.Extents
import Verif.Props.Lists
import Verif.Props.Errors
import Verif.Props.Chars
import Verif.Props.Idempotent
import Verif.Props.Repr
/-!
# C102: making a list of texts and formatting commute
-/

namespace MF

/-- The lines of a list entry: the marker stands before the first, and the others are indented to its text. -/
def entryOf (m : Str) (ls : List Str) : List Str := hang (m ++ c!" ") (List.replicate (m.length + 1) ' ') ls

/-- The entries of a list whose `i`th marker is `mk i`. -/
def entriesOf (mk : Nat → Str) : Nat → List Str → List (List Str)
  | _, [] => []
  | i, t :: ts => entryOf (mk i) (splitlines t) :: entriesOf mk (i + 1) ts

/-- A list of texts. -/
def listText (mk : Nat → Str) (ts : List Str) : Str := pyJoin ['\n'] (entriesOf mk 0 ts).flatten ++ ['\n']

/-- The markers of a bullet list. -/
def bulletMk (c : Char) : Nat → Str := fun _ => [c]

/-- The markers of an ordered list. -/
def orderedMk (first : Nat) : Nat → Str := fun i => natStr (first + i) ++ c!"."

/-- The text can stand behind the marker: it has a line, no line of the entry is one a list ends at, and the lines that
open or close a fence, not counting the one behind the marker, pair up. -/
structure Item (m t : Str) : Prop where
  ne : splitlines t ≠ []
  within : ∀ l ∈ entryOf m (splitlines t), listEnd l = false
  fences : ((splitlines t).tail.filter fenceLine).length % 2 = 0

/-- Every text can stand behind its marker. -/
def Items (mk : Nat → Str) : Nat → List Str → Prop
  | _, [] => True
  | i, t :: ts => Item (mk i) t ∧ Items mk (i + 1) ts

instance (m t : Str) : Decidable (Item m t) :=
  decidable_of_iff (splitlines t ≠ [] ∧ (∀ l ∈ entryOf m (splitlines t), listEnd l = false) ∧
    ((splitlines t).tail.filter fenceLine).length % 2 = 0) ⟨fun h => ⟨h.1, h.2.1, h.2.2⟩, fun h => ⟨h.1, h.2, h.3⟩⟩

instance decItems (mk : Nat → Str) : ∀ (i : Nat) (ts : List Str), Decidable (Items mk i ts)
  | _, [] => .isTrue trivial
  | i, _ :: ts => @instDecidableAnd _ _ _ (decItems mk (i + 1) ts)

/-! ## Finding the entries -/

theorem spaces_ws (k : Nat) : ∀ c ∈ List.replicate k ' ', isWs c = true := by
  intro c hc
  rw [(List.mem_replicate.1 hc).2]
  decide

theorem spaces_cons {k : Nat} (hk : 0 < k) (x : Str) : ∃ r, List.replicate k ' ' ++ x = ' ' :: r := by
  obtain ⟨k, rfl⟩ : ∃ j, k = j + 1 := ⟨k - 1, by omega⟩
  exact ⟨_, rfl⟩

theorem fenceLine_indented (k : Nat) (x : Str) : FenceLine (List.replicate k ' ' ++ x) ↔ fenceLine x = true := by
  rw [fenceLine_eq, ← fenceLine_iff]
  unfold FenceLine
  rw [lstrip_append_ws _ _ (spaces_ws k)]

/-- A fence line with indentation opens or closes whatever is open. -/
theorem fenceTrack_indented {k : Nat} {x : Str} {ic : Bool} {ce : Str} (hce : ic = true → ce = []) (hk : 0 < k) :
    fenceTrack ic ce (List.replicate k ' ' ++ x) = if fenceLine x then (!ic, []) else (ic, ce) := by
  by_cases hf : fenceLine x = true
  · have h1 := (fenceLine_indented k x).2 hf
    obtain ⟨r, h1⟩ := h1
    obtain ⟨c, hc, h1⟩ : ∃ c, (c = '`' ∨ c = '~') ∧ lstrip (List.replicate k ' ' ++ x) = c :: c :: c :: r := by
      rcases h1 with h1 | h1
      · exact ⟨_, .inl rfl, h1⟩
      · exact ⟨_, .inr rfl, h1⟩
    have h2 : (['`', '~'].any fun f => startsWith (lstrip (List.replicate k ' ' ++ x)) (List.replicate 3 f)) = true := by
      rw [h1]
      simp only [List.any_cons, List.any_nil, Bool.or_false, Bool.or_eq_true, startsWith_three]
      rcases hc with rfl | rfl
      · exact .inl ⟨r, rfl⟩
      · exact .inr ⟨r, rfl⟩
    have h3 : lstripBy (· == c) (List.replicate k ' ' ++ x) = List.replicate k ' ' ++ x := by
      obtain ⟨q, hq⟩ := spaces_cons hk x
      rw [hq]
      exact dropWhile_eq_self _ _ _ (by rcases hc with rfl | rfl <;> decide)
    have h4 : (lstrip (List.replicate k ' ' ++ x)).length ≤ x.length := by
      rw [lstrip_append_ws _ _ (spaces_ws k)]
      exact (List.dropWhile_sublist _).length_le
    rw [h1] at h4
    unfold fenceTrack
    rw [if_pos h2, h1]
    simp only [h3]
    rw [if_pos hf]
    have h5 : mul c (((c :: c :: c :: r).length : Int) - ((List.replicate k ' ' ++ x).length : Int)) = [] := by
      have : ((c :: c :: c :: r).length : Int) - ((List.replicate k ' ' ++ x).length : Int) ≤ 0 := by
        rw [List.length_append, List.length_replicate]
        omega
      unfold mul
      rw [Int.toNat_of_nonpos this]
      rfl
    rw [h5]
    cases ic with
    | true => simp [hce rfl]
    | false => rfl
  · rw [if_neg hf]
    exact fenceTrack_none (fun h => hf ((fenceLine_indented k x).1 h))

theorem step_further {k : Nat} {x : Str} {ic : Bool} {ce : Str} {mi : Nat} {pre : List (List Str)} {e : List Str}
    (hce : ic = true → ce = []) (hk : mi < k) :
    splitListStep ⟨ic, ce, mi, pre ++ [e]⟩ (List.replicate k ' ' ++ x) =
      .ok ⟨(if fenceLine x then !ic else ic), (if fenceLine x then [] else ce), mi,
        pre ++ [e ++ [List.replicate k ' ' ++ x]]⟩ := by
  have h1 := fenceTrack_indented (x := x) hce (Nat.lt_of_le_of_lt (Nat.zero_le _) hk)
  have h2 : ¬ getIndent (List.replicate k ' ' ++ x) ≤ mi := by
    rw [getIndent_ws_append (spaces_ws k), List.length_replicate]
    omega
  have h3 : (fenceTrack ic ce (List.replicate k ' ' ++ x)).1 = if fenceLine x then !ic else ic := by
    rw [h1]; split <;> rfl
  have h4 : (fenceTrack ic ce (List.replicate k ' ' ++ x)).2 = if fenceLine x then [] else ce := by
    rw [h1]; split <;> rfl
  simp only [splitListStep, bind, Except.bind, appendToLast_concat, h2, decide_false, Bool.and_false, Bool.false_eq_true,
    if_false, h3, h4]
  cases markerEnd? (List.replicate k ' ' ++ x) <;> rfl

theorem steps_further {k mi : Nat} {pre : List (List Str)} (hk : mi < k) :
    ∀ (xs : List Str) (e : List Str) (ic : Bool) (ce : Str), (ic = true → ce = []) →
      ∃ ic' ce', (ic' = true → ce' = []) ∧ (ic' = (ic ^^ decide ((xs.filter fenceLine).length % 2 = 1))) ∧
      (xs.map (List.replicate k ' ' ++ ·)).foldlM splitListStep ⟨ic, ce, mi, pre ++ [e]⟩ =
        .ok ⟨ic', ce', mi, pre ++ [e ++ xs.map (List.replicate k ' ' ++ ·)]⟩ := by
  intro xs
  induction xs with
  | nil => intro e ic ce h; exact ⟨ic, ce, h, by simp, by simp; rfl⟩
  | cons x xs ih =>
    intro e ic ce h
    obtain ⟨ic', ce', h1, h2, h3⟩ := ih (e ++ [List.replicate k ' ' ++ x]) (if fenceLine x then !ic else ic)
      (if fenceLine x then [] else ce) (by
        by_cases hf : fenceLine x = true
        · intro _; rw [if_pos hf]
        · rw [if_neg hf, if_neg hf]; exact h)
    refine ⟨ic', ce', h1, ?_, ?_⟩
    · rw [h2]
      by_cases hf : fenceLine x = true
      · rw [if_pos hf, List.filter_cons_of_pos hf, List.length_cons]
        rcases Nat.mod_two_eq_zero_or_one (xs.filter fenceLine).length with hz | hz
        · have : ((xs.filter fenceLine).length + 1) % 2 = 1 := by omega
          simp [hz, this]
        · have : ((xs.filter fenceLine).length + 1) % 2 = 0 := by omega
          simp [hz, this]
      · rw [if_neg hf, List.filter_cons_of_neg hf]
    · rw [List.map_cons, List.foldlM_cons, step_further h hk]
      show List.foldlM _ _ _ = _
      rw [h3]
      simp

theorem entry_marker {m : Str} (hm : IsMarker m) (x : Str) : MarkerAt (m ++ c!" " ++ x) [] m (' ' :: x) :=
  ⟨by simp, by simp, hm, .inr (.inr ⟨x, rfl⟩)⟩

theorem step_first {m x : Str} (hm : IsMarker m) {ce : Str} {mi : Nat} {pre : List (List Str)} :
    splitListStep ⟨false, ce, mi, pre⟩ (m ++ c!" " ++ x) = .ok ⟨false, ce, m.length, pre ++ [[m ++ c!" " ++ x]]⟩ := by
  have h := entry_marker hm x
  have h1 := fenceTrack_none (ic := false) (ce := ce) h.not_fence
  simp only [splitListStep, h1, markerEnd_intro h, h.indent]
  simp

theorem split_entries {mk : Nat → Str} (hm : ∀ i, IsMarker (mk i)) :
    ∀ (ts : List Str) (i : Nat) (pre : List (List Str)) (ce : Str) (mi : Nat), Items mk i ts →
      ∃ st, (entriesOf mk i ts).flatten.foldlM splitListStep ⟨false, ce, mi, pre⟩ = .ok st ∧
        st.entries = pre ++ entriesOf mk i ts := by
  intro ts
  induction ts with
  | nil => intro i pre ce mi _; exact ⟨_, rfl, by simp [entriesOf]⟩
  | cons t ts ih =>
    intro i pre ce mi ⟨h1, h2⟩
    have hne := h1.ne
    have hf := h1.fences
    rw [entriesOf, List.flatten_cons, List.foldlM_append]
    generalize splitlines t = ls at *
    cases ls with
    | nil => exact absurd rfl hne
    | cons x xs =>
      rw [List.tail_cons] at hf
      obtain ⟨ic', ce', _, h4, h5⟩ := steps_further (pre := pre) (Nat.lt_succ_self (mk i).length) xs
        [mk i ++ c!" " ++ x] false ce (by simp)
      rw [hf] at h4
      obtain ⟨st, h6, h7⟩ := ih (i + 1) (pre ++ [[mk i ++ c!" " ++ x] ++ xs.map (List.replicate ((mk i).length + 1) ' ' ++ ·)])
        ce' (mk i).length h2
      refine ⟨st, ?_, ?_⟩
      · rw [entryOf, hang, List.foldlM_cons, step_first (hm i)]
        show (List.foldlM _ _ _ >>= _) = _
        rw [h5]
        rw [show ic' = false from by simpa using h4]
        exact h6
      · rw [h7, entryOf, hang]
        simp

theorem entriesOf_cons {mk : Nat → Str} {ts : List Str} (hne : ts ≠ []) {i : Nat} (hi : Items mk i ts) :
    ∃ x rest, (entriesOf mk i ts).flatten = (mk i ++ c!" " ++ x) :: rest := by
  cases ts with
  | nil => exact absurd rfl hne
  | cons t ts =>
    have := hi.1.ne
    rw [entriesOf, List.flatten_cons]
    cases hs : splitlines t with
    | nil => exact absurd hs this
    | cons x xs => exact ⟨x, _, rfl⟩

theorem splitList_entries {mk : Nat → Str} (hm : ∀ i, IsMarker (mk i)) {ts : List Str} (hne : ts ≠ []) {i : Nat}
    (hi : Items mk i ts) : splitList (entriesOf mk i ts).flatten = .ok (entriesOf mk i ts) := by
  obtain ⟨x, rest, he⟩ := entriesOf_cons hne hi
  obtain ⟨st, h1, h2⟩ := split_entries hm ts i [] [] (mk i).length hi
  rw [he] at h1 ⊢
  have h3 : listMarkerEndPos (mk i ++ c!" " ++ x) = .ok (mk i).length := by
    unfold listMarkerEndPos
    rw [markerEnd_intro (entry_marker (hm i) x)]
    simp
  simp only [splitList, bind, Except.bind, h3]
  rw [h1]
  simp only [h2, List.nil_append]

theorem dedent_entry {m : Str} (hm : IsMarker m) {ls : List Str} (hne : ls ≠ []) : dedentEntry (entryOf m ls) = .ok ls := by
  cases ls with
  | nil => exact absurd rfl hne
  | cons x xs =>
    have h3 : listMarkerEndPos (m ++ c!" " ++ x) = .ok m.length := by
      unfold listMarkerEndPos
      rw [markerEnd_intro (entry_marker hm x)]
      simp
    simp only [entryOf, hang, dedentEntry, h3, bind, Except.bind, unindent_eq, List.map_map, Function.comp_def, unindent_spaces,
      List.map_id']
    rw [show m.length + 1 = (m ++ c!" ").length by simp, List.drop_left]

theorem dedent_entries {mk : Nat → Str} (hm : ∀ i, IsMarker (mk i)) :
    ∀ (ts : List Str) (i : Nat), Items mk i ts → dedentEntries (entriesOf mk i ts) = .ok (ts.map splitlines) := by
  intro ts
  induction ts with
  | nil => intro i _; rfl
  | cons t ts ih =>
    intro i ⟨h1, h2⟩
    have := ih (i + 1) h2
    unfold dedentEntries at this ⊢
    rw [entriesOf, List.mapM_cons, dedent_entry (hm i) h1.ne]
    simp only [bind, Except.bind, this]
    rfl

/-! ## Writing the entries -/

/-- The text with exactly one newline at its end. -/
def oneNl (p : Str) : Str := rstripBy (· == '\n') p ++ ['\n']

/-- The numbers of the list all have as many digits as the last, or the list has no numbers. -/
def Marks (mk : Nat → Str) (count : Nat) : Prop :=
  (∃ c, (c = '*' ∨ c = '-' ∨ c = '+') ∧ mk = bulletMk c) ∨
    ∃ first, mk = orderedMk first ∧ (natStr first).length = (natStr (first + count - 1)).length

theorem bulletMk_marker {c : Char} (h : c = '*' ∨ c = '-' ∨ c = '+') (i : Nat) : IsMarker (bulletMk c i) := by
  rcases h with rfl | rfl | rfl
  · exact .inl rfl
  · exact .inr (.inl rfl)
  · exact .inr (.inr (.inl rfl))

theorem orderedMk_marker (first i : Nat) : IsMarker (orderedMk first i) :=
  .inr (.inr (.inr ⟨_, (natStr_spec _).1, (natStr_spec _).2.1, rfl⟩))

theorem Marks.marker {mk : Nat → Str} {k : Nat} (h : Marks mk k) (i : Nat) : IsMarker (mk i) := by
  rcases h with ⟨c, hc, rfl⟩ | ⟨first, rfl, _⟩
  · exact bulletMk_marker hc i
  · exact orderedMk_marker first i

theorem splitlines_oneNl {p : Str} (h : ∀ c ∈ p, isLB c = true → c = '\n') :
    splitlines (oneNl p) = splitChar '\n' (rstripBy (· == '\n') p) := by
  have h1 := pyJoin_splitChar '\n' (rstripBy (· == '\n') p)
  have h2 := splitlines_join_nl (splitChar '\n' (rstripBy (· == '\n') p)) (by
    intro l hl c hc
    have h3 := splitChar_mem _ _ l hl c hc
    cases hb : isLB c with
    | false => rfl
    | true => exact absurd (h c (mem_of_mem_rstripBy h3.1) hb) h3.2) (splitChar_ne_nil _ _)
  rw [h1] at h2
  exact h2

theorem out_breaks {n : Nat} {w : Width} {t p : Str} (h : reformatText n w t = .ok p) :
    ∀ c ∈ p, isLB c = true → c = '\n' := by
  intro c hc hb
  rcases reformatText_fine n w t p h c hc with h1 | ⟨h1, _⟩
  · exact h1
  · rw [h1] at hb; cases hb

theorem fmtEntry_eq (n : Nat) (w : Width) (m : Str) {t : Str} (hne : splitlines t ≠ []) :
    fmtEntry (reformatText n) w (m.length + 1) m (splitlines t) = (reformatText n (w.sub (m.length + 1 : Nat)) t).map
      fun p => pyJoin ['\n'] (entryOf m (splitlines (oneNl p))) := by
  have hs : splitlines (pyJoin ['\n'] (splitlines t) ++ ['\n']) = splitlines t :=
    splitlines_join_nl _ (fun l hl => splitlines_noLB _ l hl) hne
  rw [← reformatText_lines n (w.sub (m.length + 1 : Nat)) hs]
  simp only [fmtEntry, reformatLines, bind, Except.bind]
  cases hp : reformatText n (w.sub (m.length + 1 : Nat)) (pyJoin ['\n'] (splitlines t) ++ ['\n']) with
  | error e => rfl
  | ok p =>
    simp only [Except.map]
    rw [splitlines_oneNl (out_breaks hp)]
    obtain ⟨x, xs, hx⟩ := List.exists_cons_of_ne_nil (splitChar_ne_nil '\n' (rstripBy (· == '\n') p))
    rw [hx, join_indented]
    rfl

theorem bullets_eq (n : Nat) (w : Width) (c : Char) : ∀ (ts : List Str) (i : Nat), Items (bulletMk c) i ts →
    fmtBulletEntries (reformatText n) w [c] (ts.map splitlines) = (ts.mapM (reformatText n (w.sub 2))).map
      fun ps => (entriesOf (bulletMk c) i (ps.map oneNl)).map (pyJoin ['\n']) := by
  intro ts
  induction ts with
  | nil => intro i _; rfl
  | cons t ts ih =>
    intro i ⟨h1, h2⟩
    have h3 := fmtEntry_eq n w [c] h1.ne
    rw [List.map_cons, List.mapM_cons, fmtBulletEntries, ih (i + 1) h2]
    simp only [List.length_singleton] at h3
    rw [h3]
    simp only [bind, Except.bind, Except.map]
    cases reformatText n (w.sub 2) t with
    | error e => rfl
    | ok p =>
      simp only
      cases ts.mapM (reformatText n (w.sub 2)) with
      | error e => rfl
      | ok ps => rfl

theorem ordereds_eq (n : Nat) (w : Width) (first d : Nat) : ∀ (ts : List Str) (i : Nat), Items (orderedMk first) i ts →
    (∀ j, i ≤ j → j < i + ts.length → (orderedMk first j).length + 1 = d) →
    fmtOrderedEntries (reformatText n) w d (first + i) (ts.map splitlines) = (ts.mapM (reformatText n (w.sub d))).map
      fun ps => (entriesOf (orderedMk first) i (ps.map oneNl)).map (pyJoin ['\n']) := by
  intro ts
  induction ts with
  | nil => intro i _ _; rfl
  | cons t ts ih =>
    intro i ⟨h1, h2⟩ hd
    have h3 := fmtEntry_eq n w (orderedMk first i) h1.ne
    rw [hd i (Nat.le_refl _) (by simp)] at h3
    have h4 := ih (i + 1) h2 (fun j hj hj' => hd j (by omega) (by rw [List.length_cons]; omega))
    rw [← Nat.add_assoc] at h4
    rw [List.map_cons, List.mapM_cons, fmtOrderedEntries, h4]
    rw [show natStr (first + i) ++ ['.'] = orderedMk first i from rfl, h3]
    simp only [bind, Except.bind, Except.map]
    cases reformatText n (w.sub d) t with
    | error e => rfl
    | ok p =>
      simp only
      cases ts.mapM (reformatText n (w.sub d)) with
      | error e => rfl
      | ok ps => rfl

theorem entriesOf_length (mk : Nat → Str) : ∀ (ts : List Str) (i : Nat), (entriesOf mk i ts).length = ts.length := by
  intro ts
  induction ts with
  | nil => intro i; rfl
  | cons t ts ih => intro i; simp [entriesOf, ih]

theorem entry_noLB {m : Str} (hm : NoLB m) {ls : List Str} (h : ∀ l ∈ ls, NoLB l) : ∀ l ∈ entryOf m ls, NoLB l := by
  have hs : ∀ k, NoLB (List.replicate k ' ') := by
    intro k c hc
    rw [(List.mem_replicate.1 hc).2]
    decide
  cases ls with
  | nil => intro l hl; cases hl
  | cons x xs =>
    intro l hl
    rcases List.mem_cons.1 hl with rfl | hl
    · exact NoLB.append (NoLB.append hm (by exact (by decide : ∀ c ∈ c!" ", isLB c = false))) (h x (by simp))
    · obtain ⟨y, hy, rfl⟩ := List.mem_map.1 hl
      exact NoLB.append (hs _) (h y (by simp [hy]))

theorem IsMarker.noLB {m : Str} (hm : IsMarker m) : NoLB m := by
  rcases hm with rfl | rfl | rfl | ⟨ds, _, hd, rfl⟩
  · exact (by decide : ∀ c ∈ c!"*", isLB c = false)
  · exact (by decide : ∀ c ∈ c!"-", isLB c = false)
  · exact (by decide : ∀ c ∈ c!"+", isLB c = false)
  · exact NoLB.append (fun c hc => digit_noLB (hd c hc)) (by exact (by decide : ∀ c ∈ c!".", isLB c = false))

theorem entries_noLB {mk : Nat → Str} (hm : ∀ i, IsMarker (mk i)) :
    ∀ (ts : List Str) (i : Nat), ∀ l ∈ (entriesOf mk i ts).flatten, NoLB l := by
  intro ts
  induction ts with
  | nil => intro i l hl; cases hl
  | cons t ts ih =>
    intro i l hl
    rw [entriesOf, List.flatten_cons] at hl
    rcases List.mem_append.1 hl with hl | hl
    · exact entry_noLB (hm i).noLB (splitlines_noLB t) l hl
    · exact ih (i + 1) l hl

theorem splitlines_listText {mk : Nat → Str} (hm : ∀ i, IsMarker (mk i)) {ts : List Str} (hne : (entriesOf mk 0 ts).flatten ≠ []) :
    splitlines (listText mk ts) = (entriesOf mk 0 ts).flatten :=
  splitlines_join_nl _ (entries_noLB hm ts 0) hne

theorem items_within {mk : Nat → Str} : ∀ (ts : List Str) (i : Nat), Items mk i ts →
    ∀ l ∈ (entriesOf mk i ts).flatten, listEnd l = false := by
  intro ts
  induction ts with
  | nil => intro i _ l hl; cases hl
  | cons t ts ih =>
    intro i ⟨h1, h2⟩ l hl
    rw [entriesOf, List.flatten_cons] at hl
    rcases List.mem_append.1 hl with hl | hl
    · exact h1.within l hl
    · exact ih (i + 1) h2 l hl

theorem parse_whole {n : Nat} {ty : Sec} {l : Str} {ls : List Str}
    (h : firstSection (splitters (splitQuote n)) (l :: ls ++ []) = .ok (ty, l :: ls, [])) :
    parse n (l :: ls) = .ok [(ty, l :: ls)] := by
  have := parse_of_first (n := n) [(ty, l :: ls)] (by
    intro a b c e
    cases a with
    | nil => cases e; exact ⟨by simp, h⟩
    | cons x a => cases a <;> cases e)
  simpa [linesOf] using this

theorem entry_not_indented {m : Str} (hm : IsMarker m) (x : Str) : isIndentedStart (m ++ c!" " ++ x) = false := by
  have h := (entry_marker hm x).indent
  unfold isIndentedStart
  rw [h]
  simp

theorem entriesOf_ne {mk : Nat → Str} : ∀ (ts : List Str) (i : Nat), (∀ t ∈ ts, splitlines t ≠ []) →
    ∀ e ∈ entriesOf mk i ts, e ≠ [] := by
  intro ts
  induction ts with
  | nil => intro i _ e he; cases he
  | cons t ts ih =>
    intro i h e he
    rcases List.mem_cons.1 he with rfl | he
    · have := h t (by simp)
      cases hs : splitlines t with
      | nil => exact absurd hs this
      | cons x xs => simp [entryOf, hang]
    · exact ih (i + 1) (fun t ht => h t (by simp [ht])) e he

/-- C102: one pass over a list formats the text of every entry, narrower by the marker and a space, in order, and makes
a list of the results. An exception of the first entry that has one comes through, but that StopIteration becomes
RuntimeError. -/
theorem C102_pass {n : Nat} {w : Width} {mk : Nat → Str} {ts : List Str} (hk : Marks mk ts.length) (hne : ts ≠ [])
    (hi : Items mk 0 ts) :
    reformatText (n + 2) w (listText mk ts) =
      ((ts.mapM (reformatText (n + 1) (w.sub ((mk 0).length + 1 : Nat)))).mapError genError).map
        fun ps => listText mk (ps.map oneNl) := by
  obtain ⟨x, rest, he⟩ := entriesOf_cons hne hi
  have hw := items_within ts 0 hi
  have hm := hk.marker
  have hsp := splitList_entries hm hne hi
  have hde := dedent_entries hm ts 0 hi
  have hlen := entriesOf_length mk ts 0
  have hat := entry_marker (hm 0) x
  have hls := splitlines_listText (ts := ts) hm (by rw [he]; simp)
  have hjoin : ∀ ps : List Str, pyJoin ['\n'] ((entriesOf mk 0 (ps.map oneNl)).map (pyJoin ['\n'])) =
      pyJoin ['\n'] (entriesOf mk 0 (ps.map oneNl)).flatten := by
    intro ps
    refine join_flatten _ (entriesOf_ne _ 0 ?_)
    intro t ht
    obtain ⟨p, _, rfl⟩ := List.mem_map.1 ht
    exact splitlines_concat_ne _ '\n' (by decide)
  suffices key : ∃ ty, parse (n + 1) (splitlines (listText mk ts)) = .ok [(ty, (entriesOf mk 0 ts).flatten)] ∧
      reprCheck ty (entriesOf mk 0 ts).flatten = .ok () ∧
      fmtSection (reformatText (n + 1)) w 0 ty (entriesOf mk 0 ts).flatten =
        (ts.mapM (reformatText (n + 1) (w.sub ((mk 0).length + 1 : Nat)))).map
          fun ps => pyJoin ['\n'] ((entriesOf mk 0 (ps.map oneNl)).map (pyJoin ['\n'])) by
    obtain ⟨ty, hp, hr, hf⟩ := key
    rw [reformatText]
    simp only [reformatBody, bind, Except.bind, hp, buildFmts, hr]
    rw [if_neg (by simp)]
    simp only [fmtAll, bind, Except.bind, hf]
    cases ts.mapM (reformatText (n + 1) (w.sub ((mk 0).length + 1 : Nat))) with
    | error e => rfl
    | ok ps =>
      simp only [Except.map, Except.mapError, hjoin]
      rfl
  rw [he] at hw hsp
  rcases hk with ⟨c, hc, rfl⟩ | ⟨first, rfl, hd⟩
  · have hst : isBulletStart (bulletMk c 0 ++ c!" " ++ x) = true := by
      unfold isBulletStart
      rw [entry_not_indented (hm 0), (isBulletStart_iff _).2]
      · rfl
      · exact ⟨c, x, hat.lstrip, by rcases hc with h | h | h <;> simp [h]⟩
    refine ⟨.bullet, ?_, ?_, ?_⟩
    · rw [hls, he]
      exact parse_whole (firstSection_bullet rest [] hst (fun y hy => hw y (by simp [hy])) (by simp))
    · rw [he]
      simp only [reprCheck, hat.lstrip]
      rfl
    · have hb := bullets_eq (n + 1) w c ts 0 hi
      rw [he]
      simp only [fmtSection, fmtBullet, bind, Except.bind, hsp, hde]
      rw [hat.lstrip]
      simp only [bulletMk, List.singleton_append] at hb ⊢
      rw [hb]
      cases ts.mapM (reformatText (n + 1) (w.sub 2)) <;> rfl
  · have hst : isOrderedStart (orderedMk first 0 ++ c!" " ++ x) = true := by
      unfold isOrderedStart
      rw [entry_not_indented (hm 0), (isOrderedStart_iff _).2]
      · rfl
      · exact ⟨natStr (first + 0), x, by rw [hat.lstrip]; simp [orderedMk], (natStr_spec _).1, (natStr_spec _).2.1⟩
    have hfn : firstNumber (orderedMk first 0 ++ c!" " ++ x) = .ok first := by
      rw [firstNumber_marker (ds := natStr (first + 0)) hat (natStr_spec _).1 (natStr_spec _).2.1, (natStr_spec _).2.2]
      rfl
    refine ⟨.ordered, ?_, ?_, ?_⟩
    · rw [hls, he]
      exact parse_whole (firstSection_ordered rest [] hst (fun y hy => hw y (by simp [hy])) (by simp))
    · rw [he]
      simp only [reprCheck, hfn]
      rfl
    · have hpos : 0 < ts.length := List.length_pos_iff.2 hne
      have hlast : ∀ j, j < ts.length → (natStr (first + j)).length = (natStr first).length := by
        intro j hj
        have h1 := natStr_length_mono (a := first) (b := first + j) (by omega)
        have h2 := natStr_length_mono (a := first + j) (b := first + ts.length - 1) (by omega)
        omega
      have hind : (orderedMk first 0).length + 1 = (natStr (first + ts.length - 1)).length + 2 := by
        simp [orderedMk, hd]
      have hb := ordereds_eq (n + 1) w first ((orderedMk first 0).length + 1) ts 0 hi (by
        intro j _ hj
        have h1 := hlast j (by omega)
        simp [orderedMk, h1])
      rw [he]
      simp only [fmtSection, fmtOrdered, bind, Except.bind, hsp, hde, hfn, hlen]
      rw [← hind]
      rw [show first + 0 = first from Nat.add_zero first] at hb
      rw [hb]
      cases ts.mapM (reformatText (n + 1) (w.sub ((orderedMk first 0).length + 1 : Nat))) <;> rfl

theorem spaces_inj (k : Nat) : ∀ {xs ys : List Str}, xs.map (List.replicate k ' ' ++ ·) = ys.map (List.replicate k ' ' ++ ·) →
    xs = ys := by
  intro xs
  induction xs with
  | nil => intro ys h; cases ys with
    | nil => rfl
    | cons y ys => cases h
  | cons x xs ih =>
    intro ys h
    cases ys with
    | nil => cases h
    | cons y ys =>
      simp only [List.map_cons, List.cons.injEq, List.append_cancel_left_eq] at h
      rw [h.1, ih h.2]

/-- Lines of entries other than the first start with a space, so the entries of a list can be told from its lines. -/
theorem entriesOf_inj {mk : Nat → Str} (hm : ∀ i, IsMarker (mk i)) : ∀ (as bs : List Str) (i : Nat),
    (∀ t ∈ as, splitlines t ≠ []) → (∀ t ∈ bs, splitlines t ≠ []) →
    (entriesOf mk i as).flatten = (entriesOf mk i bs).flatten → as.map splitlines = bs.map splitlines := by
  have hrest : ∀ (as : List Str) (i : Nat), (∀ t ∈ as, splitlines t ≠ []) →
      (entriesOf mk i as).flatten.takeWhile (·.head? == some ' ') = [] := by
    intro as i h
    cases as with
    | nil => rfl
    | cons a as =>
      rw [entriesOf, List.flatten_cons]
      cases hs : splitlines a with
      | nil => exact absurd hs (h a (by simp))
      | cons x xs =>
        obtain ⟨c, t, h1, h2⟩ := (hm i).head
        rw [entryOf, hang, List.cons_append, List.takeWhile_cons_of_neg]
        rw [h1]
        simp only [List.cons_append, List.head?_cons, beq_iff_eq, Option.some.injEq]
        rintro rfl
        exact absurd h2 (by decide)
  have hmid : ∀ (k : Nat) (xs : List Str) (rest : List Str), rest.takeWhile (·.head? == some ' ') = [] →
      (xs.map (List.replicate (k + 1) ' ' ++ ·) ++ rest).takeWhile (·.head? == some ' ') = xs.map (List.replicate (k + 1) ' ' ++ ·) := by
    intro k xs rest h
    rw [List.takeWhile_append_of_pos, h, List.append_nil]
    intro l hl
    obtain ⟨x, _, rfl⟩ := List.mem_map.1 hl
    rfl
  intro as
  induction as with
  | nil =>
    intro bs i _ hb h
    cases bs with
    | nil => rfl
    | cons b bs =>
      cases hs : splitlines b with
      | nil => exact absurd hs (hb b (by simp))
      | cons y ys =>
        simp only [entriesOf, hs, entryOf, hang, List.flatten_cons] at h
        cases h
  | cons a as ih =>
    intro bs i ha hb h
    cases bs with
    | nil =>
      cases hs : splitlines a with
      | nil => exact absurd hs (ha a (by simp))
      | cons y ys =>
        simp only [entriesOf, hs, entryOf, hang, List.flatten_cons] at h
        cases h
    | cons b bs =>
      rw [entriesOf, List.flatten_cons, entriesOf, List.flatten_cons] at h
      cases hs : splitlines a with
      | nil => exact absurd hs (ha a (by simp))
      | cons x xs =>
        cases hs' : splitlines b with
        | nil => exact absurd hs' (hb b (by simp))
        | cons y ys =>
          rw [hs, hs', entryOf, entryOf, hang, hang, List.cons_append, List.cons_append] at h
          obtain ⟨h1, h2⟩ := List.cons.inj h
          have h3 := congrArg (List.takeWhile (·.head? == some ' ')) h2
          rw [hmid _ _ _ (hrest as (i + 1) fun t ht => ha t (by simp [ht])),
            hmid _ _ _ (hrest bs (i + 1) fun t ht => hb t (by simp [ht]))] at h3
          rw [h3] at h2
          rw [List.map_cons, List.map_cons, hs, hs', List.append_cancel_left h1, spaces_inj _ h3,
            ih bs (i + 1) (fun t ht => ha t (by simp [ht])) (fun t ht => hb t (by simp [ht])) (List.append_cancel_left h2)]

theorem mapM_mem {α β : Type} {f : α → Except Err β} : ∀ {xs : List α} {ys : List β}, xs.mapM f = .ok ys →
    ∀ y ∈ ys, ∃ x ∈ xs, f x = .ok y := by
  intro xs
  induction xs with
  | nil => intro ys h; cases h; intro y hy; cases hy
  | cons x xs ih =>
    intro ys h y hy
    rw [List.mapM_cons] at h
    cases hx : f x with
    | error e => rw [hx] at h; cases h
    | ok z =>
      cases hz : xs.mapM f with
      | error e => rw [hx, hz] at h; cases h
      | ok zs =>
        rw [hx, hz] at h
        cases h
        rcases List.mem_cons.1 hy with rfl | hy
        · exact ⟨x, by simp, hx⟩
        · obtain ⟨x', h1, h2⟩ := ih hz y hy
          exact ⟨x', by simp [h1], h2⟩

theorem mapM_length {α β : Type} {f : α → Except Err β} : ∀ {xs : List α} {ys : List β}, xs.mapM f = .ok ys →
    ys.length = xs.length := by
  intro xs
  induction xs with
  | nil => intro ys h; cases h; rfl
  | cons x xs ih =>
    intro ys h
    rw [List.mapM_cons] at h
    cases hx : f x with
    | error e => rw [hx] at h; cases h
    | ok z =>
      cases hz : xs.mapM f with
      | error e => rw [hx, hz] at h; cases h
      | ok zs =>
        rw [hx, hz] at h
        cases h
        simp [ih hz]

theorem oneNl_lines {n : Nat} {w : Width} {t p : Str} (h : reformatText n w t = .ok p) :
    pyJoin ['\n'] (splitlines (oneNl p)) ++ ['\n'] = oneNl p := by
  rw [splitlines_oneNl (out_breaks h), pyJoin_splitChar]
  rfl

/-- C102: the program's answer for a list, in terms of its entries: a list of the formatted entries if a second pass
leaves every entry as it is, and a refusal otherwise. -/
theorem C102_answer {n : Nat} {w : Width} {mk : Nat → Str} {ts ps rs : List Str} (hk : Marks mk ts.length) (hne : ts ≠ [])
    (hi : Items mk 0 ts) (h1 : ts.mapM (reformatText (n + 1) (w.sub ((mk 0).length + 1 : Nat))) = .ok ps)
    (hi' : Items mk 0 (ps.map oneNl))
    (h2 : (ps.map oneNl).mapM (reformatText (n + 1) (w.sub ((mk 0).length + 1 : Nat))) = .ok rs) :
    reformatMarkdownText (n + 2) w (listText mk ts) =
      if rs.map oneNl = ps.map oneNl then .ok (rstrip (listText mk (ps.map oneNl)) ++ ['\n']) else .error .inconsistent := by
  have hl1 := mapM_length h1
  have hl2 := mapM_length h2
  have hne' : ps.map oneNl ≠ [] := by
    intro e
    have := congrArg List.length e
    rw [List.length_map, hl1] at this
    exact hne (List.length_eq_zero_iff.1 this)
  have p1 := C102_pass (n := n) (w := w) hk hne hi
  have p2 := C102_pass (n := n) (w := w) (ts := ps.map oneNl) (by rw [List.length_map, hl1]; exact hk) hne' hi'
  rw [h1] at p1
  rw [h2] at p2
  simp only [Except.map, Except.mapError] at p1 p2
  rw [reformat_two p1 p2]
  by_cases h : rs.map oneNl = ps.map oneNl
  · rw [if_pos (by rw [h]), if_pos h]
  · rw [if_neg, if_neg h]
    intro e
    apply h
    have hm := hk.marker
    have hn : ∀ qs : List Str, ∀ t ∈ qs.map oneNl, splitlines t ≠ [] := by
      intro qs t ht
      obtain ⟨p, _, rfl⟩ := List.mem_map.1 ht
      exact splitlines_concat_ne _ '\n' (by decide)
    have hq : ∀ qs : List Str, qs.map oneNl ≠ [] → (entriesOf mk 0 (qs.map oneNl)).flatten ≠ [] := by
      intro qs h0 h3
      have h4 := entriesOf_ne (mk := mk) _ 0 (hn qs)
      cases he : entriesOf mk 0 (qs.map oneNl) with
      | nil =>
        have := entriesOf_length mk (qs.map oneNl) 0
        rw [he] at this
        exact h0 (List.length_eq_zero_iff.1 this.symm)
      | cons x xs =>
        rw [he] at h3 h4
        rw [List.flatten_cons] at h3
        exact h4 x (by simp) (List.append_eq_nil_iff.1 h3).1
    have hr' : rs.map oneNl ≠ [] := by
      intro e
      have := congrArg List.length e
      rw [List.length_map, hl2] at this
      exact hne' (List.length_eq_zero_iff.1 this)
    have e' := congrArg splitlines e
    rw [splitlines_listText hm (hq _ hr'), splitlines_listText hm (hq _ hne')] at e'
    have e2 := entriesOf_inj hm _ _ 0 (hn rs) (hn ps) e'
    have hback : ∀ (us qs : List Str), us.mapM (reformatText (n + 1) (w.sub ((mk 0).length + 1 : Nat))) = .ok qs →
        ((qs.map oneNl).map splitlines).map (fun ls => pyJoin ['\n'] ls ++ ['\n']) = qs.map oneNl := by
      intro us qs hu
      rw [List.map_map, List.map_map]
      apply List.map_congr_left
      intro q hq
      obtain ⟨t, _, ht⟩ := mapM_mem hu q hq
      exact oneNl_lines ht
    rw [← hback _ _ h2, ← hback _ _ h1, e2]

/-- C102: a list with an entry on which the program raises, it raises on too. -/
theorem C102_error {n : Nat} {w : Width} {mk : Nat → Str} {ts : List Str} {e : Err} (hk : Marks mk ts.length) (hne : ts ≠ [])
    (hi : Items mk 0 ts) (h1 : ts.mapM (reformatText (n + 1) (w.sub ((mk 0).length + 1 : Nat))) = .error e) :
    reformatMarkdownText (n + 2) w (listText mk ts) = .error (genError e) := by
  have p1 := C102_pass (n := n) (w := w) hk hne hi
  rw [h1] at p1
  simp only [Except.map, Except.mapError] at p1
  simp only [reformatMarkdownText, bind, Except.bind, p1]

/-- A bullet list: code, a list in a list and text that has to be wrapped. -/
theorem C102_example : Marks (bulletMk '-') 3 ∧
    Items (bulletMk '-') 0 [c!"a b\n```\nq  r\n```", c!"* x\n* y\n> q r s\n", c!"foo   bar baz\n"] ∧
    listText (bulletMk '-') [c!"a b\n```\nq  r\n```", c!"* x\n* y\n> q r s\n", c!"foo   bar baz\n"] =
      c!"- a b\n  ```\n  q  r\n  ```\n- * x\n  * y\n  > q r s\n- foo   bar baz\n" ∧
    [c!"a b\n```\nq  r\n```", c!"* x\n* y\n> q r s\n", c!"foo   bar baz\n"].mapM (reformatText 6 (.fin 8)) =
      .ok [c!"a b\n```\nq  r\n```\n", c!"* x\n* y\n  > q r\n  > s\n", c!"foo bar\nbaz\n"] ∧
    Items (bulletMk '-') 0 ([c!"a b\n```\nq  r\n```\n", c!"* x\n* y\n  > q r\n  > s\n", c!"foo bar\nbaz\n"].map oneNl) ∧
    ([c!"a b\n```\nq  r\n```\n", c!"* x\n* y\n  > q r\n  > s\n", c!"foo bar\nbaz\n"].map oneNl).mapM (reformatText 6 (.fin 8)) =
      .ok [c!"a b\n```\nq  r\n```\n", c!"* x\n* y\n  > q r\n  > s\n", c!"foo bar\nbaz\n"] :=
  ⟨.inl ⟨'-', .inr (.inl rfl), rfl⟩, by decide +kernel, by decide +kernel, by decide +kernel, by decide +kernel,
    by decide +kernel⟩

/-- An ordered list. -/
theorem C102_ordered_example : Marks (orderedMk 10) 2 ∧ Items (orderedMk 10) 0 [c!"a a a a a\n~~~\nb\n~~~\n", c!"- c\n- d\n"] ∧
    listText (orderedMk 10) [c!"a a a a a\n~~~\nb\n~~~\n", c!"- c\n- d\n"] =
      c!"10. a a a a a\n    ~~~\n    b\n    ~~~\n11. - c\n    - d\n" ∧
    reformatMarkdownText 6 (.fin 10) (listText (orderedMk 10) [c!"a a a a a\n~~~\nb\n~~~\n", c!"- c\n- d\n"]) =
      .ok (listText (orderedMk 10) [c!"a a a\na a\n~~~\nb\n~~~\n", c!"- c\n- d\n"]) :=
  ⟨.inr ⟨10, rfl, by decide +kernel⟩, by decide +kernel, by decide +kernel, by decide +kernel⟩

/-- A list that is refused because of one entry. -/
theorem C102_refused_example : Items (bulletMk '*') 0 [c!"x\n~~~ ~y\na\n~~~", c!"b"] ∧
    (∃ ps rs, [c!"x\n~~~ ~y\na\n~~~", c!"b"].mapM (reformatText 6 (.fin 78)) = .ok ps ∧ Items (bulletMk '*') 0 (ps.map oneNl) ∧
      (ps.map oneNl).mapM (reformatText 6 (.fin 78)) = .ok rs ∧ rs.map oneNl ≠ ps.map oneNl) ∧
    reformatMarkdownText 7 (.fin 80) (listText (bulletMk '*') [c!"x\n~~~ ~y\na\n~~~", c!"b"]) = .error .inconsistent :=
  ⟨by decide +kernel, ⟨[c!"x\n~~~~y\na\n~~~\n", c!"b\n"], [c!"x\n~~~~y\na\n~~~~\n", c!"b\n"], by decide +kernel, by decide +kernel,
    by decide +kernel, by decide +kernel⟩, by decide +kernel⟩

/-- A list on which the program raises because of one entry. -/
theorem C102_error_example : Items (bulletMk '*') 0 [c!"a", c!"> foo\n> ~~~", c!"b"] ∧
    [c!"a", c!"> foo\n> ~~~", c!"b"].mapM (reformatText 6 (.fin 78)) = .error .indexError ∧
    reformatMarkdownText 7 (.fin 80) (listText (bulletMk '*') [c!"a", c!"> foo\n> ~~~", c!"b"]) = .error .indexError :=
  ⟨by decide +kernel, by decide +kernel, by decide +kernel⟩

/-- Where the fences of an entry do not pair up behind the first line, as when the entry starts with code, the entries
after it are taken for lines of it, and become a list inside it. -/
theorem C102_fences_needed : ¬ Items (bulletMk '*') 0 [c!"```\nx\n```", c!"b"] ∧
    listText (bulletMk '*') [c!"```\nx\n```", c!"b"] = c!"* ```\n  x\n  ```\n* b\n" ∧
    [c!"```\nx\n```", c!"b"].mapM (reformatText 6 (.fin 78)) = .ok [c!"```\nx\n```\n", c!"b\n"] ∧
    reformatMarkdownText 7 (.fin 80) (listText (bulletMk '*') [c!"```\nx\n```", c!"b"]) =
      .ok c!"* ```\n  x\n  ```\n  * b\n" :=
  ⟨by decide +kernel, by decide +kernel, by decide +kernel, by decide +kernel⟩

/-- Where the numbers differ in length, the entries are indented for the longest. -/
theorem C102_digits_needed : ¬ Marks (orderedMk 9) 2 ∧ Items (orderedMk 9) 0 [c!"a\n* b", c!"c"] ∧
    reformatMarkdownText 7 (.fin 80) (listText (orderedMk 9) [c!"a\n* b", c!"c"]) = .ok c!"9. a\n    * b\n10. c\n" ∧
    listText (orderedMk 9) [c!"a\n* b", c!"c"] = c!"9. a\n   * b\n10. c\n" := by
  refine ⟨?_, by decide +kernel, by decide +kernel, by decide +kernel⟩
  rintro (⟨c, _, h⟩ | ⟨first, h, hl⟩)
  · have := congrFun h 0
    rw [show orderedMk 9 0 = c!"9." by decide +kernel] at this
    cases this
  · have h0 := congrFun h 0
    have : natStr 9 = natStr first := List.append_cancel_right h0
    rw [← natStr_unique this] at hl
    revert hl
    decide +kernel

end MF
