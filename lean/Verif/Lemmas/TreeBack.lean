import Verif.Lemmas.TreeRead
/-!
# Trees that are written down are read back: quotes and lists
-/

namespace MF

theorem printDoc_flatten (w : Width) (doc : List Node) : (doc.map (·.print w)).flatten = printDoc w doc := by
  induction doc with
  | nil => rfl
  | cons b doc ih => rw [List.map_cons, List.flatten_cons, ih, printDoc]

theorem printDoc_ne {d : Nat} {doc : List Node} {w : Width} (hw : ∀ a ∈ doc, a.WF d) (hwide : wideDoc w doc = true)
    (hne : doc ≠ []) : ∃ l r, printDoc w doc = l :: r := by
  obtain ⟨a, as, rfl⟩ := List.exists_cons_of_ne_nil hne
  obtain ⟨l, r, e, _⟩ := print_head d a (hw a (by simp)) w (wideDoc_mem.1 hwide a (by simp))
  exact ⟨l, r ++ printDoc w as, by rw [printDoc, e]; rfl⟩

theorem space_prefix {sp : Bool} {p ls : List Str} (hp : ∀ l ∈ p, strip l = [] ∨ 2 ≤ getIndent l) (h : Space sp ls) :
    Space sp (p ++ ls) := by
  induction p with
  | nil => exact h
  | cons l p ih =>
    have := ih fun x hx => hp x (by simp [hx])
    rcases hp l (by simp) with e | e
    · exact .blank e this
    · exact .more e this

theorem space_print {d : Nat} {w : Width} (doc : List Node) (hw : ∀ a ∈ doc, a.WF (d + 1)) (hwide : wideDoc w doc = true) :
    Space false (printDoc w doc) ∧
      ((∃ a ∈ doc, a.kind ≠ .blank ∧ a.kind ≠ .indented) → Space true ((printDoc w doc).map spaced)) := by
  induction doc with
  | nil => exact ⟨.nil, by rintro ⟨a, ha, _⟩; cases ha⟩
  | cons a doc ih =>
    obtain ⟨i1, i2⟩ := ih (fun x hx => hw x (by simp [hx])) (wideDoc_mem.2 fun x hx => wideDoc_mem.1 hwide x (by simp [hx]))
    by_cases hb : a.kind = .blank
    · have ha : a = .blank := by cases a <;> first | rfl | cases hb
      subst ha
      refine ⟨.blank rfl i1, ?_⟩
      rintro ⟨x, hx, hne⟩
      rcases List.mem_cons.1 hx with rfl | hx
      · exact absurd rfl hne.1
      · exact .blank rfl (i2 ⟨x, hx, hne⟩)
    by_cases hi : a.kind = .indented
    · cases a <;> first | (cases hi; done) | skip
      rename_i body
      have hbody : ∀ l ∈ body, strip l = [] ∨ 4 ≤ getIndent l := by
        intro l hl
        rcases ((hw _ List.mem_cons_self).1 l hl).2.2 with e | e
        · left; rw [e]; rfl
        · exact .inr e
      rw [printDoc]
      refine ⟨space_prefix (fun l hl => (hbody l hl).imp_right fun h => by omega) i1, ?_⟩
      rintro ⟨x, hx, hne⟩
      rcases List.mem_cons.1 hx with rfl | hx
      · exact absurd rfl hne.2
      rw [List.map_append]
      refine space_prefix ?_ (i2 ⟨x, hx, hne⟩)
      intro l hl
      obtain ⟨y, hy, rfl⟩ := List.mem_map.1 hl
      rw [strip_spaced]
      by_cases hys : strip y = []
      · exact .inl hys
      · rcases hbody y hy with h | h
        · exact .inl h
        · right; rw [getIndent_spaced y hys]; omega
    · obtain ⟨l, r, e, h⟩ := print_head _ a (hw a (by simp)) w (wideDoc_mem.1 hwide a (by simp))
      obtain ⟨h1, h2⟩ := h hb
      replace h2 := h2 hi
      rw [printDoc, e]
      refine ⟨.no h1 h2, fun _ => .yes ?_ ?_⟩
      · rw [strip_spaced]; exact h1
      · rw [getIndent_spaced l h1, h2]

theorem quoted_print (f : Str → Str) (ls : List Str) : Quoted (ls.map fun l => '>' :: f l) (ls.map f) := by
  induction ls with
  | nil => exact .nil
  | cons l ls ih => exact .cons (marked_cons _) ih

theorem unindent_spaces (n : Nat) (l : Str) : unindent n (List.replicate n ' ' ++ l) = l := by
  induction n with
  | zero => rfl
  | succ n ih =>
    rw [List.replicate_succ, List.cons_append, unindent, if_pos (by decide), ih]

theorem hang_ne {p q : Str} {ls : List Str} (h : ls ≠ []) : ∃ l r, ls = l :: r ∧ hang p q ls = (p ++ l) :: r.map (q ++ ·) := by
  cases ls with
  | nil => exact absurd rfl h
  | cons l r => exact ⟨l, r, rfl, rfl⟩

/-- The lines of the entries of a list. -/
def entryLines (w : Width) (mark : Nat → Str) (cont : Str) : Nat → List (List Node) → List (List Str)
  | _, [] => []
  | k, it :: r => hang (mark k) cont (printDoc w it) :: entryLines w mark cont (k + 1) r

theorem entryLines_flatten (w : Width) (mark : Nat → Str) (cont : Str) (items : List (List Node)) : ∀ k,
    (entryLines w mark cont k items).flatten = printItems w mark cont k items := by
  induction items with
  | nil => intro k; simp [entryLines, printItems]
  | cons it items ih => intro k; rw [entryLines, List.flatten_cons, ih, printItems]

theorem marker_line {m l : Str} (hm : IsMarker m) : MarkerAt (m ++ c!" " ++ l) [] m (' ' :: l) :=
  ⟨by simp, by simp, hm, .inr (.inr ⟨l, rfl⟩)⟩

/-! ## Indented text -/

/-- Lines, and the same lines indented by at most three spaces. -/
def Slid : List Str → List Str → Prop := Each fun l' l => ∃ i, i < 4 ∧ l' = List.replicate i ' ' ++ l

theorem replicate_ws (n : Nat) : ∀ c ∈ List.replicate n ' ', isWs c = true := by
  intro c hc; rw [List.eq_of_mem_replicate hc]; decide

theorem spaces_noLB_replicate (n : Nat) : NoLB (List.replicate n ' ') := replicate_noLB n (by decide)

theorem strip_indent (n : Nat) (l : Str) : strip (List.replicate n ' ' ++ l) = strip l := by
  rw [← strip_lstrip, lstrip_append_ws _ _ (replicate_ws n), strip_lstrip]

theorem getIndent_indent (n : Nat) (l : Str) : getIndent (List.replicate n ' ' ++ l) = n + getIndent l := by
  rw [getIndent_ws_append (replicate_ws n), List.length_replicate]

theorem textLine_indent {l : Str} (h : TextLine l) : ∀ i, i + getIndent l < 4 → TextLine (List.replicate i ' ' ++ l) := by
  intro i
  induction i with
  | zero => intro _; exact h
  | succ i ih =>
    intro hi
    have h1 := ih (by omega)
    have := textLine_spaced h1 (by rw [getIndent_indent]; omega)
    have hne := h1.length_pos
    rw [List.replicate_succ, List.cons_append]
    cases e : List.replicate i ' ' ++ l with
    | nil => rw [e] at hne; cases hne
    | cons c r => rw [e] at this; exact this

theorem slid_map {x : Nat} (hx : x < 4) (ls : List Str) : Slid (ls.map (List.replicate x ' ' ++ ·)) ls := by
  induction ls with
  | nil => exact .nil
  | cons l r ih => exact .cons ⟨x, hx, rfl⟩ ih

theorem slid_hang {x : Nat} (hx : x < 4) (ls : List Str) : Slid (hang [] (List.replicate x ' ') ls) ls := by
  cases ls with
  | nil => exact .nil
  | cons l r => exact .cons ⟨0, by omega, rfl⟩ (slid_map hx r)

theorem slid_strip {ls' ls : List Str} (h : Slid ls' ls) : ls'.map strip = ls.map strip := by
  induction h with
  | nil => rfl
  | cons h _ ih =>
    obtain ⟨i, _, rfl⟩ := h
    rw [List.map_cons, List.map_cons, ih, strip_indent]

theorem slid_mem {ls' ls : List Str} (h : Slid ls' ls) : ∀ l' ∈ ls', ∃ l ∈ ls, ∃ i, i < 4 ∧ l' = List.replicate i ' ' ++ l := by
  induction h with
  | nil => intro l hl; cases hl
  | cons h _ ih =>
    intro l hl
    rcases List.mem_cons.1 hl with rfl | hl
    · exact ⟨_, by simp, h⟩
    · obtain ⟨x, hx, h⟩ := ih l hl; exact ⟨x, by simp [hx], h⟩

theorem Text.slid {ls' ls : List Str} {ts : List Tok} (h : Text ls ts) (h0 : ∀ l ∈ ls, getIndent l = 0) (hs : Slid ls' ls) :
    Text ls' ts := by
  refine ⟨?_, by rw [slid_strip hs]; exact h.inline, h.layable⟩
  intro l' hl'
  obtain ⟨l, hl, i, hi, rfl⟩ := slid_mem hs l' hl'
  exact textLine_indent (h.lines l hl) i (by rw [h0 l hl]; omega)

/-- Indented text is read back. -/
theorem text_slid {R : List Str → List Node → Prop} {S : List Str → Bool → Prop} {a : Node} {d : Nat} {w : Width} {ls' : List Str}
    (hw : a.WF (d + 1)) (ht : a.isText = true) (hs : Slid ls' (a.print w)) : ReadsNode R S ls' (a.settle w) := by
  cases a with
  | heading k t =>
    obtain ⟨hk, hne, hst, hlb⟩ := hw
    cases hs with
    | cons h hs =>
      cases hs
      obtain ⟨i, hi, rfl⟩ := h
      have h : ReadsNode R S [List.replicate i ' ' ++ List.replicate k '#' ++ (' ' :: t)] (.heading k (strip (' ' :: t))) :=
        .heading (replicate_ws i) (by simpa using hi) (by simp) ⟨spaces_noLB_replicate i, .cons (by decide) hlb⟩
      rw [strip_space, hst, List.append_assoc] at h
      exact h
  | underlined c ts =>
    obtain ⟨hc, hts⟩ := hw
    obtain ⟨h1, h2, h3⟩ := text_layLines hts w
    have hpos := longestLine_pos h2 h1.lines
    have hcw : isWs c = false := by rcases hc with rfl | rfl <;> decide
    obtain ⟨m, hm⟩ : ∃ m, longestLine (layLines w ts) = m + 1 := ⟨longestLine (layLines w ts) - 1, by omega⟩
    obtain ⟨xs, x, rfl, hxs, i, hi, rfl⟩ := each_snoc hs
    refine .underlined (m := m) (h1.slid (fun l hl => (h3 l hl).2) hxs) ?_ ?_ ?_
    · rw [getIndent_indent, hm, List.replicate_succ, getIndent_not_ws hcw]; omega
    · rw [strip_indent, replicate_strip hcw, hm]
    · exact (spaces_noLB_replicate i).append (replicate_noLB' hcw _)
  | par ts =>
    obtain ⟨h1, _, h3⟩ := text_layLines hw w
    exact .par (h1.slid (fun l hl => (h3 l hl).2) hs)
  | hard ts =>
    obtain ⟨h1, h2, h3⟩ := text_layLines hw w
    obtain ⟨r, l, e1, e2⟩ := hardLast_ne h2
    rw [Node.print, e2] at hs
    obtain ⟨xs, x, rfl, hxs, i, hi, rfl⟩ := each_snoc hs
    rw [← List.append_assoc]
    have : Slid (xs ++ [List.replicate i ' ' ++ l]) (layLines w ts) := by
      rw [e1]
      clear hs e1 e2
      induction hxs with
      | nil => exact .cons ⟨i, hi, rfl⟩ .nil
      | cons h _ ih => exact .cons h ih
    exact .hard (h1.slid (fun l hl => (h3 l hl).2) this) (by decide) (by decide)
  | _ => cases ht

theorem slides_cases {a : Node} (h : a.slides = true) :
    a.isText = true ∨ (∃ c items, a = .bullets c items) ∨ ∃ first items, a = .numbers first items := by
  cases a <;> first | exact .inr (.inl ⟨_, _, rfl⟩) | exact .inr (.inr ⟨_, _, rfl⟩) | exact .inl h

/-! ## Lists -/

/-- What is left of the entries without the markers stands for them. -/
def ItemsRead (R : List Str → List Node → Prop) (w : Width) (m : Nat → Str) (n : Nat) : Nat → List (List Node) → Prop
  | _, [] => True
  | k, it :: r => (m k).length ≤ n ∧ R (hang [] (List.replicate (n - (m k).length) ' ') (printDoc w it)) it ∧
      ItemsRead R w m n (k + 1) r

theorem entries_print {R : List Str → List Node → Prop} {w : Width} {m : Nat → Str} {n : Nat} (hm : ∀ j, IsMarker (m j))
    (x : Nat) (items : List (List Node)) : ∀ k, ItemsRead R w m n k items → (∀ it ∈ items, printDoc w it ≠ []) →
    (∀ b, x ≤ b → EntriesFrom b ((entryLines w (fun j => m j ++ c!" ") (List.replicate (n + 1) ' ') k items).map
        (List.map (List.replicate x ' ' ++ ·)))) ∧
      Each (EntryReads R) ((entryLines w (fun j => m j ++ c!" ") (List.replicate (n + 1) ' ') k items).map
        (List.map (List.replicate x ' ' ++ ·))) items := by
  induction items with
  | nil => intro k _ _; exact ⟨fun b _ => trivial, .nil⟩
  | cons it items ih =>
    intro k hR hne
    obtain ⟨hk, hR, hrest⟩ := hR
    obtain ⟨i1, i2⟩ := ih (k + 1) hrest (fun x hx => hne x (by simp [hx]))
    obtain ⟨l, r, e1, e2⟩ := hang_ne (p := m k ++ c!" ") (q := List.replicate (n + 1) ' ') (hne it (by simp))
    have hmk : MarkerAt (List.replicate x ' ' ++ (m k ++ c!" " ++ l)) (List.replicate x ' ') (m k) (' ' :: l) :=
      ⟨by simp, replicate_ws x, hm k, .inr (.inr ⟨l, rfl⟩)⟩
    have e3 : (hang (m k ++ c!" ") (List.replicate (n + 1) ' ') (printDoc w it)).map (List.replicate x ' ' ++ ·) =
        (List.replicate x ' ' ++ (m k ++ c!" " ++ l)) :: r.map (List.replicate (x + (n + 1)) ' ' ++ ·) := by
      rw [e2, List.map_cons, List.map_map]
      congr 1
      refine List.map_congr_left fun y _ => ?_
      show List.replicate x ' ' ++ (List.replicate (n + 1) ' ' ++ y) = _
      rw [← List.append_assoc, List.replicate_append_replicate]
    rw [entryLines, List.map_cons]
    constructor
    · intro b hb
      refine ⟨_, _, _, m k, ' ' :: l, e3, hmk, by simpa using hb, ?_, i1 _ (by simp)⟩
      intro y hy ws' m' r' hmk
      obtain ⟨z, hz, rfl⟩ := List.mem_map.1 hy
      have := hmk.indent
      rw [getIndent_indent] at this
      simp at this ⊢; omega
    · refine .cons ⟨_, _, _, m k, l, e3, hmk, ?_⟩ i2
      rw [e1] at hR
      have : (r.map (List.replicate (x + (n + 1)) ' ' ++ ·)).map (unindent ((List.replicate x ' ').length + (m k).length + 1)) =
          r.map (List.replicate (n - (m k).length) ' ' ++ ·) := by
        rw [List.map_map]
        refine List.map_congr_left fun y hy => ?_
        simp only [Function.comp_apply, List.length_replicate]
        have : x + (n + 1) = x + (m k).length + 1 + (n - (m k).length) := by omega
        rw [this, ← List.replicate_append_replicate, List.append_assoc]
        exact unindent_spaces _ _
      rw [this]
      exact hR

/-- Lists are read back. -/
theorem list_print {d : Nat} {w : Width} {m : Nat → Str} {n : Nat} {items : List (List Node)} (hm : ∀ j, IsMarker (m j))
    (hmark : ∀ j, Mark (m j ++ c!" ")) (hne : items ≠ [])
    (hit : ∀ it ∈ items, it ≠ [] ∧ (∀ a ∈ it, a.WF d ∧ a.inside = true) ∧ Flow it)
    (hwide : wideItems w items = true) (hR : ItemsRead (Reads d) w m n 0 items) {x : Nat} (hx : x < 4) :
    ListReads (Reads d) (m 0) ((printItems w (fun j => m j ++ c!" ") (List.replicate (n + 1) ' ') 0 items).map
      (List.replicate x ' ' ++ ·)) items := by
  have hpn : ∀ it ∈ items, ∃ l r, printDoc w it = l :: r := by
    intro it h
    exact printDoc_ne (fun a ha => ((hit it h).2.1 a ha).1) (wideItems_mem.1 hwide it h) (hit it h).1
  have hlines : ∀ it ∈ items, ∀ l ∈ printDoc w it, NoLB l ∧ (softDoc it = true → rstrip l = l) ∧ Tame l := by
    intro it hi l hl
    obtain ⟨a, ha, hla⟩ := mem_printDoc.1 hl
    obtain ⟨h1, h2, h3⟩ := print_lines d a ((hit it hi).2.1 a ha).1 _ l hla
    exact ⟨h1, fun hs => h2 (softDoc_mem.1 hs a ha), h3 ((hit it hi).2.1 a ha).2⟩
  have hall := items_lines (mark := fun j => m j ++ c!" ") (cont := List.replicate (n + 1) ' ') (k := 0) hmark
    (fun c hc => List.eq_of_mem_replicate hc) hlines
  obtain ⟨e1, e2⟩ := entries_print (R := Reads d) (w := w) (n := n) hm x items 0 hR (by
    intro it hi
    obtain ⟨l, r, e⟩ := hpn it hi
    rw [e]; simp)
  refine ⟨?_, ?_⟩
  · obtain ⟨it, its, rfl⟩ := List.exists_cons_of_ne_nil hne
    obtain ⟨l, r, e⟩ := hpn it (by simp)
    have hfirst : printItems w (fun j => m j ++ c!" ") (List.replicate (n + 1) ' ') 0 (it :: its) =
        (m 0 ++ ' ' :: l) :: (r.map (List.replicate (n + 1) ' ' ++ ·) ++
          printItems w (fun j => m j ++ c!" ") (List.replicate (n + 1) ' ') 1 its) := by
      rw [printItems, e]; simp [hang]
    refine ⟨List.replicate x ' ', l, _, (entryLines w (fun j => m j ++ c!" ") (List.replicate (n + 1) ' ') 0 (it :: its)).map
        (List.map (List.replicate x ' ' ++ ·)), by rw [hfirst, List.map_cons], ?_, replicate_ws x, by simpa using hx, ?_,
      e1 _ (by simp), ?_, e2⟩
    · rw [← List.map_flatten, entryLines_flatten]
    · exact (hlines it (by simp) l (by rw [e]; simp)).2.2.strip
    · intro y hy
      obtain ⟨z, hz, rfl⟩ := List.mem_map.1 hy
      have := (hall z (by rw [hfirst]; simp only [List.mem_cons]; exact .inr hz)).2.2.indent (replicate_ws x)
      exact ⟨this.listEnd, this.fence⟩
  · intro y hy
    obtain ⟨z, hz, rfl⟩ := List.mem_map.1 hy
    exact (spaces_noLB_replicate x).append (hall z hz).1

/-- Entries with markers of the same length. -/
theorem itemsRead_same {R : List Str → List Node → Prop} {w : Width} {m : Nat → Str} {n : Nat} (items : List (List Node))
    (h : ∀ it ∈ items, R (printDoc w it) it) : ∀ k, (∀ j, k ≤ j → j < k + items.length → (m j).length = n) →
    ItemsRead R w m n k items := by
  induction items with
  | nil => intro k _; trivial
  | cons it items ih =>
    intro k hlen
    have hk := hlen k (by omega) (by simp)
    refine ⟨by omega, ?_, ih (fun x hx => h x (by simp [hx])) (k + 1) fun j h1 h2 => hlen j (by omega) (by simp; omega)⟩
    rw [hk, Nat.sub_self]
    have : hang [] (List.replicate 0 ' ') (printDoc w it) = printDoc w it := by
      cases printDoc w it with
      | nil => rfl
      | cons l r => simp [hang]
    rw [this]
    exact h it (by simp)

theorem settleDoc_eq {w : Width} {doc : List Node} : settleDoc w doc = doc ↔ ∀ a ∈ doc, a.settle w = a := by
  induction doc with
  | nil => simp [settleDoc]
  | cons a r ih => simp [settleDoc, ih]

theorem settleItems_eq {w : Width} {items : List (List Node)} :
    settleItems w items = items ↔ ∀ it ∈ items, settleDoc w it = it := by
  induction items with
  | nil => simp [settleItems]
  | cons a r ih => simp [settleItems, ih]

/-- Blocks are read back; so are those that stay the same if they are indented. -/
theorem print_node_slides : ∀ (d : Nat) (a : Node) (w : Width), a.WF (d + 1) → a.wide w = true → a.settle w = a →
    ReadsNode (Reads d) (Divides d) (a.print w) a ∧ (a.slides = true → ∀ x, x < 4 →
      ReadsNode (Reads d) (Divides d) ((a.print w).map (List.replicate x ' ' ++ ·)) a) := by
  intro d
  induction d with
  | zero =>
    intro a w hw hwide hset
    refine ⟨?_, fun hs x hx => ?_⟩
    rotate_left
    · rcases slides_cases hs with ht | ⟨c, items, rfl⟩ | ⟨first, items, rfl⟩
      · have := text_slid (R := Reads 0) (S := Divides 0) hw ht (slid_map hx (a.print w))
        rwa [hset] at this
      · obtain ⟨_, hne, hit⟩ := hw
        obtain ⟨it, its, rfl⟩ := List.exists_cons_of_ne_nil hne
        obtain ⟨h1, h2, _⟩ := hit it (by simp)
        obtain ⟨a, as, rfl⟩ := List.exists_cons_of_ne_nil h1
        exact (h2 a (by simp)).1.elim
      · obtain ⟨_, hne, hit⟩ := hw
        obtain ⟨it, its, rfl⟩ := List.exists_cons_of_ne_nil hne
        obtain ⟨h1, h2, _⟩ := hit it (by simp)
        obtain ⟨a, as, rfl⟩ := List.exists_cons_of_ne_nil h1
        exact (h2 a (by simp)).1.elim
    cases hl : a.leaf with
    | true =>
      have := leaf_print (R := Reads 0) (S := Divides 0) hw hl hwide
      rwa [hset] at this
    | false =>
      cases a with
      | table => exact table_print hw
      | ref label link title => exact .ref (refLine_refAt label link title)
      | tail label link => exact .tail (refLine_tailAt label link)
      | hard ts =>
        have := hard_print (R := Reads 0) (S := Divides 0) hw w
        rw [Node.settle] at hset; injection hset with hset
        rwa [hset] at this
      | indented body => exact indented_print hw
      | quote sp inner =>
        obtain ⟨hne, hin, _⟩ := hw
        obtain ⟨a, as, rfl⟩ := List.exists_cons_of_ne_nil hne
        exact (hin a (by simp)).elim
      | bullets c items =>
        obtain ⟨_, hne, hit⟩ := hw
        obtain ⟨it, its, rfl⟩ := List.exists_cons_of_ne_nil hne
        obtain ⟨h1, h2, _⟩ := hit it (by simp)
        obtain ⟨a, as, rfl⟩ := List.exists_cons_of_ne_nil h1
        exact (h2 a (by simp)).1.elim
      | numbers c items =>
        obtain ⟨_, hne, hit⟩ := hw
        obtain ⟨it, its, rfl⟩ := List.exists_cons_of_ne_nil hne
        obtain ⟨h1, h2, _⟩ := hit it (by simp)
        obtain ⟨a, as, rfl⟩ := List.exists_cons_of_ne_nil h1
        exact (h2 a (by simp)).1.elim
      | _ => cases hl
  | succ d ih =>
    intro a w hw hwide hset
    have each : ∀ (w : Width) (doc : List Node), (∀ a ∈ doc, a.WF (d + 1)) → wideDoc w doc = true →
        settleDoc w doc = doc →
        Each (ReadsNode (Reads d) (Divides d)) (doc.map (·.print w)) doc := by
      intro w doc
      induction doc with
      | nil => intro _ _ _; exact .nil
      | cons b doc ihd =>
        intro h1 h2 h3
        rw [wideDoc_mem] at h2
        rw [settleDoc_eq] at h3
        exact .cons (ih b w (h1 b (by simp)) (h2 b (by simp)) (h3 b (by simp))).1
          (ihd (fun x hx => h1 x (by simp [hx])) (wideDoc_mem.2 fun x hx => h2 x (by simp [hx]))
            (settleDoc_eq.2 fun x hx => h3 x (by simp [hx])))
    have docs : ∀ (w : Width) (doc : List Node), (∀ a ∈ doc, a.WF (d + 1)) → wideDoc w doc = true →
        settleDoc w doc = doc → Reads (d + 1) (printDoc w doc) doc := by
      intro w doc h1 h2 h3
      exact ⟨_, printDoc_flatten w doc, each w doc h1 h2 h3⟩
    have slid : ∀ (w : Width) (doc : List Node), (∀ a ∈ doc, a.WF (d + 1)) → wideDoc w doc = true →
        settleDoc w doc = doc → doc.all Node.slides = true → ∀ x, x < 4 →
        Each (ReadsNode (Reads d) (Divides d)) (doc.map fun a => (a.print w).map (List.replicate x ' ' ++ ·)) doc := by
      intro w doc
      induction doc with
      | nil => intro _ _ _ _ _ _; exact .nil
      | cons b doc ihd =>
        intro h1 h2 h3 h4 x hx
        rw [wideDoc_mem] at h2
        rw [settleDoc_eq] at h3
        rw [List.all_cons, Bool.and_eq_true] at h4
        exact .cons ((ih b w (h1 b (by simp)) (h2 b (by simp)) (h3 b (by simp))).2 h4.1 x hx)
          (ihd (fun x hx => h1 x (by simp [hx])) (wideDoc_mem.2 fun x hx => h2 x (by simp [hx]))
            (settleDoc_eq.2 fun x hx => h3 x (by simp [hx])) h4.2 x hx)
    have hung : ∀ (w : Width) (doc : List Node), (∀ a ∈ doc, a.WF (d + 1)) → wideDoc w doc = true →
        settleDoc w doc = doc → slidesDoc doc = true → ∀ x, x < 4 →
        Reads (d + 1) (hang [] (List.replicate x ' ') (printDoc w doc)) doc := by
      intro w doc h1 h2 h3 h4 x hx
      cases doc with
      | nil => exact ⟨[], rfl, .nil⟩
      | cons b doc =>
        rw [slidesDoc, Bool.and_eq_true] at h4
        have hb := h1 b (by simp)
        have hbs := settleDoc_eq.1 h3 b (by simp)
        obtain ⟨l, r, e, _⟩ := print_head _ b hb w (wideDoc_mem.1 h2 b (by simp))
        have ht := text_slid (R := Reads d) (S := Divides d) hb h4.1 (slid_hang hx (b.print w))
        rw [hbs] at ht
        refine ⟨hang [] (List.replicate x ' ') (b.print w) :: doc.map fun a => (a.print w).map (List.replicate x ' ' ++ ·), ?_,
          .cons ht (slid w doc (fun x hx => h1 x (by simp [hx])) (wideDoc_mem.2 fun x hx => wideDoc_mem.1 h2 x (by simp [hx]))
            (settleDoc_eq.2 fun x hx => settleDoc_eq.1 h3 x (by simp [hx])) h4.2 x hx)⟩
        have hm : ∀ doc : List Node, (doc.map fun a => (a.print w).map (List.replicate x ' ' ++ ·)).flatten =
            (printDoc w doc).map (List.replicate x ' ' ++ ·) := by
          intro doc
          induction doc with
          | nil => rfl
          | cons b doc ih => rw [List.map_cons, List.flatten_cons, ih, printDoc, List.map_append]
        rw [List.flatten_cons, hm, printDoc, e]
        simp [hang]
    have items_fit : ∀ (w : Width) (n first k : Nat) (items : List (List Node)), fitsItems n (first + k) items = true →
        (∀ j, j < k + items.length → (natStr (first + j)).length ≤ n) →
        (∀ it ∈ items, it ≠ [] ∧ (∀ a ∈ it, a.WF (d + 1) ∧ a.inside = true) ∧ Flow it) → wideItems w items = true →
        settleItems w items = items →
        ItemsRead (Reads (d + 1)) w (fun j => natStr (first + j) ++ ['.']) (n + 1) k items := by
      intro w n first k items
      induction items generalizing k with
      | nil => intro _ _ _ _ _; trivial
      | cons it items ihi =>
        intro hf hle hit hwi hsi
        rw [fitsItems, Bool.and_eq_true] at hf
        have hk := hle k (by simp)
        have h1 : ∀ a ∈ it, a.WF (d + 1) := fun a ha => ((hit it (by simp)).2.1 a ha).1
        have h2 := wideItems_mem.1 hwi it (by simp)
        have h3 := settleItems_eq.1 hsi it (by simp)
        refine ⟨by simpa using hk, ?_, ihi (k + 1) hf.2 (fun j hj => hle j (by simp; omega)) (fun x hx => hit x (by simp [hx]))
          (wideItems_mem.2 fun x hx => wideItems_mem.1 hwi x (by simp [hx]))
          (settleItems_eq.2 fun x hx => settleItems_eq.1 hsi x (by simp [hx]))⟩
        have e : n + 1 - (natStr (first + k) ++ ['.']).length = n - (natStr (first + k)).length := by simp
        rw [e]
        rcases Bool.or_eq_true _ _ ▸ hf.1 with h | h
        · rw [show n - (natStr (first + k)).length = 0 by simp at h; omega]
          have : hang [] (List.replicate 0 ' ') (printDoc w it) = printDoc w it := by
            cases printDoc w it with
            | nil => rfl
            | cons l r => simp [hang]
          rw [this]
          exact docs w it h1 h2 h3
        · rw [Bool.and_eq_true, decide_eq_true_eq] at h
          exact hung w it h1 h2 h3 h.2 _ (by omega)
    have single : (a.slides = true → ∀ x, x < 4 →
          ReadsNode (Reads (d + 1)) (Divides (d + 1)) ((a.print w).map (List.replicate x ' ' ++ ·)) a) →
        a.slides = true → ReadsNode (Reads (d + 1)) (Divides (d + 1)) (a.print w) a := by
      intro h hs
      have := h hs 0 (by omega)
      rwa [show (List.replicate 0 ' ' ++ ·) = (id : Str → Str) from rfl, List.map_id] at this
    refine (fun h => (⟨?_, h⟩ : _ ∧ _)) ?_
    rotate_left
    · intro hs x hx
      rcases slides_cases hs with ht | ⟨c, items, rfl⟩ | ⟨first, items, rfl⟩
      · have := text_slid (R := Reads (d + 1)) (S := Divides (d + 1)) hw ht (slid_map hx (a.print w))
        rwa [hset] at this
      · obtain ⟨hc, hne, hit⟩ := hw
        have hwi : wideItems (w.sub 2) items = true := hwide
        have hsi : settleItems (w.sub 2) items = items := by rw [Node.settle] at hset; injection hset
        exact .bullets (list_print (m := fun _ => [c]) (n := 1) (by
            intro _
            rcases hc with rfl | rfl | rfl
            · exact .inl rfl
            · exact .inr (.inr (.inl rfl))
            · exact .inr (.inl rfl)) (fun _ => mark_bullet hc) hne hit hwi
          (itemsRead_same _ (fun it hi => docs _ it (fun a ha => ((hit it hi).2.1 a ha).1) (wideItems_mem.1 hwi it hi)
            (settleItems_eq.1 hsi it hi)) 0 fun _ _ _ => rfl) hx)
      · obtain ⟨hfit, hne, hit⟩ := hw
        have hwi : wideItems (w.sub ((natStr (first + items.length - 1)).length + 2 : Nat)) items = true := hwide
        have hsi : settleItems (w.sub ((natStr (first + items.length - 1)).length + 2 : Nat)) items = items := by
          rw [Node.settle] at hset; injection hset
        obtain ⟨hn1, hn2, hn3⟩ := natStr_spec first
        have hmk : ∀ j, IsMarker (natStr (first + j) ++ ['.']) := fun j =>
          .inr (.inr (.inr ⟨_, (natStr_spec _).1, (natStr_spec _).2.1, rfl⟩))
        have he : ∀ j, natStr (first + j) ++ ['.'] ++ c!" " = natStr (first + j) ++ c!". " := by intro j; simp
        have hlr := list_print (d := d + 1) (w := w.sub ((natStr (first + items.length - 1)).length + 2 : Nat))
          (m := fun j => natStr (first + j) ++ ['.']) (n := (natStr (first + items.length - 1)).length + 1) hmk
          (by intro j; rw [he]; exact mark_number _) hne hit hwi
          (items_fit _ _ first 0 items hfit (fun j hj => natStr_length_mono (by omega)) hit hwi hsi) hx
        have := ReadsNode.numbers (S := Divides (d + 1)) hn1 hn2 hlr
        rw [hn3] at this
        simp only [he] at this
        exact this
    refine (fun hsl => ?_) (single ‹_›)
    cases hl : a.leaf with
    | true =>
      have := leaf_print (R := Reads (d + 1)) (S := Divides (d + 1)) hw hl hwide
      rwa [hset] at this
    | false =>
      cases a with
      | table => exact table_print hw
      | ref label link title => exact .ref (refLine_refAt label link title)
      | tail label link => exact .tail (refLine_tailAt label link)
      | hard ts =>
        have := hard_print (R := Reads (d + 1)) (S := Divides (d + 1)) hw w
        rw [Node.settle] at hset; injection hset with hset
        rwa [hset] at this
      | indented body => exact indented_print hw
      | quote sp inner =>
        obtain ⟨hne, hin, hadj, hsoft, hsp⟩ := hw
        have hwd : wideDoc (w.sub (if sp then 2 else 1)) inner = true := hwide
        have hsd : settleDoc (w.sub (if sp then 2 else 1)) inner = inner := by
          rw [Node.settle] at hset; injection hset
        have hr := docs _ inner hin hwd hsd
        obtain ⟨s1, s2⟩ := space_print inner hin hwd
        have hrs : ((printDoc (w.sub (if sp then 2 else 1)) inner).map fun l => if sp then spaced l else l) =
            if sp then (printDoc (w.sub (if sp then 2 else 1)) inner).map spaced else printDoc (w.sub (if sp then 2 else 1)) inner := by
          cases sp with
          | false => exact List.map_id _
          | true => rfl
        refine .quote (rs := (printDoc (w.sub (if sp then 2 else 1)) inner).map fun l => if sp then spaced l else l)
          ?_ (quoted_print (fun l => if sp then spaced l else l) _) ?_ ?_ ?_ ?_
        · obtain ⟨l, r, e⟩ := printDoc_ne hin hwd hne
          exact ⟨_, by rw [Node.print, e]; rfl⟩
        · rw [hrs]
          cases sp with
          | false => exact s1
          | true => exact s2 (hsp rfl)
        · rw [hrs]
          cases sp with
          | false => exact hr
          | true =>
            show Reads (d + 1) (((printDoc _ inner).map spaced).map dropSpace) inner
            rw [List.map_map, List.map_congr_left (f := dropSpace ∘ spaced) (g := id) (fun l _ => dropSpace_spaced l), List.map_id]
            exact hr
        · rw [hrs]
          cases sp with
          | false => exact reads_divides hr ⟨hin, hadj⟩ hne
          | true => exact reads_divides_spaced hr (.inr (each _ inner hin hwd hsd)) ⟨hin, hadj⟩ hwd hne
        · intro l hl
          exact (print_lines (d + 2) (.quote sp inner) ⟨hne, hin, hadj, hsoft, hsp⟩ w l hl).1
      | bullets c items => exact hsl rfl
      | numbers first items => exact hsl rfl
      | _ => cases hl

theorem print_node (d : Nat) (a : Node) (w : Width) (hw : a.WF (d + 1)) (hwide : a.wide w = true) (hset : a.settle w = a) :
    ReadsNode (Reads d) (Divides d) (a.print w) a :=
  (print_node_slides d a w hw hwide hset).1

/-- Documents are read back. -/
theorem print_reads {d : Nat} {doc : List Node} {w : Width} (hw : WFDoc (d + 1) doc) (hwide : wideDoc w doc = true)
    (hset : settleDoc w doc = doc) : Reads (d + 1) (printDoc w doc) doc := by
  refine ⟨_, printDoc_flatten w doc, ?_⟩
  have := hw.1
  clear hw
  induction doc with
  | nil => exact .nil
  | cons b doc ih =>
    rw [wideDoc_mem] at hwide
    rw [settleDoc_eq] at hset
    exact .cons (print_node d b w (this b (by simp)) (hwide b (by simp)) (hset b (by simp)))
      (ih (wideDoc_mem.2 fun x hx => hwide x (by simp [hx])) (settleDoc_eq.2 fun x hx => hset x (by simp [hx]))
        fun x hx => this x (by simp [hx]))

end MF
