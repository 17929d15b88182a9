import Verif.Props.TreeSpec
/-!
# Blocks without nested documents
-/

namespace MF

theorem trimEnd_spec (doc : List Node) : ∃ k, doc = trimEnd doc ++ List.replicate k .blank ∧
    (trimEnd doc = [] ∨ ∃ r a, trimEnd doc = r ++ [a] ∧ a.kind ≠ .blank) := by
  induction doc with
  | nil => exact ⟨0, rfl, .inl rfl⟩
  | cons a doc ih =>
    obtain ⟨k, h1, h2⟩ := ih
    by_cases hab : a = .blank ∧ trimEnd doc = []
    · obtain ⟨rfl, h0⟩ := hab
      have : trimEnd (.blank :: doc) = [] := by simp [trimEnd, h0]
      rw [this]
      rw [h0, List.nil_append] at h1
      exact ⟨k + 1, by rw [h1]; rfl, .inl rfl⟩
    · have e : trimEnd (a :: doc) = a :: trimEnd doc := by
        rw [trimEnd]
        exact fun h1 h2 => hab ⟨h1, h2⟩
      rw [e]
      refine ⟨k, by rw [List.cons_append, ← h1], .inr ?_⟩
      rcases h2 with h2 | ⟨r, b, hb, hk⟩
      · rw [h2]
        exact ⟨[], a, rfl, by intro h0; cases a <;> first | exact hab ⟨rfl, h2⟩ | cases h0⟩
      · exact ⟨a :: r, b, by rw [hb]; rfl, hk⟩

theorem trimEnd_concat (r : List Node) (a : Node) (h : a.kind ≠ .blank) : trimEnd (r ++ [a]) = r ++ [a] := by
  have hne : ∀ r : List Node, trimEnd (r ++ [a]) ≠ [] := by
    intro r h0
    obtain ⟨k, h1, _⟩ := trimEnd_spec (r ++ [a])
    rw [h0, List.nil_append] at h1
    have : a ∈ List.replicate k Node.blank := by rw [← h1]; simp
    rw [List.eq_of_mem_replicate this] at h
    exact h rfl
  induction r with
  | nil => cases a <;> first | rfl | exact absurd rfl h
  | cons b r ih =>
    rw [List.cons_append, trimEnd, ih]
    exact fun _ h => hne r h

theorem trimEnd_idem (doc : List Node) : trimEnd (trimEnd doc) = trimEnd doc := by
  obtain ⟨k, _, h2⟩ := trimEnd_spec doc
  rcases h2 with h2 | ⟨r, a, e, h⟩
  · rw [h2]; rfl
  · rw [e]; exact trimEnd_concat r a h

theorem noLB_nil : NoLB [] := by intro c hc; cases hc

theorem foldl_max_le (ls : List Str) : ∀ n, n ≤ ls.foldl (fun n l => max n l.length) n ∧
    ∀ l ∈ ls, l.length ≤ ls.foldl (fun n l => max n l.length) n := by
  induction ls with
  | nil => intro n; simp
  | cons x xs ih =>
    intro n
    obtain ⟨h1, h2⟩ := ih (max n x.length)
    refine ⟨?_, ?_⟩
    · exact Nat.le_trans (Nat.le_max_left _ _) h1
    · intro l hl
      rcases List.mem_cons.1 hl with rfl | hl
      · exact Nat.le_trans (Nat.le_max_right _ _) h1
      · exact h2 l hl

theorem foldl_max_mem (ls : List Str) : ∀ n, ls.foldl (fun n l => max n l.length) n = n ∨
    ∃ l ∈ ls, l.length = ls.foldl (fun n l => max n l.length) n := by
  induction ls with
  | nil => intro n; simp
  | cons x xs ih =>
    intro n
    rcases ih (max n x.length) with h | ⟨l, hl, h⟩
    · simp only [List.foldl_cons]
      rw [h]
      rcases Nat.le_total n x.length with e | e
      · right; exact ⟨x, by simp, by omega⟩
      · left; omega
    · right; exact ⟨l, by simp [hl], h⟩

theorem longestLine_spec {ls : List Str} (hne : ls ≠ []) : (∀ l ∈ ls, l.length ≤ longestLine ls) ∧ ∃ l ∈ ls, l.length = longestLine ls := by
  refine ⟨(foldl_max_le ls 0).2, ?_⟩
  rcases foldl_max_mem ls 0 with h | h
  · obtain ⟨x, xs, rfl⟩ := List.exists_cons_of_ne_nil hne
    refine ⟨x, by simp, ?_⟩
    have := (foldl_max_le (x :: xs) 0).2 x (by simp)
    have e : longestLine (x :: xs) = 0 := h
    rw [e]; rw [h] at this; omega
  · exact h

theorem TextLine.length_pos {l : Str} (h : TextLine l) : 0 < l.length := by
  cases l with
  | nil => exact absurd rfl h.ne
  | cons => simp

theorem longestLine_pos {ls : List Str} (hne : ls ≠ []) (h : ∀ l ∈ ls, TextLine l) : 0 < longestLine ls := by
  obtain ⟨x, xs, rfl⟩ := List.exists_cons_of_ne_nil hne
  exact Nat.lt_of_lt_of_le (h x (by simp)).length_pos ((longestLine_spec hne).1 x (by simp))

theorem wide_width {w : Width} (h : w.ge 3 = true) : w = .inf ∨ ∃ n : Int, w = .fin n ∧ 3 ≤ n := by
  cases w with
  | inf => exact .inl rfl
  | fin n => exact .inr ⟨n, rfl, by simpa [Width.ge] using h⟩

/-- Blocks without nested documents, except tables. -/
def Node.leaf : Node → Bool
  | .blank | .heading .. | .underlined .. | .par .. | .rule .. | .code .. => true
  | _ => false

theorem underline_of {u : Str} {c : Char} {m : Nat} (hc : c = '=' ∨ c = '-') (hi : getIndent u < 4)
    (hu : strip u = List.replicate (m + 1) c) : isSetextUnderline u = true ∧ ∀ x ∈ u, isWs x = true ∨ x = c := by
  refine ⟨?_, ?_⟩
  · simp only [isSetextUnderline, isIndentedStart, hu, Bool.and_eq_true, Bool.or_eq_true, Bool.not_eq_true']
    refine ⟨⟨by simp; omega, by simp⟩, ?_⟩
    rcases hc with rfl | rfl
    · exact .inl (by simp)
    · exact .inr (by simp)
  · obtain ⟨a, b, h1, h2, h3⟩ := strip_parts u
    intro x hx
    rw [h1] at hx
    rcases List.mem_append.1 hx with hx | hx
    · exact .inl (h2 x hx)
    · rcases List.mem_append.1 hx with hx | hx
      · rw [hu] at hx; exact .inr (List.eq_of_mem_replicate hx)
      · exact .inl (h3 x hx)

/-- Text that stands for a leaf is a flat section, and the leaf is written down like the program does. -/
theorem leaf_flat {R : List Str → List Node → Prop} {S : List Str → Bool → Prop} {ls : List Str} {a : Node} {d : Nat}
    (h : ReadsNode R S ls a) (hw : a.WF (d + 1)) (hl : a.leaf = true) :
    Flat a.kind ls ∧ ∀ w, Formats w a.kind ls (a.print w) := by
  cases h with
  | @blank l h hnl =>
    refine ⟨.blank (by rw [isBlankLine, List.isEmpty_iff, strip_eq_nil]; exact h) hnl, fun w => .blank l⟩
  | @heading ws text k hws hi ht hnl =>
    obtain ⟨hk, hne, hst, hlb⟩ := hw
    refine ⟨.atx ?_ ?_, fun w => .atx hk hws ht⟩
    · rw [isAtx_iff]
      obtain ⟨k, rfl⟩ : ∃ j, k = j + 1 := ⟨k - 1, by omega⟩
      rw [List.append_assoc, List.replicate_succ, List.cons_append]
      refine ⟨?_, ?_⟩
      · rw [getIndent_ws_append hws, getIndent_not_ws (by decide)]; omega
      · rw [lstrip_append_ws _ _ hws, lstrip_cons_of_not _ _ (by decide)]; exact ⟨_, rfl⟩
    · exact (hnl.1.append (replicate_noLB' (by decide) k)).append hnl.2
  | @underlined ls ts u c m h hi hu hnl =>
    obtain ⟨hc, _⟩ := hw
    obtain ⟨h1, h2⟩ := underline_of hc hi hu
    refine ⟨.setext h h1 hnl, fun w => ?_⟩
    have hsp := longestLine_spec (text_layLines h.layable w).2.1
    exact .setext h hc h2 hsp.1 hsp.2
  | par h => exact ⟨.par h, fun w => .par h⟩
  | @rule l c hi hc h3 hb hnl =>
    have hcc : c = '*' ∨ c = '_' ∨ c = '-' := hw
    refine ⟨.thematic ?_ ?_ hnl, fun w => .thematic hcc hc⟩
    · rw [isThematic_iff]
      refine ⟨by simp [isIndentedStart]; intro _; omega, c, hcc, h3, fun x hx hxw => ?_⟩
      rcases hc x hx with e | e
      · rw [hxw] at e; cases e
      · exact e
    · rw [isBulletStart, ← bulletLine_eq, hb]; simp
  | @code f k ws info close content hws hi hinfo hclose hnl =>
    obtain ⟨hf, hk, hst, hinfo2, _, hbody⟩ := hw
    refine ⟨.fenced hf hk hws hinfo hinfo2 ?_ hclose hnl, fun w => .fenced hf (by omega) hws hinfo⟩
    intro c hc
    have := (hbody (rstrip c) (List.mem_map.2 ⟨c, hc, rfl⟩)).2.2
    rwa [strip_rstrip] at this
  | table | quote | bullets | numbers | hard | indented | ref | tail => cases hl

theorem leaf_print {R : List Str → List Node → Prop} {S : List Str → Bool → Prop} {a : Node} {d : Nat} {w : Width}
    (hw : a.WF (d + 1)) (hl : a.leaf = true) (hwide : a.wide w = true) : ReadsNode R S (a.print w) (a.settle w) := by
  cases a with
  | blank => exact .blank (by simp) (by intro c hc; cases hc)
  | heading k t =>
    obtain ⟨hk, hne, hst, hlb⟩ := hw
    have h : ReadsNode R S [[] ++ List.replicate k '#' ++ (' ' :: t)] (.heading k (strip (' ' :: t))) :=
      .heading (by simp) (by simp) (by simp) ⟨noLB_nil, .cons (by decide) hlb⟩
    rw [strip_space, hst] at h
    exact h
  | underlined c ts =>
    obtain ⟨hc, hts⟩ := hw
    obtain ⟨h1, h2, _⟩ := text_layLines hts w
    have hpos := longestLine_pos h2 h1.lines
    have hcw : isWs c = false := by rcases hc with rfl | rfl <;> decide
    obtain ⟨m, hm⟩ : ∃ m, longestLine (layLines w ts) = m + 1 := ⟨longestLine (layLines w ts) - 1, by omega⟩
    refine .underlined (m := m) h1 ?_ ?_ (replicate_noLB' hcw _)
    · rw [hm, List.replicate_succ, getIndent_not_ws hcw]; omega
    · rw [replicate_strip hcw, hm]
  | par ts => exact .par (text_layLines hw w).1
  | rule c =>
    have hcc : c = '*' ∨ c = '_' ∨ c = '-' := hw
    have hcw : isWs c = false := by rcases hcc with rfl | rfl | rfl <;> decide
    obtain ⟨k, hk, e⟩ := rule_facts c (wide_width hwide)
    show ReadsNode R S [MF.rule c w] _
    obtain ⟨ht, hb⟩ := isThematic_replicate hcc hk
    have hi : getIndent (List.replicate k c) = 0 := by
      obtain ⟨j, rfl⟩ : ∃ j, k = j + 1 := ⟨k - 1, by omega⟩
      rw [List.replicate_succ, getIndent_not_ws hcw]
    rw [e]
    refine .rule (by omega) ?_ ?_ ?_ (replicate_noLB' hcw k)
    · intro x hx; exact .inr (List.eq_of_mem_replicate hx)
    · rw [List.filter_eq_self.2]
      · simpa using hk
      · intro x hx; rw [List.eq_of_mem_replicate hx, hcw]; rfl
    · rw [bulletLine_eq]
      have := hb
      simp only [isBulletStart, isIndentedStart, hi] at this
      simpa using this
  | code f k info body =>
    obtain ⟨hf, hk, hst, hinfo, hlb, hbody⟩ := hw
    have hfw : isWs f = false := by rcases hf with rfl | rfl <;> decide
    have h : ReadsNode R S (([] ++ List.replicate k f ++ info) :: body ++ [List.replicate k f])
        (.code f k (strip info) (body.map rstrip)) :=
      .code (by simp) (by simp) hinfo (replicate_strip hfw k) ⟨noLB_nil, hlb, replicate_noLB' hfw k, fun c hc => (hbody c hc).2.1⟩
    rw [hst, List.map_congr_left (g := id) (fun c hc => (hbody c hc).1), List.map_id] at h
    exact h
  | _ => cases hl

/-- A leaf is formatted as it is written down. -/
theorem leaf_format {R : List Str → List Node → Prop} {S : List Str → Bool → Prop} {ls : List Str} {a : Node} {d : Nat}
    {w : Width} (h : ReadsNode R S ls a) (hw : a.WF (d + 1)) (hl : a.leaf = true) (hwide : a.wide w = true) (sub i) :
    fmtSection sub w i a.kind ls = .ok (pyJoin ['\n'] (a.print w)) := by
  obtain ⟨h1, h2⟩ := leaf_flat h hw hl
  obtain ⟨out, h3, _, _, h4⟩ := flat_formats h1 w (by
    intro e
    cases a <;> simp only [Node.kind] at e <;> try (cases e)
    exact wide_width hwide)
  rw [(h4 sub i).1, formats_fun h1 h3 (h2 w)]

/-! ## Paragraphs with a hard break, and indented code -/

theorem hardLast_concat (r : List Str) (l : Str) : hardLast (r ++ [l]) = r ++ [l ++ c!"  "] := by
  induction r with
  | nil => rfl
  | cons x r ih =>
    cases r with
    | nil => rfl
    | cons y r => rw [List.cons_append, List.cons_append, hardLast, ← List.cons_append, ih]; rfl

theorem hardLast_ne {ls : List Str} (h : ls ≠ []) : ∃ r l, ls = r ++ [l] ∧ hardLast ls = r ++ [l ++ c!"  "] := by
  obtain ⟨r, l, rfl⟩ : ∃ r l, ls = r ++ [l] := ⟨_, _, (List.dropLast_concat_getLast h).symm⟩
  exact ⟨r, l, rfl, hardLast_concat r l⟩

theorem fenceLine_iff (l : Str) : FenceLine l ↔ isFenceStart l = true := by
  have key : ∀ f : Char, isWs f = false → ((∃ r, lstrip l = f :: f :: f :: r) ↔ startsWith (strip l) (List.replicate 3 f) = true) := by
    intro f hfw
    rw [startsWith_three]
    constructor
    · rintro ⟨r, e⟩
      show ∃ r, rstrip (lstrip l) = _
      rw [e]
      obtain ⟨r', hr'⟩ := rstrip_cons_of_not f r hfw
      have h2 : rstrip ([f, f] ++ (f :: r)) = [f, f] ++ rstrip (f :: r) :=
        rstripBy_append_of_ne isWs [f, f] (f :: r) (by show rstrip (f :: r) ≠ []; rw [hr']; simp)
      exact ⟨r', by rw [show f :: f :: f :: r = [f, f] ++ (f :: r) from rfl, h2, hr']; rfl⟩
    · rintro ⟨r, e⟩
      obtain ⟨t, ht, _⟩ := rstrip_split (lstrip l)
      have e' : rstrip (lstrip l) = f :: f :: f :: r := e
      rw [e'] at ht
      exact ⟨r ++ t, ht⟩
  simp only [isFenceStart, List.any_cons, List.any_nil, Bool.or_false, Bool.or_eq_true]
  rw [← key '`' (by decide), ← key '~' (by decide)]
  constructor
  · rintro ⟨r, h | h⟩
    · exact .inl ⟨r, h⟩
    · exact .inr ⟨r, h⟩
  · rintro (⟨r, h⟩ | ⟨r, h⟩)
    · exact ⟨r, .inl h⟩
    · exact ⟨r, .inr h⟩

theorem not_fenceLine {l : Str} (h : ¬ FenceLine l) : isFenceStart l = false := by
  cases e : isFenceStart l with
  | false => rfl
  | true => exact absurd ((fenceLine_iff l).2 e) h

theorem strip_ne_of_rstrip {l : Str} (h : rstrip l = l) (hne : l ≠ []) : strip l ≠ [] := by
  intro e
  have := (rstrip_eq_nil l).2 ((strip_eq_nil l).1 e)
  rw [h] at this; exact hne this

/-- The lines of indented code. -/
theorem indented_facts {d : Nat} {ls : List Str} (h : ∀ l ∈ ls, strip l = [] ∨ 4 ≤ getIndent l)
    (hw : (Node.indented (ls.map rstrip)).WF (d + 1)) :
    (∀ l ∈ ls, isIndentedStart l = true ∨ isBlankLine l = true) ∧
      (∃ l r, ls = l :: r ∧ isIndentedStart l = true ∧ isFenceStart l = false) ∧
      ∃ r l, ls = r ++ [l] ∧ isIndentedStart l = true ∧ isFenceStart l = false := by
  obtain ⟨hall, ⟨x, r, e1, x1, x2⟩, r', y, e2, y1, y2⟩ := hw
  have key : ∀ l ∈ ls, rstrip l ≠ [] → ¬ FenceLine (rstrip l) → isIndentedStart l = true ∧ isFenceStart l = false := by
    intro l hl h1 h2
    have hs : strip l ≠ [] := by
      intro e; exact h1 ((rstrip_eq_nil l).2 ((strip_eq_nil l).1 e))
    refine ⟨?_, ?_⟩
    · simp only [isIndentedStart, Bool.and_eq_true, Bool.not_eq_true']
      exact ⟨by simpa using hs, by simpa using (h l hl).resolve_left hs⟩
    · have := not_fenceLine h2
      unfold isFenceStart at this ⊢
      rwa [strip_rstrip] at this
  refine ⟨?_, ?_, ?_⟩
  · intro l hl
    by_cases hs : strip l = []
    · right; rw [isBlankLine, hs]; rfl
    · left
      simp only [isIndentedStart, Bool.and_eq_true, Bool.not_eq_true']
      exact ⟨by simpa using hs, by simpa using (h l hl).resolve_left hs⟩
  · cases ls with
    | nil => cases e1
    | cons l ls =>
      rw [List.map_cons] at e1
      injection e1 with e1 _
      exact ⟨l, ls, rfl, key l (by simp) (by rw [e1]; exact x1) (by rw [e1]; exact x2)⟩
  · rcases List.eq_nil_or_concat ls with e | ⟨p, l, e⟩
    · rw [e] at e2; simp at e2
    · rw [List.concat_eq_append] at e
      rw [e, List.map_append, List.map_singleton] at e2
      have e3 := List.append_inj_right' e2 rfl
      injection e3 with e3
      exact ⟨p, l, e, key l (by rw [e]; simp) (by rw [e3]; exact y1) (by rw [e3]; exact y2)⟩

theorem indented_print {R : List Str → List Node → Prop} {S : List Str → Bool → Prop} {body : List Str} {d : Nat}
    (hw : (Node.indented body).WF (d + 1)) : ReadsNode R S body (.indented body) := by
  obtain ⟨hall, _⟩ := hw
  have : ReadsNode R S body (.indented (body.map rstrip)) := .indented (fun l hl => ?_) fun l hl => (hall l hl).2.1
  · rwa [List.map_congr_left (g := id) (fun l hl => (hall l hl).1), List.map_id] at this
  · rcases (hall l hl).2.2 with rfl | h
    · exact .inl rfl
    · exact .inr h

theorem hard_print {R : List Str → List Node → Prop} {S : List Str → Bool → Prop} {ts : List Tok} (h : Layable ts) (w : Width) :
    ReadsNode R S (hardLast (layLines w ts)) (.hard (MF.settle w ts)) := by
  obtain ⟨h1, h2, _⟩ := text_layLines h w
  obtain ⟨r, l, e1, e2⟩ := hardLast_ne h2
  rw [e1] at h1
  rw [e2]
  exact .hard h1 (by decide) (by decide)

end MF
