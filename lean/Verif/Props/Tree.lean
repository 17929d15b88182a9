import Verif.Lemmas.TreeSettle
/-!
# Documents are formatted by writing their tree down (C54)
-/

namespace MF

theorem apart_prefix {a b : List Node} : ∀ {s : Bool}, apart s (a ++ b) = true → apart s a = true := by
  induction a with
  | nil => intro s _; rfl
  | cons x a ih =>
    intro s h
    cases x <;> first
      | exact ih (s := s) h
      | exact ih (s := false) h
      | (rw [List.cons_append, apart, Bool.and_eq_true] at h
         rw [apart, Bool.and_eq_true]
         exact ⟨h.1, ih h.2⟩)

theorem flow_trim {doc : List Node} (h : Flow doc) : Flow (trimEnd doc) := by
  obtain ⟨k, e, _⟩ := trimEnd_spec doc
  refine ⟨fun a x y b hx => h.adj a x y (b ++ List.replicate k .blank) ?_, ?_, ?_⟩
  · rw [e, hx]; simp
  · have := h.apart; rw [e] at this; exact apart_prefix this
  · rw [trimEnd_idem]; exact h.last

theorem flow_blank : Flow [.blank] := by
  refine ⟨?_, rfl, ?_⟩
  · intro a x y b hx
    have := congrArg List.length hx
    simp at this; omega
  · intro r ts e
    have : trimEnd [.blank] = [] := rfl
    rw [this] at e
    simp at e

theorem wfDoc_trim {d : Nat} {doc : List Node} (h : WFDoc d doc) : WFDoc d (trimEnd doc) := by
  obtain ⟨k, e, _⟩ := trimEnd_spec doc
  exact ⟨fun a ha => h.1 a (by rw [e]; simp [ha]), flow_trim h.2⟩

theorem wideDoc_trim {w : Width} {doc : List Node} (h : wideDoc w doc = true) : wideDoc w (trimEnd doc) = true := by
  obtain ⟨k, e, _⟩ := trimEnd_spec doc
  rw [wideDoc_mem] at h ⊢
  exact fun a ha => h a (by rw [e]; simp [ha])

theorem print_last_tame {d : Nat} {a : Node} (hw : a.WF d) {w : Width} (hwide : a.wide w = true) (hb : a.kind ≠ .blank) :
    ∃ r l, a.print w = r ++ [l] ∧ l ≠ [] := by
  obtain ⟨p, q, e, h0⟩ := print_head d a hw w hwide
  have hlast : ∃ r l, a.print w = r ++ [l] := ⟨_, _, (List.dropLast_concat_getLast (by rw [e]; simp)).symm⟩
  obtain ⟨r, l, he⟩ := hlast
  refine ⟨r, l, he, ?_⟩
  have hl : l ∈ a.print w := by rw [he]; simp
  have hin : a.inside = true → l ≠ [] := by
    intro hi h0
    exact ((print_lines d a hw w l hl).2.2 hi).strip (by rw [h0]; rfl)
  cases d with
  | zero => exact hw.elim
  | succ d =>
    cases a with
    | blank => exact absurd rfl hb
    | heading | par | hard | ref | tail | quote | bullets | numbers => exact hin rfl
    | indented body =>
      obtain ⟨_, _, r', x, e', hx, _⟩ := hw
      rw [Node.print, e'] at he
      have := List.append_inj_right' he rfl
      injection this with this
      rw [← this]; exact hx
    | underlined c ts =>
      obtain ⟨_, hts⟩ := hw
      rw [Node.print] at he
      have := List.append_inj_right' he rfl
      injection this with this
      intro h0
      rw [h0] at this
      have hz : longestLine (layLines w ts) = 0 := by simpa using this
      obtain ⟨h1, h2, _⟩ := text_layLines hts w
      have := longestLine_pos h2 h1.lines
      omega
    | rule c =>
      rw [e] at he
      have hq : q = [] := by
        have : (Node.rule c).print w = [MF.rule c w] := rfl
        rw [this] at e; injection e with _ e2; exact e2.symm
      subst hq
      obtain ⟨h1, _⟩ := h0 (by simp [Node.kind])
      cases r with
      | nil => cases he; intro h2; rw [h2] at h1; exact h1 rfl
      | cons x r => simp at he
    | code f k info body =>
      rw [Node.print] at he
      have := List.append_inj_right' he rfl
      injection this with this
      rw [← this]
      obtain ⟨_, hk, _⟩ := hw
      intro h0
      rw [List.replicate_eq_nil_iff] at h0
      omega
    | table as head rows =>
      rw [Node.print] at hl
      simp only [tableLines, List.mem_cons, List.mem_map] at hl
      rcases hl with rfl | rfl | ⟨x, _, rfl⟩ <;> simp [barred]

theorem hang_last (p q : Str) (r : List Str) (l : Str) : ∃ r' x, hang p q (r ++ [l]) = r' ++ [x ++ l] := by
  cases r with
  | nil => exact ⟨[], p, rfl⟩
  | cons y r => exact ⟨(p ++ y) :: r.map (q ++ ·), q, by simp [hang]⟩

theorem printItems_last (w : Width) (mark : Nat → Str) (cont : Str) (items : List (List Node)) (it : List Node) : ∀ k,
    ∃ pre j, printItems w mark cont k (items ++ [it]) = pre ++ hang (mark j) cont (printDoc w it) := by
  induction items with
  | nil => intro k; exact ⟨[], k, by simp [printItems]⟩
  | cons x items ih =>
    intro k
    obtain ⟨pre, j, e⟩ := ih (k + 1)
    exact ⟨hang (mark k) cont (printDoc w x) ++ pre, j, by rw [List.cons_append, printItems, e, List.append_assoc]⟩

/-- The last line of a block has no white space at its end, hard breaks aside. -/
theorem last_clean : ∀ (d : Nat) (a : Node), a.WF d → ∀ w, a.wide w = true → (∀ ts, a ≠ .hard ts) → ∀ r l,
    a.print w = r ++ [l] → rstrip l = l := by
  intro d
  induction d with
  | zero => intro a h; exact h.elim
  | succ d ih =>
    intro a hw w hwide hh r l e
    have items : ∀ (w : Width) (mark : Nat → Str) (cont : Str) (k : Nat) (items : List (List Node)), items ≠ [] →
        (∀ it ∈ items, it ≠ [] ∧ (∀ a ∈ it, a.WF d ∧ a.inside = true) ∧ Flow it) → wideItems w items = true →
        printItems w mark cont k items = r ++ [l] → rstrip l = l := by
      intro w mark cont k items hne hit hwi e
      obtain ⟨is, it, rfl⟩ : ∃ r x, items = r ++ [x] := ⟨_, _, (List.dropLast_concat_getLast hne).symm⟩
      obtain ⟨h1, h2, h3⟩ := hit it (by simp)
      have hwd := wideItems_mem.1 hwi it (by simp)
      obtain ⟨as, b, rfl⟩ : ∃ r x, it = r ++ [x] := ⟨_, _, (List.dropLast_concat_getLast h1).symm⟩
      obtain ⟨hb1, hb2⟩ := h2 b (by simp)
      have hbw := wideDoc_mem.1 hwd b (by simp)
      have hbb : b.kind ≠ .blank := by intro e; cases b <;> first | (cases e; done) | cases hb2
      have hbh : ∀ ts, b ≠ .hard ts := by
        rintro ts rfl
        cases h3.last as _ (trimEnd_concat _ _ hbb)
      obtain ⟨r', x, hx, hxne⟩ := print_last_tame hb1 hbw hbb
      have hxc := ih b hb1 w hbw hbh r' x hx
      have hxt := (print_lines d b hb1 w x (by rw [hx]; simp)).2.2 hb2
      obtain ⟨pre, j, e1⟩ := printItems_last w mark cont is (as ++ [b]) k
      have e2 : printDoc w (as ++ [b]) = (printDoc w as ++ r') ++ [x] := by
        rw [printDoc_append, printDoc, printDoc, hx]; simp
      obtain ⟨r2, y, e3⟩ := hang_last (mark j) cont (printDoc w as ++ r') x
      rw [e1, e2, e3, ← List.append_assoc] at e
      have := List.append_inj_right' e rfl
      injection this with this
      rw [← this]
      exact rstrip_append_of_strip hxt.strip hxc
    have hl : l ∈ a.print w := by rw [e]; simp
    have soft : a.soft = true → rstrip l = l := (print_lines (d + 1) a hw w l hl).2.1
    cases a with
    | hard ts => exact absurd rfl (hh ts)
    | quote sp inner => exact soft hw.2.2.2.1
    | bullets c is => exact items _ _ _ _ is hw.2.1 hw.2.2 hwide e
    | numbers first is => exact items _ _ _ _ is hw.2.1 hw.2.2 hwide e
    | _ => exact soft rfl

/-- The text of a tree has no empty lines at its end. -/
theorem rstrip_print {d : Nat} {doc : List Node} {w : Width} (hw : WFDoc d doc) (hwide : wideDoc w doc = true) :
    rstrip (pyJoin ['\n'] (printDoc w doc)) = pyJoin ['\n'] (printDoc w (trimEnd doc)) := by
  obtain ⟨k, e, h⟩ := trimEnd_spec doc
  have hz : ∀ k, rstrip (pyJoin ['\n'] (printDoc w (trimEnd doc ++ List.replicate k .blank))) =
      rstrip (pyJoin ['\n'] (printDoc w (trimEnd doc))) := by
    intro k
    induction k with
    | zero => simp
    | succ k ih =>
      rw [List.replicate_succ', ← List.append_assoc, printDoc_append, ← ih]
      exact rstrip_join_blank _
  have e2 : rstrip (pyJoin ['\n'] (printDoc w doc)) = rstrip (pyJoin ['\n'] (printDoc w (trimEnd doc))) := by
    rw [← hz k, ← e]
  rw [e2]
  rcases h with h | ⟨r, a, ha, hb⟩
  · rw [h]; rfl
  · have hm : a ∈ doc := by rw [e, ha]; simp
    obtain ⟨r', l, hl, hne⟩ := print_last_tame (hw.1 a hm) (wideDoc_mem.1 hwide a hm) hb
    have hl2 := last_clean d a (hw.1 a hm) w (wideDoc_mem.1 hwide a hm) (by
      rintro ts rfl
      cases hw.2.last r _ ha) r' l hl
    rw [ha, printDoc_append]
    have : printDoc w [a] = r' ++ [l] := by rw [printDoc, printDoc, hl, List.append_nil]
    rw [this, ← List.append_assoc]
    obtain ⟨l', c, rfl⟩ : ∃ l' c, l = l' ++ [c] := ⟨_, _, (List.dropLast_concat_getLast hne).symm⟩
    refine rstrip_ends (pyJoin_getLast (by simp)) (c := c) ?_
    cases hc : isWs c with
    | false => rfl
    | true =>
      have h3 : rstrip (l' ++ [c]) = rstrip l' := rstripBy_append_all _ _ _ (by simp [hc])
      have h4 : (rstrip l').length ≤ l'.length := by
        obtain ⟨t, ht, _⟩ := rstrip_split l'
        have := congrArg List.length ht
        simp at this; omega
      rw [← h3, hl2] at h4
      simp at h4
      omega

theorem print_lines_doc {d : Nat} {doc : List Node} (hw : WFDoc d doc) (w : Width) : ∀ l ∈ printDoc w doc, NoLB l := by
  intro l hl
  obtain ⟨a, ha, hla⟩ := mem_printDoc.1 hl
  exact (print_lines d a (hw.1 a ha) w l hla).1

/-- A written tree: the lines of the text stand for the settled tree. -/
theorem print_text {d : Nat} {doc : List Node} {w : Width} (hw : WFDoc (d + 1) doc) (hwide : wideDoc w doc = true)
    (hne : doc ≠ []) : splitlines (pyJoin ['\n'] (printDoc w doc) ++ ['\n']) = printDoc w doc ∧
      Reads (d + 1) (printDoc w doc) (settleDoc w doc) := by
  obtain ⟨l, r, e⟩ := printDoc_ne hw.1 hwide hne
  obtain ⟨hk, hw'⟩ := kept_doc hw w
  have := print_reads hw' (by rw [hk.wide]; exact hwide) hk.idem
  rw [hk.print] at this
  exact ⟨splitlines_join_nl _ (print_lines_doc hw w) (by rw [e]; simp), this⟩

/-- C54: text that stands for a tree is formatted by writing the tree down, without the empty lines at its end. -/
theorem C54_format (d n : Nat) (hn : d + 1 ≤ n) (w : Width) (text : Str) (doc : List Node) (h : Reads d (splitlines text) doc)
    (hw : WFDoc d doc) (hwide : wideDoc w doc = true) :
    reformatMarkdownText n w text = .ok (pyJoin ['\n'] (printDoc w (trimEnd doc)) ++ ['\n']) := by
  cases d with
  | zero => exact h.elim
  | succ d =>
    have h1 := reads_format (d + 1) n hn w text _ doc rfl h hw hwide
    have h2 : reformatText n w (pyJoin ['\n'] (printDoc w doc) ++ ['\n']) =
        .ok (pyJoin ['\n'] (printDoc w doc) ++ ['\n']) := by
      by_cases hne : doc = []
      · subst hne
        have hb : ReadsNode (Reads d) (Divides d) [[]] .blank := .blank (by simp) noLB_nil
        exact reads_format (d + 1) n hn w _ [[]] [.blank] rfl ⟨[[[]]], rfl, .cons hb .nil⟩
          ⟨by intro a ha; rw [List.mem_singleton.1 ha]; trivial, flow_blank⟩ rfl
      · obtain ⟨e1, e2⟩ := print_text hw hwide hne
        obtain ⟨hk, hw'⟩ := kept_doc hw w
        have := reads_format (d + 1) n hn w _ _ _ e1 e2 hw' (by rw [hk.wide]; exact hwide)
        rwa [hk.print] at this
    simp only [reformatMarkdownText, h1, h2, bind, Except.bind]
    rw [if_neg (by simp)]
    congr 2
    rw [← rstrip_print hw hwide]
    exact rstripBy_append_all _ _ _ (by decide)

theorem looseDoc_trim {doc : List Node} (h : looseDoc doc) : looseDoc (trimEnd doc) := by
  induction doc with
  | nil => trivial
  | cons a r ih =>
    by_cases hab : a = .blank ∧ trimEnd r = []
    · have : trimEnd (a :: r) = [] := by simp [trimEnd, hab.1, hab.2]
      rw [this]; trivial
    · have : trimEnd (a :: r) = a :: trimEnd r := by
        rw [trimEnd]
        exact fun h1 h2 => hab ⟨h1, h2⟩
      rw [this]
      exact ⟨h.1, ih h.2⟩

/-- C54: the formatted text stands for the settled tree, without the empty lines at its end. -/
theorem C54_reads (d n : Nat) (hn : d + 1 ≤ n) (w : Width) (text y : Str) (doc : List Node) (h : Reads d (splitlines text) doc)
    (hw : WFDoc d doc) (hwide : wideDoc w doc = true) (hy : reformatMarkdownText n w text = .ok y)
    (hne : trimEnd doc ≠ []) : Reads d (splitlines y) (settleDoc w (trimEnd doc)) := by
  cases d with
  | zero => exact h.elim
  | succ d =>
    rw [C54_format (d + 1) n hn w text doc h hw hwide] at hy
    cases hy
    obtain ⟨e1, e2⟩ := print_text (wfDoc_trim hw) (wideDoc_trim hwide) hne
    rw [e1]; exact e2

/-- C54: formatting the result again changes nothing. -/
theorem C54_stable (d n : Nat) (hn : d + 1 ≤ n) (w : Width) (text y : Str) (doc : List Node) (h : Reads d (splitlines text) doc)
    (hw : WFDoc d doc) (hwide : wideDoc w doc = true) (hy : reformatMarkdownText n w text = .ok y) :
    reformatMarkdownText n w y = .ok y := by
  by_cases hne : trimEnd doc = []
  · rw [C54_format d n hn w text doc h hw hwide, hne] at hy
    cases hy
    cases d with
    | zero => exact h.elim
    | succ d =>
      have hb : ReadsNode (Reads d) (Divides d) [[]] .blank := .blank (by simp) noLB_nil
      exact C54_format (d + 1) n hn w _ [.blank] ⟨[[[]]], rfl, .cons hb .nil⟩
        ⟨by intro a ha; rw [List.mem_singleton.1 ha]; trivial, flow_blank⟩ rfl
  · have h1 := C54_reads d n hn w text y doc h hw hwide hy hne
    obtain ⟨hk, hw'⟩ := kept_doc (wfDoc_trim hw) w
    have h2 := C54_format d n hn w y _ h1 hw' (by rw [hk.wide]; exact wideDoc_trim hwide)
    rw [settleDoc_trim, trimEnd_idem, hk.print, ← C54_format d n hn w text doc h hw hwide, hy] at h2
    exact h2

/-- C54: two texts that stand for the same tree are formatted alike, at every width with room for its rules. -/
theorem C54_same_tree (d n : Nat) (hn : d + 1 ≤ n) (w : Width) (text text' : Str) (doc : List Node)
    (h : Reads d (splitlines text) doc) (h' : Reads d (splitlines text') doc) (hw : WFDoc d doc)
    (hwide : wideDoc w doc = true) : reformatMarkdownText n w text = reformatMarkdownText n w text' := by
  rw [C54_format d n hn w text doc h hw hwide, C54_format d n hn w text' doc h' hw hwide]

/-- C54: going through another width first makes no difference to documents without glued tokens. -/
theorem C54_widths (d n : Nat) (hn : d + 1 ≤ n) (w w' : Width) (text y : Str) (doc : List Node)
    (h : Reads d (splitlines text) doc) (hw : WFDoc d doc) (hl : looseDoc doc) (hwide : wideDoc w doc = true)
    (hwide' : wideDoc w' doc = true) (hy : reformatMarkdownText n w text = .ok y) :
    reformatMarkdownText n w' y = reformatMarkdownText n w' text := by
  by_cases hne : trimEnd doc = []
  · have h2 := C54_stable d n hn w text y doc h hw hwide hy
    rw [C54_format d n hn w text doc h hw hwide, hne] at hy
    rw [C54_format d n hn w' text doc h hw hwide', hne]
    cases hy
    cases d with
    | zero => exact h.elim
    | succ d =>
      have hb : ReadsNode (Reads d) (Divides d) [[]] .blank := .blank (by simp) noLB_nil
      exact C54_format (d + 1) n hn w' _ [.blank] ⟨[[[]]], rfl, .cons hb .nil⟩
        ⟨by intro a ha; rw [List.mem_singleton.1 ha]; trivial, flow_blank⟩ rfl
  · have h1 := C54_reads d n hn w text y doc h hw hwide hy hne
    rw [settleDoc_loose w _ (looseDoc_trim hl)] at h1
    rw [C54_format d n hn w' y _ h1 (wfDoc_trim hw) (wideDoc_trim hwide'), trimEnd_idem,
      C54_format d n hn w' text doc h hw hwide']

/-- The condition is needed: what was glued to a code span is separated from it for good. -/
theorem C54_widths_refuted : ∃ text y, reformatMarkdownText 3 (.fin 5) text = .ok y ∧
    reformatMarkdownText 3 (.fin 80) y ≠ reformatMarkdownText 3 (.fin 80) text :=
  ⟨c!"`abc`def", c!"`abc`\ndef\n", by decide +kernel, by decide +kernel⟩

/-- The text stands for a tree. -/
def StandsFor (text : Str) (doc : List Node) : Prop := ∃ d, Reads d (splitlines text) doc ∧ WFDoc d doc

/-- C54: a text stands for at most one tree. -/
theorem C54_unique (text : Str) (doc doc' : List Node) (h : StandsFor text doc) (h' : StandsFor text doc') : doc = doc' := by
  obtain ⟨d, h1, h2⟩ := h
  obtain ⟨d', h1', h2'⟩ := h'
  exact reads_unique (max d d') _ _ _ (reads_le (Nat.le_max_left _ _) h1) (reads_le (Nat.le_max_right _ _) h1')
    (wfDoc_le (Nat.le_max_left _ _) h2) (wfDoc_le (Nat.le_max_right _ _) h2')

/-- What is written stands for the settled tree. -/
theorem standsFor_print (d : Nat) (doc : List Node) (hw : WFDoc d doc) (hne : doc ≠ []) (w : Width) (hwide : wideDoc w doc = true) :
    StandsFor (pyJoin ['\n'] (printDoc w doc) ++ ['\n']) (settleDoc w doc) := by
  cases d with
  | zero =>
    obtain ⟨a, as, rfl⟩ := List.exists_cons_of_ne_nil hne
    exact (hw.1 a (by simp)).elim
  | succ d =>
    obtain ⟨e1, e2⟩ := print_text hw hwide hne
    exact ⟨d + 1, by rw [e1]; exact e2, (kept_doc hw w).2⟩

/-- C54: every tree without glued tokens that can be written down is the tree of what is written. -/
theorem C54_every_tree (d : Nat) (doc : List Node) (hw : WFDoc d doc) (hl : looseDoc doc) (hne : doc ≠ []) (w : Width)
    (hwide : wideDoc w doc = true) : StandsFor (pyJoin ['\n'] (printDoc w doc) ++ ['\n']) doc := by
  have := standsFor_print d doc hw hne w hwide
  rwa [settleDoc_loose w doc hl] at this

/-- C54: what formatting does to the tree. If a text stands for a tree then so does the formatted text. The new tree is
the settled tree without the empty lines at the end; that is the tree itself if no token is glued to another. -/
theorem C54_tree_kept (text : Str) (doc : List Node) (h : StandsFor text doc) (w : Width) (hwide : wideDoc w doc = true)
    (hne : trimEnd doc ≠ []) : ∃ n, ∀ m, n ≤ m → ∃ y, reformatMarkdownText m w text = .ok y ∧
      (∀ doc', StandsFor y doc' ↔ doc' = settleDoc w (trimEnd doc)) ∧
      (looseDoc doc → ∀ doc', StandsFor y doc' ↔ doc' = trimEnd doc) := by
  obtain ⟨d, h1, h2⟩ := h
  have hs : StandsFor (pyJoin ['\n'] (printDoc w (trimEnd doc)) ++ ['\n']) (settleDoc w (trimEnd doc)) :=
    standsFor_print d _ (wfDoc_trim h2) hne w (wideDoc_trim hwide)
  have key : ∀ doc', StandsFor (pyJoin ['\n'] (printDoc w (trimEnd doc)) ++ ['\n']) doc' ↔ doc' = settleDoc w (trimEnd doc) :=
    fun doc' => ⟨fun h' => C54_unique _ _ _ h' hs, fun e => e ▸ hs⟩
  refine ⟨d + 1, fun m hm => ⟨_, C54_format d m hm w text doc h1 h2 hwide, key, fun hl doc' => ?_⟩⟩
  rw [key, settleDoc_loose w _ (looseDoc_trim hl)]

/-- The text of a document: the texts of the tokens of each block. Settling changes only the gaps between them. -/
theorem C54_settle_texts (w : Width) (ts : List Tok) : (settle w ts).map (·.text) = ts.map (·.text) :=
  (settle_respaced w ts).texts

/-! ## Structure and white space (C47, C32) -/

/-- The sections of a block. Indented code of more than one line is parsed as two sections: the parser cuts off its last
line. -/
def Node.kinds : Node → List Sec
  | .indented body => if body.length ≤ 1 then [.indented] else [.indented, .indented]
  | a => [a.kind]

theorem kinds_settle (w : Width) (doc : List Node) : (settleDoc w doc).map Node.kinds = doc.map Node.kinds := by
  rw [settleDoc_map, List.map_map]
  exact List.map_congr_left fun a _ => by cases a <;> rfl

theorem kinds_other {a : Node} (h : a.kind ≠ .indented) : a.kinds = [a.kind] := by
  cases a <;> first | rfl | exact absurd rfl h

theorem reads_kinds {d n : Nat} (hn : d ≤ n) {ls : List Str} {doc : List Node} (h : Reads d ls doc) (hw : WFDoc d doc) :
    ∃ S, parse n ls = .ok S ∧ S.map (·.1) = (doc.map Node.kinds).flatten := by
  cases d with
  | zero => exact h.elim
  | succ d =>
    obtain ⟨parts, rfl, he⟩ := h
    obtain ⟨h1, h2, h3⟩ := reads_sections he hw
    have h4 := parse_sections (d + 1) n hn _ h1
    rw [h2] at h4
    refine ⟨_, h4, ?_⟩
    clear h1 h2 h3 h4 hw
    induction he with
    | nil => rfl
    | @cons p a ps as h hs ih =>
      rw [blks, blkSecs_cons, List.map_append, ih, List.map_cons, List.flatten_cons]
      congr 1
      by_cases hi : a.kind = .indented
      · cases h with
        | @indented ls h hn =>
          match p with
          | [] | [l] => rfl
          | l :: m :: r =>
            rw [Node.kinds, if_neg (by simp)]; rfl
        | _ => cases hi
      · rw [secs_other hi, kinds_other hi]; rfl

/-- **C47 (partial).** Formatting a text that stands for a tree keeps the kinds of its blocks, except for blank lines at
the end. Missing: texts that stand for no tree, for which the claim is false in general. -/
theorem C47_tree_partial (text : Str) (doc : List Node) (h : StandsFor text doc) (w : Width) (hwide : wideDoc w doc = true)
    (hne : trimEnd doc ≠ []) : ∃ n, ∀ m, n ≤ m → ∃ y S S', reformatMarkdownText m w text = .ok y ∧
      parse m (splitlines text) = .ok S ∧ parse m (splitlines y) = .ok S' ∧
      S.map (·.1) = (doc.map Node.kinds).flatten ∧ S'.map (·.1) = ((trimEnd doc).map Node.kinds).flatten ∧
      ∃ k, S.map (·.1) = S'.map (·.1) ++ List.replicate k .blank := by
  obtain ⟨d, h1, h2⟩ := h
  refine ⟨d + 1, fun m hm => ?_⟩
  have hf := C54_format d m hm w text doc h1 h2 hwide
  have hr := C54_reads d m hm w text _ doc h1 h2 hwide hf hne
  obtain ⟨S, e1, e2⟩ := reads_kinds (n := m) (by omega) h1 h2
  obtain ⟨S', e3, e4⟩ := reads_kinds (n := m) (by omega) hr (kept_doc (wfDoc_trim h2) w).2
  rw [kinds_settle] at e4
  refine ⟨_, S, S', hf, e1, e3, e2, e4, ?_⟩
  obtain ⟨k, ek, _⟩ := trimEnd_spec doc
  refine ⟨k, ?_⟩
  rw [e2, e4]
  conv => lhs; rw [ek]
  have : ∀ k, (List.map Node.kinds (List.replicate k .blank)).flatten = List.replicate k .blank := by
    intro k
    induction k with
    | zero => rfl
    | succ k ih => rw [List.replicate_succ, List.map_cons, List.flatten_cons, ih]; rfl
  rw [List.map_append, List.flatten_append, this]

/-- **C32 (partial).** Formatting a text that stands for a tree leaves no white space at the end of a line, lists
included, unless a paragraph ends in a hard break. Missing: texts that stand for no tree, for which the claim is false in
general. -/
theorem C32_tree_partial (text : Str) (doc : List Node) (h : StandsFor text doc) (hs : softDoc doc = true) (w : Width)
    (hwide : wideDoc w doc = true) :
    ∃ n, ∀ m, n ≤ m → ∃ y, reformatMarkdownText m w text = .ok y ∧ ∀ l ∈ splitlines y, CleanLine l := by
  obtain ⟨d, h1, h2⟩ := h
  refine ⟨d + 1, fun m hm => ⟨_, C54_format d m hm w text doc h1 h2 hwide, ?_⟩⟩
  have hw := wfDoc_trim h2
  have hclean : ∀ l : Str, rstrip l = l → CleanLine l := by
    intro l hl
    rcases List.eq_nil_or_concat l with h0 | ⟨r, c, h0⟩
    · exact .inl h0
    · rw [List.concat_eq_append] at h0
      refine .inr ⟨r, c, h0, ?_⟩
      cases hc : isWs c with
      | false => rfl
      | true =>
        have h3 : rstrip (r ++ [c]) = rstrip r := rstripBy_append_all _ _ _ (by simp [hc])
        have h4 : (rstrip r).length ≤ r.length := by
          obtain ⟨t, ht, _⟩ := rstrip_split r
          have := congrArg List.length ht
          simp at this; omega
        rw [← h3, ← h0, hl, h0] at h4
        simp at h4
        omega
  by_cases hp : printDoc w (trimEnd doc) = []
  · rw [hp]
    intro l hl
    have : splitlines (pyJoin ['\n'] [] ++ ['\n']) = [[]] := by decide
    rw [this, List.mem_singleton] at hl
    exact .inl hl
  · rw [splitlines_join_nl _ (print_lines_doc hw w) hp]
    intro l hl
    obtain ⟨a, ha, hla⟩ := mem_printDoc.1 hl
    obtain ⟨k, ek, _⟩ := trimEnd_spec doc
    exact hclean l ((print_lines d a (hw.1 a ha) w l hla).2.1 (softDoc_mem.1 hs a (by rw [ek]; simp [ha])))

/-! ## A concrete document -/

/-- The lines of a document with a heading, prose, a quote around a list and a rule, a numbered list with a nested list,
a rule and a table. -/
def treeExample : List Str :=
  [c!" ##Title one ", c!"Some *prose* of", c!"  words", c!" ",
   c!"> + first", c!">      item", c!"> + more", c!">", c!"> ___", c!"",
   c!"7. one", c!"1. two", c!"   * x", c!"   - y", c!"***",
   c!"| a | b|", c!"|:-:|---|", c!"| c c | d |"]

/-- Its tree. -/
def treeExampleDoc : List Node :=
  [.heading 2 c!"Title one", .par (plainToks [c!"Some", c!"*prose*", c!"of", c!"words"]), .blank,
   .quote true [.bullets '+' [[.par (plainToks [c!"first", c!"item"])], [.par (plainToks [c!"more"])]], .blank, .rule '_'], .blank,
   .numbers 7 [[.par (plainToks [c!"one"])], [.par (plainToks [c!"two"]), .bullets '*' [[.par (plainToks [c!"x"])], [.par (plainToks [c!"y"])]]]], .rule '*',
   .table [.center, .none] [c!"a", c!"b"] [[c!"c c", c!"d"]]]

theorem no_marker {l : Str} (h : markerEnd? l = none) : ∀ ws m r, ¬ MarkerAt l ws m r := markerEnd_none.1 h

theorem noLB_of {l : Str} (h : l.all (fun c => !isLB c) = true) : NoLB l := by
  intro c hc
  have := List.all_eq_true.1 h c hc
  simpa using this

theorem noLB_all {ls : List Str} (h : (ls.all fun l => l.all fun c => !isLB c) = true) : ∀ l ∈ ls, NoLB l :=
  fun l hl => noLB_of (List.all_eq_true.1 h l hl)

theorem allWs_of {l : Str} (h : l.all isWs = true) : ∀ c ∈ l, isWs c = true := List.all_eq_true.1 h

theorem par_reads {R : List Str → List Node → Prop} {S : List Str → Bool → Prop} {ls : List Str}
    (h : (!ls.isEmpty && ls.all proseOk) = true) : ReadsNode R S ls (.par (plainToks (words ls))) := by
  rw [Bool.and_eq_true] at h
  exact .par (prose_text (by intro h0; rw [h0] at h; simp at h) fun l hl => prose_of_ok (List.all_eq_true.1 h.2 l hl))

theorem adj_nil {α : Type} {R : α → α → Prop} : Adj R [] := by
  intro a x y b h; simp at h

theorem adj_single {α : Type} {R : α → α → Prop} (x : α) : Adj R [x] := by
  intro a y z b h
  have := congrArg List.length h
  simp at this; omega

theorem adj_cons {α : Type} {R : α → α → Prop} {x y : α} {ls : List α} (h : R x y) (hs : Adj R (y :: ls)) :
    Adj R (x :: y :: ls) := .cons (by intro z hz; cases hz; exact h) hs

attribute [local simp] Node.ahead

theorem flow_of {doc r : List Node} {a : Node} (h : Adj Node.Before doc) (ha : apart false doc = true)
    (he : trimEnd doc = r ++ [a]) (hh : a.ahead = false) : Flow doc := by
  refine ⟨h, ha, ?_⟩
  intro r' b e
  rw [he] at e
  have := List.append_inj_right' e rfl
  injection this with this
  rw [← this]; exact hh

theorem flow_single {a : Node} (hb : a.kind ≠ .blank) (hh : a.ahead = false) : Flow [a] :=
  flow_of (adj_single _) (by cases a <;> rfl) (r := []) (trimEnd_concat [] _ hb) hh

theorem closed_plain {doc : List Blk} (h : ∀ b ∈ doc, b.ty ≠ .par ∧ b.ty ≠ .indented ∧ b.ty ≠ .lrd) : Sealed doc :=
  ⟨fun a b e hb => absurd hb (h b (by rw [e]; simp)).1, fun a b e hb => absurd hb (h b (by rw [e]; simp)).2.2,
    fun a b c e hb => absurd hb (h b (by rw [e]; simp)).2.1⟩

theorem before_other {a b : Node} (h1 : a.kind ≠ .par) (h2 : a.kind ≠ .quote) (h3 : a.kind ≠ .bullet) (h4 : a.kind ≠ .ordered)
    (h5 : a.kind ≠ .table) (h6 : a.kind ≠ .lrd := by simp [Node.kind]) : a.Before b :=
  ⟨fun h => absurd h h1, (by rintro label link rfl; exact h1 rfl), fun h => absurd h h6, fun h => absurd h h2, fun h => h.elim (fun h => absurd h h3) fun h => absurd h h4,
    fun h => absurd h h5⟩

theorem before_par {ts : List Tok} {b : Node} (h : b.kind ≠ .par) (h1 : b.kind ≠ .setext) (h2 : b.kind ≠ .indented)
    (h3 : b ≠ .rule '-') (h4 : b.kind ≠ .lrd := by simp [Node.kind]) : (Node.par ts).Before b :=
  ⟨fun _ => ⟨h3, .inr ⟨h, h1, h2, h4⟩⟩, by simp, by simp [Node.kind], by simp [Node.kind], by simp [Node.kind], by simp [Node.kind]⟩

theorem before_ref {label link title : Str} {b : Node} (h : b.kind ≠ .setext)
    (h1 : b.kind = .par → ∃ label link, b = .tail label link) : (Node.ref label link title).Before b :=
  ⟨by simp [Node.kind], by simp, fun _ => ⟨h, h1⟩, by simp [Node.kind], by simp [Node.kind], by simp [Node.kind]⟩

theorem before_hard {ts : List Tok} {b : Node} (h : b ≠ .rule '-') : (Node.hard ts).Before b :=
  ⟨fun _ => ⟨h, .inl ⟨ts, rfl⟩⟩, by simp, by simp [Node.kind], by simp [Node.kind], by simp [Node.kind], by simp [Node.kind]⟩

theorem par_wf {d : Nat} {ws : List Str} (h : (!ws.isEmpty && ws.all proseOk && decide (words ws = ws)) = true) :
    (Node.par (plainToks ws)).WF (d + 1) := by
  simp only [Bool.and_eq_true, decide_eq_true_eq] at h
  have := (prose_text (ls := ws) (by intro h0; rw [h0] at h; simp at h)
    fun l hl => prose_of_ok (List.all_eq_true.1 h.1.2 l hl)).layable
  rw [h.2] at this
  exact this

theorem C54_example_wf : WFDoc 3 treeExampleDoc := by
  have item : ∀ {d : Nat} {ws : List Str}, (!ws.isEmpty && ws.all proseOk && decide (words ws = ws)) = true →
      ([.par (plainToks ws)] : List Node) ≠ [] ∧ (∀ a ∈ ([.par (plainToks ws)] : List Node), a.WF (d + 1) ∧ a.inside = true) ∧
        Flow [.par (plainToks ws)] := by
    intro d ws h
    refine ⟨by simp, ?_, flow_single (by simp [Node.kind]) (by simp)⟩
    intro a ha
    rw [List.mem_singleton.1 ha]
    exact ⟨par_wf h, rfl⟩
  constructor
  · intro a ha
    simp only [treeExampleDoc, List.mem_cons, List.not_mem_nil, or_false] at ha
    rcases ha with rfl | rfl | rfl | rfl | rfl | rfl | rfl | rfl
    · exact ⟨by decide, by decide, by decide, noLB_of (by decide)⟩
    · exact par_wf (by decide)
    · trivial
    · refine ⟨by simp, ?_, flow_of ?_ rfl (r := [_, _]) rfl (by simp), rfl, fun _ => ⟨.rule '_', by simp, by simp [Node.kind]⟩⟩
      · intro a ha
        simp only [List.mem_cons, List.not_mem_nil, or_false] at ha
        rcases ha with rfl | rfl | rfl
        · refine ⟨.inr (.inl rfl), by simp, ?_⟩
          intro it hi
          simp only [List.mem_cons, List.not_mem_nil, or_false] at hi
          rcases hi with rfl | rfl
          · exact item (by decide)
          · exact item (by decide)
        · trivial
        · exact .inr (.inl rfl)
      · refine adj_cons ?_ (adj_cons (before_other ?_ ?_ ?_ ?_ ?_) (adj_single _)) <;> try (simp [Node.kind]; done)
        exact ⟨by simp [Node.kind], by simp, by simp [Node.kind], by simp [Node.kind], fun _ => .inl rfl, by simp [Node.kind]⟩
    · trivial
    · refine ⟨by decide, by simp, ?_⟩
      intro it hi
      simp only [List.mem_cons, List.not_mem_nil, or_false] at hi
      rcases hi with rfl | rfl
      · exact item (by decide)
      · refine ⟨by simp, ?_, flow_of (adj_cons ?_ (adj_single _)) rfl (r := [_]) rfl (by simp)⟩
        · intro a ha
          simp only [List.mem_cons, List.not_mem_nil, or_false] at ha
          rcases ha with rfl | rfl
          · exact ⟨par_wf (by decide), rfl⟩
          · refine ⟨⟨.inl rfl, by simp, ?_⟩, rfl⟩
            intro it hi
            simp only [List.mem_cons, List.not_mem_nil, or_false] at hi
            rcases hi with rfl | rfl
            · exact item (by decide)
            · exact item (by decide)
        · exact before_par (by simp [Node.kind]) (by simp [Node.kind]) (by simp [Node.kind]) (by simp)
    · exact .inl rfl
    · have hc : ∀ c : Str, (decide (strip c = c) && !c.contains '|' && c.all (fun c => !isLB c)) = true → Cell c := by
        intro c h
        simp only [Bool.and_eq_true, decide_eq_true_eq, Bool.not_eq_true'] at h
        exact ⟨h.1.1, by simpa using h.1.2, noLB_of h.2⟩
      refine ⟨by simp, rfl, ?_, ?_, ?_⟩
      · intro r hr
        rw [List.mem_singleton.1 hr]; rfl
      · intro c h
        simp only [List.mem_cons, List.not_mem_nil, or_false] at h
        rcases h with rfl | rfl <;> exact hc _ (by decide)
      · intro r hr c h
        rw [List.mem_singleton.1 hr] at h
        simp only [List.mem_cons, List.not_mem_nil, or_false] at h
        rcases h with rfl | rfl <;> exact hc _ (by decide)
  · refine flow_of ?_ rfl (r := [_, _, _, _, _, _, _]) rfl (by simp)
    refine adj_cons (before_other ?_ ?_ ?_ ?_ ?_) (adj_cons ?_ (adj_cons (before_other ?_ ?_ ?_ ?_ ?_) (adj_cons ?_
      (adj_cons (before_other ?_ ?_ ?_ ?_ ?_) (adj_cons ?_ (adj_cons (before_other ?_ ?_ ?_ ?_ ?_) (adj_single _)))))))
      <;> try (simp [Node.kind]; done)
    · exact before_par (by simp [Node.kind]) (by simp [Node.kind]) (by simp [Node.kind]) (by simp)
    · exact ⟨by simp [Node.kind], by simp, by simp [Node.kind], by simp [Node.kind], by simp [Node.kind], by simp [Node.kind]⟩
    · exact ⟨by simp [Node.kind], by simp, by simp [Node.kind], by simp [Node.kind], fun _ => .inr (.inl rfl), by simp [Node.kind]⟩

theorem list_reads {R : List Str → List Node → Prop} {m : Str} {l r : Str} {rest : List Str} {es : List (List Str)}
    {items : List (List Node)} (hm : l = m ++ ' ' :: r) (hr : strip r ≠ []) (hfl : es.flatten = l :: rest)
    (hes : EntriesFrom 0 es) (hrest : (rest.all fun l => !listEnd l && !startsWith (lstrip l) c!"```" &&
      !startsWith (lstrip l) c!"~~~") = true) (hl : ((l :: rest).all fun l => l.all fun c => !isLB c) = true)
    (hei : Each (EntryReads R) es items) : ListReads R m (l :: rest) items := by
  refine ⟨⟨[], r, rest, es, by rw [hm]; rfl, hfl, by simp, by simp, hr, hes, ?_, hei⟩, fun x hx => noLB_of (List.all_eq_true.1 hl x hx)⟩
  intro x hx
  have := List.all_eq_true.1 hrest x hx
  simp only [Bool.and_eq_true, Bool.not_eq_true'] at this
  refine ⟨this.1.1, ?_⟩
  rintro ⟨t, h | h⟩
  · have h2 := this.1.2; rw [h] at h2; simp [startsWith] at h2
  · have h2 := this.2; rw [h] at h2; simp [startsWith] at h2

theorem entry_reads {R : List Str → List Node → Prop} {m r : Str} {conts : List Str} {item : List Node} (hm : IsMarker m)
    (hR : R (r :: conts.map (unindent (m.length + 1))) item) : EntryReads R ((m ++ ' ' :: r) :: conts) item := by
  refine ⟨_, conts, [], m, r, rfl, ⟨rfl, by simp, hm, .inr (.inr ⟨r, rfl⟩)⟩, ?_⟩
  simpa using hR

theorem entries_from {b : Nat} {m r : Str} {conts : List Str} {es : List (List Str)} (hm : IsMarker m)
    (hc : (conts.all fun l => (markerEnd? l).isNone || decide (m.length < getIndent l)) = true)
    (h : EntriesFrom m.length es) : EntriesFrom b (((m ++ ' ' :: r) :: conts) :: es) := by
  refine ⟨_, conts, [], m, ' ' :: r, rfl, ⟨rfl, by simp, hm, .inr (.inr ⟨r, rfl⟩)⟩, by simp, ?_, by simpa using h⟩
  intro l hl ws' m' r' hmk
  have := List.all_eq_true.1 hc l hl
  rw [markerEnd_intro hmk, hmk.indent] at this
  simpa using this

theorem single_reads {d : Nat} {ls : List Str} {a : Node} (h : ReadsNode (Reads d) (Divides d) ls a) :
    Reads (d + 1) ls [a] := ⟨[ls], by simp, .cons h .nil⟩

theorem C54_example_reads : Reads 3 treeExample treeExampleDoc := by
  refine ⟨[[c!" ##Title one "], [c!"Some *prose* of", c!"  words"], [c!" "],
    [c!"> + first", c!">      item", c!"> + more", c!">", c!"> ___"], [c!""],
    [c!"7. one", c!"1. two", c!"   * x", c!"   - y"], [c!"***"], [c!"| a | b|", c!"|:-:|---|", c!"| c c | d |"]], rfl, ?_⟩
  refine .cons ?_ (.cons (par_reads (by decide)) (.cons ?_ (.cons ?_ (.cons ?_ (.cons ?_ (.cons ?_ (.cons ?_ .nil)))))))
  · exact .heading (ws := c!" ") (k := 2) (text := c!"Title one ") (allWs_of (by decide)) (by decide) (by decide)
      ⟨noLB_of (by decide), noLB_of (by decide)⟩
  · exact .blank (allWs_of (by decide)) (noLB_of (by decide))
  · refine .quote (rs := [c!" + first", c!"      item", c!" + more", c!"", c!" ___"]) ⟨_, rfl⟩
      (.cons ⟨0, by decide, rfl⟩ (.cons ⟨0, by decide, rfl⟩ (.cons ⟨0, by decide, rfl⟩ (.cons ⟨0, by decide, rfl⟩
        (.cons ⟨0, by decide, rfl⟩ .nil))))) (.yes (by decide) (by decide)) ?_ ?_ ?_
    · refine ⟨[[c!"+ first", c!"     item", c!"+ more"], [c!""], [c!"___"]], rfl, .cons (.bullets ?_)
        (.cons (.blank (by simp) noLB_nil) (.cons ?_ .nil))⟩
      · refine list_reads (es := [[c!"+ first", c!"     item"], [c!"+ more"]]) rfl (by decide) rfl ?_ (by decide) (by decide)
          (.cons (entry_reads (m := ['+']) (.inr (.inr (.inl rfl))) (single_reads (par_reads (by decide))))
            (.cons (entry_reads (m := ['+']) (.inr (.inr (.inl rfl))) (single_reads (par_reads (by decide)))) .nil))
        exact entries_from (m := ['+']) (.inr (.inr (.inl rfl))) (by decide)
          (entries_from (m := ['+']) (.inr (.inr (.inl rfl))) (by decide) trivial)
      · exact .rule (by decide) (by decide) (by decide) (by decide) (noLB_of (by decide))
    · refine ⟨[⟨.bullet, [c!" + first", c!"      item", c!" + more"], false⟩, ⟨.blank, [c!""], false⟩],
        ⟨.thematic, [c!" ___"], false⟩, ⟨?_, ?_, closed_plain (by simp)⟩, rfl, rfl⟩
      · intro b hb
        simp only [List.cons_append, List.nil_append, List.mem_cons, List.not_mem_nil, or_false] at hb
        rcases hb with rfl | rfl | rfl
        · exact .bullet (by decide) (by decide) (by decide)
        · exact .flat (.blank (by decide) noLB_nil)
        · exact .flat (.thematic (by decide) (by decide) (noLB_of (by decide)))
      · refine adj_cons ⟨?_, ?_, ?_, ?_, ?_, ?_⟩ (adj_cons ⟨?_, ?_, ?_, ?_, ?_, ?_⟩ (adj_single _)) <;> simp
    · intro l hl
      exact noLB_all (by decide) l hl
  · exact .blank (by simp) noLB_nil
  · refine .numbers (ds := ['7']) (by simp) (by decide) (list_reads (es := [[c!"7. one"], [c!"1. two", c!"   * x", c!"   - y"]])
      rfl (by decide) rfl ?_ (by decide) (by decide) (.cons (entry_reads (m := c!"7.") ?_ ?_)
        (.cons (entry_reads (m := c!"1.") ?_ ?_) .nil)))
    · exact entries_from (m := c!"7.") (.inr (.inr (.inr ⟨['7'], by simp, by decide, rfl⟩))) (by decide)
        (entries_from (m := c!"1.") (.inr (.inr (.inr ⟨['1'], by simp, by decide, rfl⟩))) (by decide) trivial)
    · exact .inr (.inr (.inr ⟨['7'], by simp, by decide, rfl⟩))
    · exact single_reads (par_reads (by decide))
    · exact .inr (.inr (.inr ⟨['1'], by simp, by decide, rfl⟩))
    · refine ⟨[[c!"two"], [c!"* x", c!"- y"]], rfl, .cons (par_reads (by decide)) (.cons (.bullets ?_) .nil)⟩
      refine list_reads (es := [[c!"* x"], [c!"- y"]]) rfl (by decide) rfl ?_ (by decide) (by decide)
        (.cons (entry_reads (m := ['*']) (.inl rfl) (single_reads (par_reads (by decide))))
          (.cons (entry_reads (m := ['-']) (.inr (.inl rfl)) (single_reads (par_reads (by decide)))) .nil))
      exact entries_from (m := ['*']) (.inl rfl) (by decide) (entries_from (m := ['-']) (.inr (.inl rfl)) (by decide) trivial)
  · exact .rule (by decide) (by decide) (by decide) (by decide) (noLB_of (by decide))
  · have row : ∀ (raw : List Str) (line : Str), line = '|' :: (pyJoin ['|'] raw ++ ['|']) → raw ≠ [] →
        (∀ c ∈ raw, CellOk (some '|') c) → Row line (raw.map strip) := by
      intro raw line hl hne h
      exact ⟨[], raw, [], hl, by simp, by simp, hne, h, rfl⟩
    refine .table (hc := [c!"a", c!"b"]) (dc := [c!":-:", c!"---"]) (rows := [[c!"c c", c!"d"]]) (by decide)
      (row [c!" a ", c!" b"] _ rfl (by simp) ?_) (row [c!":-:", c!"---"] _ rfl (by simp) ?_)
      ⟨row [c!" c c ", c!" d "] _ rfl (by simp) ?_, trivial⟩ (by unfold DelimCell; decide) ?_
      (fun l hl => noLB_all (by decide) l hl)
    · simp [CellOk]
    · simp [CellOk]
    · simp [CellOk]
    · intro l hl
      rw [List.mem_singleton.1 hl]
      rintro ⟨a, b, h⟩
      have : '\\' ∈ c!"| c c | d |" := by rw [h]; simp
      revert this; decide

theorem C54_example : reformatMarkdownText 4 (.fin 20) (pyJoin ['\n'] treeExample) =
    .ok c!"## Title one\nSome *prose* of\nwords\n\n> + first item\n> + more\n>\n> __________________\n\n7. one\n8. two\n   * x\n   * y\n********************\n|  a  | b |\n|:---:|---|\n| c c | d |\n" ∧
    pyJoin ['\n'] (printDoc (.fin 20) treeExampleDoc) ++ ['\n'] =
      c!"## Title one\nSome *prose* of\nwords\n\n> + first item\n> + more\n>\n> __________________\n\n7. one\n8. two\n   * x\n   * y\n********************\n|  a  | b |\n|:---:|---|\n| c c | d |\n" ∧
    wideDoc (.fin 20) treeExampleDoc = true ∧ StandsFor (pyJoin ['\n'] treeExample) treeExampleDoc := by
  refine ⟨?_, by decide +kernel, by decide +kernel, 3, by
    rw [show splitlines (pyJoin ['\n'] treeExample) = treeExample by decide +kernel]; exact C54_example_reads, C54_example_wf⟩
  have e : splitlines (pyJoin ['\n'] treeExample) = treeExample := by decide +kernel
  rw [C54_format 3 4 (by decide) _ _ treeExampleDoc (by rw [e]; exact C54_example_reads) C54_example_wf (by decide +kernel)]
  decide +kernel

/-! ## A list with code spans -/

/-- The tokens of the entry. -/
def codeToks : List Tok := [⟨.glue, c!"use"⟩, ⟨.space, c!"`a  b`."⟩, ⟨.space, c!"or"⟩, ⟨.space, c!"``x`y``"⟩,
  ⟨.glue, c!"<br/>"⟩, ⟨.glue, c!"then"⟩, ⟨.space, c!"(see)"⟩, ⟨.space, c!"z"⟩]

/-- A check for the openers of lines. -/
def openerOk (w : Str) : Bool :=
  !w.isEmpty && w.all (fun c => !isWs c) && (match w with | c :: _ => !(c!"#>|").contains c | [] => true) &&
    (c!"`~").all (fun x => (w.take 3).any (· != x)) && (c!"*+-_=").all (fun x => w.any (· != x)) &&
    !(w.getLast? == some '.' && w.dropLast.all isDigit)

theorem opener_of_ok {w : Str} (h : openerOk w = true) : Opener w := by
  simp only [openerOk, Bool.and_eq_true, Bool.not_eq_true', List.all_eq_true, List.any_eq_true, bne_iff_ne] at h
  obtain ⟨⟨⟨⟨⟨h1, h2⟩, h3⟩, h4⟩, h5⟩, h6⟩ := h
  refine ⟨(by intro h0; rw [h0] at h1; simp at h1), fun c hc => by simpa using h2 c hc, ?_, h4, h5, ?_⟩
  · intro c hc
    cases w with
    | nil => cases hc
    | cons x r =>
      cases hc
      simpa using h3
  · rintro ⟨ds, rfl, hd⟩
    simp only [List.getLast?_concat, List.dropLast_concat, Bool.and_eq_false_iff] at h6
    rcases h6 with h6 | h6
    · simp at h6
    · rw [List.all_eq_true.2 hd] at h6; cases h6

theorem opens_of_ok {s : Str} (h : (match splitWs s with | w :: _ => openerOk w | [] => false) = true) : Opens s := by
  cases e : splitWs s with
  | nil => rw [e] at h; cases h
  | cons w ws => rw [e] at h; exact ⟨w, ws, e, opener_of_ok h⟩

theorem code_text : Text [c!"use `a  b`. or", c!" ``x`y``<br/>then  (see) z"] codeToks := by
  refine ⟨?_, inline_example, by simp [codeToks], ⟨_, inline_example⟩, ?_, .inl (by decide)⟩
  · intro l hl
    have hb : ∀ l : Str, l.getLast? ≠ some ' ' → ¬ ∃ r, l = r ++ c!"  " := by
      rintro l h ⟨r, rfl⟩
      exact h (by simp)
    simp only [List.mem_cons, List.not_mem_nil, or_false] at hl
    rcases hl with rfl | rfl <;>
      exact ⟨by decide, by decide, opens_of_ok (by decide +kernel), by decide, hb _ (by decide)⟩
  · intro t ht
    simp only [codeToks, List.mem_cons, List.not_mem_nil, or_false] at ht
    rcases ht with rfl | rfl | rfl | rfl | rfl | rfl | rfl | rfl <;> exact opens_of_ok (by decide +kernel)

/-- A bullet list with code spans stands for a tree. -/
theorem C54_example_code : StandsFor c!"* use `a  b`. or\n   ``x`y``<br/>then  (see) z\n" [.bullets '*' [[.par codeToks]]] := by
  refine ⟨2, ?_, ?_, flow_single (by simp [Node.kind]) (by simp)⟩
  · rw [show splitlines c!"* use `a  b`. or\n   ``x`y``<br/>then  (see) z\n" =
      [c!"* use `a  b`. or", c!"   ``x`y``<br/>then  (see) z"] by decide +kernel]
    refine single_reads (.bullets (list_reads (es := [[c!"* use `a  b`. or", c!"   ``x`y``<br/>then  (see) z"]]) rfl (by decide)
      rfl ?_ (by decide) (by decide) (.cons (entry_reads (m := ['*']) (.inl rfl) (single_reads (.par code_text))) .nil)))
    exact entries_from (m := ['*']) (.inl rfl) (by decide) trivial
  · intro a ha
    rw [List.mem_singleton.1 ha]
    refine ⟨.inl rfl, by simp, fun it hi => ?_⟩
    rw [List.mem_singleton.1 hi]
    refine ⟨by simp, fun a ha => ?_, flow_single (by simp [Node.kind]) (by simp)⟩
    rw [List.mem_singleton.1 ha]
    exact ⟨code_text.layable, rfl⟩

/-- The list is written down at two widths. -/
example : pyJoin ['\n'] (printDoc (.fin 16) [.bullets '*' [[.par codeToks]]]) =
      c!"* use `a  b`. or\n  ``x`y``<br/>\n  then (see) z" ∧
    reformatMarkdownText 3 (.fin 16) c!"* use `a  b`. or\n   ``x`y``<br/>then  (see) z\n" =
      .ok c!"* use `a  b`. or\n  ``x`y``<br/>\n  then (see) z\n" := by
  decide +kernel

/-- the tokens of a text with links -/
def linkToks : List Tok :=
  [⟨.glue, c!"see"⟩, ⟨.space, c!"(as"⟩, ⟨.space, c!"in"⟩, ⟨.space, c!"[the"⟩, ⟨.space, c!"docs]("⟩,
    ⟨.link, c!"http://x.y \"T\").)"⟩, ⟨.space, c!"and"⟩, ⟨.space, c!"[a]["⟩, ⟨.link, c!"b]"⟩, ⟨.link, c!"[c]["⟩, ⟨.link, c!"d],"⟩,
    ⟨.space, c!"z"⟩]

theorem link_text : Text [c!"see (as in [the  docs](", c!" http://x.y \"T\").) and [a][b]", c!"[c][d], z"] linkToks := by
  refine ⟨?_, inline_links, by simp [linkToks], ⟨_, inline_links⟩, ?_, .inr (by decide)⟩
  · intro l hl
    have hb : ∀ l : Str, l.getLast? ≠ some ' ' → ¬ ∃ r, l = r ++ c!"  " := by
      rintro l h ⟨r, rfl⟩
      exact h (by simp)
    simp only [List.mem_cons, List.not_mem_nil, or_false] at hl
    rcases hl with rfl | rfl | rfl <;>
      exact ⟨by decide, by decide, opens_of_ok (by decide +kernel), by decide, hb _ (by decide)⟩
  · intro t ht
    simp only [linkToks, List.mem_cons, List.not_mem_nil, or_false] at ht
    rcases ht with rfl | rfl | rfl | rfl | rfl | rfl | rfl | rfl | rfl | rfl | rfl | rfl <;> exact opens_of_ok (by decide +kernel)

/-- A bullet list with links stands for a tree. -/
theorem C54_example_links : StandsFor c!"* see (as in [the  docs](\n   http://x.y \"T\").) and [a][b]\n  [c][d], z\n"
    [.bullets '*' [[.par linkToks]]] := by
  refine ⟨2, ?_, ?_, flow_single (by simp [Node.kind]) (by simp)⟩
  · rw [show splitlines c!"* see (as in [the  docs](\n   http://x.y \"T\").) and [a][b]\n  [c][d], z\n" =
      [c!"* see (as in [the  docs](", c!"   http://x.y \"T\").) and [a][b]", c!"  [c][d], z"] by decide +kernel]
    refine single_reads (.bullets (list_reads (es := [[c!"* see (as in [the  docs](", c!"   http://x.y \"T\").) and [a][b]", c!"  [c][d], z"]]) rfl
      (by decide) rfl ?_ (by decide) (by decide)
      (.cons (entry_reads (m := ['*']) (.inl rfl) (single_reads (.par link_text))) .nil)))
    exact entries_from (m := ['*']) (.inl rfl) (by decide) trivial
  · intro a ha
    rw [List.mem_singleton.1 ha]
    refine ⟨.inl rfl, by simp, fun it hi => ?_⟩
    rw [List.mem_singleton.1 hi]
    refine ⟨by simp, fun a ha => ?_, flow_single (by simp [Node.kind]) (by simp)⟩
    rw [List.mem_singleton.1 ha]
    exact ⟨link_text.layable, rfl⟩

/-- The list is written down; the tree has no token that is glued to another one. -/
example : pyJoin ['\n'] (printDoc (.fin 16) [.bullets '*' [[.par linkToks]]]) =
      c!"* see (as in\n  [the docs](\n  http://x.y \"T\").)\n  and [a][b][c][\n  d], z" ∧
    reformatMarkdownText 3 (.fin 16) c!"* see (as in [the  docs](\n   http://x.y \"T\").) and [a][b]\n  [c][d], z\n" =
      .ok c!"* see (as in\n  [the docs](\n  http://x.y \"T\").)\n  and [a][b][c][\n  d], z\n" := by
  decide +kernel

/-! ## Hard breaks and indented code -/

/-- A paragraph that ends in a hard break, indented code and a list with a hard break. -/
def breakExample : List Str :=
  [c!"foo *a*   ", c!" bar", c!"", c!"    code  ", c!" ", c!"      x", c!"", c!"* one two   ", c!"  three", c!"* z"]

/-- Its tree. -/
def breakExampleDoc : List Node :=
  [.hard (plainToks [c!"foo", c!"*a*"]), .par (plainToks [c!"bar"]), .blank, .indented [c!"    code", c!"", c!"      x"], .blank,
   .bullets '*' [[.hard (plainToks [c!"one", c!"two"]), .par (plainToks [c!"three"])], [.par (plainToks [c!"z"])]]]

theorem break_text {ls : List Str} {l : Str} (h : (ls ++ [l]).all proseOk = true) :
    Text (ls ++ [l]) (plainToks (words (ls ++ [l]))) :=
  prose_text (by simp) fun x hx => prose_of_ok (List.all_eq_true.1 h x hx)

theorem C54_example_breaks : StandsFor (pyJoin ['\n'] breakExample) breakExampleDoc := by
  refine ⟨2, ?_, ?_, ?_⟩
  · rw [show splitlines (pyJoin ['\n'] breakExample) = breakExample by decide +kernel]
    refine ⟨[[c!"foo *a*   "], [c!" bar"], [c!""], [c!"    code  ", c!" ", c!"      x"], [c!""],
      [c!"* one two   ", c!"  three", c!"* z"]], rfl, ?_⟩
    refine .cons ?_ (.cons (par_reads (by decide)) (.cons (.blank (by simp) noLB_nil) (.cons ?_
      (.cons (.blank (by simp) noLB_nil) (.cons (.bullets ?_) .nil)))))
    · exact .hard (ls := []) (l := c!"foo *a*") (ws := c!"   ") (break_text (by decide)) (by decide) (by decide)
    · exact .indented (by decide) (fun l hl => noLB_all (by decide) l hl)
    · refine list_reads (es := [[c!"* one two   ", c!"  three"], [c!"* z"]]) rfl (by decide) rfl ?_ (by decide) (by decide)
        (.cons (entry_reads (m := ['*']) (.inl rfl) ⟨[[c!"one two   "], [c!"three"]], rfl, .cons ?_
          (.cons (par_reads (by decide)) .nil)⟩)
        (.cons (entry_reads (m := ['*']) (.inl rfl) (single_reads (par_reads (by decide)))) .nil))
      · exact entries_from (m := ['*']) (.inl rfl) (by decide) (entries_from (m := ['*']) (.inl rfl) (by decide) trivial)
      · exact .hard (ls := []) (l := c!"one two") (ws := c!"   ") (break_text (by decide)) (by decide) (by decide)
  · intro a ha
    simp only [breakExampleDoc, List.mem_cons, List.not_mem_nil, or_false] at ha
    rcases ha with rfl | rfl | rfl | rfl | rfl | rfl
    · exact (break_text (ls := []) (l := c!"foo *a*") (by decide)).layable
    · exact par_wf (by decide)
    · trivial
    · refine ⟨?_, ⟨_, _, rfl, by decide, ?_⟩, [_, _], _, rfl, by decide, ?_⟩
      · intro l hl
        simp only [List.mem_cons, List.not_mem_nil, or_false] at hl
        rcases hl with rfl | rfl | rfl <;> exact ⟨by decide, noLB_of (by decide), by decide⟩
      · rw [fenceLine_iff]; decide
      · rw [fenceLine_iff]; decide
    · trivial
    · refine ⟨.inl rfl, by simp, ?_⟩
      intro it hi
      simp only [List.mem_cons, List.not_mem_nil, or_false] at hi
      rcases hi with rfl | rfl
      · refine ⟨by simp, ?_, flow_of (adj_cons (before_hard (by simp)) (adj_single _)) rfl (r := [_]) rfl (by simp)⟩
        intro a ha
        simp only [List.mem_cons, List.not_mem_nil, or_false] at ha
        rcases ha with rfl | rfl
        · exact ⟨(break_text (ls := []) (l := c!"one two") (by decide)).layable, rfl⟩
        · exact ⟨par_wf (by decide), rfl⟩
      · refine ⟨by simp, ?_, flow_single (by simp [Node.kind]) (by simp)⟩
        intro a ha
        rw [List.mem_singleton.1 ha]
        exact ⟨par_wf (by decide), rfl⟩
  · refine flow_of ?_ rfl (r := [_, _, _, _, _]) rfl (by simp)
    refine adj_cons (before_hard (by simp)) (adj_cons (before_par ?_ ?_ ?_ ?_) (adj_cons (before_other ?_ ?_ ?_ ?_ ?_)
      (adj_cons (before_other ?_ ?_ ?_ ?_ ?_) (adj_cons (before_other ?_ ?_ ?_ ?_ ?_) (adj_single _))))) <;> simp [Node.kind]

/-- The document is written down. -/
example : pyJoin ['\n'] (printDoc (.fin 7) breakExampleDoc) =
      c!"foo *a*  \nbar\n\n    code\n\n      x\n\n* one\n  two  \n  three\n* z" ∧
    reformatMarkdownText 3 (.fin 7) (pyJoin ['\n'] breakExample) =
      .ok c!"foo *a*  \nbar\n\n    code\n\n      x\n\n* one\n  two  \n  three\n* z\n" := by
  decide +kernel

/-! ## Link definitions -/

/-- Link definitions: two at the top, one in a quote, some in a list and one on the last line. -/
def refExample : List Str :=
  [c!" [One]:http://a.b ", c!"[two]:   c  \"A title\"", c!"> # H", c!"> [q]:  r", c!"", c!"* [in]: list", c!"* [x]: y",
   c!"  [z]:    w ", c!"", c!"[end]:  here"]

/-- Its tree. -/
def refExampleDoc : List Node :=
  [.ref c!"One" c!"http://a.b" [], .ref c!"two" c!"c" c!"\"A title\"", .quote true [.heading 1 c!"H", .tail c!"q" c!"r"], .blank,
   .bullets '*' [[.tail c!"in" c!"list"], [.ref c!"x" c!"y" [], .tail c!"z" c!"w"]], .blank, .tail c!"end" c!"here"]

theorem ref_of {label link : Str} (h : (!label.isEmpty && decide (label.length ≤ 999) && !label.contains ']' && !link.isEmpty &&
    link.all (fun c => !isWs c) && label.all (fun c => !isLB c) && link.all (fun c => !isLB c)) = true) : Ref label link [] := by
  simp only [Bool.and_eq_true, Bool.not_eq_true', decide_eq_true_eq, List.all_eq_true, List.isEmpty_eq_false_iff] at h
  obtain ⟨⟨⟨⟨⟨⟨h1, h2⟩, h3⟩, h4⟩, h5⟩, h6⟩, h7⟩ := h
  exact ⟨⟨h1, h2, by simpa using h3⟩, ⟨h4, h5⟩, .inl rfl, rfl, noLB_of (List.all_eq_true.2 (by simpa using h6)),
    noLB_of (List.all_eq_true.2 (by simpa using h7)), noLB_nil⟩

theorem plainLine_of {l : Str} (h : decide (pyJoin c!" " (splitWs l) = l ∧ ∀ w ∈ splitWs l, w ≠ [] ∧ '`' ∉ w ∧
    isIn c!"](" w = false ∧ isIn c!"][" w = false ∧ isIn c!"<br" w = false) = true) : PlainLine l := by
  rw [decide_eq_true_eq] at h
  refine ⟨h.1, fun w hw => ?_⟩
  obtain ⟨h1, h2, h3, h4, h5⟩ := h.2 w hw
  have no : ∀ {p : Str}, isIn p w = false → ¬ p <:+: w := by
    intro p hp hi
    rw [isIn_intro hi] at hp; cases hp
  exact ⟨h1, (splitWs_word hw).2.1, h2, ⟨no h3, no h4⟩, no h5⟩

theorem refAt_of {l label link title : Str} (ws g g' e : Str)
    (hl : l = ws ++ '[' :: (label ++ (']' :: ':' :: (g ++ (link ++ (g' ++ (title ++ e))))))) (h : ([ws, g, g', e].all fun x => x.all isWs &&
    x.all fun c => !isLB c) = true) (hi : ws.length < 4) (hg : title ≠ [] → g' ≠ []) :
    RefAt l label link title := by
  have key : ∀ x ∈ [ws, g, g', e], x.all isWs = true ∧ NoLB x := by
    intro x hx
    have := List.all_eq_true.1 h x hx
    rw [Bool.and_eq_true] at this
    exact ⟨this.1, noLB_of this.2⟩
  exact ⟨ws, g, g', e, hl, fun x hx => allWs_of (key x hx).1, fun x hx => (key x hx).2, hi, hg⟩

theorem tailAt_of {l label link : Str} (ws g e : Str) (hl : l = ws ++ '[' :: (label ++ (']' :: ':' :: (g ++ (link ++ e)))))
    (h : ([ws, g, e].all fun x => x.all (· == ' ')) = true) (hi : ws.length < 4)
    (hg : g ≠ []) (he : e.length ≤ 1) : TailAt l label link := by
  refine ⟨ws, g, e, hl, fun x hx c hc => ?_, hi, hg, he⟩
  have := List.all_eq_true.1 (List.all_eq_true.1 h x hx) c hc
  simpa using this

theorem C54_example_refs : StandsFor (pyJoin ['\n'] refExample) refExampleDoc := by
  refine ⟨2, ?_, ?_, ?_⟩
  · rw [show splitlines (pyJoin ['\n'] refExample) = refExample by decide +kernel]
    refine ⟨[[c!" [One]:http://a.b "], [c!"[two]:   c  \"A title\""], [c!"> # H", c!"> [q]:  r"], [c!""],
      [c!"* [in]: list", c!"* [x]: y", c!"  [z]:    w "], [c!""], [c!"[end]:  here"]], rfl, ?_⟩
    refine .cons (.ref (refAt_of c!" " [] [] c!" " rfl (by decide) (by decide) (by simp)))
      (.cons (.ref (refAt_of [] c!"   " c!"  " [] rfl (by decide) (by decide) (by simp)))
      (.cons ?_ (.cons (.blank (by simp) noLB_nil) (.cons (.bullets ?_)
      (.cons (.blank (by simp) noLB_nil) (.cons (.tail (tailAt_of [] c!"  " [] rfl (by decide) (by decide) (by decide) (by decide)))
        .nil))))))
    · refine .quote (rs := [c!" # H", c!" [q]:  r"]) ⟨_, rfl⟩ (.cons ⟨0, by decide, rfl⟩ (.cons ⟨0, by decide, rfl⟩ .nil))
        (.yes (by decide) (by decide)) ?_ ?_ (fun l hl => noLB_all (by decide) l hl)
      · exact ⟨[[c!"# H"], [c!"[q]:  r"]], rfl, .cons (.heading (ws := []) (k := 1) (text := c!" H") (by simp) (by decide)
          (by decide) ⟨noLB_nil, noLB_of (by decide)⟩)
          (.cons (.tail (tailAt_of [] c!"  " [] rfl (by decide) (by decide) (by decide) (by decide))) .nil)⟩
      · have ht : TailAt c!" [q]:  r" c!"q" c!"r" := tailAt_of c!" " c!"  " [] rfl (by decide) (by decide) (by decide) (by decide)
        refine ⟨[⟨.atx, [c!" # H"], false⟩], ⟨.par, [c!" [q]:  r"], true⟩, ⟨?_, ?_, ?_⟩, rfl, rfl⟩
        · intro b hb
          simp only [List.cons_append, List.nil_append, List.mem_cons, List.not_mem_nil, or_false] at hb
          rcases hb with rfl | rfl
          · exact .flat (.atx (by decide) (noLB_of (by decide)))
          · exact .tail (ref_of (by decide)) ht
        · refine adj_cons ⟨?_, ?_, ?_, ?_, ?_, ?_⟩ (adj_single _) <;> simp
        · refine ⟨?_, ?_, ?_⟩
          · intro a b e _
            have := congrArg List.getLast? e
            simp only [List.getLast?_append, List.getLast?_singleton, Option.some_or, Option.some.injEq] at this
            rw [← this]
            rintro ⟨r, x, e1, e2⟩
            have := congrArg List.getLast? e1
            simp only [List.getLast?_append, List.getLast?_singleton, Option.some_or, Option.some.injEq] at this
            rw [← this] at e2
            revert e2; decide
          · intro a b e hb
            have := congrArg List.getLast? e
            simp only [List.getLast?_append, List.getLast?_singleton, Option.some_or, Option.some.injEq] at this
            rw [← this] at hb; cases hb
          · intro a b c e hb
            have : b ∈ ([⟨.atx, [c!" # H"], false⟩] ++ [⟨.par, [c!" [q]:  r"], true⟩] : List Blk) := by rw [e]; simp
            simp only [List.cons_append, List.nil_append, List.mem_cons, List.not_mem_nil, or_false] at this
            rcases this with rfl | rfl <;> cases hb
    · refine list_reads (es := [[c!"* [in]: list"], [c!"* [x]: y", c!"  [z]:    w "]]) rfl (by decide) rfl ?_ (by decide) (by decide)
        (.cons (entry_reads (m := ['*']) (.inl rfl) (single_reads
          (.tail (tailAt_of [] c!" " [] rfl (by decide) (by decide) (by decide) (by decide)))))
        (.cons (entry_reads (m := ['*']) (.inl rfl) ⟨[[c!"[x]: y"], [c!"[z]:    w "]], rfl, .cons
          (.ref (refAt_of [] c!" " [] [] rfl (by decide) (by decide) (by simp)))
          (.cons (.tail (tailAt_of [] c!"    " c!" " rfl (by decide) (by decide) (by decide) (by decide))) .nil)⟩) .nil))
      exact entries_from (m := ['*']) (.inl rfl) (by decide) (entries_from (m := ['*']) (.inl rfl) (by decide) trivial)
  · intro a ha
    simp only [refExampleDoc, List.mem_cons, List.not_mem_nil, or_false] at ha
    rcases ha with rfl | rfl | rfl | rfl | rfl | rfl | rfl
    · exact ⟨ref_of (by decide), by simp⟩
    · refine ⟨⟨⟨by decide, by decide, by decide⟩, ⟨by decide, by decide⟩,
        .inr ⟨'"', c!"A title", .inl rfl, rfl, by decide, by decide⟩, by decide, noLB_of (by decide), noLB_of (by decide),
        noLB_of (by decide)⟩, fun _ => plainLine_of (by decide +kernel)⟩
    · refine ⟨by simp, ?_, flow_of (adj_cons (before_other ?_ ?_ ?_ ?_ ?_) (adj_single _)) rfl (r := [_]) rfl (by simp), rfl,
        fun _ => ⟨_, List.mem_cons_self .., by simp [Node.kind], by simp [Node.kind]⟩⟩ <;> try (simp [Node.kind]; done)
      intro a ha
      simp only [List.mem_cons, List.not_mem_nil, or_false] at ha
      rcases ha with rfl | rfl
      · exact ⟨by decide, by decide, by decide, noLB_of (by decide)⟩
      · exact ⟨ref_of (by decide), plainLine_of (by decide +kernel)⟩
    · trivial
    · refine ⟨.inl rfl, by simp, ?_⟩
      intro it hi
      simp only [List.mem_cons, List.not_mem_nil, or_false] at hi
      rcases hi with rfl | rfl
      · refine ⟨by simp, ?_, flow_single (by simp [Node.kind]) (by simp)⟩
        intro a ha
        rw [List.mem_singleton.1 ha]
        exact ⟨⟨ref_of (by decide), plainLine_of (by decide +kernel)⟩, rfl⟩
      · refine ⟨by simp, ?_, flow_of (adj_cons (before_ref ?_ ?_) (adj_single _)) rfl (r := [_]) rfl (by simp)⟩
        · intro a ha
          simp only [List.mem_cons, List.not_mem_nil, or_false] at ha
          rcases ha with rfl | rfl
          · exact ⟨⟨ref_of (by decide), by simp⟩, rfl⟩
          · exact ⟨⟨ref_of (by decide), plainLine_of (by decide +kernel)⟩, rfl⟩
        · simp [Node.kind]
        · exact fun _ => ⟨_, _, rfl⟩
    · trivial
    · exact ⟨ref_of (by decide), plainLine_of (by decide +kernel)⟩
  · refine flow_of ?_ rfl (r := [_, _, _, _, _, _]) rfl (by simp)
    refine adj_cons (before_ref ?_ ?_) (adj_cons (before_ref ?_ ?_) (adj_cons ?_ (adj_cons (before_other ?_ ?_ ?_ ?_ ?_)
      (adj_cons ?_ (adj_cons (before_other ?_ ?_ ?_ ?_ ?_) (adj_single _)))))) <;> try (simp [Node.kind]; done)
    · exact ⟨by simp [Node.kind], by simp, by simp [Node.kind], by simp [Node.kind], by simp [Node.kind], by simp [Node.kind]⟩
    · exact ⟨by simp [Node.kind], by simp, by simp [Node.kind], by simp [Node.kind], fun _ => .inl rfl, by simp [Node.kind]⟩

/-- The document is written down. -/
example : pyJoin ['\n'] (printDoc (.fin 20) refExampleDoc) =
      c!"[One]: http://a.b\n[two]: c \"A title\"\n> # H\n> [q]: r\n\n* [in]: list\n* [x]: y\n  [z]: w\n\n[end]: here" ∧
    wideDoc (.fin 20) refExampleDoc = true ∧
    reformatMarkdownText 3 (.fin 20) (pyJoin ['\n'] refExample) =
      .ok c!"[One]: http://a.b\n[two]: c \"A title\"\n> # H\n> [q]: r\n\n* [in]: list\n* [x]: y\n  [z]: w\n\n[end]: here\n" := by
  decide +kernel

end MF
