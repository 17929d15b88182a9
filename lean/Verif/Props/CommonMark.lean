import Verif.Props.CommonPrint
/-!
# C125: formatting keeps what CommonMark makes of a document

The tests of the program compare the rendered form of a document before and after (`tests/util.py`), with all white space
and the first numbers of lists removed. The README refers to CommonMark 0.29. `Props/CommonSpec.lean` specifies what its
block structure makes of a document. As a claim about all documents the comparison is false (`C125_refuted`). It holds for
all documents that CommonMark and the program read as the same tree (`C125_tree_partial`).
-/

namespace MF

open CM (Piece Ev Leaf Ctr State)

attribute [local simp] Node.ahead

/-! ## What the tests compare -/

/-- Rendered documents without white space and numbers. -/
inductive Shown where
  | quote
  | endQuote
  | list (ordered : Bool)
  | item
  | endItem
  | endList (loose : Bool)
  | heading (level : Nat) (text : List (Option Char))
  | par (text : List (Option Char))
  | rule
  | code (language body : Str)
  deriving DecidableEq

/-- The characters of a text, and its line breaks. -/
def textShown (ps : List Piece) : List (Option Char) :=
  (ps.map fun p => match p with
    | .word w => w.map some
    | .br => [none]).flatten

/-- What the tests keep of a tag. Of the info string only the first word is rendered. -/
def shown : Ev → Shown
  | .quote => .quote
  | .endQuote => .endQuote
  | .list (.bullet _) _ => .list false
  | .list (.number _) _ => .list true
  | .item => .item
  | .endItem => .endItem
  | .endList loose => .endList loose
  | .heading k ps => .heading k (textShown ps)
  | .par ps => .par (textShown ps)
  | .rule => .rule
  | .code info body => .code ((splitWs info).headD []) (body.flatten.filter fun c => !isWs c)

/-- C125: the formatted text is rendered like the text. -/
def C125_statement : Prop := ∀ n w text y e e', reformatMarkdownText n w text = .ok y → CM.html text = some e →
  CM.html y = some e' → e'.map shown = e.map shown

theorem filter_rstrip_ws (l : Str) : (rstrip l).filter (fun c => !isWs c) = l.filter (fun c => !isWs c) := by
  obtain ⟨ws, e, hws⟩ := rstripBy_split isWs l
  have : l = rstrip l ++ ws := e
  conv => rhs; rw [this]
  have h0 : ws.filter (fun c => !isWs c) = [] := List.filter_eq_nil_iff.2 (by intro c hc; simp [hws c hc])
  rw [List.filter_append, h0, List.append_nil]

theorem textShown_word (w : Str) (ps : List Piece) : textShown (fineWord w ps) = w.map some ++ textShown ps := by
  cases ps with
  | nil => simp [fineWord, textShown]
  | cons p ps =>
    cases p with
    | br => simp [fineWord, textShown]
    | word v =>
      simp only [fineWord]
      split <;> simp [textShown]

theorem textShown_fine (ps : List Piece) : textShown (finePieces ps) = textShown ps := by
  induction ps with
  | nil => rfl
  | cons p ps ih =>
    cases p with
    | br => simp [finePieces, textShown]; simpa [textShown] using ih
    | word w => rw [finePieces, textShown_word, ih]; simp [textShown]

/-- the comparison ignores trailing spaces in code and white space in front of the target of a link -/
theorem shown_fine (e : Ev) : shown (fineEv e) = shown e := by
  cases e with
  | code info body =>
    simp only [fineEv, shown, Shown.code.injEq, true_and]
    induction body with
    | nil => rfl
    | cons l ls ih => simp only [List.map_cons, List.flatten_cons, List.filter_append, filter_rstrip_ws, ih]
  | heading k ps => simp [fineEv, shown, textShown_fine]
  | par ps => simp [fineEv, shown, textShown_fine]
  | _ => rfl

theorem shown_of_fine {e e' : List Ev} (h : e.map fineEv = e'.map fineEv) : e.map shown = e'.map shown := by
  have key : ∀ l : List Ev, (l.map fineEv).map shown = l.map shown := by
    intro l
    rw [List.map_map]
    exact List.map_congr_left fun x _ => shown_fine x
  rw [← key e, h, key e']

/-! ## Lines -/

theorem cm_lines_line {l : Str} (h : ∀ c ∈ l, c ≠ '\n' ∧ c ≠ '\r') (rest : Str) :
    CM.lines (l ++ '\n' :: rest) = l :: CM.lines rest := by
  induction l with
  | nil => simp [CM.lines]
  | cons c l ih =>
    obtain ⟨h1, h2⟩ := h c (by simp)
    have e1 : (c == '\r') = false := by simpa using h2
    have e2 : (c == '\n') = false := by simpa using h1
    rw [List.cons_append, CM.lines]
    simp only [e1, e2, Bool.false_and, Bool.or_self, Bool.false_eq_true, if_false]
    rw [ih fun x hx => h x (by simp [hx])]
    rfl

theorem cm_lines_join {ls : List Str} (h : ∀ l ∈ ls, ∀ c ∈ l, c ≠ '\n' ∧ c ≠ '\r') (hne : ls ≠ []) :
    CM.lines (pyJoin ['\n'] ls ++ ['\n']) = ls := by
  induction ls with
  | nil => exact absurd rfl hne
  | cons l ls ih =>
    cases ls with
    | nil =>
      simp only [pyJoin]
      rw [cm_lines_line (h l (by simp))]
      rfl
    | cons m ls =>
      simp only [pyJoin, List.append_assoc, List.cons_append, List.nil_append]
      rw [cm_lines_line (h l (by simp)), ih (fun x hx => h x (by simp [hx])) (by simp)]

theorem spaced_breaks {l : Str} (h : Spaced l) : ∀ c ∈ l, c ≠ '\n' ∧ c ≠ '\r' := by
  intro c hc
  constructor <;> rintro rfl
  · have := h _ hc (by decide); revert this; decide
  · have := h _ hc (by decide); revert this; decide

/-! ## Trees -/

theorem flow_append {p : Prev} {a b : List Node} (h : CmFlow p (a ++ b)) : CmFlow p a := by
  induction a generalizing p with
  | nil => trivial
  | cons x a ih => exact ⟨h.1, ih h.2⟩

theorem regDoc_trim {d : Nat} {doc : List Node} (h : RegDoc d doc) : RegDoc d (trimEnd doc) := by
  obtain ⟨k, e, _⟩ := trimEnd_spec doc
  refine ⟨fun a ha => h.1 a (by rw [e]; simp [ha]), ?_⟩
  have := h.2
  rw [e] at this
  exact flow_append this

theorem docPost_append (p : Prev) (a b : List Node) : docPost p (a ++ b) = docPost (docPost p a) b := by
  induction a generalizing p with
  | nil => simp [docPost]
  | cons x a ih => simp [docPost, ih]

theorem docEvs_append (p : Prev) (a b : List Node) : docEvs p (a ++ b) = docEvs p a ++ docEvs (docPost p a) b := by
  induction a generalizing p with
  | nil => simp [docEvs, docPost]
  | cons x a ih => simp [docEvs, docPost, ih]

theorem docEvs_blanks (p : Prev) (k : Nat) :
    docEvs p (List.replicate k .blank) ++ (docPost p (List.replicate k .blank)).fin = p.fin := by
  induction k generalizing p with
  | zero => simp [docEvs, docPost]
  | succ k ih =>
    simp only [List.replicate_succ, docEvs, docPost, Node.own, Node.post, List.append_nil, List.append_assoc, ih]
    cases p <;> simp [Prev.joins, Prev.fin, Prev.blank]

theorem docEv_trim (doc : List Node) : docEv (trimEnd doc) = docEv doc := by
  obtain ⟨k, e, _⟩ := trimEnd_spec doc
  conv => rhs; rw [e]
  simp only [docEv, docEvs_append, docPost_append, List.append_assoc, docEvs_blanks]

/-- C125: a tree in normal form, of whatever width, is rendered as it says. -/
theorem C125_print_partial (d : Nat) (doc : List Node) (hr : RegDoc d doc) (hne : doc ≠ []) (w : Width)
    (hw : wideDoc w doc = true) :
    ∃ e, CM.html (pyJoin ['\n'] (printDoc w doc) ++ ['\n']) = some e ∧ e.map fineEv = (docEv doc).map fineEv := by
  have hp := print_cmDoc d w doc hr.1 hr.2 hw hne
  have hn := rdoc_ne d d _ _ hp.read hr.1 hne
  unfold CM.html
  rw [cm_lines_join (fun l hl => spaced_breaks (hp.spaced l hl)) hn]
  exact rdoc_render hp.read hr hp.spaced

/-- C125: a text that stands for a tree with nothing that CommonMark reads in another way is formatted to a text that is
rendered as the tree says. -/
theorem C125_output_partial (text : Str) (doc : List Node) (h : StandsFor text doc) (d : Nat) (hr : RegDoc d doc)
    (w : Width) (hw : wideDoc w doc = true) (hne : trimEnd doc ≠ []) :
    ∃ n, ∀ m, n ≤ m → ∃ y e, reformatMarkdownText m w text = .ok y ∧ CM.html y = some e ∧
      e.map fineEv = (docEv doc).map fineEv := by
  obtain ⟨k, h1, h2⟩ := h
  obtain ⟨e, he, hev⟩ := C125_print_partial d (trimEnd doc) (regDoc_trim hr) hne w (wideDoc_trim hw)
  rw [docEv_trim] at hev
  exact ⟨k + 1, fun m hm => ⟨_, e, C54_format k m hm w text doc h1 h2 hw, he, hev⟩⟩

/-- C125: a text that CommonMark and the program read as the same tree is formatted to a text that is rendered alike,
at every width with room for the thematic breaks. Only spaces at the ends of lines of code and white space in front of the
targets of links may differ. -/
theorem C125_tree_partial (text : Str) (doc : List Node) (h : StandsFor text doc) (d : Nat) (hr : RegDoc d doc)
    (hc : RDoc d (CM.lines text) doc) (hs : ∀ l ∈ CM.lines text, Spaced l)
    (w : Width) (hw : wideDoc w doc = true) (hne : trimEnd doc ≠ []) :
    ∃ n, ∀ m, n ≤ m → ∃ y e e', reformatMarkdownText m w text = .ok y ∧ CM.html text = some e ∧ CM.html y = some e' ∧
      e'.map fineEv = e.map fineEv ∧ e'.map shown = e.map shown := by
  obtain ⟨n, hn⟩ := C125_output_partial text doc h d hr w hw hne
  obtain ⟨e, he, hev⟩ := rdoc_render hc hr hs
  refine ⟨n, fun m hm => ?_⟩
  obtain ⟨y, e', h1, h2, h3⟩ := hn m hm
  exact ⟨y, e, e', h1, he, h2, h3.trans hev.symm, shown_of_fine (h3.trans hev.symm)⟩

theorem toks_loose {ts : List Tok} (h : CmToks ts) : ∀ t ∈ ts.tail, t.gap ≠ .glue := by
  have key : ∀ (a : Tok) (r : List Tok),
      Adj (fun a b : Tok => b.gap = .space ∨ b.gap = .link ∧ targetNext a.text = true) (a :: r) → ∀ t ∈ r, t.gap ≠ .glue := by
    intro a r
    induction r generalizing a with
    | nil => intro _ t ht; cases ht
    | cons b r ih =>
      intro h t ht
      rcases List.mem_cons.1 ht with rfl | ht
      · rcases h.head with h | ⟨h, _⟩ <;> rw [h] <;> decide
      · exact ih b h.tail t ht
  cases ts with
  | nil => intro t ht; cases ht
  | cons a r => exact key a r h.gaps

mutual
theorem Node.Reg.loose : ∀ (d : Nat) (a : Node), a.Reg d → a.loose
  | 0, _, h => h.elim
  | _ + 1, .underlined _ _, ⟨_, h⟩ => toks_loose h
  | _ + 1, .par _, h => toks_loose h
  | _ + 1, .hard _, h => toks_loose h.1
  | d + 1, .quote _ inner, h => reg_looseDoc d inner h.2.2.1
  | d + 1, .bullets _ items, h => reg_looseItems d items fun it hi a ha => ((h.2.2 it hi).2.1 a ha).1
  | d + 1, .numbers _ items, h => reg_looseItems d items fun it hi a ha => ((h.2.2.2 it hi).2.1 a ha).1
  | _ + 1, .blank, _ => trivial
  | _ + 1, .heading .., _ => trivial
  | _ + 1, .indented _, _ => trivial
  | _ + 1, .rule _, _ => trivial
  | _ + 1, .code .., _ => trivial
  | _ + 1, .ref .., _ => trivial
  | _ + 1, .tail .., _ => trivial
  | _ + 1, .table .., _ => trivial
theorem reg_looseDoc (d : Nat) : ∀ doc : List Node, (∀ a ∈ doc, a.Reg d) → looseDoc doc
  | [], _ => trivial
  | a :: r, h => ⟨Node.Reg.loose d a (h a (by simp)), reg_looseDoc d r fun x hx => h x (by simp [hx])⟩
theorem reg_looseItems (d : Nat) : ∀ items : List (List Node), (∀ it ∈ items, ∀ a ∈ it, a.Reg d) → looseItems items
  | [], _ => trivial
  | it :: r, h => ⟨reg_looseDoc d it (h it (by simp)), reg_looseItems d r fun x hx => h x (by simp [hx])⟩
end

/-- C125: changing the width of a document in normal form does not change what is rendered. -/
theorem C125_widths_partial (d : Nat) (doc : List Node) (hwf : WFDoc d doc) (d' : Nat) (hr : RegDoc d' doc)
    (hne : trimEnd doc ≠ []) (w w' : Width) (hw : wideDoc w doc = true) (hw' : wideDoc w' doc = true) :
    ∃ n, ∀ m, n ≤ m → ∃ y e e', reformatMarkdownText m w' (pyJoin ['\n'] (printDoc w doc) ++ ['\n']) = .ok y ∧
      CM.html (pyJoin ['\n'] (printDoc w doc) ++ ['\n']) = some e ∧ CM.html y = some e' ∧
      e'.map fineEv = e.map fineEv ∧ e'.map shown = e.map shown := by
  have hd : doc ≠ [] := by rintro rfl; exact hne rfl
  obtain ⟨n, hn⟩ := C125_output_partial _ doc
    (C54_every_tree d doc hwf (reg_looseDoc d' doc hr.1) hd w hw) d' hr w' hw' hne
  obtain ⟨e, he, hev⟩ := C125_print_partial d' doc hr hd w hw
  refine ⟨n, fun m hm => ?_⟩
  obtain ⟨y, e', h1, h2, h3⟩ := hn m hm
  exact ⟨y, e, e', h1, he, h2, h3.trans hev.symm, shown_of_fine (h3.trans hev.symm)⟩

/-! ## Documents that are rendered differently -/

theorem C125_refuted_heading : reformatMarkdownText 3 (.fin 88) c!"#a" = .ok c!"# a\n" ∧
    CM.html c!"#a" = some [.par [.word c!"#a"]] ∧ CM.html c!"# a\n" = some [.heading 1 [.word c!"a"]] := by
  decide +kernel

/-- A line break that is written as a backslash is lost. -/
theorem C125_refuted_backslash : reformatMarkdownText 3 (.fin 88) c!"a\\\nb" = .ok c!"a\\ b\n" ∧
    CM.html c!"a\\\nb" = some [.par [.word c!"a", .br, .word c!"b"]] ∧
    CM.html c!"a\\ b\n" = some [.par [.word c!"a\\", .word c!"b"]] := by
  decide +kernel

/-- Two lists become one. -/
theorem C125_refuted_lists : reformatMarkdownText 5 (.fin 88) c!"* a\n- b" = .ok c!"* a\n* b\n" ∧
    CM.html c!"* a\n- b" = some [.list (.bullet '*') 0, .item, .par [.word c!"a"], .endItem, .endList false,
      .list (.bullet '-') 0, .item, .par [.word c!"b"], .endItem, .endList false] ∧
    CM.html c!"* a\n* b\n" = some [.list (.bullet '*') 0, .item, .par [.word c!"a"], .endItem,
      .item, .par [.word c!"b"], .endItem, .endList false] := by
  decide +kernel

/-- The entries of a list become one paragraph. -/
theorem C125_refuted_paren : reformatMarkdownText 5 (.fin 88) c!"1) a\n2) b" = .ok c!"1) a 2) b\n" ∧
    CM.html c!"1) a\n2) b" = some [.list (.number ')') 1, .item, .par [.word c!"a"], .endItem,
      .item, .par [.word c!"b"], .endItem, .endList false] ∧
    CM.html c!"1) a 2) b\n" = some [.list (.number ')') 1, .item, .par [.word c!"a", .word c!"2)", .word c!"b"],
      .endItem, .endList false] := by
  decide +kernel

/-- A new line starts with a word that makes it a list. -/
theorem C125_refuted_wrap : reformatMarkdownText 3 (.fin 10) c!"aaaaaaaaa - b" = .ok c!"aaaaaaaaa\n- b\n" ∧
    CM.html c!"aaaaaaaaa - b" = some [.par [.word c!"aaaaaaaaa", .word c!"-", .word c!"b"]] ∧
    CM.html c!"aaaaaaaaa\n- b\n" = some [.par [.word c!"aaaaaaaaa"], .list (.bullet '-') 0, .item, .par [.word c!"b"],
      .endItem, .endList false] := by
  decide +kernel

/-- A paragraph is torn out of its list. -/
theorem C125_refuted_torn : reformatMarkdownText 5 (.fin 88) c!"- a\n\n  b" = .ok c!"- a\n\nb\n" ∧
    CM.html c!"- a\n\n  b" = some [.list (.bullet '-') 0, .item, .par [.word c!"a"], .par [.word c!"b"], .endItem,
      .endList true] ∧
    CM.html c!"- a\n\nb\n" = some [.list (.bullet '-') 0, .item, .par [.word c!"a"], .endItem, .endList false,
      .par [.word c!"b"]] := by
  decide +kernel

/-- Tables are no part of CommonMark, which reads them as paragraphs; the line below their heads gets longer. -/
theorem C125_refuted_table : reformatMarkdownText 5 (.fin 88) c!"|a|b|\n|-|-|\n|c|d|" = .ok c!"| a | b |\n|---|---|\n| c | d |\n" ∧
    CM.html c!"|a|b|\n|-|-|\n|c|d|" = some [.par [.word c!"|a|b|", .word c!"|-|-|", .word c!"|c|d|"]] ∧
    CM.html c!"| a | b |\n|---|---|\n| c | d |\n" = some [.par [.word c!"|", .word c!"a", .word c!"|", .word c!"b", .word c!"|",
      .word c!"|---|---|", .word c!"|", .word c!"c", .word c!"|", .word c!"d", .word c!"|"]] := by
  decide +kernel

/-- A code span is torn from the text that touches it. -/
theorem C125_refuted_code : reformatMarkdownText 5 (.fin 4) c!"aaa`b`" = .ok c!"aaa\n`b`\n" ∧
    CM.html c!"aaa`b`" = some [.par [.word c!"aaa`b`"]] ∧
    CM.html c!"aaa\n`b`\n" = some [.par [.word c!"aaa", .word c!"`b`"]] := by
  decide +kernel

/-- Two links become one word. -/
theorem C125_refuted_links : reformatMarkdownText 5 (.fin 88) c!"[a](b) [c](d)" = .ok c!"[a](b)[c](d)\n" ∧
    CM.html c!"[a](b) [c](d)" = some [.par [.word c!"[a](b)", .word c!"[c](d)"]] ∧
    CM.html c!"[a](b)[c](d)\n" = some [.par [.word c!"[a](b)[c](d)"]] := by
  decide +kernel

theorem C125_refuted : ¬ C125_statement := by
  intro h
  obtain ⟨h1, h2, h3⟩ := C125_refuted_heading
  have := h _ _ _ _ _ _ h1 h2 h3
  revert this
  decide

/-! ## An example -/

theorem spaced_of {l : Str} (h : l.all (fun c => !isWs c || c == ' ') = true) : Spaced l := by
  intro c hc hw
  have := List.all_eq_true.1 h c hc
  rw [hw] at this
  simpa using this

/-- decides `CmOpens` -/
def cmOpensOk (s : Str) : Bool :=
  match splitWs s with
  | w :: _ => openerOk w && !(w.getLast? == some ')' && w.dropLast.all isDigit) && decide (w.head? ≠ some '<')
  | [] => false

theorem cmOpens_of {s : Str} (h : cmOpensOk s = true) : CmOpens s := by
  unfold cmOpensOk at h
  cases e : splitWs s with
  | nil => rw [e] at h; cases h
  | cons w ws =>
    rw [e] at h
    simp only [Bool.and_eq_true, decide_eq_true_eq] at h
    refine ⟨w, ws, e, opener_of_ok h.1.1, ?_, h.2⟩
    rintro ⟨ds, rfl, hd⟩
    have : (ds ++ c!")").dropLast.all isDigit = true := by
      rw [List.all_eq_true]; intro x hx
      exact hd x (by simpa using hx)
    have h2 := h.1.2
    rw [this] at h2
    simp at h2

/-- decides `RText` -/
def rtextOk (ls : List Str) (ts : List Tok) : Bool :=
  !ls.isEmpty && decide (finePieces ((words ls).map .word) = finePieces (tokPieces ts)) &&
    (ls.all fun l => l.all (fun c => !isWs c || c == ' ') && decide (CM.indent l < 4) && cmOpensOk l &&
      decide (l.getLast? ≠ some '\\') && !endsWith l c!"  ") &&
    !CM.defines (ls.map CM.text)

theorem rtext_of {ls : List Str} {ts : List Tok} (h : rtextOk ls ts = true) : RText ls ts := by
  simp only [rtextOk, Bool.and_eq_true, decide_eq_true_eq] at h
  obtain ⟨⟨⟨h1, h2⟩, h3⟩, h4⟩ := h
  refine ⟨by rintro rfl; simp at h1, h2, fun l hl => ?_, by simpa using h4⟩
  · have := List.all_eq_true.1 h3 l hl
    simp only [Bool.and_eq_true, decide_eq_true_eq, Bool.not_eq_true'] at this
    obtain ⟨⟨⟨⟨g1, g2⟩, g3⟩, g4⟩, g5⟩ := this
    refine ⟨spaced_of g1, g2, cmOpens_of g3, g4, ?_⟩
    rintro ⟨r, hr⟩
    rw [(endsWith_iff _ _).2 ⟨r, hr⟩] at g5; cases g5

theorem par_cm {R : List Str → List Node → Prop} {ls : List Str} {ts : List Tok} (h : rtextOk ls ts = true) :
    RNode R ls (.par ts) := .par (rtext_of h)

theorem single_cm {d : Nat} {ls : List Str} {a : Node} (h : RNode (RDoc d) ls a) : RDoc (d + 1) ls [a] :=
  ⟨[ls], by simp, .cons h .nil, by simp [CmFlush, Prev.isList]⟩

/-- decides the gaps of `CmToks` -/
def gapsOk : List Tok → Bool
  | a :: b :: r => (b.gap == .space || b.gap == .link && targetNext a.text) && gapsOk (b :: r)
  | _ => true

/-- decides `CmToks` -/
def cmToksOk (ts : List Tok) : Bool :=
  !ts.isEmpty && (ts.all fun t => t.text.all (fun c => !isWs c || c == ' ') && cmOpensOk t.text && decide (strip t.text = t.text) &&
    decide (t.text.getLast? ≠ some '\\')) && gapsOk ts && !CM.defines (ts.map (·.text))

theorem cmToks_of {ts : List Tok} (h : cmToksOk ts = true) : CmToks ts := by
  simp only [cmToksOk, Bool.and_eq_true] at h
  obtain ⟨⟨⟨h1, h2⟩, h3⟩, h4⟩ := h
  refine ⟨by rintro rfl; simp at h1, fun t ht => ?_, ?_, by simpa using h4⟩
  · have := List.all_eq_true.1 h2 t ht
    simp only [Bool.and_eq_true, decide_eq_true_eq] at this
    exact ⟨spaced_of this.1.1.1, cmOpens_of this.1.1.2, this.1.2, this.2⟩
  · clear h1 h2 h4
    induction ts with
    | nil => exact adj_nil
    | cons a r ih =>
      cases r with
      | nil => exact adj_single _
      | cons b r =>
        simp only [gapsOk, Bool.and_eq_true, Bool.or_eq_true, beq_iff_eq] at h3
        exact adj_cons h3.1 (ih h3.2)

theorem par_reg {d : Nat} {ts : List Tok} (h : cmToksOk ts = true) : (Node.par ts).Reg (d + 1) := cmToks_of h

/-- A document. -/
def commonExample : List Str :=
  [c!" ## Title  one ##", c!"Some *prose* of", c!"  words", c!" ",
   c!"> + first", c!">      item", c!"> + more", c!">", c!"> ___", c!"",
   c!"7. one", c!"1. two", c!"   * x", c!"   * y", c!"***", c!"~~~py ", c!"x  ", c!"~~~ "]

/-- Its tree. -/
def commonExampleDoc : List Node :=
  [.heading 2 c!"Title  one ##", .par (plainToks [c!"Some", c!"*prose*", c!"of", c!"words"]), .blank,
   .quote true [.bullets '+' [[.par (plainToks [c!"first", c!"item"])], [.par (plainToks [c!"more"])]], .blank, .rule '_'], .blank,
   .numbers 7 [[.par (plainToks [c!"one"])], [.par (plainToks [c!"two"]), .bullets '*' [[.par (plainToks [c!"x"])], [.par (plainToks [c!"y"])]]]], .rule '*',
   .code '~' 3 c!"py" [c!"x"]]

theorem C125_example_reg : RegDoc 3 commonExampleDoc := by
  have item : ∀ {d : Nat} {ws : List Str}, cmToksOk (plainToks ws) = true →
      ([.par (plainToks ws)] : List Node) ≠ [] ∧ (∀ a ∈ ([.par (plainToks ws)] : List Node), a.Reg (d + 1) ∧ a.solid) ∧
        CmFlow .free [.par (plainToks ws)] := by
    intro d ws h
    refine ⟨by simp, ?_, by simp [CmFlow, Prev.allows]⟩
    intro a ha
    rw [List.mem_singleton.1 ha]
    exact ⟨par_reg h, trivial⟩
  constructor
  · intro a ha
    simp only [commonExampleDoc, List.mem_cons, List.not_mem_nil, or_false] at ha
    rcases ha with rfl | rfl | rfl | rfl | rfl | rfl | rfl | rfl
    · exact ⟨by decide, by decide, by decide, by decide, spaced_of (by decide)⟩
    · exact par_reg (by decide)
    · trivial
    · refine ⟨rfl, by simp, ?_, by simp [CmFlow, Prev.allows, Node.post, Prev.blank]⟩
      intro a ha
      simp only [List.mem_cons, List.not_mem_nil, or_false] at ha
      rcases ha with rfl | rfl | rfl
      · refine ⟨.inr (.inl rfl), by simp, ?_⟩
        intro it hi
        simp only [List.mem_cons, List.not_mem_nil, or_false] at hi
        rcases hi with rfl | rfl
        · exact item (by decide)
        · exact item (by decide)
      · trivial
      · exact .inr (.inl rfl)
    · trivial
    · refine ⟨by decide, by decide, by simp, ?_⟩
      intro it hi
      simp only [List.mem_cons, List.not_mem_nil, or_false] at hi
      rcases hi with rfl | rfl
      · exact item (by decide)
      · refine ⟨by simp, ?_, by simp [CmFlow, Prev.allows, Node.post]⟩
        intro a ha
        simp only [List.mem_cons, List.not_mem_nil, or_false] at ha
        rcases ha with rfl | rfl
        · exact ⟨par_reg (by decide), trivial⟩
        · refine ⟨⟨.inl rfl, by simp, ?_⟩, trivial⟩
          intro it hi
          simp only [List.mem_cons, List.not_mem_nil, or_false] at hi
          rcases hi with rfl | rfl
          · exact item (by decide)
          · exact item (by decide)
    · exact .inl rfl
    · refine ⟨.inr rfl, by decide, by decide, by decide, by decide, spaced_of (by decide), ?_⟩
      intro l hl
      rw [List.mem_singleton.1 hl]
      exact ⟨by decide, spaced_of (by decide), by decide⟩
  · simp [commonExampleDoc, CmFlow, Prev.allows, Node.post, Prev.blank, docPost, Prev.opn]

theorem C125_example_wf : WFDoc 3 commonExampleDoc := by
  have item : ∀ {d : Nat} {ws : List Str}, (!ws.isEmpty && ws.all proseOk && decide (words ws = ws)) = true →
      ([.par (plainToks ws)] : List Node) ≠ [] ∧ (∀ a ∈ ([.par (plainToks ws)] : List Node), a.WF (d + 1) ∧ a.inside = true) ∧
        Flow [.par (plainToks ws)] := by
    intro d ws h
    refine ⟨by simp, ?_, flow_single (by simp [Node.kind]) (by simp)⟩
    intro a ha
    rw [List.mem_singleton.1 ha]
    exact ⟨par_wf h, rfl⟩
  constructor
  · intro a ha
    simp only [commonExampleDoc, List.mem_cons, List.not_mem_nil, or_false] at ha
    rcases ha with rfl | rfl | rfl | rfl | rfl | rfl | rfl | rfl
    · exact ⟨by decide, by decide, by decide, noLB_of (by decide)⟩
    · exact par_wf (by decide)
    · trivial
    · refine ⟨by simp, ?_, flow_of ?_ rfl (r := [_, _]) rfl (by simp), rfl, fun _ => ⟨.rule '_', by simp, by simp [Node.kind]⟩⟩
      · intro a ha
        simp only [List.mem_cons, List.not_mem_nil, or_false] at ha
        rcases ha with rfl | rfl | rfl
        · refine ⟨.inr (.inl rfl), by simp, ?_⟩
          intro it hi
          simp only [List.mem_cons, List.not_mem_nil, or_false] at hi
          rcases hi with rfl | rfl
          · exact item (by decide)
          · exact item (by decide)
        · trivial
        · exact .inr (.inl rfl)
      · refine adj_cons ?_ (adj_cons (before_other ?_ ?_ ?_ ?_ ?_) (adj_single _)) <;> try (simp [Node.kind]; done)
        exact ⟨by simp [Node.kind], by simp, by simp [Node.kind], by simp [Node.kind], fun _ => .inl rfl, by simp [Node.kind]⟩
    · trivial
    · refine ⟨by decide, by simp, ?_⟩
      intro it hi
      simp only [List.mem_cons, List.not_mem_nil, or_false] at hi
      rcases hi with rfl | rfl
      · exact item (by decide)
      · refine ⟨by simp, ?_, flow_of (adj_cons ?_ (adj_single _)) rfl (r := [_]) rfl (by simp)⟩
        · intro a ha
          simp only [List.mem_cons, List.not_mem_nil, or_false] at ha
          rcases ha with rfl | rfl
          · exact ⟨par_wf (by decide), rfl⟩
          · refine ⟨⟨.inl rfl, by simp, ?_⟩, rfl⟩
            intro it hi
            simp only [List.mem_cons, List.not_mem_nil, or_false] at hi
            rcases hi with rfl | rfl
            · exact item (by decide)
            · exact item (by decide)
        · exact before_par (by simp [Node.kind]) (by simp [Node.kind]) (by simp [Node.kind]) (by simp)
    · exact .inl rfl
    · refine ⟨.inr rfl, by decide, by decide, by decide, noLB_of (by decide), ?_⟩
      intro l hl
      rw [List.mem_singleton.1 hl]
      exact ⟨by decide, noLB_of (by decide), by decide⟩
  · refine flow_of ?_ rfl (r := [_, _, _, _, _, _, _]) rfl (by simp)
    refine adj_cons (before_other ?_ ?_ ?_ ?_ ?_) (adj_cons ?_ (adj_cons (before_other ?_ ?_ ?_ ?_ ?_) (adj_cons ?_
      (adj_cons (before_other ?_ ?_ ?_ ?_ ?_) (adj_cons ?_ (adj_cons (before_other ?_ ?_ ?_ ?_ ?_) (adj_single _)))))))
      <;> try (simp [Node.kind]; done)
    · exact before_par (by simp [Node.kind]) (by simp [Node.kind]) (by simp [Node.kind]) (by simp)
    · exact ⟨by simp [Node.kind], by simp, by simp [Node.kind], by simp [Node.kind], by simp [Node.kind], by simp [Node.kind]⟩
    · exact ⟨by simp [Node.kind], by simp, by simp [Node.kind], by simp [Node.kind], fun _ => .inr (.inl rfl), by simp [Node.kind]⟩

theorem C125_example_reads : Reads 3 commonExample commonExampleDoc := by
  refine ⟨[[c!" ## Title  one ##"], [c!"Some *prose* of", c!"  words"], [c!" "],
    [c!"> + first", c!">      item", c!"> + more", c!">", c!"> ___"], [c!""],
    [c!"7. one", c!"1. two", c!"   * x", c!"   * y"], [c!"***"], [c!"~~~py ", c!"x  ", c!"~~~ "]], rfl, ?_⟩
  refine .cons ?_ (.cons (par_reads (by decide)) (.cons ?_ (.cons ?_ (.cons ?_ (.cons ?_ (.cons ?_ (.cons ?_ .nil)))))))
  · exact .heading (ws := c!" ") (k := 2) (text := c!" Title  one ##") (allWs_of (by decide)) (by decide) (by decide)
      ⟨noLB_of (by decide), noLB_of (by decide)⟩
  · exact .blank (allWs_of (by decide)) (noLB_of (by decide))
  · refine .quote (rs := [c!" + first", c!"      item", c!" + more", c!"", c!" ___"]) ⟨_, rfl⟩
      (.cons ⟨0, by decide, rfl⟩ (.cons ⟨0, by decide, rfl⟩ (.cons ⟨0, by decide, rfl⟩ (.cons ⟨0, by decide, rfl⟩
        (.cons ⟨0, by decide, rfl⟩ .nil))))) (.yes (by decide) (by decide)) ?_ ?_ ?_
    · refine ⟨[[c!"+ first", c!"     item", c!"+ more"], [c!""], [c!"___"]], rfl, .cons (.bullets ?_)
        (.cons (.blank (by simp) noLB_nil) (.cons ?_ .nil))⟩
      · refine list_reads (es := [[c!"+ first", c!"     item"], [c!"+ more"]]) rfl (by decide) rfl ?_ (by decide) (by decide)
          (.cons (entry_reads (m := ['+']) (.inr (.inr (.inl rfl))) (single_reads (par_reads (by decide))))
            (.cons (entry_reads (m := ['+']) (.inr (.inr (.inl rfl))) (single_reads (par_reads (by decide)))) .nil))
        exact entries_from (m := ['+']) (.inr (.inr (.inl rfl))) (by decide)
          (entries_from (m := ['+']) (.inr (.inr (.inl rfl))) (by decide) trivial)
      · exact .rule (by decide) (by decide) (by decide) (by decide) (noLB_of (by decide))
    · refine ⟨[⟨.bullet, [c!" + first", c!"      item", c!" + more"], false⟩, ⟨.blank, [c!""], false⟩],
        ⟨.thematic, [c!" ___"], false⟩, ⟨?_, ?_, closed_plain (by simp)⟩, rfl, rfl⟩
      · intro b hb
        simp only [List.cons_append, List.nil_append, List.mem_cons, List.not_mem_nil, or_false] at hb
        rcases hb with rfl | rfl | rfl
        · exact .bullet (by decide) (by decide) (by decide)
        · exact .flat (.blank (by decide) noLB_nil)
        · exact .flat (.thematic (by decide) (by decide) (noLB_of (by decide)))
      · refine adj_cons ⟨?_, ?_, ?_, ?_, ?_, ?_⟩ (adj_cons ⟨?_, ?_, ?_, ?_, ?_, ?_⟩ (adj_single _)) <;> simp
    · intro l hl
      exact noLB_all (by decide) l hl
  · exact .blank (by simp) noLB_nil
  · refine .numbers (ds := ['7']) (by simp) (by decide) (list_reads (es := [[c!"7. one"], [c!"1. two", c!"   * x", c!"   * y"]])
      rfl (by decide) rfl ?_ (by decide) (by decide) (.cons (entry_reads (m := c!"7.") ?_ ?_)
        (.cons (entry_reads (m := c!"1.") ?_ ?_) .nil)))
    · exact entries_from (m := c!"7.") (.inr (.inr (.inr ⟨['7'], by simp, by decide, rfl⟩))) (by decide)
        (entries_from (m := c!"1.") (.inr (.inr (.inr ⟨['1'], by simp, by decide, rfl⟩))) (by decide) trivial)
    · exact .inr (.inr (.inr ⟨['7'], by simp, by decide, rfl⟩))
    · exact single_reads (par_reads (by decide))
    · exact .inr (.inr (.inr ⟨['1'], by simp, by decide, rfl⟩))
    · refine ⟨[[c!"two"], [c!"* x", c!"* y"]], rfl, .cons (par_reads (by decide)) (.cons (.bullets ?_) .nil)⟩
      refine list_reads (es := [[c!"* x"], [c!"* y"]]) rfl (by decide) rfl ?_ (by decide) (by decide)
        (.cons (entry_reads (m := ['*']) (.inl rfl) (single_reads (par_reads (by decide))))
          (.cons (entry_reads (m := ['*']) (.inl rfl) (single_reads (par_reads (by decide)))) .nil))
      exact entries_from (m := ['*']) (.inl rfl) (by decide) (entries_from (m := ['*']) (.inl rfl) (by decide) trivial)
  · exact .rule (by decide) (by decide) (by decide) (by decide) (noLB_of (by decide))
  · refine .code (f := '~') (k := 3) (ws := []) (info := c!"py ") (close := c!"~~~ ") (content := [c!"x  "])
      (by simp) (by decide) (by decide) (by decide) ⟨noLB_nil, noLB_of (by decide), noLB_of (by decide), ?_⟩
    intro l hl
    rw [List.mem_singleton.1 hl]
    exact noLB_of (by decide)

theorem C125_example_cm : RDoc 3 commonExample commonExampleDoc := by
  refine ⟨[[c!" ## Title  one ##"], [c!"Some *prose* of", c!"  words"], [c!" "],
    [c!"> + first", c!">      item", c!"> + more", c!">", c!"> ___"], [c!""],
    [c!"7. one", c!"1. two", c!"   * x", c!"   * y"], [c!"***"], [c!"~~~py ", c!"x  ", c!"~~~ "]], rfl, ?_, ?_⟩
  · refine .cons ?_ (.cons (par_cm (by decide)) (.cons ?_ (.cons ?_ (.cons ?_ (.cons ?_ (.cons ?_ (.cons ?_ .nil)))))))
    · exact .heading (i := 1) (k := 2) (t := c!" Title  one ##") (by decide) rfl
    · exact .blank (by decide)
    · refine .quote (rs := [c!" + first", c!"      item", c!" + more", c!"", c!" ___"]) ?_
      refine ⟨[[c!"+ first", c!"     item", c!"+ more"], [c!""], [c!"___"]], rfl, ?_, ?_⟩
      · refine .cons (.bullets (es := [[c!"+ first", c!"     item"], [c!"+ more"]]) ?_) (.cons (.blank (by decide)) (.cons ?_ .nil))
        · refine ⟨0, ['+'], c!"first", [c!"     item"], rfl, by decide, by decide, rfl, by decide, by decide, by decide, by decide,
            single_cm (par_cm (by decide)), ?_⟩
          exact ⟨0, ['+'], c!"more", [], rfl, by decide, by decide, rfl, by decide, by decide, by decide, by decide,
            single_cm (par_cm (by decide)), trivial⟩
        · exact .rule (i := 0) (l := c!"___") (by decide) rfl (by decide) (by decide)
      · simp [CmFlush, Prev.isList, Node.post, Prev.blank, CM.indent]
    · exact .blank (by decide)
    · refine .numbers (i := 0) (ds := ['7']) (r := c!"one") (conts := []) (es := [[c!"1. two", c!"   * x", c!"   * y"]]) ?_ (by decide)
      refine ⟨0, c!"7.", c!"one", [], rfl, by decide, by decide, ⟨['7'], by decide⟩, by decide, by decide, by decide, by decide,
        single_cm (par_cm (by decide)), ?_⟩
      refine ⟨0, c!"1.", c!"two", [c!"   * x", c!"   * y"], rfl, by decide, by decide, ⟨['1'], by decide⟩, by decide, by decide,
        by decide, by decide, ?_, trivial⟩
      refine ⟨[[c!"two"], [c!"* x", c!"* y"]], rfl, .cons (par_cm (by decide))
        (.cons (.bullets (es := [[c!"* x"], [c!"* y"]]) ?_) .nil), by simp [CmFlush, Prev.isList, Node.post]⟩
      refine ⟨0, ['*'], c!"x", [], rfl, by decide, by decide, rfl, by decide, by decide, by decide, by decide,
        single_cm (par_cm (by decide)), ?_⟩
      exact ⟨0, ['*'], c!"y", [], rfl, by decide, by decide, rfl, by decide, by decide, by decide, by decide,
        single_cm (par_cm (by decide)), trivial⟩
    · exact .rule (i := 0) (l := c!"***") (by decide) rfl (by decide) (by decide)
    · exact .code (f := '~') (k := 3) (info := c!"py ") (close := c!"~~~ ") (content := [c!"x  "]) (by decide) (by decide)
        (by decide) (by decide)
  · simp [commonExampleDoc, CmFlush, Prev.isList, Node.post, Prev.blank, CM.indent, docPost]

/-- The document meets the hypotheses of `C125_tree_partial`. This is what it is formatted to, and rendered as. -/
theorem C125_example : StandsFor (pyJoin ['\n'] commonExample) commonExampleDoc ∧
    RDoc 3 (CM.lines (pyJoin ['\n'] commonExample)) commonExampleDoc ∧
    (∀ l ∈ CM.lines (pyJoin ['\n'] commonExample), Spaced l) ∧ wideDoc (.fin 12) commonExampleDoc = true ∧
    reformatMarkdownText 4 (.fin 12) (pyJoin ['\n'] commonExample) =
      .ok c!"## Title  one ##\nSome *prose*\nof words\n\n> + first\n>   item\n> + more\n>\n> __________\n\n7. one\n8. two\n   * x\n   * y\n************\n~~~py\nx\n~~~\n" ∧
    CM.html (pyJoin ['\n'] commonExample) = some [.heading 2 [.word c!"Title", .word c!"one"],
      .par [.word c!"Some", .word c!"*prose*", .word c!"of", .word c!"words"], .quote, .list (.bullet '+') 0,
      .item, .par [.word c!"first", .word c!"item"], .endItem, .item, .par [.word c!"more"], .endItem, .endList false, .rule, .endQuote,
      .list (.number '.') 7, .item, .par [.word c!"one"], .endItem, .item, .par [.word c!"two"],
      .list (.bullet '*') 0, .item, .par [.word c!"x"], .endItem, .item, .par [.word c!"y"], .endItem, .endList false, .endItem, .endList false,
      .rule, .code c!"py" [c!"x  "]] := by
  have e : CM.lines (pyJoin ['\n'] commonExample) = commonExample := by decide +kernel
  have e2 : splitlines (pyJoin ['\n'] commonExample) = commonExample := by decide +kernel
  refine ⟨⟨3, by rw [e2]; exact C125_example_reads, C125_example_wf⟩, by rw [e]; exact C125_example_cm, ?_, by decide +kernel,
    ?_, by decide +kernel⟩
  · rw [e]
    intro l hl
    have h : (commonExample.all fun l => l.all fun c => !isWs c || c == ' ') = true := by decide
    exact spaced_of (List.all_eq_true.1 h l hl)
  · rw [C54_format 3 4 (by decide) _ _ commonExampleDoc (by rw [e2]; exact C125_example_reads) C125_example_wf (by decide +kernel)]
    decide +kernel

/-! ### Text that starts with a link -/

/-- The tokens of a text. -/
def leadToks : List Tok := [⟨.glue, c!"[the"⟩, ⟨.space, c!"docs]("⟩, ⟨.link, c!"u)"⟩, ⟨.space, c!"[say]"⟩]

theorem inline_lead : Inline c!"[the docs](u) [say]" leadToks := by
  refine ⟨?_, by decide, by decide, by decide⟩
  refine .link (g := []) (pre := []) (name := c!"the docs") (v := []) (target := c!"u") (tail := [])
    (o := '(') (c := ')') (by decide) trivial
    ⟨by decide, by decide, by decide, by decide, by decide, by decide, by decide, by decide, by decide⟩ (by decide) ?_
  refine .word (g := c!" ") (w := c!"[say]") (by decide) (by simp [Ctx.word]) ⟨by decide, by decide, by decide, by decide, by decide⟩
    (.inl (by decide)) ?_
  exact .nil (by decide)

theorem lead_text : Text [c!"[the docs](u)", c!"[say]"] leadToks := by
  refine ⟨?_, inline_lead, by simp [leadToks], ⟨_, inline_lead⟩, ?_, .inr (by decide)⟩
  · intro l hl
    have hb : ∀ l : Str, l.getLast? ≠ some ' ' → ¬ ∃ r, l = r ++ c!"  " := by
      rintro l h ⟨r, rfl⟩
      exact h (by simp)
    simp only [List.mem_cons, List.not_mem_nil, or_false] at hl
    rcases hl with rfl | rfl <;>
      exact ⟨by decide, by decide, opens_of_ok (by decide +kernel), by decide, hb _ (by decide)⟩
  · intro t ht
    simp only [leadToks, List.mem_cons, List.not_mem_nil, or_false] at ht
    rcases ht with rfl | rfl | rfl | rfl <;> exact opens_of_ok (by decide +kernel)

/-- A paragraph that starts with a link meets the hypotheses of `C125_tree_partial`. -/
theorem C125_example_link : StandsFor c!"[the docs](u)\n[say]" [.par leadToks] ∧ RegDoc 1 [.par leadToks] ∧
    RDoc 1 (CM.lines c!"[the docs](u)\n[say]") [.par leadToks] ∧
    reformatMarkdownText 2 (.fin 4) c!"[the docs](u)\n[say]" = .ok c!"[the\ndocs](\nu)\n[say]\n" ∧
    CM.html c!"[the\ndocs](\nu)\n[say]\n" = some [.par [.word c!"[the", .word c!"docs](", .word c!"u)", .word c!"[say]"]] := by
  have e : splitlines c!"[the docs](u)\n[say]" = [c!"[the docs](u)", c!"[say]"] := by decide +kernel
  have e2 : CM.lines c!"[the docs](u)\n[say]" = [c!"[the docs](u)", c!"[say]"] := by decide +kernel
  refine ⟨⟨1, by rw [e]; exact single_reads (.par lead_text), ?_, flow_single (by simp [Node.kind]) (by simp)⟩, ⟨?_, ?_⟩, ?_,
    by decide +kernel, by decide +kernel⟩
  · intro a ha
    rw [List.mem_singleton.1 ha]
    exact lead_text.layable
  · intro a ha
    rw [List.mem_singleton.1 ha]
    exact par_reg (by decide +kernel)
  · simp [CmFlow, Prev.allows]
  · rw [e2]
    exact single_cm (par_cm (by decide +kernel))

/-! ### Code spans and links -/

/-- The tokens of a text. -/
def spanToks : List Tok :=
  [⟨.glue, c!"use"⟩, ⟨.space, c!"`a  b`."⟩, ⟨.space, c!"As"⟩, ⟨.space, c!"in"⟩, ⟨.space, c!"[the"⟩, ⟨.space, c!"docs]("⟩,
    ⟨.link, c!"http://x.y \"T\")."⟩]

theorem inline_spans : Inline c!"use `a  b`. As in [the  docs]( http://x.y \"T\")." spanToks := by
  have word : ∀ {w : Str}, (w ≠ [] ∧ (∀ c ∈ w, isWs c = false) ∧ '`' ∉ w ∧ (¬ c!"](" <:+: w ∧ ¬ c!"][" <:+: w) ∧
    ¬ c!"<br" <:+: w) → PlainWord w := fun h => ⟨h.1, h.2.1, h.2.2.1, h.2.2.2.1, h.2.2.2.2⟩
  refine ⟨?_, by decide, by decide, by decide⟩
  refine .word (g := []) (w := c!"use") (by decide) trivial (word (by decide)) (.inr (.inl ⟨_, _, rfl, by decide⟩)) ?_
  refine .code (g := c!" ") (n := 1) (body := c!"a  b") (dot := c!".") (by decide)
    ⟨by decide, by decide, by decide, by decide, ?_⟩ ⟨by decide, by decide⟩ ?_
  · rintro ⟨a, b, h, _⟩
    have : '`' ∈ c!"a  b" := by rw [h]; simp [ticks]
    revert this; decide
  refine .word (g := c!" ") (w := c!"As") (by decide) trivial (word (by decide)) (.inr (.inl ⟨_, _, rfl, by decide⟩)) ?_
  refine .word (g := c!" ") (w := c!"in") (by decide) trivial (word (by decide)) (.inr (.inl ⟨_, _, rfl, by decide⟩)) ?_
  refine .link (g := c!" ") (pre := []) (name := c!"the  docs") (v := c!" ") (target := c!"http://x.y \"T\"") (tail := c!".")
    (o := '(') (c := ')') (by decide) trivial
    ⟨by decide, by decide, by decide, by decide, by decide, by decide, by decide, by decide, by decide⟩ (by decide) ?_
  exact .nil (by decide)

theorem span_text : Text [c!"use `a  b`. As", c!" in [the  docs](", c!"http://x.y \"T\")."] spanToks := by
  refine ⟨?_, inline_spans, by simp [spanToks], ⟨_, inline_spans⟩, ?_, .inr (by decide)⟩
  · intro l hl
    have hb : ∀ l : Str, l.getLast? ≠ some ' ' → ¬ ∃ r, l = r ++ c!"  " := by
      rintro l h ⟨r, rfl⟩
      exact h (by simp)
    simp only [List.mem_cons, List.not_mem_nil, or_false] at hl
    rcases hl with rfl | rfl | rfl <;>
      exact ⟨by decide, by decide, opens_of_ok (by decide +kernel), by decide, hb _ (by decide)⟩
  · intro t ht
    simp only [spanToks, List.mem_cons, List.not_mem_nil, or_false] at ht
    rcases ht with rfl | rfl | rfl | rfl | rfl | rfl | rfl <;> exact opens_of_ok (by decide +kernel)

/-- A paragraph with a code span and a link meets the hypotheses of `C125_tree_partial`. -/
theorem C125_example_spans : StandsFor c!"use `a  b`. As\n in [the  docs](\nhttp://x.y \"T\")." [.par spanToks] ∧
    RegDoc 1 [.par spanToks] ∧ RDoc 1 (CM.lines c!"use `a  b`. As\n in [the  docs](\nhttp://x.y \"T\").") [.par spanToks] ∧
    reformatMarkdownText 2 (.fin 40) c!"use `a  b`. As\n in [the  docs](\nhttp://x.y \"T\")." =
      .ok c!"use `a  b`. As in [the docs](\nhttp://x.y \"T\").\n" ∧
    reformatMarkdownText 2 (.fin 80) c!"use `a  b`. As\n in [the  docs](\nhttp://x.y \"T\")." =
      .ok c!"use `a  b`. As in [the docs](http://x.y \"T\").\n" ∧
    CM.html c!"use `a  b`. As in [the docs](http://x.y \"T\").\n" = some [.par [.word c!"use", .word c!"`a", .word c!"b`.",
      .word c!"As", .word c!"in", .word c!"[the", .word c!"docs](http://x.y", .word c!"\"T\")."]] := by
  have e : splitlines c!"use `a  b`. As\n in [the  docs](\nhttp://x.y \"T\")." =
    [c!"use `a  b`. As", c!" in [the  docs](", c!"http://x.y \"T\")."] := by decide +kernel
  have e2 : CM.lines c!"use `a  b`. As\n in [the  docs](\nhttp://x.y \"T\")." =
    [c!"use `a  b`. As", c!" in [the  docs](", c!"http://x.y \"T\")."] := by decide +kernel
  refine ⟨⟨1, by rw [e]; exact single_reads (.par span_text), ?_, flow_single (by simp [Node.kind]) (by simp)⟩, ⟨?_, ?_⟩, ?_,
    by decide +kernel, by decide +kernel, by decide +kernel⟩
  · intro a ha
    rw [List.mem_singleton.1 ha]
    exact span_text.layable
  · intro a ha
    rw [List.mem_singleton.1 ha]
    exact par_reg (by decide +kernel)
  · simp [CmFlow, Prev.allows]
  · rw [e2]
    exact single_cm (par_cm (by decide +kernel))

/-! ### Loose lists and line breaks -/

/-- A document. -/
def looseExample : List Str := [c!"- a", c!"", c!"", c!"- b", c!"  c", c!"", c!"one   ", c!" more", c!"two  ", c!"end"]

/-- Its tree. -/
def looseExampleDoc : List Node :=
  [.bullets '-' [[.par (plainToks [c!"a"])]], .blank, .blank, .bullets '-' [[.par (plainToks [c!"b", c!"c"])]], .blank,
    .hard (plainToks [c!"one"]), .hard (plainToks [c!"more", c!"two"]), .par (plainToks [c!"end"])]

theorem prose_reads {ls : List Str} (h : (!ls.isEmpty && ls.all proseOk) = true) : Text ls (plainToks (words ls)) := by
  rw [Bool.and_eq_true] at h
  exact prose_text (by intro h0; rw [h0] at h; simp at h) fun l hl => prose_of_ok (List.all_eq_true.1 h.2 l hl)

theorem C125_loose_reads : Reads 2 looseExample looseExampleDoc := by
  refine ⟨[[c!"- a"], [c!""], [c!""], [c!"- b", c!"  c"], [c!""], [c!"one   "], [c!" more", c!"two  "], [c!"end"]], rfl, ?_⟩
  refine .cons (.bullets ?_) (.cons (.blank (by simp) noLB_nil) (.cons (.blank (by simp) noLB_nil) (.cons (.bullets ?_)
    (.cons (.blank (by simp) noLB_nil) (.cons ?_ (.cons ?_ (.cons (par_reads (by decide)) .nil)))))))
  · exact list_reads (es := [[c!"- a"]]) rfl (by decide) rfl (entries_from (m := ['-']) (.inr (.inl rfl)) (by decide) trivial)
      (by decide) (by decide)
      (.cons (entry_reads (m := ['-']) (.inr (.inl rfl)) (single_reads (par_reads (by decide)))) .nil)
  · exact list_reads (es := [[c!"- b", c!"  c"]]) rfl (by decide) rfl (entries_from (m := ['-']) (.inr (.inl rfl)) (by decide) trivial)
      (by decide) (by decide)
      (.cons (entry_reads (m := ['-']) (.inr (.inl rfl)) (single_reads (par_reads (by decide)))) .nil)
  · exact .hard (ls := []) (l := c!"one") (ws := c!"   ") (prose_reads (by decide)) (by decide) (by decide)
  · exact .hard (ls := [c!" more"]) (l := c!"two") (ws := c!"  ") (prose_reads (by decide)) (by decide) (by decide)

theorem C125_loose_wf : WFDoc 2 looseExampleDoc := by
  have item : ∀ {d : Nat} {ws : List Str}, (!ws.isEmpty && ws.all proseOk && decide (words ws = ws)) = true →
      (Node.bullets '-' [[.par (plainToks ws)]]).WF (d + 2) := by
    intro d ws h
    refine ⟨.inr (.inr rfl), by simp, ?_⟩
    intro it hi
    rw [List.mem_singleton.1 hi]
    refine ⟨by simp, ?_, flow_single (by simp [Node.kind]) (by simp)⟩
    intro a ha
    rw [List.mem_singleton.1 ha]
    exact ⟨par_wf h, rfl⟩
  have list : ∀ {its : List (List Node)}, (Node.bullets '-' its).Before .blank := by
    intro its
    exact ⟨by simp [Node.kind], by simp, by simp [Node.kind], by simp [Node.kind], fun _ => .inl rfl, by simp [Node.kind]⟩
  constructor
  · intro a ha
    simp only [looseExampleDoc, List.mem_cons, List.not_mem_nil, or_false] at ha
    rcases ha with rfl | rfl | rfl | rfl | rfl | rfl | rfl | rfl
    · exact item (by decide)
    · trivial
    · trivial
    · exact item (by decide)
    · trivial
    · exact par_wf (d := 0) (ws := [c!"one"]) (by decide)
    · exact par_wf (d := 0) (ws := [c!"more", c!"two"]) (by decide)
    · exact par_wf (by decide)
  · refine flow_of ?_ rfl (r := [_, _, _, _, _, _, _]) rfl (by simp)
    refine adj_cons list (adj_cons (before_other ?_ ?_ ?_ ?_ ?_) (adj_cons (before_other ?_ ?_ ?_ ?_ ?_) (adj_cons list
      (adj_cons (before_other ?_ ?_ ?_ ?_ ?_) (adj_cons (before_hard (by simp)) (adj_cons (before_hard (by simp)) (adj_single _)))))))
      <;> simp [Node.kind]

theorem C125_loose_reg : RegDoc 2 looseExampleDoc := by
  have item : ∀ {d : Nat} {ws : List Str}, cmToksOk (plainToks ws) = true →
      (Node.bullets '-' [[.par (plainToks ws)]]).Reg (d + 2) := by
    intro d ws h
    refine ⟨.inr (.inr rfl), by simp, ?_⟩
    intro it hi
    rw [List.mem_singleton.1 hi]
    refine ⟨by simp, ?_, by simp [CmFlow, Prev.allows]⟩
    intro a ha
    rw [List.mem_singleton.1 ha]
    exact ⟨par_reg h, trivial⟩
  constructor
  · intro a ha
    simp only [looseExampleDoc, List.mem_cons, List.not_mem_nil, or_false] at ha
    rcases ha with rfl | rfl | rfl | rfl | rfl | rfl | rfl | rfl
    · exact item (by decide)
    · trivial
    · trivial
    · exact item (by decide)
    · trivial
    · exact ⟨cmToks_of (by decide), by decide⟩
    · exact ⟨cmToks_of (by decide), by decide⟩
    · exact par_reg (by decide)
  · simp [looseExampleDoc, CmFlow, Prev.allows, Node.post, Prev.blank]

theorem C125_loose_cm : RDoc 2 looseExample looseExampleDoc := by
  refine ⟨[[c!"- a"], [c!""], [c!""], [c!"- b", c!"  c"], [c!""], [c!"one   "], [c!" more", c!"two  "], [c!"end"]], rfl, ?_, ?_⟩
  · refine .cons (.bullets (es := [[c!"- a"]]) ?_) (.cons (.blank rfl) (.cons (.blank rfl) (.cons
      (.bullets (es := [[c!"- b", c!"  c"]]) ?_) (.cons (.blank rfl) (.cons ?_ (.cons ?_ (.cons (par_cm (by decide)) .nil)))))))
    · exact ⟨0, ['-'], c!"a", [], rfl, by decide, by decide, rfl, by decide, by decide, by decide, by decide,
        single_cm (par_cm (by decide)), trivial⟩
    · exact ⟨0, ['-'], c!"b", [c!"  c"], rfl, by decide, by decide, rfl, by decide, by decide, by decide, by decide,
        single_cm (par_cm (by decide)), trivial⟩
    · exact .hard (ls := []) (l := c!"one") (j := 1) (rtext_of (by decide)) (by decide)
    · exact .hard (ls := [c!" more"]) (l := c!"two") (j := 0) (rtext_of (by decide)) (by decide)
  · simp [looseExampleDoc, CmFlush, Prev.isList, Node.post, Prev.blank, CM.indent]

/-- The document meets the hypotheses of `C125_tree_partial`. This is what it is formatted to, and rendered as: its list is
loose, and the last paragraph has two line breaks. -/
theorem C125_example_loose : StandsFor (pyJoin ['\n'] looseExample) looseExampleDoc ∧ RegDoc 2 looseExampleDoc ∧
    RDoc 2 (CM.lines (pyJoin ['\n'] looseExample)) looseExampleDoc ∧
    (∀ l ∈ CM.lines (pyJoin ['\n'] looseExample), Spaced l) ∧ wideDoc (.fin 12) looseExampleDoc = true ∧
    reformatMarkdownText 3 (.fin 12) (pyJoin ['\n'] looseExample) = .ok c!"- a\n\n\n- b c\n\none  \nmore two  \nend\n" ∧
    CM.html c!"- a\n\n\n- b c\n\none  \nmore two  \nend\n" = some [.list (.bullet '-') 0, .item, .par [.word c!"a"], .endItem,
      .item, .par [.word c!"b", .word c!"c"], .endItem, .endList true,
      .par [.word c!"one", .br, .word c!"more", .word c!"two", .br, .word c!"end"]] := by
  have e : CM.lines (pyJoin ['\n'] looseExample) = looseExample := by decide +kernel
  have e2 : splitlines (pyJoin ['\n'] looseExample) = looseExample := by decide +kernel
  refine ⟨⟨2, by rw [e2]; exact C125_loose_reads, C125_loose_wf⟩, C125_loose_reg, by rw [e]; exact C125_loose_cm, ?_,
    by decide +kernel, ?_, by decide +kernel⟩
  · rw [e]
    intro l hl
    have h : (looseExample.all fun l => l.all fun c => !isWs c || c == ' ') = true := by decide
    exact spaced_of (List.all_eq_true.1 h l hl)
  · rw [C54_format 2 3 (by decide) _ _ looseExampleDoc (by rw [e2]; exact C125_loose_reads) C125_loose_wf (by decide +kernel)]
    decide +kernel

/-! ## Numbers of different length -/

/-- A list whose second number is longer than the first. -/
def digitsExample : List Str := [c!"9. one two", c!"   three", c!"   * x", c!"   * y", c!"9. four"]

/-- What it stands for. -/
def digitsExampleDoc : List Node :=
  [.numbers 9 [[.par (plainToks [c!"one", c!"two", c!"three"]), .bullets '*' [[.par (plainToks [c!"x"])], [.par (plainToks [c!"y"])]]],
    [.par (plainToks [c!"four"])]]]

theorem C125_digits_reads : Reads 3 digitsExample digitsExampleDoc := by
  have h9 : IsMarker c!"9." := .inr (.inr (.inr ⟨['9'], by simp, by decide, rfl⟩))
  refine single_reads (.numbers (ds := ['9']) (by simp) (by decide)
    (list_reads (es := [[c!"9. one two", c!"   three", c!"   * x", c!"   * y"], [c!"9. four"]])
      rfl (by decide) rfl ?_ (by decide) (by decide) (.cons (entry_reads (m := c!"9.") h9 ?_)
        (.cons (entry_reads (m := c!"9.") h9 (single_reads (par_reads (by decide)))) .nil))))
  · exact entries_from (m := c!"9.") h9 (by decide) (entries_from (m := c!"9.") h9 (by decide) trivial)
  · refine ⟨[[c!"one two", c!"three"], [c!"* x", c!"* y"]], rfl, .cons (par_reads (by decide)) (.cons (.bullets ?_) .nil)⟩
    refine list_reads (es := [[c!"* x"], [c!"* y"]]) rfl (by decide) rfl ?_ (by decide) (by decide)
      (.cons (entry_reads (m := ['*']) (.inl rfl) (single_reads (par_reads (by decide))))
        (.cons (entry_reads (m := ['*']) (.inl rfl) (single_reads (par_reads (by decide)))) .nil))
    exact entries_from (m := ['*']) (.inl rfl) (by decide) (entries_from (m := ['*']) (.inl rfl) (by decide) trivial)

theorem C125_digits_wf : WFDoc 3 digitsExampleDoc := by
  have item : ∀ {d : Nat} {ws : List Str}, (!ws.isEmpty && ws.all proseOk && decide (words ws = ws)) = true →
      ([.par (plainToks ws)] : List Node) ≠ [] ∧ (∀ a ∈ ([.par (plainToks ws)] : List Node), a.WF (d + 1) ∧ a.inside = true) ∧
        Flow [.par (plainToks ws)] := by
    intro d ws h
    refine ⟨by simp, ?_, flow_single (by simp [Node.kind]) (by simp)⟩
    intro a ha
    rw [List.mem_singleton.1 ha]
    exact ⟨par_wf h, rfl⟩
  refine ⟨?_, flow_single (by simp [Node.kind]) (by simp)⟩
  intro a ha
  rw [List.mem_singleton.1 ha]
  refine ⟨by decide, by simp, ?_⟩
  intro it hi
  simp only [List.mem_cons, List.not_mem_nil, or_false] at hi
  rcases hi with rfl | rfl
  · refine ⟨by simp, ?_, flow_of (adj_cons (before_par ?_ ?_ ?_ ?_) (adj_single _)) rfl (r := [_]) rfl (by simp)⟩ <;>
      try (simp [Node.kind]; done)
    intro a ha
    simp only [List.mem_cons, List.not_mem_nil, or_false] at ha
    rcases ha with rfl | rfl
    · exact ⟨par_wf (by decide), rfl⟩
    · refine ⟨⟨.inl rfl, by simp, ?_⟩, rfl⟩
      intro it hi
      simp only [List.mem_cons, List.not_mem_nil, or_false] at hi
      rcases hi with rfl | rfl
      · exact item (by decide)
      · exact item (by decide)
  · exact item (by decide)

theorem C125_digits_reg : RegDoc 3 digitsExampleDoc := by
  have item : ∀ {d : Nat} {ws : List Str}, cmToksOk (plainToks ws) = true →
      ([.par (plainToks ws)] : List Node) ≠ [] ∧ (∀ a ∈ ([.par (plainToks ws)] : List Node), a.Reg (d + 1) ∧ a.solid) ∧
        CmFlow .free [.par (plainToks ws)] := by
    intro d ws h
    refine ⟨by simp, ?_, by simp [CmFlow, Prev.allows]⟩
    intro a ha
    rw [List.mem_singleton.1 ha]
    exact ⟨par_reg h, trivial⟩
  refine ⟨?_, by simp [digitsExampleDoc, CmFlow, Prev.allows]⟩
  intro a ha
  rw [List.mem_singleton.1 ha]
  refine ⟨by decide, by decide, by simp, ?_⟩
  intro it hi
  simp only [List.mem_cons, List.not_mem_nil, or_false] at hi
  rcases hi with rfl | rfl
  · refine ⟨by simp, ?_, by simp [CmFlow, Prev.allows, Node.post]⟩
    intro a ha
    simp only [List.mem_cons, List.not_mem_nil, or_false] at ha
    rcases ha with rfl | rfl
    · exact ⟨par_reg (by decide), trivial⟩
    · refine ⟨⟨.inl rfl, by simp, ?_⟩, trivial⟩
      intro it hi
      simp only [List.mem_cons, List.not_mem_nil, or_false] at hi
      rcases hi with rfl | rfl
      · exact item (by decide)
      · exact item (by decide)
  · exact item (by decide)

theorem C125_digits_cm : RDoc 3 digitsExample digitsExampleDoc := by
  refine single_cm (.numbers (i := 0) (ds := ['9']) (r := c!"one two") (conts := [c!"   three", c!"   * x", c!"   * y"])
    (es := [[c!"9. four"]]) ?_ (by decide))
  refine ⟨0, c!"9.", c!"one two", [c!"   three", c!"   * x", c!"   * y"], rfl, by decide, by decide, ⟨['9'], by decide⟩, by decide,
    by decide, by decide, by decide, ?_, 0, c!"9.", c!"four", [], rfl, by decide, by decide, ⟨['9'], by decide⟩, by decide,
    by decide, by decide, by decide, single_cm (par_cm (by decide)), trivial⟩
  refine ⟨[[c!"one two", c!"three"], [c!"* x", c!"* y"]], rfl, .cons (par_cm (by decide))
    (.cons (.bullets (es := [[c!"* x"], [c!"* y"]]) ?_) .nil), by simp [CmFlush, Prev.isList, Node.post]⟩
  refine ⟨0, ['*'], c!"x", [], rfl, by decide, by decide, rfl, by decide, by decide, by decide, by decide,
    single_cm (par_cm (by decide)), ?_⟩
  exact ⟨0, ['*'], c!"y", [], rfl, by decide, by decide, rfl, by decide, by decide, by decide, by decide,
    single_cm (par_cm (by decide)), trivial⟩

/-- The document meets the hypotheses of `C125_tree_partial` (and of `C54_format`). This is what it is formatted to, and
rendered as: the entry with the shorter number is indented by one more than its text. -/
theorem C125_example_digits : StandsFor (pyJoin ['\n'] digitsExample) digitsExampleDoc ∧ RegDoc 3 digitsExampleDoc ∧
    RDoc 3 (CM.lines (pyJoin ['\n'] digitsExample)) digitsExampleDoc ∧
    (∀ l ∈ CM.lines (pyJoin ['\n'] digitsExample), Spaced l) ∧ wideDoc (.fin 12) digitsExampleDoc = true ∧
    reformatMarkdownText 4 (.fin 12) (pyJoin ['\n'] digitsExample) = .ok c!"9. one two\n    three\n    * x\n    * y\n10. four\n" ∧
    CM.html c!"9. one two\n    three\n    * x\n    * y\n10. four\n" = some [.list (.number '.') 9, .item,
      .par [.word c!"one", .word c!"two", .word c!"three"], .list (.bullet '*') 0, .item, .par [.word c!"x"], .endItem,
      .item, .par [.word c!"y"], .endItem, .endList false, .endItem, .item, .par [.word c!"four"], .endItem, .endList false] := by
  have e : CM.lines (pyJoin ['\n'] digitsExample) = digitsExample := by decide +kernel
  have e2 : splitlines (pyJoin ['\n'] digitsExample) = digitsExample := by decide +kernel
  refine ⟨⟨3, by rw [e2]; exact C125_digits_reads, C125_digits_wf⟩, C125_digits_reg, by rw [e]; exact C125_digits_cm, ?_,
    by decide +kernel, ?_, by decide +kernel⟩
  · rw [e]
    intro l hl
    have h : (digitsExample.all fun l => l.all fun c => !isWs c || c == ' ') = true := by decide
    exact spaced_of (List.all_eq_true.1 h l hl)
  · rw [C54_format 3 4 (by decide) _ _ digitsExampleDoc (by rw [e2]; exact C125_digits_reads) C125_digits_wf (by decide +kernel)]
    decide +kernel

end MF
