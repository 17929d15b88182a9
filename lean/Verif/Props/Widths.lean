import Verif.Props.Tree
/-!
# From one width to another

C127: a document that was formatted at one width and is then formatted at another comes out as if it had been formatted at
the other width at once. As stated this is false; it holds for texts that stand for a tree without glued tokens, however
many widths there are in between, and for all trees it is known exactly what comes out.
-/

namespace MF

/-- C127 as stated. -/
def C127_statement : Prop :=
  ∀ (n : Nat) (w w' : Width) (text y z : Str), reformatMarkdownText n w text = .ok y → reformatMarkdownText n w' text = .ok z →
    reformatMarkdownText n w' y = .ok z

/-- C127 (partial): what comes out for a text that stands for a tree: the tree as settled by the first width, written down at the second. -/
theorem C127_tree_partial (d n : Nat) (hn : d + 1 ≤ n) (w w' : Width) (text y : Str) (doc : List Node)
    (h : Reads d (splitlines text) doc) (hw : WFDoc d doc) (hwide : wideDoc w doc = true) (hwide' : wideDoc w' doc = true)
    (hy : reformatMarkdownText n w text = .ok y) :
    reformatMarkdownText n w' y = .ok (pyJoin ['\n'] (printDoc w' (settleDoc w (trimEnd doc))) ++ ['\n']) ∧
    (reformatMarkdownText n w' y = reformatMarkdownText n w' text ↔
      pyJoin ['\n'] (printDoc w' (settleDoc w (trimEnd doc))) = pyJoin ['\n'] (printDoc w' (trimEnd doc))) := by
  have key : reformatMarkdownText n w' y = .ok (pyJoin ['\n'] (printDoc w' (settleDoc w (trimEnd doc))) ++ ['\n']) := by
    by_cases hne : trimEnd doc = []
    · rw [C54_format d n hn w text doc h hw hwide, hne] at hy
      rw [hne]
      cases hy
      cases d with
      | zero => exact h.elim
      | succ d =>
        have hb : ReadsNode (Reads d) (Divides d) [[]] .blank := .blank (by simp) noLB_nil
        exact C54_format (d + 1) n hn w' _ [.blank] ⟨[[[]]], rfl, .cons hb .nil⟩
          ⟨by intro a ha; rw [List.mem_singleton.1 ha]; trivial, flow_blank⟩ rfl
    · have h1 := C54_reads d n hn w text y doc h hw hwide hy hne
      obtain ⟨hk, hw1⟩ := kept_doc (wfDoc_trim hw) w
      have h2 := C54_format d n hn w' y _ h1 hw1 (by rw [hk.wide]; exact wideDoc_trim hwide')
      rw [settleDoc_trim, trimEnd_idem] at h2
      exact h2
  refine ⟨key, ?_⟩
  rw [key, C54_format d n hn w' text doc h hw hwide']
  constructor
  · intro e
    exact List.append_cancel_right (Except.ok.inj e)
  · intro e
    rw [e]

/-- The program, one width after the other. -/
def throughWidths (n : Nat) : List Width → Str → Except Err Str
  | [], text => .ok text
  | w :: ws, text => do
    let y ← reformatMarkdownText n w text
    throughWidths n ws y

/-- C127 (partial): if no tokens are glued then however many widths come first, only the last one matters. -/
theorem C127_loose_partial (d n : Nat) (hn : d + 1 ≤ n) (ws : List Width) (w : Width) (text : Str) (doc : List Node)
    (h : Reads d (splitlines text) doc) (hw : WFDoc d doc) (hl : looseDoc doc) (hwide : wideDoc w doc = true)
    (hwides : ∀ v ∈ ws, wideDoc v doc = true) : throughWidths n (ws ++ [w]) text = reformatMarkdownText n w text := by
  induction ws generalizing text doc with
  | nil =>
    simp only [List.nil_append, throughWidths, bind, Except.bind]
    cases reformatMarkdownText n w text <;> rfl
  | cons v ws ih =>
    have hv := hwides v (by simp)
    have hy := C54_format d n hn v text doc h hw hv
    have h2 := C54_widths d n hn v w text _ doc h hw hl hv hwide hy
    simp only [List.cons_append, throughWidths, bind, Except.bind, hy]
    rw [← h2]
    by_cases hne : trimEnd doc = []
    · rw [hne]
      cases d with
      | zero => exact h.elim
      | succ d =>
        have hb : ReadsNode (Reads d) (Divides d) [[]] .blank := .blank (by simp) noLB_nil
        exact ih _ [.blank] ⟨[[[]]], rfl, .cons hb .nil⟩
          ⟨by intro a ha; rw [List.mem_singleton.1 ha]; trivial, flow_blank⟩ ⟨trivial, trivial⟩ rfl (fun _ _ => rfl)
    · have h1 := C54_reads d n hn v text _ doc h hw hv hy hne
      rw [settleDoc_loose v _ (looseDoc_trim hl)] at h1
      exact ih _ (trimEnd doc) h1 (wfDoc_trim hw) (looseDoc_trim hl) (wideDoc_trim hwide)
        fun v' hv' => wideDoc_trim (hwides v' (by simp [hv']))

/-- What is glued to a code span is separated from it. -/
theorem C127_refuted_glued : reformatMarkdownText 3 (.fin 5) c!"`abc`def" = .ok c!"`abc`\ndef\n" ∧
    reformatMarkdownText 3 (.fin 80) c!"`abc`def" = .ok c!"`abc`def\n" ∧
    reformatMarkdownText 3 (.fin 80) c!"`abc`\ndef\n" = .ok c!"`abc` def\n" := by decide +kernel

/-- A word that looks like an underline at the start of a line makes a heading, for good. -/
theorem C127_refuted_marker : reformatMarkdownText 3 (.fin 5) c!"bbb\n=== bbb" = .ok c!"bbb\n===\nbbb\n" ∧
    reformatMarkdownText 3 (.fin 9) c!"bbb\n=== bbb" = .ok c!"bbb ===\nbbb\n" ∧
    reformatMarkdownText 3 (.fin 9) c!"bbb\n===\nbbb\n" = .ok c!"bbb\n===\nbbb\n" := by decide +kernel

/-- A paragraph that starts like a definition becomes one. -/
theorem C127_refuted_definition : reformatMarkdownText 3 (.fin 7) c!"[a]: c d e f" = .ok c!"[a]: c\nd e f\n" ∧
    reformatMarkdownText 3 .inf c!"[a]: c d e f" = .ok c!"[a]: c d e f\n" ∧
    reformatMarkdownText 3 .inf c!"[a]: c\nd e f\n" = .ok c!"[a]: c\nd e f\n" := by decide +kernel

/-- And what could be formatted at both widths may not be formatted at one after the other. -/
theorem C127_refuted_failure : reformatMarkdownText 3 (.fin 9) c!"b|a|b| -`[a]" = .ok c!"b|a|b| -\n`[a]\n" ∧
    reformatMarkdownText 3 (.fin 5) c!"b|a|b| -`[a]" = .ok c!"b|a|b|\n-`[a]\n" ∧
    reformatMarkdownText 3 (.fin 5) c!"b|a|b| -\n`[a]\n" = .error .inconsistent := by decide +kernel

/-- C127: a document with nested lists, a quote, a rule and a table, through four widths. -/
theorem C127_example : throughWidths 4 [.fin 12, .inf, .fin 30, .fin 15, .fin 20] (pyJoin ['\n'] treeExample) =
      reformatMarkdownText 4 (.fin 20) (pyJoin ['\n'] treeExample) ∧
    reformatMarkdownText 4 (.fin 20) (pyJoin ['\n'] treeExample) =
      .ok (pyJoin ['\n'] (printDoc (.fin 20) treeExampleDoc) ++ ['\n']) := by
  have e : splitlines (pyJoin ['\n'] treeExample) = treeExample := by decide +kernel
  have hr : Reads 3 (splitlines (pyJoin ['\n'] treeExample)) treeExampleDoc := by rw [e]; exact C54_example_reads
  have hl : looseDoc treeExampleDoc := by
    simp only [treeExampleDoc, looseDoc, looseItems, Node.loose, and_true, true_and]
    decide
  refine ⟨C127_loose_partial 3 4 (by decide) [.fin 12, .inf, .fin 30, .fin 15] (.fin 20) _ _ hr C54_example_wf hl
    (by decide +kernel) (by decide +kernel), ?_⟩
  rw [C54_format 3 4 (by decide) _ _ _ hr C54_example_wf (by decide +kernel)]
  decide +kernel

theorem C127_refuted : ¬C127_statement := by
  intro h
  have := h 3 (.fin 5) (.fin 9) _ _ _ C127_refuted_marker.1 C127_refuted_marker.2.1
  rw [C127_refuted_marker.2.2] at this
  exact absurd (Except.ok.inj this) (by decide)

end MF
