import Verif.Props.Length
import Verif.Props.Tree
/-!
# The bound on the length is of the right order

C130: a table with one long cell comes out with as many characters as it has rows times columns.
-/

namespace MF

/-- A table of one column: a heading of `k + 1` characters and `j` short rows. -/
def tallTable (j k : Nat) : List Str :=
  ('|' :: List.replicate (k + 1) 'a' ++ ['|']) :: c!"|-|" :: List.replicate j c!"|x|"

/-- The table as it is written. -/
def tallDoc (j k : Nat) : Node := .table [.none] [List.replicate (k + 1) 'a'] (List.replicate j [c!"x"])

theorem tall_noLB (j k : Nat) : ∀ l ∈ tallTable j k, NoLB l := by
  intro l hl
  simp only [tallTable, List.mem_cons] at hl
  rcases hl with rfl | rfl | hl
  · intro c hc
    simp only [List.cons_append, List.mem_cons, List.mem_append, List.mem_replicate, List.not_mem_nil, or_false] at hc
    rcases hc with rfl | ⟨_, rfl⟩ | rfl <;> decide
  · exact noLB_of (by decide)
  · rw [List.eq_of_mem_replicate hl]; exact noLB_of (by decide)

theorem strip_as (k : Nat) : strip (List.replicate (k + 1) 'a') = List.replicate (k + 1) 'a' := by
  apply strip_eq_self_of
  · intro c r h
    rw [List.replicate_succ] at h
    cases h; decide
  · intro r c h
    rw [List.replicate_succ'] at h
    have := List.append_inj_right' h rfl
    cases this; decide

theorem tall_reads (j k : Nat) : Reads 1 (tallTable j k) [tallDoc j k] := by
  refine ⟨[tallTable j k], by simp, .cons ?_ .nil⟩
  have row : ∀ (raw : List Str) (line : Str), line = '|' :: (pyJoin ['|'] raw ++ ['|']) → raw ≠ [] →
      (∀ c ∈ raw, CellOk (some '|') c) → Row line (raw.map strip) := by
    intro raw line hl hne h
    exact ⟨[], raw, [], hl, by simp, by simp, hne, h, rfl⟩
  have plain : ∀ (s : Str) (p : Option Char), p ≠ some '\\' → '|' ∉ s → '\\' ∉ s → CellOk p s := by
    intro s
    induction s with
    | nil => intro p hp _ _; simpa [CellOk] using hp
    | cons c s ih =>
      intro p hp h1 h2
      simp only [List.mem_cons, not_or] at h1 h2
      simp only [CellOk]
      exact ⟨fun e => absurd e.symm h1.1, ih _ (fun e => h2.1 (Option.some.inj e).symm) h1.2 h2.2⟩
  have hrows : ∀ j, Rows (List.replicate j c!"|x|") (List.replicate j [c!"x"]) := by
    intro j
    induction j with
    | zero => trivial
    | succ j ih => exact ⟨row [c!"x"] _ rfl (by simp) (by simp [CellOk]), ih⟩
  have := ReadsNode.table (R := Reads 0) (S := Divides 0) (header := '|' :: List.replicate (k + 1) 'a' ++ ['|']) (divider := c!"|-|")
    (body := List.replicate j c!"|x|") (hc := [List.replicate (k + 1) 'a'].map strip) (dc := [c!"-"])
    (rows := List.replicate j [c!"x"]) (by
      rw [getIndent, List.cons_append, lstrip_cons_of_not _ _ (by decide)]; omega)
    (row [List.replicate (k + 1) 'a'] _ rfl (by simp) (fun c hc => by
      rw [List.mem_singleton.1 hc]
      exact plain _ _ (by decide) (fun h => absurd (List.eq_of_mem_replicate h) (by decide))
        (fun h => absurd (List.eq_of_mem_replicate h) (by decide))))
    (row [c!"-"] _ rfl (by simp) (by simp [CellOk])) (hrows j) (by unfold DelimCell; decide) (by
      intro l hl
      rw [List.eq_of_mem_replicate hl]
      rintro ⟨a, b, h⟩
      have : '\\' ∈ c!"|x|" := by rw [h]; simp
      revert this; decide) (tall_noLB j k)
  simp only [List.map_cons, List.map_nil, strip_as] at this
  exact this

theorem tall_wf (j k : Nat) : WFDoc 1 [tallDoc j k] := by
  refine ⟨fun a ha => ?_, flow_single (by simp [tallDoc, Node.kind]) rfl⟩
  rw [List.mem_singleton.1 ha]
  have cellA : Cell (List.replicate (k + 1) 'a') := ⟨strip_as k, fun h => absurd (List.eq_of_mem_replicate h) (by decide),
    fun c hc => by rw [List.eq_of_mem_replicate hc]; decide⟩
  have cellX : Cell c!"x" := ⟨by decide, by decide, noLB_of (by decide)⟩
  refine ⟨by simp, rfl, fun r hr => by rw [List.eq_of_mem_replicate hr]; rfl, fun c hc => by rw [List.mem_singleton.1 hc]; exact cellA,
    fun r hr c hc => ?_⟩
  rw [List.eq_of_mem_replicate hr] at hc
  rw [List.mem_singleton.1 hc]; exact cellX

theorem tall_widths (k : Nat) : ∀ j, colWidths [List.replicate (k + 1) 'a'] (List.replicate j [c!"x"]) = [k + 1] := by
  have key : ∀ j, (List.replicate j [c!"x"]).foldl (fun ws r => ws.zipWith (fun w c => max w c.length) r) [k + 1] = [k + 1] := by
    intro j
    induction j with
    | zero => rfl
    | succ j ih =>
      rw [List.replicate_succ, List.foldl_cons]
      have : max (k + 1) (List.length c!"x") = k + 1 := Nat.max_eq_left (by simp)
      simp only [List.zipWith_cons_cons, List.zipWith_nil_left, this]
      exact ih
  intro j
  simp only [colWidths, List.map_cons, List.map_nil, List.length_replicate]
  exact key j

theorem length_join_same {m : Nat} : ∀ ls : List Str, ls ≠ [] → (∀ l ∈ ls, l.length = m) →
    (pyJoin ['\n'] ls).length + 1 = ls.length * (m + 1)
  | [], h, _ => absurd rfl h
  | [l], _, hl => by simp [pyJoin, hl l (by simp)]
  | l :: l' :: ls, _, hl => by
    have ih := length_join_same (l' :: ls) (by simp) (fun x hx => hl x (by simp [hx]))
    have h1 := hl l (by simp)
    simp only [pyJoin, List.length_append, List.length_cons, List.length_nil] at ih ⊢
    rw [Nat.add_mul _ 1, Nat.one_mul, ← ih, h1]
    omega

theorem tall_print (w : Width) (j k : Nat) : (printDoc w [tallDoc j k]).length = j + 2 ∧ ∀ l ∈ printDoc w [tallDoc j k], l.length = k + 5 := by
  simp only [printDoc, Node.print, tallDoc, List.append_nil, tableLines, tall_widths]
  refine ⟨by simp, fun l hl => ?_⟩
  simp only [List.mem_cons, List.map_replicate] at hl
  rcases hl with rfl | rfl | hl
  · simp [zip3, barred, padCell]
  · simp [zip3, barred, ruleCell]
  · rw [List.eq_of_mem_replicate hl]
    simp [zip3, barred, padCell, bodyAlign]

/-- C130: the length of the result is in fact quadratic for a table of `j + 2` short rows and one cell of `k + 1` characters, at any width:
`k + 4 * j + 7` characters become `(j + 2) * (k + 6)`. -/
theorem C130_attained (w : Width) (j k : Nat) :
    (pyJoin ['\n'] (tallTable j k)).length = k + 4 * j + 7 ∧
    ∃ y, reformatMarkdownText 2 w (pyJoin ['\n'] (tallTable j k)) = .ok y ∧ y.length = (j + 2) * (k + 6) := by
  constructor
  · have h : ∀ j, (pyJoin ['\n'] (c!"|-|" :: List.replicate j c!"|x|")).length = 4 * j + 3 := by
      intro j
      have := length_join_same (m := 3) (c!"|-|" :: List.replicate j c!"|x|") (by simp) (by
        intro l hl
        rcases List.mem_cons.1 hl with rfl | hl
        · rfl
        · rw [List.eq_of_mem_replicate hl]; rfl)
      simp only [List.length_cons, List.length_replicate] at this
      omega
    simp only [tallTable, pyJoin, List.length_append, h]
    simp only [List.length_cons, List.length_replicate, List.length_nil]
    omega
  · have hsp : splitlines (pyJoin ['\n'] (tallTable j k)) = tallTable j k := splitlines_join _ (tall_noLB j k) (by
      intro h
      have hm := List.mem_of_getLast? h
      simp only [tallTable, List.mem_cons, List.mem_replicate] at hm
      rcases hm with h | h | ⟨_, h⟩ <;> cases h)
    have hf := C54_format 1 2 (by omega) w (pyJoin ['\n'] (tallTable j k)) [tallDoc j k] (by rw [hsp]; exact tall_reads j k)
      (tall_wf j k) rfl
    refine ⟨_, hf, ?_⟩
    have ht : trimEnd [tallDoc j k] = [tallDoc j k] := rfl
    obtain ⟨h1, h2⟩ := tall_print w j k
    rw [ht, List.length_append]
    have := length_join_same (m := k + 5) (printDoc w [tallDoc j k]) (by intro e; rw [e] at h1; simp at h1) h2
    rw [h1] at this
    exact this

/-- A quote and an ordered list in it, a break and a table at a small width: 50 characters give 90. -/
theorem C130_example :
    reformatMarkdownText 6 (.fin 8) c!"> 9. a b c d\n> 1. e\n\n***\n\n| abcde |\n|--|\n| x |\n|y|" =
      .ok c!"> 9. a\n>     b\n>     c\n>     d\n> 10. e\n\n********\n\n| abcde |\n|-------|\n| x     |\n| y     |\n" := by decide +kernel

end MF
