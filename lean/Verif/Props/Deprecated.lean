import Verif.Model.Deprecated
import Verif.Props.Extents
import Verif.Lemmas.Eof
/-!
# C91: the deprecated functions for fenced code blocks
-/

namespace MF

theorem takeWhile_strip (c : Char) (hc : isWs c = false) (l : Str) :
    (strip l).takeWhile (· == c) = (lstrip l).takeWhile (· == c) := by
  obtain ⟨t, ht, hall⟩ := rstripBy_split isWs (lstrip l)
  have hs : strip l = rstripBy isWs (lstrip l) := rfl
  have ht : lstrip l = strip l ++ t := by rw [hs]; exact ht
  rw [ht, List.takeWhile_append]
  split
  · rename_i h
    have h0 : t.takeWhile (· == c) = [] := by
      cases t with
      | nil => rfl
      | cons x t =>
        have hx := hall x (by simp)
        have : (x == c) = false := by
          rw [beq_eq_false_iff_ne]
          rintro rfl
          rw [hx] at hc; cases hc
        rw [List.takeWhile_cons, this]; rfl
    rw [h0, List.append_nil]
    exact (List.takeWhile_prefix _).eq_of_length h
  · rfl

/-- what `fenced_code_block_started` remembers is the fence that the splitter looks for -/
theorem started_open (m : FenceMem) (l : Str) (i : Int) :
    fencedStarted m l i = match openFence l with
      | some F => (true, ⟨F, i⟩)
      | none => (false, m) := by
  have len : ∀ c, isWs c = false → (strip l).length - (lstripBy (· == c) (strip l)).length =
      (lstrip l).length - (lstripBy (· == c) (lstrip l)).length := by
    intro c hc
    have h1 := congrArg List.length (List.takeWhile_append_dropWhile (p := (· == c)) (l := strip l))
    have h2 := congrArg List.length (List.takeWhile_append_dropWhile (p := (· == c)) (l := lstrip l))
    rw [List.length_append] at h1 h2
    rw [takeWhile_strip c hc] at h1
    show _ - ((strip l).dropWhile (· == c)).length = _ - ((lstrip l).dropWhile (· == c)).length
    omega
  unfold fencedStarted openFence
  simp only [List.find?, List.findSome?]
  cases h1 : startsWith (strip l) (List.replicate 3 '`') with
  | true => simp only [if_true, len '`' (by decide)]
  | false =>
    cases h2 : startsWith (strip l) (List.replicate 3 '~') with
    | true => simp only [Bool.false_eq_true, if_false, if_true, len '~' (by decide)]
    | false => simp only [Bool.false_eq_true, if_false]

/-- C91: `fenced_code_block_started` says yes exactly for the lines at which the splitter finds a fenced code block, and
remembers the characters that open it. -/
theorem C91_started (m : FenceMem) (l : Str) (i : Int) (ls a b : List Str) (h : splitFenced (l :: ls) = .ok (a, b)) :
    ((fencedStarted m l i).1 = true ↔ a ≠ []) ∧ ((fencedStarted m l i).1 = true → (fencedStarted m l i).2 = ⟨fenceRun l, i⟩) ∧
      ((fencedStarted m l i).1 = false → (fencedStarted m l i).2 = m) := by
  rw [started_open]
  simp only [splitFenced] at h
  cases ho : openFence l with
  | none =>
    rw [ho] at h
    cases h
    simp
  | some F =>
    rw [ho] at h
    have h := congrArg Prod.fst (Except.ok.inj h)
    simp only at h
    rw [openFence_run ho, ← h]
    simp

theorem pyGet_nat (lines : List Str) (i : Nat) (l : Str) (h : lines[i]? = some l) : pyGet lines i = .ok l := by
  have h0 : ¬ ((i : Int) < 0) := by omega
  unfold pyGet
  rw [if_neg h0]
  simp only [Int.toNat_natCast, h, if_neg h0]

/-- C91: without a fence remembered, `fenced_code_block_ended` raises. -/
theorem C91_without (i : Int) (line : Str) (lines : List Str) :
    fencedEnded .none line i lines = (.error .runtime, .none, []) := rfl

/-- C91: after the first line `l` started a block, `fenced_code_block_ended` says yes for a later line exactly if the line
before it starts with the fence and is not the first; then it forgets the fence, and otherwise it changes nothing. -/
theorem C91_ended (l line last : Str) (ls : List Str) (i : Nat) (hF : isFenceStart l = true) (hlast : ls[i]? = some last) :
    (fencedEnded ⟨fenceRun l, 0⟩ line (i + 2 : Nat) (l :: ls)).1 = .ok (startsWith (strip last) (fenceRun l)) ∧
    (fencedEnded ⟨fenceRun l, 0⟩ line (i + 2 : Nat) (l :: ls)).2.1 =
      (if startsWith (strip last) (fenceRun l) then FenceMem.none else ⟨fenceRun l, 0⟩) := by
  have hne : (fenceRun l).isEmpty = false := by
    cases ho : openFence l with
    | none => rw [openFence_none] at ho; rw [ho] at hF; cases hF
    | some F =>
      have := openFence_ne ho
      rw [openFence_run ho] at this
      cases hr : fenceRun l with
      | nil => exact absurd hr this
      | cons c r => rfl
  have h0 : pyGet (l :: ls) 0 = .ok l := pyGet_nat (l :: ls) 0 l rfl
  have h1 : pyGet (l :: ls) (((i + 2 : Nat) : Int) - 1) = .ok last := by
    rw [show ((i + 2 : Nat) : Int) - 1 = ((i + 1 : Nat) : Int) by omega]
    exact pyGet_nat _ _ _ (by simpa using hlast)
  have h2 : ¬ (((i + 2 : Nat) : Int) - 1 = 0) := by omega
  unfold fencedEnded
  simp only [hne, Bool.false_eq_true, if_false, h0, h1, if_neg h2]
  split
  · rename_i h3
    split at h3 <;> cases h3
  · split <;> simp [*]

/-- The line starts with the run and with more than three characters of white space more than the line that opened the block. -/
def tooDeep (l x : Str) : Bool :=
  startsWith (strip x) (fenceRun l) && decide ((x.takeWhile isWs).length > 3 + (l.takeWhile isWs).length)

/-- C91: exactly the warnings. Both name the line that is looked at, the second one for the line in front of it. -/
theorem C91_warnings (l line last : Str) (ls : List Str) (i : Nat) (hF : isFenceStart l = true) (hlast : ls[i]? = some last) :
    (fencedEnded ⟨fenceRun l, 0⟩ line (i + 2 : Nat) (l :: ls)).2.2 =
      (if i + 2 = ls.length ∧ tooDeep l line = true then [((i + 3 : Nat) : Int)] else []) ++
      (if tooDeep l last = true then [((i + 3 : Nat) : Int)] else []) := by
  have hne : (fenceRun l).isEmpty = false := by
    cases ho : openFence l with
    | none => rw [openFence_none] at ho; rw [ho] at hF; cases hF
    | some F =>
      have := openFence_ne ho
      rw [openFence_run ho] at this
      cases hr : fenceRun l with
      | nil => exact absurd hr this
      | cons c r => rfl
  have h0 : pyGet (l :: ls) 0 = .ok l := pyGet_nat (l :: ls) 0 l rfl
  have h1 : pyGet (l :: ls) (((i + 2 : Nat) : Int) - 1) = .ok last := by
    rw [show ((i + 2 : Nat) : Int) - 1 = ((i + 1 : Nat) : Int) by omega]
    exact pyGet_nat _ _ _ (by simpa using hlast)
  have h2 : ¬ (((i + 2 : Nat) : Int) - 1 = 0) := by omega
  have hind : ∀ x : Str, getIndent x = (x.takeWhile isWs).length := fun x => by
    have h : (x.takeWhile isWs ++ x.dropWhile isWs).length = x.length := by rw [List.takeWhile_append_dropWhile]
    rw [List.length_append] at h
    show x.length - (x.dropWhile isWs).length = _
    omega
  have hw : ∀ x, fenceWarning ⟨fenceRun l, 0⟩ l x (i + 2 : Nat) = if tooDeep l x = true then [((i + 3 : Nat) : Int)] else [] := by
    intro x
    unfold fenceWarning tooDeep
    rw [hind, hind]
    congr 1
  have hd : (((i + 2 : Nat) : Int) + 1 = (l :: ls).length) ↔ i + 2 = ls.length := by
    rw [List.length_cons]
    omega
  unfold fencedEnded
  simp only [hne, Bool.false_eq_true, if_false, h0, h1, if_neg h2]
  by_cases hb : i + 2 = ls.length
  · rw [if_pos (hd.2 hb)]
    simp only [Except.map, hw]
    simp only [hb, true_and]
    cases hs : startsWith (strip last) (fenceRun l) with
    | true => simp only [if_true]
    | false => rw [if_neg (show ¬ tooDeep l last = true by simp [tooDeep, hs])]; simp
  · rw [if_neg (fun h => hb (hd.1 h))]
    simp only [hw, hb, false_and, if_false]
    cases hs : startsWith (strip last) (fenceRun l) with
    | true => simp only [if_true]
    | false => rw [if_neg (show ¬ tooDeep l last = true by simp [tooDeep, hs])]; simp

/-- C91: for the line behind the first line it says no. -/
theorem C91_first (l line : Str) (ls : List Str) (hF : isFenceStart l = true) :
    (fencedEnded ⟨fenceRun l, 0⟩ line 1 (l :: ls)).1 = .ok false ∧
    (fencedEnded ⟨fenceRun l, 0⟩ line 1 (l :: ls)).2.1 = ⟨fenceRun l, 0⟩ := by
  have hne : (fenceRun l).isEmpty = false := by
    cases ho : openFence l with
    | none => rw [openFence_none] at ho; rw [ho] at hF; cases hF
    | some F =>
      have := openFence_ne ho
      rw [openFence_run ho] at this
      cases hr : fenceRun l with
      | nil => exact absurd hr this
      | cons c r => rfl
  have h0 : pyGet (l :: ls) 0 = .ok l := pyGet_nat (l :: ls) 0 l rfl
  unfold fencedEnded
  simp only [hne, Bool.false_eq_true, if_false, h0]
  split
  · rename_i h3
    split at h3 <;> cases h3
  · simp

/-- What the two functions were written for: `started` for the first line, then `ended` for the further lines up to the
first yes. The result is the number of lines in front of that line, or none if there was no yes. -/
def scanEnd (m : FenceMem) (lines : List Str) (i : Nat) : List Str → Option Nat
  | [] => none
  | line :: rest =>
    match fencedEnded m line i lines with
    | (.ok true, _, _) => some i
    | (.ok false, m', _) => scanEnd m' lines (i + 1) rest
    | (.error _, _, _) => none

theorem scanEnd_from (l : Str) (ls : List Str) (hF : isFenceStart l = true) (k : Nat) : ∀ (i : Nat), i + k + 1 = ls.length →
    scanEnd ⟨fenceRun l, 0⟩ (l :: ls) (i + 2) (ls.drop (i + 1)) =
      (((ls.drop i).dropLast).findIdx? fun x => startsWith (strip x) (fenceRun l)).map (· + (i + 2)) := by
  induction k with
  | zero =>
    intro i hi
    have h1 : ls.drop (i + 1) = [] := List.drop_eq_nil_of_le (by omega)
    have h2 : (ls.drop i).dropLast = [] := by
      apply List.eq_nil_of_length_eq_zero
      rw [List.length_dropLast, List.length_drop]; omega
    rw [h1, h2]; rfl
  | succ k ih =>
    intro i hi
    have hi1 : i < ls.length := by omega
    have hi2 : i + 1 < ls.length := by omega
    obtain ⟨h1, h2⟩ := C91_ended l ls[i + 1] ls[i] ls i hF (List.getElem?_eq_getElem hi1)
    rw [List.drop_eq_getElem_cons hi2]
    have hd : (ls.drop i).dropLast = ls[i] :: (ls.drop (i + 1)).dropLast := by
      rw [List.drop_eq_getElem_cons hi1, List.dropLast_cons_of_ne_nil]
      intro h0
      have := congrArg List.length h0
      rw [List.length_drop] at this
      simp at this
      omega
    rw [hd, List.findIdx?_cons]
    have ih := ih (i + 1) (by omega)
    simp only [scanEnd]
    revert h1 h2
    generalize fencedEnded ⟨fenceRun l, 0⟩ ls[i + 1] (i + 2 : Nat) (l :: ls) = r
    obtain ⟨a, b, c⟩ := r
    rintro h1 h2
    simp only at h1 h2
    subst h1 h2
    cases hs : startsWith (strip ls[i]) (fenceRun l) with
    | true => simp
    | false =>
      simp only [Bool.false_eq_true, if_false]
      rw [show i + 2 + 1 = i + 1 + 2 by omega, ih, Option.map_map]
      congr 1
      funext x
      simp only [Function.comp]
      omega

/-- C91: the end they find is behind the first further line that starts with the fence, unless that is the last line. -/
theorem C91_scan (l x : Str) (ls : List Str) (hF : isFenceStart l = true) :
    scanEnd ⟨fenceRun l, 0⟩ (l :: x :: ls) 1 (x :: ls) =
      ((x :: ls).dropLast.findIdx? fun y => startsWith (strip y) (fenceRun l)).map (· + 2) := by
  have h := scanEnd_from l (x :: ls) hF ls.length 0 (by simp)
  obtain ⟨h1, h2⟩ := C91_first l x (x :: ls) hF
  simp only [scanEnd]
  revert h1 h2
  rw [show ((1 : Nat) : Int) = 1 from rfl]
  generalize fencedEnded ⟨fenceRun l, 0⟩ x 1 (l :: x :: ls) = r
  obtain ⟨a, b, c⟩ := r
  rintro h1 h2
  simp only at h1 h2
  subst h1 h2
  simpa using h

theorem startsWith_refl (s : Str) : startsWith s s = true := (startsWith_iff _ _).2 ⟨[], by simp⟩

/-- C91: where the splitter ends a block in front of further lines, the deprecated functions have found an end too, the
same one if no line inside the block starts with the fence, and an earlier one otherwise. -/
theorem C91_agrees (l : Str) (ls block rest : List Str) (hF : isFenceStart l = true)
    (h : splitFenced (l :: ls) = .ok (block, rest)) (hr : rest ≠ []) :
    ∃ e, scanEnd ⟨fenceRun l, 0⟩ (l :: ls) 1 ls = some e ∧ e ≤ block.length ∧
      (e = block.length ↔ ∀ x ∈ block.tail.dropLast, startsWith (strip x) (fenceRun l) = false) := by
  cases ho : openFence l with
  | none => rw [openFence_none] at ho; rw [ho] at hF; cases hF
  | some F =>
    have hrun := openFence_run ho
    subst hrun
    by_cases hcl : ∃ c ∈ ls, strip c = fenceRun l
    · -- the first closing line
      obtain ⟨content, close, rest', rfl, h1, h2⟩ : ∃ content close rest', ls = content ++ close :: rest' ∧
          (∀ c ∈ content, strip c ≠ fenceRun l) ∧ strip close = fenceRun l := by
        clear h ho
        induction ls with
        | nil => obtain ⟨c, hc, _⟩ := hcl; cases hc
        | cons y ys ih =>
          by_cases hy : strip y = fenceRun l
          · exact ⟨[], y, ys, rfl, by simp, hy⟩
          · obtain ⟨c, hc, hcs⟩ := hcl
            rcases List.mem_cons.1 hc with rfl | hc
            · exact absurd hcs hy
            · obtain ⟨a, b, d, rfl, h1, h2⟩ := ih ⟨c, hc, hcs⟩
              refine ⟨y :: a, b, d, rfl, ?_, h2⟩
              intro z hz
              rcases List.mem_cons.1 hz with rfl | hz
              · exact hy
              · exact h1 z hz
      rw [(C14_extent l _ _ ho).1 content close rest' rfl h1 h2] at h
      cases h
      have hscan : scanEnd ⟨fenceRun l, 0⟩ (l :: (content ++ close :: rest)) 1 (content ++ close :: rest) =
          ((content ++ close :: rest).dropLast.findIdx? fun y => startsWith (strip y) (fenceRun l)).map (· + 2) := by
        cases hc : content ++ close :: rest with
        | nil => simp at hc
        | cons x xs => exact C91_scan l x xs hF
      have hdl : (content ++ close :: rest).dropLast = content ++ close :: rest.dropLast := by
        rw [show content ++ close :: rest = (content ++ [close]) ++ rest by simp, List.dropLast_append_of_ne_nil hr]
        simp
      rw [hscan, hdl, List.findIdx?_append]
      have htail : (l :: content ++ [close]).tail.dropLast = content := by simp
      rw [htail]
      cases hf : content.findIdx? fun y => startsWith (strip y) (fenceRun l) with
      | none =>
        refine ⟨content.length + 2, ?_, by simp, ?_⟩
        · rw [List.findIdx?_cons, h2, startsWith_refl]
          simp
        · rw [List.findIdx?_eq_none_iff] at hf
          simpa using hf
      | some k =>
        rw [List.findIdx?_eq_some_iff_getElem] at hf
        obtain ⟨hk, hp, _⟩ := hf
        refine ⟨k + 2, rfl, by simp; omega, ?_⟩
        constructor
        · intro he
          simp at he
          omega
        · intro hall
          rw [hall _ (List.getElem_mem hk)] at hp
          cases hp
    · rw [(C14_extent l ls _ ho).2 (fun c hc h => hcl ⟨c, hc, h⟩)] at h
      cases h
      exact absurd rfl hr

/-- C91: a block with a longer fence in it, where the deprecated functions find an end too early; and the warning about
a closing fence that is indented too deeply, which has the number of the line behind it. -/
theorem C91_example :
    splitFenced [c!"```", c!"a", c!"````", c!"b", c!"```", c!"c"] = .ok ([c!"```", c!"a", c!"````", c!"b", c!"```"], [c!"c"]) ∧
    scanEnd (fencedStarted .none c!"```" 0).2 [c!"```", c!"a", c!"````", c!"b", c!"```", c!"c"] 1
      [c!"a", c!"````", c!"b", c!"```", c!"c"] = some 3 ∧
    scanEnd (fencedStarted .none c!"```" 0).2 [c!"```", c!"a", c!"```", c!"b"] 1 [c!"a", c!"```", c!"b"] = some 3 ∧
    fencedEnded ⟨c!"```", 0⟩ c!"b" 3 [c!"```", c!"a", c!"    ```", c!"b"] = (.ok true, .none, [4]) ∧
    fencedEnded ⟨c!"```", 0⟩ c!"b" 3 [c!"```", c!"a", c!"   ```", c!"b"] = (.ok true, .none, []) ∧
    fencedEnded ⟨c!"```", 0⟩ c!"    ```" 3 [c!"```", c!"a", c!"a", c!"    ```"] = (.ok false, ⟨c!"```", 0⟩, [4]) := by
  decide +kernel

end MF
