import Verif.Model.Reformat
/-!
# C07: the outcome does not depend on the recursion budget

The budget stands for Python's recursion limit. An outcome other than running out of it stays the same for every
larger budget.
-/

namespace MF

/-- `b` is `a`, unless `a` ran out of recursion depth -/
def Refines {α : Type} (a b : Except Err α) : Prop := a = .error .recursion ∨ a = b

theorem Refines.rfl {α : Type} {a : Except Err α} : Refines a a := .inr _root_.rfl

theorem Refines.trans {α : Type} {a b c : Except Err α} (h1 : Refines a b) (h2 : Refines b c) : Refines a c := by
  rcases h1 with h1 | h1
  · exact .inl h1
  · rw [h1]; exact h2

theorem Refines.bind {α β : Type} {a b : Except Err α} {f g : α → Except Err β} (h1 : Refines a b)
    (h2 : ∀ x, Refines (f x) (g x)) : Refines (a >>= f) (b >>= g) := by
  rcases h1 with h1 | h1
  · subst h1; exact .inl _root_.rfl
  · subst h1
    cases a with
    | error e => exact .rfl
    | ok x => exact h2 x

theorem Refines.ite {α : Type} {p : Prop} [Decidable p] {a b c d : Except Err α} (h1 : Refines a b) (h2 : Refines c d) :
    Refines (if p then a else c) (if p then b else d) := by
  split
  · exact h1
  · exact h2

theorem anySplits_refines {lines : List Str} {fs gs : List (List Str → Split)}
    (h : fs.length = gs.length) (h2 : ∀ p ∈ fs.zip gs, Refines (p.1 lines) (p.2 lines)) :
    Refines (anySplits lines fs) (anySplits lines gs) := by
  induction fs generalizing gs with
  | nil =>
    cases gs with
    | nil => exact .rfl
    | cons g gs => simp at h
  | cons f fs ih =>
    cases gs with
    | nil => simp at h
    | cons g gs =>
      simp only [anySplits]
      refine (h2 (f, g) (by simp)).bind fun r => ?_
      exact .ite .rfl (ih (by simpa using h) fun p hp => h2 p (by simp [hp]))

section
variable {s t : List Str → Split} (hst : ∀ ls, Refines (s ls) (t ls))
include hst

theorem isParCont_refines (lines : List Str) : Refines (isParCont s lines) (isParCont t lines) := by
  unfold isParCont
  refine Refines.bind ?_ fun r => .rfl
  refine anySplits_refines _root_.rfl ?_
  intro p hp
  simp only [List.zip_cons_cons, List.zip_nil_right, List.mem_cons, List.not_mem_nil, or_false] at hp
  rcases hp with rfl | rfl | rfl | rfl | rfl | rfl | rfl | rfl <;> first | exact .rfl | exact hst _

theorem parLoop_refines (ls : List Str) : Refines (parLoop s ls) (parLoop t ls) := by
  induction ls with
  | nil => exact .rfl
  | cons l ls ih =>
    simp only [parLoop]
    refine (isParCont_refines hst _).bind fun b => ?_
    refine .ite (.ite ?_ ?_) .rfl
    · cases ls <;> exact .rfl
    · exact ih.bind fun r => .rfl

theorem splitParIgn_refines (ls : List Str) : Refines (splitParIgn s ls) (splitParIgn t ls) := by
  cases ls with
  | nil => exact .rfl
  | cons l ls =>
    simp only [splitParIgn]
    exact .ite (.ite .rfl ((parLoop_refines hst ls).bind fun r => .rfl)) .rfl

theorem splitPar_refines (ls : List Str) : Refines (splitPar s ls) (splitPar t ls) :=
  (splitParIgn_refines hst ls).bind fun _ => .rfl

theorem splitSetext_refines (ls : List Str) : Refines (splitSetext s ls) (splitSetext t ls) :=
  (splitParIgn_refines hst ls).bind fun _ => .rfl

omit hst in
theorem firstSection_refines (fs gs : List (Sec × (List Str → Split))) (h : fs.length = gs.length)
    (h2 : ∀ p ∈ fs.zip gs, p.1.1 = p.2.1 ∧ ∀ ls, Refines (p.1.2 ls) (p.2.2 ls)) (lines : List Str) :
    Refines (firstSection fs lines) (firstSection gs lines) := by
  induction fs generalizing gs lines with
  | nil =>
    cases gs with
    | nil => exact .rfl
    | cons g gs => simp at h
  | cons f fs ih =>
    cases gs with
    | nil => simp at h
    | cons g gs =>
      obtain ⟨f1, f2⟩ := f
      obtain ⟨g1, g2⟩ := g
      have h3 := h2 ((f1, f2), (g1, g2)) (by simp)
      simp only at h3
      obtain ⟨rfl, h4⟩ := h3
      simp only [firstSection]
      refine (h4 lines).bind fun r => ?_
      exact .ite .rfl (ih gs (by simpa using h) (fun p hp => h2 p (by simp [hp])) _)

theorem parseLoop_refines (fuel : Nat) : ∀ lines, Refines (parseLoop s fuel lines) (parseLoop t fuel lines) := by
  induction fuel with
  | zero => intro lines; cases lines <;> exact .rfl
  | succ fuel ih =>
    intro lines
    cases lines with
    | nil => exact .rfl
    | cons l ls =>
      simp only [parseLoop]
      refine Refines.bind ?_ fun r => (ih _).bind fun _ => .rfl
      refine firstSection_refines (splitters s) (splitters t) _root_.rfl ?_ _
      intro p hp
      simp only [splitters, List.zip_cons_cons, List.zip_nil_right, List.mem_cons, List.not_mem_nil, or_false] at hp
      rcases hp with rfl | rfl | rfl | rfl | rfl | rfl | rfl | rfl | rfl | rfl | rfl | rfl <;>
        refine ⟨_root_.rfl, fun x => ?_⟩ <;>
        first | exact .rfl | exact hst _ | exact splitPar_refines hst _ | exact splitSetext_refines hst _

theorem parseWith_refines (lines : List Str) : Refines (parseWith s lines) (parseWith t lines) :=
  parseLoop_refines hst _ _

theorem isQuoteCont_refines (lines : List Str) : Refines (isQuoteCont s lines) (isQuoteCont t lines) := by
  unfold isQuoteCont
  refine Refines.bind ?_ fun r => .rfl
  refine anySplits_refines _root_.rfl ?_
  intro p hp
  simp only [List.zip_cons_cons, List.zip_nil_right, List.mem_cons, List.not_mem_nil, or_false] at hp
  rcases hp with rfl | rfl | rfl | rfl | rfl | rfl | rfl | rfl <;> first | exact .rfl | exact splitSetext_refines hst _

theorem contLoop_refines (ls : List Str) : ∀ first, Refines (contLoop s first ls) (contLoop t first ls) := by
  induction ls with
  | nil => intro first; exact .rfl
  | cons l ls ih =>
    intro first
    simp only [contLoop]
    refine (isQuoteCont_refines hst _).bind fun b => ?_
    exact .ite (.ite .rfl ((ih false).bind fun r => .rfl)) .rfl

theorem quoteLoop_refines {e f : List Str → Except Err Bool} (hef : ∀ ls, Refines (e ls) (f ls)) (fuel : Nat) :
    ∀ bq ls, Refines (quoteLoop e s fuel bq ls) (quoteLoop f t fuel bq ls) := by
  induction fuel with
  | zero => intro bq ls; exact .rfl
  | succ fuel ih =>
    intro bq ls
    cases ls with
    | nil => exact .rfl
    | cons l ls =>
      simp only [quoteLoop]
      refine .ite .rfl ((hef _).bind fun b => ?_)
      exact .ite ((contLoop_refines hst _ _).bind fun r => ih _ _) .rfl

end

theorem endsWithPar_refines {p q : List Str → Except Err (List (Sec × List Str))} (hpq : ∀ ls, Refines (p ls) (q ls))
    (n : Nat) : ∀ m ls, n ≤ m → Refines (endsWithPar p n ls) (endsWithPar q m ls) := by
  induction n with
  | zero => intro m ls _; exact .inl rfl
  | succ n ih =>
    intro m ls h
    cases m with
    | zero => omega
    | succ m =>
      simp only [endsWithPar]
      refine (hpq _).bind fun secs => ?_
      cases secs.getLast? with
      | none => exact .rfl
      | some x =>
        obtain ⟨ty, c⟩ := x
        cases ty <;> first | exact .rfl | exact ih _ _ (by omega)

theorem splitQuote_refines (n : Nat) : ∀ m, n ≤ m → ∀ ls, Refines (splitQuote n ls) (splitQuote m ls) := by
  induction n with
  | zero => intro m _ ls; exact .inl rfl
  | succ n ih =>
    intro m h ls
    cases m with
    | zero => omega
    | succ m =>
      simp only [splitQuote]
      refine quoteLoop_refines (ih m (by omega)) (fun x => ?_) _ _ _
      exact endsWithPar_refines (parseWith_refines (ih m (by omega))) _ _ _ (by omega)

theorem parse_refines {n m : Nat} (h : n ≤ m) (ls : List Str) : Refines (parse n ls) (parse m ls) :=
  parseWith_refines (splitQuote_refines n m h) ls

section
variable {s t : Width → Str → Except Err Str} (hst : ∀ w x, Refines (s w x) (t w x))
include hst

theorem fmtEntry_refines (w : Width) (i : Nat) (m : Str) (e : List Str) :
    Refines (fmtEntry s w i m e) (fmtEntry t w i m e) := (hst _ _).bind fun _ => .rfl

theorem fmtBulletEntries_refines (w : Width) (m : Str) (es : List (List Str)) :
    Refines (fmtBulletEntries s w m es) (fmtBulletEntries t w m es) := by
  induction es with
  | nil => exact .rfl
  | cons e es ih => exact (fmtEntry_refines hst _ _ _ _).bind fun _ => ih.bind fun _ => .rfl

theorem fmtOrderedEntries_refines (w : Width) (i : Nat) (es : List (List Str)) :
    ∀ k, Refines (fmtOrderedEntries s w i k es) (fmtOrderedEntries t w i k es) := by
  induction es with
  | nil => intro k; exact .rfl
  | cons e es ih => intro k; exact (fmtEntry_refines hst _ _ _ _).bind fun _ => (ih _).bind fun _ => .rfl

theorem fmtSection_refines (w : Width) (i : Nat) (ty : Sec) (lines : List Str) :
    Refines (fmtSection s w i ty lines) (fmtSection t w i ty lines) := by
  cases ty with
  | quote =>
    cases lines with
    | nil => exact .rfl
    | cons l ls =>
      simp only [fmtSection, fmtQuote]
      exact (hst _ _).bind fun _ => .rfl
  | bullet =>
    cases lines with
    | nil => exact .rfl
    | cons l ls =>
      simp only [fmtSection, fmtBullet]
      refine Refines.rfl.bind fun es => Refines.rfl.bind fun es => ?_
      cases lstrip l with
      | nil => exact .rfl
      | cons c r => exact (fmtBulletEntries_refines hst _ _ _).bind fun _ => .rfl
  | ordered =>
    cases lines with
    | nil => exact .rfl
    | cons l ls =>
      simp only [fmtSection, fmtOrdered]
      refine Refines.rfl.bind fun es => Refines.rfl.bind fun k => Refines.rfl.bind fun es => ?_
      exact (fmtOrderedEntries_refines hst _ _ _ _).bind fun _ => .rfl
  | atx | blank | fenced | indented | lrd | par | setext | table | thematic => exact .rfl

theorem fmtAll_refines (w : Width) (fs : List Fmt) : Refines (fmtAll s w fs) (fmtAll t w fs) := by
  induction fs with
  | nil => exact .rfl
  | cons f fs ih =>
    simp only [fmtAll]
    refine Refines.bind ?_ fun _ => ih.bind fun _ => .rfl
    rcases fmtSection_refines hst w f.lineIndex f.ty f.lines with h | h
    · rw [h]; exact .inl rfl
    · rw [h]; exact .rfl

end

theorem reformatText_refines (n : Nat) : ∀ m, n ≤ m → ∀ w text, Refines (reformatText n w text) (reformatText m w text) := by
  induction n with
  | zero => intro m _ w text; exact .inl rfl
  | succ n ih =>
    intro m h w text
    cases m with
    | zero => omega
    | succ m =>
      simp only [reformatText, reformatBody]
      refine (parse_refines (by omega) _).bind fun secs => Refines.rfl.bind fun fs => ?_
      exact (fmtAll_refines (ih m (by omega)) w fs).bind fun _ => .rfl

theorem reformatMarkdownText_refines {n m : Nat} (h : n ≤ m) (w : Width) (text : Str) :
    Refines (reformatMarkdownText n w text) (reformatMarkdownText m w text) := by
  unfold reformatMarkdownText
  exact (reformatText_refines n m h _ _).bind fun _ => (reformatText_refines n m h _ _).bind fun _ => .rfl

/-- C07: an outcome of a formatting pass under some recursion limit, other than exceeding the limit, is the outcome under
every larger limit. -/
theorem C07_budget_irrelevant (n m : Nat) (w : Width) (text : Str) (hnm : n ≤ m)
    (h : reformatText n w text ≠ .error .recursion) : reformatText m w text = reformatText n w text :=
  ((reformatText_refines n m hnm w text).resolve_left h).symm

/-- The same for the program's entry point, which formats twice. -/
theorem C07_budget_irrelevant_api (n m : Nat) (w : Width) (text : Str) (hnm : n ≤ m)
    (h : reformatMarkdownText n w text ≠ .error .recursion) :
    reformatMarkdownText m w text = reformatMarkdownText n w text :=
  ((reformatMarkdownText_refines hnm w text).resolve_left h).symm

/-- Two limits never give two different results: results are compatible. -/
theorem C07_results_unique (n m : Nat) (w : Width) (text a b : Str) (h1 : reformatMarkdownText n w text = .ok a)
    (h2 : reformatMarkdownText m w text = .ok b) : a = b := by
  rcases Nat.le_total n m with h | h
  · have := C07_budget_irrelevant_api n m w text h (by rw [h1]; simp)
    rw [h1, h2] at this
    cases this; rfl
  · have := C07_budget_irrelevant_api m n w text h (by rw [h2]; simp)
    rw [h1, h2] at this
    cases this; rfl

/-- The same for parsing. -/
theorem C07_parse_budget_irrelevant (n m : Nat) (lines : List Str) (hnm : n ≤ m)
    (h : parse n lines ≠ .error .recursion) : parse m lines = parse n lines :=
  ((parse_refines hnm lines).resolve_left h).symm

/-- A nested document needs more depth than 2 but no more than 4. -/
example : reformatMarkdownText 2 (.fin 80) c!"> > a\n" = .error .recursion ∧
    reformatMarkdownText 4 (.fin 80) c!"> > a\n" = .ok c!"> > a\n" := by decide +kernel

end MF
