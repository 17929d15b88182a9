import Verif.Props.Blowup
import Verif.Props.Kept
import Verif.Props.Idempotent
/-!
# C122, the other side: without quotes the work is quadratic at most

A pass over a document without the character `>` finds no more sections than the square of the number of its characters
and one. Entries of lists hold documents, which are divided in turn, but each of them is shorter than its list.
-/

namespace MF

/-- Characters of lines, ends of lines included. -/
def chars : List Str → Nat
  | [] => 0
  | l :: ls => l.length + 1 + chars ls

theorem chars_append (a b : List Str) : chars (a ++ b) = chars a + chars b := by
  induction a with
  | nil => simp [chars]
  | cons l a ih => simp [chars, ih, Nat.add_assoc]

theorem length_chars (ls : List Str) : ls.length ≤ chars ls := by
  induction ls with
  | nil => exact Nat.le_refl _
  | cons l ls ih => simp only [List.length_cons, chars]; omega

theorem chars_unlines {ls : List Str} (h : ls ≠ []) : (unlines ls).length = chars ls := by
  induction ls with
  | nil => exact absurd rfl h
  | cons l ls ih =>
    cases ls with
    | nil => simp [unlines, pyJoin, chars]
    | cons m ls =>
      have := ih (by simp)
      simp only [unlines, pyJoin, chars, List.length_append, List.length_cons, List.length_nil] at this ⊢
      omega

theorem chars_consHead (c : Char) (ls : List Str) : chars (consHead c ls) ≤ chars ls + 2 ∧
    (ls ≠ [] → chars (consHead c ls) = chars ls + 1) := by
  cases ls with
  | nil => exact ⟨by simp [consHead, chars], fun h => absurd rfl h⟩
  | cons l ls => exact ⟨by simp only [consHead, chars, List.length_cons]; omega,
      fun _ => by simp only [consHead, chars, List.length_cons]; omega⟩

theorem chars_splitlines (t : Str) : chars (splitlines t) ≤ t.length + 1 := by
  induction t with
  | nil => simp [splitlines, chars]
  | cons c t ih =>
    rw [splitlines]
    split
    · simp only [List.length_cons]; omega
    · split
      · simp only [chars, List.length_cons, List.length_nil]; omega
      · by_cases h : splitlines t = []
        · rw [h]; simp [consHead, chars]
        · rw [(chars_consHead c _).2 h, List.length_cons]; omega

theorem chars_splitlines_ended (x : Str) : chars (splitlines (x ++ ['\n'])) ≤ x.length + 1 := by
  induction x with
  | nil => exact Nat.le_refl _
  | cons c x ih =>
    rw [List.cons_append, splitlines]
    split
    · simp only [List.length_cons]; omega
    · split
      · simp only [chars, List.length_cons, List.length_nil]; omega
      · rw [(chars_consHead c _).2 (splitlines_concat_ne x '\n' (by decide)), List.length_cons]; omega

/-- The lines of a document that an entry holds. -/
theorem chars_document {ls : List Str} (h : ls ≠ []) : chars (splitlines (unlines ls)) ≤ chars ls := by
  refine Nat.le_trans (chars_splitlines_ended _) ?_
  have := chars_unlines h
  simp only [unlines, List.length_append, List.length_cons, List.length_nil] at this
  omega

theorem mem_splitlines {t : Str} {l : Str} {c : Char} (hl : l ∈ splitlines t) (hc : c ∈ l) : c ∈ t := by
  induction t generalizing l with
  | nil => simp [splitlines] at hl
  | cons d t ih =>
    rw [splitlines] at hl
    split at hl
    · exact List.mem_cons_of_mem _ (ih hl hc)
    · split at hl
      · rcases List.mem_cons.1 hl with rfl | hl
        · simp at hc
        · exact List.mem_cons_of_mem _ (ih hl hc)
      · cases hs : splitlines t with
        | nil =>
          rw [hs] at hl
          simp only [consHead, List.mem_singleton] at hl
          subst hl
          rw [List.mem_singleton.1 hc]
          simp
        | cons m ls =>
          rw [hs] at hl
          rcases List.mem_cons.1 hl with rfl | hl
          · rcases List.mem_cons.1 hc with rfl | hc
            · simp
            · exact List.mem_cons_of_mem _ (ih (by rw [hs]; simp) hc)
          · exact List.mem_cons_of_mem _ (ih (by rw [hs]; simp [hl]) hc)

theorem unquoted_of_not_mem {l : Str} (h : '>' ∉ l) : quotedLine l = false := by
  unfold quotedLine
  rw [Bool.and_eq_false_iff]
  right
  cases hd : l.dropWhile isWs with
  | nil => rfl
  | cons c r =>
    have hc : c ∈ l := (List.dropWhile_suffix isWs).subset (by rw [hd]; simp)
    simp only [List.head?_cons, beq_eq_false_iff_ne, ne_eq, Option.some.injEq]
    rintro rfl
    exact h hc

/-! ## The entries of a list -/

theorem entriesRef_chars : ∀ (ls : List Str) (f : Option Str) (k : Nat),
    chars (entriesRef f k ls).1 + ((entriesRef f k ls).2.map chars).sum = chars ls
  | [], _, _ => rfl
  | l :: ls, f, k => by
    simp only [entriesRef]
    split
    · split
      · have := entriesRef_chars ls (fenceAfter f l) ‹_›
        simp only [chars, List.map_cons, List.sum_cons]
        omega
      · have := entriesRef_chars ls (fenceAfter f l) k
        simp only [chars]
        omega
    · have := entriesRef_chars ls (fenceAfter f l) k
      simp only [chars]
      omega

theorem entriesRef_heads : ∀ (ls : List Str) (f : Option Str) (k : Nat), ∀ e ∈ (entriesRef f k ls).2,
    ∃ l more, e = l :: more ∧ (markLen l).isSome = true
  | [], _, _, e, he => by simp [entriesRef] at he
  | l :: ls, f, k, e, he => by
    simp only [entriesRef] at he
    split at he
    · rename_i hm
      split at he
      · rcases List.mem_cons.1 he with rfl | he
        · exact ⟨l, _, rfl, by rw [hm]; rfl⟩
        · exact entriesRef_heads ls _ _ e he
      · exact entriesRef_heads ls _ _ e he
    · exact entriesRef_heads ls _ _ e he

theorem entriesRef_mem : ∀ (ls : List Str) (f : Option Str) (k : Nat),
    (∀ x ∈ (entriesRef f k ls).1, x ∈ ls) ∧ ∀ e ∈ (entriesRef f k ls).2, ∀ x ∈ e, x ∈ ls
  | [], _, _ => by simp [entriesRef]
  | l :: ls, f, k => by
    simp only [entriesRef]
    split
    · split
      · have ih := entriesRef_mem ls (fenceAfter f l) ‹_›
        refine ⟨by simp, fun e he x hx => ?_⟩
        rcases List.mem_cons.1 he with rfl | he
        · rcases List.mem_cons.1 hx with rfl | hx
          · simp
          · exact List.mem_cons_of_mem _ (ih.1 x hx)
        · exact List.mem_cons_of_mem _ (ih.2 e he x hx)
      · have ih := entriesRef_mem ls (fenceAfter f l) k
        refine ⟨fun x hx => ?_, fun e he x hx => List.mem_cons_of_mem _ (ih.2 e he x hx)⟩
        rcases List.mem_cons.1 hx with rfl | hx
        · simp
        · exact List.mem_cons_of_mem _ (ih.1 x hx)
    · have ih := entriesRef_mem ls (fenceAfter f l) k
      refine ⟨fun x hx => ?_, fun e he x hx => List.mem_cons_of_mem _ (ih.2 e he x hx)⟩
      rcases List.mem_cons.1 hx with rfl | hx
      · simp
      · exact List.mem_cons_of_mem _ (ih.1 x hx)

theorem markLen_some {l : Str} (h : (markLen l).isSome = true) : l ≠ [] := by
  rintro rfl
  revert h
  decide

theorem chars_map_le {f : Str → Str} (h : ∀ l, (f l).length ≤ l.length) (ls : List Str) : chars (ls.map f) ≤ chars ls := by
  induction ls with
  | nil => exact Nat.le_refl _
  | cons l ls ih =>
    have := h l
    simp only [List.map_cons, chars]
    omega

/-- The document of an entry is shorter than the entry. -/
theorem contentsRef_chars {l : Str} (ls : List Str) (h : l ≠ []) : chars (contentsRef (l :: ls)) + 1 ≤ chars (l :: ls) := by
  have h1 := chars_map_le (f := fun x => x.drop (min ((markLen l).getD 0 + 1) (margin x)))
    (fun x => by rw [List.length_drop]; omega) ls
  have h2 : 0 < l.length := List.length_pos_iff.2 h
  simp only [contentsRef, chars, List.length_drop] at h1 ⊢
  omega

theorem contentsRef_mem {e : List Str} {x : Str} {c : Char} (hx : x ∈ contentsRef e) (hc : c ∈ x) :
    ∃ y ∈ e, c ∈ y := by
  cases e with
  | nil => simp [contentsRef] at hx
  | cons l ls =>
    simp only [contentsRef] at hx
    rcases List.mem_cons.1 hx with rfl | hx
    · exact ⟨l, by simp, List.mem_of_mem_drop hc⟩
    · obtain ⟨y, hy, rfl⟩ := List.mem_map.1 hx
      exact ⟨y, by simp [hy], List.mem_of_mem_drop hc⟩

theorem contentsRef_ne {e : List Str} (h : e ≠ []) : contentsRef e ≠ [] := by
  cases e with
  | nil => exact absurd rfl h
  | cons l ls => simp [contentsRef]

/-- All entries of a list together. -/
theorem entriesIn_chars {l : Str} (ls : List Str) (h : l ≠ []) :
    ((entriesIn (l :: ls)).map chars).sum + 1 ≤ chars (l :: ls) := by
  have hp := entriesRef_chars ls none ((markLen l).getD 0)
  have hh := entriesRef_heads ls none ((markLen l).getD 0)
  simp only [entriesIn]
  generalize entriesRef none ((markLen l).getD 0) ls = r at hp hh ⊢
  have h1 := contentsRef_chars r.1 h
  have h2 : ∀ es : List (List Str), (∀ e ∈ es, ∃ l more, e = l :: more ∧ (markLen l).isSome = true) →
      ((es.map contentsRef).map chars).sum ≤ (es.map chars).sum := by
    intro es hes
    induction es with
    | nil => exact Nat.le_refl _
    | cons e es ih =>
      obtain ⟨m, more, rfl, hm⟩ := hes e (by simp)
      have := contentsRef_chars more (markLen_some hm)
      have := ih fun x hx => hes x (by simp [hx])
      simp only [List.map_cons, List.sum_cons]
      omega
  have := h2 r.2 hh
  simp only [List.map_cons, List.sum_cons, chars] at h1 ⊢
  omega

theorem entriesIn_mem {lines e : List Str} {x : Str} {c : Char} (he : e ∈ entriesIn lines) (hx : x ∈ e) (hc : c ∈ x) :
    ∃ y ∈ lines, c ∈ y := by
  cases lines with
  | nil => simp [entriesIn] at he
  | cons l ls =>
    simp only [entriesIn] at he
    obtain ⟨e', he', rfl⟩ := List.mem_map.1 he
    obtain ⟨y, hy, hcy⟩ := contentsRef_mem hx hc
    have hm := entriesRef_mem ls none ((markLen l).getD 0)
    refine ⟨y, ?_, hcy⟩
    rcases List.mem_cons.1 he' with rfl | he'
    · rcases List.mem_cons.1 hy with rfl | hy
      · simp
      · exact List.mem_cons_of_mem _ (hm.1 y hy)
    · exact List.mem_cons_of_mem _ (hm.2 e' he' y hy)

theorem entriesIn_ne {lines e : List Str} (he : e ∈ entriesIn lines) : e ≠ [] := by
  cases lines with
  | nil => simp [entriesIn] at he
  | cons l ls =>
    simp only [entriesIn] at he
    obtain ⟨e', he', rfl⟩ := List.mem_map.1 he
    refine contentsRef_ne ?_
    rcases List.mem_cons.1 he' with rfl | he'
    · simp
    · obtain ⟨m, more, rfl, _⟩ := entriesRef_heads ls none _ e' he'
      simp

/-! ## Counting -/

theorem sq_add (a b : Nat) : a * a + b * b ≤ (a + b) * (a + b) := by
  rw [Nat.mul_add, Nat.add_mul, Nat.add_mul]
  omega

theorem sum_sq (xs : List Nat) : (xs.map fun x => x * x).sum ≤ xs.sum * xs.sum := by
  induction xs with
  | nil => exact Nat.le_refl _
  | cons x xs ih =>
    have := sq_add x xs.sum
    simp only [List.map_cons, List.sum_cons]
    omega

theorem divide_found {n : Nat} : ∀ (fuel k : Nat) (ls : List Str), (∀ l ∈ ls, quotedLine l = false) →
    (divideNotesLoop (quoteLines n) (quoteNotes n) fuel k ls).countP isFound ≤ fuel := by
  intro fuel
  induction fuel with
  | zero => intro k ls _; cases ls <;> simp [divideNotesLoop]
  | succ fuel ih =>
    intro k ls hq
    cases ls with
    | nil => simp [divideNotesLoop]
    | cons l ls =>
      simp only [divideNotesLoop, List.countP_append]
      rw [List.countP_eq_zero.2 fun m hm => by simp [start_found hq m hm]]
      cases hf : firstExtentQ (quoteLines n) l ls with
      | error e => simp
      | ok r =>
        simp only
        rw [List.countP_cons_of_pos (by rfl)]
        have := ih (k + ((l :: ls).take r.2).length) ((l :: ls).drop r.2) fun x hx => hq x (List.mem_of_mem_drop hx)
        omega

theorem documents_found {sub : Width → Str → Except Err Str} {notes : Width → Str → List Msg} (f : List Str → Nat)
    (w : Width) : ∀ es : List (List Str), (∀ e ∈ es, (notes w (unlines e)).countP isFound ≤ f e) →
    (documentsNotes sub notes (es.map fun e => (w, unlines e))).countP isFound ≤ (es.map f).sum
  | [], _ => Nat.le_refl _
  | e :: es, h => by
    have ih := documents_found (sub := sub) f w es fun x hx => h x (by simp [hx])
    have := h e (by simp)
    simp only [List.map_cons, documentsNotes, List.countP_append, List.sum_cons]
    split
    · omega
    · simp only [List.countP_nil]; omega

theorem section_found {level index : Nat} {q : Bool} {secs : List (Sec × List Str)} :
    (sectionNotes level index q secs).countP isFound = 0 := by
  induction secs generalizing index q with
  | nil => rfl
  | cons s secs ih =>
    obtain ⟨kind, lines⟩ := s
    simp only [sectionNotes, List.countP_cons, List.countP_append, ih]
    split <;> rfl

theorem list_docs {sub : Width → Str → Except Err Str} {notes : Width → Str → List Msg} (v : Width) {lines : List Str}
    (hl : ∀ l, lines.head? = some l → l ≠ []) (hq : ∀ l ∈ lines, '>' ∉ l)
    (hn : ∀ v e, e ≠ [] → (∀ l ∈ e, '>' ∉ l) → (notes v (unlines e)).countP isFound ≤ chars e * chars e) :
    (documentsNotes sub notes ((entriesIn lines).map fun e => (v, unlines e))).countP isFound ≤
      (chars lines - 1) * (chars lines - 1) := by
  refine Nat.le_trans (documents_found (fun e => chars e * chars e) v _ fun e he => hn v e (entriesIn_ne he) ?_) ?_
  · intro l hle hc
    obtain ⟨y, hy, hcy⟩ := entriesIn_mem he hle hc
    exact hq y hy hcy
  · cases lines with
    | nil => simp [entriesIn]
    | cons l ls =>
      have h1 := entriesIn_chars ls (hl l rfl)
      have h2 := sum_sq ((entriesIn (l :: ls)).map chars)
      rw [List.map_map] at h2
      refine Nat.le_trans h2 (Nat.mul_le_mul ?_ ?_) <;> omega

theorem parts_found {n : Nat} {notes : Width → Str → List Msg} (w : Width)
    (hn : ∀ v e, e ≠ [] → (∀ l ∈ e, '>' ∉ l) → (notes v (unlines e)).countP isFound ≤ chars e * chars e) :
    ∀ (secs : List (Sec × List Str)) (index : Nat),
    (∀ s ∈ secs, s.2 ≠ [] ∧ (∀ l ∈ s.2, '>' ∉ l) ∧ ∀ l, s.2.head? = some l → headPred s.1 l = true) →
    (partsNotes (formatRef n) notes w index secs).countP isFound + (secs.map fun s => s.2.length).sum ≤
      (secs.map fun s => chars s.2 * chars s.2).sum
  | [], _, _ => Nat.le_refl _
  | (kind, lines) :: secs, index, h => by
    have ih := parts_found (n := n) w hn secs (index + lines.length) fun s hs => h s (by simp [hs])
    obtain ⟨hne, hq, hh⟩ := h (kind, lines) (by simp)
    simp only at hne hq hh
    have hd : (documentsNotes (formatRef n) notes (documentsIn w kind lines)).countP isFound ≤
        (chars lines - 1) * (chars lines - 1) := by
      cases kind <;> try exact Nat.zero_le _
      · obtain ⟨l, ls, rfl⟩ := List.exists_cons_of_ne_nil hne
        have := unquoted_of_not_mem (hq l (by simp))
        have h2 := hh l rfl
        simp only [headPred] at h2
        rw [← quotedLine_eq] at h2
        rw [h2] at this
        cases this
      · refine list_docs (w.sub 2) (fun l hl => ?_) hq hn
        rintro rfl
        have := hh [] hl
        revert this
        decide
      · refine list_docs _ (fun l hl => ?_) hq hn
        rintro rfl
        have := hh [] hl
        revert this
        decide
    have hs : (if kind = .atx ∧ unspaced (lines.headD []) = true then [Msg.noSpace (index + 1)] else []).countP isFound = 0 := by
      split <;> rfl
    have hl := length_chars lines
    have hpos : 0 < lines.length := List.length_pos_iff.2 hne
    obtain ⟨k, hk⟩ : ∃ k, chars lines = k + 1 := ⟨chars lines - 1, by omega⟩
    have hsq : chars lines * chars lines = k * k + k + (k + 1) := by
      rw [hk, Nat.add_mul, Nat.mul_add]; omega
    rw [hk, Nat.add_sub_cancel] at hd
    simp only [partsNotes, List.countP_append, List.map_cons, List.sum_cons]
    rw [hs]
    split
    · omega
    · simp only [List.countP_nil]
      omega

theorem pass_found : ∀ (n level : Nat) (w : Width) (text : Str), '>' ∉ text →
    (passNotes n level w text).countP isFound ≤ chars (splitlines text) * chars (splitlines text)
  | 0, _, _, _, _ => Nat.zero_le _
  | n + 1, level, w, text, hq => by
    have hlq : ∀ l ∈ splitlines text, '>' ∉ l := fun l hl hc => hq (mem_splitlines hl hc)
    have hlen := length_chars (splitlines text)
    have hsq : chars (splitlines text) ≤ chars (splitlines text) * chars (splitlines text) := by
      cases chars (splitlines text) with
      | zero => exact Nat.le_refl _
      | succ m => exact Nat.le_mul_of_pos_left _ (Nat.succ_pos m)
    have hd : (divideNotes n (splitlines text)).countP isFound ≤ (splitlines text).length :=
      divide_found _ 1 _ fun l hl => unquoted_of_not_mem (hlq l hl)
    simp only [passNotes, List.countP_append]
    cases hv : divideQ n (splitlines text) with
    | error e => simp only [List.countP_nil]; omega
    | ok secs =>
      have hp : parse (n + 1) (splitlines text) = .ok secs := by
        rw [C117_enough n _ (by rw [hv]; exact fun h => nomatch h), hv]
      obtain ⟨hflat, hne⟩ := C08_parse_partition _ _ _ hp
      simp only [List.countP_append, section_found]
      split
      · simp only [List.countP_nil]; omega
      · have hn : ∀ v e, e ≠ [] → (∀ l ∈ e, '>' ∉ l) →
            (passNotes n DEBUG v (unlines e)).countP isFound ≤ chars e * chars e := by
          intro v e he hqe
          refine Nat.le_trans (pass_found n DEBUG v (unlines e) ?_) (Nat.mul_le_mul (chars_document he) (chars_document he))
          intro hc
          rcases List.mem_append.1 hc with hc | hc
          · rcases mem_pyJoin hc with hc | ⟨l, hl, hc⟩
            · simp at hc
            · exact hqe l hl hc
          · simp at hc
        have h1 := parts_found (n := n) w hn secs 0 fun s hs => ⟨hne s hs, fun l hl => hlq l (by
          rw [← hflat]
          exact List.mem_flatten.2 ⟨s.2, List.mem_map.2 ⟨s, hs, rfl⟩, hl⟩), (parse_headPred hp hs).2⟩
        have h2 := sum_sq (secs.map fun s => chars s.2)
        have h3 : (secs.map fun s => chars s.2).sum = chars (splitlines text) ∧
            (secs.map fun s => s.2.length).sum = (splitlines text).length := by
          rw [← hflat]
          clear h1 h2 hne hp hv hflat hd hsq hlen hlq hn
          rename_i hf
          clear hf
          induction secs with
          | nil => exact ⟨rfl, rfl⟩
          | cons s secs ih =>
            simp only [List.map_cons, List.sum_cons, List.flatten_cons, chars_append, List.length_append, ih.1, ih.2]
            exact ⟨trivial, trivial⟩
        rw [List.map_map] at h2
        rw [h3.1] at h2
        rw [h3.2] at h1
        have : (secs.map fun s => chars s.2 * chars s.2).sum = (secs.map ((fun x => x * x) ∘ fun s => chars s.2)).sum := rfl
        omega

/-! ## The claims -/

/-- C122: a pass over a document without the character `>` finds at most as many sections as the square of the number of
its characters and one. -/
theorem C122_without_quotes {n : Nat} {w : Width} {text t : Str} (hq : '>' ∉ text) (h : reformatText n w text = .ok t)
    (s : LSt) (hs : s.parent ≤ DEBUG) :
    (reformatTextL n w text s).2.shown.countP isFound ≤ s.shown.countP isFound + (text.length + 1) ^ 2 := by
  rw [C120_succeeds h s, List.countP_append, found_audible hs, Nat.pow_two]
  have h1 := pass_found n s.info w text hq
  have h2 := Nat.mul_le_mul (chars_splitlines text) (chars_splitlines text)
  omega

/-- C122: so does a call, for the document and for the text that it is turned into. -/
theorem C122_call_without_quotes {n : Nat} {w : Width} {text t t' : Str} (hq : '>' ∉ text)
    (h : reformatText n w text = .ok t) (h' : reformatText n w t = .ok t') (s : LSt) (hs : s.parent ≤ DEBUG) :
    (reformatMarkdownTextL n w text s).2.shown.countP isFound ≤
      s.shown.countP isFound + (text.length + 1) ^ 2 + (t.length + 1) ^ 2 := by
  rw [C120_call h h' s, List.countP_append, List.countP_append, found_audible hs, found_audible hs, Nat.pow_two, Nat.pow_two]
  have h1 := pass_found n s.info w text hq
  have h2 := Nat.mul_le_mul (chars_splitlines text) (chars_splitlines text)
  have h3 := pass_found n s.info w t fun hm => hq (reformatText_from h hm (by decide) (by decide))
  have h4 := Nat.mul_le_mul (chars_splitlines t) (chars_splitlines t)
  omega

theorem C122_without_quotes_example :
    reformatText 9 (.fin 80) c!"* + 1. - a\n" = .ok c!"* + 1. - a\n" ∧
    (reformatTextL 9 (.fin 80) c!"* + 1. - a\n" ⟨⟨INFO, 0, DEBUG⟩, []⟩).2.shown.countP isFound = 5 := by
  decide +kernel

end MF
