import Verif.Props.Lists
/-!
# C48: bullets stay bullets, numbers stay numbers
-/

namespace MF

/-- the line starts, after whitespace, with a digit -/
def numbered (l : Str) : Bool := isDigit ((lstrip l).headD ' ')

/-- Which entries of a list are numbered. -/
def numberedEntries (es : List (List Str)) : List Bool := es.map fun e => numbered (e.headD [])

/-- C48, as one expects it: the rewritten list, split into entries again, has the entries of the source list, and each
is numbered if and only if it was numbered. -/
def C48_statement : Prop :=
  ∀ (sub : Width → Str → Except Err Str) (w : Width) (i n : Nat) (lines content : List Str)
    (secs : List (Sec × List Str)) (ty : Sec) (out : Str) (es es' : List (List Str)),
    parse n lines = .ok secs → (ty, content) ∈ secs → ty = .bullet ∨ ty = .ordered →
    splitList content = .ok es → fmtSection sub w i ty content = .ok out → splitList (splitlines out) = .ok es' →
    numberedEntries es' = numberedEntries es

theorem splitlines_first {c : Char} {s : Str} (h : isLB c = false) : ∃ r, (splitlines (c :: s)).headD [] = c :: r := by
  simp only [splitlines]
  split
  · rename_i hc
    have hc : c = '\r' := by simp_all
    rw [hc] at h
    exact absurd h (by decide)
  · rw [if_neg (by simp [h])]
    cases splitlines s <;> exact ⟨_, rfl⟩

theorem digit_not_lb {c : Char} (h : isDigit c = true) : isLB c = false := by
  cases hl : isLB c with
  | false => rfl
  | true =>
    have := isDigit_not_ws c h
    rw [isLB_ws hl] at this
    cases this

theorem numbered_char {c : Char} {s : Str} (h : isWs c = false) :
    numbered ((splitlines (c :: s)).headD []) = isDigit c := by
  have hl : isLB c = false := by
    cases hl : isLB c with
    | false => rfl
    | true => rw [isLB_ws hl] at h; cases h
  obtain ⟨r, hr⟩ := splitlines_first (s := s) hl
  rw [hr]
  unfold numbered lstrip
  rw [List.dropWhile_cons, if_neg (by simp [h])]
  rfl

theorem numberedEntries_texts (mk : Nat → Str) (indent : Nat) (b : Bool)
    (hmk : ∀ k, ∃ c r, mk k = c :: r ∧ isWs c = false ∧ isDigit c = b) :
    ∀ (es : List (List Str)) (texts : List Str) (k : Nat), PairedFrom (fun k _ t => EntryText (mk k) indent t) k es texts →
    numberedEntries (texts.map splitlines) = List.replicate es.length b := by
  intro es
  induction es with
  | nil => intro texts k h; cases texts with
    | nil => rfl
    | cons => cases h
  | cons e es ih =>
    intro texts k h
    cases texts with
    | nil => cases h
    | cons t texts =>
      obtain ⟨h1, h2⟩ := h
      obtain ⟨first, conts, _, _, ht⟩ := h1
      obtain ⟨c, r, hc, hw, hd⟩ := hmk k
      have : ∃ s, t = c :: s := by
        rw [ht, hc]
        cases conts with
        | nil => exact ⟨_, rfl⟩
        | cons => exact ⟨_, rfl⟩
      obtain ⟨s, rfl⟩ := this
      simp only [numberedEntries, List.map_cons, List.map_map, List.length_cons, List.replicate_succ, List.cons.injEq]
      refine ⟨by rw [numbered_char hw, hd], ?_⟩
      have := ih texts (k + 1) h2
      simpa [numberedEntries] using this

/-- What holds: the entries of a rewritten list are all of the kind of its first entry, whatever they were (as long as
no line of it is taken for a fence). -/
theorem C48_kind_of_first (sub : Width → Str → Except Err Str) (w : Width) (i : Nat) (n : Nat) (lines content : List Str)
    (secs : List (Sec × List Str)) (ty : Sec) (out : Str) (es : List (List Str))
    (h : parse n lines = .ok secs) (hm : (ty, content) ∈ secs) (hty : ty = .bullet ∨ ty = .ordered)
    (hes : splitList content = .ok es) (hout : fmtSection sub w i ty content = .ok out)
    (hlb : ∀ c ∈ out, isLB c = true → c = '\n') (hnf : ∀ l ∈ splitlines out, ¬ FenceLine l) :
    ∃ es', splitList (splitlines out) = .ok es' ∧ numberedEntries es' = List.replicate es.length (ty == .ordered) := by
  obtain ⟨f, rest, hf, hne, hfs⟩ := parse_section h hm
  obtain ⟨l, ls, rfl⟩ := List.exists_cons_of_ne_nil hne
  have hp := headPred_of_recognises n hf ⟨_, _, hfs, hne⟩
  rcases hty with rfl | rfl
  · obtain ⟨ws, c, r, es1, texts, hl, hws, hc, hes1, ho, hp⟩ := C18_bullet_list sub w i l ls out hp hout
    rw [hes] at hes1
    cases hes1
    obtain ⟨_, _, _, _, hmk⟩ := bulletStart_marker (l := l) (headPred_of_recognises n hf ⟨_, _, hfs, hne⟩)
    obtain ⟨es2, h1, h2, _⟩ := splitList_spec l ls _ _ _ hmk
    rw [hes] at h1
    cases h1
    have hmk' : IsMarker [c] := by
      rcases hc with rfl | rfl | rfl
      · exact .inl rfl
      · exact .inr (.inr (.inl rfl))
      · exact .inr (.inl rfl)
    have hnl : '\n' ∉ [c] := by rcases hc with rfl | rfl | rfl <;> decide
    have hp' := PairedFrom.imp _ (fun _ _ _ _ _ h => h.1) hp
    refine ⟨_, resplit (fun _ => [c]) 2 (fun _ => hmk') (fun _ => hnl) es texts out h2 (by simp) hp' ho hlb hnf, ?_⟩
    refine numberedEntries_texts (fun _ => [c]) 2 false (fun _ => ⟨c, [], rfl, ?_⟩) es texts 0 hp'
    rcases hc with rfl | rfl | rfl <;> decide
  · obtain ⟨ws, ds, r, es1, texts, indent, hl, hws, hdne, hd, hes1, ho, hp, hle, _⟩ :=
      C17_ordered_list sub w i l ls out hp hout
    rw [hes] at hes1
    cases hes1
    obtain ⟨_, _, _, _, _, hmk⟩ := orderedStart_marker (l := l) (headPred_of_recognises n hf ⟨_, _, hfs, hne⟩)
    obtain ⟨es2, h1, h2, _⟩ := splitList_spec l ls _ _ _ hmk
    rw [hes] at h1
    cases h1
    have hp' := PairedFrom.imp _ (fun _ _ _ _ _ h => h.1) hp
    refine ⟨_, resplit (fun k => natStr (parseNat ds + k) ++ ['.']) indent
      (fun k => .inr (.inr (.inr ⟨_, (natStr_spec _).1, (natStr_spec _).2.1, rfl⟩)))
      (fun k hm => by
        rcases List.mem_append.1 hm with hm | hm
        · exact natStr_no_nl _ hm
        · revert hm; decide) es texts out h2
      (fun k hk => by
        have := hle k hk
        simp only [List.length_append, List.length_cons, List.length_nil] at this ⊢
        omega) hp' ho hlb hnf, ?_⟩
    refine numberedEntries_texts (fun k => natStr (parseNat ds + k) ++ ['.']) indent true (fun k => ?_) es texts 0 hp'
    obtain ⟨h3, h4, _⟩ := natStr_spec (parseNat ds + k)
    cases hn : natStr (parseNat ds + k) with
    | nil => exact absurd hn h3
    | cons c r =>
      have := h4 c (by rw [hn]; simp)
      exact ⟨c, r ++ ['.'], rfl, isDigit_not_ws c this, this⟩

/-- C48 for lists all of whose entries are of one kind. Missing: lists of bullets and numbers, for which C48 is false,
and lists with lines that are taken for fences. -/
theorem C48_uniform_partial (sub : Width → Str → Except Err Str) (w : Width) (i : Nat) (n : Nat) (lines content : List Str)
    (secs : List (Sec × List Str)) (ty : Sec) (out : Str) (es : List (List Str))
    (h : parse n lines = .ok secs) (hm : (ty, content) ∈ secs) (hty : ty = .bullet ∨ ty = .ordered)
    (hes : splitList content = .ok es) (hout : fmtSection sub w i ty content = .ok out)
    (hlb : ∀ c ∈ out, isLB c = true → c = '\n') (hnf : ∀ l ∈ splitlines out, ¬ FenceLine l)
    (huni : ∃ b, ∀ e ∈ es, numbered (e.headD []) = b) :
    ∃ es', splitList (splitlines out) = .ok es' ∧ numberedEntries es' = numberedEntries es := by
  obtain ⟨es', h1, h2⟩ := C48_kind_of_first sub w i n lines content secs ty out es h hm hty hes hout hlb hnf
  refine ⟨es', h1, ?_⟩
  rw [h2]
  obtain ⟨b, hb⟩ := huni
  have hall : numberedEntries es = List.replicate es.length b := by
    rw [List.eq_replicate_iff]
    refine ⟨by simp [numberedEntries], fun x hx => ?_⟩
    obtain ⟨e, he, rfl⟩ := List.mem_map.1 hx
    exact hb e he
  rw [hall]
  congr 1
  obtain ⟨l, ls, ws, m, r, rfl, hmk, hbul, hord⟩ := parse_list_first h hm hty
  obtain ⟨es2, g1, g2, g3, _⟩ := splitList_spec l ls _ _ _ hmk
  rw [hes] at g1
  cases g1
  obtain ⟨e, es0, rfl⟩ := List.exists_cons_of_ne_nil g2
  obtain ⟨_, _, _, _, g4⟩ := splitList_spec l ls _ _ _ hmk
  have hse : ∃ tl, e = l :: tl := by
    obtain ⟨es3, k1, _, k3, k4, _⟩ := splitList_spec l ls _ _ _ hmk
    rw [hes] at k1
    cases k1
    obtain ⟨a, as, _, _, _, rfl, _⟩ := k4 e (by simp)
    simp only [List.flatten_cons, List.cons_append, List.cons.injEq] at k3
    exact ⟨as, by rw [k3.1]⟩
  obtain ⟨tl, rfl⟩ := hse
  have := hb (l :: tl) (by simp)
  rw [← this]
  show _ = isDigit ((lstrip l).headD ' ')
  rw [hmk.lstrip]
  rcases hty with rfl | rfl
  · obtain ⟨c, hc, rfl⟩ := hbul rfl
    rcases hc with rfl | rfl | rfl <;> rfl
  · obtain ⟨ds, hne, hds, rfl⟩ := hord rfl
    obtain ⟨d, ds', rfl⟩ := List.exists_cons_of_ne_nil hne
    show true = isDigit d
    rw [hds d (by simp)]

theorem C48_refuted : ¬ C48_statement := by
  intro h
  have h1 := h (reformatText 3) (.fin 80) 0 3 [c!"1. a", c!"- b"] [c!"1. a", c!"- b"] [(.ordered, [c!"1. a", c!"- b"])]
    .ordered c!"1. a\n2. b" [[c!"1. a"], [c!"- b"]] [[c!"1. a"], [c!"2. b"]] (by decide +kernel) (by simp) (.inr rfl)
    (by decide +kernel) (by decide +kernel) (by decide +kernel)
  revert h1
  decide

/-- A bullet becomes a number, and a number becomes a bullet. -/
example : reformatMarkdownText 5 (.fin 80) c!"1. a\n- b\n" = .ok c!"1. a\n2. b\n" ∧
    reformatMarkdownText 5 (.fin 80) c!"* a\n1. b\n" = .ok c!"* a\n* b\n" := by decide +kernel

/-- The hypotheses of `C48_uniform_partial`. -/
example : parse 3 [c!"- a", c!"  1. b", c!"+ c"] = .ok [(.bullet, [c!"- a", c!"  1. b", c!"+ c"])] ∧
    splitList [c!"- a", c!"  1. b", c!"+ c"] = .ok [[c!"- a", c!"  1. b"], [c!"+ c"]] ∧
    fmtSection (reformatText 3) (.fin 80) 0 .bullet [c!"- a", c!"  1. b", c!"+ c"] = .ok c!"- a\n  1. b\n- c" ∧
    numberedEntries [[c!"- a", c!"  1. b"], [c!"+ c"]] = [false, false] := by decide +kernel

end MF
