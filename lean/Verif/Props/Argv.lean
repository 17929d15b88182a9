import Verif.Model.Argv
import Verif.Lemmas.Rx
import Verif.Lemmas.Lines
/-!
# C86 – C88: what a command line means

The grammar of command lines is stated here without reference to how they are parsed.
-/

namespace MF

/-! ## Specification -/

/-- The names of the options. -/
def Opt.names : Opt → List Str
  | .help => [c!"-h", c!"--help"]
  | .lineLength => [c!"--line-length"]
  | .check => [c!"--check"]
  | .verbose => [c!"-v", c!"--verbose"]
  | .quiet => [c!"-q", c!"--quiet"]
  | .version => [c!"--version"]
  | .developerHelp => [c!"--dev-help", c!"--developer-help"]
  | .outputDirectory => [c!"--output-dir", c!"--output-directory"]
  | .outputFile => [c!"--output-file"]
  | .writeRenders => [c!"--write-renders"]

/-- The options that need a value. -/
def valued : List Opt := [.lineLength, .outputDirectory, .outputFile]

/-- `s` names the option `o`: it is one of its names, or the beginning of one of its long names and of no other name. -/
inductive Names : Str → Opt → Prop where
  | exact {s : Str} {o : Opt} : s ∈ o.names → Names s o
  | start {s x : Str} {o : Opt} : c!"--" <+: s → s <+: x → x ∈ o.names →
      (∀ o' y, y ∈ Opt.names o' → s <+: y → y = x) → Names s o

/-- `s` begins like an option. -/
def OptionLike (s : Str) : Prop :=
  ∃ o x, x ∈ Opt.names o ∧ ((c!"--" <+: s ∧ s.takeWhile (· != '=') <+: x) ∨ (x.length = 2 ∧ x <+: s))

/-- A negative number; a line break may follow. -/
def Negative (digit : Char → Bool) (s : Str) : Prop :=
  ∃ a b nl, (∀ c ∈ a, digit c = true) ∧ (∀ c ∈ b, digit c = true) ∧ (nl = [] ∨ nl = ['\n']) ∧
    ((a ≠ [] ∧ s = '-' :: a ++ nl) ∨ (b ≠ [] ∧ s = '-' :: a ++ '.' :: b ++ nl))

/-- `s` is a value or a path, not an option. -/
def PlainArg (py : PyFns) (s : Str) : Prop :=
  s.head? ≠ some '-' ∨ s = c!"-" ∨ (¬ OptionLike s ∧ (Negative py.digit s ∨ ' ' ∈ s))

/-- One-letter options written together. -/
inductive Letters : Str → List (Opt × Str) → Prop where
  | nil : Letters [] []
  | cons {c : Char} {cs : Str} {o : Opt} {items : List (Opt × Str)} : ['-', c] ∈ o.names → Letters cs items →
      Letters (c :: cs) ((o, []) :: items)

/-- Entries of the command line that make up one option, or several in one entry; the value of an option without value is
empty. -/
inductive Occ (py : PyFns) : List Str → List (Opt × Str) → Prop where
  | flag {s : Str} {o : Opt} : Names s o → o ∉ valued → Occ py [s] [(o, [])]
  | value {s v : Str} {o : Opt} : Names s o → o ∈ valued → PlainArg py v → Occ py [s, v] [(o, v)]
  | equals {s v : Str} {o : Opt} : Names s o → o ∈ valued → Occ py [s ++ '=' :: v] [(o, v)]
  | letters {cs : Str} {items : List (Opt × Str)} : cs ≠ [] → Letters cs items → Occ py ['-' :: cs] items

/-- Any number of options. -/
inductive Opts (py : PyFns) : List Str → List (Opt × Str) → Prop where
  | nil : Opts py [] []
  | cons {a b : List Str} {i j : List (Opt × Str)} : Occ py a i → Opts py b j → Opts py (a ++ b) (i ++ j)

/-- A command line: options, paths, options; or options, paths, `--` and more paths. -/
inductive Line (py : PyFns) : List Str → List (Opt × Str) → List Str → Prop where
  | mk {a b ps : List Str} {i j : List (Opt × Str)} : Opts py a i → (∀ p ∈ ps, PlainArg py p) → Opts py b j →
      Line py (a ++ ps ++ b) (i ++ j) ps
  | dashes {a ps qs : List Str} {i : List (Opt × Str)} : Opts py a i → (∀ p ∈ ps, PlainArg py p) →
      Line py (a ++ ps ++ c!"--" :: qs) i (ps ++ qs)

/-- The values given for an option, in order. -/
def given (o : Opt) (items : List (Opt × Str)) : List Str := (items.filter (·.1 == o)).map (·.2)

/-- The values of a command line are acceptable. -/
structure Valid (py : PyFns) (os : Os) (items : List (Opt × Str)) (ps : List Str) : Prop where
  help : given .help items = []
  version : given .version items = []
  lineLength : ∀ v ∈ given .lineLength items, ∃ n, py.int v = some n
  directory : ∀ v ∈ given .outputDirectory items, directoryArg os [.write] true (py.path v) = some (py.path v)
  file : ∀ v ∈ given .outputFile items, fileArg os [.write] false (py.path v) = some (py.path v)
  exclusive : given .outputDirectory items = [] ∨ given .outputFile items = []
  paths : ∀ p ∈ ps, os.exists (py.path p) = true

/-- The collected values: of `--line-length` and `--output-dir` the last one counts. -/
def collected (py : PyFns) (items : List (Opt × Str)) (ps : List Str) : RawArgs where
  lineLength := ((given .lineLength items).getLast?.bind py.int).getD 88
  paths := ps.map py.path
  check := given .check items != []
  verbose := (given .verbose items).length
  quiet := (given .quiet items).length
  developerHelp := given .developerHelp items != []
  outputDirectory := (given .outputDirectory items).getLast?.map py.path
  outputFiles := (given .outputFile items).map py.path
  writeRenders := given .writeRenders items != []

/-! ## Names -/

theorem mem_names {s : Str} {o : Opt} : s ∈ o.names ↔ (s, o) ∈ optStrings := by
  cases o <;> simp [Opt.names, optStrings]

theorem names_inj {s : Str} {o o' : Opt} (h : s ∈ o.names) (h' : s ∈ o'.names) : o = o' := by
  have : ∀ x ∈ optStrings, ∀ y ∈ optStrings, x.1 = y.1 → x.2 = y.2 := by decide +kernel
  exact this _ (mem_names.1 h) _ (mem_names.1 h') rfl

theorem findOpt_eq {s : Str} {o : Opt} : findOpt s = some o ↔ s ∈ o.names := by
  constructor
  · intro h
    unfold findOpt at h
    cases hf : optStrings.find? (·.1 == s) with
    | none => rw [hf] at h; cases h
    | some x =>
      rw [hf] at h; cases h
      have h1 := List.find?_some hf
      have h2 := List.mem_of_find?_eq_some hf
      rw [mem_names]
      have : x.1 = s := by simpa using h1
      rw [← this]; exact h2
  · intro h
    have : ∀ x ∈ optStrings, findOpt x.1 = some x.2 := by decide +kernel
    exact this _ (mem_names.1 h)

theorem findOpt_none {s : Str} : findOpt s = none ↔ ∀ o : Opt, s ∉ o.names := by
  constructor
  · intro h o ho
    rw [findOpt_eq.2 ho] at h; cases h
  · intro h
    cases hf : findOpt s with
    | none => rfl
    | some o => exact absurd (findOpt_eq.1 hf) (h o)

/-- Facts about all names. -/
theorem names_facts {s : Str} {o : Opt} (h : s ∈ o.names) :
    '=' ∉ s ∧ (s.length = 2 → o ∉ valued ∧ isShort s = true) ∧ (s.length ≠ 2 → c!"--" <+: s ∧ isShort s = false) ∧
    2 ≤ s.length ∧ s.head? = some '-' ∧ s ≠ c!"--" := by
  have : ∀ x ∈ optStrings, '=' ∉ x.1 ∧ (x.1.length = 2 → x.2 ∉ valued ∧ isShort x.1 = true) ∧
      (x.1.length ≠ 2 → c!"--" <+: x.1 ∧ isShort x.1 = false) ∧
      2 ≤ x.1.length ∧ x.1.head? = some '-' ∧ x.1 ≠ c!"--" := by decide +kernel
  exact this _ (mem_names.1 h)

theorem hasArg_iff {o : Opt} : o.hasArg = true ↔ o ∈ valued := by
  cases o <;> decide

/-! ## Negative numbers -/

theorem negative_iff {digit : Char → Bool} {s : Str} : ((negativeRx digit).match? s).isSome = true ↔ Negative digit s := by
  constructor
  · intro h
    obtain ⟨m, hm⟩ := Option.isSome_iff_exists.1 h
    obtain ⟨st', hs, _⟩ := Rx.matchAt_sound hm
    rcases hs with hs | hs
    · obtain ⟨_, ⟨_, rfl⟩, _, ⟨c, cs, h1, h2, rfl⟩, m2, h3, ⟨h4, rfl⟩⟩ := hs
      obtain ⟨u, ⟨h5, _⟩, h6, h7, _⟩ := repStep_chr h3
      simp only at h1 h5
      have hc : c = '-' := by simpa using h2
      subst hc
      refine ⟨u, [], st'.post, h6, by simp, h4, .inl ⟨?_, ?_⟩⟩
      · intro h; rw [h] at h7; simp at h7
      · rw [h1, h5]; rfl
    · obtain ⟨_, ⟨_, rfl⟩, _, ⟨c, cs, h1, h2, rfl⟩, m2, h3, _, ⟨c', cs', h1', h2', rfl⟩, m3, h3', ⟨h4, rfl⟩⟩ := hs
      obtain ⟨u, ⟨h5, _⟩, h6, h7, _⟩ := repStep_chr h3
      obtain ⟨v, ⟨h5', _⟩, h6', h7', _⟩ := repStep_chr h3'
      simp only at h1 h5 h5'
      have hc : c = '-' := by simpa using h2
      have hc' : c' = '.' := by simpa using h2'
      subst hc hc'
      refine ⟨u, v, st'.post, h6, h6', h4, .inr ⟨?_, ?_⟩⟩
      · intro h; rw [h] at h7'; simp at h7'
      · rw [h1, h5, h1', h5']; simp
  · rintro ⟨a, b, nl, ha, hb, hnl, ⟨h1, rfl⟩ | ⟨h1, rfl⟩⟩
    · refine Rx.matchAt_isSome (st' := ⟨a.reverse ++ ['-'], nl, []⟩) (.inl ?_)
      refine ⟨_, ⟨rfl, rfl⟩, _, ⟨'-', _, rfl, by decide, rfl⟩, _, repStep_chr_intro a ha ?_ (by intro m h; cases h), ?_, rfl⟩
      · cases a with
        | nil => exact absurd rfl h1
        | cons => simp
      · exact hnl
    · refine Rx.matchAt_isSome (st' := ⟨b.reverse ++ '.' :: (a.reverse ++ ['-']), nl, []⟩) (.inr ?_)
      refine ⟨⟨[], '-' :: a ++ '.' :: b ++ nl, []⟩, ⟨rfl, rfl⟩, ⟨['-'], a ++ ('.' :: (b ++ nl)), []⟩,
        ⟨'-', _, rfl, by decide, by simp⟩, ⟨a.reverse ++ ['-'], '.' :: (b ++ nl), []⟩,
        repStep_chr_intro a ha (Nat.zero_le _) (by intro m h; cases h), ⟨'.' :: (a.reverse ++ ['-']), b ++ nl, []⟩,
        ⟨'.', _, rfl, by decide, rfl⟩, ⟨b.reverse ++ '.' :: (a.reverse ++ ['-']), nl, []⟩,
        repStep_chr_intro b hb ?_ (by intro m h; cases h), hnl, rfl⟩
      cases b with
      | nil => exact absurd rfl h1
      | cons => simp

/-! ## Entries -/

theorem partitionEq_append {n v : Str} (h : '=' ∉ n) : partitionEq (n ++ '=' :: v) = (n, some v) := by
  have h1 : ∀ c ∈ n, (c != '=') = true := by
    intro c hc
    have : c ≠ '=' := fun h' => h (h' ▸ hc)
    simpa using this
  unfold partitionEq
  rw [List.takeWhile_append_of_pos h1, List.dropWhile_append_of_pos h1]
  simp

theorem partitionEq_none {s : Str} (h : '=' ∉ s) : partitionEq s = (s, none) := by
  have h1 : ∀ c ∈ s, (c != '=') = true := by
    intro c hc
    have : c ≠ '=' := fun h' => h (h' ▸ hc)
    simpa using this
  have := List.takeWhile_append_of_pos (l₂ := []) h1
  have h2 := List.dropWhile_append_of_pos (l₂ := []) h1
  simp only [List.append_nil, List.takeWhile_nil, List.dropWhile_nil] at this h2
  unfold partitionEq
  rw [this, h2]

theorem partitionEq_cases (s : Str) :
    ('=' ∉ s ∧ partitionEq s = (s, none)) ∨ ∃ n v, '=' ∉ n ∧ s = n ++ '=' :: v ∧ partitionEq s = (n, some v) := by
  by_cases h : '=' ∈ s
  · right
    obtain ⟨n, v, h1, h2⟩ := List.eq_append_cons_of_mem h
    exact ⟨n, v, h2, h1, h1 ▸ partitionEq_append h2⟩
  · exact .inl ⟨h, partitionEq_none h⟩

theorem isPrefix_two {c d : Char} {x s : Str} (h : x <+: c :: d :: s) (hl : x.length = 2) : x = [c, d] := by
  obtain ⟨t, ht⟩ := h
  match x, hl with
  | [a, b], _ =>
    simp only [List.cons_append, List.nil_append, List.cons.injEq] at ht
    rw [ht.1, ht.2.1]

theorem prefix_dashes {n x : Str} (h : c!"--" <+: n) (h' : n <+: x) {o : Opt} (hx : x ∈ o.names) :
    isShort x = false ∧ '=' ∉ n := by
  refine ⟨?_, fun he => (names_facts hx).1 (h'.subset he)⟩
  obtain ⟨t, rfl⟩ := h
  obtain ⟨u, rfl⟩ := h'
  rfl

theorem filter_singleton {α : Type} {p : α → Bool} {l : List α} (hn : l.Nodup) {a : α} :
    l.filter p = [a] ↔ a ∈ l ∧ p a = true ∧ ∀ b ∈ l, p b = true → b = a := by
  constructor
  · intro h
    have ha : a ∈ l.filter p := by rw [h]; exact List.mem_singleton_self a
    rw [List.mem_filter] at ha
    refine ⟨ha.1, ha.2, fun b hb hpb => ?_⟩
    have : b ∈ l.filter p := List.mem_filter.2 ⟨hb, hpb⟩
    rw [h] at this
    exact List.mem_singleton.1 this
  · rintro ⟨ha, hpa, hall⟩
    have hn' : (l.filter p).Nodup := hn.filter _
    have hmem : a ∈ l.filter p := List.mem_filter.2 ⟨ha, hpa⟩
    have hall' : ∀ b ∈ l.filter p, b = a := fun b hb => hall b (List.mem_filter.1 hb).1 (List.mem_filter.1 hb).2
    match l.filter p, hn', hmem, hall' with
    | [x], _, _, h => rw [h x (by simp)]
    | x :: y :: _, hn', _, h =>
      have := h x (by simp)
      have := h y (by simp)
      subst_vars
      simp at hn'

/-- The long options that the part before `=` may mean. -/
theorem optionTuples_long {s : Str} (h : isShort s = false) : optionTuples s =
    (optStrings.filter fun x => startsWith x.1 (partitionEq s).1).map fun x =>
      ⟨some x.2, isShort x.1, (partitionEq s).2.isSome, (partitionEq s).2⟩ := by
  unfold optionTuples
  rw [h]; rfl

theorem startsWith_eq {s p : Str} : startsWith s p = true ↔ p <+: s := by
  unfold startsWith
  exact List.isPrefixOf_iff_prefix

theorem optionTuples_short {c : Char} {cs : Str} (hc : c ≠ '-') (hcs : cs ≠ []) : optionTuples ('-' :: c :: cs) =
    match findOpt ['-', c] with
    | none => []
    | some o => [⟨some o, true, false, some cs⟩] := by
  have h1 : isShort ('-' :: c :: cs) = true := by simp [isShort, hc]
  have h2 : ∀ x ∈ optStrings, startsWith x.1 ('-' :: c :: cs) = false := by
    intro x hx
    apply Bool.eq_false_iff.2
    intro h
    rw [startsWith_eq] at h
    obtain ⟨_, f2, f3, _⟩ := names_facts (mem_names.2 hx)
    by_cases hl : x.1.length = 2
    · have := h.length_le
      rw [hl] at this
      cases cs with
      | nil => exact hcs rfl
      | cons => simp at this
    · obtain ⟨t, ht⟩ := (f3 hl).1
      obtain ⟨u, hu⟩ := h
      rw [← ht] at hu
      simp only [List.cons_append, List.nil_append, List.cons.injEq] at hu
      exact hc hu.2.1
  unfold optionTuples
  rw [h1]
  simp only [Bool.not_true, Bool.false_eq_true, if_false, List.take_succ_cons, List.take_zero, List.drop_succ_cons,
    List.drop_zero]
  have key : ∀ l : List (Str × Opt), (∀ x ∈ l, startsWith x.1 ('-' :: c :: cs) = false) → (l.map (·.1)).Nodup →
      l.filterMap (fun x => if x.1 == ['-', c] then some (⟨some x.2, isShort x.1, false, some cs⟩ : OptTuple)
        else if startsWith x.1 ('-' :: c :: cs) then some ⟨some x.2, isShort x.1, false, none⟩ else none) =
      match (l.find? (·.1 == ['-', c])).map (·.2) with
      | none => []
      | some o => [⟨some o, true, false, some cs⟩] := by
    intro l
    induction l with
    | nil => intro _ _; rfl
    | cons x l ih =>
      intro hl hn
      rw [List.map_cons, List.nodup_cons] at hn
      have ih' := ih (fun y hy => hl y (by simp [hy])) hn.2
      by_cases hx : x.1 = ['-', c]
      · have hx' : (x.1 == ['-', c]) = true := by simpa using hx
        rw [List.filterMap_cons, List.find?_cons, hx']
        simp only [if_true, Option.map_some, List.cons.injEq]
        refine ⟨by rw [hx]; simp [isShort, hc], ?_⟩
        rw [ih']
        have : l.find? (·.1 == ['-', c]) = none := by
          rw [List.find?_eq_none]
          intro y hy he
          have : y.1 = ['-', c] := by simpa using he
          exact hn.1 (List.mem_map.2 ⟨y, hy, this.trans hx.symm⟩)
        rw [this]; rfl
      · have hx' : (x.1 == ['-', c]) = false := by simpa using hx
        rw [List.filterMap_cons, List.find?_cons, hx', hl x (by simp)]
        simp only [Bool.false_eq_true, if_false]
        exact ih'
  exact key _ h2 (by decide +kernel)

/-- The end of `parseOptional`. -/
def noOption (py : PyFns) (s : Str) : Except Int (Option OptTuple) :=
  if ((negativeRx py.digit).match? s).isSome then .ok none
  else if s.contains ' ' then .ok none
  else .ok (some ⟨none, isShort s, false, none⟩)

theorem po_head (py : PyFns) {s : Str} (h : s.head? ≠ some '-') : parseOptional py s = .ok none := by
  have : startsWith s ['-'] = false := by
    apply Bool.eq_false_iff.2
    intro h'
    rw [startsWith_eq] at h'
    obtain ⟨t, rfl⟩ := h'
    exact h rfl
  unfold parseOptional
  rw [this]; rfl

theorem po_long (py : PyFns) {r n : Str} {v : Option Str} (h : partitionEq ('-' :: '-' :: r) = (n, v)) :
    parseOptional py ('-' :: '-' :: r) =
      match findOpt n with
      | some o => .ok (some ⟨some o, false, v.isSome, v⟩)
      | none =>
        match (optStrings.filter fun x => startsWith x.1 n) with
        | _ :: _ :: _ => .error 2
        | [x] => .ok (some ⟨some x.2, isShort x.1, v.isSome, v⟩)
        | [] => noOption py ('-' :: '-' :: r) := by
  have hs : startsWith ('-' :: '-' :: r) ['-'] = true := rfl
  have hsh : isShort ('-' :: '-' :: r) = false := rfl
  have ht := optionTuples_long hsh
  rw [h] at ht
  simp only at ht
  have hl : (('-' :: '-' :: r).length == 1) = false := by simp
  unfold parseOptional
  rw [hs, ht, h, hl]
  simp only [Bool.not_true, Bool.false_eq_true, if_false]
  rcases partitionEq_cases ('-' :: '-' :: r) with ⟨h1, h2⟩ | ⟨n', v', h1, h2, h3⟩
  · rw [h] at h2
    obtain ⟨rfl, rfl⟩ : n = '-' :: '-' :: r ∧ v = none := by
      exact ⟨congrArg Prod.fst h2, congrArg Prod.snd h2⟩
    cases hf : findOpt ('-' :: '-' :: r) with
    | some o => rfl
    | none =>
      simp only
      cases optStrings.filter fun x => startsWith x.1 ('-' :: '-' :: r) with
      | nil => rfl
      | cons x l => cases l <;> rfl
  · rw [h] at h3
    obtain ⟨rfl, rfl⟩ : n = n' ∧ v = some v' := by
      exact ⟨congrArg Prod.fst h3, congrArg Prod.snd h3⟩
    have hf0 : findOpt ('-' :: '-' :: r) = none := by
      rw [findOpt_none]
      intro o ho
      apply (names_facts ho).1
      rw [h2]; simp
    rw [hf0]
    cases hf : findOpt n with
    | some o =>
      have : isShort n = false := by
        by_cases hl2 : n.length = 2
        · have : n <+: '-' :: '-' :: r := by rw [h2]; exact List.prefix_append _ _
          have := isPrefix_two this hl2
          exact absurd this (names_facts (findOpt_eq.1 hf)).2.2.2.2.2
        · exact ((names_facts (findOpt_eq.1 hf)).2.2.1 hl2).2
      simp only [this]; rfl
    | none =>
      simp only
      cases optStrings.filter fun x => startsWith x.1 n with
      | nil => rfl
      | cons x l => cases l <;> rfl

theorem po_two (py : PyFns) {c : Char} (hc : c ≠ '-') : parseOptional py ['-', c] =
    match findOpt ['-', c] with
    | some o => .ok (some ⟨some o, true, false, none⟩)
    | none => noOption py ['-', c] := by
  have hs : startsWith ['-', c] ['-'] = true := rfl
  have hsh : isShort ['-', c] = true := by simp [isShort, hc]
  have hl : (['-', c].length == 1) = false := rfl
  unfold parseOptional
  rw [hs, hl, hsh]
  simp only [Bool.not_true, Bool.false_eq_true, if_false]
  cases hf : findOpt ['-', c] with
  | some o => rfl
  | none =>
    have h1 : optionTuples ['-', c] = [] := by
      unfold optionTuples
      rw [hsh]
      simp only [Bool.not_true, Bool.false_eq_true, if_false, List.filterMap_eq_nil_iff]
      intro x hx
      have h2 : (x.1 == List.take 2 ['-', c]) = false := by
        apply Bool.eq_false_iff.2
        intro he
        have he' : x.1 = ['-', c] := by simpa using he
        exact findOpt_none.1 hf x.2 (he' ▸ mem_names.2 hx)
      have h3 : startsWith x.1 ['-', c] = false := by
        apply Bool.eq_false_iff.2
        intro h
        rw [startsWith_eq] at h
        obtain ⟨_, f2, f3, _⟩ := names_facts (mem_names.2 hx)
        by_cases hl : x.1.length = 2
        · have := h.eq_of_length (by rw [hl]; rfl)
          exact findOpt_none.1 hf x.2 (mem_names.2 (by rw [this]; exact hx))
        · obtain ⟨t, ht⟩ := (f3 hl).1
          obtain ⟨u, hu⟩ := h
          rw [← ht] at hu
          simp only [List.cons_append, List.nil_append, List.cons.injEq] at hu
          exact hc hu.2.1
      rw [h2, h3]; rfl
    have h4 : (partitionEq ['-', c]).2 = none ∨ findOpt (partitionEq ['-', c]).1 = none := by
      rcases partitionEq_cases ['-', c] with ⟨_, h⟩ | ⟨n, v, h1, h2, h3⟩
      · rw [h]; exact .inl rfl
      · right
        rw [h3, findOpt_none]
        intro o ho
        have := (names_facts ho).2.2.2.1
        have h2' := congrArg List.length h2
        simp only [List.length_append, List.length_cons, List.length_nil] at h2'
        simp only at this
        omega
    simp only [h1, noOption, hsh]
    rcases h4 with h4 | h4
    · rw [h4]
    · rw [h4]
      cases (partitionEq ['-', c]).2 <;> rfl

theorem po_short (py : PyFns) {c : Char} {cs : Str} (hc : c ≠ '-') (hcs : cs ≠ []) : parseOptional py ('-' :: c :: cs) =
    match findOpt ['-', c] with
    | some o =>
      match cs with
      | '=' :: v => .ok (some ⟨some o, true, true, some v⟩)
      | _ => .ok (some ⟨some o, true, false, some cs⟩)
    | none => noOption py ('-' :: c :: cs) := by
  have hs : startsWith ('-' :: c :: cs) ['-'] = true := rfl
  have hl : (('-' :: c :: cs).length == 1) = false := by simp
  have hlong : ∀ n, n <+: '-' :: c :: cs → 2 < n.length → findOpt n = none := by
    intro n hn hl
    rw [findOpt_none]
    intro o ho
    obtain ⟨t, ht⟩ := ((names_facts ho).2.2.1 (by omega)).1
    obtain ⟨u, hu⟩ := hn
    rw [← ht] at hu
    simp only [List.cons_append, List.nil_append, List.cons.injEq] at hu
    exact hc hu.2.1.symm
  have hf0 : findOpt ('-' :: c :: cs) = none := by
    refine hlong _ (List.prefix_refl _) ?_
    cases cs with
    | nil => exact absurd rfl hcs
    | cons => simp
  unfold parseOptional
  rw [hs, hl, hf0, optionTuples_short hc hcs]
  simp only [Bool.not_true, Bool.false_eq_true, if_false]
  rcases partitionEq_cases ('-' :: c :: cs) with ⟨h1, h2⟩ | ⟨n, v, h1, h2, h3⟩
  · rw [h2]
    simp only
    cases hf : findOpt ['-', c] with
    | none => rfl
    | some o =>
      simp only
      cases cs with
      | nil => rfl
      | cons d ds =>
        have : d ≠ '=' := by
          rintro rfl
          exact h1 (by simp)
        split <;> simp_all
  · rw [h3]
    simp only
    have hpre : n <+: '-' :: c :: cs := by rw [h2]; exact List.prefix_append _ _
    cases hfn : findOpt n with
    | some o =>
      simp only
      have hlen : n.length = 2 := by
        have := (names_facts (findOpt_eq.1 hfn)).2.2.2.1
        rcases Nat.lt_or_ge 2 n.length with h | h
        · rw [hlong n hpre h] at hfn; cases hfn
        · omega
      have hn := isPrefix_two hpre hlen
      subst hn
      simp only [List.cons_append, List.nil_append, List.cons.injEq, true_and] at h2
      subst h2
      rw [hfn]
      simp [isShort, hc]
    | none =>
      simp only
      cases hf : findOpt ['-', c] with
      | none => rfl
      | some o =>
        simp only
        have : cs.head? ≠ some '=' := by
          intro h
          cases cs with
          | nil => cases h
          | cons d ds =>
            simp only [List.head?_cons, Option.some.injEq] at h
            subst h
            have hc' : c ≠ '=' := by
              rintro rfl
              have := (names_facts (findOpt_eq.1 hf)).1
              exact this (by simp)
            have := partitionEq_append (n := ['-', c]) (v := ds) (by simp [hc'.symm])
            simp only [List.cons_append, List.nil_append] at this
            rw [this] at h3
            have h4 := congrArg Prod.fst h3
            simp only at h4
            rw [← h4, hf] at hfn
            cases hfn
        split <;> simp_all

theorem shapes (s : Str) : s.head? ≠ some '-' ∨ s = c!"-" ∨ (∃ r, s = '-' :: '-' :: r) ∨ (∃ c, c ≠ '-' ∧ s = ['-', c]) ∨
    ∃ c cs, c ≠ '-' ∧ cs ≠ [] ∧ s = '-' :: c :: cs := by
  match s with
  | [] => left; simp
  | [a] =>
    by_cases ha : a = '-'
    · subst ha; exact .inr (.inl rfl)
    · left; simpa using ha
  | a :: b :: r =>
    by_cases ha : a = '-'
    · subst ha
      by_cases hb : b = '-'
      · subst hb; exact .inr (.inr (.inl ⟨r, rfl⟩))
      · cases r with
        | nil => exact .inr (.inr (.inr (.inl ⟨b, hb, rfl⟩)))
        | cons d ds => exact .inr (.inr (.inr (.inr ⟨b, d :: ds, hb, by simp, rfl⟩)))
    · left; simpa using ha

theorem noOption_none {py : PyFns} {s : Str} : noOption py s = .ok none ↔ (Negative py.digit s ∨ ' ' ∈ s) := by
  rw [← negative_iff]
  unfold noOption
  by_cases h1 : ((negativeRx py.digit).match? s).isSome = true
  · rw [if_pos h1]; simp [h1]
  · rw [if_neg h1]
    by_cases h2 : s.contains ' ' = true
    · rw [if_pos h2]; simp at h2; simp [h2]
    · rw [if_neg h2]; simp at h2; simp [h1, h2]

theorem noOption_some {py : PyFns} {s : Str} {t : OptTuple} (h : noOption py s = .ok (some t)) : t.opt = none := by
  unfold noOption at h
  split at h
  · cases h
  · split at h
    · cases h
    · cases h; rfl

theorem noOption_error {py : PyFns} {s : Str} {n : Int} : noOption py s ≠ .error n := by
  intro h
  unfold noOption at h
  split at h
  · cases h
  · split at h <;> cases h

theorem optionLike_long {r n : Str} {v : Option Str} (h : partitionEq ('-' :: '-' :: r) = (n, v)) :
    OptionLike ('-' :: '-' :: r) ↔ ∃ x ∈ optStrings, n <+: x.1 := by
  have hn : ('-' :: '-' :: r).takeWhile (· != '=') = n := congrArg Prod.fst h
  constructor
  · rintro ⟨o, x, hx, ⟨_, h2⟩ | ⟨h1, h2⟩⟩
    · exact ⟨(x, o), mem_names.1 hx, hn ▸ h2⟩
    · exact absurd (isPrefix_two h2 h1) (names_facts hx).2.2.2.2.2
  · rintro ⟨x, hx, h1⟩
    exact ⟨x.2, x.1, mem_names.2 hx, .inl ⟨⟨r, rfl⟩, hn ▸ h1⟩⟩

theorem optionLike_short {c : Char} {cs : Str} (hc : c ≠ '-') :
    OptionLike ('-' :: c :: cs) ↔ ∃ o, findOpt ['-', c] = some o := by
  constructor
  · rintro ⟨o, x, hx, ⟨h1, _⟩ | ⟨h1, h2⟩⟩
    · obtain ⟨t, ht⟩ := h1
      simp only [List.cons_append, List.nil_append, List.cons.injEq] at ht
      exact absurd ht.2.1.symm hc
    · rw [isPrefix_two h2 h1] at hx
      exact ⟨o, findOpt_eq.2 hx⟩
  · rintro ⟨o, ho⟩
    exact ⟨o, ['-', c], findOpt_eq.1 ho, .inr ⟨rfl, cs, rfl⟩⟩

theorem po_none {py : PyFns} {s : Str} : parseOptional py s = .ok none ↔ PlainArg py s := by
  have hplain : s.head? = some '-' → s ≠ c!"-" → (PlainArg py s ↔ ¬ OptionLike s ∧ (Negative py.digit s ∨ ' ' ∈ s)) := by
    intro h1 h2
    constructor
    · rintro (h | h | h)
      · exact absurd h1 h
      · exact absurd h h2
      · exact h
    · exact fun h => .inr (.inr h)
  rcases shapes s with h | rfl | ⟨r, rfl⟩ | ⟨c, hc, rfl⟩ | ⟨c, cs, hc, hcs, rfl⟩
  · exact ⟨fun _ => .inl h, fun _ => po_head py h⟩
  · exact ⟨fun _ => .inr (.inl rfl), fun _ => rfl⟩
  · rw [hplain rfl (by simp)]
    cases hp : partitionEq ('-' :: '-' :: r) with
    | mk n v =>
      rw [po_long py hp, optionLike_long hp]
      cases hf : findOpt n with
      | some o =>
        simp only [Except.ok.injEq, reduceCtorEq, false_iff]
        rintro ⟨h, _⟩
        exact h ⟨(n, o), mem_names.1 (findOpt_eq.1 hf), List.prefix_refl _⟩
      | none =>
        simp only
        cases hl : optStrings.filter fun x => startsWith x.1 n with
        | nil =>
          simp only [noOption_none]
          refine ⟨fun h => ⟨?_, h⟩, fun h => h.2⟩
          rintro ⟨x, hx, h1⟩
          have : x ∈ optStrings.filter fun x => startsWith x.1 n := List.mem_filter.2 ⟨hx, startsWith_eq.2 h1⟩
          rw [hl] at this
          cases this
        | cons x l =>
          have hx : x ∈ optStrings.filter fun x => startsWith x.1 n := by rw [hl]; exact List.mem_cons_self
          rw [List.mem_filter] at hx
          have hno : ¬ ¬ ∃ x ∈ optStrings, n <+: x.1 := fun h => h ⟨x, hx.1, startsWith_eq.1 hx.2⟩
          cases l with
          | nil => exact ⟨fun h => (by cases h), fun h => absurd h.1 hno⟩
          | cons y l => exact ⟨fun h => (by cases h), fun h => absurd h.1 hno⟩
  · rw [hplain rfl (by simp), po_two py hc, optionLike_short hc]
    cases hf : findOpt ['-', c] with
    | some o => simp
    | none => simp [noOption_none]
  · rw [hplain rfl (by simp), po_short py hc hcs, optionLike_short hc]
    cases hf : findOpt ['-', c] with
    | some o => simp only; split <;> simp
    | none => simp [noOption_none]

theorem names_abbrev {s : Str} (hs : c!"--" <+: s) {x : Str × Opt}
    (h : optStrings.filter (fun x => startsWith x.1 s) = [x]) : Names s x.2 := by
  rw [filter_singleton (by decide +kernel)] at h
  refine .start hs (startsWith_eq.1 h.2.1) (mem_names.2 h.1) fun o' y hy hp => ?_
  have := h.2.2 (y, o') (mem_names.1 hy) (startsWith_eq.2 hp)
  rw [← this]

/-- What an entry is that means an option. -/
theorem po_some {py : PyFns} {s : Str} {t : OptTuple} {o : Opt} (h : parseOptional py s = .ok (some t))
    (ho : t.opt = some o) :
    (Names s o ∧ t.arg = none) ∨ (∃ n v, s = n ++ '=' :: v ∧ Names n o ∧ t.arg = some v ∧ t.sep = true) ∨
    ∃ c cs, cs ≠ [] ∧ s = '-' :: c :: cs ∧ ['-', c] ∈ o.names ∧ t = ⟨some o, true, false, some cs⟩ := by
  rcases shapes s with h1 | rfl | ⟨r, rfl⟩ | ⟨c, hc, rfl⟩ | ⟨c, cs, hc, hcs, rfl⟩
  · rw [po_head py h1] at h; cases h
  · cases h
  · cases hp : partitionEq ('-' :: '-' :: r) with
    | mk n v =>
      rw [po_long py hp] at h
      have hkey : Names n o → t.sep = v.isSome → t.arg = v → (Names ('-' :: '-' :: r) o ∧ t.arg = none) ∨
          (∃ n v, '-' :: '-' :: r = n ++ '=' :: v ∧ Names n o ∧ t.arg = some v ∧ t.sep = true) ∨
          ∃ c cs, cs ≠ [] ∧ '-' :: '-' :: r = '-' :: c :: cs ∧ ['-', c] ∈ o.names ∧ t = ⟨some o, true, false, some cs⟩ := by
        intro hn ht1 ht2
        rcases partitionEq_cases ('-' :: '-' :: r) with ⟨h1, h2⟩ | ⟨n', v', h1, h2, h3⟩
        · rw [hp] at h2
          obtain ⟨rfl, rfl⟩ : n = '-' :: '-' :: r ∧ v = none := ⟨congrArg Prod.fst h2, congrArg Prod.snd h2⟩
          exact .inl ⟨hn, ht2⟩
        · rw [hp] at h3
          obtain ⟨rfl, rfl⟩ : n = n' ∧ v = some v' := ⟨congrArg Prod.fst h3, congrArg Prod.snd h3⟩
          exact .inr (.inl ⟨n, v', h2, hn, ht2, ht1⟩)
      have hdd : ∀ x ∈ optStrings, n <+: x.1 → c!"--" <+: n := by
        intro x hx hnx
        have hn : n = ('-' :: '-' :: r).takeWhile (· != '=') := (congrArg Prod.fst hp).symm
        rw [hn]
        exact ⟨r.takeWhile (· != '='), by simp⟩
      cases hf : findOpt n with
      | some o' =>
        rw [hf] at h
        simp only [Except.ok.injEq, Option.some.injEq] at h
        subst h
        simp only [Option.some.injEq] at ho
        subst ho
        exact hkey (.exact (findOpt_eq.1 hf)) rfl rfl
      | none =>
        rw [hf] at h
        simp only at h
        cases hl : optStrings.filter fun x => startsWith x.1 n with
        | nil =>
          rw [hl] at h
          rw [noOption_some h] at ho; cases ho
        | cons x l =>
          have hx : x ∈ optStrings.filter fun x => startsWith x.1 n := by rw [hl]; exact List.mem_cons_self
          rw [List.mem_filter] at hx
          have hd := hdd x hx.1 (startsWith_eq.1 hx.2)
          rw [hl] at h
          cases l with
          | nil =>
            simp only [Except.ok.injEq, Option.some.injEq] at h
            subst h
            simp only [Option.some.injEq] at ho
            subst ho
            exact hkey (names_abbrev hd hl) rfl rfl
          | cons y l => cases h
  · rw [po_two py hc] at h
    cases hf : findOpt ['-', c] with
    | some o' =>
      rw [hf] at h
      simp only [Except.ok.injEq, Option.some.injEq] at h
      subst h
      simp only [Option.some.injEq] at ho
      subst ho
      exact .inl ⟨.exact (findOpt_eq.1 hf), rfl⟩
    | none =>
      rw [hf] at h
      rw [noOption_some h] at ho; cases ho
  · rw [po_short py hc hcs] at h
    cases hf : findOpt ['-', c] with
    | some o' =>
      rw [hf] at h
      simp only at h
      split at h
      · simp only [Except.ok.injEq, Option.some.injEq] at h
        subst h
        simp only [Option.some.injEq] at ho
        subst ho
        exact .inr (.inl ⟨['-', c], _, rfl, .exact (findOpt_eq.1 hf), rfl, rfl⟩)
      · simp only [Except.ok.injEq, Option.some.injEq] at h
        subst h
        simp only [Option.some.injEq] at ho
        subst ho
        exact .inr (.inr ⟨c, cs, hcs, rfl, findOpt_eq.1 hf, rfl⟩)
    | none =>
      rw [hf] at h
      rw [noOption_some h] at ho; cases ho

theorem po_names {s : Str} {o : Opt} (py : PyFns) (h : Names s o) :
    ∃ t, parseOptional py s = .ok (some t) ∧ t.opt = some o ∧ t.arg = none := by
  have hlong : c!"--" <+: s → (∃ x ∈ optStrings, s <+: x.1) → (∀ o', findOpt s = some o' → o' = o) →
      (findOpt s = none → ∃ x, optStrings.filter (fun x => startsWith x.1 s) = [x] ∧ x.2 = o) →
      ∃ t, parseOptional py s = .ok (some t) ∧ t.opt = some o ∧ t.arg = none := by
    rintro ⟨r, rfl⟩ ⟨x, hx, hpx⟩ h1 h2
    have heq : '=' ∉ c!"--" ++ r := fun he => (names_facts (mem_names.2 hx)).1 (hpx.subset he)
    have hp := partitionEq_none heq
    have := po_long py (r := r) hp
    cases hf : findOpt (c!"--" ++ r) with
    | some o' =>
      rw [hf] at this
      refine ⟨_, this, ?_, rfl⟩
      rw [h1 o' hf]
    | none =>
      obtain ⟨x, hx, rfl⟩ := h2 hf
      rw [hf, hx] at this
      exact ⟨_, this, rfl, rfl⟩
  cases h with
  | exact h =>
    by_cases hl : s.length = 2
    · rcases shapes s with h1 | rfl | ⟨r, rfl⟩ | ⟨c, hc, rfl⟩ | ⟨c, cs, hc, hcs, rfl⟩
      · exact absurd (names_facts h).2.2.2.2.1 h1
      · cases hl
      · have : r = [] := by simpa using hl
        subst this
        exact absurd rfl (names_facts h).2.2.2.2.2
      · refine ⟨_, by rw [po_two py hc, findOpt_eq.2 h], rfl, rfl⟩
      · cases cs with
        | nil => exact absurd rfl hcs
        | cons => simp at hl
    · refine hlong ((names_facts h).2.2.1 hl).1 ⟨(s, o), mem_names.1 h, List.prefix_refl _⟩ ?_ ?_
      · intro o' ho'
        exact names_inj (findOpt_eq.1 ho') h
      · intro hn
        rw [findOpt_eq.2 h] at hn; cases hn
  | start h1 h2 h3 h4 =>
    rename_i x
    refine hlong h1 ⟨(x, o), mem_names.1 h3, h2⟩ ?_ ?_
    · intro o' ho'
      have := h4 o' s (findOpt_eq.1 ho') (List.prefix_refl _)
      subst this
      exact names_inj (findOpt_eq.1 ho') h3
    · intro _
      refine ⟨(x, o), ?_, rfl⟩
      rw [filter_singleton (by decide +kernel)]
      refine ⟨mem_names.1 h3, startsWith_eq.2 h2, fun b hb hp => ?_⟩
      have := h4 b.2 b.1 (mem_names.2 hb) (startsWith_eq.1 hp)
      have ho : b.2 = o := names_inj (mem_names.2 hb) (this ▸ h3)
      rw [← this, ← ho]

theorem names_dashes {s : Str} {o : Opt} (h : Names s o) (ho : o ∈ valued) :
    c!"--" <+: s ∧ '=' ∉ s ∧ ∃ x, x ∈ o.names ∧ s <+: x := by
  cases h with
  | exact h =>
    refine ⟨?_, (names_facts h).1, s, h, List.prefix_refl _⟩
    by_cases hl : s.length = 2
    · exact absurd ho ((names_facts h).2.1 hl).1
    · exact ((names_facts h).2.2.1 hl).1
  | start h1 h2 h3 h4 => exact ⟨h1, (prefix_dashes h1 h2 h3).2, _, h3, h2⟩

theorem po_equals {n v : Str} {o : Opt} (py : PyFns) (h : Names n o) (ho : o ∈ valued) :
    ∃ t, parseOptional py (n ++ '=' :: v) = .ok (some t) ∧ t.opt = some o ∧ t.arg = some v := by
  obtain ⟨⟨r, hr⟩, heq, _⟩ := names_dashes h ho
  obtain rfl : n = '-' :: '-' :: r := hr.symm
  have hp := partitionEq_append (v := v) heq
  have := po_long py (r := r ++ '=' :: v) hp
  have h' := po_names py h
  have h0 := po_long py (r := r) (partitionEq_none heq)
  obtain ⟨t, h1, h2, h3⟩ := h'
  have h1' : parseOptional py ('-' :: '-' :: r) = .ok (some t) := h1
  rw [h0] at h1'
  have hgoal : parseOptional py ('-' :: '-' :: r ++ '=' :: v) = parseOptional py ('-' :: '-' :: (r ++ '=' :: v)) := rfl
  rw [hgoal, this]
  cases hf : findOpt ('-' :: '-' :: r) with
  | some o' =>
    rw [hf] at h1'
    simp only [Except.ok.injEq, Option.some.injEq] at h1'
    subst h1'
    exact ⟨_, rfl, h2, rfl⟩
  | none =>
    rw [hf] at h1'
    cases hl : optStrings.filter fun x => startsWith x.1 ('-' :: '-' :: r) with
    | nil =>
      rw [hl] at h1'
      rw [noOption_some h1'] at h2; cases h2
    | cons x l =>
      rw [hl] at h1'
      cases l with
      | nil =>
        simp only [Except.ok.injEq, Option.some.injEq] at h1'
        subst h1'
        exact ⟨_, rfl, h2, rfl⟩
      | cons y l => cases h1'

theorem letters_no_eq {cs : Str} {items : List (Opt × Str)} (h : Letters cs items) : '=' ∉ cs ∧ '-' ∉ cs := by
  induction h with
  | nil => simp
  | cons h1 _ ih =>
    rename_i c cs o items _
    have hc : c ≠ '=' := by
      rintro rfl; exact (names_facts h1).1 (by simp)
    have hc' : c ≠ '-' := by
      rintro rfl; exact (names_facts h1).2.2.2.2.2 rfl
    simp only [List.mem_cons, not_or]
    exact ⟨⟨hc.symm, ih.1⟩, hc'.symm, ih.2⟩

theorem letter_flag {c : Char} {o : Opt} (h : ['-', c] ∈ o.names) : o.hasArg = false := by
  have := ((names_facts h).2.1 rfl).1
  exact Bool.eq_false_iff.2 fun h' => this (hasArg_iff.1 h')

theorem po_letters {c : Char} {cs : Str} {o : Opt} {items : List (Opt × Str)} (py : PyFns) (hcs : cs ≠ [])
    (h : Letters (c :: cs) ((o, []) :: items)) :
    parseOptional py ('-' :: c :: cs) = .ok (some ⟨some o, true, false, some cs⟩) := by
  obtain ⟨h1, h2⟩ := letters_no_eq h
  cases h with
  | cons ho _ =>
    have hc : c ≠ '-' := fun hc => h2 (by simp [hc])
    rw [po_short py hc hcs, findOpt_eq.2 ho]
    cases cs with
    | nil => exact absurd rfl hcs
    | cons d ds =>
      have : d ≠ '=' := fun hd => h1 (by simp [hd])
      simp only
      split <;> simp_all

/-! ## Clusters -/

theorem cluster_arg {short sep : Bool} {o : Opt} {s : Str} (h : o.hasArg = true) :
    cluster short o sep s = .ok ([], .arg o s) := by
  cases s <;> simp [cluster, h]

theorem cluster_sep {short : Bool} {o : Opt} {s : Str} (h : o.hasArg = false) : cluster short o true s = .error 2 := by
  cases s <;> simp [cluster, h]

theorem cluster_letters {d : Char} {ds : Str} {items : List (Opt × Str)} (h : Letters (d :: ds) items) :
    ∀ {o : Opt}, o.hasArg = false → ∃ l last, cluster true o false (d :: ds) = .ok (l, .next last) ∧
      last.hasArg = false ∧ (l ++ [last]).map (fun o => (o, ([] : Str))) = (o, []) :: items := by
  induction ds generalizing d items with
  | nil =>
    intro o ho
    have hd := (letters_no_eq h).2
    cases h with
    | cons h1 h2 =>
      cases h2
      rename_i o'
      refine ⟨[o], o', ?_, letter_flag h1, rfl⟩
      have : (d == '-') = false := by
        apply Bool.eq_false_iff.2; intro he; apply hd; simp at he; simp [he]
      simp [cluster, ho, this, findOpt_eq.2 h1]
  | cons e es ih =>
    intro o ho
    have hd := (letters_no_eq h).2
    have he := (letters_no_eq h).1
    cases h with
    | cons h1 h2 =>
      rename_i o' items'
      obtain ⟨l, last, h3, h4, h5⟩ := ih h2 (letter_flag h1)
      refine ⟨o :: l, last, ?_, h4, by simpa using h5⟩
      have h6 : (d == '-') = false := by
        apply Bool.eq_false_iff.2; intro he; apply hd; simp at he; simp [he]
      have h7 : (e == '=') = false := by
        apply Bool.eq_false_iff.2; intro he'; apply he; simp at he'; simp [he']
      rw [cluster]
      simp only [ho, h6, h7, findOpt_eq.2 h1, Bool.false_eq_true, if_false, Bool.not_true, Bool.or_self, h3, bind, Except.bind]

theorem cluster_ok {short sep : Bool} {o : Opt} {s : Str} {r : List Opt × Last} (ho : o.hasArg = false)
    (h : cluster short o sep s = .ok r) : short = true ∧ sep = false ∧ (r.2 = .unknown ∨
      ∃ last items, r.2 = .next last ∧ last.hasArg = false ∧ Letters s items ∧
        (r.1 ++ [last]).map (fun o => (o, ([] : Str))) = (o, []) :: items) := by
  induction s generalizing o sep r with
  | nil => simp [cluster, ho] at h
  | cons c cs ih =>
    have hsep : sep = false := by
      cases sep with
      | false => rfl
      | true => rw [cluster_sep ho] at h; cases h
    subst hsep
    have hshort : short = true := by
      cases short with
      | true => rfl
      | false => simp [cluster, ho] at h
    subst hshort
    refine ⟨rfl, rfl, ?_⟩
    rw [cluster] at h
    simp only [ho, Bool.false_eq_true, if_false, Bool.false_or, Bool.not_true] at h
    split at h
    · cases h
    · · cases hf : findOpt ['-', c] with
        | none => rw [hf] at h; cases h; exact .inl rfl
        | some o' =>
          rw [hf] at h
          have h1 := findOpt_eq.1 hf
          cases cs with
          | nil => cases h; exact .inr ⟨o', [(o', [])], rfl, letter_flag h1, .cons h1 .nil, rfl⟩
          | cons d ds =>
            simp only [bind, Except.bind] at h
            by_cases hd : (d == '=') = true
            · rw [if_pos hd, cluster_sep (letter_flag h1)] at h; cases h
            · rw [if_neg hd] at h
              cases hc : cluster true o' false (d :: ds) with
              | error n => rw [hc] at h; cases h
              | ok r' =>
                rw [hc] at h
                cases h
                rcases (ih (letter_flag h1) hc).2.2 with h2 | ⟨last, items, h2, h3, h4, h5⟩
                · exact .inl h2
                · exact .inr ⟨last, (o', []) :: items, h2, h3, .cons h1 h4, by simpa using h5⟩

/-! ## Tokens -/

/-- `Occ` for classified entries. -/
inductive OccT : List ArgTok → List (Opt × Str) → Prop where
  | flag {t : OptTuple} {o : Opt} : t.opt = some o → t.arg = none → o.hasArg = false → OccT [.opt t] [(o, [])]
  | value {t : OptTuple} {o : Opt} {v : Str} : t.opt = some o → t.arg = none → o.hasArg = true → OccT [.opt t, .arg v] [(o, v)]
  | equals {t : OptTuple} {o : Opt} {v : Str} : t.opt = some o → t.arg = some v → o.hasArg = true → OccT [.opt t] [(o, v)]
  | letters {o : Opt} {cs : Str} {items : List (Opt × Str)} : o.hasArg = false → cs ≠ [] → Letters cs items →
      OccT [.opt ⟨some o, true, false, some cs⟩] ((o, []) :: items)

inductive OptsT : List ArgTok → List (Opt × Str) → Prop where
  | nil : OptsT [] []
  | cons {a b : List ArgTok} {i j : List (Opt × Str)} : OccT a i → OptsT b j → OptsT (a ++ b) (i ++ j)

/-- The actions of several options. -/
def takeAll (py : PyFns) (os : Os) (st : ArgSt) : List (Opt × Str) → Except Int ArgSt
  | [] => .ok st
  | x :: xs =>
    match takeOpt py os st x.1 x.2 with
    | .error n => .error n
    | .ok st => takeAll py os st xs

theorem takeAll_append {py : PyFns} {os : Os} (xs ys : List (Opt × Str)) : ∀ {st : ArgSt},
    takeAll py os st (xs ++ ys) = match takeAll py os st xs with
      | .error n => .error n
      | .ok st => takeAll py os st ys := by
  induction xs with
  | nil => intro st; rfl
  | cons x xs ih =>
    intro st
    simp only [List.cons_append, takeAll]
    cases takeOpt py os st x.1 x.2 with
    | error n => rfl
    | ok st1 => exact ih

theorem takeOpts_eq {py : PyFns} {os : Os} (l : List Opt) : ∀ {st : ArgSt},
    takeOpts py os st l = takeAll py os st (l.map fun o => (o, [])) := by
  induction l with
  | nil => intro st; rfl
  | cons o l ih =>
    intro st
    simp only [takeOpts, takeAll, List.map_cons, bind, Except.bind]
    cases takeOpt py os st o [] with
    | error n => rfl
    | ok st1 => exact ih

theorem consume_occ {py : PyFns} {os : Os} {t : OptTuple} {pre : List ArgTok} {items : List (Opt × Str)}
    (h : OccT (.opt t :: pre) items) (st : ArgSt) (rest : List ArgTok) : consumeOptional py os st t (pre ++ rest) =
      match takeAll py os st items with
      | .error n => .error n
      | .ok st' => .ok (st', rest) := by
  generalize hx : ArgTok.opt t :: pre = x at h
  cases h with
  | flag h1 h2 h3 =>
    cases hx
    simp only [consumeOptional, h1, h2, takeNext, h3, takeAll, takeOpts, bind, Except.bind, List.nil_append]
    cases takeOpt py os st _ [] <;> rfl
  | value h1 h2 h3 =>
    cases hx
    simp only [consumeOptional, h1, h2, takeNext, h3, takeAll, takeOpts, bind, Except.bind, List.cons_append, List.nil_append,
      if_true]
    cases takeOpt py os st _ _ <;> rfl
  | equals h1 h2 h3 =>
    cases hx
    simp only [consumeOptional, h1, h2, cluster_arg h3, takeAll, takeOpts, bind, Except.bind, List.nil_append]
    cases takeOpt py os st _ _ <;> rfl
  | letters h1 h2 h3 =>
    rename_i o cs items
    cases hx
    cases cs with
    | nil => exact absurd rfl h2
    | cons d ds =>
      obtain ⟨l, last, h4, h5, h6⟩ := cluster_letters h3 h1
      simp only [consumeOptional, h4, takeNext, h5, bind, Except.bind, List.nil_append, takeOpts_eq, h6, Bool.false_eq_true,
        if_false]
      cases takeAll py os st _ <;> rfl

theorem takeOpt_st {py : PyFns} {os : Os} {st st' : ArgSt} {o : Opt} {v : Str} (h : takeOpt py os st o v = .ok st') :
    st'.extras = st.extras ∧ st'.taken = st.taken := by
  cases o <;> simp only [takeOpt] at h
  case help => cases h
  case version => cases h
  case lineLength => split at h <;> cases h; exact ⟨rfl, rfl⟩
  case outputDirectory =>
    split at h
    · cases h
    · split at h <;> cases h
      exact ⟨rfl, rfl⟩
  case outputFile =>
    split at h
    · cases h
    · split at h <;> cases h
      exact ⟨rfl, rfl⟩
  all_goals cases h; exact ⟨rfl, rfl⟩

theorem takeAll_st {py : PyFns} {os : Os} {items : List (Opt × Str)} : ∀ {st st' : ArgSt},
    takeAll py os st items = .ok st' → st'.extras = st.extras ∧ st'.taken = st.taken := by
  induction items with
  | nil => intro st st' h; cases h; exact ⟨rfl, rfl⟩
  | cons x xs ih =>
    intro st st' h
    simp only [takeAll] at h
    cases hx : takeOpt py os st x.1 x.2 with
    | error n => rw [hx] at h; cases h
    | ok st1 =>
      rw [hx] at h
      obtain ⟨h1, h2⟩ := takeOpt_st hx
      obtain ⟨h3, h4⟩ := ih h
      exact ⟨h3.trans h1, h4.trans h2⟩

theorem takePaths_st {py : PyFns} {os : Os} {st st' : ArgSt} {toks : List ArgTok} (h : takePaths py os st toks = .ok st') :
    st'.extras = st.extras ∧ st'.taken = true := by
  simp only [takePaths] at h
  split at h <;> cases h
  exact ⟨rfl, rfl⟩

/-- What `consumeOptional` does when it succeeds. -/
theorem consume_ok {py : PyFns} {os : Os} {t : OptTuple} {rest rest' : List ArgTok} {st st' : ArgSt}
    (h : consumeOptional py os st t rest = .ok (st', rest')) :
    (st'.extras = true ∧ st'.taken = st.taken ∧ rest' = rest) ∨
    ∃ pre items, rest = pre ++ rest' ∧ OccT (.opt t :: pre) items ∧ takeAll py os st items = .ok st' := by
  have key : ∀ {pre : List ArgTok} {items : List (Opt × Str)} {rest0 : List ArgTok}, rest = pre ++ rest0 →
      OccT (.opt t :: pre) items →
      ∃ pre items, rest = pre ++ rest' ∧ OccT (.opt t :: pre) items ∧ takeAll py os st items = .ok st' := by
    intro pre items rest0 h1 h2
    rw [h1, consume_occ h2 st rest0] at h
    cases hx : takeAll py os st items with
    | error n => rw [hx] at h; cases h
    | ok st1 =>
      rw [hx] at h
      cases h
      exact ⟨pre, items, h1, h2, hx⟩
  obtain ⟨to, tshort, tsep, targ⟩ := t
  cases to with
  | none =>
    simp only [consumeOptional] at h
    cases h
    exact .inl ⟨rfl, rfl, rfl⟩
  | some o =>
    cases targ with
    | none =>
      by_cases ho : o.hasArg = true
      · have h' := h
        simp only [consumeOptional, takeNext, ho, if_true] at h'
        cases rest with
        | nil => cases h'
        | cons x rest0 =>
          cases x with
          | dashes => cases h'
          | opt t => cases h'
          | arg v => exact .inr (key (pre := [.arg v]) rfl (.value rfl rfl ho))
      · have ho : o.hasArg = false := by simpa using ho
        exact .inr (key (pre := []) rfl (.flag rfl rfl ho))
    | some arg =>
      by_cases ho : o.hasArg = true
      · exact .inr (key (pre := []) rfl (.equals rfl rfl ho))
      · have ho : o.hasArg = false := by simpa using ho
        have h' := h
        simp only [consumeOptional, bind, Except.bind] at h'
        cases hc : cluster tshort o tsep arg with
        | error n => rw [hc] at h'; cases h'
        | ok r =>
          rw [hc] at h'
          obtain ⟨h1, h2, h3 | ⟨last, items, h3, h4, h5, h6⟩⟩ := cluster_ok ho hc
          · simp only [h3] at h'
            rw [takeOpts_eq] at h'
            cases hx : takeAll py os st (r.1.map fun o => (o, [])) with
            | error n => rw [hx] at h'; cases h'
            | ok st1 =>
              rw [hx] at h'
              cases h'
              exact .inl ⟨rfl, (takeAll_st hx).2, rfl⟩
          · subst h1 h2
            refine .inr (key (pre := []) rfl (.letters ho ?_ h5))
            rintro rfl
            simp [cluster, ho] at hc

/-! ## The loop -/

theorem consume_length {py : PyFns} {os : Os} {t : OptTuple} {rest rest' : List ArgTok} {st st' : ArgSt}
    (h : consumeOptional py os st t rest = .ok (st', rest')) : rest'.length ≤ rest.length := by
  rcases consume_ok h with ⟨_, _, rfl⟩ | ⟨pre, items, rfl, _⟩
  · exact Nat.le_refl _
  · simp

theorem argLoop_fuel {py : PyFns} {os : Os} : ∀ (f g : Nat) (st : ArgSt) (toks : List ArgTok), toks.length ≤ f → toks.length ≤ g →
    argLoop py os f st toks = argLoop py os g st toks := by
  intro f
  induction f with
  | zero =>
    intro g st toks hf hg
    cases toks with
    | nil => cases g <;> rfl
    | cons x xs => simp at hf
  | succ f ih =>
    intro g st toks hf hg
    cases toks with
    | nil => cases g <;> rfl
    | cons x xs =>
      cases g with
      | zero => simp at hg
      | succ g =>
        have hdrop : ((x :: xs).dropWhile fun y => !y.isOpt).length ≤ (x :: xs).length := (List.dropWhile_sublist _).length_le
        simp only [List.length_cons] at hf hg
        cases x with
        | opt t =>
          simp only [argLoop, bind, Except.bind]
          cases hc : consumeOptional py os st t xs with
          | error n => rfl
          | ok r =>
            have := consume_length (st' := r.1) (rest' := r.2) hc
            exact ih g _ _ (by omega) (by omega)
        | arg s =>
          have hdrop' : ((ArgTok.arg s :: xs).dropWhile fun y => !y.isOpt).length ≤ xs.length := by
            rw [List.dropWhile_cons]
            exact (List.dropWhile_sublist _).length_le
          simp only [argLoop, bind, Except.bind]
          split
          · exact ih g _ _ (by omega) (by omega)
          · cases takePaths py os st ((ArgTok.arg s :: xs).takeWhile fun y => !y.isOpt) with
            | error n => rfl
            | ok st1 => exact ih g _ _ (by omega) (by omega)
        | dashes =>
          have hdrop' : ((ArgTok.dashes :: xs).dropWhile fun y => !y.isOpt).length ≤ xs.length := by
            rw [List.dropWhile_cons]
            exact (List.dropWhile_sublist _).length_le
          simp only [argLoop, bind, Except.bind]
          split
          · exact ih g _ _ (by omega) (by omega)
          · cases takePaths py os st ((ArgTok.dashes :: xs).takeWhile fun y => !y.isOpt) with
            | error n => rfl
            | ok st1 => exact ih g _ _ (by omega) (by omega)

/-- The loop with enough fuel. -/
def loop (py : PyFns) (os : Os) (st : ArgSt) (toks : List ArgTok) : Except Int ArgSt := argLoop py os toks.length st toks

theorem loop_opt {py : PyFns} {os : Os} {st : ArgSt} {t : OptTuple} {rest : List ArgTok} :
    loop py os st (.opt t :: rest) = match consumeOptional py os st t rest with
      | .error n => .error n
      | .ok r => loop py os r.1 r.2 := by
  simp only [loop, List.length_cons, argLoop, bind, Except.bind]
  cases hc : consumeOptional py os st t rest with
  | error n => rfl
  | ok r => exact argLoop_fuel _ _ _ _ (consume_length (st' := r.1) (rest' := r.2) hc) (Nat.le_refl _)

theorem loop_run {py : PyFns} {os : Os} {st : ArgSt} {run rest : List ArgTok} (hne : run ≠ []) (hrun : ∀ t ∈ run, t.isOpt = false)
    (hrest : rest = [] ∨ ∃ t r, rest = .opt t :: r) :
    loop py os st (run ++ rest) =
      if st.taken then loop py os { st with extras := true } rest
      else match takePaths py os st run with
        | .error n => .error n
        | .ok st' => loop py os st' rest := by
  have hr : ∀ t ∈ run, (!t.isOpt) = true := fun t ht => by rw [hrun t ht]; rfl
  have hr1 : rest.takeWhile (fun x => !x.isOpt) = [] := by
    rcases hrest with rfl | ⟨t, r, rfl⟩
    · rfl
    · rfl
  have hr2 : rest.dropWhile (fun x => !x.isOpt) = rest := by
    rcases hrest with rfl | ⟨t, r, rfl⟩
    · rfl
    · rfl
  have h1 : (run ++ rest).takeWhile (fun x => !x.isOpt) = run := by
    rw [List.takeWhile_append_of_pos hr, hr1, List.append_nil]
  have h2 : (run ++ rest).dropWhile (fun x => !x.isOpt) = rest := by
    rw [List.dropWhile_append_of_pos hr, hr2]
  cases run with
  | nil => exact absurd rfl hne
  | cons x xs =>
    have hx := hrun x (by simp)
    have hfuel : ∀ st, argLoop py os (xs ++ rest).length st rest = argLoop py os rest.length st rest :=
      fun st => argLoop_fuel _ _ _ _ (by simp) (Nat.le_refl _)
    cases x with
    | opt t => cases hx
    | arg s =>
      rw [List.cons_append] at h1 h2 ⊢
      simp only [loop, List.length_cons, argLoop, bind, Except.bind]
      rw [h1, h2, hfuel]
      split
      · rfl
      · cases takePaths py os st (ArgTok.arg s :: xs) with
        | error n => rfl
        | ok st1 => exact hfuel _
    | dashes =>
      rw [List.cons_append] at h1 h2 ⊢
      simp only [loop, List.length_cons, argLoop, bind, Except.bind]
      rw [h1, h2, hfuel]
      split
      · rfl
      · cases takePaths py os st (ArgTok.dashes :: xs) with
        | error n => rfl
        | ok st1 => exact hfuel _

theorem OccT.head {a : List ArgTok} {i : List (Opt × Str)} (h : OccT a i) : ∃ t pre, a = .opt t :: pre := by
  cases h <;> exact ⟨_, _, rfl⟩

theorem OptsT.head {a : List ArgTok} {i : List (Opt × Str)} (h : OptsT a i) : a = [] ∨ ∃ t r, a = .opt t :: r := by
  cases h with
  | nil => exact .inl rfl
  | cons h1 _ =>
    obtain ⟨t, pre, rfl⟩ := h1.head
    exact .inr ⟨t, _, rfl⟩

theorem loop_opts {py : PyFns} {os : Os} {a : List ArgTok} {i : List (Opt × Str)} (h : OptsT a i) :
    ∀ (st : ArgSt) (rest : List ArgTok), loop py os st (a ++ rest) = match takeAll py os st i with
      | .error n => .error n
      | .ok st' => loop py os st' rest := by
  induction h with
  | nil => intro st rest; rfl
  | cons h1 _ ih =>
    intro st rest
    obtain ⟨t, pre, rfl⟩ := h1.head
    rw [List.append_assoc, List.cons_append, loop_opt, consume_occ h1, takeAll_append]
    cases takeAll py os st _ with
    | error n => rfl
    | ok st1 => exact ih _ _

theorem run_span (xs : List ArgTok) : ∃ run rest, xs = run ++ rest ∧ (∀ t ∈ run, t.isOpt = false) ∧
    (rest = [] ∨ ∃ t r, rest = .opt t :: r) := by
  induction xs with
  | nil => exact ⟨[], [], rfl, by simp, .inl rfl⟩
  | cons x xs ih =>
    cases x with
    | opt t => exact ⟨[], _, rfl, by simp, .inr ⟨t, xs, rfl⟩⟩
    | arg s =>
      obtain ⟨run, rest, rfl, h1, h2⟩ := ih
      exact ⟨.arg s :: run, rest, rfl, by simpa using ⟨rfl, h1⟩, h2⟩
    | dashes =>
      obtain ⟨run, rest, rfl, h1, h2⟩ := ih
      exact ⟨.dashes :: run, rest, rfl, by simpa using ⟨rfl, h1⟩, h2⟩

theorem loop_extras {py : PyFns} {os : Os} : ∀ (n : Nat) (toks : List ArgTok) (st st' : ArgSt), toks.length ≤ n →
    loop py os st toks = .ok st' → st.extras = true → st'.extras = true := by
  intro n
  induction n with
  | zero =>
    intro toks st st' hn h he
    have : toks = [] := by simpa using hn
    subst this
    simp only [loop, argLoop, List.length_nil] at h
    split at h
    · cases h; exact he
    · rw [(takePaths_st h).1]; exact he
  | succ n ih =>
    intro toks st st' hn h he
    cases toks with
    | nil => exact ih [] st st' (by simp) h he
    | cons x xs =>
      have hrun : ∀ y, y.isOpt = false → loop py os st (y :: xs) = .ok st' → st'.extras = true := by
        intro y hy h
        obtain ⟨run, rest, rfl, h1, h2⟩ := run_span xs
        simp only [List.length_cons, List.length_append] at hn
        rw [← List.cons_append, loop_run (by simp) (by simpa using ⟨hy, h1⟩) h2] at h
        split at h
        · exact ih _ _ _ (by omega) h rfl
        · cases hp : takePaths py os st (y :: run) with
          | error n => rw [hp] at h; cases h
          | ok st1 =>
            rw [hp] at h
            exact ih _ _ _ (by omega) h ((takePaths_st hp).1.trans he)
      cases x with
      | arg s => exact hrun _ rfl h
      | dashes => exact hrun _ rfl h
      | opt t =>
        rw [loop_opt] at h
        cases hc : consumeOptional py os st t xs with
        | error n => rw [hc] at h; cases h
        | ok r =>
          rw [hc] at h
          have hl := consume_length (st' := r.1) (rest' := r.2) hc
          refine ih r.2 _ _ (by simp at hn; omega) h ?_
          rcases consume_ok (st' := r.1) (rest' := r.2) hc with ⟨h1, _⟩ | ⟨_, _, _, _, h1⟩
          · exact h1
          · exact (takeAll_st h1).1.trans he

/-- What is accepted once the paths are taken. -/
theorem loop_taken {py : PyFns} {os : Os} : ∀ (n : Nat) (toks : List ArgTok) (st st' : ArgSt), toks.length ≤ n →
    loop py os st toks = .ok st' → st'.extras = false → st.taken = true →
    ∃ items, OptsT toks items ∧ takeAll py os st items = .ok st' := by
  intro n
  induction n with
  | zero =>
    intro toks st st' hn h he ht
    have : toks = [] := by simpa using hn
    subst this
    simp only [loop, argLoop, List.length_nil, ht, if_true] at h
    cases h
    exact ⟨[], .nil, rfl⟩
  | succ n ih =>
    intro toks st st' hn h he ht
    cases toks with
    | nil => exact ih [] st st' (by simp) h he ht
    | cons x xs =>
      have hrun : ∀ y, y.isOpt = false → loop py os st (y :: xs) = .ok st' → False := by
        intro y hy h
        obtain ⟨run, rest, rfl, h1, h2⟩ := run_span xs
        rw [← List.cons_append, loop_run (by simp) (by simpa using ⟨hy, h1⟩) h2, if_pos ht] at h
        rw [loop_extras _ _ _ _ (Nat.le_refl _) h rfl] at he
        cases he
      cases x with
      | arg s => exact (hrun _ rfl h).elim
      | dashes => exact (hrun _ rfl h).elim
      | opt t =>
        rw [loop_opt] at h
        cases hc : consumeOptional py os st t xs with
        | error n => rw [hc] at h; cases h
        | ok r =>
          rw [hc] at h
          rcases consume_ok (st' := r.1) (rest' := r.2) hc with ⟨h1, _⟩ | ⟨pre, i, h1, h2, h3⟩
          · rw [loop_extras _ _ _ _ (Nat.le_refl _) h h1] at he
            cases he
          · have hl : r.2.length ≤ n := by
              have := congrArg List.length h1
              simp only [List.length_cons, List.length_append] at this hn
              omega
            obtain ⟨j, h4, h5⟩ := ih r.2 _ _ hl h he ((takeAll_st h3).2.trans ht)
            refine ⟨i ++ j, ?_, ?_⟩
            · have := OptsT.cons h2 h4
              rw [List.cons_append, ← h1] at this
              exact this
            · rw [takeAll_append, h3]
              exact h5

/-- What is accepted. -/
theorem loop_ok {py : PyFns} {os : Os} : ∀ (n : Nat) (toks : List ArgTok) (st st' : ArgSt), toks.length ≤ n →
    loop py os st toks = .ok st' → st'.extras = false → st.taken = false →
    ∃ a run b i j s1 s2, toks = a ++ run ++ b ∧ OptsT a i ∧ (∀ t ∈ run, t.isOpt = false) ∧ OptsT b j ∧
      takeAll py os st i = .ok s1 ∧ takePaths py os s1 run = .ok s2 ∧ takeAll py os s2 j = .ok st' := by
  intro n
  induction n with
  | zero =>
    intro toks st st' hn h he ht
    have : toks = [] := by simpa using hn
    subst this
    simp only [loop, argLoop, List.length_nil, ht, Bool.false_eq_true, if_false] at h
    exact ⟨[], [], [], [], [], st, st', rfl, .nil, by simp, .nil, rfl, h, rfl⟩
  | succ n ih =>
    intro toks st st' hn h he ht
    cases toks with
    | nil => exact ih [] st st' (by simp) h he ht
    | cons x xs =>
      have hrun : ∀ y, y.isOpt = false → loop py os st (y :: xs) = .ok st' →
          ∃ a run b i j s1 s2, y :: xs = a ++ run ++ b ∧ OptsT a i ∧ (∀ t ∈ run, t.isOpt = false) ∧ OptsT b j ∧
            takeAll py os st i = .ok s1 ∧ takePaths py os s1 run = .ok s2 ∧ takeAll py os s2 j = .ok st' := by
        intro y hy h
        obtain ⟨run, rest, rfl, h1, h2⟩ := run_span xs
        have h1' : ∀ t ∈ y :: run, t.isOpt = false := by simpa using ⟨hy, h1⟩
        rw [← List.cons_append, loop_run (by simp) h1' h2, if_neg (by simp [ht])] at h
        cases hp : takePaths py os st (y :: run) with
        | error n => rw [hp] at h; cases h
        | ok st1 =>
          rw [hp] at h
          obtain ⟨j, h3, h4⟩ := loop_taken _ _ _ _ (Nat.le_refl _) h he (takePaths_st hp).2
          exact ⟨[], y :: run, rest, [], j, st, st1, rfl, .nil, h1', h3, rfl, hp, h4⟩
      cases x with
      | arg s => exact hrun _ rfl h
      | dashes => exact hrun _ rfl h
      | opt t =>
        rw [loop_opt] at h
        cases hc : consumeOptional py os st t xs with
        | error n => rw [hc] at h; cases h
        | ok r =>
          rw [hc] at h
          rcases consume_ok (st' := r.1) (rest' := r.2) hc with ⟨h1, _⟩ | ⟨pre, i0, h1, h2, h3⟩
          · rw [loop_extras _ _ _ _ (Nat.le_refl _) h h1] at he
            cases he
          · have hl : r.2.length ≤ n := by
              have := congrArg List.length h1
              simp only [List.length_cons, List.length_append] at this hn
              omega
            obtain ⟨a, run, b, i, j, s1, s2, h4, h5, h6, h7, h8, h9, h10⟩ := ih r.2 _ _ hl h he ((takeAll_st h3).2.trans ht)
            refine ⟨.opt t :: pre ++ a, run, b, i0 ++ i, j, s1, s2, ?_, .cons h2 h5, h6, h7, ?_, h9, h10⟩
            · rw [h1, h4]; simp
            · rw [takeAll_append, h3]
              exact h8

/-! ## Values -/

theorem snoc_induction {α : Type} {P : List α → Prop} (h0 : P []) (h1 : ∀ xs x, P xs → P (xs ++ [x])) (l : List α) : P l := by
  have : ∀ (n : Nat) (l : List α), l.length = n → P l := by
    intro n
    induction n with
    | zero =>
      intro l hl
      have : l = [] := by simpa using hl
      rw [this]; exact h0
    | succ n ih =>
      intro l hl
      rcases List.eq_nil_or_concat l with rfl | ⟨xs, x, rfl⟩
      · cases hl
      · rw [List.concat_eq_append] at hl ⊢
        exact h1 xs x (ih xs (by simp at hl; omega))
  exact this _ _ rfl

theorem given_append (o : Opt) (xs ys : List (Opt × Str)) : given o (xs ++ ys) = given o xs ++ given o ys := by
  simp [given]

theorem given_single (o o' : Opt) (v : Str) : given o [(o', v)] = if o' = o then [v] else [] := by
  unfold given
  by_cases h : o' = o
  · subst h; simp
  · simp [h]

theorem exclusive_snoc {a b : List Str} {v : Str} : (a ++ [v] = [] ∨ b = []) ↔ b = [] := by simp

theorem directoryArg_eq {os : Os} {perms : List Perm} {b : Bool} {p d : Path} (h : directoryArg os perms b p = some d) : d = p := by
  unfold directoryArg at h
  repeat' split at h
  all_goals cases h
  all_goals rfl

theorem fileArg_eq {os : Os} {perms : List Perm} {b : Bool} {p d : Path} (h : fileArg os perms b p = some d) : d = p := by
  unfold fileArg at h
  repeat' split at h
  all_goals cases h
  all_goals rfl

theorem takeAll_valid {py : PyFns} {os : Os} (items : List (Opt × Str)) : ∀ (st : ArgSt),
    takeAll py os {} items = .ok st ↔ Valid py os items [] ∧ st = { raw := collected py items [] } := by
  refine snoc_induction (P := fun items => ∀ (st : ArgSt),
    takeAll py os {} items = .ok st ↔ Valid py os items [] ∧ st = { raw := collected py items [] }) ?_ ?_ items
  · intro st
    constructor
    · intro h
      cases h
      refine ⟨⟨rfl, rfl, ?_, ?_, ?_, .inl rfl, ?_⟩, rfl⟩ <;> intro v hv <;> cases hv
    · rintro ⟨_, rfl⟩; rfl
  · intro xs x ih st
    rw [takeAll_append]
    obtain ⟨o, v⟩ := x
    have hvalid : Valid py os (xs ++ [(o, v)]) [] → Valid py os xs [] := by
      rintro ⟨h1, h2, h3, h4, h5, h6, h7⟩
      simp only [given_append] at h1 h2 h3 h4 h5 h6
      refine ⟨(List.append_eq_nil_iff.1 h1).1, (List.append_eq_nil_iff.1 h2).1, fun v hv => h3 v (by simp [hv]),
        fun v hv => h4 v (by simp [hv]), fun v hv => h5 v (by simp [hv]), ?_, h7⟩
      rcases h6 with h | h
      · exact .inl (List.append_eq_nil_iff.1 h).1
      · exact .inr (List.append_eq_nil_iff.1 h).1
    cases hx : takeAll py os {} xs with
    | error n =>
      simp only [reduceCtorEq, false_iff, not_and]
      intro hv
      have := (ih _).2 ⟨hvalid hv, rfl⟩
      rw [hx] at this; cases this
    | ok st1 =>
      obtain ⟨hv, rfl⟩ := (ih _).1 hx
      have hm : ∀ X : Except Int ArgSt, (match X with
          | .error n => .error n
          | .ok st => takeAll py os st []) = X := by
        intro X; cases X <;> rfl
      simp only [takeAll] at hm ⊢
      rw [hm]
      obtain ⟨h1, h2, h3, h4, h5, h6, h7⟩ := hv
      have hV : Valid py os (xs ++ [(o, v)]) [] ↔ (given .help (xs ++ [(o, v)]) = [] ∧ given .version (xs ++ [(o, v)]) = [] ∧
          (∀ v' ∈ given .lineLength (xs ++ [(o, v)]), ∃ n, py.int v' = some n) ∧
          (∀ v' ∈ given .outputDirectory (xs ++ [(o, v)]), directoryArg os [.write] true (py.path v') = some (py.path v')) ∧
          (∀ v' ∈ given .outputFile (xs ++ [(o, v)]), fileArg os [.write] false (py.path v') = some (py.path v')) ∧
          (given .outputDirectory (xs ++ [(o, v)]) = [] ∨ given .outputFile (xs ++ [(o, v)]) = [])) :=
        ⟨fun ⟨a, b, c, d, e, f, _⟩ => ⟨a, b, c, d, e, f⟩, fun ⟨a, b, c, d, e, f⟩ => ⟨a, b, c, d, e, f, h7⟩⟩
      have hne : ∀ l : List Str, (l ++ [v] != []) = true := by
        intro l; cases l <;> rfl
      rw [hV]
      simp only [given_append, collected]
      cases o
      case help => simp [takeOpt, given_single]
      case version => simp [takeOpt, given_single]
      case lineLength =>
        cases hn : py.int v with
        | none =>
          simp only [takeOpt, hn, reduceCtorEq, false_iff]
          rintro ⟨⟨_, _, h, _⟩, _⟩
          obtain ⟨n, h⟩ := h v (by simp [given_single])
          rw [hn] at h; cases h
        | some n =>
          simp [takeOpt, given_single, h1, h2, h6, hn]
          exact ⟨fun h => ⟨⟨fun v' hv' => hv'.elim (h3 v') fun h => ⟨n, h ▸ hn⟩, h4, h5⟩, h.symm⟩, fun h => h.2.symm⟩
      case outputDirectory =>
        cases hd : directoryArg os [.write] true (py.path v) with
        | none =>
          simp only [takeOpt, hd, Option.isNone_none, if_true, reduceCtorEq, false_iff]
          rintro ⟨⟨_, _, _, h, _⟩, _⟩
          have := h v (by simp [given_single])
          rw [hd] at this; cases this
        | some d =>
          have hd' : d = py.path v := directoryArg_eq hd
          subst hd'
          by_cases hf : given .outputFile xs = []
          · simp [takeOpt, given_single, h1, h2, hd, hf]
            refine ⟨fun h => ⟨⟨h3, fun v' hv' => hv'.elim (h4 v') fun h => h ▸ hd⟩, h.symm⟩, fun h => h.2.symm⟩
          · simp [takeOpt, given_single, hd, hf]
      case outputFile =>
        cases hd : fileArg os [.write] false (py.path v) with
        | none =>
          simp only [takeOpt, hd, Option.isNone_none, if_true, reduceCtorEq, false_iff]
          rintro ⟨⟨_, _, _, _, h, _⟩, _⟩
          have := h v (by simp [given_single])
          rw [hd] at this; cases this
        | some d =>
          have hd' : d = py.path v := fileArg_eq hd
          subst hd'
          by_cases hf : given .outputDirectory xs = []
          · simp [takeOpt, given_single, h1, h2, hd, hf]
            refine ⟨fun h => ⟨⟨h3, fun v' hv' => hv'.elim (h5 v') fun h => h ▸ hd⟩, h.symm⟩, fun h => h.2.symm⟩
          · have : (given .outputDirectory xs).getLast?.isSome = true := by
              rw [List.getLast?_isSome]; exact hf
            simp [takeOpt, given_single, hd, hf]
      all_goals
        simp [takeOpt, given_single, h1, h2, h6, hne]
        exact ⟨fun h => ⟨⟨h3, h4, h5⟩, h.symm⟩, fun h => h.2.symm⟩

/-- Taking the paths commutes with the options. -/
theorem takeOpt_paths {py : PyFns} {os : Os} (ps : List Path) (o : Opt) (v : Str) (st : ArgSt) :
    takeOpt py os { st with raw.paths := ps, taken := true } o v = match takeOpt py os st o v with
      | .error n => .error n
      | .ok st' => .ok { st' with raw.paths := ps, taken := true } := by
  cases o <;> simp only [takeOpt]
  case lineLength => cases py.int v <;> rfl
  case outputDirectory =>
    split
    · rfl
    · split <;> rfl
  case outputFile =>
    split
    · rfl
    · split <;> rfl

theorem takeAll_paths {py : PyFns} {os : Os} (ps : List Path) (items : List (Opt × Str)) : ∀ (st : ArgSt),
    takeAll py os { st with raw.paths := ps, taken := true } items = match takeAll py os st items with
      | .error n => .error n
      | .ok st' => .ok { st' with raw.paths := ps, taken := true } := by
  induction items with
  | nil => intro st; rfl
  | cons x xs ih =>
    intro st
    simp only [takeAll, takeOpt_paths]
    cases takeOpt py os st x.1 x.2 with
    | error n => rfl
    | ok st1 => exact ih st1

theorem takePaths_eq {py : PyFns} {os : Os} {st : ArgSt} {toks : List ArgTok} : takePaths py os st toks =
    if (argsOf toks).all fun s => os.exists (py.path s) then
      .ok { st with raw.paths := (argsOf toks).map py.path, taken := true }
    else .error 2 := by
  simp only [takePaths]
  have h2 : ((argsOf toks).map py.path).any (fun p => (existingPath os [.read] p).isNone) =
      !((argsOf toks).all fun s => os.exists (py.path s)) := by
    induction argsOf toks with
    | nil => rfl
    | cons x xs ih =>
      rw [List.map_cons, List.any_cons, List.all_cons, ih]
      unfold existingPath
      cases os.exists (py.path x) <;> rfl
  rw [h2]
  cases (argsOf toks).all fun s => os.exists (py.path s) <;> rfl

/-- What a sequence of options, a run of paths and further options give. -/
theorem taken_iff {py : PyFns} {os : Os} {i j : List (Opt × Str)} {run : List ArgTok} {st' : ArgSt} :
    (∃ s1 s2, takeAll py os {} i = .ok s1 ∧ takePaths py os s1 run = .ok s2 ∧ takeAll py os s2 j = .ok st') ↔
    Valid py os (i ++ j) (argsOf run) ∧ st' = { raw := collected py (i ++ j) (argsOf run), taken := true } := by
  have hset : ∀ s : ArgSt, (∃ st, takeAll py os {} (i ++ j) = .ok st ∧ s = { st with raw.paths := (argsOf run).map py.path, taken := true }) ↔
      (Valid py os (i ++ j) [] ∧ s = { raw := collected py (i ++ j) (argsOf run), taken := true }) := by
    intro s
    constructor
    · rintro ⟨st, h1, rfl⟩
      obtain ⟨h2, rfl⟩ := (takeAll_valid _ _).1 h1
      exact ⟨h2, rfl⟩
    · rintro ⟨h1, rfl⟩
      exact ⟨_, (takeAll_valid _ _).2 ⟨h1, rfl⟩, rfl⟩
  have hpaths : Valid py os (i ++ j) (argsOf run) ↔ Valid py os (i ++ j) [] ∧ ∀ s ∈ argsOf run, os.exists (py.path s) = true :=
    ⟨fun ⟨a, b, c, d, e, f, g⟩ => ⟨⟨a, b, c, d, e, f, by simp⟩, g⟩, fun ⟨⟨a, b, c, d, e, f, _⟩, g⟩ => ⟨a, b, c, d, e, f, g⟩⟩
  rw [hpaths, and_right_comm, ← hset]
  have hx := takeAll_append (py := py) (os := os) i j (st := {})
  constructor
  · rintro ⟨s1, s2, h1, h2, h3⟩
    rw [takePaths_eq] at h2
    split at h2
    · rename_i hall
      cases h2
      rw [takeAll_paths] at h3
      rw [h1] at hx
      simp only at hx
      rw [← hx] at h3
      cases ht : takeAll py os {} (i ++ j) with
      | error n => rw [ht] at h3; cases h3
      | ok st =>
        rw [ht] at h3
        cases h3
        exact ⟨⟨st, rfl, rfl⟩, by simpa using hall⟩
    · cases h2
  · rintro ⟨⟨st, h1, rfl⟩, h2⟩
    rw [h1] at hx
    cases h3 : takeAll py os {} i with
    | error n => rw [h3] at hx; cases hx
    | ok s1 =>
      rw [h3] at hx
      simp only at hx
      refine ⟨s1, { s1 with raw.paths := (argsOf run).map py.path, taken := true }, rfl, ?_, ?_⟩
      · rw [takePaths_eq, if_pos (by simpa using h2)]
      · rw [takeAll_paths, ← hx]

/-! ## From entries to tokens -/

theorem classify_cons {py : PyFns} {s : Str} {rest : List Str} {toks : List ArgTok} :
    classify py (s :: rest) = .ok toks ↔ (s = c!"--" ∧ toks = .dashes :: rest.map .arg) ∨
      (s ≠ c!"--" ∧ ∃ ts, classify py rest = .ok ts ∧
        ((PlainArg py s ∧ toks = .arg s :: ts) ∨ ∃ t, parseOptional py s = .ok (some t) ∧ toks = .opt t :: ts)) := by
  by_cases hs : s = c!"--"
  · subst hs
    simp only [classify, beq_self_eq_true, if_true, Except.ok.injEq, true_and, ne_eq, not_true_eq_false, false_and, or_false]
    exact eq_comm
  · have hs' : (s == c!"--") = false := by simpa using hs
    simp only [classify, hs', Bool.false_eq_true, if_false, bind, Except.bind]
    cases hp : parseOptional py s with
    | error n =>
      have : ¬ PlainArg py s := fun h => by rw [po_none.2 h] at hp; cases hp
      simp [hs, this]
    | ok t =>
      cases hc : classify py rest with
      | error n => simp [hs]
      | ok ts =>
        cases t with
        | none =>
          simp only [Except.ok.injEq, hs, false_and, ne_eq, not_false_eq_true, true_and, false_or, exists_eq_left', reduceCtorEq,
            exists_false, or_false, po_none.1 hp]
          exact eq_comm
        | some t =>
          have : ¬ PlainArg py s := fun h => by rw [po_none.2 h] at hp; cases hp
          simp only [Except.ok.injEq, hs, false_and, ne_eq, not_false_eq_true, true_and, false_or, exists_eq_left', this,
            Option.some.injEq]
          exact eq_comm

theorem plain_ne {py : PyFns} {s : Str} (h : PlainArg py s) : s ≠ c!"--" := by
  rintro rfl
  rcases h with h | h | ⟨h, _⟩
  · exact h rfl
  · cases h
  · exact h ⟨.help, c!"--help", by decide, .inl ⟨List.prefix_refl _, by decide⟩⟩

theorem names_ne {s : Str} {o : Opt} (h : Names s o) : s ≠ c!"--" := by
  rintro rfl
  cases h with
  | exact h => exact (names_facts h).2.2.2.2.2 rfl
  | start h1 h2 h3 h4 =>
    have h5 := h4 .help c!"--help" (by decide) (by decide)
    have h6 := h4 .check c!"--check" (by decide) (by decide)
    rw [← h6] at h5
    cases h5

theorem classify_plain {py : PyFns} {ps : List Str} (h : ∀ p ∈ ps, PlainArg py p) {rest : List Str} {ts : List ArgTok}
    (hr : classify py rest = .ok ts) : classify py (ps ++ rest) = .ok (ps.map .arg ++ ts) := by
  induction ps with
  | nil => exact hr
  | cons p ps ih =>
    rw [List.cons_append, classify_cons]
    exact .inr ⟨plain_ne (h p (by simp)), _, ih fun q hq => h q (by simp [hq]), .inl ⟨h p (by simp), rfl⟩⟩

theorem classify_occ {py : PyFns} {a : List Str} {i : List (Opt × Str)} (h : Occ py a i) {rest : List Str} {ts : List ArgTok}
    (hr : classify py rest = .ok ts) : ∃ at', classify py (a ++ rest) = .ok (at' ++ ts) ∧ OccT at' i := by
  have key : ∀ {s : Str} {t : OptTuple} {rest : List Str} {ts : List ArgTok}, s ≠ c!"--" → parseOptional py s = .ok (some t) →
      classify py rest = .ok ts → classify py (s :: rest) = .ok (.opt t :: ts) := by
    intro s t rest ts h1 h2 h3
    exact classify_cons.2 (.inr ⟨h1, ts, h3, .inr ⟨t, h2, rfl⟩⟩)
  have hflag : ∀ {o : Opt}, o ∉ valued → o.hasArg = false := fun h => Bool.eq_false_iff.2 fun h' => h (hasArg_iff.1 h')
  cases h with
  | flag h1 h2 =>
    obtain ⟨t, h3, h4, h5⟩ := po_names py h1
    exact ⟨[.opt t], key (names_ne h1) h3 hr, .flag h4 h5 (hflag h2)⟩
  | value h1 h2 h6 =>
    rename_i s v o
    obtain ⟨t, h3, h4, h5⟩ := po_names py h1
    exact ⟨[.opt t, .arg v], key (names_ne h1) h3 (classify_plain (ps := [v]) (by simpa using h6) hr),
      .value h4 h5 (hasArg_iff.2 h2)⟩
  | equals h1 h2 =>
    rename_i s v o
    obtain ⟨t, h3, h4, h5⟩ := po_equals (v := v) py h1 h2
    refine ⟨[.opt t], key ?_ h3 hr, .equals h4 h5 (hasArg_iff.2 h2)⟩
    intro he
    have : '=' ∈ c!"--" := by rw [← he]; simp
    revert this; decide
  | letters h1 h2 =>
    rename_i cs
    have hne : '-' :: cs ≠ c!"--" := by
      intro he
      have := (letters_no_eq h2).2
      simp only [List.cons.injEq, true_and] at he
      rw [he] at this
      exact this (by simp)
    cases h2 with
    | nil => exact absurd rfl h1
    | cons h3 h4 =>
      rename_i c cs o items
      by_cases hcs : cs = []
      · subst hcs
        cases h4
        obtain ⟨t, h5, h6, h7⟩ := po_names py (.exact h3)
        exact ⟨[.opt t], key hne h5 hr, .flag h6 h7 (letter_flag h3)⟩
      · exact ⟨[.opt _], key hne (po_letters py hcs (.cons h3 h4)) hr, .letters (letter_flag h3) hcs h4⟩

theorem classify_opts {py : PyFns} {a : List Str} {i : List (Opt × Str)} (h : Opts py a i) {rest : List Str} {ts : List ArgTok}
    (hr : classify py rest = .ok ts) : ∃ at', classify py (a ++ rest) = .ok (at' ++ ts) ∧ OptsT at' i := by
  induction h with
  | nil => exact ⟨[], hr, .nil⟩
  | cons h1 _ ih =>
    obtain ⟨bt, h2, h3⟩ := ih
    obtain ⟨at', h4, h5⟩ := classify_occ h1 h2
    refine ⟨at' ++ bt, ?_, .cons h5 h3⟩
    rw [List.append_assoc, List.append_assoc]
    exact h4

/-! ## From tokens to entries -/

theorem classify_opt {py : PyFns} {argv : List Str} {t : OptTuple} {ts : List ArgTok} (h : classify py argv = .ok (.opt t :: ts)) :
    ∃ s rest, argv = s :: rest ∧ parseOptional py s = .ok (some t) ∧ classify py rest = .ok ts := by
  cases argv with
  | nil => cases h
  | cons s rest =>
    rcases classify_cons.1 h with ⟨_, h1⟩ | ⟨_, ts', h1, ⟨_, h2⟩ | ⟨t', h2, h3⟩⟩
    · cases h1
    · cases h2
    · cases h3
      exact ⟨s, rest, rfl, h2, h1⟩

theorem classify_occ_inv {py : PyFns} {argv : List Str} {a ts : List ArgTok} {i : List (Opt × Str)} (ha : OccT a i)
    (h : classify py argv = .ok (a ++ ts)) : ∃ a' rest, argv = a' ++ rest ∧ Occ py a' i ∧ classify py rest = .ok ts := by
  cases ha with
  | flag h1 h2 h3 =>
    obtain ⟨s, rest, rfl, h4, h5⟩ := classify_opt h
    refine ⟨[s], rest, rfl, ?_, h5⟩
    have hn : _ ∉ valued := fun hv => by rw [hasArg_iff.2 hv] at h3; cases h3
    rcases po_some h4 h1 with ⟨h6, _⟩ | ⟨_, _, _, _, h6, _⟩ | ⟨_, _, _, _, _, h6⟩
    · exact .flag h6 hn
    · rw [h6] at h2; cases h2
    · rw [h6] at h2; cases h2
  | value h1 h2 h3 =>
    obtain ⟨s, rest, rfl, h4, h5⟩ := classify_opt h
    rename_i t o v
    cases rest with
    | nil => cases h5
    | cons s' rest =>
      rcases classify_cons.1 h5 with ⟨_, h6⟩ | ⟨_, ts', h6, ⟨h7, h8⟩ | ⟨t', _, h7⟩⟩
      · cases h6
      · cases h8
        refine ⟨[s, v], rest, rfl, ?_, h6⟩
        rcases po_some h4 h1 with ⟨h8, _⟩ | ⟨_, _, _, _, h8, _⟩ | ⟨_, _, _, _, _, h8⟩
        · exact .value h8 (hasArg_iff.1 h3) h7
        · rw [h8] at h2; cases h2
        · rw [h8] at h2; cases h2
      · cases h7
  | equals h1 h2 h3 =>
    obtain ⟨s, rest, rfl, h4, h5⟩ := classify_opt h
    refine ⟨[s], rest, rfl, ?_, h5⟩
    rcases po_some h4 h1 with ⟨_, h6⟩ | ⟨n, v, rfl, h6, h7, _⟩ | ⟨_, _, _, _, h6, _⟩
    · rw [h6] at h2; cases h2
    · rw [h7] at h2; cases h2
      exact .equals h6 (hasArg_iff.1 h3)
    · rw [letter_flag h6] at h3; cases h3
  | letters h1 h2 h3 =>
    obtain ⟨s, rest, rfl, h4, h5⟩ := classify_opt h
    refine ⟨[s], rest, rfl, ?_, h5⟩
    rcases po_some h4 rfl with ⟨_, h6⟩ | ⟨n, v, rfl, h6, _, h7⟩ | ⟨c, cs, _, rfl, h6, h7⟩
    · cases h6
    · cases h7
    · cases h7
      exact .letters (by simp) (.cons h6 h3)

theorem classify_opts_inv {py : PyFns} {a : List ArgTok} {i : List (Opt × Str)} (ha : OptsT a i) :
    ∀ {argv : List Str} {ts : List ArgTok}, classify py argv = .ok (a ++ ts) →
      ∃ a' rest, argv = a' ++ rest ∧ Opts py a' i ∧ classify py rest = .ok ts := by
  induction ha with
  | nil => intro argv ts h; exact ⟨[], argv, rfl, .nil, h⟩
  | cons h1 _ ih =>
    intro argv ts h
    rw [List.append_assoc] at h
    obtain ⟨a', rest, rfl, h2, h3⟩ := classify_occ_inv h1 h
    obtain ⟨b', rest', rfl, h4, h5⟩ := ih h3
    exact ⟨a' ++ b', rest', by simp, .cons h2 h4, h5⟩

theorem classify_run_inv {py : PyFns} {run ts : List ArgTok} (hrun : ∀ t ∈ run, t.isOpt = false)
    (hts : ts = [] ∨ ∃ t r, ts = .opt t :: r) : ∀ {argv : List Str}, classify py argv = .ok (run ++ ts) →
      ∃ ps, (∀ p ∈ ps, PlainArg py p) ∧ ((∃ rest, argv = ps ++ rest ∧ run = ps.map .arg ∧ classify py rest = .ok ts) ∨
        ∃ qs, argv = ps ++ c!"--" :: qs ∧ run = ps.map .arg ++ .dashes :: qs.map .arg ∧ ts = []) := by
  induction run with
  | nil => intro argv h; exact ⟨[], by simp, .inl ⟨argv, rfl, rfl, h⟩⟩
  | cons x xs ih =>
    intro argv h
    cases argv with
    | nil => cases h
    | cons s rest =>
      rcases classify_cons.1 h with ⟨rfl, h1⟩ | ⟨_, ts', h1, ⟨h2, h3⟩ | ⟨t', _, h2⟩⟩
      · simp only [List.cons_append, List.cons.injEq] at h1
        obtain ⟨rfl, h1⟩ := h1
        have hts' : ts = [] := by
          rcases hts with h | ⟨t, r, rfl⟩
          · exact h
          · have : ArgTok.opt t ∈ rest.map ArgTok.arg := by rw [← h1]; simp
            simp at this
        subst hts'
        rw [List.append_nil] at h1
        exact ⟨[], by simp, .inr ⟨rest, rfl, by rw [h1]; rfl, rfl⟩⟩
      · simp only [List.cons_append, List.cons.injEq] at h3
        obtain ⟨rfl, rfl⟩ := h3
        obtain ⟨ps, h4, h5⟩ := ih (fun t ht => hrun t (by simp [ht])) h1
        refine ⟨s :: ps, by simpa using ⟨h2, h4⟩, ?_⟩
        rcases h5 with ⟨rest', rfl, rfl, h5⟩ | ⟨qs, rfl, rfl, h5⟩
        · exact .inl ⟨rest', rfl, rfl, h5⟩
        · exact .inr ⟨qs, rfl, rfl, h5⟩
      · simp only [List.cons_append, List.cons.injEq] at h2
        have := hrun x (by simp)
        rw [h2.1] at this
        cases this

theorem args_map (ps : List Str) : argsOf (ps.map .arg) = ps := by
  induction ps with
  | nil => rfl
  | cons p ps ih => simpa [argsOf] using ih

theorem args_dashes (ps qs : List Str) : argsOf (ps.map .arg ++ .dashes :: qs.map .arg) = ps ++ qs := by
  have : argsOf (ps.map .arg ++ .dashes :: qs.map .arg) = argsOf (ps.map .arg) ++ argsOf (qs.map .arg) := by
    simp [argsOf]
  rw [this, args_map, args_map]

theorem Opts.append {py : PyFns} {a b : List Str} {i j : List (Opt × Str)} (h1 : Opts py a i) (h2 : Opts py b j) :
    Opts py (a ++ b) (i ++ j) := by
  induction h1 with
  | nil => exact h2
  | cons h3 _ ih => rw [List.append_assoc, List.append_assoc]; exact .cons h3 ih

theorem line_tokens {py : PyFns} {argv ps : List Str} {items : List (Opt × Str)} (h : Line py argv items ps) :
    ∃ a run b i j, classify py argv = .ok (a ++ (run ++ b)) ∧ OptsT a i ∧ (∀ t ∈ run, t.isOpt = false) ∧ OptsT b j ∧
      (run = [] → b = []) ∧ items = i ++ j ∧ ps = argsOf run := by
  have hnil : classify py [] = .ok [] := rfl
  cases h with
  | mk h1 h2 h3 =>
    rename_i a b i j
    by_cases hps : ps = []
    · subst hps
      obtain ⟨at', h4, h5⟩ := classify_opts (h1.append h3) hnil
      exact ⟨at', [], [], i ++ j, [], by simpa using h4, h5, by simp, .nil, fun _ => rfl, by simp, rfl⟩
    · obtain ⟨bt, h4, h5⟩ := classify_opts h3 hnil
      obtain ⟨at', h7, h8⟩ := classify_opts h1 (classify_plain h2 h4)
      exact ⟨at', ps.map .arg, bt, i, j, by simpa using h7, h8, by simp [ArgTok.isOpt], h5,
        fun h => absurd (by simpa using h) hps, rfl, (args_map ps).symm⟩
  | dashes h1 h2 =>
    rename_i a ps qs
    have h4 : classify py (c!"--" :: qs) = .ok (.dashes :: qs.map .arg) := rfl
    obtain ⟨at', h7, h8⟩ := classify_opts h1 (classify_plain h2 h4)
    refine ⟨at', ps.map .arg ++ .dashes :: qs.map .arg, [], items, [], by simpa using h7, h8, ?_, .nil, fun _ => rfl, by simp,
      (args_dashes ps qs).symm⟩
    intro t ht
    simp only [List.mem_append, List.mem_cons, List.mem_map] at ht
    rcases ht with ⟨_, _, rfl⟩ | rfl | ⟨_, _, rfl⟩ <;> rfl

theorem loop_line {py : PyFns} {os : Os} {a run b : List ArgTok} {i j : List (Opt × Str)} {st : ArgSt} (ha : OptsT a i)
    (hr : ∀ t ∈ run, t.isOpt = false) (hb : OptsT b j) (hn : run = [] → b = []) :
    loop py os {} (a ++ (run ++ b)) = .ok st ↔
      ∃ s1 s2, takeAll py os {} i = .ok s1 ∧ takePaths py os s1 run = .ok s2 ∧ takeAll py os s2 j = .ok st := by
  have hend : ∀ s2 : ArgSt, s2.taken = true → loop py os s2 b = takeAll py os s2 j := by
    intro s2 ht
    rw [← List.append_nil b, loop_opts hb]
    cases h : takeAll py os s2 j with
    | error n => rfl
    | ok s3 => simp [loop, argLoop, (takeAll_st h).2, ht]
  rw [loop_opts ha]
  cases h1 : takeAll py os {} i with
  | error n => simp
  | ok s1 =>
    have htk : s1.taken = false := (takeAll_st h1).2
    have hrun : loop py os s1 (run ++ b) = match takePaths py os s1 run with
        | .error n => .error n
        | .ok s2 => loop py os s2 b := by
      by_cases hrn : run = []
      · have hbn := hn hrn
        subst hrn hbn
        simp only [loop, List.append_nil, List.length_nil, argLoop, htk, Bool.false_eq_true, if_false]
        cases h2 : takePaths py os s1 [] with
        | error n => rfl
        | ok s2 => simp [(takePaths_st h2).2]
      · rw [loop_run hrn hr hb.head, htk]
        rfl
    simp only [hrun]
    cases h2 : takePaths py os s1 run with
    | error n => simp [h2]
    | ok s2 =>
      simp only [hend s2 (takePaths_st h2).2]
      constructor
      · intro h; exact ⟨s1, s2, rfl, h2, h⟩
      · rintro ⟨s1', s2', h3, h4, h5⟩
        cases h3
        rw [h2] at h4
        cases h4
        exact h5

/-! ## C86 -/

/-- C86: what a command line of options and paths gives. -/
theorem C86_line (py : PyFns) (os : Os) (argv : List Str) (items : List (Opt × Str)) (ps : List Str) (raw : RawArgs)
    (h : Line py argv items ps) :
    parseArgv py os argv = .ok raw ↔ Valid py os items ps ∧ raw = collected py items ps := by
  obtain ⟨a, run, b, i, j, hc, ha, hr, hb, hn, rfl, rfl⟩ := line_tokens h
  have key := fun st => loop_line (py := py) (os := os) (st := st) ha hr hb hn
  simp only [taken_iff] at key
  simp only [parseArgv, hc, bind, Except.bind]
  unfold loop at key
  cases hl : argLoop py os (a ++ (run ++ b)).length {} (a ++ (run ++ b)) with
  | error n =>
    simp only [reduceCtorEq, false_iff]
    rintro ⟨h1, _⟩
    have := (key _).2 ⟨h1, rfl⟩
    rw [hl] at this
    cases this
  | ok st =>
    obtain ⟨h1, rfl⟩ := (key st).1 hl
    simp only [Bool.false_eq_true, if_false, Except.ok.injEq, h1, true_and]
    exact eq_comm

/-- C86: a command line is accepted exactly if it is made of options and paths as specified and the values are acceptable; then
the collected values are the specified ones. -/
theorem C86_accepted (py : PyFns) (os : Os) (argv : List Str) (raw : RawArgs) :
    parseArgv py os argv = .ok raw ↔
      ∃ items ps, Line py argv items ps ∧ Valid py os items ps ∧ raw = collected py items ps := by
  constructor
  · intro h
    simp only [parseArgv, bind, Except.bind] at h
    cases hc : classify py argv with
    | error n => rw [hc] at h; cases h
    | ok toks =>
      rw [hc] at h
      simp only at h
      cases hl : argLoop py os toks.length {} toks with
      | error n => rw [hl] at h; cases h
      | ok st =>
        rw [hl] at h
        simp only at h
        split at h
        · cases h
        · rename_i he
          cases h
          have he : st.extras = false := by simpa using he
          obtain ⟨a, run, b, i, j, s1, s2, rfl, h1, h2, h3, h4, h5, h6⟩ := loop_ok _ _ _ _ (Nat.le_refl _) hl he rfl
          obtain ⟨h7, h8⟩ := taken_iff.1 ⟨s1, s2, h4, h5, h6⟩
          rw [h8]
          rw [List.append_assoc] at hc
          obtain ⟨a', rest, rfl, h9, h10⟩ := classify_opts_inv h1 hc
          obtain ⟨ps, h11, ⟨rest', rfl, rfl, h12⟩ | ⟨qs, rfl, rfl, h12⟩⟩ := classify_run_inv h2 h3.head h10
          · rw [← List.append_nil b] at h12
            obtain ⟨b', rest, rfl, h13, h14⟩ := classify_opts_inv h3 h12
            have : rest = [] := by
              cases rest with
              | nil => rfl
              | cons s r =>
                rcases classify_cons.1 h14 with ⟨_, h⟩ | ⟨_, _, _, ⟨_, h⟩ | ⟨_, _, h⟩⟩ <;> cases h
            subst this
            rw [args_map] at h7 ⊢
            refine ⟨i ++ j, ps, ?_, h7, rfl⟩
            have := Line.mk h9 h11 h13
            simpa using this
          · subst h12
            have : j = [] := by
              generalize hb : ([] : List ArgTok) = b at h3
              cases h3 with
              | nil => rfl
              | cons h _ => obtain ⟨t, pre, rfl⟩ := h.head; cases hb
            subst this
            rw [args_dashes, List.append_nil] at h7 ⊢
            exact ⟨i, ps ++ qs, by simpa using Line.dashes h9 h11, h7, rfl⟩
  · rintro ⟨items, ps, hline, h⟩
    exact (C86_line py os argv items ps raw hline).2 h

/-- C86, consequence: only the order of values of the same option matters. -/
theorem C86_order (py : PyFns) (os : Os) (argv argv' : List Str) (items items' : List (Opt × Str)) (ps : List Str) (raw : RawArgs)
    (h : Line py argv items ps) (h' : Line py argv' items' ps) (hsame : ∀ o, given o items = given o items') :
    parseArgv py os argv = .ok raw ↔ parseArgv py os argv' = .ok raw := by
  rw [C86_line py os argv items ps raw h, C86_line py os argv' items' ps raw h']
  have h1 : collected py items ps = collected py items' ps := by simp only [collected, hsame]
  have h2 : Valid py os items ps ↔ Valid py os items' ps := by
    constructor <;> rintro ⟨a, b, c, d, e, f, g⟩
    · simp only [hsame] at a b c d e f
      exact ⟨a, b, c, d, e, f, g⟩
    · simp only [← hsame] at a b c d e f
      exact ⟨a, b, c, d, e, f, g⟩
  rw [h1, h2]

deriving instance DecidableEq for RawArgs

/-- A world for examples: every path exists and is a file, except `d` which is a directory; all is permitted. -/
def exOs : Os where
  isFile p := p != [c!"d"]
  isDir p := p == [c!"d"]
  isOther _ := false
  access _ _ := true
  glob _ := []

def exPy : PyFns where
  digit c := c.isDigit
  int s :=
    let num := fun ds : Str =>
      if ds.isEmpty || ds.any (fun c => !c.isDigit) then none else some (ds.foldl (fun n c => 10 * n + (c.toNat - 48)) (0 : Nat))
    match s with
    | '-' :: ds => (num ds).map fun n => -(n : Int)
    | ds => (num ds).map fun n => (n : Int)
  path s := [s]

/-- C86: options around the paths, abbreviations, values behind `=`, letters together, a path that looks like a number; and `--`. -/
theorem C86_example :
    Line exPy [c!"-vvq", c!"--li=60", c!"a.md", c!"-5", c!"--output-file", c!"x", c!"--check", c!"--output-file=-y"]
      [(.verbose, []), (.verbose, []), (.quiet, []), (.lineLength, c!"60"), (.outputFile, c!"x"), (.check, []), (.outputFile, c!"-y")]
      [c!"a.md", c!"-5"] ∧
    parseArgv exPy exOs
      [c!"-vvq", c!"--li=60", c!"a.md", c!"-5", c!"--output-file", c!"x", c!"--check", c!"--output-file=-y"] =
      .ok { lineLength := 60, paths := [[c!"a.md"], [c!"-5"]], check := true, verbose := 2, quiet := 1,
            outputFiles := [[c!"x"], [c!"-y"]] } ∧
    parseArgv exPy exOs [c!"--output-dir", c!"d", c!"-q", c!"a", c!"--", c!"-v", c!"--"] =
      .ok { paths := [[c!"a"], [c!"-v"], [c!"--"]], quiet := 1, outputDirectory := some [c!"d"] } := by
  refine ⟨?_, by decide +kernel, by decide +kernel⟩
  have hplain : ∀ s : Str, s.head? ≠ some '-' → PlainArg exPy s := fun s h => .inl h
  have h1 : Occ exPy [c!"-vvq"] [(.verbose, []), (.verbose, []), (.quiet, [])] :=
    .letters (by decide) (.cons (by decide) (.cons (by decide) (.cons (by decide) .nil)))
  have h2 : Occ exPy [c!"--li=60"] [(.lineLength, c!"60")] := by
    refine .equals (s := c!"--li") (.start (x := c!"--line-length") (by decide) (by decide) (by decide) ?_) (by decide)
    intro o y
    cases o <;> simp only [Opt.names, List.mem_cons, List.not_mem_nil, or_false]
    all_goals first | (rintro rfl; decide) | (rintro (rfl | rfl) <;> decide)
  have h3 : Occ exPy [c!"--output-file", c!"x"] [(.outputFile, c!"x")] :=
    .value (.exact (by decide)) (by decide) (hplain _ (by decide))
  have h4 : Occ exPy [c!"--check"] [(.check, [])] := .flag (.exact (by decide)) (by decide)
  have h5 : Occ exPy [c!"--output-file=-y"] [(.outputFile, c!"-y")] :=
    .equals (s := c!"--output-file") (v := c!"-y") (.exact (by decide)) (by decide)
  refine .mk (a := [c!"-vvq", c!"--li=60"]) (ps := [c!"a.md", c!"-5"])
    (b := [c!"--output-file", c!"x", c!"--check", c!"--output-file=-y"])
    (i := [(.verbose, []), (.verbose, []), (.quiet, []), (.lineLength, c!"60")])
    (.cons h1 (.cons h2 .nil)) ?_ (.cons h3 (.cons h4 (.cons h5 .nil)))
  intro p hp
  simp only [List.mem_cons, List.not_mem_nil, or_false] at hp
  rcases hp with rfl | rfl
  · exact hplain _ (by decide)
  · exact po_none.1 (by decide +kernel)

/-! ## C87 -/

/-- An entry that may mean several options. -/
def Ambiguous (s : Str) : Prop :=
  c!"--" <+: s ∧ (∀ o, s.takeWhile (· != '=') ∉ Opt.names o) ∧
    ∃ x y o o', x ∈ Opt.names o ∧ y ∈ Opt.names o' ∧ x ≠ y ∧ s.takeWhile (· != '=') <+: x ∧ s.takeWhile (· != '=') <+: y

theorem filter_two {α : Type} {p : α → Bool} {l : List α} (hn : l.Nodup) :
    (∃ a b r, l.filter p = a :: b :: r) ↔ ∃ a ∈ l, ∃ b ∈ l, a ≠ b ∧ p a = true ∧ p b = true := by
  have hn' : (l.filter p).Nodup := hn.filter _
  constructor
  · rintro ⟨a, b, r, h⟩
    have ha : a ∈ l.filter p := by rw [h]; simp
    have hb : b ∈ l.filter p := by rw [h]; simp
    rw [List.mem_filter] at ha hb
    rw [h] at hn'
    refine ⟨a, ha.1, b, hb.1, ?_, ha.2, hb.2⟩
    rintro rfl
    simp at hn'
  · rintro ⟨a, ha, b, hb, hne, hpa, hpb⟩
    have ha' : a ∈ l.filter p := List.mem_filter.2 ⟨ha, hpa⟩
    have hb' : b ∈ l.filter p := List.mem_filter.2 ⟨hb, hpb⟩
    match l.filter p, ha', hb' with
    | [x], ha', hb' =>
      rw [List.mem_singleton] at ha' hb'
      exact absurd (ha'.trans hb'.symm) hne
    | x :: y :: r, _, _ => exact ⟨x, y, r, rfl⟩

theorem po_error {py : PyFns} {s : Str} {n : Int} : parseOptional py s = .error n ↔ n = 2 ∧ Ambiguous s := by
  have hno : ¬ c!"--" <+: s → (∀ n : Int, parseOptional py s ≠ .error n) →
      (parseOptional py s = .error n ↔ n = 2 ∧ Ambiguous s) :=
    fun h1 h2 => ⟨fun h => absurd h (h2 n), fun h => absurd h.2.1 h1⟩
  rcases shapes s with h | rfl | ⟨r, rfl⟩ | ⟨c, hc, rfl⟩ | ⟨c, cs, hc, hcs, rfl⟩
  · refine hno ?_ ?_
    · rintro ⟨t, rfl⟩; exact h rfl
    · intro n hn; rw [po_head py h] at hn; cases hn
  · exact hno (by decide) (fun n hn => by cases hn)
  · cases hp : partitionEq ('-' :: '-' :: r) with
    | mk nm v =>
      have hnm : ('-' :: '-' :: r).takeWhile (· != '=') = nm := congrArg Prod.fst hp
      rw [po_long py hp]
      unfold Ambiguous
      rw [hnm]
      have hdd : c!"--" <+: '-' :: '-' :: r := ⟨r, rfl⟩
      cases hf : findOpt nm with
      | some o =>
        simp only [reduceCtorEq, false_iff]
        rintro ⟨_, _, h, _⟩
        exact h o (findOpt_eq.1 hf)
      | none =>
        simp only
        have h2 := filter_two (p := fun x : Str × Opt => startsWith x.1 nm) (l := optStrings) (by decide +kernel)
        have h3 : (∃ a ∈ optStrings, ∃ b ∈ optStrings, a ≠ b ∧ startsWith a.1 nm = true ∧ startsWith b.1 nm = true) ↔
            ∃ x y o o', x ∈ Opt.names o ∧ y ∈ Opt.names o' ∧ x ≠ y ∧ nm <+: x ∧ nm <+: y := by
          constructor
          · rintro ⟨a, ha, b, hb, hne, h4, h5⟩
            refine ⟨a.1, b.1, a.2, b.2, mem_names.2 ha, mem_names.2 hb, ?_, startsWith_eq.1 h4, startsWith_eq.1 h5⟩
            intro he
            have : a.2 = b.2 := names_inj (mem_names.2 ha) (he ▸ mem_names.2 hb)
            exact hne (Prod.ext he this)
          · rintro ⟨x, y, o, o', hx, hy, hne, h4, h5⟩
            exact ⟨(x, o), mem_names.1 hx, (y, o'), mem_names.1 hy, fun he => hne (congrArg Prod.fst he), startsWith_eq.2 h4,
              startsWith_eq.2 h5⟩
        rw [← h3, ← h2]
        cases hl : optStrings.filter fun x => startsWith x.1 nm with
        | nil => simp [noOption_error]
        | cons x l =>
          cases l with
          | nil => simp
          | cons y l =>
            simp only [Except.error.injEq, List.cons.injEq, exists_and_left]
            constructor
            · rintro rfl
              exact ⟨rfl, hdd, findOpt_none.1 hf, x, rfl, y, rfl, l, rfl⟩
            · exact fun h => h.1.symm
  · refine hno ?_ ?_
    · rintro ⟨t, ht⟩
      simp only [List.cons_append, List.nil_append, List.cons.injEq] at ht
      exact hc ht.2.1.symm
    · intro n hn
      rw [po_two py hc] at hn
      split at hn
      · cases hn
      · exact noOption_error hn
  · refine hno ?_ ?_
    · rintro ⟨t, ht⟩
      simp only [List.cons_append, List.nil_append, List.cons.injEq] at ht
      exact hc ht.2.1.symm
    · intro n hn
      rw [po_short py hc hcs] at hn
      split at hn
      · split at hn <;> cases hn
      · exact noOption_error hn

theorem takeOpt_error {py : PyFns} {os : Os} {st : ArgSt} {o : Opt} {v : Str} {n : Int} (h : takeOpt py os st o v = .error n) :
    n = 2 ∨ (n = 0 ∧ (o = .help ∨ o = .version)) := by
  cases o <;> simp only [takeOpt] at h
  case help => cases h; exact .inr ⟨rfl, .inl rfl⟩
  case version => cases h; exact .inr ⟨rfl, .inr rfl⟩
  case lineLength => split at h <;> cases h; exact .inl rfl
  case outputDirectory =>
    split at h
    · cases h; exact .inl rfl
    · split at h <;> cases h; exact .inl rfl
  case outputFile =>
    split at h
    · cases h; exact .inl rfl
    · split at h <;> cases h; exact .inl rfl
  all_goals cases h

theorem takeAll_error {py : PyFns} {os : Os} {items : List (Opt × Str)} {n : Int} : ∀ {st : ArgSt},
    takeAll py os st items = .error n → n = 2 ∨ (n = 0 ∧ ∃ x ∈ items, x.1 = .help ∨ x.1 = .version) := by
  induction items with
  | nil => intro st h; cases h
  | cons x xs ih =>
    intro st h
    simp only [takeAll] at h
    cases hx : takeOpt py os st x.1 x.2 with
    | error m =>
      rw [hx] at h
      cases h
      rcases takeOpt_error hx with h | ⟨h, h'⟩
      · exact .inl h
      · exact .inr ⟨h, x, by simp, h'⟩
    | ok st1 =>
      rw [hx] at h
      rcases ih h with h | ⟨h, y, hy, h'⟩
      · exact .inl h
      · exact .inr ⟨h, y, by simp [hy], h'⟩

theorem cluster_error {short : Bool} {n : Int} {s : Str} : ∀ {sep : Bool} {o : Opt}, cluster short o sep s = .error n → n = 2 := by
  induction s with
  | nil =>
    intro sep o h
    simp only [cluster] at h
    split at h
    · cases h
    · cases h; rfl
  | cons c cs ih =>
    intro sep o h
    rw [cluster] at h
    split at h
    · cases h
    · split at h
      · cases h; rfl
      · split at h
        · cases h; rfl
        · split at h
          · cases h
          · cases cs with
            | nil => cases h
            | cons d ds =>
              rename_i o' _
              simp only [bind, Except.bind] at h
              by_cases hd : (d == '=') = true
              · rw [if_pos hd] at h
                by_cases ho : o'.hasArg = true
                · rw [cluster_arg ho] at h; cases h
                · rw [cluster_sep (by simpa using ho)] at h; cases h; rfl
              · rw [if_neg hd] at h
                cases hc : cluster short o' false (d :: ds) with
                | error m => rw [hc] at h; cases h; exact ih hc
                | ok r => rw [hc] at h; cases h

theorem cluster_mem {short : Bool} {s : Str} : ∀ {sep : Bool} {o : Opt} {r : List Opt × Last}, o.hasArg = false →
    cluster short o sep s = .ok r → ∀ x, (x ∈ r.1 ∨ r.2 = .next x) → x = o ∨ ∃ c ∈ s, ['-', c] ∈ x.names := by
  induction s with
  | nil => intro sep o r ho h; simp [cluster, ho] at h
  | cons c cs ih =>
    intro sep o r ho h x hx
    obtain ⟨rfl, rfl, _⟩ := cluster_ok ho h
    rw [cluster] at h
    simp only [ho, Bool.false_eq_true, if_false, Bool.false_or, Bool.not_true] at h
    split at h
    · cases h
    · cases hf : findOpt ['-', c] with
      | none =>
        rw [hf] at h; cases h
        rcases hx with hx | hx
        · exact .inl (List.mem_singleton.1 hx)
        · cases hx
      | some o' =>
        rw [hf] at h
        have h1 := findOpt_eq.1 hf
        cases cs with
        | nil =>
          cases h
          rcases hx with hx | hx
          · exact .inl (List.mem_singleton.1 hx)
          · cases hx; exact .inr ⟨c, by simp, h1⟩
        | cons d ds =>
          simp only [bind, Except.bind] at h
          by_cases hd : (d == '=') = true
          · rw [if_pos hd, cluster_sep (letter_flag h1)] at h; cases h
          · rw [if_neg hd] at h
            cases hc : cluster true o' false (d :: ds) with
            | error n => rw [hc] at h; cases h
            | ok r' =>
              rw [hc] at h
              cases h
              have hrec : x ∈ r'.1 ∨ r'.2 = .next x → x = o ∨ ∃ e ∈ c :: d :: ds, ['-', e] ∈ x.names := by
                intro h
                rcases ih (letter_flag h1) hc x h with rfl | ⟨e, he, h⟩
                · exact .inr ⟨c, by simp, h1⟩
                · exact .inr ⟨e, by simp [he], h⟩
              rcases hx with hx | hx
              · rcases List.mem_cons.1 hx with rfl | hx
                · exact .inl rfl
                · exact hrec (.inl hx)
              · exact hrec (.inr hx)

/-- A token at which the program can end with status 0. -/
def TokAsks (t : OptTuple) : Prop :=
  ∃ o, t.opt = some o ∧ ((t.arg = none ∧ (o = .help ∨ o = .version)) ∨
    (t.short = true ∧ t.sep = false ∧ o.hasArg = false ∧ ∃ cs, t.arg = some cs ∧ ∃ x, (x = .help ∨ x = .version) ∧
      (x = o ∨ ∃ c ∈ cs, ['-', c] ∈ x.names)))

theorem consume_error {py : PyFns} {os : Os} {st : ArgSt} {t : OptTuple} {rest : List ArgTok} {n : Int}
    (h : consumeOptional py os st t rest = .error n) : n = 2 ∨ (n = 0 ∧ TokAsks t) := by
  obtain ⟨to, tshort, tsep, targ⟩ := t
  cases to with
  | none => cases h
  | some o =>
    cases targ with
    | none =>
      by_cases ho : o.hasArg = true
      · simp only [consumeOptional, takeNext, ho, if_true] at h
        cases rest with
        | nil => cases h; exact .inl rfl
        | cons x rest0 =>
          cases x with
          | dashes => cases h; exact .inl rfl
          | opt t => cases h; exact .inl rfl
          | arg v =>
            simp only [takeOpts, bind, Except.bind] at h
            cases hx : takeOpt py os st o v with
            | error m =>
              rw [hx] at h
              cases h
              rcases takeOpt_error hx with h | ⟨h, h'⟩
              · exact .inl h
              · exact .inr ⟨h, o, rfl, .inl ⟨rfl, h'⟩⟩
            | ok st1 => rw [hx] at h; cases h
      · have ho : o.hasArg = false := by simpa using ho
        simp only [consumeOptional, takeNext, ho, Bool.false_eq_true, if_false, List.nil_append, bind, Except.bind, takeOpts_eq] at h
        cases hx : takeAll py os st ([o].map fun o => (o, [])) with
        | error m =>
          rw [hx] at h
          cases h
          rcases takeAll_error hx with h | ⟨h, x, hx, h'⟩
          · exact .inl h
          · simp only [List.map_cons, List.map_nil, List.mem_singleton] at hx
            subst hx
            exact .inr ⟨h, o, rfl, .inl ⟨rfl, h'⟩⟩
        | ok st1 => rw [hx] at h; cases h
    | some arg =>
      by_cases ho : o.hasArg = true
      · simp only [consumeOptional, cluster_arg ho, takeOpts, bind, Except.bind] at h
        cases hx : takeOpt py os st o arg with
        | error m =>
          rw [hx] at h
          cases h
          rcases takeOpt_error hx with h | ⟨h, h'⟩
          · exact .inl h
          · rcases h' with rfl | rfl <;> cases ho
        | ok st1 => rw [hx] at h; cases h
      · have ho : o.hasArg = false := by simpa using ho
        simp only [consumeOptional, bind, Except.bind] at h
        cases hc : cluster tshort o tsep arg with
        | error m => rw [hc] at h; cases h; exact .inl (cluster_error hc)
        | ok r =>
          rw [hc] at h
          have hmem := cluster_mem ho hc
          obtain ⟨rfl, rfl, h3 | ⟨last, items, h3, h4, h5, h6⟩⟩ := cluster_ok ho hc
          · simp only [h3] at h
            rw [takeOpts_eq] at h
            cases hx : takeAll py os st (r.1.map fun o => (o, [])) with
            | error m =>
              rw [hx] at h
              cases h
              rcases takeAll_error hx with h | ⟨h, x, hx, h'⟩
              · exact .inl h
              · obtain ⟨y, hy, rfl⟩ := List.mem_map.1 hx
                exact .inr ⟨h, o, rfl, .inr ⟨rfl, rfl, ho, arg, rfl, y, h', hmem y (.inl hy)⟩⟩
            | ok st1 => rw [hx] at h; cases h
          · simp only [h3, takeNext, h4, Bool.false_eq_true, if_false, bind, Except.bind, takeOpts_eq] at h
            cases hx : takeAll py os st ((r.1 ++ [last]).map fun o => (o, [])) with
            | error m =>
              rw [hx] at h
              cases h
              rcases takeAll_error hx with h | ⟨h, x, hx, h'⟩
              · exact .inl h
              · obtain ⟨y, hy, rfl⟩ := List.mem_map.1 hx
                refine .inr ⟨h, o, rfl, .inr ⟨rfl, rfl, ho, arg, rfl, y, h', hmem y ?_⟩⟩
                rcases List.mem_append.1 hy with hy | hy
                · exact .inl hy
                · rw [List.mem_singleton.1 hy]; exact .inr h3
            | ok st1 => rw [hx] at h; cases h

theorem takePaths_error {py : PyFns} {os : Os} {st : ArgSt} {toks : List ArgTok} {n : Int} (h : takePaths py os st toks = .error n) :
    n = 2 := by
  rw [takePaths_eq] at h
  split at h <;> cases h
  rfl

theorem argLoop_error {py : PyFns} {os : Os} {n : Int} : ∀ (f : Nat) (toks : List ArgTok) (st : ArgSt),
    argLoop py os f st toks = .error n → n = 2 ∨ (n = 0 ∧ ∃ t, ArgTok.opt t ∈ toks ∧ TokAsks t) := by
  intro f
  induction f with
  | zero =>
    intro toks st h
    cases toks with
    | nil =>
      simp only [argLoop] at h
      split at h
      · cases h
      · exact .inl (takePaths_error h)
    | cons x xs => cases h; exact .inl rfl
  | succ f ih =>
    intro toks st h
    have hsub : ∀ {a b : List ArgTok}, a.Sublist b → (n = 2 ∨ (n = 0 ∧ ∃ t, ArgTok.opt t ∈ a ∧ TokAsks t)) →
        (n = 2 ∨ (n = 0 ∧ ∃ t, ArgTok.opt t ∈ b ∧ TokAsks t)) := by
      rintro a b hs (h | ⟨h, t, h1, h2⟩)
      · exact .inl h
      · exact .inr ⟨h, t, hs.subset h1, h2⟩
    cases toks with
    | nil =>
      simp only [argLoop] at h
      split at h
      · cases h
      · exact .inl (takePaths_error h)
    | cons x xs =>
      cases x with
      | opt t =>
        simp only [argLoop, bind, Except.bind] at h
        cases hc : consumeOptional py os st t xs with
        | error m =>
          rw [hc] at h
          cases h
          rcases consume_error hc with h | ⟨h, h'⟩
          · exact .inl h
          · exact .inr ⟨h, t, by simp, h'⟩
        | ok r =>
          rw [hc] at h
          have hr : r.2.Sublist xs := by
            rcases consume_ok (st' := r.1) (rest' := r.2) hc with ⟨_, _, h⟩ | ⟨pre, _, h, _⟩
            · rw [h]; exact List.Sublist.refl _
            · rw [h]; exact List.sublist_append_right _ _
          exact hsub (hr.trans (List.sublist_cons_self _ _)) (ih _ _ h)
      | arg s =>
        simp only [argLoop, bind, Except.bind] at h
        split at h
        · exact hsub (List.dropWhile_sublist _) (ih _ _ h)
        · cases hp : takePaths py os st ((ArgTok.arg s :: xs).takeWhile fun y => !y.isOpt) with
          | error m => rw [hp] at h; cases h; exact .inl (takePaths_error hp)
          | ok st1 => rw [hp] at h; exact hsub (List.dropWhile_sublist _) (ih _ _ h)
      | dashes =>
        simp only [argLoop, bind, Except.bind] at h
        split at h
        · exact hsub (List.dropWhile_sublist _) (ih _ _ h)
        · cases hp : takePaths py os st ((ArgTok.dashes :: xs).takeWhile fun y => !y.isOpt) with
          | error m => rw [hp] at h; cases h; exact .inl (takePaths_error hp)
          | ok st1 => rw [hp] at h; exact hsub (List.dropWhile_sublist _) (ih _ _ h)

theorem classify_mem {py : PyFns} {t : OptTuple} : ∀ {argv : List Str} {toks : List ArgTok}, classify py argv = .ok toks →
    ArgTok.opt t ∈ toks → ∃ s ∈ argv, parseOptional py s = .ok (some t) := by
  intro argv
  induction argv with
  | nil => intro toks h ht; cases h; cases ht
  | cons s rest ih =>
    intro toks h ht
    rcases classify_cons.1 h with ⟨_, rfl⟩ | ⟨_, ts, h1, h2⟩
    · simp at ht
    · have hts : ArgTok.opt t ∈ ts → ∃ s' ∈ s :: rest, parseOptional py s' = .ok (some t) := by
        intro ht
        obtain ⟨s', hs', h3⟩ := ih h1 ht
        exact ⟨s', by simp [hs'], h3⟩
      rcases h2 with ⟨_, rfl⟩ | ⟨t', h2, rfl⟩
      · rcases List.mem_cons.1 ht with ht | ht
        · cases ht
        · exact hts ht
      · rcases List.mem_cons.1 ht with ht | ht
        · cases ht; exact ⟨s, by simp, h2⟩
        · exact hts ht

theorem classify_error {py : PyFns} {n : Int} : ∀ {argv : List Str}, classify py argv = .error n → n = 2 := by
  intro argv
  induction argv with
  | nil => intro h; cases h
  | cons s rest ih =>
    intro h
    simp only [classify, bind, Except.bind] at h
    split at h
    · cases h
    · cases hp : parseOptional py s with
      | error m => rw [hp] at h; cases h; exact (po_error.1 hp).1
      | ok t =>
        rw [hp] at h
        cases hc : classify py rest with
        | error m => rw [hc] at h; cases h; exact ih hc
        | ok ts => rw [hc] at h; cases h

/-- C87: what is refused ends with status 2; status 0 is only for `--help` and `--version`, or `-h`, also written together with
other letters. -/
theorem C87_status (py : PyFns) (os : Os) (argv : List Str) (n : Int) (h : parseArgv py os argv = .error n) :
    n = 2 ∨ (n = 0 ∧ ∃ s ∈ argv, Names s .help ∨ Names s .version ∨ ∃ cs, s = '-' :: cs ∧ 'h' ∈ cs ∧ cs.head? ≠ some '-') := by
  simp only [parseArgv, bind, Except.bind] at h
  cases hc : classify py argv with
  | error m => rw [hc] at h; cases h; exact .inl (classify_error hc)
  | ok toks =>
    rw [hc] at h
    simp only at h
    cases hl : argLoop py os toks.length {} toks with
    | ok st =>
      rw [hl] at h
      simp only at h
      split at h <;> cases h
      exact .inl rfl
    | error m =>
      rw [hl] at h
      cases h
      rcases argLoop_error _ _ _ hl with h | ⟨h, t, ht, hasks⟩
      · exact .inl h
      · obtain ⟨s, hs, hp⟩ := classify_mem hc ht
        refine .inr ⟨h, s, hs, ?_⟩
        obtain ⟨o, ho, ⟨h1, h2⟩ | ⟨h1, h2, _, cs, h3, x, h4, h5⟩⟩ := hasks
        · rcases po_some hp ho with ⟨h6, _⟩ | ⟨_, _, _, _, h6, _⟩ | ⟨_, _, _, _, _, h6⟩
          · rcases h2 with rfl | rfl
            · exact .inl h6
            · exact .inr (.inl h6)
          · rw [h6] at h1; cases h1
          · rw [h6] at h1; cases h1
        · rcases po_some hp ho with ⟨_, h6⟩ | ⟨_, _, _, _, _, h6⟩ | ⟨c, cs', _, h6, h7, h8⟩
          · rw [h6] at h3; cases h3
          · rw [h6] at h2; cases h2
          · rw [h8] at h3
            cases h3
            have hlet : ∀ d, ['-', d] ∈ x.names → d = 'h' := by
              intro d hd
              rcases h4 with rfl | rfl
              · simpa [Opt.names] using hd
              · simp [Opt.names] at hd
            refine .inr (.inr ⟨c :: cs, h6, ?_, ?_⟩)
            · rcases h5 with rfl | ⟨d, hd, h9⟩
              · rw [hlet c h7]; simp
              · rw [← hlet d h9]; simp [hd]
            · intro hc
              simp only [List.head?_cons, Option.some.injEq] at hc
              subst hc
              exact (names_facts h7).2.2.2.2.2 rfl

theorem classify_total {py : PyFns} : ∀ {rest : List Str}, (∀ q ∈ rest.takeWhile (· != c!"--"), ¬ Ambiguous q) →
    ∃ ts, classify py rest = .ok ts := by
  intro rest
  induction rest with
  | nil => intro _; exact ⟨[], rfl⟩
  | cons s rest ih =>
    intro h
    by_cases hs : s = c!"--"
    · exact ⟨_, classify_cons.2 (.inl ⟨hs, rfl⟩)⟩
    · have hw : (s :: rest).takeWhile (· != c!"--") = s :: rest.takeWhile (· != c!"--") := by
        rw [List.takeWhile_cons, if_pos (by simpa using hs)]
      rw [hw] at h
      obtain ⟨ts, hts⟩ := ih fun q hq => h q (by simp [hq])
      cases hp : parseOptional py s with
      | error n => exact absurd (po_error.1 hp).2 (h s (by simp))
      | ok t =>
        cases t with
        | none => exact ⟨_, classify_cons.2 (.inr ⟨hs, ts, hts, .inl ⟨po_none.1 hp, rfl⟩⟩)⟩
        | some t => exact ⟨_, classify_cons.2 (.inr ⟨hs, ts, hts, .inr ⟨t, hp, rfl⟩⟩)⟩

theorem classify_rest {py : PyFns} {rest : List Str} : ∀ {a : List Str} {toks : List ArgTok}, (∀ s ∈ a, s ≠ c!"--") →
    classify py (a ++ rest) = .ok toks → ∃ ts, classify py rest = .ok ts := by
  intro a
  induction a with
  | nil => intro toks _ h; exact ⟨_, h⟩
  | cons s a ih =>
    intro toks ha h
    rw [List.cons_append] at h
    rcases classify_cons.1 h with ⟨h1, _⟩ | ⟨_, ts, h1, _⟩
    · exact absurd h1 (ha s (by simp))
    · exact ih (fun q hq => ha q (by simp [hq])) h1

theorem Occ.ne {py : PyFns} {a : List Str} {i : List (Opt × Str)} (h : Occ py a i) : (∀ s ∈ a, s ≠ c!"--") ∧ i ≠ [] := by
  cases h with
  | flag h1 h2 => exact ⟨by simpa using names_ne h1, by simp⟩
  | value h1 h2 h3 => exact ⟨by simpa using ⟨names_ne h1, plain_ne h3⟩, by simp⟩
  | equals h1 h2 =>
    refine ⟨?_, by simp⟩
    intro s hs
    rw [List.mem_singleton] at hs
    intro h
    have : '=' ∈ c!"--" := by rw [← h, hs]; simp
    exact absurd this (by decide)
  | letters h1 h2 =>
    rename_i cs
    refine ⟨?_, ?_⟩
    · intro s hs
      rw [List.mem_singleton] at hs
      intro h
      rw [hs] at h
      cases h
      exact (letters_no_eq h2).2 (by simp)
    · rintro rfl
      generalize hi : ([] : List (Opt × Str)) = i at h2
      cases h2 with
      | nil => exact h1 rfl
      | cons => cases hi

theorem Opts.ne {py : PyFns} {a : List Str} {i : List (Opt × Str)} (h : Opts py a i) :
    (∀ s ∈ a, s ≠ c!"--") ∧ (a ≠ [] → i ≠ []) := by
  induction h with
  | nil => exact ⟨by simp, fun h => absurd rfl h⟩
  | cons h1 _ ih =>
    refine ⟨?_, fun _ h => h1.ne.2 (List.append_eq_nil_iff.1 h).1⟩
    intro s hs
    rcases List.mem_append.1 hs with hs | hs
    · exact h1.ne.1 s hs
    · exact ih.1 s hs

/-- C87: `--help` or `--version` after acceptable options and paths ends the program with status 0, whatever follows; only an
ambiguous entry is refused before. -/
theorem C87_help (py : PyFns) (os : Os) (a ps b rest : List Str) (i j : List (Opt × Str)) (s : Str) (o : Opt)
    (ha : Opts py a i) (hps : ∀ p ∈ ps, PlainArg py p) (hb : Opts py b j) (hv : Valid py os (i ++ j) ps)
    (hs : Names s o) (ho : o = .help ∨ o = .version) (hrest : ∀ q ∈ rest.takeWhile (· != c!"--"), ¬ Ambiguous q) :
    parseArgv py os (a ++ ps ++ b ++ s :: rest) = .error 0 := by
  obtain ⟨ts, hts⟩ := classify_total (py := py) hrest
  obtain ⟨t, ht, htopt, htarg⟩ : ∃ t, parseOptional py s = .ok (some t) ∧ t.opt = some o ∧ t.arg = none := by
    exact po_names py hs
  have hcs : classify py (s :: rest) = .ok (.opt t :: ts) := classify_cons.2 (.inr ⟨names_ne hs, ts, hts, .inr ⟨t, ht, rfl⟩⟩)
  have hend : ∀ st : ArgSt, loop py os st (.opt t :: ts) = .error 0 := by
    intro st
    rw [loop_opt]
    have : consumeOptional py os st t ts = .error 0 := by
      obtain ⟨to, tshort, tsep, targ⟩ := t
      simp only at htopt htarg
      subst htopt htarg
      rcases ho with rfl | rfl <;> rfl
    rw [this]
  obtain ⟨bt, h4, h5⟩ := classify_opts hb hcs
  have hfin : ∀ toks, classify py (a ++ ps ++ b ++ s :: rest) = .ok toks → loop py os {} toks = .error 0 →
      parseArgv py os (a ++ ps ++ b ++ s :: rest) = .error 0 := by
    intro toks h1 h2
    unfold loop at h2
    simp only [parseArgv, h1, bind, Except.bind, h2]
  have hv0 : Valid py os (i ++ j) [] := ⟨hv.1, hv.2, hv.3, hv.4, hv.5, hv.6, by simp⟩
  by_cases hp : ps = []
  · subst hp
    obtain ⟨at', h7, h8⟩ := classify_opts ha h4
    refine hfin _ (by simpa using h7) ?_
    have h9 := (takeAll_valid (py := py) (os := os) (i ++ j) _).2 ⟨hv0, rfl⟩
    rw [takeAll_append] at h9
    rw [loop_opts h8]
    cases h10 : takeAll py os {} i with
    | error n => rw [h10] at h9; cases h9
    | ok s1 =>
      rw [h10] at h9
      simp only at h9 ⊢
      rw [loop_opts h5, h9]
      exact hend _
  · obtain ⟨at', h7, h8⟩ := classify_opts ha (classify_plain hps h4)
    refine hfin _ (by simpa using h7) ?_
    obtain ⟨s1, s2, h9, h10, h11⟩ := (taken_iff (py := py) (os := os) (i := i) (j := j) (run := ps.map .arg)).2
      ⟨by rw [args_map]; exact hv, rfl⟩
    rw [loop_opts h8, h9]
    simp only
    rw [loop_run (by simpa using hp) (by simp [ArgTok.isOpt])]
    · rw [(takeAll_st h9).2]
      simp only [Bool.false_eq_true, if_false, h10]
      rw [loop_opts h5, h11]
      exact hend _
    · rcases h5.head with rfl | ⟨t', r, rfl⟩
      · exact .inr ⟨_, _, rfl⟩
      · exact .inr ⟨t', _, rfl⟩

/-- C87: an ambiguous entry before `--` is refused with status 2, even after `--help`. -/
theorem C87_ambiguous (py : PyFns) (os : Os) (argv : List Str) (s : Str) (hs : s ∈ argv.takeWhile (· != c!"--"))
    (ha : Ambiguous s) : parseArgv py os argv = .error 2 := by
  have : ∀ argv : List Str, s ∈ argv.takeWhile (· != c!"--") → ∀ ts, classify py argv ≠ .ok ts := by
    intro argv
    induction argv with
    | nil => intro h; cases h
    | cons q rest ih =>
      intro h ts hts
      by_cases hq : q = c!"--"
      · subst hq; simp at h
      · rw [List.takeWhile_cons, if_pos (by simpa using hq)] at h
        rcases classify_cons.1 hts with ⟨h1, _⟩ | ⟨_, ts', h1, h2⟩
        · exact hq h1
        · rcases List.mem_cons.1 h with rfl | h
          · have he := (po_error (py := py) (n := 2)).2 ⟨rfl, ha⟩
            rcases h2 with ⟨h2, _⟩ | ⟨t, h2, _⟩
            · rw [po_none.2 h2] at he; cases he
            · rw [h2] at he; cases he
          · exact ih h ts' h1
  simp only [parseArgv, bind, Except.bind]
  cases hc : classify py argv with
  | ok ts => exact absurd hc (this argv hs ts)
  | error n => simp only [classify_error hc]

/-- C87: a refused command line leaves the files alone, reads nothing and prints nothing to standard output but what `argparse`
prints; an accepted one is run with the collected values. -/
theorem C87_process (F : Formatter) (canWrite : Path → Bool) (i : Install) (py : PyFns) (os : Os) (argv : List Str)
    (stdin : Option Str) (d : Disk) (v : Str) (hv : getVersion i = .ok v) :
    (∀ raw, parseArgv py os argv = .ok raw → commandLine F canWrite i py os argv stdin d = program F canWrite i os raw stdin d) ∧
    ((∀ raw, parseArgv py os argv ≠ .ok raw) →
      (commandLine F canWrite i py os argv stdin d).1 = { disk := d, ops := [], out := [] } ∧
      ((commandLine F canWrite i py os argv stdin d).2 = 2 ∨
        (commandLine F canWrite i py os argv stdin d).2 = 0 ∧
          ∃ s ∈ argv, Names s .help ∨ Names s .version ∨ ∃ cs, s = '-' :: cs ∧ 'h' ∈ cs ∧ cs.head? ≠ some '-')) := by
  constructor
  · intro raw h
    simp only [commandLine, hv, h]
  · intro h
    cases hp : parseArgv py os argv with
    | ok raw => exact absurd hp (h raw)
    | error n =>
      simp only [commandLine, hv, hp, true_and]
      rcases C87_status py os argv n hp with rfl | ⟨rfl, h⟩
      · exact .inl rfl
      · exact .inr ⟨rfl, h⟩

/-- C87: the statuses of some command lines. The abbreviation `--dev` is refused although both names it may mean are names of the
same option. -/
theorem C87_example :
    parseArgv exPy exOs [c!"-q", c!"a.md", c!"--he", c!"--nonsense"] = .error 0 ∧
    parseArgv exPy exOs [c!"-vh"] = .error 0 ∧
    parseArgv exPy exOs [c!"--help", c!"--dev"] = .error 2 ∧
    parseArgv exPy exOs [c!"--line-length", c!"x", c!"--help"] = .error 2 ∧
    parseArgv exPy exOs [c!"--check=x"] = .error 2 ∧
    Ambiguous c!"--dev" := by
  refine ⟨by decide +kernel, by decide +kernel, by decide +kernel, by decide +kernel, by decide +kernel, ?_⟩
  exact (po_error (py := exPy) (n := 2)).1 (by decide +kernel) |>.2

/-! ## C88 -/

/-- C88: paths, or `--`, after an option that follows a path are refused. -/
theorem C88_together (py : PyFns) (os : Os) (a ps b rest : List Str) (i j : List (Opt × Str)) (q : Str) (raw : RawArgs)
    (ha : Opts py a i) (hps : ∀ p ∈ ps, PlainArg py p) (hb : Opts py b j) (hpn : ps ≠ []) (hbn : b ≠ [])
    (hq : PlainArg py q ∨ q = c!"--") : parseArgv py os (a ++ ps ++ b ++ q :: rest) ≠ .ok raw := by
  intro h
  simp only [parseArgv, bind, Except.bind] at h
  cases hc : classify py (a ++ ps ++ b ++ q :: rest) with
  | error n => rw [hc] at h; cases h
  | ok toks =>
    have hdd : ∀ s ∈ a ++ ps ++ b, s ≠ c!"--" := by
      intro s hs
      simp only [List.mem_append] at hs
      rcases hs with (hs | hs) | hs
      · exact ha.ne.1 s hs
      · exact plain_ne (hps s hs)
      · exact hb.ne.1 s hs
    obtain ⟨ts, hts⟩ := classify_rest hdd hc
    obtain ⟨x, ts', rfl, hx⟩ : ∃ x ts', ts = x :: ts' ∧ x.isOpt = false := by
      rcases classify_cons.1 hts with ⟨_, rfl⟩ | ⟨h1, ts', _, ⟨_, rfl⟩ | ⟨t, h2, rfl⟩⟩
      · exact ⟨_, _, rfl, rfl⟩
      · exact ⟨_, _, rfl, rfl⟩
      · rcases hq with hq | hq
        · rw [po_none.2 hq] at h2; cases h2
        · exact absurd hq h1
    obtain ⟨bt, h4, h5⟩ := classify_opts hb hts
    obtain ⟨at', h7, h8⟩ := classify_opts ha (classify_plain hps h4)
    have hbt : ∃ t r, bt = .opt t :: r := by
      rcases h5.head with rfl | h
      · exfalso
        refine hb.ne.2 hbn ?_
        generalize hb : ([] : List ArgTok) = b at h5
        cases h5 with
        | nil => rfl
        | cons h _ => obtain ⟨t, pre, rfl⟩ := h.head; cases hb
      · exact h
    have htoks : toks = at' ++ (ps.map .arg ++ (bt ++ x :: ts')) := by
      have : classify py (a ++ ps ++ b ++ q :: rest) = .ok (at' ++ (ps.map .arg ++ (bt ++ x :: ts'))) := by simpa using h7
      rw [this] at hc
      cases hc; rfl
    rw [hc] at h
    simp only at h
    rw [show argLoop py os toks.length {} toks = loop py os {} toks from rfl] at h
    cases hl : loop py os {} toks with
    | error n => rw [hl] at h; cases h
    | ok st =>
      rw [hl] at h
      simp only at h
      have he : st.extras = true := by
        rw [htoks, loop_opts h8] at hl
        cases h9 : takeAll py os {} i with
        | error n => rw [h9] at hl; cases hl
        | ok s1 =>
          rw [h9] at hl
          simp only at hl
          have hbt' : bt ++ x :: ts' = [] ∨ ∃ t r, bt ++ x :: ts' = .opt t :: r := by
            obtain ⟨t, r, rfl⟩ := hbt
            exact .inr ⟨t, _, rfl⟩
          rw [loop_run (by simpa using hpn) (by simp [ArgTok.isOpt]) hbt', (takeAll_st h9).2] at hl
          simp only [Bool.false_eq_true, if_false] at hl
          cases h10 : takePaths py os s1 (ps.map .arg) with
          | error n => rw [h10] at hl; cases hl
          | ok s2 =>
            rw [h10] at hl
            simp only at hl
            rw [loop_opts h5] at hl
            cases h11 : takeAll py os s2 j with
            | error n => rw [h11] at hl; cases hl
            | ok s3 =>
              rw [h11] at hl
              simp only at hl
              obtain ⟨run, rest', h12, h13, h14⟩ := run_span (x :: ts')
              have hrn : run ≠ [] := by
                rintro rfl
                rcases h14 with rfl | ⟨t, r, rfl⟩
                · cases h12
                · cases h12; cases hx
              have htk : s3.taken = true := by rw [(takeAll_st h11).2]; exact (takePaths_st h10).2
              rw [h12, loop_run hrn h13 h14, htk] at hl
              simp only [if_true] at hl
              exact loop_extras _ _ _ _ (Nat.le_refl _) hl rfl
      rw [if_pos he] at h
      cases h

/-- C88: the same paths and options are accepted together and refused apart; a trailing `--` is refused after an option. -/
theorem C88_example :
    parseArgv exPy exOs [c!"a.md", c!"b.md", c!"--check"] = .ok { paths := [[c!"a.md"], [c!"b.md"]], check := true } ∧
    parseArgv exPy exOs [c!"a.md", c!"--check", c!"b.md"] = .error 2 ∧
    parseArgv exPy exOs [c!"a.md", c!"--check", c!"--"] = .error 2 ∧
    parseArgv exPy exOs [c!"a.md", c!"--"] = .ok { paths := [[c!"a.md"]] } := by
  refine ⟨by decide +kernel, by decide +kernel, by decide +kernel, by decide +kernel⟩

end MF
