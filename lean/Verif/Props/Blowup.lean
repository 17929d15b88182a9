import Verif.Props.LogFails
/-!
# C122: nested quotes are looked at exponentially often

To see how far a quote goes, what is in it is divided, and if that ends in a quote, what is in that one is divided as well,
although it has just been. Every further `>` at the beginning of a line doubles the work: `d` of them lead to `2 ^ d`
sections found in one division. A short line is enough for work that does not come to an end in any time one can wait.
-/

namespace MF

/-- A letter behind `d` marks of quotes. -/
def nested (d : Nat) : Str := List.replicate d '>' ++ ['a']

theorem nested_succ (d : Nat) : nested (d + 1) = '>' :: nested d := rfl

theorem ws_mark : isWs '>' = false := by decide

theorem quoted_nested (d : Nat) : quotedLine (nested (d + 1)) = true := by
  rw [nested_succ]
  simp [quotedLine, getIndent, lstrip, ws_mark]

theorem kind_nested (d : Nat) : kindOf (nested (d + 1)) = some .quote := by
  rw [nested_succ]
  simp [kindOf, fenceLine, getIndent, lstrip, ws_mark]

theorem unmark_nested (d : Nat) : unmark (nested (d + 1)) = nested d := by
  simp [nested_succ, unmark]

theorem nested_chars {d : Nat} {c : Char} (h : c ∈ nested d) : c = '>' ∨ c = 'a' := by
  rcases List.mem_append.1 h with h | h
  · exact .inl (List.eq_of_mem_replicate h)
  · exact .inr (by simpa using h)

/-! ## Division -/

theorem divideWith_zero (sq : List Str → Except Err Nat) : divideWith sq [nested 0] = .ok [(.par, [nested 0])] := rfl

theorem divideWith_quote {sq : List Str → Except Err Nat} {d : Nat} (h : sq [nested (d + 1)] = .ok 1) :
    divideWith sq [nested (d + 1)] = .ok [(.quote, [nested (d + 1)])] := by
  simp [divideWith, divideLoopQ, firstExtentQ, kind_nested, h, Except.map, bind, Except.bind]

theorem takeWhile_nested (d : Nat) : [nested (d + 1)].takeWhile quotedLine = [nested (d + 1)] := by
  simp [List.takeWhile, quoted_nested]

theorem dropWhile_nested (d : Nat) : [nested (d + 1)].dropWhile quotedLine = [] := by
  simp [List.dropWhile, quoted_nested]

/-- One section. -/
def oneSec (d : Nat) : List (Sec × List Str) := [(if d = 0 then .par else .quote, [nested d])]

theorem endsPar_nested {divide : List Str → Except Err (List (Sec × List Str))} :
    ∀ (d j : Nat), d < j → (∀ i ≤ d, divide [nested i] = .ok (oneSec i)) → endsPar divide j [nested (d + 1)] = .ok true
  | d, 0, h, _ => absurd h (Nat.not_lt_zero d)
  | 0, j + 1, _, hd => by
    simp only [endsPar, List.map_cons, List.map_nil, unmark_nested, hd 0 (Nat.le_refl 0)]
    rfl
  | d + 1, j + 1, h, hd => by
    have ih := endsPar_nested d j (by omega) fun i hi => hd i (by omega)
    simp only [endsPar, List.map_cons, List.map_nil, unmark_nested, hd (d + 1) (Nat.le_refl _)]
    exact ih

theorem nested_division : ∀ (m : Nat),
    (∀ d, d + 1 < m → quoteLines m [nested (d + 1)] = .ok 1) ∧
    ∀ d < m, divideWith (quoteLines m) [nested d] = .ok (oneSec d) := by
  intro m
  induction m with
  | zero => exact ⟨fun d h => absurd h (Nat.not_lt_zero _), fun d h => absurd h (Nat.not_lt_zero d)⟩
  | succ m ih =>
    have hq : ∀ d, d + 1 < m + 1 → quoteLines (m + 1) [nested (d + 1)] = .ok 1 := by
      intro d hd
      have he := endsPar_nested d m (by omega) fun i hi => ih.2 i (by omega)
      simp only [quoteLines, quoted_nested, if_true, takeWhile_nested, dropWhile_nested, he, bind, Except.bind]
      rfl
    refine ⟨hq, fun d hd => ?_⟩
    cases d with
    | zero => rfl
    | succ d => exact divideWith_quote (hq d (by omega))

/-! ## Messages -/

theorem endsNotes_nested {divide : List Str → Except Err (List (Sec × List Str))} {notes : List Str → List Msg} :
    ∀ (d j : Nat), d < j → (∀ i ≤ d, divide [nested i] = .ok (oneSec i)) →
      (∀ i ≤ d, (notes [nested i]).length = 2 ^ i ∧ ∀ m ∈ notes [nested i], isFound m = true) →
      (endsNotes divide notes j [nested (d + 1)]).length + 1 = 2 ^ (d + 1) ∧
        ∀ m ∈ endsNotes divide notes j [nested (d + 1)], isFound m = true
  | d, 0, h, _, _ => absurd h (Nat.not_lt_zero d)
  | 0, j + 1, _, hd, hn => by
    have h0 := hn 0 (Nat.le_refl 0)
    simp only [endsNotes, List.map_cons, List.map_nil, unmark_nested, hd 0 (Nat.le_refl 0), oneSec, if_true,
      Except.toOption, Option.bind_some, List.getLast?_singleton, List.append_nil]
    exact ⟨by omega, h0.2⟩
  | d + 1, j + 1, h, hd, hn => by
    have h0 := hn (d + 1) (Nat.le_refl _)
    have ih := endsNotes_nested d j (by omega) (fun i hi => hd i (by omega)) fun i hi => hn i (by omega)
    simp only [endsNotes, List.map_cons, List.map_nil, unmark_nested, hd (d + 1) (Nat.le_refl _), oneSec,
      Nat.add_one_ne_zero, if_false, Except.toOption, Option.bind_some, List.getLast?_singleton]
    refine ⟨?_, fun m hm => (List.mem_append.1 hm).elim (h0.2 m) (ih.2 m)⟩
    rw [List.length_append, h0.1, Nat.pow_succ 2 (d + 1)]
    omega

theorem divideNotes_quote {sq : List Str → Except Err Nat} {qn : Nat → List Str → List Msg} {d : Nat}
    (h : sq [nested (d + 1)] = .ok 1) :
    divideNotesWith sq qn [nested (d + 1)] = qn 1 [nested (d + 1)] ++ [.found 1 1 .quote] := by
  simp [divideNotesWith, divideNotesLoop, startNotes, firstExtentQ, kind_nested, h, Except.map]

theorem nested_notes : ∀ (m d : Nat), d < m →
    (divideNotes m [nested d]).length = 2 ^ d ∧ ∀ x ∈ divideNotes m [nested d], isFound x = true := by
  intro m
  induction m with
  | zero => exact fun d h => absurd h (Nat.not_lt_zero d)
  | succ m ih =>
    intro d hd
    cases d with
    | zero =>
      have e : divideNotes (m + 1) [nested 0] = [.found 1 1 .par] := rfl
      rw [e]
      exact ⟨rfl, by simp [isFound]⟩
    | succ d =>
      have hends := endsNotes_nested d m (by omega) (fun i hi => (nested_division m).2 i (by omega)) fun i hi =>
        ih i (by omega)
      have he := endsPar_nested d m (by omega) fun i hi => (nested_division m).2 i (by omega)
      have hq : quoteNotes (m + 1) 1 [nested (d + 1)] =
          endsNotes (divideWith (quoteLines m)) (divideNotes m) m [nested (d + 1)] := by
        simp only [quoteNotes, quoted_nested, if_true, takeWhile_nested, dropWhile_nested, he, lazyNotes,
          List.append_nil]
        rfl
      have e : divideNotes (m + 1) [nested (d + 1)] =
          endsNotes (divideWith (quoteLines m)) (divideNotes m) m [nested (d + 1)] ++ [.found 1 1 .quote] := by
        rw [← hq]
        exact divideNotes_quote ((nested_division (m + 1)).1 d hd)
      rw [e]
      refine ⟨by rw [List.length_append]; exact hends.1, fun x hx => ?_⟩
      rcases List.mem_append.1 hx with h | h
      · exact hends.2 x h
      · rw [List.mem_singleton.1 h]; rfl

/-! ## Formatting -/

theorem wrap_letter (w : Width) : wrapRef (nested 0) w = .ok (nested 0) := by
  have h1 : codePieces false (pyJoin [' '] ((splitlines (nested 0)).map strip)) = .ok [⟨false, ['a'], true⟩] := by
    decide +kernel
  have h2 : refine linkPieces [⟨false, ['a'], true⟩] = .ok [⟨false, ['a'], true⟩] := by decide +kernel
  have h3 : refine (fun l s => .ok (brPieces l s)) [⟨false, ['a'], true⟩] = .ok [⟨false, ['a'], true⟩] := by
    decide +kernel
  have h4 : refine (fun l s => .ok (wordPieces l s)) [⟨false, ['a'], true⟩] = .ok [⟨false, ['a'], true⟩] := by
    decide +kernel
  simp only [wrapRef, h1, h2, h3, h4, bind, Except.bind]
  rfl

theorem lines_nested (d : Nat) : splitlines (nested d ++ ['\n']) = [nested d] := by
  refine splitlines_line (nested d) (fun c hc => ?_) []
  rcases nested_chars hc with rfl | rfl <;> decide

theorem strip_nested (d : Nat) : strip (nested d) = nested d := by
  refine strip_noWs _ fun c hc => ?_
  rcases nested_chars hc with rfl | rfl <;> decide

theorem margin_nested (d : Nat) : margin (nested d) = 0 := by
  cases d with
  | zero => decide
  | succ d => simp [nested_succ, margin, ws_mark]

theorem nested_ne (d : Nat) : nested d ≠ [] := by simp [nested]

theorem inside_nested (d : Nat) : (remark 0 [nested (d + 1)]).map unmark = [nested d] := by
  simp [remark, quoted_nested, unmark_nested]

theorem spaced_nested (d : Nat) : spacedQuote [nested d] = false := by
  simp [spacedQuote, strip_nested, margin_nested, nested_ne, List.find?]

theorem unlines_nested (d : Nat) : unlines [nested d] = nested d ++ ['\n'] := by simp [unlines, pyJoin]

theorem quote_nested {sub : Width → Str → Except Err Str} {d : Nat} (w : Width)
    (h : ∀ v, sub v (nested d ++ ['\n']) = .ok (nested d ++ ['\n'])) :
    quoteRef sub w [nested (d + 1)] = .ok (nested (d + 1)) := by
  simp only [quoteRef, inside_nested, spaced_nested, unlines_nested, h, lines_nested, bind, Except.bind, if_false,
    Bool.false_eq_true]
  show Except.ok (pyJoin ['\n'] [strip (nested (d + 1))]) = _
  rw [strip_nested]
  rfl

theorem format_nested : ∀ (n d : Nat) (w : Width), d + 1 < n →
    formatRef n w (nested d ++ ['\n']) = .ok (nested d ++ ['\n']) := by
  intro n
  induction n with
  | zero => exact fun d w h => absurd h (Nat.not_lt_zero _)
  | succ n ih =>
    intro d w h
    have hdiv : divideQ n [nested d] = .ok (oneSec d) := (nested_division n).2 d (by omega)
    simp only [formatRef, lines_nested, hdiv, bind, Except.bind]
    cases d with
    | zero =>
      have e : parRef w [nested 0] = .ok (nested 0) := by
        show (do let t ← wrapRef (nested 0) w; .ok (t ++ []) : Except Err Str) = _
        rw [wrap_letter]
        rfl
      simp only [oneSec, if_true, partsRef, partRef, e, bind, Except.bind]
      rfl
    | succ d =>
      have e := quote_nested (sub := formatRef n) w fun v => ih d v (by omega)
      simp only [oneSec, Nat.add_one_ne_zero, if_false, partsRef, partRef, e, bind, Except.bind]
      rw [← unlines_nested]
      rfl

/-! ## Messages of a pass -/

theorem pass_nested : ∀ (n d level : Nat) (w : Width), d + 1 < n →
    ((passNotes n level w (nested d ++ ['\n'])).countP isFound) + 1 = 2 ^ (d + 1) := by
  intro n
  induction n with
  | zero => exact fun d level w h => absurd h (Nat.not_lt_zero _)
  | succ n ih =>
    intro d level w h
    have hdiv : divideQ n [nested d] = .ok (oneSec d) := (nested_division n).2 d (by omega)
    have hn := nested_notes n d (by omega)
    have hc : (divideNotes n [nested d]).countP isFound = 2 ^ d := by
      rw [← hn.1]
      exact List.countP_eq_length.2 hn.2
    simp only [passNotes, lines_nested, hdiv, List.countP_append, hc]
    cases d with
    | zero => rfl
    | succ d =>
      have e : documentsIn w .quote [nested (d + 1)] = [(w.sub 1, nested d ++ ['\n'])] := by
        simp only [documentsIn, inside_nested, spaced_nested, unlines_nested, List.headD_cons, margin_nested]
        rfl
      have hp := ih d DEBUG (w.sub 1) (by omega)
      have hs : (sectionNotes level 0 false ((oneSec (d + 1)).takeWhile fun s => !fenceAlone s)).countP isFound = 0 := rfl
      have hf : ((oneSec (d + 1)).any fenceAlone) = false := rfl
      have hl : (partsNotes (formatRef n) (passNotes n DEBUG) w 0 (oneSec (d + 1))).countP isFound =
          (passNotes n DEBUG (w.sub 1) (nested d ++ ['\n'])).countP isFound := by
        have hk : (formatRef n (w.sub 1) (nested d ++ ['\n'])).isOk = true := by
          rw [format_nested n d (w.sub 1) (by omega)]; rfl
        simp only [oneSec, Nat.add_one_ne_zero, if_false, partsNotes, e, documentsNotes, hk, List.append_nil,
          ite_self]
        simp
      rw [hs, hf, if_neg (by simp), hl, Nat.pow_succ 2 (d + 1)]
      omega

theorem found_audible {own program : Nat} (h : program ≤ DEBUG) (ms : List Msg) :
    (ms.filter (audible own program)).countP isFound = ms.countP isFound := by
  rw [List.countP_filter]
  refine List.countP_congr fun m _ => ?_
  cases m <;> simp [isFound, audible, h]

/-- A power of two that is larger than a given power. -/
theorem pow_grows (c k : Nat) : ∃ d, c * (d + 2) ^ k < 2 ^ d := by
  have h1 : ∀ a b : Nat, ∃ m, a * m + b ≤ 2 ^ m ∧ b < 2 ^ m := by
    intro a b
    let t := 2 * a + b
    have ht : t < 2 ^ t := Nat.lt_two_pow_self
    refine ⟨2 * t, ?_, ?_⟩
    · have : (t + 1) * (t + 1) ≤ 2 ^ (2 * t) := by
        rw [Nat.two_mul, Nat.pow_add]
        exact Nat.mul_le_mul ht ht
      have e : a * (2 * t) = 2 * a * t := by rw [← Nat.mul_assoc, Nat.mul_comm a 2]
      have : 2 * a * t ≤ t * t := Nat.mul_le_mul_right t (by omega)
      have : (t + 1) * (t + 1) = t * t + t + t + 1 := by rw [Nat.add_mul, Nat.mul_add]; omega
      omega
    · calc b ≤ t := by omega
        _ < 2 ^ t := ht
        _ ≤ 2 ^ (2 * t) := Nat.pow_le_pow_right (by omega) (by omega)
  obtain ⟨m, hm, hc⟩ := h1 (k + 1) (c + 2)
  refine ⟨(k + 1) * m, ?_⟩
  have hle : (k + 1) * m + 2 ≤ 2 ^ m := by omega
  calc c * ((k + 1) * m + 2) ^ k ≤ c * (2 ^ m) ^ k := Nat.mul_le_mul_left c (Nat.pow_le_pow_left hle k)
    _ < 2 ^ m * (2 ^ m) ^ k := Nat.mul_lt_mul_of_pos_right (by omega) (Nat.pow_pos (Nat.two_pow_pos m))
    _ = 2 ^ ((k + 1) * m) := by rw [← Nat.pow_mul, ← Nat.pow_add, Nat.mul_comm m k, Nat.add_mul, Nat.one_mul, Nat.add_comm]

/-! ## Documents without quotes -/

theorem fenceNote_found (k : Nat) (l : Str) (more : List Str) : ∀ m ∈ fenceNote k l more, isFound m = false := by
  have h : ∀ (F : Str) (i : Nat) (ls : List Str) (k : Nat), ∀ m ∈ closeNote F i k ls, isFound m = false := by
    intro F i ls
    induction ls with
    | nil => intro k m hm; simp [closeNote] at hm
    | cons l ls ih =>
      intro k m hm
      simp only [closeNote] at hm
      split at hm
      · split at hm
        · rw [List.mem_singleton.1 hm]; rfl
        · simp at hm
      · exact ih _ m hm
  intro m hm
  unfold fenceNote at hm
  split at hm
  · exact h _ _ _ _ m hm
  · simp at hm

theorem defNote_found (l : Str) (more : List Str) : ∀ m ∈ defNote l more, isFound m = false := by
  intro m hm
  unfold defNote at hm
  repeat' split at hm
  all_goals first
    | (rw [List.mem_singleton.1 hm]; rfl)
    | simp at hm

theorem textRun_found {n : Nat} : ∀ (ls : List Str) (k : Nat), (∀ l ∈ ls, quotedLine l = false) →
    ∀ m ∈ textRunNotes (quoteNotes n) k ls, isFound m = false := by
  intro ls
  induction ls with
  | nil => intro k _ m hm; simp [textRunNotes] at hm
  | cons l ls ih =>
    intro k hq m hm
    simp only [textRunNotes] at hm
    rw [if_neg (by simp [hq l (by simp)])] at hm
    split at hm
    · exact fenceNote_found _ _ _ m hm
    · split at hm
      · simp at hm
      · exact ih _ (fun x hx => hq x (by simp [hx])) m hm

theorem start_found {n : Nat} {l : Str} {ls : List Str} (hq : ∀ x ∈ l :: ls, quotedLine x = false) :
    ∀ m ∈ startNotes (quoteNotes n) l ls, isFound m = false := by
  intro m hm
  unfold startNotes at hm
  split at hm
  · rw [quoteNotes_unquoted n 1 ls (hq l (by simp))] at hm
    simp at hm
  · exact fenceNote_found _ _ _ m hm
  · simp at hm
  · split at hm
    · unfold textNotes at hm
      split at hm
      · simp at hm
      · exact textRun_found _ _ (fun x hx => hq x (by simp [hx])) m hm
    · exact defNote_found _ _ m hm

theorem flat_notes {n : Nat} : ∀ (fuel k : Nat) (ls : List Str) (secs : List (Sec × List Str)),
    (∀ l ∈ ls, quotedLine l = false) → divideLoopQ (quoteLines n) fuel ls = .ok secs →
    (divideNotesLoop (quoteLines n) (quoteNotes n) fuel k ls).countP isFound = secs.length := by
  intro fuel
  induction fuel with
  | zero =>
    intro k ls secs hq h
    cases ls with
    | nil =>
      have hx := Except.ok.inj h
      subst hx
      rfl
    | cons l ls => exact nomatch h
  | succ fuel ih =>
    intro k ls secs hq h
    cases ls with
    | nil =>
      have hx := Except.ok.inj h
      subst hx
      rfl
    | cons l ls =>
      simp only [divideLoopQ, bind, Except.bind] at h
      simp only [divideNotesLoop, List.countP_append]
      rw [List.countP_eq_zero.2 fun m hm => by simp [start_found hq m hm]]
      cases hf : firstExtentQ (quoteLines n) l ls with
      | error e => rw [hf] at h; exact nomatch h
      | ok r =>
        rw [hf] at h
        simp only at h
        cases hr : divideLoopQ (quoteLines n) fuel ((l :: ls).drop r.2) with
        | error e => rw [hr] at h; exact nomatch h
        | ok rest =>
          rw [hr] at h
          have hx := Except.ok.inj h
          subst hx
          simp only
          rw [List.countP_cons_of_pos (by rfl), ih _ _ _ (fun x hx => hq x (List.mem_of_mem_drop hx)) hr]
          simp

/-! ## The claims -/

/-- C122: the division of a letter behind `d` marks of quotes, which is one section, finds `2 ^ d` sections. -/
theorem C122_division {n d : Nat} (h : d + 1 < n) (s : LSt) (hs : s.parent ≤ DEBUG) :
    parse n [nested d] = .ok [(if d = 0 then .par else .quote, [nested d])] ∧
    (parseL n [nested d] s).2.shown.countP isFound = s.shown.countP isFound + 2 ^ d := by
  obtain ⟨m, rfl⟩ : ∃ m, n = m + 1 := ⟨n - 1, by omega⟩
  have hd : divideQ m [nested d] = .ok (oneSec d) := (nested_division m).2 d (by omega)
  have hp : parse (m + 1) [nested d] = .ok (oneSec d) := by
    rw [C117_enough m _ (by rw [hd]; exact fun h => nomatch h), hd]
  refine ⟨hp, ?_⟩
  have hn := nested_notes (m + 1) d (by omega)
  rw [(C120_division (by rw [hp]; exact fun h => nomatch h) s).2, List.countP_append, found_audible hs,
    List.countP_eq_length.2 hn.2, hn.1]

/-- C122: such a line is formatted as it is, in one pass that finds `2 ^ (d + 1) - 1` sections. -/
theorem C122_pass {n d : Nat} (h : d + 2 < n) (w : Width) (s : LSt) (hs : s.parent ≤ DEBUG) :
    reformatText n w (nested d ++ ['\n']) = .ok (nested d ++ ['\n']) ∧
    (reformatTextL n w (nested d ++ ['\n']) s).2.shown.countP isFound + 1 = s.shown.countP isFound + 2 ^ (d + 1) := by
  obtain ⟨m, rfl⟩ : ∃ m, n = m + 1 := ⟨n - 1, by omega⟩
  have hf := format_nested m d w (by omega)
  have hp : reformatText (m + 1) w (nested d ++ ['\n']) = .ok (nested d ++ ['\n']) := by
    rw [C119_enough m w _ (by rw [hf]; exact fun h => nomatch h), hf]
  refine ⟨hp, ?_⟩
  rw [C120_succeeds hp s]
  have := pass_nested (m + 1) d s.info w (by omega)
  rw [List.countP_append, found_audible hs]
  omega

/-- C122: the whole call finds `2 ^ (d + 2) - 2`. -/
theorem C122_call {n d : Nat} (h : d + 2 < n) (w : Width) (s : LSt) (hs : s.parent ≤ DEBUG) :
    (reformatMarkdownTextL n w (nested d ++ ['\n']) s).1 = .ok (nested d ++ ['\n']) ∧
    (reformatMarkdownTextL n w (nested d ++ ['\n']) s).2.shown.countP isFound + 2 =
      s.shown.countP isFound + 2 ^ (d + 2) := by
  have hp := (C122_pass h w s hs).1
  have he : rstrip (nested d ++ ['\n']) = nested d := by
    rw [rstrip_append_ws _ _ (by decide)]
    exact rstrip_concat_of_not _ _ (by decide)
  rw [C120_call hp hp s]
  refine ⟨by simp [he], ?_⟩
  have := pass_nested n d s.info w (by omega)
  rw [List.countP_append, List.countP_append, found_audible hs, found_audible hs, Nat.pow_succ 2 (d + 1)]
  omega

/-- C122: no power of the length of a document bounds the work. For every factor and every exponent there is a document
for which more sections are found, whatever the width. -/
theorem C122_unbounded (c k : Nat) : ∃ (text : Str) (enough : Nat), ∀ n, enough ≤ n → ∀ (w : Width) (s : LSt),
    s.parent ≤ DEBUG →
    (reformatMarkdownTextL n w text s).1 = .ok text ∧
    s.shown.countP isFound + c * text.length ^ k < (reformatMarkdownTextL n w text s).2.shown.countP isFound := by
  obtain ⟨d, hd⟩ := pow_grows c k
  refine ⟨nested d ++ ['\n'], d + 3, fun n hn w s hs => ?_⟩
  have h := C122_call (by omega : d + 2 < n) w s hs
  refine ⟨h.1, ?_⟩
  have e : (nested d ++ ['\n']).length = d + 2 := by simp [nested]
  have := Nat.two_pow_pos d
  have e2 : 2 ^ (d + 2) = 2 ^ d * 4 := Nat.pow_add 2 d 2
  rw [e]
  omega

/-- C122: it is quotes that take the time. In lines of which none is quoted every section is found once. -/
theorem C122_flat {n : Nat} {lines : List Str} {secs : List (Sec × List Str)} (hq : ∀ l ∈ lines, quotedLine l = false)
    (h : parse n lines = .ok secs) (s : LSt) (hs : s.parent ≤ DEBUG) :
    (parseL n lines s).2.shown.countP isFound = s.shown.countP isFound + secs.length := by
  have hne : parse n lines ≠ .error .recursion := by rw [h]; exact fun h => nomatch h
  have hd : divideQ n lines = .ok secs := by rw [← C117_division n lines hne, h]
  rw [(C120_division hne s).2, List.countP_append, found_audible hs]
  exact congrArg _ (flat_notes _ 1 lines secs hq hd)

theorem C122_example :
    nested 5 = c!">>>>>a" ∧
    (reformatMarkdownTextL 9 (.fin 80) c!">>>>>a\n" ⟨⟨INFO, 0, DEBUG⟩, []⟩).2.shown.countP isFound = 126 ∧
    (reformatMarkdownTextL 9 (.fin 80) c!">>>>>a\n" ⟨⟨INFO, 0, DEBUG⟩, []⟩).2.shown.length = 138 ∧
    (reformatMarkdownTextL 9 (.fin 80) c!"a\n" ⟨⟨INFO, 0, DEBUG⟩, []⟩).2.shown.countP isFound = 2 := by
  decide +kernel

end MF
