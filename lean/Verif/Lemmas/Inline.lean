import Verif.Lemmas.LinkRx
import Verif.Lemmas.WrapLines
/-!
# The tokens of running text are the tokens of `wrap`
-/

namespace MF

theorem gapOf_nil : gapOf [] = .glue := rfl

theorem gapOf_cons (c : Char) (g : Str) : gapOf (c :: g) = .space := rfl

theorem gapOf_ne_link (g : Str) : gapOf g ≠ .link := by
  cases g <;> simp [gapOf]

theorem ticks_cons {k : Nat} (h : 0 < k) : ticks k = '`' :: ticks (k - 1) := by
  obtain ⟨i, rfl⟩ : ∃ i, k = i + 1 := ⟨k - 1, by omega⟩
  simp [ticks, List.replicate_succ]

theorem WordEnd.head {r : Str} (h : WordEnd r) : ∀ c, r.head? = some c → isWs c = true ∨ c = '`' ∨ c = '<' := by
  intro c hc
  rcases h with rfl | ⟨d, r', rfl, hd⟩ | ⟨b, r', rfl, hb⟩
  · cases hc
  · simp at hc; subst hc; rcases hd with h | h <;> simp [h]
  · rcases hb with rfl | rfl | rfl | rfl <;> (simp at hc; simp [← hc])

theorem WordEnd.noDot {r : Str} (h : WordEnd r) : r.head? ≠ some '.' := by
  intro hc
  have := h.head _ hc
  revert this; decide

theorem singleDot_append' {w r : Str} (hw : w ≠ []) (hr : w = c!"." → r.head? ≠ some '.') :
    startsSingleDot (w ++ r) = startsSingleDot w := by
  cases w with
  | nil => exact absurd rfl hw
  | cons c w =>
    cases w with
    | nil =>
      cases r with
      | nil => rfl
      | cons d r =>
        by_cases hc : c = '.'
        · subst hc
          have : d ≠ '.' := by intro h; subst h; simp at hr
          have h1 : startsSingleDot (['.'] ++ d :: r) = true :=
            (startsSingleDot_iff _).2 ⟨d :: r, rfl, by simpa using this⟩
          rw [h1]; rfl
        · have h1 : startsSingleDot ([c] ++ d :: r) = false := by
            cases h : startsSingleDot ([c] ++ d :: r) with
            | false => rfl
            | true => obtain ⟨x, hx, _⟩ := (startsSingleDot_iff _).1 h; cases hx; exact absurd rfl hc
          have h2 : startsSingleDot [c] = false := by
            cases h : startsSingleDot [c] with
            | false => rfl
            | true => obtain ⟨x, hx, _⟩ := (startsSingleDot_iff _).1 h; cases hx; exact absurd rfl hc
          rw [h1, h2]
    | cons d w =>
      have key : ∀ z, startsSingleDot (c :: d :: z) = (c == '.' && !(d == '.')) := by
        intro z
        cases h : startsSingleDot (c :: d :: z) with
        | true =>
          obtain ⟨x, hx, hx2⟩ := (startsSingleDot_iff _).1 h
          cases hx
          have : d ≠ '.' := by intro h; subst h; simp at hx2
          simp [this]
        | false =>
          by_cases hc : c = '.'
          · by_cases hd : d = '.'
            · simp [hd]
            · exfalso
              have := (startsSingleDot_iff (c :: d :: z)).2 ⟨d :: z, by rw [hc], by simpa using hd⟩
              rw [h] at this; cases this
          · simp [hc]
      show startsSingleDot (c :: d :: (w ++ r)) = _
      rw [key, key]

theorem singleDot_append {w r : Str} (hw : w ≠ []) (hr : r.head? ≠ some '.') :
    startsSingleDot (w ++ r) = startsSingleDot w := singleDot_append' hw fun _ => hr

theorem startsSingleDot_ne {c : Char} {r : Str} (h : c ≠ '.') : startsSingleDot (c :: r) = false := by
  cases hs : startsSingleDot (c :: r) with
  | false => rfl
  | true => obtain ⟨x, hx, _⟩ := (startsSingleDot_iff _).1 hs; cases hx; exact absurd rfl h

theorem Runs.nil_ws {k : Ctx} {s : Str} (h : Runs k s []) : ∀ c ∈ s, isWs c = true := by
  generalize hts : ([] : List Tok) = ts at h
  cases h with
  | nil h => exact h
  | word => cases hts
  | br => cases hts
  | code => cases hts
  | link => simp at hts

theorem code_stripped {k : Nat} {body dot : Str} (hk : 0 < k) (hd : dot = [] ∨ dot = c!".") :
    Stripped (ticks k ++ (body ++ (ticks k ++ dot))) := by
  apply stripped_of_ends
  · exact ⟨'`', _, by rw [ticks_cons hk]; rfl, by decide⟩
  · rcases hd with rfl | rfl
    · refine ⟨ticks k ++ (body ++ ticks (k - 1)), '`', ?_, by decide⟩
      obtain ⟨i, rfl⟩ : ∃ i, k = i + 1 := ⟨k - 1, by omega⟩
      have : ticks (i + 1) = ticks i ++ ['`'] := List.replicate_succ' ..
      rw [List.append_nil]
      simp only [Nat.add_sub_cancel, List.append_assoc]
      congr 2
    · exact ⟨ticks k ++ (body ++ ticks k), '.', by simp, by decide⟩

theorem AfterCode.dots {dot rest : Str} (h : AfterCode dot rest) : dot = [] ∨ dot = c!"." := by
  rcases h.dot with ⟨h, _⟩ | ⟨h, _⟩ <;> simp [h]

/-- the words of the name of a link -/
theorem link_words {pre : Str} (hp : ∀ x ∈ pre, isWs x = false) (y : Str) : ∃ n0 r ws, y = n0 ++ r ∧
    splitWs (pre ++ '[' :: y) = (pre ++ '[' :: n0) :: ws ∧ (∀ c ∈ n0, isWs c = false) := by
  have hn : ∀ x ∈ y.takeWhile (fun x => !isWs x), isWs x = false := by
    intro x hx
    have := List.all_eq_true.1 (List.all_takeWhile (p := fun x => !isWs x) (l := y)) x hx
    simpa using this
  have hw : isWs '[' = false := by decide
  cases pre with
  | nil =>
    refine ⟨y.takeWhile (fun x => !isWs x), y.dropWhile (fun x => !isWs x), _,
      (List.takeWhile_append_dropWhile (p := fun x => !isWs x) (l := y)).symm, splitWs_first y hw, hn⟩
  | cons d pre =>
    refine ⟨y.takeWhile (fun x => !isWs x), y.dropWhile (fun x => !isWs x), 
      splitWs ((pre ++ '[' :: y).dropWhile (fun x => !isWs x)),
      (List.takeWhile_append_dropWhile (p := fun x => !isWs x) (l := y)).symm, ?_, hn⟩
    rw [List.cons_append, splitWs_first _ (hp d (by simp)), List.takeWhile_append_of_pos (fun x hx => by simp [hp x (by simp [hx])]),
      List.takeWhile_cons]
    simp [hw]

theorem Link.starts {o c : Char} {pre name target tail : Str} (h : Link o c pre name target tail) (t : Str) :
    StartsNonWs (linkText o c pre name t tail) := by
  unfold linkText
  cases hp : pre with
  | nil => exact ⟨'[', _, rfl, by decide⟩
  | cons d pre => exact ⟨d, _, rfl, (h.preOk d (by rw [hp]; simp)).1⟩

theorem Link.closeWs {o c : Char} {pre name target tail : Str} (h : Link o c pre name target tail) : isWs c = false := by
  rcases h.kind with ⟨_, rfl⟩ | ⟨_, rfl⟩ <;> decide

theorem ends_close {c : Char} {tail : Str} (hc : isWs c = false) (ht : ∀ x ∈ tail, isWs x = false) : EndsNonWs (c :: tail) := by
  rcases List.eq_nil_or_concat tail with h0 | ⟨x, d, h0⟩
  · subst h0; exact ⟨[], c, rfl, hc⟩
  · rw [List.concat_eq_append] at h0
    exact ⟨c :: x, d, by rw [h0]; rfl, ht d (by rw [h0]; simp)⟩

theorem Link.ends {o c : Char} {pre name target tail : Str} (h : Link o c pre name target tail) (t : Str) :
    EndsNonWs (linkText o c pre name t tail) := by
  have := (ends_close h.closeWs fun x hx => (h.tailOk x hx).1).prepend (pre ++ '[' :: (name ++ ']' :: o :: t))
  unfold linkText
  simpa using this

theorem Link.target_stripped {o c : Char} {pre name target tail : Str} (h : Link o c pre name target tail) :
    Stripped (target ++ c :: tail) := by
  apply stripped_of_ends
  · obtain ⟨d, r, e⟩ := List.exists_cons_of_ne_nil h.targetOk.1
    exact ⟨d, r ++ c :: tail, by rw [e]; rfl, h.targetStart d (by rw [e]; rfl)⟩
  · exact (ends_close h.closeWs fun x hx => (h.tailOk x hx).1).prepend target

/-- the first token -/
theorem Runs.first {k : Ctx} {s : Str} {t : Tok} {ts : List Tok} (h : Runs k s (t :: ts)) :
    ∃ g r, (∀ c ∈ g, isWs c = true) ∧ s = g ++ (t.text ++ r) ∧ (t.gap = gapOf g ∨ t.gap = k.gap g) ∧ Stripped t.text ∧
      startsSingleDot (t.text ++ r) = startsSingleDot t.text := by
  generalize hts : t :: ts = ts' at h
  cases h with
  | nil => cases hts
  | word hg hk hw hr h =>
    cases hts
    exact ⟨_, _, hg, rfl, .inl rfl, .noWs hw.ne hw.noWs, singleDot_append hw.ne hr.noDot⟩
  | br hg hk hb h =>
    cases hts
    refine ⟨_, _, hg, rfl, .inl rfl, hb.stripped, ?_⟩
    rcases hb with rfl | rfl | rfl | rfl <;> exact (startsSingleDot_ne (by decide)).trans (startsSingleDot_ne (by decide)).symm
  | @code _ g body dot rest n ts hg hs hd h =>
    cases hts
    refine ⟨_, rest, hg, by simp, .inl rfl, code_stripped hs.pos hd.dots, ?_⟩
    rw [ticks_cons hs.pos]
    exact (startsSingleDot_ne (by decide)).trans (startsSingleDot_ne (by decide)).symm
  | @link _ g pre name v target tail rest o c ts hg hk hl hv h =>
    obtain ⟨n0, r, ws, e, e2, hn⟩ := link_words (fun x hx => (hl.preOk x hx).1) (name ++ [']', o])
    rw [e2] at hts
    simp only [wordToks, List.cons_append, List.cons.injEq] at hts
    obtain ⟨rfl, hts⟩ := hts
    have hnw : ∀ c ∈ pre ++ '[' :: n0, isWs c = false := by
      intro c hc
      rcases List.mem_append.1 hc with hc | hc
      · exact (hl.preOk c hc).1
      · rcases List.mem_cons.1 hc with rfl | hc
        · decide
        · exact hn c hc
    refine ⟨g, r ++ ((v ++ target) ++ c :: tail ++ rest), hg, ?_, .inr rfl, .noWs (by simp) hnw, ?_⟩
    · unfold linkText
      have : name ++ ']' :: o :: (v ++ target ++ c :: tail) = (name ++ [']', o]) ++ (v ++ target ++ c :: tail) := by simp
      rw [this, e]; simp
    · refine singleDot_append' (by simp) ?_
      intro h0
      exfalso
      cases pre with
      | nil => cases h0
      | cons d pre => simp at h0

theorem lstrip_starts {x : Str} (h : StartsNonWs x) : lstrip x = x := by
  obtain ⟨c, r, rfl, hc⟩ := h
  exact lstrip_cons_of_not _ _ hc

/-- a text starts with a single period when its first token does -/
theorem Runs.singleDot {k : Ctx} {s : Str} {t : Tok} {ts : List Tok} (h : Runs k s (t :: ts)) :
    startsSingleDot (lstrip s) = startsSingleDot t.text := by
  obtain ⟨g, r, hg, rfl, _, hst, hd⟩ := h.first
  rw [lstrip_append_ws _ _ hg, lstrip_starts (hst.starts.append r), hd]

/-! ## Stripping -/

theorem Runs.lstrip {k : Ctx} {s : Str} {t : Tok} {ts : List Tok} (h : Runs k s (t :: ts)) :
    Runs .start (MF.lstrip s) (⟨.glue, t.text⟩ :: ts) := by
  generalize hts : t :: ts = ts' at h
  cases h with
  | nil => cases hts
  | word hg hk hw hr h =>
    cases hts
    rw [lstrip_append_ws _ _ hg, lstrip_starts ((Stripped.noWs hw.ne hw.noWs).starts.append _)]
    exact .word (g := []) (by simp) trivial hw hr h
  | br hg hk hb h =>
    cases hts
    rw [lstrip_append_ws _ _ hg, lstrip_starts (hb.stripped.starts.append _)]
    exact .br (g := []) (by simp) trivial hb h
  | code hg hs hd h =>
    cases hts
    rw [lstrip_append_ws _ _ hg, lstrip_starts]
    · exact .code (g := []) (by simp) hs hd h
    · exact ⟨'`', _, by rw [ticks_cons hs.pos]; rfl, by decide⟩
  | @link _ g pre name v target tail rest o c ts hg hk hl hv h =>
    rw [lstrip_append_ws _ _ hg, lstrip_starts ((hl.starts _).append _)]
    have h2 := Runs.link (k := .start) (g := []) (by simp) trivial hl hv h
    obtain ⟨n0, r, ws, e, e2, hn⟩ := link_words (fun x hx => (hl.preOk x hx).1) (name ++ [']', o])
    rw [e2] at hts h2
    simp only [wordToks, List.cons_append, List.cons.injEq] at hts
    obtain ⟨rfl, rfl⟩ := hts
    simpa [wordToks, Ctx.gap, gapOf] using h2

theorem rstrip_append_ends {a b : Str} (h : EndsNonWs a) : rstrip (a ++ b) = a ++ rstrip b := by
  by_cases hb : rstrip b = []
  · obtain ⟨r, c, rfl, hc⟩ := h
    rw [rstrip_append_ws _ _ ((rstrip_eq_nil b).1 hb), hb, rstrip_concat_of_not _ _ hc, List.append_nil]
  · exact rstripBy_append_of_ne _ _ _ hb

theorem rstrip_head {s : Str} {c : Char} (h : (rstrip s).head? = some c) : s.head? = some c := by
  obtain ⟨t, ht, _⟩ := rstripBy_split isWs s
  have ht' : s = rstrip s ++ t := ht
  rw [ht']
  cases hr : rstrip s with
  | nil => rw [hr] at h; cases h
  | cons d r => rw [hr] at h; simpa using h

theorem WordEnd.rstrip {r : Str} (h : WordEnd r) : WordEnd (MF.rstrip r) := by
  rcases h with rfl | ⟨c, r', rfl, hc⟩ | ⟨b, r', rfl, hb⟩
  · exact .inl rfl
  · cases hr : MF.rstrip (c :: r') with
    | nil => exact .inl rfl
    | cons d r'' =>
      have := rstrip_head (s := c :: r') (c := d) (by rw [hr]; rfl)
      simp at this
      subst this
      exact .inr (.inl ⟨c, r'', rfl, hc⟩)
  · rw [rstrip_append_ends hb.stripped.ends]
    exact .inr (.inr ⟨b, _, rfl, hb⟩)

theorem Runs.rstrip {k : Ctx} {s : Str} {ts : List Tok} (h : Runs k s ts) : Runs k (MF.rstrip s) ts := by
  induction h with
  | nil h => rw [(rstrip_eq_nil _).2 h]; exact .nil (by simp)
  | @word k g w rest ts hg hk hw hr h ih =>
    have h1 := (Stripped.noWs hw.ne hw.noWs).ends
    rw [← List.append_assoc, rstrip_append_ends (h1.prepend g), List.append_assoc]
    exact .word hg hk hw hr.rstrip ih
  | @br k g b rest ts hg hk hb h ih =>
    rw [← List.append_assoc, rstrip_append_ends (hb.stripped.ends.prepend g), List.append_assoc]
    exact .br hg hk hb ih
  | @code k g body dot rest n ts hg hs hd h ih =>
    have h1 := (code_stripped (body := body) hs.pos hd.dots).ends
    have e : ∀ x, g ++ (ticks n ++ (body ++ (ticks n ++ (dot ++ x)))) =
      (g ++ (ticks n ++ (body ++ (ticks n ++ dot)))) ++ x := by intro x; simp
    rw [e, rstrip_append_ends (h1.prepend g), ← e]
    refine .code hg hs ⟨?_, ?_⟩ ih
    · rcases hd.dot with ⟨h1, h2⟩ | ⟨h1, h2⟩
      · exact .inl ⟨h1, fun h => h2 (rstrip_head h)⟩
      · exact .inr ⟨h1, fun h => h2 (rstrip_head h)⟩
    · cases ts with
      | nil => rw [(rstrip_eq_nil _).2 h.nil_ws]; rfl
      | cons t ts => rw [ih.singleDot, ← h.singleDot, hd.next]

  | @link k g pre name v target tail rest o c ts hg hk hl hv h ih =>
    rw [← List.append_assoc, rstrip_append_ends ((hl.ends _).prepend g), List.append_assoc]
    exact .link hg hk hl hv ih

theorem Runs.strip {k : Ctx} {s : Str} {t : Tok} {ts : List Tok} (h : Runs k s (t :: ts)) :
    Runs .start (MF.strip s) (⟨.glue, t.text⟩ :: ts) := h.lstrip.rstrip

theorem Runs.ne_nil {k : Ctx} {s : Str} {t : Tok} {ts : List Tok} (h : Runs k s (t :: ts)) : MF.strip s ≠ [] := by
  obtain ⟨g, r, _, rfl, _, hst, _⟩ := h.first
  intro h0
  obtain ⟨c, r', hc, hc2⟩ := hst.starts
  have := (strip_eq_nil _).1 h0 c (by rw [hc]; simp)
  rw [hc2] at this; cases this

/-- the gap in front of the first token -/
theorem Runs.first_gap {s : Str} {t : Tok} {ts : List Tok} (h : Runs .start s (t :: ts))
    (hsp : ∀ c ∈ s, isWs c = true → c = ' ') : t.gap = if startsWith s c!" " then .space else .glue := by
  obtain ⟨g, r, hg, rfl, hgap, hst, _⟩ := h.first
  replace hgap : t.gap = gapOf g := by rcases hgap with h | h <;> exact h
  rw [hgap]
  cases g with
  | nil =>
    obtain ⟨c, r', hc, hc2⟩ := hst.starts
    have : startsWith ([] ++ (t.text ++ r)) c!" " = false := by
      cases h0 : startsWith ([] ++ (t.text ++ r)) c!" " with
      | false => rfl
      | true =>
        obtain ⟨x, hx⟩ := (startsWith_iff _ _).1 h0
        rw [hc] at hx
        simp at hx
        rw [hx.1] at hc2; exact absurd hc2 (by decide)
    rw [this]; rfl
  | cons c g =>
    have hc := hsp c (by simp) (hg c (by simp))
    subst hc
    rw [(startsWith_iff _ _).2 ⟨g ++ (t.text ++ r), by simp⟩]
    rfl

/-! ## Code spans -/

/-- The text between code spans, and the code spans. -/
inductive Coded : Ctx → Str → List Tok → Prop
  | last {k : Ctx} {u : Str} {ts : List Tok} (hu : '`' ∉ u) (h : Runs k u ts) : Coded k u ts
  | code {k : Ctx} {u body dot rest : Str} {n : Nat} {ts ts2 : List Tok} (hu : '`' ∉ u) (h : Runs k u ts) (hs : Span n body)
      (hd : AfterCode dot rest) (hr : Coded .start rest ts2) :
      Coded k (u ++ (ticks n ++ (body ++ (ticks n ++ (dot ++ rest)))))
        (ts ++ ⟨if endsWith u c!" " then .space else .glue, ticks n ++ (body ++ (ticks n ++ dot))⟩ :: ts2)

theorem ws_noTick {g : Str} (hg : ∀ c ∈ g, isWs c = true) : '`' ∉ g := fun h => by
  have := hg _ h; revert this; decide

theorem IsBr.noTick {b : Str} (h : IsBr b) : '`' ∉ b := by
  rcases h with rfl | rfl | rfl | rfl <;> decide

theorem endsWith_append {a u : Str} (hu : u ≠ []) : endsWith (a ++ u) c!" " = endsWith u c!" " := by
  obtain ⟨r, c, rfl⟩ : ∃ r c, u = r ++ [c] := by
    rcases List.eq_nil_or_concat u with h0 | ⟨ls, l, h0⟩
    · exact absurd h0 hu
    · exact ⟨ls, l, by rw [h0, List.concat_eq_append]⟩
  have key : ∀ x : Str, endsWith (x ++ [c]) c!" " = (c == ' ') := by
    intro x
    cases h : endsWith (x ++ [c]) c!" " with
    | true =>
      obtain ⟨y, hy⟩ := (endsWith_iff _ _).1 h
      have := (List.append_inj' hy rfl).2
      simp at this
      simp [this]
    | false =>
      cases hc : c == ' ' with
      | false => rfl
      | true =>
        have hc' : c = ' ' := by simpa using hc
        subst hc'
        rw [(endsWith_iff _ _).2 ⟨x, rfl⟩] at h; cases h
  rw [← List.append_assoc, key, key]

theorem endsWith_nonWs {a : Str} (h : EndsNonWs a) : endsWith a c!" " = false := by
  obtain ⟨r, c, rfl, hc⟩ := h
  cases h : endsWith (r ++ [c]) c!" " with
  | false => rfl
  | true =>
    obtain ⟨y, hy⟩ := (endsWith_iff _ _).1 h
    have := (List.append_inj' hy rfl).2
    simp at this
    rw [this] at hc; exact absurd hc (by decide)

/-- the end of a word, in front of a code span -/
theorem WordEnd.cut {u x : Str} {k : Nat} (hk : 0 < k) (h : WordEnd (u ++ (ticks k ++ x))) : WordEnd u := by
  cases u with
  | nil => exact .inl rfl
  | cons c u =>
    rcases h with h | ⟨d, r, h, hd⟩ | ⟨b, r, h, hb⟩
    · cases h
    · cases h; exact .inr (.inl ⟨_, _, rfl, hd⟩)
    · rcases List.append_eq_append_iff.1 h with ⟨a, e1, e2⟩ | ⟨a, e1, e2⟩
      · cases a with
        | nil => exact .inr (.inr ⟨b, [], by simpa using e1.symm, hb⟩)
        | cons y a =>
          exfalso
          rw [ticks_cons hk] at e2
          have := (List.cons.inj e2).1
          subst this
          exact hb.noTick (by rw [e1]; simp)
      · exact .inr (.inr ⟨b, a, e1, hb⟩)

theorem Runs.coded {k : Ctx} {s : Str} {ts : List Tok} (h : Runs k s ts) (hsp : ∀ c ∈ s, isWs c = true → c = ' ') :
    Coded k s ts := by
  induction h with
  | nil h => exact .last (ws_noTick h) (.nil h)
  | @word k g w rest ts hg hk hw hr h ih =>
    have hgw : '`' ∉ g ++ w := by
      intro h; rcases List.mem_append.1 h with h | h
      · exact ws_noTick hg h
      · exact hw.noTick h
    cases ih fun c hc => hsp c (by simp [hc]) with
    | last hu h => exact .last (by simp at hgw ⊢; exact ⟨hgw.1, hgw.2, hu⟩) (.word hg hk hw hr h)
    | @code _ u body dot rest n ts ts2 hu hu2 hs hd hr' =>
      have h1 : Runs k (g ++ (w ++ u)) (⟨gapOf g, w⟩ :: ts) := .word hg hk hw (hr.cut hs.pos) hu2
      have h2 := Coded.code (u := g ++ (w ++ u)) (by simp at hgw ⊢; exact ⟨hgw.1, hgw.2, hu⟩) h1 hs hd hr'
      have e : endsWith (g ++ (w ++ u)) c!" " = endsWith u c!" " := by
        by_cases hu0 : u = []
        · subst hu0
          rw [List.append_nil, endsWith_nonWs ((Stripped.noWs hw.ne hw.noWs).ends.prepend g)]
          rfl
        · rw [← List.append_assoc, endsWith_append hu0]
      rw [e] at h2
      simpa using h2
  | @br k g b rest ts hg hk hb h ih =>
    have hgw : '`' ∉ g ++ b := by
      intro h; rcases List.mem_append.1 h with h | h
      · exact ws_noTick hg h
      · exact hb.noTick h
    cases ih fun c hc => hsp c (by simp [hc]) with
    | last hu h => exact .last (by simp at hgw ⊢; exact ⟨hgw.1, hgw.2, hu⟩) (.br hg hk hb h)
    | @code _ u body dot rest n ts ts2 hu hu2 hs hd hr' =>
      have h1 : Runs k (g ++ (b ++ u)) (⟨gapOf g, b⟩ :: ts) := .br hg hk hb hu2
      have h2 := Coded.code (u := g ++ (b ++ u)) (by simp at hgw ⊢; exact ⟨hgw.1, hgw.2, hu⟩) h1 hs hd hr'
      have e : endsWith (g ++ (b ++ u)) c!" " = endsWith u c!" " := by
        by_cases hu0 : u = []
        · subst hu0
          rw [List.append_nil, endsWith_nonWs (hb.stripped.ends.prepend g)]
          rfl
        · rw [← List.append_assoc, endsWith_append hu0]
      rw [e] at h2
      simpa using h2
  | @code k g body dot rest n ts hg hs hd h ih =>
    have h2 := Coded.code (k := k) (ws_noTick hg) (.nil hg) hs hd (ih fun c hc => hsp c (by simp [hc]))
    have e : gapOf g = if endsWith g c!" " then .space else .glue := by
      rcases List.eq_nil_or_concat g with h0 | ⟨x, c, h0⟩
      · subst h0; rfl
      · have hc := hsp c (by rw [h0]; simp) (hg c (by rw [h0]; simp))
        subst hc
        rw [h0, List.concat_eq_append, (endsWith_iff _ _).2 ⟨x, rfl⟩]
        cases x <;> rfl
    rw [e]
    simpa using h2
  | @link k g pre name v target tail rest o c ts hg hk hl hv h ih =>
    have hgw : '`' ∉ g ++ linkText o c pre name (v ++ target) tail := by
      have h0 := hl.noTick
      unfold linkText at h0 ⊢
      simp only [List.mem_append, List.mem_cons] at h0 ⊢
      have h1 := ws_noTick hg
      have h2 := ws_noTick hv
      rintro (h | h | h | h | h | h | (h | h) | h | h)
      · exact h1 h
      · exact h0 (.inl h)
      · exact absurd h (by decide)
      · exact h0 (.inr (.inr (.inl h)))
      · exact absurd h (by decide)
      · exact h0 (.inr (.inr (.inr (.inr (.inl h)))))
      · exact h2 h
      · exact h0 (.inr (.inr (.inr (.inr (.inr (.inl h))))))
      · exact h0 (.inr (.inr (.inr (.inr (.inr (.inr (.inl h)))))))
      · exact h0 (.inr (.inr (.inr (.inr (.inr (.inr (.inr h)))))))
    cases ih fun c hc => hsp c (by simp [hc]) with
    | last hu h2 => exact .last (by simp at hgw ⊢; exact ⟨hgw.1, hgw.2, hu⟩) (.link hg hk hl hv h2)
    | @code _ u body dot rest n ts ts2 hu hu2 hs hd hr' =>
      have h1 := Runs.link (k := k) hg hk hl hv hu2
      have h2 := Coded.code (u := g ++ (linkText o c pre name (v ++ target) tail ++ u))
        (by simp at hgw ⊢; exact ⟨hgw.1, hgw.2, hu⟩) h1 hs hd hr'
      have e : endsWith (g ++ (linkText o c pre name (v ++ target) tail ++ u)) c!" " = endsWith u c!" " := by
        by_cases hu0 : u = []
        · subst hu0
          rw [List.append_nil, endsWith_nonWs ((hl.ends _).prepend g)]
          rfl
        · rw [← List.append_assoc, endsWith_append hu0]
      rw [e] at h2
      simpa using h2

end MF
