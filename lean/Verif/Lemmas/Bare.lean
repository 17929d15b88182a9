import Verif.Lemmas.InlineCode
/-!
# Text without code spans and links
-/

namespace MF

/-- A word between links: no white space and no line break in it. -/
structure BareWord (w : Str) : Prop where
  ne : w ≠ []
  noWs : ∀ c ∈ w, isWs c = false
  noBr : ¬ c!"<br" <:+: w

/-- The tokens of a text without code spans and links. -/
inductive Bare : Str → List Tok → Prop
  | nil {s : Str} (h : ∀ c ∈ s, isWs c = true) : Bare s []
  | word {g w rest : Str} {ts : List Tok} (hg : ∀ c ∈ g, isWs c = true) (hw : BareWord w) (hr : WordEnd rest)
      (h : Bare rest ts) : Bare (g ++ (w ++ rest)) (⟨gapOf g, w⟩ :: ts)
  | br {g b rest : Str} {ts : List Tok} (hg : ∀ c ∈ g, isWs c = true) (hb : IsBr b) (h : Bare rest ts) :
      Bare (g ++ (b ++ rest)) (⟨gapOf g, b⟩ :: ts)

theorem Bare.nil_ws {s : Str} (h : Bare s []) : ∀ c ∈ s, isWs c = true := by
  generalize hts : ([] : List Tok) = ts at h
  cases h with
  | nil h => exact h
  | word => cases hts
  | br => cases hts

theorem Bare.first {s : Str} {t : Tok} {ts : List Tok} (h : Bare s (t :: ts)) :
    ∃ g r, (∀ c ∈ g, isWs c = true) ∧ s = g ++ (t.text ++ r) ∧ t.gap = gapOf g ∧ Stripped t.text := by
  generalize hts : t :: ts = ts' at h
  cases h with
  | nil => cases hts
  | word hg hw hr h => cases hts; exact ⟨_, _, hg, rfl, rfl, .noWs hw.ne hw.noWs⟩
  | br hg hb h => cases hts; exact ⟨_, _, hg, rfl, rfl, hb.stripped⟩

theorem Bare.lstrip {s : Str} {t : Tok} {ts : List Tok} (h : Bare s (t :: ts)) :
    Bare (MF.lstrip s) (⟨.glue, t.text⟩ :: ts) := by
  generalize hts : t :: ts = ts' at h
  cases h with
  | nil => cases hts
  | word hg hw hr h =>
    cases hts
    rw [lstrip_append_ws _ _ hg, lstrip_starts ((Stripped.noWs hw.ne hw.noWs).starts.append _)]
    exact .word (g := []) (by simp) hw hr h
  | br hg hb h =>
    cases hts
    rw [lstrip_append_ws _ _ hg, lstrip_starts (hb.stripped.starts.append _)]
    exact .br (g := []) (by simp) hb h

theorem Bare.rstrip {s : Str} {ts : List Tok} (h : Bare s ts) : Bare (MF.rstrip s) ts := by
  induction h with
  | nil h => rw [(rstrip_eq_nil _).2 h]; exact .nil (by simp)
  | @word g w rest ts hg hw hr h ih =>
    have h1 := (Stripped.noWs hw.ne hw.noWs).ends
    rw [← List.append_assoc, rstrip_append_ends (h1.prepend g), List.append_assoc]
    exact .word hg hw hr.rstrip ih
  | @br g b rest ts hg hb h ih =>
    rw [← List.append_assoc, rstrip_append_ends (hb.stripped.ends.prepend g), List.append_assoc]
    exact .br hg hb ih

theorem Bare.strip {s : Str} {t : Tok} {ts : List Tok} (h : Bare s (t :: ts)) :
    Bare (MF.strip s) (⟨.glue, t.text⟩ :: ts) := h.lstrip.rstrip

theorem Bare.ne_nil {s : Str} {t : Tok} {ts : List Tok} (h : Bare s (t :: ts)) : MF.strip s ≠ [] := by
  obtain ⟨g, r, _, rfl, _, hst⟩ := h.first
  intro h0
  obtain ⟨c, r', hc, hc2⟩ := hst.starts
  have := (strip_eq_nil _).1 h0 c (by rw [hc]; simp)
  rw [hc2] at this; cases this

/-- the gap in front of the first token -/
theorem Bare.first_gap {s : Str} {t : Tok} {ts : List Tok} (h : Bare s (t :: ts))
    (hsp : ∀ c ∈ s, isWs c = true → c = ' ') : t.gap = if startsWith s c!" " then .space else .glue := by
  obtain ⟨g, r, hg, rfl, hgap, hst⟩ := h.first
  rw [hgap]
  cases g with
  | nil =>
    obtain ⟨c, r', hc, hc2⟩ := hst.starts
    have : startsWith ([] ++ (t.text ++ r)) c!" " = false := startsWith_nonWs (by
      intro d hd; rw [hc] at hd; simp at hd; rw [← hd]; exact hc2)
    rw [this]; rfl
  | cons c g =>
    have hc := hsp c (by simp) (hg c (by simp))
    subst hc
    rw [(startsWith_iff _ _).2 ⟨g ++ (t.text ++ r), by simp⟩]
    rfl

theorem IsBr.tag {b : Str} (h : IsBr b) : ∃ r, b = c!"<br" ++ r := by
  rcases h with rfl | rfl | rfl | rfl <;> exact ⟨_, rfl⟩

theorem PlainWord.bare {w : Str} (h : PlainWord w) : BareWord w := ⟨h.ne, h.noWs, h.noBr⟩

theorem linkText_pair (o c : Char) (pre name target tail : Str) : [']', o] <:+: linkText o c pre name target tail :=
  ⟨pre ++ '[' :: name, target ++ c :: tail, by simp [linkText]⟩

theorem Link.kind' {o c : Char} {pre name target tail : Str} (h : Link o c pre name target tail) : o = '(' ∨ o = '[' := by
  rcases h.kind with ⟨h, _⟩ | ⟨h, _⟩
  · exact .inl h
  · exact .inr h

/-- No link in the text. -/
def NoPair (u : Str) : Prop := ¬ c!"](" <:+: u ∧ ¬ c!"][" <:+: u

theorem NoPair.not {u : Str} (h : NoPair u) {o : Char} (ho : o = '(' ∨ o = '[') : ¬ [']', o] <:+: u := by
  rcases ho with rfl | rfl
  · exact h.1
  · exact h.2

theorem NoPair.infix {u w : Str} (h : NoPair u) (hw : w <:+: u) : NoPair w :=
  ⟨fun h0 => h.1 (h0.trans hw), fun h0 => h.2 (h0.trans hw)⟩

theorem Runs.bare {k : Ctx} {s : Str} {ts : List Tok} (h : Runs k s ts) (ht : '`' ∉ s) (hp : NoPair s) : Bare s ts := by
  induction h with
  | nil h => exact .nil h
  | @word k g w rest ts hg hk hw hr h ih =>
    exact .word hg hw.bare hr (ih (fun h => ht (by simp [h])) (hp.infix ⟨g ++ w, [], by simp⟩))
  | @br k g b rest ts hg hk hb h ih =>
    exact .br hg hb (ih (fun h => ht (by simp [h])) (hp.infix ⟨g ++ b, [], by simp⟩))
  | @code k g body dot rest n ts hg hs hd h ih =>
    exfalso
    apply ht
    rw [ticks_cons hs.pos]
    simp
  | @link k g pre name v target tail rest o c ts hg hk hl hv h ih =>
    exact absurd ((linkText_pair o c pre name (v ++ target) tail).trans ⟨g, rest, by simp⟩) (hp.not hl.kind')

/-- the words of a text without line breaks -/
theorem bare_words : ∀ (n : Nat) (s : Str), s.length ≤ n → ¬ c!"<br" <:+: s →
    Bare s (wordToks (gapOf (s.takeWhile isWs)) (splitWs s)) := by
  intro n
  induction n with
  | zero =>
    intro s hs _
    have : s = [] := List.length_eq_zero_iff.1 (by omega)
    subst this
    exact .nil (by simp)
  | succ n ih =>
    intro s hs hb
    have hg : ∀ c ∈ s.takeWhile isWs, isWs c = true := fun c hc =>
      List.all_eq_true.1 (List.all_takeWhile (p := isWs) (l := s)) c hc
    have e := List.takeWhile_append_dropWhile (p := isWs) (l := s)
    cases hd : s.dropWhile isWs with
    | nil =>
      rw [hd, List.append_nil] at e
      rw [e] at hg
      rw [splitWs_all_ws hg]
      exact .nil hg
    | cons d x =>
      have hd2 : isWs d = false := by
        have := List.head?_dropWhile_not isWs s
        rw [hd] at this
        simpa using this
      generalize hgg : s.takeWhile isWs = g at *
      rw [hd] at e
      have e2 := List.takeWhile_append_dropWhile (p := fun c => !isWs c) (l := x)
      have hall : ∀ c ∈ x.takeWhile (fun c => !isWs c), isWs c = false := fun c hc => by
        have := List.all_eq_true.1 (List.all_takeWhile (p := fun c => !isWs c) (l := x)) c hc
        simpa using this
      have hsp : splitWs s = (d :: x.takeWhile (fun c => !isWs c)) :: splitWs (x.dropWhile (fun c => !isWs c)) := by
        rw [← e, splitWs_prepend_all hg, splitWs_first x hd2]
      rw [hsp]
      have hrest : ∀ c, (x.dropWhile (fun c => !isWs c)).head? = some c → isWs c = true := by
        intro c hc
        have := List.head?_dropWhile_not (fun c => !isWs c) x
        rw [hc] at this
        simpa using this
      generalize hr : x.dropWhile (fun c => !isWs c) = rest at *
      generalize hw : x.takeWhile (fun c => !isWs c) = w at *
      have es : s = g ++ ((d :: w) ++ rest) := by rw [← e, ← e2]; rfl
      have hI := ih rest (by rw [es] at hs; simp at hs; omega) (fun h => hb (h.trans ⟨g ++ d :: w, [], by rw [es]; simp⟩))
      have hbw : BareWord (d :: w) := ⟨by simp, by
        intro c hc
        rcases List.mem_cons.1 hc with rfl | hc
        · exact hd2
        · exact hall c hc, fun h => hb (h.trans ⟨g, rest, by rw [es]; simp⟩)⟩
      have hwe : WordEnd rest := by
        cases rest with
        | nil => exact .inl rfl
        | cons c r => exact .inr (.inl ⟨c, r, rfl, .inl (hrest c rfl)⟩)
      have hgap : wordToks (gapOf (rest.takeWhile isWs)) (splitWs rest) = (splitWs rest).map fun v => ⟨.space, v⟩ := by
        cases rest with
        | nil => rfl
        | cons c r =>
          rw [List.takeWhile_cons, if_pos (hrest c rfl), gapOf_cons]
          cases splitWs (c :: r) <;> rfl
      rw [hgap] at hI
      rw [es]
      exact .word hg hbw hwe hI

end MF
