import Verif.Props.FenceDoc
import Verif.Props.Extents
import Verif.Props.Prose
/-!
# C97: exactly when wrapping keeps a paragraph a paragraph
-/

namespace MF

theorem continues_of_textEnd {l : Str} (h : textEnd l = false) : Continues l := by
  rw [textEnd_eq, Bool.or_eq_false_iff, Bool.or_eq_false_iff] at h
  exact ⟨h.1.2, h.1.1, h.2⟩

/-- Lines of text are one paragraph. -/
theorem parse_textBlock {n : Nat} {ls : List Str} (h : TextBlock ls) (hl : ∀ l, ls.head? = some l → NoLabel l)
    (hh : 2 ≤ ls.length → ∀ l, ls.getLast? = some l → hardBreak l = false) : parse (n + 1) ls = .ok [(.par, ls)] := by
  obtain ⟨l, body, rfl⟩ := List.exists_cons_of_ne_nil h.some
  have hfirst : firstSection (splitters (splitQuote (n + 1))) (l :: body) = .ok (.par, l :: body, []) := by
    have hp := (isParStart_kind l).2 (h.first l rfl)
    cases hb : endsWith l c!"  " with
    | false =>
      have := firstSection_par (n := n) (l := l) body [] hp (hl l rfl) hb ?_ (by intro x hx; cases hx)
        (by intro x hx; cases hx)
      · simpa using this
      · intro x hx
        refine ⟨continues_of_textEnd (h.further x hx), ?_⟩
        have h2 := hh (by cases body with | nil => cases hx | cons => simp)
        rcases List.eq_nil_or_concat body with h0 | ⟨zs, z, h0⟩
        · rw [h0] at hx; cases hx
        · rw [List.concat_eq_append] at h0
          subst h0
          rcases List.mem_append.1 hx with hx | hx
          · refine h.hard x ?_
            rw [← List.cons_append, List.dropLast_concat]
            simp [hx]
          · simp at hx
            subst hx
            exact h2 x (by rw [← List.cons_append, List.getLast?_concat])
    | true =>
      have hbody : body = [] := by
        cases body with
        | nil => rfl
        | cons b body =>
          have := h.hard l (by simp)
          rw [hardBreak, hb] at this
          cases this
      subst hbody
      simp only [isParStart, List.any_cons, List.any_nil, Bool.or_false, Bool.not_eq_true', Bool.or_eq_false_iff] at hp
      obtain ⟨p1, p2, p3, p4, p5, p6, p7, p8, p9⟩ := hp
      unfold splitters
      rw [firstSection_skip (splitAtx_eq_nil _ p2), firstSection_skip (splitBlank_eq_nil _ p3),
        firstSection_skip (splitQuote_unquoted n _ p5), firstSection_skip (splitBullet_eq_nil _ p4),
        firstSection_skip (splitFenced_eq_nil _ p6), firstSection_skip (splitIndented_eq_nil _ p1),
        firstSection_skip (splitLrd_eq_nil _ (hl l rfl)), firstSection_skip (splitOrdered_eq_nil _ p7)]
      refine firstSection_take ?_ (by simp)
      have hp' := (isParStart_kind l).2 (h.first l rfl)
      simp only [splitPar, splitParIgn, hp', hb, bind, Except.bind]
      rfl
  have := parse_of_first (n := n + 1) [(.par, l :: body)] (by
    intro a b c habc
    cases a with
    | nil =>
      rw [List.nil_append] at habc
      obtain ⟨rfl, rfl⟩ := List.cons.inj habc
      exact ⟨by simp, by simpa [linesOf] using hfirst⟩
    | cons x a => simp at habc)
  simpa [linesOf] using this

/-- A hard break at the end of the last of several lines is not survived. -/
theorem parse_hard_end {n : Nat} {ls : List Str} (h : TextBlock ls) (hl : ∀ l, ls.head? = some l → NoLabel l)
    (h2 : 2 ≤ ls.length) (hh : ∀ l, ls.getLast? = some l → hardBreak l = true) :
    parse (n + 1) ls = .error .stopIteration := by
  obtain ⟨l, body, rfl⟩ := List.exists_cons_of_ne_nil h.some
  rcases List.eq_nil_or_concat body with h0 | ⟨zs, z, h0⟩
  · rw [h0] at h2; simp at h2
  rw [List.concat_eq_append] at h0
  subst h0
  have hp := (isParStart_kind l).2 (h.first l rfl)
  have hb : endsWith l c!"  " = false := h.hard l (by rw [← List.cons_append, List.dropLast_concat]; simp)
  have hz : endsWith z c!"  " = true := hh z (by rw [← List.cons_append, List.getLast?_concat])
  have hloop : ∀ zs : List Str, (∀ x ∈ zs, Continues x ∧ endsWith x c!"  " = false) → Continues z →
      parLoop (splitQuote (n + 1)) (zs ++ [z]) = .error .stopIteration := by
    intro zs hzs hc
    induction zs with
    | nil =>
      simp only [List.nil_append, parLoop, isParCont_eq _ hc.quote, bind, Except.bind, hc.inter, hc.setext, hz]
      rfl
    | cons x zs ih =>
      obtain ⟨c1, c2⟩ := hzs x (by simp)
      simp only [List.cons_append, parLoop, isParCont_eq _ c1.quote, bind, Except.bind, c1.inter, c1.setext, c2,
        ih fun x hx => hzs x (by simp [hx])]
      rfl
  have hloop := hloop zs (fun x hx => ⟨continues_of_textEnd (h.further x (by simp [hx])),
    h.hard x (by rw [← List.cons_append, List.dropLast_concat]; simp [hx])⟩)
    (continues_of_textEnd (h.further z (by simp)))
  have hpar : splitPar (splitQuote (n + 1)) (l :: (zs ++ [z])) = .error .stopIteration := by
    simp only [splitPar, splitParIgn, hp, hb, hloop, bind, Except.bind]
    rfl
  have hfirst : firstSection (splitters (splitQuote (n + 1))) (l :: (zs ++ [z])) = .error .stopIteration := by
    simp only [isParStart, List.any_cons, List.any_nil, Bool.or_false, Bool.not_eq_true', Bool.or_eq_false_iff] at hp
    obtain ⟨p1, p2, p3, p4, p5, p6, p7, p8, p9⟩ := hp
    unfold splitters
    rw [firstSection_skip (splitAtx_eq_nil _ p2), firstSection_skip (splitBlank_eq_nil _ p3),
      firstSection_skip (splitQuote_unquoted n _ p5), firstSection_skip (splitBullet_eq_nil _ p4),
      firstSection_skip (splitFenced_eq_nil _ p6), firstSection_skip (splitIndented_eq_nil _ p1),
      firstSection_skip (splitLrd_eq_nil _ (hl l rfl)), firstSection_skip (splitOrdered_eq_nil _ p7)]
    simp only [firstSection, hpar, bind, Except.bind]
  show parseLoop _ _ _ = _
  simp only [List.length_cons, parseLoop, hfirst, bind, Except.bind]

/-- A document that is one paragraph with the tokens `ts`, which do not begin with an opening bracket. -/
structure OnePar (n : Nat) (text : Str) (ts : List Tok) : Prop where
  parse : parse (n + 1) (splitlines text) = .ok [(.par, splitlines text)]
  inline : Inline (pyJoin c!" " ((splitlines text).map strip)) ts
  label : ∀ t, ts.head? = some t → t.text.head? ≠ some '['

/-- The document ends with a hard break. -/
def endsHard (text : Str) : Bool := (splitlines text).getLast?.any hardBreak

/-- No line but the first one ends a paragraph, and the first one is text. -/
def ParLines (ls : List Str) : Prop := (∀ l, ls.head? = some l → kindOf l = none) ∧ ∀ l ∈ ls.tail, textEnd l = false

instance (ls : List Str) : Decidable (ParLines ls) :=
  decidable_of_iff ((ls.head?.all fun l => kindOf l == none) = true ∧ ∀ l ∈ ls.tail, textEnd l = false) (by
    unfold ParLines
    cases ls <;> simp)

theorem wrap_line {s : Str} {ts : List Tok} (h : Inline s ts) (w : Width) : wrap s w = .ok (pyJoin ['\n'] (layLines w ts)) := by
  apply wrap_fill
  rwa [wrapInput_line (spaces_noLB h.spaces) h.stripped]

theorem settle_line {s : Str} {ts : List Tok} (h : Inline s ts) (w : Width) :
    Inline (pyJoin c!" " ((layLines w ts).map strip)) (settle w ts) := by
  have h0 : wrapInput s = s := wrapInput_line (spaces_noLB h.spaces) h.stripped
  have hi : Inline (wrapInput s) ts := by rwa [h0]
  have := C56_tokens hi (wrap_line h w)
  rwa [wrapInput, splitlines_layLines hi w] at this

theorem layLines_nonempty {ts : List Tok} {w : Width} (h : ts ≠ []) : layLines w ts ≠ [] := by
  intro h0
  have := lay_flatten w ts []
  rw [List.map_eq_nil_iff.1 h0] at this
  exact h (by simpa using this.symm)

theorem layLines_label {s : Str} {ts : List Tok} (h : Inline s ts) (w : Width)
    (hl : ∀ t, ts.head? = some t → t.text.head? ≠ some '[') : ∀ l, (layLines w ts).head? = some l →
      l.head? ≠ some '[' := by
  intro l hx
  cases hlay : lay w [] ts with
  | nil => rw [layLines, hlay] at hx; cases hx
  | cons a ls =>
    have hne := lay_ne w ts [] a (by rw [hlay]; simp)
    have hfl := lay_flatten w ts []
    obtain ⟨t, a, rfl⟩ := List.exists_cons_of_ne_nil hne
    rw [hlay, List.nil_append, List.flatten_cons, List.cons_append] at hfl
    have ht : ts.head? = some t := by rw [← hfl]; rfl
    have htm : t ∈ ts := List.mem_of_mem_head? ht
    rw [layLines, hlay] at hx
    cases hx
    have h1 := hl t ht
    have h2 := (h.runs.tok t htm).1.1
    show (t.text ++ _).head? ≠ _
    cases htt : t.text with
    | nil => exact absurd htt h2
    | cons c r => rw [htt] at h1; simpa using h1

theorem OnePar.some {n : Nat} {text : Str} {ts : List Tok} (h : OnePar n text ts) : splitlines text ≠ [] :=
  (C52_extent (pre := []) (post := []) h.parse).1.some

theorem OnePar.ne {n : Nat} {text : Str} {ts : List Tok} (h : OnePar n text ts) (w : Width) : layLines w ts ≠ [] := by
  refine layLines_nonempty ?_
  rintro rfl
  obtain ⟨l, ls, hs⟩ := List.exists_cons_of_ne_nil h.some
  have hk := (C52_extent (pre := []) (post := []) h.parse).1.first l (by rw [hs]; rfl)
  have hall : ∀ c ∈ pyJoin c!" " ((splitlines text).map strip), isWs c = true := h.inline.runs.nil_ws
  have hl : strip l = [] := by
    rw [← strip_idem, strip_eq_nil]
    intro c hc
    refine hall c ?_
    rw [hs, List.map_cons]
    cases hm : ls.map strip with
    | nil => exact hc
    | cons a b => rw [pyJoin_cons_ne (by simp)]; simp [hc]
  rw [strip_eq_nil, ← lstrip_eq_nil] at hl
  have h0 : l.dropWhile isWs = [] := hl
  simp [kindOf, h0] at hk

/-- What is written behind the last line. -/
def hardTail (text : Str) : Str := if endsHard text then c!"  " else []

/-- One pass puts the tokens into lines. -/
theorem C97_pass {n : Nat} {text : Str} {ts : List Tok} (h : OnePar n text ts) (w : Width) :
    reformatText (n + 2) w text = .ok (pyJoin ['\n'] (layLines w ts) ++ hardTail text ++ ['\n']) := by
  refine reformat_single h.parse rfl ?_
  show fmtPar w _ = _
  have hw := wrap_line h.inline w
  rcases List.eq_nil_or_concat (splitlines text) with h0 | ⟨zs, z, h0⟩
  · exact absurd h0 h.some
  rw [List.concat_eq_append] at h0
  have hg : (splitlines text).getLast? = some z := by rw [h0, List.getLast?_concat]
  have hd : endsHard text = endsWith z c!"  " := by rw [endsHard, hg]; rfl
  simp only [fmtPar, parContent, hw, bind, Except.bind, hardTail, hg, hd]
  split <;> simp

theorem layLines_stripped {s : Str} {ts : List Tok} (h : Inline s ts) (w : Width) : ∀ l ∈ layLines w ts, NoLB l ∧ Stripped l :=
  layLines_ok h (spaces_noLB h.spaces) w

theorem hardBreak_stripped {l : Str} (h : Stripped l) : hardBreak l = false := by
  cases hb : hardBreak l with
  | false => rfl
  | true =>
    rw [hardBreak, endsWith_iff] at hb
    obtain ⟨r, rfl⟩ := hb
    have := ((stripped_iff _).1 h).2.2 (r ++ [' ']) ' ' (by simp)
    exact absurd this (by decide)

theorem hardBreak_append (l : Str) : hardBreak (l ++ c!"  ") = true := by
  rw [hardBreak, endsWith_iff]
  exact ⟨l, rfl⟩

theorem noLabel_of_head {l : Str} (h : Stripped l) (hl : l.head? ≠ some '[') : NoLabel l := by
  intro h0
  rw [firstCh, ← h.2, lstrip_strip, h.2] at h0
  exact absurd h0 hl

theorem rstrip_join {ls : List Str} (h : ∀ l ∈ ls, Stripped l) (hne : ls ≠ []) {ws : Str} (hw : ∀ c ∈ ws, isWs c = true) :
    rstrip (pyJoin ['\n'] ls ++ ws) = pyJoin ['\n'] ls := by
  rw [rstrip_append_ws _ _ hw]
  rcases List.eq_nil_or_concat ls with h0 | ⟨zs, z, h0⟩
  · exact absurd h0 hne
  rw [List.concat_eq_append] at h0
  subst h0
  have hz := (stripped_iff _).1 (h z (by simp))
  rcases List.eq_nil_or_concat z with h0 | ⟨r, c, h0⟩
  · exact absurd h0 hz.1
  rw [List.concat_eq_append] at h0
  subst h0
  have hc := hz.2.2 r c rfl
  cases zs with
  | nil => exact rstrip_concat_of_not _ _ hc
  | cons a zs =>
    rw [pyJoin_append (by simp) (by simp)]
    show rstrip (_ ++ (r ++ [c])) = _ ++ (r ++ [c])
    rw [← List.append_assoc, rstrip_concat_of_not _ _ hc]

theorem settle_head (w : Width) (ts : List Tok) : (settle w ts).head? = ts.head? := by
  have hfl := lay_flatten w ts []
  rw [settle]
  cases hlay : lay w [] ts with
  | nil => rw [hlay] at hfl; rw [← List.nil_append ts, ← hfl]; rfl
  | cons a ls =>
    have hne := lay_ne w ts [] a (by rw [hlay]; simp)
    obtain ⟨t, a, rfl⟩ := List.exists_cons_of_ne_nil hne
    rw [hlay, List.nil_append] at hfl
    rw [← hfl]
    rfl

/-- The lines are read as a paragraph again, and nothing moves. -/
theorem C97_same {n : Nat} {text : Str} {ts : List Tok} (h : OnePar n text ts) (w : Width) (hh : endsHard text = false)
    (hp : ParLines (layLines w ts)) :
    reformatMarkdownText (n + 2) w text = .ok (pyJoin ['\n'] (layLines w ts) ++ ['\n']) ∧
      parse (n + 1) (splitlines (pyJoin ['\n'] (layLines w ts) ++ ['\n'])) = .ok [(.par, layLines w ts)] := by
  have hok := layLines_stripped h.inline w
  have hne := h.ne w
  have h1 := C97_pass h w
  have hsl := splitlines_join_nl _ (fun l hl => (hok l hl).1) hne
  have htail : hardTail text = [] := by rw [hardTail, hh]; rfl
  rw [htail, List.append_nil] at h1
  have hparse : parse (n + 1) (layLines w ts) = .ok [(.par, layLines w ts)] := by
    refine parse_textBlock ⟨hp.1, hp.2, ?_, hne⟩ ?_ ?_
    · intro l hl
      exact hardBreak_stripped (hok l (List.dropLast_subset _ hl)).2
    · intro l hl
      exact noLabel_of_head (hok l (List.mem_of_mem_head? hl)).2 (layLines_label h.inline w h.label l hl)
    · intro _ l hl
      exact hardBreak_stripped (hok l (List.mem_of_getLast? hl)).2
  have hone : OnePar n (pyJoin ['\n'] (layLines w ts) ++ ['\n']) (settle w ts) := by
    refine ⟨by rw [hsl]; exact hparse, by rw [hsl]; exact settle_line h.inline w, ?_⟩
    rw [settle_head]
    exact h.label
  have h2 := C97_pass hone w
  have hh2 : hardTail (pyJoin ['\n'] (layLines w ts) ++ ['\n']) = [] := by
    rw [hardTail, endsHard, hsl]
    cases hg : (layLines w ts).getLast? with
    | none => rfl
    | some l => rw [Option.any_some, hardBreak_stripped (hok l (List.mem_of_getLast? hg)).2]; rfl
  rw [hh2, List.append_nil, layLines_settle] at h2
  refine ⟨?_, by rw [hsl]; exact hparse⟩
  simp only [reformatMarkdownText, bind, Except.bind, h1, h2]
  rw [if_neg (by simp), rstrip_join (fun l hl => (hok l hl).2) hne (by decide)]

/-- C97: after formatting, a paragraph is still one paragraph exactly if no line but the first one looks like something
that ends a paragraph, and the first one looks like text. -/
theorem C97_kept {n : Nat} {text : Str} {ts : List Tok} (h : OnePar n text ts) (w : Width) (hh : endsHard text = false) :
    (∃ y T, reformatMarkdownText (n + 2) w text = .ok y ∧ parse (n + 1) (splitlines y) = .ok [(.par, T)]) ↔
      ParLines (layLines w ts) := by
  constructor
  · rintro ⟨y, T, hy, hT⟩
    have hok := layLines_stripped h.inline w
    have hne := h.ne w
    have h1 := C97_pass h w
    have htail : hardTail text = [] := by rw [hardTail, hh]; rfl
    rw [htail, List.append_nil] at h1
    have hyy : y = pyJoin ['\n'] (layLines w ts) ++ ['\n'] := by
      simp only [reformatMarkdownText, bind, Except.bind, h1] at hy
      split at hy
      · cases hy
      · split at hy
        · cases hy
        · cases hy
          rw [rstrip_join (fun l hl => (hok l hl).2) hne (by decide)]
    rw [hyy, splitlines_join_nl _ (fun l hl => (hok l hl).1) hne] at hT
    have hTT := (C08_parse_partition _ _ _ hT).1
    simp only [List.map_cons, List.map_nil, List.flatten_cons, List.flatten_nil, List.append_nil] at hTT
    subst hTT
    have hb := (C52_extent (pre := []) (post := []) hT).1
    exact ⟨hb.first, hb.further⟩
  · intro hp
    exact ⟨_, _, C97_same h w hh hp⟩

theorem join_last (zs : List Str) (z t : Str) : pyJoin ['\n'] (zs ++ [z]) ++ t = pyJoin ['\n'] (zs ++ [z ++ t]) := by
  cases zs with
  | nil => rfl
  | cons a zs =>
    rw [pyJoin_append (by simp) (by simp), pyJoin_append (by simp) (by simp), List.append_assoc]
    rfl

/-- A hard break at the end of the document is left out if the paragraph is on one line. -/
theorem C97_hard_one {n : Nat} {text z : Str} {ts : List Tok} (h : OnePar n text ts) (w : Width) (hh : endsHard text = true)
    (hz : layLines w ts = [z]) (hk : kindOf (z ++ c!"  ") = none) :
    reformatMarkdownText (n + 2) w text = .ok (z ++ ['\n']) := by
  have hok := layLines_stripped h.inline w
  have hne := h.ne w
  have h1 := C97_pass h w
  have htail : hardTail text = c!"  " := by rw [hardTail, hh]; rfl
  obtain ⟨hzl, hzs⟩ := hok z (by rw [hz]; simp)
  have hlb : NoLB (z ++ c!"  ") := hzl.append (by intro c hc; simp at hc; rw [hc]; decide)
  have hsl : splitlines (z ++ c!"  " ++ ['\n']) = [z ++ c!"  "] := splitlines_join_nl [z ++ c!"  "] (by simpa using hlb) (by simp)
  have hset := settle_line h.inline w
  rw [htail, hz] at h1
  have hstr : strip (z ++ c!"  ") = strip z := by
    rw [← strip_rstrip, rstrip_append_ws _ _ (by decide), strip_rstrip]
  have hone : OnePar n (z ++ c!"  " ++ ['\n']) (settle w ts) := by
    refine ⟨?_, ?_, by rw [settle_head]; exact h.label⟩
    · rw [hsl]
      refine parse_textBlock ⟨?_, by simp, by simp, by simp⟩ ?_ (by simp)
      · intro l hl; cases hl; exact hk
      · intro l hl
        cases hl
        intro h0
        have h2 : firstCh z = some '[' := by
          rw [firstCh] at h0 ⊢
          obtain ⟨c, r, rfl⟩ := List.exists_cons_of_ne_nil hzs.1
          have hc := ((stripped_iff _).1 hzs).2.1 c r rfl
          rw [List.cons_append, lstrip_cons_of_not _ _ hc] at h0
          rw [lstrip_cons_of_not _ _ hc]
          exact h0
        rw [firstCh, ← hzs.2, lstrip_strip, hzs.2] at h2
        exact absurd h2 (layLines_label h.inline w h.label z (by rw [hz]; rfl))
    · rw [hsl]
      rw [hz] at hset
      simpa [hstr] using hset
  have h2 := C97_pass hone w
  have hh2 : hardTail (z ++ c!"  " ++ ['\n']) = c!"  " := by
    rw [hardTail, endsHard, hsl]
    have : hardBreak (z ++ c!"  ") = true := hardBreak_append z
    simp [this]
  rw [hh2, layLines_settle, hz] at h2
  have h1' : reformatText (n + 2) w text = .ok (z ++ c!"  " ++ ['\n']) := h1
  have h2' : reformatText (n + 2) w (z ++ c!"  " ++ ['\n']) = .ok (z ++ c!"  " ++ ['\n']) := h2
  simp only [reformatMarkdownText, bind, Except.bind, h1', h2']
  rw [if_neg (by simp)]
  have := rstrip_join (ls := [z]) (by simpa using hzs) (by simp) (ws := c!"  \n") (by decide)
  rw [List.append_assoc]
  exact congrArg (fun x => Except.ok (x ++ ['\n'])) this

/-- A hard break at the end of the document is not survived if the paragraph is on several lines. -/
theorem C97_hard_more {n : Nat} {text z : Str} {zs : List Str} {ts : List Tok} (h : OnePar n text ts) (w : Width)
    (hh : endsHard text = true) (hz : layLines w ts = zs ++ [z]) (hne : zs ≠ []) (hp : ParLines (zs ++ [z ++ c!"  "])) :
    reformatMarkdownText (n + 2) w text = .error .stopIteration := by
  have hok := layLines_stripped h.inline w
  have h1 := C97_pass h w
  have htail : hardTail text = c!"  " := by rw [hardTail, hh]; rfl
  rw [htail, hz, join_last] at h1
  have hsl : splitlines (pyJoin ['\n'] (zs ++ [z ++ c!"  "]) ++ ['\n']) = zs ++ [z ++ c!"  "] := by
    refine splitlines_join_nl _ ?_ (by simp)
    intro l hl
    rcases List.mem_append.1 hl with hl | hl
    · exact (hok l (by rw [hz]; simp [hl])).1
    · rw [List.mem_singleton.1 hl]
      exact (hok z (by rw [hz]; simp)).1.append (by intro c hc; simp at hc; rw [hc]; decide)
  have hparse : parse (n + 1) (zs ++ [z ++ c!"  "]) = .error .stopIteration := by
    refine parse_hard_end ⟨hp.1, hp.2, ?_, by simp⟩ ?_ ?_ ?_
    · intro l hl
      rw [List.dropLast_concat] at hl
      exact hardBreak_stripped (hok l (by rw [hz]; simp [hl])).2
    · intro l hl
      obtain ⟨a, zs, rfl⟩ := List.exists_cons_of_ne_nil hne
      cases hl
      exact noLabel_of_head (hok _ (by rw [hz]; simp)).2 (layLines_label h.inline w h.label l (by rw [hz]; rfl))
    · cases zs with
      | nil => exact absurd rfl hne
      | cons => simp
    · intro l hl
      rw [List.getLast?_concat] at hl
      cases hl
      exact hardBreak_append z
  have h2 : reformatText (n + 2) w (pyJoin ['\n'] (zs ++ [z ++ c!"  "]) ++ ['\n']) = .error .stopIteration := by
    rw [reformatText]
    simp only [reformatBody, bind, Except.bind, hsl, hparse]
  simp only [reformatMarkdownText, bind, Except.bind, h1, h2]

/-- A paragraph with code and a dash in it. -/
theorem C97_inline : Inline c!"considerably - or `a` ..." [⟨.glue, c!"considerably"⟩, ⟨.space, c!"-"⟩, ⟨.space, c!"or"⟩, ⟨.space, c!"`a`"⟩,
    ⟨.space, c!"..."⟩] := by
  have word : ∀ {w : Str}, (w ≠ [] ∧ (∀ c ∈ w, isWs c = false) ∧ '`' ∉ w ∧ (¬ c!"](" <:+: w ∧ ¬ c!"][" <:+: w) ∧
    ¬ c!"<br" <:+: w) → PlainWord w := fun h => ⟨h.1, h.2.1, h.2.2.1, h.2.2.2.1, h.2.2.2.2⟩
  refine ⟨?_, by decide, by decide, by decide⟩
  refine .word (g := []) (w := c!"considerably") (by decide) trivial (word (by decide)) (.inr (.inl ⟨_, _, rfl, by decide⟩)) ?_
  refine .word (g := c!" ") (w := c!"-") (by decide) trivial (word (by decide)) (.inr (.inl ⟨_, _, rfl, by decide⟩)) ?_
  refine .word (g := c!" ") (w := c!"or") (by decide) trivial (word (by decide)) (.inr (.inl ⟨_, _, rfl, by decide⟩)) ?_
  refine .code (g := c!" ") (n := 1) (body := c!"a") (dot := []) (by decide)
    ⟨by decide, by decide, by decide, by decide, ?_⟩ ⟨by decide, by decide⟩ ?_
  · rintro ⟨a, b, h, _⟩
    have : '`' ∈ c!"a" := by rw [h]; simp [ticks]
    revert this; decide
  refine .word (g := c!" ") (w := c!"...") (by decide) trivial (word (by decide)) (.inl rfl) ?_
  exact .nil (by decide)

theorem C97_onePar :
    OnePar 1 c!"considerably - or\n`a` ...\n" [⟨.glue, c!"considerably"⟩, ⟨.space, c!"-"⟩, ⟨.space, c!"or"⟩, ⟨.space, c!"`a`"⟩,
      ⟨.space, c!"..."⟩] ∧
    OnePar 1 c!"considerably - or `a` ...  " [⟨.glue, c!"considerably"⟩, ⟨.space, c!"-"⟩, ⟨.space, c!"or"⟩, ⟨.space, c!"`a`"⟩,
      ⟨.space, c!"..."⟩] :=
  ⟨⟨by decide +kernel, C97_inline, by intro t ht; cases ht; decide⟩,
    ⟨by decide +kernel, C97_inline, by intro t ht; cases ht; decide⟩⟩

/-- At width 20 it is kept, at width 13 the dash starts a line and the result is accepted, with a list in it. With a hard
break at its end, it is accepted only if it is on one line. -/
theorem C97_example :
    ParLines (layLines (.fin 20) [⟨.glue, c!"considerably"⟩, ⟨.space, c!"-"⟩, ⟨.space, c!"or"⟩, ⟨.space, c!"`a`"⟩, ⟨.space, c!"..."⟩]) ∧
    ¬ ParLines (layLines (.fin 13) [⟨.glue, c!"considerably"⟩, ⟨.space, c!"-"⟩, ⟨.space, c!"or"⟩, ⟨.space, c!"`a`"⟩, ⟨.space, c!"..."⟩]) ∧
    reformatMarkdownText 3 (.fin 20) c!"considerably - or\n`a` ...\n" = .ok c!"considerably - or\n`a` ...\n" ∧
    reformatMarkdownText 3 (.fin 13) c!"considerably - or\n`a` ...\n" = .ok c!"considerably\n- or `a` ...\n" ∧
    reformatMarkdownText 3 (.fin 20) c!"considerably - or `a` ...  " = .error .stopIteration ∧
    reformatMarkdownText 3 (.fin 40) c!"considerably - or `a` ...  " = .ok c!"considerably - or `a` ...\n" := by decide +kernel

end MF
