import Verif.Lemmas.TreeNest
import Verif.Props.ParDoc
import Verif.Lemmas.TreeLeaves
/-!
# C103, C104: exactly what happens to underlined headings and thematic breaks
-/

namespace MF

/-! ## C103 -/

/-- A document that is one underlined heading with the tokens `ts`, which do not begin with an opening bracket. -/
structure OneHead (n : Nat) (text : Str) (body : List Str) (under : Str) (ts : List Tok) : Prop where
  parse : parse (n + 1) (splitlines text) = .ok [(.setext, body ++ [under])]
  inline : Inline (pyJoin c!" " (body.map strip)) ts
  label : ∀ t, ts.head? = some t → t.text.head? ≠ some '['

/-- A line of the underline's character, as long as the longest of the lines above it. -/
def underBy (under : Str) (ls : List Str) : Str := List.replicate (longestLine ls) ((strip under).headD '=')

/-- Lines of text and an underline are one heading. -/
theorem parse_headBlock {n : Nat} {ls : List Str} {u : Str} (h : TextBlock ls) (hl : ∀ l, ls.head? = some l → NoLabel l)
    (hh : ∀ l ∈ ls, hardBreak l = false) (hu : underline u = true) : parse (n + 1) (ls ++ [u]) = .ok [(.setext, ls ++ [u])] := by
  obtain ⟨l, body, rfl⟩ := List.exists_cons_of_ne_nil h.some
  have hp := (isParStart_kind l).2 (h.first l rfl)
  have hfirst := firstSection_setext (n := n) (l := l) body [] u hp (hl l rfl) (hh l (by simp))
    (fun x hx => ⟨continues_of_textEnd (h.further x hx), hh x (by simp [hx])⟩) (by rwa [← underline_eq])
  have := parse_of_first (n := n + 1) [(.setext, l :: body ++ [u])] (by
    intro a b c habc
    cases a with
    | nil =>
      rw [List.nil_append] at habc
      obtain ⟨rfl, rfl⟩ := List.cons.inj habc
      exact ⟨by simp, by simpa [linesOf] using hfirst⟩
    | cons x a => simp at habc)
  simpa [linesOf] using this

theorem OneHead.block {n : Nat} {text : Str} {body : List Str} {u : Str} {ts : List Tok} (h : OneHead n text body u ts) :
    TextBlock body ∧ underline u = true := by
  obtain ⟨body', u', h1, h2, h3⟩ := C52_extent (pre := []) (post := []) h.parse
  obtain ⟨rfl, h4⟩ := List.append_inj' h1 rfl
  cases h4
  exact ⟨h2, h3⟩

theorem OneHead.lines {n : Nat} {text : Str} {body : List Str} {u : Str} {ts : List Tok} (h : OneHead n text body u ts) :
    splitlines text = body ++ [u] := by
  have := (C08_parse_partition _ _ _ h.parse).1
  simpa using this.symm

theorem OneHead.ne {n : Nat} {text : Str} {body : List Str} {u : Str} {ts : List Tok} (h : OneHead n text body u ts) (w : Width) :
    layLines w ts ≠ [] := by
  refine layLines_nonempty ?_
  rintro rfl
  obtain ⟨l, ls, rfl⟩ := List.exists_cons_of_ne_nil h.block.1.some
  have hk := h.block.1.first l rfl
  have hall : ∀ c ∈ pyJoin c!" " ((l :: ls).map strip), isWs c = true := h.inline.runs.nil_ws
  have hl : strip l = [] := by
    rw [← strip_idem, strip_eq_nil]
    intro c hc
    refine hall c ?_
    rw [List.map_cons]
    cases hm : ls.map strip with
    | nil => exact hc
    | cons a b => rw [pyJoin_cons_ne (by simp)]; simp [hc]
  rw [strip_eq_nil, ← lstrip_eq_nil] at hl
  have h0 : l.dropWhile isWs = [] := hl
  simp [kindOf, h0] at hk

theorem under_char {u : Str} (h : underline u = true) :
    ∃ c r, strip u = c :: r ∧ (c = '=' ∨ c = '-') := by
  rw [underline_eq] at h
  obtain ⟨c, r, h1, h2, _⟩ := underline_char h
  exact ⟨c, r, h1, h2⟩

theorem underBy_noLB {u : Str} (h : underline u = true) (ls : List Str) : NoLB (underBy u ls) := by
  obtain ⟨c, r, h1, h2⟩ := under_char h
  intro x hx
  rw [underBy, h1] at hx
  rw [List.eq_of_mem_replicate hx, List.headD_cons]
  rcases h2 with rfl | rfl <;> decide

theorem layLines_pos {s : Str} {ts : List Tok} (h : Inline s ts) (w : Width) (hne : layLines w ts ≠ []) :
    0 < longestLine (layLines w ts) := by
  obtain ⟨x, xs, hx⟩ := List.exists_cons_of_ne_nil hne
  have h1 := (longestLine_spec hne).1 x (by rw [hx]; simp)
  have h2 := (layLines_stripped h w x (by rw [hx]; simp)).2.1
  cases x with
  | nil => exact absurd rfl h2
  | cons c r => simp at h1; omega

theorem underBy_line {s : Str} {ts : List Tok} (h : Inline s ts) (w : Width) (hne : layLines w ts ≠ []) {u : Str}
    (hu : underline u = true) : underline (underBy u (layLines w ts)) = true := by
  obtain ⟨c, r, h1, h2⟩ := under_char hu
  rw [underline_eq, underBy, h1]
  exact underline_replicate h2 (layLines_pos h w hne)

/-- One pass puts the tokens into lines and draws a line below them. -/
theorem C103_pass {n : Nat} {text : Str} {body : List Str} {u : Str} {ts : List Tok} (h : OneHead n text body u ts) (w : Width) :
    reformatText (n + 2) w text = .ok (pyJoin ['\n'] (layLines w ts ++ [underBy u (layLines w ts)]) ++ ['\n']) := by
  have hb := h.block
  have hne := h.ne w
  have hok := layLines_stripped h.inline w
  obtain ⟨c, r, h1, h2⟩ := under_char hb.2
  have hlen : ¬ (body ++ [u]).length < 2 := by
    have := hb.1.some
    cases body with
    | nil => exact absurd rfl this
    | cons => simp
  have hl : (body ++ [u]).getLastD [] = u := by simp
  refine reformat_single h.parse ?_ ?_
  · simp only [reprCheck, hlen, if_false, hl, h1]
    rfl
  · show fmtSetext w _ = _
    have hw := wrap_line h.inline w
    have hsl : splitlines (pyJoin ['\n'] (layLines w ts)) = layLines w ts := by
      refine splitlines_join _ (fun l hl => (hok l hl).1) ?_
      intro h0
      exact (hok [] (List.mem_of_getLast? h0)).2.1 rfl
    have hmax : maxLen (layLines w ts) = .ok (longestLine (layLines w ts)) := by
      cases hL : layLines w ts with
      | nil => exact absurd hL hne
      | cons x xs => simp [maxLen, longestLine]
    simp only [fmtSetext, hlen, if_false, List.dropLast_concat, parContent, bind, Except.bind, hw, hsl, hmax, hl, h1]
    rw [pyJoin_append hne (by simp), underBy, h1]
    rfl

theorem strip_rep {c : Char} (h : c = '=' ∨ c = '-') (k : Nat) : strip (List.replicate k c) = List.replicate k c :=
  strip_noWs _ fun x hx => by rw [List.eq_of_mem_replicate hx]; rcases h with rfl | rfl <;> decide

theorem head_stripped {s : Str} {ts : List Tok} (h : Inline s ts) (w : Width) (hne : layLines w ts ≠ []) {u : Str}
    (hu : underline u = true) : ∀ l ∈ layLines w ts ++ [underBy u (layLines w ts)], NoLB l ∧ Stripped l := by
  intro l hl
  rcases List.mem_append.1 hl with hl | hl
  · exact layLines_stripped h w l hl
  · rw [List.mem_singleton.1 hl]
    refine ⟨underBy_noLB hu _, ?_, ?_⟩
    · have := layLines_pos h w hne
      rw [underBy]
      intro h0
      rw [List.replicate_eq_nil_iff] at h0
      omega
    · obtain ⟨c, r, h1, h2⟩ := under_char hu
      rw [underBy, h1]
      exact strip_rep h2 _

/-- The lines are read as a heading again, and nothing moves. -/
theorem C103_same {n : Nat} {text : Str} {body : List Str} {u : Str} {ts : List Tok} (h : OneHead n text body u ts) (w : Width)
    (hp : ParLines (layLines w ts)) :
    reformatMarkdownText (n + 2) w text = .ok (pyJoin ['\n'] (layLines w ts ++ [underBy u (layLines w ts)]) ++ ['\n']) ∧
      parse (n + 1) (splitlines (pyJoin ['\n'] (layLines w ts ++ [underBy u (layLines w ts)]) ++ ['\n'])) =
        .ok [(.setext, layLines w ts ++ [underBy u (layLines w ts)])] := by
  have hb := h.block
  have hok := layLines_stripped h.inline w
  have hne := h.ne w
  have hul := underBy_line h.inline w hne hb.2
  have h1 := C103_pass h w
  have hsl : splitlines (pyJoin ['\n'] (layLines w ts ++ [underBy u (layLines w ts)]) ++ ['\n']) =
      layLines w ts ++ [underBy u (layLines w ts)] := by
    refine splitlines_join_nl _ ?_ (by simp)
    intro l hl
    rcases List.mem_append.1 hl with hl | hl
    · exact (hok l hl).1
    · rw [List.mem_singleton.1 hl]; exact underBy_noLB hb.2 _
  have hparse : parse (n + 1) (layLines w ts ++ [underBy u (layLines w ts)]) =
      .ok [(.setext, layLines w ts ++ [underBy u (layLines w ts)])] := by
    refine parse_headBlock ⟨hp.1, hp.2, ?_, hne⟩ ?_ ?_ hul
    · intro l hl
      exact hardBreak_stripped (hok l (List.dropLast_subset _ hl)).2
    · intro l hl
      exact noLabel_of_head (hok l (List.mem_of_mem_head? hl)).2 (layLines_label h.inline w h.label l hl)
    · intro l hl
      exact hardBreak_stripped (hok l hl).2
  have hone : OneHead n (pyJoin ['\n'] (layLines w ts ++ [underBy u (layLines w ts)]) ++ ['\n']) (layLines w ts)
      (underBy u (layLines w ts)) (settle w ts) := by
    refine ⟨by rw [hsl]; exact hparse, settle_line h.inline w, ?_⟩
    rw [settle_head]
    exact h.label
  have h2 := C103_pass hone w
  rw [layLines_settle] at h2
  obtain ⟨c, r, h3, h4⟩ := under_char hb.2
  have hrep := strip_rep h4
  have hpos := layLines_pos h.inline w hne
  have huu : underBy (underBy u (layLines w ts)) (layLines w ts) = underBy u (layLines w ts) := by
    unfold underBy
    rw [h3, List.headD_cons, hrep]
    obtain ⟨k, hk⟩ : ∃ k, longestLine (layLines w ts) = k + 1 := ⟨_, (Nat.succ_pred_eq_of_pos hpos).symm⟩
    rw [hk]
    rfl
  rw [huu] at h2
  refine ⟨?_, by rw [hsl]; exact hparse⟩
  simp only [reformatMarkdownText, bind, Except.bind, h1, h2]
  rw [if_neg (by simp), rstrip_join (fun l hl => (head_stripped h.inline w hne hb.2 l hl).2) (by simp) (by decide)]

/-- C103: after formatting, an underlined heading is still one heading exactly if no line of its text but the first one
looks like something that ends a paragraph, and the first one looks like text. -/
theorem C103_kept {n : Nat} {text : Str} {body : List Str} {u : Str} {ts : List Tok} (h : OneHead n text body u ts) (w : Width) :
    (∃ y T, reformatMarkdownText (n + 2) w text = .ok y ∧ parse (n + 1) (splitlines y) = .ok [(.setext, T)]) ↔
      ParLines (layLines w ts) := by
  constructor
  · rintro ⟨y, T, hy, hT⟩
    have hb := h.block
    have hne := h.ne w
    have hok := head_stripped h.inline w hne hb.2
    have h1 := C103_pass h w
    have hyy : y = pyJoin ['\n'] (layLines w ts ++ [underBy u (layLines w ts)]) ++ ['\n'] := by
      simp only [reformatMarkdownText, bind, Except.bind, h1] at hy
      split at hy
      · cases hy
      · split at hy
        · cases hy
        · cases hy
          rw [rstrip_join (fun l hl => (hok l hl).2) (by simp) (by decide)]
    rw [hyy, splitlines_join_nl _ (fun l hl => (hok l hl).1) (by simp)] at hT
    have hTT := (C08_parse_partition _ _ _ hT).1
    simp only [List.map_cons, List.map_nil, List.flatten_cons, List.flatten_nil, List.append_nil] at hTT
    subst hTT
    obtain ⟨body', u', h2, h3, _⟩ := C52_extent (pre := []) (post := []) hT
    obtain ⟨h4, _⟩ := List.append_inj' h2 rfl
    rw [h4]
    exact ⟨h3.first, h3.further⟩
  · intro hp
    exact ⟨_, _, C103_same h w hp⟩

theorem C103_oneHead :
    OneHead 1 c!"considerably - or\n`a` ...\n  =\n" [c!"considerably - or", c!"`a` ..."] c!"  =" [⟨.glue, c!"considerably"⟩, ⟨.space, c!"-"⟩,
      ⟨.space, c!"or"⟩, ⟨.space, c!"`a`"⟩, ⟨.space, c!"..."⟩] :=
  ⟨by decide +kernel, C97_inline, by intro t ht; cases ht; decide⟩

/-- At width 20 the heading is kept. At width 13 the dash starts a line, and the result is refused, since the underline is
taken into a list. A heading with a hash in it becomes a paragraph, another heading and a paragraph of equals signs, and
this is accepted. -/
theorem C103_example :
    ParLines (layLines (.fin 20) [⟨.glue, c!"considerably"⟩, ⟨.space, c!"-"⟩, ⟨.space, c!"or"⟩, ⟨.space, c!"`a`"⟩, ⟨.space, c!"..."⟩]) ∧
    ¬ ParLines (layLines (.fin 13) [⟨.glue, c!"considerably"⟩, ⟨.space, c!"-"⟩, ⟨.space, c!"or"⟩, ⟨.space, c!"`a`"⟩, ⟨.space, c!"..."⟩]) ∧
    reformatMarkdownText 3 (.fin 20) c!"considerably - or\n`a` ...\n  =\n" = .ok c!"considerably - or\n`a` ...\n=================\n" ∧
    reformatMarkdownText 3 (.fin 13) c!"considerably - or\n`a` ...\n  =\n" = .error .inconsistent ∧
    reformatMarkdownText 3 (.fin 6) c!"aaaaaa # b\n===\n" = .ok c!"aaaaaa\n# b\n======\n" := by decide +kernel

/-! ## C104 -/

/-- How long a thematic break is made. -/
def ruleLen : Width → Nat
  | .fin n => n.toNat
  | .inf => 3

/-- What a line of so many asterisks, underscores or dashes is. -/
def ruleKind (k : Nat) : Sec := if k = 0 then .blank else if k < 3 then .par else .thematic

theorem parse_one {n : Nat} {ty : Sec} {l : Str}
    (h : firstSection (splitters (splitQuote n)) [l] = .ok (ty, [l], [])) : parse n [l] = .ok [(ty, [l])] := by
  have := parse_of_first (n := n) [(ty, [l])] (by
    intro a b c e
    cases a with
    | nil => cases e; exact ⟨by simp, h⟩
    | cons x a => cases a <;> cases e)
  simpa [linesOf] using this

theorem rule_line {c : Char} (hc : c = '*' ∨ c = '_' ∨ c = '-') (k : Nat) (hk : 3 ≤ k) :
    isThematic (List.replicate k c) = true ∧ isBulletStart (List.replicate k c) = false := by
  have h1 := (C13_thematic_fixed_point (fun _ _ => .error .runtime) 0 (k : Int) c hc (by omega)).1
  rw [Int.toNat_natCast] at h1
  refine ⟨h1, ?_⟩
  have hw : isWs c = false := by rcases hc with rfl | rfl | rfl <;> decide
  cases hb : isBulletStart (List.replicate k c) with
  | false => rfl
  | true =>
    simp only [isBulletStart, Bool.and_eq_true] at hb
    obtain ⟨d, r, h2, _⟩ := (isBulletStart_iff _).1 hb.2
    obtain ⟨j, rfl⟩ : ∃ j, k = j + 1 := ⟨k - 1, by omega⟩
    rw [List.replicate_succ, lstrip_cons_of_not _ _ hw] at h2
    have h3 : ' ' ∈ c :: List.replicate j c := by rw [h2]; simp
    rw [← List.replicate_succ] at h3
    rw [← List.eq_of_mem_replicate h3] at hw
    exact absurd hw (by decide)

theorem rule_parse (n : Nat) {c : Char} (hc : c = '*' ∨ c = '_' ∨ c = '-') (k : Nat) :
    parse (n + 1) [List.replicate k c] = .ok [(ruleKind k, [List.replicate k c])] := by
  unfold ruleKind
  by_cases h0 : k = 0
  · subst h0
    exact parse_one (firstSection_blank [] rfl)
  · rw [if_neg h0]
    by_cases h3 : k < 3
    · rw [if_pos h3]
      refine parse_textBlock ⟨?_, by simp, by simp, by simp⟩ ?_ (by simp)
      · intro l hl
        cases hl
        have : k = 1 ∨ k = 2 := by omega
        rcases this with rfl | rfl <;> rcases hc with rfl | rfl | rfl <;> decide +kernel
      · intro l hl
        cases hl
        have : k = 1 ∨ k = 2 := by omega
        unfold NoLabel
        rcases this with rfl | rfl <;> rcases hc with rfl | rfl | rfl <;> decide +kernel
    · rw [if_neg h3]
      obtain ⟨h1, h2⟩ := rule_line hc k (by omega)
      exact parse_one (firstSection_thematic [] h1 h2)

/-- C104: a thematic break becomes a line of its character, as long as the line is to be, and the program accepts this.
The result is a thematic break only if it has at least three characters; otherwise it is a paragraph, or nothing. -/
theorem C104_exact {n : Nat} {w : Width} {text l : Str} (hs : splitlines text = [l]) (hk : kindOf l = some .thematic) :
    ∃ c, (c = '*' ∨ c = '_' ∨ c = '-') ∧ c ∈ l ∧
      reformatMarkdownText (n + 2) w text = .ok (List.replicate (ruleLen w) c ++ ['\n']) ∧
      parse (n + 1) (splitlines (List.replicate (ruleLen w) c ++ ['\n'])) =
        .ok [(ruleKind (ruleLen w), [List.replicate (ruleLen w) c])] := by
  have hth : isThematic l = true ∧ isBulletStart l = false := by
    rw [kindOf_eq] at hk
    repeat' split at hk
    all_goals first | (cases hk; done) | skip
    rename_i _ _ _ _ _ hb _ _ ht
    exact ⟨ht, by simpa using hb⟩
  obtain ⟨c, hc, hall, hf⟩ := C13_thematic (reformatText (n + 1)) w 0 l hth.1
  obtain ⟨_, d, _, h3, hd⟩ := (isThematic_iff l).1 hth.1
  have hcw : isWs c = false := by rcases hc with rfl | rfl | rfl <;> decide
  have hmem : c ∈ l := by
    cases hfil : l.filter (fun x => !isWs x) with
    | nil => rw [hfil] at h3; simp at h3
    | cons x xs =>
      have hx : x ∈ l.filter (fun x => !isWs x) := by rw [hfil]; simp
      rw [List.mem_filter] at hx
      rcases hall x hx.1 with h | h
      · simp [h] at hx
      · rw [← h]; exact hx.1
  refine ⟨c, hc, hmem, ?_⟩
  have hout : fmtSection (reformatText (n + 1)) w 0 .thematic [l] = .ok (List.replicate (ruleLen w) c) := by
    rw [hf]
    cases w <;> rfl
  have hrep : ∀ l, isThematic l = true → reprCheck .thematic [l] = .ok () := by
    intro l h
    obtain ⟨_, d, _, h3, _⟩ := (isThematic_iff l).1 h
    have : strip l ≠ [] := by
      intro h0
      have : l.filter (fun x => !isWs x) = [] := by
        rw [List.filter_eq_nil_iff]
        intro x hx
        simp [(strip_eq_nil l).1 h0 x hx]
      rw [this] at h3
      simp at h3
    cases hsl : strip l with
    | nil => exact absurd hsl this
    | cons a b => simp [reprCheck, hsl]
  have h1 : reformatText (n + 2) w text = .ok (List.replicate (ruleLen w) c ++ ['\n']) := by
    refine reformat_single (lines := [l]) ?_ (hrep l hth.1) hout
    rw [hs]
    exact parse_one (firstSection_thematic [] hth.1 hth.2)
  have hsl : splitlines (List.replicate (ruleLen w) c ++ ['\n']) = [List.replicate (ruleLen w) c] := by
    refine splitlines_join_nl [List.replicate (ruleLen w) c] ?_ (by simp)
    intro x hx y hy
    rw [List.mem_singleton.1 hx] at hy
    rw [List.eq_of_mem_replicate hy]
    rcases hc with rfl | rfl | rfl <;> decide
  have hp := rule_parse n hc (ruleLen w)
  have h2 : reformatText (n + 2) w (List.replicate (ruleLen w) c ++ ['\n']) = .ok (List.replicate (ruleLen w) c ++ ['\n']) := by
    refine reformat_single (by rw [hsl]; exact hp) ?_ ?_
    · by_cases h0 : ruleLen w < 3
      · have : ruleLen w = 0 ∨ ruleLen w = 1 ∨ ruleLen w = 2 := by omega
        rcases this with h | h | h <;> rw [h] <;> rfl
      · rw [show ruleKind (ruleLen w) = .thematic by unfold ruleKind; rw [if_neg (by omega), if_neg h0]]
        exact hrep _ (rule_line hc _ (by omega)).1
    · cases w with
      | inf =>
        show fmtThematic .inf (List.replicate 3 c :: []) = .ok (List.replicate 3 c)
        rcases hc with rfl | rfl | rfl <;> decide +kernel
      | fin m =>
        by_cases h3 : 3 ≤ m
        · rw [show ruleKind (ruleLen (.fin m)) = .thematic by
            unfold ruleKind; rw [show ruleLen (.fin m) = m.toNat from rfl, if_neg (by omega), if_neg (by omega)]]
          exact (C13_thematic_fixed_point _ 0 m c hc h3).2
        · have : m.toNat = 0 ∨ m = 1 ∨ m = 2 := by omega
          rcases this with h | rfl | rfl
          · simp only [ruleLen, h]
            rfl
          · show fmtPar _ _ = _
            rcases hc with rfl | rfl | rfl <;> decide +kernel
          · show fmtPar _ _ = _
            rcases hc with rfl | rfl | rfl <;> decide +kernel
  refine ⟨?_, by rw [hsl]; exact hp⟩
  simp only [reformatMarkdownText, bind, Except.bind, h1, h2]
  rw [if_neg (by simp), rstrip_append_ws _ ['\n'] (by decide), rstrip_replicate hcw]

/-- At width 2 a break becomes a paragraph of two asterisks, and at width 0 it is gone. In a quote in a quote in a quote
this happens at width 8. -/
theorem C104_example : kindOf c!" ** *" = some .thematic ∧ reformatMarkdownText 3 (.fin 5) c!" ** *" = .ok c!"*****\n" ∧
    reformatMarkdownText 3 (.fin 2) c!" ** *" = .ok c!"**\n" ∧ reformatMarkdownText 3 (.fin 0) c!" ** *" = .ok c!"\n" ∧
    reformatMarkdownText 9 (.fin 8) c!"> > > ***\n" = .ok c!"> > > **\n" := by decide +kernel

end MF
