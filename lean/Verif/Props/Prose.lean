import Verif.Lemmas.Text
/-!
# C34: documents made of paragraphs, headings, thematic breaks and code blocks

The documents are described block by block (`Flat`), with a small specification of what formatting does to a block
(`Formats`): the tokens of paragraphs are laid out in lines, headings and thematic breaks brought into normal form. The
theorems say that the whole program does exactly that to every such document, at every width, and that the result is
stable.
-/

namespace MF

/-- A word of prose: no whitespace, no code, link or tag; a line that starts with it is no heading, quote, table row,
fence, list entry, thematic break or underline. -/
structure Word (w : Str) : Prop extends Opener w where
  plain : ∀ c ∈ w, c ∉ c!"`[<"
  noLink : ¬ c!"](" <:+: w
  noDot : w.head? ≠ some '.'

/-- A line of prose: words separated by spaces, indented by less than four, without a hard break at the end. -/
structure ProseLine (l : Str) : Prop where
  spaces : ∀ c ∈ l, isWs c = true → c = ' '
  indent : getIndent l < 4
  ne : splitWs l ≠ []
  words : ∀ w ∈ splitWs l, Word w
  noBreak : ¬ ∃ r, l = r ++ c!"  "

theorem ProseLine.text {l : Str} (h : ProseLine l) : TextLine l := by
  obtain ⟨w, ws, hw⟩ := List.exists_cons_of_ne_nil h.ne
  have hm : w ∈ splitWs l := by rw [hw]; simp
  refine ⟨h.spaces, h.indent, ⟨w, ws, hw, (h.words w hm).toOpener⟩, ?_, h.noBreak⟩
  intro hf
  obtain ⟨rest, h1, _⟩ := first_word hw
  obtain ⟨c, r, e⟩ := List.exists_cons_of_ne_nil (h.words w hm).ne
  unfold firstCh at hf
  rw [h1, e] at hf
  simp only [List.cons_append, List.head?_cons, Option.some.injEq] at hf
  subst hf
  exact absurd (by decide) ((h.words w hm).plain '[' (by rw [e]; simp))

/-- the words of a list of lines -/
def words (ls : List Str) : List Str := (ls.map splitWs).flatten

theorem words_join (ls : List Str) : splitWs (parContent ls) = words ls := by
  unfold parContent words
  rw [splitWs_pyJoin, List.map_map]
  congr 1
  exact List.map_congr_left fun x _ => splitWs_strip x

theorem Word.plainWord {w : Str} (h : Word w) : PlainWord w := by
  refine ⟨h.ne, h.noWs, fun hm => h.plain '`' hm (by decide), ⟨h.noLink, ?_⟩, ?_⟩
  · intro hi
    exact h.plain '[' (pair_mem hi).2 (by decide)
  · intro hi
    exact h.plain '<' (tag_mem hi) (by decide)

theorem words_mem {ls : List Str} (h : ∀ l ∈ ls, ProseLine l) : ∀ w ∈ words ls, Word w := by
  intro w hw
  obtain ⟨x, hx, hwx⟩ := List.mem_flatten.1 hw
  obtain ⟨l, hl, rfl⟩ := List.mem_map.1 hx
  exact (h l hl).words w hwx

theorem words_ne {ls : List Str} (hne : ls ≠ []) (h : ∀ l ∈ ls, ProseLine l) : words ls ≠ [] := by
  obtain ⟨a, r, rfl⟩ := List.exists_cons_of_ne_nil hne
  have := (h a (by simp)).ne
  intro h2
  simp [words] at h2
  exact this h2.1

theorem plainToks_text {ws : List Str} : ∀ t ∈ plainToks ws, t.text ∈ ws := by
  cases ws with
  | nil => intro t ht; cases ht
  | cons w ws =>
    intro t ht
    rcases List.mem_cons.1 ht with rfl | ht
    · simp
    · obtain ⟨v, hv, rfl⟩ := List.mem_map.1 ht
      simp [hv]

theorem pyJoin_stripped {ls : List Str} (hne : ls ≠ []) (h : ∀ l ∈ ls, Stripped l) : Stripped (pyJoin [' '] ls) := by
  apply stripped_of_ends
  · obtain ⟨a, r, rfl⟩ := List.exists_cons_of_ne_nil hne
    cases r with
    | nil => exact (h a (by simp)).starts
    | cons b r => rw [pyJoin_cons_ne (by simp), List.append_assoc]; exact (h a (by simp)).starts.append _
  · have hl := List.dropLast_concat_getLast hne
    have he := (h _ (List.getLast_mem hne)).ends
    cases hd : ls.dropLast with
    | nil => rw [hd] at hl; rw [← hl]; exact he
    | cons b r => rw [hd] at hl; rw [← hl, pyJoin_concat _ _ (by simp)]; exact he.prepend _

/-- Lines of prose are text that stands for the words. -/
theorem prose_text {ls : List Str} (hne : ls ≠ []) (h : ∀ l ∈ ls, ProseLine l) : Text ls (plainToks (words ls)) := by
  have hws := words_mem h
  have hjoin : Stripped (parContent ls) := by
    refine pyJoin_stripped (by simpa using hne) ?_
    intro x hx
    obtain ⟨l, hl, rfl⟩ := List.mem_map.1 hx
    refine ⟨?_, strip_idem l⟩
    intro e
    have := (h l hl).ne
    rw [← splitWs_strip, e] at this
    exact this rfl
  have hst := hjoin.2
  have hsp : ∀ c ∈ parContent ls, isWs c = true → c = ' ' := by
    intro c hc hw
    rcases mem_pyJoin hc with hc | ⟨l, hl, hc⟩
    · exact List.mem_singleton.1 hc
    · obtain ⟨x, hx, rfl⟩ := List.mem_map.1 hl
      exact (h x hx).spaces c (mem_of_mem_strip hc) hw
  have hstart := hjoin.starts
  obtain ⟨w, ws, hw⟩ := List.exists_cons_of_ne_nil (words_ne hne h)
  have hin : Inline (parContent ls) (plainToks (words ls)) := by
    refine ⟨?_, hst, hsp, ?_⟩
    · have := runs_words _ (parContent ls) (Nat.le_refl _) (fun w hm => by
        rw [words_join] at hm; exact (hws w hm).plainWord)
      rw [words_join, hw] at this
      rw [hw]
      obtain ⟨c, r, e, hc⟩ := hstart
      have hg : (parContent ls).takeWhile isWs = [] := by rw [e, List.takeWhile_cons, hc]; rfl
      rw [hg] at this
      exact this
    · cases hd : startsSingleDot (parContent ls) with
      | false => rfl
      | true =>
        obtain ⟨r, e, _⟩ := (startsSingleDot_iff _).1 hd
        have h1 := words_join ls
        rw [e, splitWs_first _ (by decide), hw] at h1
        have := (hws w (by rw [hw]; simp)).noDot
        rw [← (List.cons.inj h1).1] at this
        exact absurd rfl this
  refine ⟨fun l hl => (h l hl).text, hin, ?_, ⟨_, hin⟩, ?_, ?_⟩
  · rw [hw]; simp [plainToks]
  · intro t ht
    have := hws _ (plainToks_text t ht)
    exact ⟨t.text, [], splitWs_self this.ne this.noWs, this.toOpener⟩
  · left
    intro t ht e
    exact (hws _ (plainToks_text t ht)).plain '[' (List.mem_of_head? e) (by decide)

/-! ## Blocks -/

/-- The blocks of these documents: kind and lines. -/
inductive Flat : Sec → List Str → Prop
  | blank {l : Str} (h : isBlankLine l = true) (hl : NoLB l) : Flat .blank [l]
  | atx {l : Str} (h : isAtx l = true) (hl : NoLB l) : Flat .atx [l]
  | thematic {l : Str} (h : isThematic l = true) (hb : isBulletStart l = false) (hl : NoLB l) : Flat .thematic [l]
  | par {ls : List Str} {ts : List Tok} (h : Text ls ts) : Flat .par ls
  | setext {ls : List Str} {u : Str} {ts : List Tok} (h : Text ls ts) (hu : isSetextUnderline u = true) (hl : NoLB u) :
      Flat .setext (ls ++ [u])
  | fenced {f : Char} {k : Nat} {ws info close : Str} {content : List Str} (hf : f = '`' ∨ f = '~') (hk : 3 ≤ k)
      (hws : ∀ c ∈ ws, isWs c = true) (hinfo : info.head? ≠ some f) (hinfo2 : (strip info).head? ≠ some f)
      (hcontent : ∀ c ∈ content, strip c ≠ List.replicate k f) (hclose : strip close = List.replicate k f)
      (hl : NoLB ws ∧ NoLB info ∧ NoLB close ∧ ∀ c ∈ content, NoLB c) :
      Flat .fenced ((ws ++ List.replicate k f ++ info) :: content ++ [close])

/-- The line of a thematic break. -/
def rule (c : Char) : Width → Str
  | .fin n => List.replicate n.toNat c
  | .inf => [c, c, c]

/-- What formatting does to a block: kind, lines, lines afterwards. -/
inductive Formats (w : Width) : Sec → List Str → List Str → Prop
  | blank (l : Str) : Formats w .blank [l] [[]]
  /-- the heading text is stripped and follows the same number of `#` and one space -/
  | atx {ws text : Str} {k : Nat} (hk : 1 ≤ k) (hws : ∀ c ∈ ws, isWs c = true) (ht : text.head? ≠ some '#') :
      Formats w .atx [ws ++ List.replicate k '#' ++ text] [atxLine k (strip text)]
  /-- a thematic break is made as long as the line, with the same character -/
  | thematic {l : Str} {c : Char} (hc : c = '*' ∨ c = '_' ∨ c = '-') (hl : ∀ x ∈ l, isWs x = true ∨ x = c) :
      Formats w .thematic [l] [rule c w]
  /-- the tokens of a paragraph are laid out in lines -/
  | par {ls : List Str} {ts : List Tok} (h : Text ls ts) : Formats w .par ls (layLines w ts)
  /-- so is the text of a setext heading; the underline becomes as long as its longest line -/
  | setext {ls : List Str} {u : Str} {ts : List Tok} {c : Char} {m : Nat} (h : Text ls ts)
      (hc : c = '=' ∨ c = '-') (hu : ∀ x ∈ u, isWs x = true ∨ x = c) (hm : ∀ l ∈ layLines w ts, l.length ≤ m)
      (hm2 : ∃ l ∈ layLines w ts, l.length = m) :
      Formats w .setext (ls ++ [u]) (layLines w ts ++ [List.replicate m c])
  /-- the fences of a code block are stripped; its lines lose trailing whitespace only -/
  | fenced {f : Char} {k : Nat} {ws info close : Str} {content : List Str} (hf : f = '`' ∨ f = '~') (hk : 1 ≤ k)
      (hws : ∀ c ∈ ws, isWs c = true) (hinfo : info.head? ≠ some f) :
      Formats w .fenced ((ws ++ List.replicate k f ++ info) :: content ++ [close])
        ((List.replicate k f ++ strip info) :: content.map rstrip ++ [List.replicate k f])

theorem replicate_strip {f : Char} (hf : isWs f = false) (k : Nat) : strip (List.replicate k f) = List.replicate k f :=
  strip_noWs _ (by intro c hc; rw [List.eq_of_mem_replicate hc]; exact hf)

theorem splitWs_words {ws : List Str} (h : ∀ w ∈ ws, w ≠ [] ∧ ∀ c ∈ w, isWs c = false) :
    splitWs (pyJoin [' '] ws) = ws := by
  rw [splitWs_pyJoin]
  induction ws with
  | nil => rfl
  | cons a r ih =>
    rw [List.map_cons, List.flatten_cons, ih (fun w hw => h w (by simp [hw]))]
    rw [splitWs_self (h a (by simp)).1 (h a (by simp)).2]
    rfl

theorem fmtPar_text {ls : List Str} {ts : List Tok} (h : Text ls ts) (w : Width) :
    fmtPar w ls = .ok (pyJoin ['\n'] (layLines w ts)) := by
  have hne := h.ne
  simp only [fmtPar, h.wrap w, bind, Except.bind]
  rw [List.getLast?_eq_some_getLast hne]
  have := (h.lines _ (List.getLast_mem hne)).facts.2.2.2.1
  simp only [this]
  rfl

theorem maxLen_unique {ls : List Str} {m m' : Nat} (h : maxLen ls = .ok m) (h1 : ∀ l ∈ ls, l.length ≤ m')
    (h2 : ∃ l ∈ ls, l.length = m') : m = m' := by
  obtain ⟨a, l, hl, b⟩ := maxLen_ok h
  obtain ⟨l', hl', b'⟩ := h2
  have := a l' hl'
  have := h1 l hl
  omega

theorem maxLen_some {ls : List Str} (h : ls ≠ []) : ∃ m, maxLen ls = .ok m := by
  cases ls with
  | nil => exact absurd rfl h
  | cons a r => exact ⟨_, rfl⟩

theorem textLines_last {ls : List Str} (h : ∀ l ∈ ls, TextLine l) : ls.getLast? ≠ some [] := by
  intro h2
  have := (h [] (List.mem_of_getLast? h2)).ne
  exact this rfl

theorem fmtSetext_text {ls : List Str} {u : Str} {ts : List Tok} (h : Text ls ts) {w : Width} {c : Char}
    {m : Nat} (hus : isSetextUnderline u = true) (hu : ∀ x ∈ u, isWs x = true ∨ x = c) (hm : maxLen (layLines w ts) = .ok m) :
    fmtSetext w (ls ++ [u]) = .ok (pyJoin ['\n'] (layLines w ts ++ [List.replicate m c])) := by
  have hne := h.ne
  obtain ⟨hl, hlne, _⟩ := text_layLines h.layable w
  have hl := hl.lines
  obtain ⟨d, r, h1, hd, h2⟩ := underline_char hus
  have hdc : d = c := by
    have hmem : d ∈ strip u := by rw [h1]; simp
    rcases hu d (mem_of_mem_strip hmem) with h3 | h3
    · exfalso
      have : isWs d = false := by rcases hd with rfl | rfl <;> decide
      rw [this] at h3; cases h3
    · exact h3
  have hlen : ¬ (ls ++ [u]).length < 2 := by
    cases ls with
    | nil => exact absurd rfl hne
    | cons a r => simp
  simp only [fmtSetext, hlen, if_false, List.dropLast_concat, h.wrap w, bind, Except.bind]
  rw [splitlines_join _ (fun l hll => (hl l hll).facts.2.2.2.2) (textLines_last hl), hm]
  have : (ls ++ [u]).getLastD [] = u := by simp
  simp only [this, h1, hdc]
  rw [pyJoin_append hlne (by simp)]
  simp [pyJoin]

theorem rule_facts (c : Char) {w : Width}
    (hw : w = .inf ∨ ∃ n : Int, w = .fin n ∧ 3 ≤ n) :
    ∃ k, 3 ≤ k ∧ rule c w = List.replicate k c := by
  rcases hw with rfl | ⟨n, rfl, hn⟩
  · exact ⟨3, by omega, rfl⟩
  · exact ⟨n.toNat, by omega, rfl⟩

theorem isThematic_replicate {c : Char} (hc : c = '*' ∨ c = '_' ∨ c = '-') {k : Nat} (hk : 3 ≤ k) :
    isThematic (List.replicate k c) = true ∧ isBulletStart (List.replicate k c) = false := by
  have h1 := (C13_thematic_fixed_point (fun _ _ => .error .runtime) 0 (k : Int) c hc (by omega)).1
  refine ⟨by simpa using h1, ?_⟩
  cases hb : isBulletStart (List.replicate k c) with
  | false => rfl
  | true =>
    simp only [isBulletStart, Bool.and_eq_true] at hb
    obtain ⟨d, r, hd, hd2⟩ := (isBulletStart_iff _).1 hb.2
    have : ' ' ∈ List.replicate k c := mem_of_mem_lstrip (by rw [hd]; simp)
    have := List.eq_of_mem_replicate this
    rcases hc with rfl | rfl | rfl <;> exact absurd this (by decide)

theorem replicate_noLB' {c : Char} (hc : isWs c = false) (k : Nat) : NoLB (List.replicate k c) := by
  intro x hx
  rw [List.eq_of_mem_replicate hx]
  cases h : isLB c with
  | false => rfl
  | true => rw [isLB_ws h] at hc; cases hc

/-- Every block is formatted as `Formats` says, and the result is a block that formats to itself. -/
theorem flat_formats {ty : Sec} {ls : List Str} (h : Flat ty ls) (w : Width)
    (hw : ty = .thematic → w = .inf ∨ ∃ n : Int, w = .fin n ∧ 3 ≤ n) :
    ∃ out, Formats w ty ls out ∧ Flat ty out ∧ Formats w ty out out ∧
      ∀ sub i, fmtSection sub w i ty ls = .ok (pyJoin ['\n'] out) ∧
        fmtSection sub w i ty out = .ok (pyJoin ['\n'] out) := by
  cases h with
  | @blank l h hl => exact ⟨[[]], .blank l, .blank rfl (by intro c hc; cases hc), .blank [], fun sub i => ⟨rfl, rfl⟩⟩
  | @atx l h hl =>
    have hx := C12_atx_normal_form
    obtain ⟨ws, k, text, h1, h2, h3, h4, h5, h6⟩ := hx (fun _ _ => .error .runtime) w 0 l h
    have hst : strip (strip text) = strip text := strip_idem text
    have hmem : ∀ c ∈ text, c ∈ l := by intro c hc; rw [h1]; simp [hc]
    refine ⟨[atxLine k (strip text)], ?_, ?_, ?_, ?_⟩
    · rw [h1]; exact .atx h4 h2 h5
    · refine .atx (C12_atx_fixed_point (fun _ _ => .error .runtime) w 0 k (strip text) h4 hst).1 ?_
      unfold atxLine
      refine (replicate_noLB' (by decide) k).append (.cons (by decide) ?_)
      exact hl.of_mem fun c hc => hmem c (mem_of_mem_strip hc)
    · have h8 : Formats w .atx [[] ++ List.replicate k '#' ++ (' ' :: strip text)]
          [atxLine k (strip (' ' :: strip text))] := .atx h4 (by simp) (by simp)
      have h7 : strip (' ' :: strip text) = strip text := by
        have : strip ([' '] ++ strip text) = strip (strip text) := by
          show rstrip (lstrip ([' '] ++ strip text)) = rstrip (lstrip (strip text))
          rw [lstrip_append_ws _ _ (by decide)]
        exact this.trans hst
      rw [h7] at h8
      exact h8
    · intro sub i
      exact ⟨h6, (C12_atx_fixed_point sub w i k (strip text) h4 hst).2⟩
  | @thematic l h hb hl =>
    obtain ⟨c, hc, h1, _⟩ := C13_thematic (fun _ _ => .error .runtime) w 0 l h
    obtain ⟨k, hk, hk2⟩ := rule_facts c (hw rfl)
    have hcw : isWs c = false := by rcases hc with rfl | rfl | rfl <;> decide
    have hfm : ∀ sub i l', isThematic l' = true → (∀ x ∈ l', isWs x = true ∨ x = c) →
        fmtSection sub w i .thematic [l'] = .ok (rule c w) := by
      intro sub i l' h' h1'
      obtain ⟨c', hc', h2', h3'⟩ := C13_thematic sub w i l' h'
      have : c' = c := by
        obtain ⟨_, d, hd, hd3, hd2⟩ := (isThematic_iff l').1 h'
        have hcw' : isWs c' = false := by rcases hc' with rfl | rfl | rfl <;> decide
        have hdw : isWs d = false := by rcases hd with rfl | rfl | rfl <;> decide
        have hdm : d ∈ l' := by
          cases hfl : l'.filter (fun x => !isWs x) with
          | nil => rw [hfl] at hd3; exact absurd hd3 (by decide)
          | cons y ys =>
            have hy : y ∈ l'.filter (fun x => !isWs x) := by rw [hfl]; simp
            have hy2 := List.mem_filter.1 hy
            rw [← hd2 y hy2.1 (by simpa using hy2.2)]
            exact hy2.1
        rcases h2' d hdm with e | e
        · rw [hdw] at e; cases e
        · rcases h1' d hdm with e' | e'
          · rw [hdw] at e'; cases e'
          · rw [← e, e']
      rw [h3', this]
      cases w <;> rfl
    obtain ⟨hr1, hr2⟩ := isThematic_replicate hc hk
    have hrc : ∀ x ∈ rule c w, isWs x = true ∨ x = c := by
      intro x hx; rw [hk2] at hx; exact .inr (List.eq_of_mem_replicate hx)
    refine ⟨[rule c w], .thematic hc h1, ?_, .thematic hc hrc, fun sub i => ⟨hfm sub i l h h1, hfm sub i _ ?_ hrc⟩⟩
    · rw [hk2]; exact .thematic hr1 hr2 (replicate_noLB' hcw k)
    · rw [hk2]; exact hr1
  | @par ls ts h =>
    obtain ⟨ht, hlne, _⟩ := text_layLines h.layable w
    have hs := layLines_settle w ts
    have hf : Formats w .par (layLines w ts) (layLines w (settle w ts)) := .par ht
    rw [hs] at hf
    refine ⟨_, .par h, .par ht, hf, fun sub i => ⟨fmtPar_text h w, ?_⟩⟩
    exact (fmtPar_text ht w).trans (by rw [hs])
  | @setext ls u ts h hu hl =>
    obtain ⟨ht, hlne, _⟩ := text_layLines h.layable w
    have hs := layLines_settle w ts
    obtain ⟨c, r, h1, hc, h2⟩ := underline_char hu
    have hcw : isWs c = false := by rcases hc with rfl | rfl <;> decide
    obtain ⟨m, hm⟩ := maxLen_some hlne
    obtain ⟨hm1, hm2⟩ := maxLen_ok hm
    have hmpos : 0 < m := by
      obtain ⟨l, hl, hlm⟩ := hm2
      have := (ht.lines l hl).ne
      cases hj : l with
      | nil => rw [hj] at this; exact absurd rfl this
      | cons a b => rw [hj] at hlm; simp at hlm; omega
    have hru := underline_replicate hc hmpos
    have hrc : ∀ x ∈ List.replicate m c, isWs x = true ∨ x = c := fun x hx => .inr (List.eq_of_mem_replicate hx)
    refine ⟨_, .setext h hc h2 hm1 hm2, .setext ht hru (replicate_noLB' hcw m), ?_, fun sub i => ⟨?_, ?_⟩⟩
    · have := @Formats.setext w _ (List.replicate m c) _ c m ht hc hrc (by rw [hs]; exact hm1) (by rw [hs]; exact hm2)
      rw [hs] at this; exact this
    · exact fmtSetext_text h hu h2 hm
    · exact (fmtSetext_text ht hru hrc (by rw [hs]; exact hm)).trans (by rw [hs])
  | @fenced f k ws info close content hf hk hws hinfo hinfo2 hcontent hclose hl =>
    have hfw : isWs f = false := by rcases hf with rfl | rfl <;> decide
    refine ⟨_, .fenced hf (by omega) hws hinfo, ?_, ?_, fun sub i => ⟨?_, ?_⟩⟩
    · have := @Flat.fenced f k [] (strip info) (List.replicate k f) (content.map rstrip) hf hk (by simp) hinfo2
        (by rw [strip_idem]; exact hinfo2)
        (by intro c hc; obtain ⟨c', hc', rfl⟩ := List.mem_map.1 hc; rw [strip_rstrip]; exact hcontent c' hc')
        (replicate_strip hfw k)
        ⟨(by intro c hc; cases hc), hl.2.1.of_mem fun c hc => mem_of_mem_strip hc, replicate_noLB' hfw k, by
          intro c hc; obtain ⟨c', hc', rfl⟩ := List.mem_map.1 hc
          exact (hl.2.2.2 c' hc').of_mem fun x hx => mem_of_mem_rstrip hx⟩
      exact this
    · have := @Formats.fenced w f k [] (strip info) (List.replicate k f) (content.map rstrip) hf (by omega) (by simp) hinfo2
      rw [strip_idem, List.map_map] at this
      have h2 : content.map (rstrip ∘ rstrip) = content.map rstrip :=
        List.map_congr_left fun x _ => rstrip_idem x
      rw [h2] at this
      exact this
    · exact C14_fenced_partial sub w i ws info close content f k hf hws (by omega) hinfo
    · have := C14_fenced_partial sub w i [] (strip info) (List.replicate k f) (content.map rstrip) f k hf (by simp)
        (by omega) hinfo2
      rw [strip_idem, List.map_map] at this
      have h2 : content.map (rstrip ∘ rstrip) = content.map rstrip :=
        List.map_congr_left fun x _ => rstrip_idem x
      rw [h2] at this
      exact this


/-! ## Documents -/

/-- The lines of a list of blocks. -/
def linesOf (doc : List (Sec × List Str)) : List Str := (doc.map (·.2)).flatten

theorem linesOf_cons (b : Sec × List Str) (doc : List (Sec × List Str)) : linesOf (b :: doc) = b.2 ++ linesOf doc := rfl

theorem linesOf_append (a b : List (Sec × List Str)) : linesOf (a ++ b) = linesOf a ++ linesOf b := by
  simp [linesOf]

theorem mem_linesOf {doc : List (Sec × List Str)} {l : Str} : l ∈ linesOf doc ↔ ∃ b ∈ doc, l ∈ b.2 := by
  unfold linesOf
  rw [List.mem_flatten]
  constructor
  · rintro ⟨x, hx, hl⟩
    obtain ⟨b, hb, rfl⟩ := List.mem_map.1 hx
    exact ⟨b, hb, hl⟩
  · rintro ⟨b, hb, hl⟩
    exact ⟨b.2, List.mem_map.2 ⟨b, hb, rfl⟩, hl⟩

/-- A paragraph is not followed by a line that would continue it or turn it into a heading. -/
def Follows (a b : Sec × List Str) : Prop :=
  a.1 = .par → b.1 ≠ .par ∧ b.1 ≠ .setext ∧ (b.1 = .thematic → ∀ l ∈ b.2, '-' ∉ l)

/-- The documents of C34. -/
structure Prose (doc : List (Sec × List Str)) : Prop where
  blocks : ∀ b ∈ doc, Flat b.1 b.2
  apart : Adj Follows doc

/-- the sections of a document are its blocks when each block is recognised in front of the next ones -/
theorem parse_of_first {n : Nat} (doc : List (Sec × List Str))
    (h : ∀ a b c, doc = a ++ b :: c → b.2 ≠ [] ∧
      firstSection (splitters (splitQuote n)) (b.2 ++ linesOf c) = .ok (b.1, b.2, linesOf c)) :
    parse n (linesOf doc) = .ok doc := by
  have key : ∀ fuel, (linesOf doc).length ≤ fuel → parseLoop (splitQuote n) fuel (linesOf doc) = .ok doc := by
    induction doc with
    | nil => intro fuel _; cases fuel <;> rfl
    | cons b doc ih =>
      intro fuel hf
      obtain ⟨h1, h2⟩ := h [] b doc rfl
      obtain ⟨l, ls, hl⟩ : ∃ l ls, b.2 = l :: ls := by
        cases hb : b.2 with
        | nil => exact absurd hb h1
        | cons l ls => exact ⟨l, ls, rfl⟩
      rw [linesOf_cons] at hf ⊢
      rw [hl] at h2 hf ⊢
      rw [List.cons_append] at h2 hf ⊢
      cases fuel with
      | zero => simp at hf
      | succ fuel =>
        simp only [parseLoop, h2, bind, Except.bind]
        rw [ih (fun a b' c e => h (b :: a) b' c (by rw [e]; rfl)) fuel (by simp at hf; omega)]
        simp only [← hl]
  exact key _ (Nat.le_refl _)

theorem flat_ne {ty : Sec} {ls : List Str} (h : Flat ty ls) : ls ≠ [] := by
  cases h with
  | par h => exact h.ne
  | _ => simp

theorem flat_noLB {ty : Sec} {ls : List Str} (h : Flat ty ls) : ∀ l ∈ ls, NoLB l := by
  cases h with
  | blank h hl => intro l hm; rw [List.mem_singleton.1 hm]; exact hl
  | atx h hl => intro l hm; rw [List.mem_singleton.1 hm]; exact hl
  | thematic h hb hl => intro l hm; rw [List.mem_singleton.1 hm]; exact hl
  | par h => intro l hm; exact (h.lines l hm).facts.2.2.2.2
  | setext h hu hl =>
    intro l hm
    rcases List.mem_append.1 hm with hm | hm
    · exact (h.lines l hm).facts.2.2.2.2
    · rw [List.mem_singleton.1 hm]; exact hl
  | fenced hf hk hws hinfo hinfo2 hcontent hclose hl =>
    intro l hm
    simp only [List.cons_append, List.mem_cons, List.mem_append, List.not_mem_nil, or_false] at hm
    rcases hm with rfl | hm | rfl
    · exact (hl.1.append (replicate_noLB' (by rcases hf with rfl | rfl <;> decide) _)).append hl.2.1
    · exact hl.2.2.2 l hm
    · exact hl.2.2.1

/-- the opening fence of a code block -/
theorem fence_open {f : Char} {k : Nat} {ws info : Str} (hf : f = '`' ∨ f = '~') (hk : 3 ≤ k)
    (hws : ∀ c ∈ ws, isWs c = true) (hinfo : info.head? ≠ some f) :
    openFence (ws ++ List.replicate k f ++ info) = some (List.replicate k f) := by
  have hfw : isWs f = false := by rcases hf with rfl | rfl <;> decide
  obtain ⟨j, rfl⟩ : ∃ j, k = j + 3 := ⟨k - 3, by omega⟩
  have hl : lstrip (ws ++ List.replicate (j + 3) f ++ info) = List.replicate (j + 3) f ++ info := by
    rw [List.append_assoc, lstrip_append_ws _ _ hws, List.replicate_succ, List.cons_append]
    exact lstrip_cons_of_not _ _ hfw
  have hs : strip (ws ++ List.replicate (j + 3) f ++ info) = List.replicate 3 f ++ rstrip (List.replicate j f ++ info) := by
    unfold strip
    rw [hl, Nat.add_comm j 3, ← List.replicate_append_replicate, List.append_assoc]
    have hn : rstrip (List.replicate 3 f) ≠ [] := by
      rw [Ne, rstrip_eq_nil]
      intro h
      have := h f (by simp)
      rw [hfw] at this; cases this
    rcases rstrip_last (List.replicate j f ++ info) with h0 | ⟨r, c, h0, hc⟩
    · rw [h0, rstrip_append_ws _ _ ((rstrip_eq_nil _).1 h0)]
      have : List.replicate 3 f = List.replicate 2 f ++ [f] := rfl
      rw [this, rstrip_concat_of_not _ _ hfw]; simp
    · rw [rstrip_append_of_ne _ _ (by rw [h0]; simp)]
  unfold openFence
  rcases hf with rfl | rfl
  · simp only [List.findSome?_cons]
    have h1 : startsWith (strip (ws ++ List.replicate (j + 3) '`' ++ info)) (List.replicate 3 '`') = true := by
      rw [hs]; exact (startsWith_iff _ _).2 ⟨_, rfl⟩
    rw [h1, hl, lstripBy_replicate _ _ _ hinfo]
    simp
  · simp only [List.findSome?_cons]
    have h1 : startsWith (strip (ws ++ List.replicate (j + 3) '~' ++ info)) (List.replicate 3 '~') = true := by
      rw [hs]; exact (startsWith_iff _ _).2 ⟨_, rfl⟩
    have h2 : startsWith (strip (ws ++ List.replicate (j + 3) '~' ++ info)) (List.replicate 3 '`') = false := by
      cases h3 : startsWith (strip (ws ++ List.replicate (j + 3) '~' ++ info)) (List.replicate 3 '`') with
      | false => rfl
      | true =>
        rw [hs] at h3
        obtain ⟨r, hr⟩ := (startsWith_iff _ _).1 h3
        simp [List.replicate] at hr
    rw [h1, h2, hl, lstripBy_replicate _ _ _ hinfo]
    simp

/-- a block is recognised where it starts, and ends where it should -/
theorem flat_first {ty : Sec} {ls : List Str} (h : Flat ty ls) (n : Nat) (rest : List Str)
    (hr : ty = .par → Stops rest ∧ ∀ x, rest.head? = some x → isSetextUnderline x = false) :
    firstSection (splitters (splitQuote (n + 1))) (ls ++ rest) = .ok (ty, ls, rest) := by
  cases h with
  | blank h hl => exact firstSection_blank rest h
  | atx h hl => exact firstSection_atx rest h
  | thematic h hb hl => exact firstSection_thematic rest h hb
  | par h =>
    have hne := h.ne
    have h := h.lines
    cases ls with
    | nil => exact absurd rfl hne
    | cons l body =>
      have hf := (h l (by simp)).facts
      exact firstSection_par body rest hf.1 hf.2.2.1 hf.2.2.2.1
        (fun x hx => ⟨(h x (by simp [hx])).facts.2.1, (h x (by simp [hx])).facts.2.2.2.1⟩) (hr rfl).1 (hr rfl).2
  | @setext ls u ts h hu hl =>
    have hne := h.ne
    have h := h.lines
    cases ls with
    | nil => exact absurd rfl hne
    | cons l body =>
      have hf := (h l (by simp)).facts
      have := firstSection_setext (n := n) body rest u hf.1 hf.2.2.1 hf.2.2.2.1
        (fun x hx => ⟨(h x (by simp [hx])).facts.2.1, (h x (by simp [hx])).facts.2.2.2.1⟩) hu
      simpa using this
  | fenced hf hk hws hinfo hinfo2 hcontent hclose hl =>
    have := firstSection_fenced (n := n) _ rest _ _ (fence_open hf hk hws hinfo) hcontent hclose
    simpa using this

/-- the first line of a block that may follow a paragraph -/
theorem flat_head {ty : Sec} {ls : List Str} (h : Flat ty ls) (h1 : ty ≠ .par) (h2 : ty ≠ .setext)
    (h3 : ty = .thematic → ∀ l ∈ ls, '-' ∉ l) :
    ∃ l r, ls = l :: r ∧ isQuote l = false ∧ interrupts l = true ∧ isSetextUnderline l = false := by
  cases h with
  | @blank l h hl =>
    refine ⟨l, [], rfl, ?_, by simp [interrupts, h], ?_⟩
    · cases hq : isQuote l with
      | false => rfl
      | true =>
        have := isQuote_first hq
        rw [(firstCh_none l).2 h] at this; cases this
    · cases hq : isSetextUnderline l with
      | false => rfl
      | true =>
        obtain ⟨c, r, hc, _⟩ := underline_char hq
        have : strip l = [] := by simpa [isBlankLine] using h
        rw [this] at hc; cases hc
  | @atx l h hl =>
    obtain ⟨_, r, hr⟩ := (isAtx_iff l).1 h
    obtain ⟨_, p2, _, _, _, _, _, p8, _⟩ := false_of_first (l := l) (c := '#') (by unfold firstCh; rw [hr]; rfl)
    exact ⟨l, [], rfl, p2 (by decide), by simp [interrupts, h], p8 (by decide) (by decide)⟩
  | @thematic l h hb hl =>
    obtain ⟨c, hfc, hc⟩ := isThematic_first h
    have hm : c ∈ l := by
      unfold firstCh at hfc
      exact mem_of_mem_lstrip (List.mem_of_head? hfc)
    have hne : c ≠ '-' := by
      intro e; subst e
      exact h3 rfl l (by simp) hm
    obtain ⟨_, p2, _, _, _, _, _, p8, _⟩ := false_of_first hfc
    refine ⟨l, [], rfl, p2 ?_, by simp [interrupts, h], p8 ?_ hne⟩
    · rcases hc with rfl | rfl | rfl <;> decide
    · rcases hc with rfl | rfl | rfl <;> decide
  | par => exact absurd rfl h1
  | setext => exact absurd rfl h2
  | @fenced f k ws info close content hf hk hws hinfo hinfo2 hcontent hclose hl =>
    have hfw : isWs f = false := by rcases hf with rfl | rfl <;> decide
    have hfc : firstCh (ws ++ List.replicate k f ++ info) = some f := by
      unfold firstCh
      obtain ⟨j, rfl⟩ : ∃ j, k = j + 1 := ⟨k - 1, by omega⟩
      rw [List.append_assoc, lstrip_append_ws _ _ hws, List.replicate_succ, List.cons_append,
        lstrip_cons_of_not _ _ hfw]
      rfl
    obtain ⟨_, p2, _, _, _, _, _, p8, _⟩ := false_of_first hfc
    refine ⟨_, _, rfl, p2 ?_, ?_, p8 ?_ ?_⟩
    · rcases hf with rfl | rfl <;> decide
    · have : isFenceStart (ws ++ List.replicate k f ++ info) = true := by
        cases h0 : isFenceStart (ws ++ List.replicate k f ++ info) with
        | true => rfl
        | false =>
          have := (openFence_none _).2 h0
          rw [fence_open hf hk hws hinfo] at this; cases this
      unfold interrupts
      rw [this]
      simp
    · rcases hf with rfl | rfl <;> decide
    · rcases hf with rfl | rfl <;> decide

theorem prose_parse {doc : List (Sec × List Str)} (h : Prose doc) (n : Nat) :
    parse (n + 1) (linesOf doc) = .ok doc := by
  apply parse_of_first
  intro a b c e
  have hb := h.blocks b (by rw [e]; simp)
  refine ⟨flat_ne hb, flat_first hb n _ ?_⟩
  intro hp
  cases c with
  | nil =>
    refine ⟨?_, ?_⟩
    · intro l hl; cases hl
    · intro l hl; cases hl
  | cons d c =>
    obtain ⟨f1, f2, f3⟩ := h.apart a b d c e hp
    obtain ⟨l, r, hl, q1, q2, q3⟩ := flat_head (h.blocks d (by rw [e]; simp)) f1 f2 f3
    rw [linesOf_cons, hl]
    refine ⟨?_, ?_⟩
    · intro x hx; cases hx; exact ⟨q1, .inl q2⟩
    · intro x hx; cases hx; exact q3


/-- Formatting of a document, block by block. -/
inductive DocFormats (w : Width) : List (Sec × List Str) → List (Sec × List Str) → Prop
  | nil : DocFormats w [] []
  | cons {ty : Sec} {ls out : List Str} {doc doc' : List (Sec × List Str)} (h : Formats w ty ls out)
      (hd : DocFormats w doc doc') : DocFormats w ((ty, ls) :: doc) ((ty, out) :: doc')

/-- thematic breaks need three columns -/
def WidthFor (w : Width) (doc : List (Sec × List Str)) : Prop :=
  (∃ b ∈ doc, b.1 = .thematic) → w = .inf ∨ ∃ n : Int, w = .fin n ∧ 3 ≤ n

theorem formats_dash {w : Width} {ty : Sec} {ls out : List Str} (h : Flat ty ls) (hf : Formats w ty ls out)
    (ht : ty = .thematic) (hd : ∀ l ∈ ls, '-' ∉ l) : ∀ l ∈ out, '-' ∉ l := by
  subst ht
  cases h with
  | @thematic l h hb hl =>
    cases hf with
    | @thematic _ c hc hall =>
      intro x hx
      rw [List.mem_singleton.1 hx]
      obtain ⟨d, hfd, hdc⟩ := isThematic_first h
      have hdm : d ∈ l := mem_of_mem_lstrip (List.mem_of_head? hfd)
      have hcd : c ≠ '-' := by
        intro e
        rcases hall d hdm with h1 | h1
        · rw [firstCh_not_ws hfd] at h1; cases h1
        · rw [h1, e] at hdm
          exact hd l (by simp) hdm
      intro hm
      cases w with
      | inf => simp [rule] at hm; exact hcd hm.symm
      | fin n => exact hcd (List.eq_of_mem_replicate hm).symm

theorem reprCheck_flat {ty : Sec} {ls : List Str} (h : Flat ty ls) : reprCheck ty ls = .ok () := by
  cases h with
  | blank h hl => rfl
  | atx h hl => rfl
  | @thematic l h hb hl =>
    obtain ⟨c, hfc, _⟩ := isThematic_first h
    rw [← firstCh_strip] at hfc
    cases hs : strip l with
    | nil => rw [hs] at hfc; cases hfc
    | cons x xs => simp [reprCheck, hs]
  | par h => rfl
  | @setext ls u ts h hu hl =>
    have hne := h.ne
    obtain ⟨c, r, hc, _⟩ := underline_char hu
    have hlen : ¬ (ls ++ [u]).length < 2 := by
      cases ls with
      | nil => exact absurd rfl hne
      | cons a r => simp
    have hg : (ls ++ [u]).getLastD [] = u := by simp
    unfold reprCheck
    simp only [hlen, if_false, hg, hc]
    rfl
  | @fenced f k ws info close content hf hk hws hinfo hinfo2 hcontent hclose hl =>
    have hfw : isWs f = false := by rcases hf with rfl | rfl <;> decide
    have hs : strip (ws ++ List.replicate k f ++ info) ≠ [] := by
      intro h0
      have := (strip_eq_nil _).1 h0 f (by
        obtain ⟨j, rfl⟩ : ∃ j, k = j + 1 := ⟨k - 1, by omega⟩
        simp)
      rw [hfw] at this; cases this
    have hs2 : (strip (ws ++ List.replicate k f ++ info)).isEmpty = false := by
      cases h0 : strip (ws ++ List.replicate k f ++ info) with
      | nil => exact absurd h0 hs
      | cons a b => rfl
    show (if (content ++ [close]).isEmpty then _ else if (strip (ws ++ List.replicate k f ++ info)).isEmpty then _ else _) = _
    rw [hs2]
    have : (content ++ [close]).isEmpty = false := by simp
    rw [this]
    rfl

/-- joining the texts of the blocks is joining the lines -/
theorem join_linesOf (doc : List (Sec × List Str)) (h : ∀ b ∈ doc, b.2 ≠ []) :
    pyJoin ['\n'] (doc.map fun b => pyJoin ['\n'] b.2) = pyJoin ['\n'] (linesOf doc) := by
  induction doc with
  | nil => rfl
  | cons b doc ih =>
    have ihd := ih (fun x hx => h x (by simp [hx]))
    rw [linesOf_cons, List.map_cons]
    cases doc with
    | nil => simp [linesOf, pyJoin]
    | cons d doc =>
      have hd := h d (by simp)
      rw [pyJoin_cons_ne (by simp), ihd, pyJoin_append (h b (by simp))]
      rw [linesOf_cons]
      cases hd2 : d.2 with
      | nil => exact absurd hd2 hd
      | cons x xs => simp

/-- Everything about a document and its formatting. -/
theorem prose_formats {doc : List (Sec × List Str)} (h : Prose doc) {w : Width} (hw : WidthFor w doc) :
    ∃ doc', DocFormats w doc doc' ∧ Prose doc' ∧ DocFormats w doc' doc' ∧ doc'.map (·.1) = doc.map (·.1) ∧
      ∀ sub, (∀ i last, last ≠ some .quote → ∃ fs, buildFmts i last doc = .ok fs ∧
          fmtAll sub w fs = .ok (doc'.map fun b => pyJoin ['\n'] b.2)) ∧
        (∀ i last, last ≠ some .quote → ∃ fs, buildFmts i last doc' = .ok fs ∧
          fmtAll sub w fs = .ok (doc'.map fun b => pyJoin ['\n'] b.2)) := by
  induction doc with
  | nil =>
    exact ⟨[], .nil, h, .nil, rfl, fun sub => ⟨fun i last _ => ⟨[], rfl, rfl⟩, fun i last _ => ⟨[], rfl, rfl⟩⟩⟩
  | cons b doc ih =>
    obtain ⟨ty, ls⟩ := b
    have hb : Flat ty ls := h.blocks (ty, ls) (by simp)
    have hdoc : Prose doc := ⟨fun x hx => h.blocks x (by simp [hx]), fun a x y c e =>
      h.apart ((ty, ls) :: a) x y c (by rw [e]; rfl)⟩
    obtain ⟨doc', h1, h2, h3, h4, h5⟩ := ih hdoc (fun ⟨x, hx, hx2⟩ => hw ⟨x, by simp [hx], hx2⟩)
    obtain ⟨out, f1, f2, f3, f4⟩ := flat_formats hb w (fun e => hw ⟨(ty, ls), by simp, e⟩)
    have hnq : ty ≠ .quote := by intro e; subst e; cases hb
    refine ⟨(ty, out) :: doc', .cons f1 h1, ⟨?_, ?_⟩, .cons f3 h3, by simp [h4], fun sub => ⟨?_, ?_⟩⟩
    · intro x hx
      rcases List.mem_cons.1 hx with rfl | hx
      · exact f2
      · exact h2.blocks x hx
    · intro a x y c e
      cases a with
      | cons a0 a =>
        exact h2.apart a x y c (List.cons.inj e).2
      | nil =>
        obtain ⟨e1, e2⟩ := List.cons.inj e
        subst e1
        -- the block after the first
        cases h1 with
        | nil => cases e2
        | @cons ty2 ls2 out2 d d' g1 g2 =>
          obtain ⟨e3, e4⟩ := List.cons.inj e2
          subst e3
          intro hp
          obtain ⟨q1, q2, q3⟩ := h.apart [] (ty, ls) (ty2, ls2) d rfl hp
          exact ⟨q1, q2, fun ht => formats_dash (h.blocks (ty2, ls2) (by simp)) g1 ht (q3 ht)⟩
    · intro i last hl
      obtain ⟨fs, g1, g2⟩ := (h5 sub).1 (i + ls.length) (some ty) (by simpa using hnq)
      refine ⟨{ lineIndex := i, ty := ty, lines := ls } :: fs, ?_, ?_⟩
      · simp only [buildFmts, reprCheck_flat hb, bind, Except.bind, g1]
        rw [if_neg]
        intro hc
        simp at hc
        exact hl hc.2
      · simp only [fmtAll, (f4 sub i).1, Except.mapError, bind, Except.bind, g2, List.map_cons]
    · intro i last hl
      obtain ⟨fs, g1, g2⟩ := (h5 sub).2 (i + out.length) (some ty) (by simpa using hnq)
      refine ⟨{ lineIndex := i, ty := ty, lines := out } :: fs, ?_, ?_⟩
      · simp only [buildFmts, reprCheck_flat f2, bind, Except.bind, g1]
        rw [if_neg]
        intro hc
        simp at hc
        exact hl hc.2
      · simp only [fmtAll, (f4 sub i).2, Except.mapError, bind, Except.bind, g2, List.map_cons]

/-- one pass over a document -/
theorem prose_pass {doc : List (Sec × List Str)} (h : Prose doc) {w : Width} (hw : WidthFor w doc) :
    ∃ doc', DocFormats w doc doc' ∧ Prose doc' ∧ DocFormats w doc' doc' ∧ doc'.map (·.1) = doc.map (·.1) ∧
      (∀ n text, splitlines text = linesOf doc →
        reformatText (n + 2) w text = .ok (pyJoin ['\n'] (linesOf doc') ++ ['\n'])) ∧
      (∀ n text, splitlines text = linesOf doc' →
        reformatText (n + 2) w text = .ok (pyJoin ['\n'] (linesOf doc') ++ ['\n'])) := by
  obtain ⟨doc', h1, h2, h3, h4, h5⟩ := prose_formats h hw
  have hne : ∀ b ∈ doc', b.2 ≠ [] := fun b hb => flat_ne (h2.blocks b hb)
  refine ⟨doc', h1, h2, h3, h4, ?_, ?_⟩
  · intro n text ht
    obtain ⟨fs, g1, g2⟩ := (h5 (reformatText (n + 1))).1 0 none (by simp)
    show reformatBody _ _ _ _ = _
    simp only [reformatBody, ht, prose_parse h, bind, Except.bind, g1, g2]
    rw [join_linesOf doc' hne]
  · intro n text ht
    obtain ⟨fs, g1, g2⟩ := (h5 (reformatText (n + 1))).2 0 none (by simp)
    show reformatBody _ _ _ _ = _
    simp only [reformatBody, ht, prose_parse h2, bind, Except.bind, g1, g2]
    rw [join_linesOf doc' hne]


/-! ## `Formats` determines the result -/

theorem marker_unique {c : Char} {k k' : Nat} {ws ws' r r' : Str} (hc : isWs c = false) (hk : 1 ≤ k) (hk' : 1 ≤ k')
    (hws : ∀ x ∈ ws, isWs x = true) (hws' : ∀ x ∈ ws', isWs x = true) (hr : r.head? ≠ some c) (hr' : r'.head? ≠ some c)
    (h : ws ++ List.replicate k c ++ r = ws' ++ List.replicate k' c ++ r') : k = k' ∧ r = r' := by
  have key : ∀ (k : Nat) (ws r : Str), 1 ≤ k → (∀ x ∈ ws, isWs x = true) →
      lstrip (ws ++ List.replicate k c ++ r) = List.replicate k c ++ r := by
    intro k ws r hk hws
    obtain ⟨j, rfl⟩ : ∃ j, k = j + 1 := ⟨k - 1, by omega⟩
    rw [List.append_assoc, lstrip_append_ws _ _ hws, List.replicate_succ, List.cons_append]
    exact lstrip_cons_of_not _ _ hc
  have h1 : List.replicate k c ++ r = List.replicate k' c ++ r' := by
    rw [← key k ws r hk hws, ← key k' ws' r' hk' hws', h]
  have h2 : r = r' := by rw [← lstripBy_replicate c k r hr, ← lstripBy_replicate c k' r' hr', h1]
  refine ⟨?_, h2⟩
  have := congrArg List.length h1
  subst h2
  simp at this
  exact this

theorem formats_fun {w : Width} {ty : Sec} {ls o1 o2 : List Str} (h : Flat ty ls) (h1 : Formats w ty ls o1)
    (h2 : Formats w ty ls o2) : o1 = o2 := by
  cases h with
  | @blank l h hl => cases h1; cases h2; rfl
  | @atx l h hl =>
    generalize hg : [l] = L at h1
    cases h1 with
    | @atx ws text k hk hws ht =>
      have e1 := (List.cons.inj hg).1
      generalize hg' : [l] = L' at h2
      cases h2 with
      | @atx ws' text' k' hk' hws' ht' =>
        have e2 := (List.cons.inj hg').1
        obtain ⟨rfl, rfl⟩ := marker_unique (by decide) hk hk' hws hws' ht ht' (e1.symm.trans e2)
        rfl
  | @thematic l h hb hl =>
    obtain ⟨d, hd, hdc⟩ := isThematic_first h
    have hdm : d ∈ l := mem_of_mem_lstrip (List.mem_of_head? hd)
    have hdw := firstCh_not_ws hd
    cases h1 with
    | @thematic _ c hc hall =>
      cases h2 with
      | @thematic _ c' hc' hall' =>
        have e1 : d = c := by rcases hall d hdm with e | e; (rw [hdw] at e; cases e); exact e
        have e2 : d = c' := by rcases hall' d hdm with e | e; (rw [hdw] at e; cases e); exact e
        rw [← e1, ← e2]
  | par h =>
    cases h1 with
    | par g1 =>
      cases h2 with
      | par g2 => rw [g1.unique g2]
  | @setext ls u ts h hu hl =>
    obtain ⟨d, r, hd, hdc, _⟩ := underline_char hu
    have hdm : d ∈ u := mem_of_mem_strip (by rw [hd]; simp)
    have hdw : isWs d = false := by rcases hdc with rfl | rfl <;> decide
    generalize hg : ls ++ [u] = L at h1
    cases h1 with
    | @setext ls1 u1 ts1 c1 m1 g1 hc1 hu1 hm1 hm1' =>
      generalize hg' : ls ++ [u] = L' at h2
      cases h2 with
      | @setext ls2 u2 ts2 c2 m2 g2 hc2 hu2 hm2 hm2' =>
        have e1 := List.append_inj' hg rfl
        have e2 := List.append_inj' hg' rfl
        obtain ⟨e1, e1'⟩ := e1
        obtain ⟨e2, e2'⟩ := e2
        have e1'' := (List.cons.inj e1').1
        have e2'' := (List.cons.inj e2').1
        subst e1 e1'' e2 e2''
        have := g1.unique g2
        subst this
        have f1 : d = c1 := by rcases hu1 d hdm with e | e; (rw [hdw] at e; cases e); exact e
        have f2 : d = c2 := by rcases hu2 d hdm with e | e; (rw [hdw] at e; cases e); exact e
        have f3 : m1 = m2 := by
          obtain ⟨x, hx, hxm⟩ := hm1'
          obtain ⟨y, hy, hym⟩ := hm2'
          have := hm1 y hy
          have := hm2 x hx
          omega
        rw [← f1, ← f2, f3]
  | @fenced f k ws info close content hf hk hws hinfo hinfo2 hcontent hclose hl =>
    have hfc : ∀ (f : Char) (k : Nat) (ws info : Str), (f = '`' ∨ f = '~') → 1 ≤ k → (∀ c ∈ ws, isWs c = true) →
        firstCh (ws ++ List.replicate k f ++ info) = some f := by
      intro f k ws info hf hk hws
      have hfw : isWs f = false := by rcases hf with rfl | rfl <;> decide
      unfold firstCh
      obtain ⟨j, rfl⟩ : ∃ j, k = j + 1 := ⟨k - 1, by omega⟩
      rw [List.append_assoc, lstrip_append_ws _ _ hws, List.replicate_succ, List.cons_append,
        lstrip_cons_of_not _ _ hfw]
      rfl
    have hfw : isWs f = false := by rcases hf with rfl | rfl <;> decide
    generalize hg : (ws ++ List.replicate k f ++ info) :: content ++ [close] = L at h1
    cases h1 with
    | @fenced f1 k1 ws1 info1 close1 content1 hf1 hk1 hws1 hinfo1 =>
      generalize hg' : (ws ++ List.replicate k f ++ info) :: content ++ [close] = L' at h2
      cases h2 with
      | @fenced f2 k2 ws2 info2 close2 content2 hf2 hk2 hws2 hinfo2' =>
        obtain ⟨e1, e1'⟩ := List.cons.inj hg
        obtain ⟨e2, e2'⟩ := List.cons.inj hg'
        have c1 := (List.append_inj' e1' rfl).1
        have c2 := (List.append_inj' e2' rfl).1
        subst c1 c2
        have a0 := hfc f k ws info hf (by omega) hws
        have a1 := hfc f1 k1 ws1 info1 hf1 hk1 hws1
        have a2 := hfc f2 k2 ws2 info2 hf2 hk2 hws2
        rw [← e1, a0] at a1
        rw [← e2, a0] at a2
        cases a1
        cases a2
        obtain ⟨rfl, rfl⟩ := marker_unique hfw (by omega : 1 ≤ k) hk1 hws hws1 hinfo hinfo1 e1
        obtain ⟨rfl, rfl⟩ := marker_unique hfw (by omega : 1 ≤ k) hk2 hws hws2 hinfo hinfo2' e2
        rfl

theorem docFormats_fun {w : Width} {doc d1 d2 : List (Sec × List Str)} (h : Prose doc) (h1 : DocFormats w doc d1)
    (h2 : DocFormats w doc d2) : d1 = d2 := by
  have hb := h.blocks
  clear h
  induction h1 generalizing d2 with
  | nil => cases h2; rfl
  | cons f1 _ ih =>
    cases h2 with
    | cons f2 g2 =>
      rw [formats_fun (hb (_, _) (List.mem_cons_self ..)) f1 f2, ih g2 (fun b hb' => hb b (by simp [hb']))]

/-! ## The end of the document -/

theorem docFormats_append {w : Width} {a a' b b' : List (Sec × List Str)} (h1 : DocFormats w a a')
    (h2 : DocFormats w b b') : DocFormats w (a ++ b) (a' ++ b') := by
  induction h1 with
  | nil => exact h2
  | cons f _ ih => exact .cons f ih

theorem docFormats_prefix {w : Width} {a b a' b' : List (Sec × List Str)} (h : DocFormats w (a ++ b) (a' ++ b'))
    (hl : a.length = a'.length) : DocFormats w a a' ∧ DocFormats w b b' := by
  induction a generalizing a' with
  | nil =>
    cases a' with
    | nil => exact ⟨.nil, h⟩
    | cons => cases hl
  | cons x a ih =>
    cases a' with
    | nil => cases hl
    | cons x' a' =>
      cases h with
      | cons f g =>
        obtain ⟨g1, g2⟩ := ih g (by simpa using hl)
        exact ⟨.cons f g1, g2⟩

theorem rstrip_ends {s : Str} {c : Char} (h : s.getLast? = some c) (hc : isWs c = false) : rstrip s = s := by
  obtain ⟨r, rfl⟩ : ∃ r, s = r ++ [c] := by
    have hne : s ≠ [] := by intro e; rw [e] at h; cases h
    have := List.dropLast_concat_getLast hne
    rw [List.getLast?_eq_some_getLast hne] at h
    rw [Option.some.inj h] at this
    exact ⟨_, this.symm⟩
  exact rstrip_concat_of_not r c hc

theorem pyJoin_getLast {ls : List Str} {l : Str} {c : Char} (h : l.getLast? = some c) :
    (pyJoin ['\n'] (ls ++ [l])).getLast? = some c := by
  cases ls with
  | nil => simpa [pyJoin] using h
  | cons a r =>
    rw [pyJoin_append (by simp) (by simp), List.getLast?_append]
    simp [pyJoin, h]

theorem replicate_getLast {c : Char} {k : Nat} (h : 1 ≤ k) : (List.replicate k c).getLast? = some c := by
  obtain ⟨j, rfl⟩ : ∃ j, k = j + 1 := ⟨k - 1, by omega⟩
  rw [List.replicate_succ', List.getLast?_append]
  rfl

/-- the last block without trailing whitespace -/
theorem flat_trim {w : Width} {ty : Sec} {ls out : List Str} (h0 : Flat ty ls) (hf0 : Formats w ty ls out)
    (h : Flat ty out) (hf : Formats w ty out out)
    (hw : ty = .thematic → w = .inf ∨ ∃ n : Int, w = .fin n ∧ 3 ≤ n) (hb : ty ≠ .blank) :
    ∃ out2, Flat ty out2 ∧ Formats w ty out2 out ∧ pyJoin ['\n'] out2 = rstrip (pyJoin ['\n'] out) ∧
      rstrip (pyJoin ['\n'] out) ≠ [] ∧ (ty = .thematic → out2 = out) := by
  have same : ∀ (ls : List Str) (l : Str) (c : Char), out = ls ++ [l] → l.getLast? = some c → isWs c = false →
      ∃ out2, Flat ty out2 ∧ Formats w ty out2 out ∧ pyJoin ['\n'] out2 = rstrip (pyJoin ['\n'] out) ∧
        rstrip (pyJoin ['\n'] out) ≠ [] ∧ (ty = .thematic → out2 = out) := by
    intro ls l c e hl hc
    have hj : (pyJoin ['\n'] out).getLast? = some c := by rw [e]; exact pyJoin_getLast hl
    have := rstrip_ends hj hc
    refine ⟨out, h, hf, this.symm, ?_, fun _ => rfl⟩
    rw [this]
    intro e0
    rw [e0] at hj; cases hj
  cases hf0 with
  | blank => exact absurd rfl hb
  | @atx ws text k hk hws ht =>
    cases hst : strip text with
    | nil =>
      refine ⟨[List.replicate k '#'], ?_, ?_, ?_, ?_, fun e => by cases e⟩
      · refine .atx ((isAtx_iff _).2 ⟨?_, ?_⟩) (replicate_noLB' (by decide) k)
        · obtain ⟨j, rfl⟩ : ∃ j, k = j + 1 := ⟨k - 1, by omega⟩
          simp [getIndent, List.replicate_succ, lstrip_cons_of_not _ _ (by decide : isWs '#' = false)]
        · obtain ⟨j, rfl⟩ : ∃ j, k = j + 1 := ⟨k - 1, by omega⟩
          exact ⟨List.replicate j '#', by rw [List.replicate_succ, lstrip_cons_of_not _ _ (by decide)]⟩
      · have := @Formats.atx w [] [] k hk (by simp) (by simp)
        rw [List.nil_append, List.append_nil] at this
        exact this
      · show List.replicate k '#' = rstrip (List.replicate k '#' ++ [' '])
        rw [rstrip_append_ws _ _ (by decide)]
        exact (rstrip_ends (replicate_getLast hk) (by decide)).symm
      · show rstrip (List.replicate k '#' ++ [' ']) ≠ []
        rw [rstrip_append_ws _ _ (by decide), rstrip_ends (replicate_getLast hk) (by decide)]
        obtain ⟨j, rfl⟩ : ∃ j, k = j + 1 := ⟨k - 1, by omega⟩
        simp
    | cons a r =>
      rcases strip_last text with h0 | ⟨r', c, h0, hc⟩
      · rw [h0] at hst; cases hst
      · rw [← hst]
        refine same [] _ c rfl ?_ hc
        rw [h0]
        unfold atxLine
        rw [← List.cons_append, ← List.append_assoc, List.getLast?_concat]
  | @thematic l' c hc hall =>
    obtain ⟨k, hk, hk2⟩ := rule_facts c (hw rfl)
    refine same [] _ c rfl ?_ (by rcases hc with rfl | rfl | rfl <;> decide)
    rw [hk2]
    exact replicate_getLast (by omega)
  | @par _ ts ht =>
    obtain ⟨_, hne, hst⟩ := text_layLines ht.layable w
    have hl := List.dropLast_concat_getLast hne
    obtain ⟨r, c, e, hc⟩ := (hst _ (List.getLast_mem hne)).1.ends
    refine same _ _ c hl.symm ?_ hc
    rw [e, List.getLast?_concat]
  | @setext ls1 u1 ts1 c1 m1 g1 hc1 hu1 hm1 hm1' =>
    refine same _ _ c1 rfl (replicate_getLast ?_) (by rcases hc1 with rfl | rfl <;> decide)
    obtain ⟨_, hne, hst⟩ := text_layLines g1.layable w
    obtain ⟨x, hx, hxm⟩ := hm1'
    have := (hst x hx).1.1
    cases hj : x with
    | nil => exact absurd hj this
    | cons a b => rw [hj] at hxm; simp at hxm; omega
  | @fenced f1 k1 ws1 info1 close1 content1 hf2 hk1 hws1 hinfo1 =>
    exact same _ _ f1 rfl (replicate_getLast hk1) (by rcases hf2 with rfl | rfl <;> decide)

theorem rstrip_join_blank (L : List Str) : rstrip (pyJoin ['\n'] (L ++ [[]])) = rstrip (pyJoin ['\n'] L) := by
  cases L with
  | nil => rfl
  | cons a r =>
    rw [pyJoin_append (by simp) (by simp)]
    have : pyJoin ['\n'] [([] : Str)] = [] := rfl
    rw [this, List.append_nil, rstrip_append_ws _ _ (by decide)]

theorem rstrip_join_last (L : List Str) {out out2 : List Str} (h1 : out ≠ []) (h2 : out2 ≠ [])
    (h : pyJoin ['\n'] out2 = rstrip (pyJoin ['\n'] out)) (hne : rstrip (pyJoin ['\n'] out) ≠ []) :
    rstrip (pyJoin ['\n'] (L ++ out)) = pyJoin ['\n'] (L ++ out2) := by
  cases L with
  | nil => exact h.symm
  | cons a r =>
    rw [pyJoin_append (by simp) h1, pyJoin_append (by simp) h2, h, rstrip_append_of_ne _ _ hne]

/-- the kinds of the sections that are not blank lines, in order -/
def kinds (secs : List (Sec × List Str)) : List Sec := (secs.map (·.1)).filter (· != .blank)

theorem kinds_append (a b : List (Sec × List Str)) : kinds (a ++ b) = kinds a ++ kinds b := by
  simp [kinds]

/-- the document that remains when trailing blank lines and trailing whitespace are removed -/
theorem prose_trim {w : Width} (doc : List (Sec × List Str)) (h : Prose doc) (hf : DocFormats w doc doc)
    (hw : WidthFor w doc) :
    ∃ core doc2, Prose core ∧ linesOf core ≠ [] ∧ WidthFor w core ∧ DocFormats w core doc2 ∧
      pyJoin ['\n'] (linesOf core) = rstrip (pyJoin ['\n'] (linesOf doc)) ∧
      rstrip (pyJoin ['\n'] (linesOf doc2)) = rstrip (pyJoin ['\n'] (linesOf doc)) ∧ kinds core = kinds doc := by
  have hblank : ∃ core doc2, Prose core ∧ linesOf core ≠ [] ∧ WidthFor w core ∧ DocFormats w core doc2 ∧
      pyJoin ['\n'] (linesOf core) = [] ∧ rstrip (pyJoin ['\n'] (linesOf doc2)) = [] ∧ kinds core = kinds [] := by
    refine ⟨[(.blank, [[]])], [(.blank, [[]])], ⟨?_, .single _⟩, by decide, ?_, .cons (.blank []) .nil, rfl, rfl, rfl⟩
    · intro b hb
      rw [List.mem_singleton.1 hb]
      exact .blank rfl (by intro c hc; cases hc)
    · rintro ⟨b, hb, hb2⟩
      rw [List.mem_singleton.1 hb] at hb2
      cases hb2
  induction hn : doc.length generalizing doc with
  | zero =>
    rw [List.length_eq_zero_iff.1 hn]
    exact hblank
  | succ n ih =>
    have hne : doc ≠ [] := by intro e; rw [e] at hn; cases hn
    obtain ⟨d, b, rfl⟩ : ∃ d b, doc = d ++ [b] := ⟨_, _, (List.dropLast_concat_getLast hne).symm⟩
    obtain ⟨ty, out⟩ := b
    have hd : Prose d := ⟨fun x hx => h.blocks x (by simp [hx]), h.apart.prefix⟩
    have hdf := docFormats_prefix hf rfl
    have hdw : WidthFor w d := fun ⟨x, hx, hx2⟩ => hw ⟨x, by simp [hx], hx2⟩
    have hb := h.blocks (ty, out) (by simp)
    have hbf : Formats w ty out out := by cases hdf.2 with | cons f _ => exact f
    rw [linesOf_append]
    have hlo : linesOf [(ty, out)] = out := by simp [linesOf]
    rw [hlo]
    by_cases hty : ty = .blank
    · subst hty
      have hout : out = [[]] := by
        have : ∀ o o2, Formats w .blank o o2 → o2 = [[]] := by
          intro o o2 hf
          cases hf; rfl
        exact this _ _ hbf
      rw [hout, rstrip_join_blank, kinds_append]
      rw [show kinds [((.blank : Sec), [([] : Str)])] = [] from rfl, List.append_nil]
      exact ih d hd hdf.1 hdw (by simpa using hn)
    · obtain ⟨out2, f1, f2, f3, f4, f5⟩ := flat_trim hb hbf hb hbf
        (fun e => hw ⟨(ty, out), by simp, e⟩) hty
      refine ⟨d ++ [(ty, out2)], d ++ [(ty, out)], ⟨?_, ?_⟩, ?_, ?_, ?_, ?_, ?_, ?_⟩
      · intro x hx
        rcases List.mem_append.1 hx with hx | hx
        · exact hd.blocks x hx
        · rw [List.mem_singleton.1 hx]; exact f1
      · refine h.apart.replaceLast ?_
        intro z hz hp
        obtain ⟨q1, q2, q3⟩ := hz hp
        refine ⟨q1, q2, fun ht => ?_⟩
        show ∀ l ∈ out2, _
        rw [f5 ht]
        exact q3 ht
      · rw [linesOf_append]
        have := flat_ne f1
        simp [linesOf, this]
      · rintro ⟨x, hx, hx2⟩
        rcases List.mem_append.1 hx with hx | hx
        · exact hdw ⟨x, hx, hx2⟩
        · rw [List.mem_singleton.1 hx] at hx2
          exact hw ⟨(ty, out), by simp, hx2⟩
      · exact docFormats_append hdf.1 (.cons f2 .nil)
      · rw [linesOf_append]
        have : linesOf [(ty, out2)] = out2 := by simp [linesOf]
        rw [this, rstrip_join_last _ (flat_ne hb) (flat_ne f1) f3 f4]
      · rw [linesOf_append, hlo]
      · rw [kinds_append, kinds_append]; rfl

/-- **C34.** Every such document is formatted, block by block as `Formats` says, and the result is stable. -/
theorem C34_prose {doc : List (Sec × List Str)} (h : Prose doc) {w : Width} (hw : WidthFor w doc) :
    ∃ doc', DocFormats w doc doc' ∧ doc'.map (·.1) = doc.map (·.1) ∧ ∀ n text, splitlines text = linesOf doc →
      reformatMarkdownText (n + 2) w text = .ok (rstrip (pyJoin ['\n'] (linesOf doc')) ++ ['\n']) ∧
      reformatMarkdownText (n + 2) w (rstrip (pyJoin ['\n'] (linesOf doc')) ++ ['\n']) =
        .ok (rstrip (pyJoin ['\n'] (linesOf doc')) ++ ['\n']) := by
  -- one call of the program
  have key : ∀ doc : List (Sec × List Str), Prose doc → WidthFor w doc → ∃ doc', DocFormats w doc doc' ∧ Prose doc' ∧
      DocFormats w doc' doc' ∧ doc'.map (·.1) = doc.map (·.1) ∧ ∀ n text, splitlines text = linesOf doc →
      reformatMarkdownText (n + 2) w text = .ok (rstrip (pyJoin ['\n'] (linesOf doc')) ++ ['\n']) := by
    intro doc h hw
    obtain ⟨doc', h1, h2, h3, h4, h5, h6⟩ := prose_pass h hw
    refine ⟨doc', h1, h2, h3, h4, ?_⟩
    intro n text ht
    have hr : rstrip (pyJoin ['\n'] (linesOf doc') ++ ['\n']) = rstrip (pyJoin ['\n'] (linesOf doc')) :=
      rstrip_append_ws _ _ (by decide)
    have hsecond : reformatText (n + 2) w (pyJoin ['\n'] (linesOf doc') ++ ['\n']) =
        .ok (pyJoin ['\n'] (linesOf doc') ++ ['\n']) := by
      by_cases hne : linesOf doc' = []
      · rw [hne]
        have hp : parse (n + 1) [[]] = .ok [(.blank, [[]])] :=
          prose_parse (doc := [(.blank, [[]])]) ⟨by
            intro b hb; rw [List.mem_singleton.1 hb]; exact .blank rfl (by intro c hc; cases hc), .single _⟩ n
        show reformatBody _ _ _ ['\n'] = .ok ['\n']
        have hs : splitlines ['\n'] = [[]] := rfl
        simp only [reformatBody, hs, hp, bind, Except.bind]
        rfl
      · apply h6
        apply splitlines_join_nl _ _ hne
        intro l hl
        obtain ⟨b, hb, hlb⟩ := mem_linesOf.1 hl
        exact flat_noLB (h2.blocks b hb) l hlb
    simp only [reformatMarkdownText, h5 n text ht, hsecond, bind, Except.bind, hr]
    simp
  obtain ⟨doc', h1, h2, h3, h4, h5⟩ := key doc h hw
  refine ⟨doc', h1, h4, fun n text ht => ⟨h5 n text ht, ?_⟩⟩
  have hw' : WidthFor w doc' := by
    rintro ⟨b, hb, hb2⟩
    have : Sec.thematic ∈ doc'.map (·.1) := List.mem_map.2 ⟨b, hb, hb2⟩
    rw [h4] at this
    obtain ⟨c, hc, hc2⟩ := List.mem_map.1 this
    exact hw ⟨c, hc, hc2⟩
  obtain ⟨core, doc2, t1, t2, t3, t4, t5, t6, _⟩ := prose_trim doc' h2 h3 hw'
  obtain ⟨doc3, k1, k2, k3, k4, k5⟩ := key core t1 t3
  have := docFormats_fun t1 t4 k1
  subst this
  rw [← t5]
  have hs : splitlines (pyJoin ['\n'] (linesOf core) ++ ['\n']) = linesOf core := by
    apply splitlines_join_nl _ _ t2
    intro l hl
    obtain ⟨b, hb, hlb⟩ := mem_linesOf.1 hl
    exact flat_noLB (t1.blocks b hb) l hlb
  rw [k5 n _ hs, t6, t5]


/-- C47 as stated: formatting keeps the sequence of the kinds of sections. -/
def C47_statement : Prop :=
  ∀ (n : Nat) (w : Width) (text y : Str) (S S' : List (Sec × List Str)), reformatMarkdownText (n + 1) w text = .ok y →
    parse n (splitlines text) = .ok S → parse n (splitlines y) = .ok S' → kinds S' = kinds S

/-- **C47 (partial).** The result of formatting a prose document has the same kinds of sections. -/
theorem C47_prose_partial {doc : List (Sec × List Str)} (h : Prose doc) {w : Width} (hw : WidthFor w doc) {n : Nat}
    {text y : Str} (ht : splitlines text = linesOf doc) (hy : reformatMarkdownText (n + 2) w text = .ok y) :
    parse (n + 1) (splitlines text) = .ok doc ∧ ∃ S', parse (n + 1) (splitlines y) = .ok S' ∧ kinds S' = kinds doc := by
  refine ⟨by rw [ht]; exact prose_parse h n, ?_⟩
  obtain ⟨doc', h1, h2, h3, h4, h5, h6⟩ := prose_pass h hw
  have hw' : WidthFor w doc' := by
    rintro ⟨b, hb, hb2⟩
    have : Sec.thematic ∈ doc'.map (·.1) := List.mem_map.2 ⟨b, hb, hb2⟩
    rw [h4] at this
    obtain ⟨c, hc, hc2⟩ := List.mem_map.1 this
    exact hw ⟨c, hc, hc2⟩
  obtain ⟨core, doc2, t1, t2, t3, t4, t5, t6, t7⟩ := prose_trim doc' h2 h3 hw'
  have hs : splitlines (pyJoin ['\n'] (linesOf core) ++ ['\n']) = linesOf core := by
    apply splitlines_join_nl _ _ t2
    intro l hl
    obtain ⟨b, hb, hlb⟩ := mem_linesOf.1 hl
    exact flat_noLB (t1.blocks b hb) l hlb
  have hyt : y = rstrip (pyJoin ['\n'] (linesOf doc')) ++ ['\n'] := by
    simp only [reformatMarkdownText, h5 n text ht, bind, Except.bind] at hy
    split at hy
    · cases hy
    · split at hy
      · cases hy
      · rw [← Except.ok.inj hy, rstrip_append_ws _ _ (by decide)]
  refine ⟨core, ?_, ?_⟩
  · rw [hyt, ← t5, hs]; exact prose_parse t1 n
  · rw [t7]; simp only [kinds, h4]

/-- C47 as stated is false: wrapping moves a dash to the start of a line. -/
theorem C47_refuted_wrap : reformatMarkdownText 3 (.fin 10) c!"aaaaaaaaa - b" = .ok c!"aaaaaaaaa\n- b\n" ∧
    parse 2 [c!"aaaaaaaaa - b"] = .ok [(.par, [c!"aaaaaaaaa - b"])] ∧
    parse 2 [c!"aaaaaaaaa", c!"- b"] = .ok [(.par, [c!"aaaaaaaaa"]), (.bullet, [c!"- b"])] := by decide +kernel

/-- likewise a number sign, a greater-than sign, or dashes, at the default width too -/
theorem C47_refuted_others :
    reformatMarkdownText 3 (.fin 10) c!"aaaaaaaaa # b" = .ok c!"aaaaaaaaa\n# b\n" ∧
    reformatMarkdownText 3 (.fin 10) c!"aaaaaaaaa > b" = .ok c!"aaaaaaaaa\n> b\n" ∧
    reformatMarkdownText 3 (.fin 10) c!"aaaaaaaaa 7. b" = .ok c!"aaaaaaaaa\n7. b\n" ∧
    reformatMarkdownText 3 (.fin 88) c!"ab\n* " = .ok c!"ab\n*\n" := by decide +kernel

theorem C47_refuted : ¬C47_statement := by
  intro h
  have := h 2 (.fin 10) _ _ _ _ C47_refuted_wrap.1 C47_refuted_wrap.2.1 C47_refuted_wrap.2.2
  exact absurd this (by decide)

theorem Laid.good {w : Width} {ts : List Tok} {ls : List (List Tok)} (h : Laid w ts ls) : ∀ l ∈ ls, GoodLine w l := by
  induction h with
  | nil => intro l hl; cases hl
  | cons hl _ _ ih =>
    intro x hx
    rcases List.mem_cons.1 hx with rfl | hx
    · exact hl
    · exact ih x hx

theorem Respaced.texts {ts us : List Tok} (h : Respaced ts us) : us.map Tok.text = ts.map Tok.text := by
  induction h with
  | nil => rfl
  | cons ht _ _ ih => rw [List.map_cons, List.map_cons, ih, ht]

/-- **C34**, paragraphs: the tokens stay in order, and a line longer than the width is a single token. -/
theorem C34_text {w : Width} {ls out : List Str} {ts : List Tok} (h : Text ls ts) (hf : Formats w .par ls out) :
    Text out (settle w ts) ∧ (settle w ts).map Tok.text = ts.map Tok.text ∧
      ∀ l ∈ out, fitsIn w l.length = true ∨ ∃ t ∈ ts, l = t.text := by
  cases hf with
  | @par _ us h' =>
    have := h.unique h'
    subst this
    refine ⟨(text_layLines h.layable w).1, (settle_respaced w ts).texts, ?_⟩
    intro x hx
    obtain ⟨l, hl, rfl⟩ := List.mem_map.1 hx
    rcases ((lay_laid w ts).1.good l hl).fits with h1 | h1
    · right
      match l, h1 with
      | [t], _ =>
        refine ⟨t, ?_, lineText_one t⟩
        have := lay_flatten w ts []
        rw [List.nil_append] at this
        rw [← this]
        exact List.mem_flatten.2 ⟨[t], hl, by simp⟩
    · exact .inl h1

/-- **C34**, paragraphs of plain words: the words stay in order, and a line longer than the width is a single word. -/
theorem C34_paragraphs {w : Width} {ls out : List Str} (hne : ls ≠ []) (h : ∀ l ∈ ls, ProseLine l)
    (hf : Formats w .par ls out) :
    words out = words ls ∧ ∀ l ∈ out, w.ge l.length = true ∨ w.nonpos = true ∨ l ∈ words ls := by
  have hws := words_mem h
  have ht := prose_text hne h
  obtain ⟨h1, _, h3⟩ := C34_text ht hf
  obtain ⟨v, vs, hv⟩ := List.exists_cons_of_ne_nil (words_ne hne h)
  have hset : settle w (plainToks (words ls)) = plainToks (words ls) := by
    rw [hv]
    refine settle_spaced ?_
    intro x hx
    obtain ⟨_, _, rfl⟩ := List.mem_map.1 hx
    simp
  rw [hset] at h1
  refine ⟨?_, ?_⟩
  · have hchar : ∀ c ∈ parContent out, c ∉ c!"`<" := by
      intro c hc hm
      rcases mem_pyJoin hc with hc | ⟨x, hx, hc⟩
      · rw [List.mem_singleton.1 hc] at hm; exact absurd hm (by decide)
      · obtain ⟨l, hl, rfl⟩ := List.mem_map.1 hx
        have hc := mem_of_mem_strip hc
        cases hf with
        | @par _ us h' =>
          have := ht.unique h'
          subst this
          obtain ⟨ts, hts, rfl⟩ := List.mem_map.1 hl
          have hmem : ∀ t ∈ ts, t.text ∈ words ls := by
            intro t ht
            apply plainToks_text
            have := lay_flatten w (plainToks (words ls)) []
            rw [List.nil_append] at this
            rw [← this]
            exact List.mem_flatten.2 ⟨ts, hts, ht⟩
          have key : ∀ t ∈ ts, c ∉ t.text := by
            intro t ht hc
            refine (hws _ (hmem t ht)).plain c hc ?_
            simp only [List.mem_cons, List.not_mem_nil, or_false] at hm ⊢
            rcases hm with h | h <;> simp [h]
          cases ts with
          | nil => cases hc
          | cons t ts =>
            rcases List.mem_append.1 hc with hc | hc
            · exact key t (by simp) hc
            · obtain ⟨y, hy, hc⟩ := List.mem_flatten.1 hc
              obtain ⟨u, hu, rfl⟩ := List.mem_map.1 hy
              unfold Tok.spaced at hc
              split at hc
              · rcases List.mem_cons.1 hc with h | hc
                · rw [h] at hm; exact absurd hm (by decide)
                · exact key u (by simp [hu]) hc
              · exact key u (by simp [hu]) hc
    have hq : '`' ∉ parContent out := fun hm => hchar _ hm (by decide)
    have h2 := ((h1.inline.runs.plain hq (fun t ht => (hws _ (plainToks_text t ht)).plainWord.noLink)).words
      ⟨hq, fun hi => hchar _ (tag_mem hi) (by decide)⟩).1
    rw [← words_join]
    refine h2.trans ?_
    rw [hv]
    simp [plainToks, Function.comp_def]
  · intro l hl
    rcases h3 l hl with h4 | ⟨t, ht, rfl⟩
    · simp only [fitsIn, Bool.or_eq_true] at h4
      exact h4.elim (fun h => .inr (.inl h)) .inl
    · exact .inr (.inr (plainToks_text t ht))

/-! ### Checks, to show that documents meet the hypotheses -/

/-- decides `Word` -/
def wordOk (w : Str) : Bool :=
  !w.isEmpty && w.all (fun c => !isWs c && !c!"`[<".contains c) && !(w.head?.any (c!"#>|.".contains ·)) &&
    c!"`~".all (fun x => (w.take 3).any (· != x)) && c!"*+-_=".all (fun x => w.any (· != x)) &&
    !(w.getLast? == some '.' && w.dropLast.all isDigit) && !isIn c!"](" w

theorem word_of_ok {w : Str} (h : wordOk w = true) : Word w := by
  simp only [wordOk, Bool.and_eq_true, Bool.not_eq_true', List.all_eq_true, List.any_eq_true, bne_iff_ne] at h
  obtain ⟨⟨⟨⟨⟨⟨h1, h2⟩, h3⟩, h4⟩, h5⟩, h6⟩, h7⟩ := h
  have h3' : ∀ c, w.head? = some c → c ∉ c!"#>|." := by
    intro c hc hm
    rw [hc] at h3
    simp only [Option.any_some, List.contains_eq_mem, decide_eq_false_iff_not] at h3
    exact h3 hm
  refine ⟨⟨?_, fun c hc => (h2 c hc).1, ?_, h4, h5, ?_⟩, fun c hc hm => ?_, ?_, ?_⟩
  · intro e; rw [e] at h1; cases h1
  · intro c hc hm
    refine h3' c hc ?_
    simp only [List.mem_cons, List.not_mem_nil, or_false] at hm ⊢
    rcases hm with h | h | h <;> simp [h]
  · rintro ⟨ds, rfl, hd⟩
    have : (ds ++ c!".").dropLast.all isDigit = true := by
      rw [List.all_eq_true]; intro x hx
      exact hd x (by simpa using hx)
    rw [this] at h6
    simp at h6
  · have := (h2 c hc).2
    rw [List.contains_eq_mem, decide_eq_false_iff_not] at this
    exact this hm
  · intro hi
    obtain ⟨a, b, e⟩ := hi
    rw [(isIn_iff _ _).2 ⟨a, b, by rw [← e]; simp⟩] at h7; cases h7
  · intro e; exact h3' _ e (by decide)

/-- decides `ProseLine` -/
def proseOk (l : Str) : Bool :=
  l.all (fun c => !isWs c || c == ' ') && decide (getIndent l < 4) && !(splitWs l).isEmpty && (splitWs l).all wordOk &&
    !endsWith l c!"  "

theorem prose_of_ok {l : Str} (h : proseOk l = true) : ProseLine l := by
  simp only [proseOk, Bool.and_eq_true, Bool.not_eq_true', List.all_eq_true, decide_eq_true_iff, Bool.or_eq_true,
    beq_iff_eq] at h
  obtain ⟨⟨⟨⟨h1, h2⟩, h3⟩, h4⟩, h5⟩ := h
  refine ⟨fun c hc hw => ?_, h2, ?_, fun w hw => word_of_ok (h4 w hw), ?_⟩
  · rcases h1 c hc with h | h
    · rw [hw] at h; cases h
    · exact h
  · intro e; rw [e] at h3; cases h3
  · rintro ⟨r, hr⟩
    rw [(endsWith_iff _ _).2 ⟨r, hr⟩] at h5; cases h5

/-- A document with every kind of block. -/
def proseExample : List (Sec × List Str) :=
  [(.atx, [c!" ##Title  one "]), (.par, [c!"Some *prose*, e.g. of -1 or", c!"   1986 (long, long-ish) words"]),
    (.blank, [c!"  "]), (.setext, [c!"Second", c!"title", c!"---  "]), (.par, [c!"a"]), (.thematic, [c!"_ _ __"]),
    (.fenced, [c!" ```py x ", c!"keep  this  long long line  ", c!"# a", c!" ``` "]), (.par, [c!"the end"]),
    (.blank, [c!""]), (.atx, [c!"# "]), (.blank, [c!""])]

theorem C34_example_prose : Prose proseExample := by
  have lines : ∀ ls : List Str, ls ≠ [] → ls.all proseOk = true → Text ls (plainToks (words ls)) :=
    fun ls hne h => prose_text hne fun l hl => prose_of_ok (List.all_eq_true.1 h l hl)
  have lb : ∀ l : Str, l.all (fun c => !isLB c) = true → NoLB l := by
    intro l h c hc
    have := List.all_eq_true.1 h c hc
    simpa using this
  constructor
  · intro b hb
    simp only [proseExample, List.mem_cons, List.not_mem_nil, or_false] at hb
    rcases hb with rfl | rfl | rfl | rfl | rfl | rfl | rfl | rfl | rfl | rfl | rfl
    · exact .atx (by decide) (lb _ (by decide))
    · exact .par (lines _ (by decide) (by decide))
    · exact .blank (by decide) (lb _ (by decide))
    · exact .setext (ls := [c!"Second", c!"title"]) (lines _ (by decide) (by decide)) (by decide) (lb _ (by decide))
    · exact .par (lines _ (by decide) (by decide))
    · exact .thematic (by decide) (by decide) (lb _ (by decide))
    · exact .fenced (f := '`') (k := 3) (ws := c!" ") (info := c!"py x ") (close := c!" ``` ")
        (content := [c!"keep  this  long long line  ", c!"# a"]) (by decide) (by decide) (by decide) (by decide) (by decide)
        (by decide) (by decide) ⟨lb _ (by decide), lb _ (by decide), lb _ (by decide), by
          intro c hc
          simp only [List.mem_cons, List.not_mem_nil, or_false] at hc
          rcases hc with rfl | rfl <;> exact lb _ (by decide)⟩
    · exact .par (lines _ (by decide) (by decide))
    · exact .blank (by decide) (lb _ (by decide))
    · exact .atx (by decide) (lb _ (by decide))
    · exact .blank (by decide) (lb _ (by decide))
  · have : ∀ (p : Sec × List Str → Sec × List Str → Bool) (doc : List (Sec × List Str)),
        (∀ a x y b, doc = a ++ x :: y :: b → p x y = true) ↔ (doc.zip (doc.drop 1)).all (fun q => p q.1 q.2) = true := by
      intro p doc
      induction doc with
      | nil => simp
      | cons d doc ih =>
        cases doc with
        | nil =>
          refine ⟨fun _ => rfl, fun _ a x y b he => ?_⟩
          have := congrArg List.length he
          simp at this
          omega
        | cons e doc =>
          rw [List.drop_one, List.tail_cons, List.zip_cons_cons, List.all_cons]
          rw [List.drop_one, List.tail_cons] at ih
          rw [Bool.and_eq_true, ← ih]
          constructor
          · intro h
            exact ⟨h [] d e doc rfl, fun a x y b he => h (d :: a) x y b (by rw [he]; rfl)⟩
          · rintro ⟨h1, h2⟩ a x y b he
            cases a with
            | nil => cases he; exact h1
            | cons a0 a => exact h2 a x y b (List.cons.inj he).2
    intro a x y b e
    have h2 := (this (fun x y => x.1 != .par || (y.1 != .par && y.1 != .setext && (y.1 != .thematic ||
      y.2.all (fun l => !l.contains '-')))) proseExample).2 (by decide) a x y b e
    intro hp
    simp only [hp, bne_self_eq_false, Bool.false_or, Bool.and_eq_true, bne_iff_ne, Bool.or_eq_true, List.all_eq_true] at h2
    refine ⟨h2.1.1, h2.1.2, fun ht l hl hm => ?_⟩
    rcases h2.2 with h3 | h3
    · exact h3 ht
    · have := h3 l hl
      simp [hm] at this

/-- The result for this document at width 16, in agreement with `C34_prose`. -/
theorem C34_example :
    splitlines (pyJoin ['\n'] (linesOf proseExample) ++ ['\n']) = linesOf proseExample ∧
    reformatMarkdownText 2 (.fin 16) (pyJoin ['\n'] (linesOf proseExample) ++ ['\n']) =
      .ok c!"## Title  one\nSome *prose*,\ne.g. of -1 or\n1986 (long,\nlong-ish) words\n\nSecond title\n------------\na\n________________\n```py x\nkeep  this  long long line\n# a\n```\nthe end\n\n#\n" := by
  decide +kernel


/-- Why `Follows` excludes a thematic break of dashes directly after a paragraph: in normal form it is the underline
of a heading. -/
theorem C34_dashes_after_paragraph :
    (parse 2 [c!"foo", c!"-- -"]).map (·.map (·.1)) = .ok [.par, .thematic] ∧
    reformatMarkdownText 3 (.fin 80) c!"foo\n-- -\n" = .error .inconsistent := by decide +kernel

end MF
