import Verif.Model.Digits
import Verif.Props.Budget
import Verif.Props.Length
import Verif.Lemmas.RenameFormat
import Verif.Lemmas.NoStop
import Verif.Props.ListDoc
import Verif.Props.Errors
/-!
# C134: CPython's limit on the digits of a number

The limit changes nothing but that a document may be refused with ValueError. It is not if the numbers of the document are short.
-/

namespace MF

/-- The same outcome, or ValueError. -/
def OrDigits {α : Type} (a b : Except Err α) : Prop := a = .error .valueError ∨ a = b

theorem OrDigits.rfl {α : Type} {a : Except Err α} : OrDigits a a := .inr _root_.rfl

theorem OrDigits.bind {α β : Type} {a b : Except Err α} {f g : α → Except Err β} (h1 : OrDigits a b)
    (h2 : ∀ x, OrDigits (f x) (g x)) : OrDigits (a >>= f) (b >>= g) := by
  rcases h1 with h1 | h1
  · subst h1; exact .inl _root_.rfl
  · subst h1
    cases a with
    | error e => exact .rfl
    | ok x => exact h2 x

theorem firstNumberLim_or (lim : Nat) (l : Str) : OrDigits (firstNumberLim lim l) (firstNumber l) := by
  unfold firstNumberLim firstNumber
  dsimp only
  split
  · exact .rfl
  · split
    · exact .inl _root_.rfl
    · exact .rfl

theorem strLim_bind {α : Type} (lim k : Nat) (f : Str → Except Err α) {b : Except Err α} (h : OrDigits (f (natStr k)) b) :
    OrDigits (strLim lim k >>= f) b := by
  unfold strLim
  split
  · exact .inl _root_.rfl
  · exact h

section
variable (lim : Nat) {s t : Width → Str → Except Err Str} (hst : ∀ w x, OrDigits (s w x) (t w x))
include hst

theorem fmtEntry_or (w : Width) (i : Nat) (m : Str) (e : List Str) :
    OrDigits (fmtEntry s w i m e) (fmtEntry t w i m e) := (hst _ _).bind fun _ => .rfl

theorem fmtBulletEntries_or (w : Width) (m : Str) (es : List (List Str)) :
    OrDigits (fmtBulletEntries s w m es) (fmtBulletEntries t w m es) := by
  induction es with
  | nil => exact .rfl
  | cons e es ih => exact (fmtEntry_or hst _ _ _ _).bind fun _ => ih.bind fun _ => .rfl

theorem fmtOrderedEntries_or (w : Width) (i : Nat) (es : List (List Str)) :
    ∀ k, OrDigits (fmtOrderedEntriesLim lim s w i k es) (fmtOrderedEntries t w i k es) := by
  induction es with
  | nil => intro k; exact .rfl
  | cons e es ih =>
    intro k
    exact (fmtEntry_or hst _ _ _ _).bind fun _ => strLim_bind _ _ _ ((ih _).bind fun _ => .rfl)

theorem fmtSection_or (w : Width) (i : Nat) (ty : Sec) (lines : List Str) :
    OrDigits (fmtSectionLim lim s w i ty lines) (fmtSection t w i ty lines) := by
  cases ty with
  | quote =>
    cases lines with
    | nil => exact .rfl
    | cons l ls =>
      simp only [fmtSectionLim, fmtSection, fmtQuote]
      exact (hst _ _).bind fun _ => .rfl
  | bullet =>
    cases lines with
    | nil => exact .rfl
    | cons l ls =>
      simp only [fmtSectionLim, fmtSection, fmtBullet]
      refine OrDigits.rfl.bind fun es => OrDigits.rfl.bind fun es => ?_
      cases lstrip l with
      | nil => exact .rfl
      | cons c r => exact (fmtBulletEntries_or hst _ _ _).bind fun _ => .rfl
  | ordered =>
    cases lines with
    | nil => exact .rfl
    | cons l ls =>
      simp only [fmtSectionLim, fmtSection, fmtOrdered, fmtOrderedLim]
      refine OrDigits.rfl.bind fun es => (firstNumberLim_or lim l).bind fun k => strLim_bind _ _ _ ?_
      refine OrDigits.rfl.bind fun es => ?_
      exact (fmtOrderedEntries_or lim hst _ _ _ _).bind fun _ => .rfl
  | atx | blank | fenced | indented | lrd | par | setext | table | thematic => exact .rfl

theorem fmtAll_or (w : Width) (fs : List Fmt) : OrDigits (fmtAllLim lim s w fs) (fmtAll t w fs) := by
  induction fs with
  | nil => exact .rfl
  | cons f fs ih =>
    simp only [fmtAllLim, fmtAll]
    refine OrDigits.bind ?_ fun _ => ih.bind fun _ => .rfl
    rcases fmtSection_or lim hst w f.lineIndex f.ty f.lines with h | h
    · rw [h]; exact .inl rfl
    · rw [h]; exact .rfl

end

theorem reprCheck_or (lim : Nat) (ty : Sec) (lines : List Str) : OrDigits (reprCheckLim lim ty lines) (reprCheck ty lines) := by
  cases ty with
  | ordered =>
    cases lines with
    | nil => exact .rfl
    | cons l ls => exact (firstNumberLim_or lim l).bind fun _ => .rfl
  | _ => exact .rfl

theorem buildFmts_or (lim : Nat) (secs : List (Sec × List Str)) :
    ∀ i last, OrDigits (buildFmtsLim lim i last secs) (buildFmts i last secs) := by
  induction secs with
  | nil => intro i last; exact .rfl
  | cons s secs ih =>
    intro i last
    obtain ⟨ty, content⟩ := s
    exact (reprCheck_or lim ty content).bind fun _ => (ih _ _).bind fun _ => .rfl

theorem reformatText_or (lim n : Nat) : ∀ w text, OrDigits (reformatTextLim lim n w text) (reformatText n w text) := by
  induction n with
  | zero => intro w text; exact .rfl
  | succ n ih =>
    intro w text
    simp only [reformatTextLim, reformatText, reformatBody]
    refine OrDigits.rfl.bind fun secs => (buildFmts_or lim secs _ _).bind fun fs => ?_
    exact (fmtAll_or lim ih w fs).bind fun _ => .rfl

/-- **C134**: with any limit, formatting raises ValueError or does what it does without one. -/
theorem C134_adds (lim n : Nat) (w : Width) (text : Str) :
    reformatMarkdownTextLim lim n w text = .error .valueError ∨
      reformatMarkdownTextLim lim n w text = reformatMarkdownText n w text :=
  (reformatText_or lim n w text).bind fun a => (reformatText_or lim n w a).bind fun _ => .rfl

/-- **C134**: a result under a limit is the result. -/
theorem C134_result {lim n : Nat} {w : Width} {text y : Str} (h : reformatMarkdownTextLim lim n w text = .ok y) :
    reformatMarkdownText n w text = .ok y := by
  rcases C134_adds lim n w text with h1 | h1
  · rw [h1] at h; cases h
  · rw [← h1, h]

/-! ## Documents with short numbers -/

/-- The number of digits of a line. -/
def digitsIn (l : Str) : Nat := (l.filter isDigit).length

/-- At most `N` lines with at most `D` digits each. -/
structure Short (D N : Nat) (ls : List Str) : Prop where
  count : ls.length ≤ N
  line : ∀ l ∈ ls, NoLB l ∧ digitsIn l ≤ D

/-- A piece of a line, or of a line with quotation marks put before it. -/
def PieceOf (x l : Str) : Prop := ∃ k, List.Sublist x (List.replicate k '>' ++ l)

theorem PieceOf.short {x l : Str} {D : Nat} (h : PieceOf x l) (hl : NoLB l ∧ digitsIn l ≤ D) : NoLB x ∧ digitsIn x ≤ D := by
  obtain ⟨k, h⟩ := h
  refine ⟨fun c hc => ?_, ?_⟩
  · rcases List.mem_append.1 (h.subset hc) with h1 | h1
    · rw [List.eq_of_mem_replicate h1]; decide
    · exact hl.1 c h1
  · have h1 := (h.filter isDigit).length_le
    rw [List.filter_append, List.filter_replicate, if_neg (by decide), List.nil_append] at h1
    exact Nat.le_trans h1 hl.2

theorem fullyQuote_piece (ls : List Str) : ∀ d, ∀ x ∈ fullyQuote d ls, ∃ l ∈ ls, PieceOf x l := by
  induction ls with
  | nil => intro d x hx; cases hx
  | cons l ls ih =>
    intro d x hx
    simp only [fullyQuote] at hx
    split at hx
    · rcases List.mem_cons.1 hx with rfl | hx
      · exact ⟨x, by simp, 0, List.Sublist.refl _⟩
      · obtain ⟨y, hy, h⟩ := ih _ x hx
        exact ⟨y, by simp [hy], h⟩
    · rcases List.mem_cons.1 hx with rfl | hx
      · exact ⟨l, by simp, d, List.Sublist.refl _⟩
      · obtain ⟨y, hy, h⟩ := ih _ x hx
        exact ⟨y, by simp [hy], h⟩

theorem Short.quote {D N : Nat} {ls : List Str} (h : Short D N ls) : Short D N (quoteInner ls).1 := by
  have h1 : ∀ x ∈ (fullyQuote 0 ls).map unquote, ∃ l ∈ ls, PieceOf x l := by
    intro x hx
    obtain ⟨y, hy, rfl⟩ := List.mem_map.1 hx
    obtain ⟨l, hl, k, hk⟩ := fullyQuote_piece ls 0 y hy
    exact ⟨l, hl, k, (unquote_suffix y).sublist.trans hk⟩
  have h2 : ∀ x ∈ (quoteInner ls).1, ∃ l ∈ ls, PieceOf x l := by
    unfold quoteInner
    dsimp only
    split
    · intro x hx
      obtain ⟨y, hy, rfl⟩ := List.mem_map.1 hx
      obtain ⟨l, hl, k, hk⟩ := h1 y hy
      exact ⟨l, hl, k, (dropSpace_sub y).trans hk⟩
    · exact h1
  refine ⟨?_, fun x hx => ?_⟩
  · have : (quoteInner ls).1.length = ls.length := by
      unfold quoteInner
      dsimp only
      split <;> simp [fullyQuote_length]
    rw [this]; exact h.count
  · obtain ⟨l, hl, hp⟩ := h2 x hx
    exact hp.short (h.line l hl)

theorem Short.dedent {D N : Nat} {e d : List Str} (h : Short D N e) (hd : dedentEntry e = .ok d) : Short D N d := by
  cases e with
  | nil => cases hd
  | cons l ls =>
    simp only [dedentEntry, bind, Except.bind] at hd
    split at hd
    · cases hd
    · cases hd
      refine ⟨by simpa using h.count, fun x hx => ?_⟩
      rcases List.mem_cons.1 hx with rfl | hx
      · exact PieceOf.short ⟨0, List.drop_sublist _ _⟩ (h.line l (by simp))
      · obtain ⟨y, hy, rfl⟩ := List.mem_map.1 hx
        refine PieceOf.short ⟨0, ?_⟩ (h.line y (by simp [hy]))
        rename_i v _ _
        have := (lstripBy_sub isWs (y.take (v + 1))).append (List.Sublist.refl (y.drop (v + 1)))
        rw [List.take_append_drop] at this
        exact this

theorem Short.entry {D N : Nat} {es : List (List Str)} (h : Short D N es.flatten) {e : List Str} (he : e ∈ es) : Short D N e := by
  obtain ⟨a, b, rfl⟩ := List.append_of_mem he
  refine ⟨?_, fun l hl => h.line l (List.mem_flatten.2 ⟨e, by simp, hl⟩)⟩
  have := h.count
  simp only [List.flatten_append, List.flatten_cons, List.length_append] at this
  omega

theorem entries_le {es : List (List Str)} (h : ∀ e ∈ es, e ≠ []) : es.length ≤ es.flatten.length := by
  induction es with
  | nil => exact Nat.zero_le _
  | cons e es ih =>
    have h1 := ih fun x hx => h x (by simp [hx])
    have h2 := List.length_pos_iff.2 (h e (by simp))
    simp only [List.flatten_cons, List.length_cons, List.length_append]
    omega

theorem Short.doc {D N : Nat} (hN : 1 ≤ N) {ls : List Str} (h : Short D N ls) :
    Short D N (splitlines (pyJoin ['\n'] ls ++ ['\n'])) := by
  by_cases e : ls = []
  · subst e
    have : splitlines (pyJoin ['\n'] [] ++ ['\n']) = [[]] := by decide
    rw [this]
    exact ⟨by simpa using hN, fun l hl => by rw [List.mem_singleton.1 hl]; exact ⟨fun c hc => (nomatch hc), Nat.zero_le _⟩⟩
  · rw [splitlines_join_nl ls (fun l hl => (h.line l hl).1) e]
    exact h

theorem strLim_ok {lim k : Nat} (hl : 1 ≤ lim) (h : k < 10 ^ lim) : strLim lim k = .ok (natStr k) := by
  unfold strLim
  obtain ⟨d, rfl⟩ : ∃ d, lim = d + 1 := ⟨lim - 1, by omega⟩
  rw [if_neg (by have := natStr_length_le h; omega)]

theorem firstNumberLim_eq {lim D : Nat} {l : Str} (hD : D ≤ lim) (h : digitsIn l ≤ D) : firstNumberLim lim l = firstNumber l := by
  unfold firstNumberLim firstNumber
  dsimp only
  rw [take_digits]
  have h1 : ((lstrip l).takeWhile isDigit).length ≤ D := by
    refine Nat.le_trans ?_ h
    have h2 : ((lstrip l).takeWhile isDigit).Sublist l := (List.takeWhile_sublist _).trans (lstripBy_sub isWs l)
    have h3 := (h2.filter isDigit).length_le
    rwa [List.filter_eq_self.2 (fun c hc => takeWhile_all _ _ c hc)] at h3
  split
  · rfl
  · rw [if_neg (by omega)]

theorem firstNumber_lt {D k : Nat} {l : Str} (h : digitsIn l ≤ D) (hk : firstNumber l = .ok k) : k < 10 ^ D := by
  unfold firstNumber at hk
  dsimp only at hk
  rw [take_digits] at hk
  split at hk
  · cases hk
  · cases hk
    have h2 : ((lstrip l).takeWhile isDigit).Sublist l := (List.takeWhile_sublist _).trans (lstripBy_sub isWs l)
    have h3 := (h2.filter isDigit).length_le
    rw [List.filter_eq_self.2 (fun c hc => takeWhile_all _ _ c hc)] at h3
    exact Nat.lt_of_lt_of_le (parseNat_lt fun d hd => takeWhile_all _ _ d hd)
      (Nat.pow_le_pow_right (by decide) (Nat.le_trans h3 h))

/-- The numbers of such a document are written with few enough digits. -/
structure Roomy (lim D N : Nat) : Prop where
  pos : 1 ≤ N
  room : 10 ^ D + N ≤ 10 ^ lim

theorem Roomy.lim_pos {lim D N : Nat} (h : Roomy lim D N) : 1 ≤ lim := by
  cases lim with
  | zero =>
    have h1 := h.room
    have h2 := h.pos
    have h3 : 1 ≤ 10 ^ D := Nat.one_le_pow _ _ (by decide)
    rw [Nat.pow_zero] at h1
    omega
  | succ k => omega

theorem Roomy.le {lim D N : Nat} (h : Roomy lim D N) : D ≤ lim := by
  rcases Nat.lt_or_ge lim D with h1 | h1
  · have h2 : 10 ^ lim ≤ 10 ^ D := Nat.pow_le_pow_right (by decide) (by omega)
    have h3 := h.room
    have h4 := h.pos
    omega
  · exact h1

section
variable {lim D N : Nat} (hr : Roomy lim D N) {s t : Width → Str → Except Err Str}
  (hst : ∀ ls, Short D N ls → ∀ w, reformatLines s ls w = reformatLines t ls w)
include hst

theorem fmtEntry_short {e : List Str} (he : Short D N e) (w : Width) (i : Nat) (m : Str) : fmtEntry s w i m e = fmtEntry t w i m e := by
  simp only [fmtEntry, hst e he]

theorem fmtBulletEntries_short (w : Width) (m : Str) (es : List (List Str)) (h : ∀ e ∈ es, Short D N e) :
    fmtBulletEntries s w m es = fmtBulletEntries t w m es := by
  induction es with
  | nil => rfl
  | cons e es ih =>
    simp only [fmtBulletEntries, fmtEntry_short hst (h e (by simp)), ih fun x hx => h x (by simp [hx])]

include hr

theorem fmtOrderedEntries_short (w : Width) (i : Nat) (es : List (List Str)) : ∀ k, (∀ e ∈ es, Short D N e) → k + es.length ≤ 10 ^ lim →
    fmtOrderedEntriesLim lim s w i k es = fmtOrderedEntries t w i k es := by
  induction es with
  | nil => intro k _ _; rfl
  | cons e es ih =>
    intro k h hk
    rw [List.length_cons] at hk
    simp only [fmtOrderedEntriesLim, fmtOrderedEntries, fmtEntry_short hst (h e (by simp)),
      ih (k + 1) (fun x hx => h x (by simp [hx])) (by omega), strLim_ok hr.lim_pos (show k < 10 ^ lim by omega)]
    rfl

theorem fmtSection_short {ty : Sec} {content : List Str} (hc : Short D N content)
    (hes : ty = .bullet ∨ ty = .ordered → ∃ es, splitList content = .ok es ∧ es.flatten = content ∧ ∀ e ∈ es, e ≠ [])
    (w : Width) (i : Nat) : fmtSectionLim lim s w i ty content = fmtSection t w i ty content := by
  have ded : ∀ {es ds : List (List Str)}, es.flatten = content → dedentEntries es = .ok ds → ∀ d ∈ ds, Short D N d := by
    intro es ds e h d hd
    obtain ⟨x, hx, h1⟩ := dedentEntries_mem es ds h d hd
    exact Short.dedent (Short.entry (by rw [e]; exact hc) hx) h1
  cases ty with
  | quote =>
    cases content with
    | nil => rfl
    | cons l ls => simp only [fmtSectionLim, fmtSection, fmtQuote, hst _ hc.quote]
  | bullet =>
    obtain ⟨es, h1, h2, h3⟩ := hes (.inl rfl)
    cases content with
    | nil => rfl
    | cons l ls =>
      simp only [fmtSectionLim, fmtSection, fmtBullet, h1, bind, Except.bind]
      cases hd : dedentEntries es with
      | error e => rfl
      | ok ds =>
        dsimp only
        cases lstrip l with
        | nil => rfl
        | cons c r => simp only [fmtBulletEntries_short hst _ _ ds (ded h2 hd)]
  | ordered =>
    obtain ⟨es, h1, h2, h3⟩ := hes (.inr rfl)
    cases content with
    | nil => rfl
    | cons l ls =>
      have hl := (hc.line l (by simp)).2
      simp only [fmtSectionLim, fmtSection, fmtOrdered, fmtOrderedLim, h1, bind, Except.bind, firstNumberLim_eq hr.le hl]
      cases hf : firstNumber l with
      | error e => rfl
      | ok k =>
        have hk := firstNumber_lt hl hf
        have hn : es.length ≤ N := by
          have h4 := entries_le h3
          rw [h2] at h4
          exact Nat.le_trans h4 hc.count
        have hroom := hr.room
        dsimp only
        rw [strLim_ok hr.lim_pos (show k + es.length - 1 < 10 ^ lim by have := hr.pos; omega)]
        dsimp only
        cases hd : dedentEntries es with
        | error e => rfl
        | ok ds =>
          have hlen : ds.length = es.length := mapM_length hd
          dsimp only
          rw [fmtOrderedEntries_short hr hst _ _ ds k (ded h2 hd) (by omega)]
  | atx | blank | fenced | indented | lrd | par | setext | table | thematic => rfl

end

theorem reprCheck_short {lim D N : Nat} (hr : Roomy lim D N) {ty : Sec} {content : List Str} (hc : Short D N content) :
    reprCheckLim lim ty content = reprCheck ty content := by
  cases ty with
  | ordered =>
    cases content with
    | nil => rfl
    | cons l ls => simp only [reprCheckLim, reprCheck, firstNumberLim_eq hr.le (hc.line l (by simp)).2]
  | _ => rfl

theorem buildFmts_short {lim D N : Nat} (hr : Roomy lim D N) (secs : List (Sec × List Str)) (h : ∀ s ∈ secs, Short D N s.2) :
    ∀ i last, buildFmtsLim lim i last secs = buildFmts i last secs := by
  induction secs with
  | nil => intro i last; rfl
  | cons s secs ih =>
    intro i last
    obtain ⟨ty, content⟩ := s
    simp only [buildFmtsLim, buildFmts, reprCheck_short hr (h (ty, content) (by simp)), ih fun x hx => h x (by simp [hx])]

theorem reformatText_short {lim D N : Nat} (hr : Roomy lim D N) (n : Nat) : ∀ w text, Short D N (splitlines text) →
    reformatTextLim lim n w text = reformatText n w text := by
  induction n with
  | zero => intro w text _; rfl
  | succ n ih =>
    intro w text hs
    simp only [reformatTextLim, reformatText, reformatBody, bind, Except.bind]
    cases hp : parse n (splitlines text) with
    | error e => rfl
    | ok secs =>
      have hsec : ∀ x ∈ secs, Short D N x.2 := fun x hx => by
        refine Short.entry (es := secs.map (·.2)) ?_ (List.mem_map.2 ⟨x, hx, rfl⟩)
        rw [(C08_parse_partition n _ _ hp).1]
        exact hs
      dsimp only
      rw [buildFmts_short hr secs hsec]
      cases hf : buildFmts 0 none secs with
      | error e => rfl
      | ok fs =>
        dsimp only
        have hst : ∀ ls, Short D N ls → ∀ w, reformatLines (reformatTextLim lim n) ls w = reformatLines (reformatText n) ls w :=
          fun ls hls w => ih w _ (hls.doc hr.pos)
        have key : ∀ gs : List Fmt, (∀ f ∈ gs, f ∈ fs) →
            fmtAllLim lim (reformatTextLim lim n) w gs = fmtAll (reformatText n) w gs := by
          intro gs
          induction gs with
          | nil => intro _; rfl
          | cons f gs ihg =>
            intro hg
            simp only [fmtAllLim, fmtAll, ihg fun x hx => hg x (by simp [hx])]
            have : fmtSectionLim lim (reformatTextLim lim n) w f.lineIndex f.ty f.lines =
                fmtSection (reformatText n) w f.lineIndex f.ty f.lines := by
              rcases buildFmts_lines secs _ _ _ hf f (hg f (by simp)) with ⟨x, hx, h1, h2⟩ | ⟨h1, h2⟩
              · rw [h1, h2]
                refine fmtSection_short hr hst (hsec x hx) (fun hty => ?_) _ _
                obtain ⟨es, e1, _, e2, e3⟩ := C19_entries_partition n _ _ hp x.1 x.2 hx hty
                refine ⟨es, e1, e2, fun e he hn => ?_⟩
                obtain ⟨l, ls, _, _, _, h, _⟩ := e3 e he
                rw [hn] at h; cases h
              · rw [h1, h2]; rfl
            rw [this]
        rw [key fs fun _ h => h]

/-- **C134**, one pass: a document of at most `N` lines with at most `D` digits each is formatted as without a limit if
`10 ^ D + N ≤ 10 ^ lim`. -/
theorem C134_pass {lim D N : Nat} {text : Str} (hN : 1 ≤ N) (hroom : 10 ^ D + N ≤ 10 ^ lim) (hc : (splitlines text).length ≤ N)
    (hd : ∀ l ∈ splitlines text, (l.filter isDigit).length ≤ D) (n : Nat) (w : Width) :
    reformatTextLim lim n w text = reformatText n w text :=
  reformatText_short ⟨hN, hroom⟩ n w text ⟨hc, fun l hl => ⟨splitlines_noLB _ l hl, hd l hl⟩⟩

/-- **C134**: if this holds of the document and of the text it is turned into, the limit makes no difference. -/
theorem C134_call {lim D N : Nat} {n : Nat} {w : Width} {text t : Str} (ht : reformatText n w text = .ok t) (hN : 1 ≤ N)
    (hroom : 10 ^ D + N ≤ 10 ^ lim) (hc : ∀ x ∈ [text, t], (splitlines x).length ≤ N)
    (hd : ∀ x ∈ [text, t], ∀ l ∈ splitlines x, (l.filter isDigit).length ≤ D) :
    reformatMarkdownTextLim lim n w text = reformatMarkdownText n w text := by
  simp only [reformatMarkdownTextLim, reformatMarkdownText,
    C134_pass hN hroom (hc text (by simp)) (hd text (by simp)) n w, ht, bind, Except.bind,
    C134_pass hN hroom (hc t (by simp)) (hd t (by simp)) n w]

/-- **C134**: ValueError comes from the limit only. -/
theorem C134_only (n : Nat) (w : Width) (text : Str) : reformatMarkdownText n w text ≠ .error .valueError := by
  intro h
  rcases C53_exceptions n w text _ h with h | h | h | h | h | ⟨_, _, _, h⟩ <;> cases h

theorem short_exists (ls : List Str) : ∃ D, ∀ l ∈ ls, (l.filter isDigit).length ≤ D := by
  induction ls with
  | nil => exact ⟨0, fun l hl => (nomatch hl)⟩
  | cons x ls ih =>
    obtain ⟨D, h⟩ := ih
    refine ⟨max (x.filter isDigit).length D, fun l hl => ?_⟩
    rcases List.mem_cons.1 hl with rfl | hl
    · exact Nat.le_max_left _ _
    · exact Nat.le_trans (h l hl) (Nat.le_max_right _ _)

theorem pass_large (n : Nat) (w : Width) (text : Str) : ∃ L, ∀ lim, L ≤ lim → reformatTextLim lim n w text = reformatText n w text := by
  obtain ⟨D, h⟩ := short_exists (splitlines text)
  refine ⟨D + ((splitlines text).length + 1), fun lim hl => ?_⟩
  exact C134_pass (N := (splitlines text).length + 1) (by omega)
    (Nat.le_trans (pow_add_le D _) (Nat.pow_le_pow_right (by decide) hl)) (by omega) h n w

/-- **C134**: for every document, a limit that is large enough makes no difference. -/
theorem C134_large (n : Nat) (w : Width) (text : Str) :
    ∃ L, ∀ lim, L ≤ lim → reformatMarkdownTextLim lim n w text = reformatMarkdownText n w text := by
  obtain ⟨L1, h1⟩ := pass_large n w text
  cases ht : reformatText n w text with
  | error e =>
    refine ⟨L1, fun lim hl => ?_⟩
    simp only [reformatMarkdownTextLim, reformatMarkdownText, h1 lim hl, ht, bind, Except.bind]
  | ok t =>
    obtain ⟨L2, h2⟩ := pass_large n w t
    refine ⟨max L1 L2, fun lim hl => ?_⟩
    simp only [reformatMarkdownTextLim, reformatMarkdownText, h1 lim (Nat.le_trans (Nat.le_max_left _ _) hl), ht, bind, Except.bind,
      h2 lim (Nat.le_trans (Nat.le_max_right _ _) hl)]

theorem buildFmtsLim_ok {lim : Nat} (secs : List (Sec × List Str)) : ∀ i last fs, buildFmtsLim lim i last secs = .ok fs →
    ∀ s ∈ secs, reprCheckLim lim s.1 s.2 = .ok () ∧ ∃ f ∈ fs, f.ty = s.1 ∧ f.lines = s.2 := by
  induction secs with
  | nil => intro i last fs _ s hs; cases hs
  | cons x secs ih =>
    intro i last fs h s hs
    obtain ⟨ty, content⟩ := x
    simp only [buildFmtsLim, bind, Except.bind] at h
    split at h
    · cases h
    · rename_i hc
      split at h
      · cases h
      · rename_i gs hg
        have hmem : ∃ f : Fmt, f ∈ fs ∧ f.ty = ty ∧ f.lines = content := by
          split at h <;> cases h <;> exact ⟨⟨i, ty, content⟩, by simp, rfl, rfl⟩
        have hsub : ∀ f ∈ gs, f ∈ fs := by
          split at h <;> cases h <;> intro f hf <;> simp [hf]
        rcases List.mem_cons.1 hs with rfl | hs
        · exact ⟨hc, hmem⟩
        · obtain ⟨h1, f, h2, h3⟩ := ih _ _ _ hg s hs
          exact ⟨h1, f, hsub f h2, h3⟩

theorem fmtAllLim_ok {lim : Nat} {sub : Width → Str → Except Err Str} {w : Width} (fs : List Fmt) : ∀ parts,
    fmtAllLim lim sub w fs = .ok parts → ∀ f ∈ fs, ∃ o, fmtSectionLim lim sub w f.lineIndex f.ty f.lines = .ok o := by
  induction fs with
  | nil => intro parts _ f hf; cases hf
  | cons g fs ih =>
    intro parts h f hf
    simp only [fmtAllLim, bind, Except.bind] at h
    split at h
    · cases h
    · rename_i a ha
      split at h
      · cases h
      · rename_i b hb
        rcases List.mem_cons.1 hf with rfl | hf
        · cases hx : fmtSectionLim lim sub w f.lineIndex f.ty f.lines with
          | error e => rw [hx] at ha; cases ha
          | ok o => exact ⟨o, rfl⟩
        · exact ih _ hb f hf

theorem firstNumberLim_ok {lim k : Nat} {l : Str} (h : firstNumberLim lim l = .ok k) :
    ((lstrip l).takeWhile isDigit).length ≤ lim ∧ firstNumber l = .ok k := by
  unfold firstNumberLim at h
  unfold firstNumber
  dsimp only at h ⊢
  rw [take_digits] at h ⊢
  split at h
  · cases h
  · rename_i h1
    split at h
    · cases h
    · rw [if_neg h1]
      exact ⟨by omega, h⟩

/-- **C134**, the limit is enforced: in a document that is formatted, the digits with which an ordered list begins, leading zeros
included, and those of its last number are within the limit. -/
theorem C134_enforced {lim n : Nat} {w : Width} {text o : Str} (h : reformatTextLim lim (n + 1) w text = .ok o)
    {secs : List (Sec × List Str)} (hp : parse n (splitlines text) = .ok secs) {l : Str} {ls : List Str}
    (hs : (.ordered, l :: ls) ∈ secs) :
    ((lstrip l).takeWhile isDigit).length ≤ lim ∧
      ∃ es k, splitList (l :: ls) = .ok es ∧ firstNumber l = .ok k ∧ (natStr (k + es.length - 1)).length ≤ lim := by
  simp only [reformatTextLim, hp, bind, Except.bind] at h
  split at h
  · cases h
  · rename_i fs hf
    split at h
    · cases h
    · rename_i parts hparts
      obtain ⟨_, f, hfm, h1, h2⟩ := buildFmtsLim_ok secs _ _ _ hf _ hs
      obtain ⟨out, ho⟩ := fmtAllLim_ok fs _ hparts f hfm
      rw [h1, h2] at ho
      simp only [fmtSectionLim, fmtOrderedLim, bind, Except.bind] at ho
      split at ho
      · cases ho
      · rename_i es hes
        split at ho
        · cases ho
        · rename_i k hk
          split at ho
          · cases ho
          · rename_i x hx
            obtain ⟨h3, h4⟩ := firstNumberLim_ok hk
            refine ⟨h3, es, k, hes, h4, ?_⟩
            unfold strLim at hx
            split at hx
            · cases hx
            · omega

/-- **C134** is not vacuous: a quoted list whose second number has two digits, with a limit of two digits and of one. -/
theorem C134_example : reformatMarkdownTextLim 2 5 (.fin 80) c!"> 9. a\n> 9. c" = .ok c!"> 9. a\n> 10. c\n" ∧
    reformatMarkdownTextLim 1 5 (.fin 80) c!"> 9. a\n> 9. c" = .error .valueError ∧
    reformatMarkdownTextLim 1 5 (.fin 80) c!"10. a" = .error .valueError ∧
    reformatMarkdownTextLim 2 5 (.fin 80) c!"001. a" = .error .valueError ∧
    reformatMarkdownTextLim 3 5 (.fin 80) c!"001. a" = .ok c!"1. a\n" ∧
    reformatMarkdownTextLim 1 5 (.fin 80) c!"10 a" = .ok c!"10 a\n" := by
  decide +kernel

end MF
