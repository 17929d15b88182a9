import Verif.Props.Compose
import Verif.Props.Extents
import Verif.Props.QuoteDoc
import Verif.Props.ListDoc
/-!
# C105: a document is formatted piece by piece
-/

namespace MF

/-- A text that starts with text and ends with the line feed of a line of text. It is divided into the same sections
when two empty lines follow, so nothing is left open at its end. No section other than a definition begins with a
label. -/
structure Piece (n : Nat) (t : Str) : Prop where
  first : ∃ l ls, splitlines t = l :: ls ∧ isBlankLine l = false ∧ getIndent l < 4
  last : ∃ t0 c, t = t0 ++ [c, '\n'] ∧ isWs c = false
  shut : ∃ S, parse n (splitlines t) = .ok S ∧
    parse n (splitlines (t ++ c!"\n\n")) = .ok (S ++ [(.blank, [[]]), (.blank, [[]])]) ∧
    ∀ p ∈ S, p.1 ≠ .lrd → ¬StartsLabel p.2

/-- An exception without the line number in its message. -/
def Err.noLine : Err → Err
  | .format _ x a => .format 0 x a
  | e => e

theorem noLB_of_not_ws {c : Char} (h : isWs c = false) : isLB c = false := by
  cases hc : isLB c with
  | false => rfl
  | true => rw [isLB_ws hc] at h; cases h

theorem Piece.lf {n : Nat} {t : Str} (h : Piece n t) : ∃ t0, t = t0 ++ ['\n'] := by
  obtain ⟨t0, c, rfl, _⟩ := h.last
  exact ⟨t0 ++ [c], by simp⟩

theorem Piece.ne {n : Nat} {t : Str} (h : Piece n t) : splitlines t ≠ [] := by
  obtain ⟨l, ls, e, _⟩ := h.first
  rw [e]; simp

theorem Piece.flush {n : Nat} {t : Str} (h : Piece n t) (more : List Str) : NoIndentFirst (splitlines t ++ more) := by
  obtain ⟨l, ls, e, h1, h2⟩ := h.first
  intro pre x post e' hp hx
  rw [e, List.cons_append] at e'
  cases pre with
  | nil =>
    rw [List.nil_append] at e'
    rw [← (List.cons.inj e').1]; exact h2
  | cons p pre =>
    rw [List.cons_append] at e'
    rw [(List.cons.inj e').1, hp p (by simp)] at h1; cases h1

theorem Piece.sections {n : Nat} {t : Str} (h : Piece n t) : ∃ S, parse n (splitlines t) = .ok S ∧ S ≠ [] ∧
    parse n (splitlines t ++ [[], []]) = .ok (S ++ [(.blank, [[]]), (.blank, [[]])]) ∧
    (∀ p ∈ S, p.1 ≠ .lrd → ¬StartsLabel p.2) ∧ ∀ s ∈ S, reprCheck s.1 s.2 = .ok () := by
  obtain ⟨S, h3, h1, h2⟩ := h.shut
  obtain ⟨t0, rfl⟩ := h.lf
  rw [show splitlines (t0 ++ ['\n'] ++ c!"\n\n") = splitlines (t0 ++ ['\n']) ++ [[], []] from splitlines_append_nls t0 2] at h1
  refine ⟨S, h3, ?_, h1, h2, ?_⟩
  · rintro rfl
    have := (C08_parse_partition _ _ _ h3).1
    exact h.ne this.symm
  · intro s hs
    obtain ⟨pre, post, rfl⟩ := List.append_of_mem hs
    have hsh := parse_shape h3 (fun l hl => splitlines_noLB _ l hl) hs
    rcases reprCheck_shape hsh with h4 | ⟨h4, h5, _⟩
    · exact h4
    · exfalso
      obtain ⟨ty, c⟩ := s
      cases h4
      rw [List.append_assoc, List.cons_append] at h1
      obtain ⟨l, body, _, h6 | ⟨cl, h6, _⟩⟩ := C52_extent h1
      · simp at h6
      · rw [h6] at h5; simp at h5

/-- What is needed of the rest of a document. -/
structure Rest (n : Nat) (y : Str) (T : List (Sec × List Str)) : Prop where
  parse : parse n (splitlines y) = .ok T
  some : T ≠ []
  repr : ∀ s ∈ T, reprCheck s.1 s.2 = .ok ()
  flush : NoIndentFirst (splitlines y)

theorem splitlines_two {x : Str} (hx : ∃ x0, x = x0 ++ ['\n']) (y : Str) :
    splitlines (x ++ '\n' :: y) = splitlines x ++ [] :: splitlines y := by
  obtain ⟨x0, rfl⟩ := hx
  rw [List.append_assoc, List.singleton_append, splitlines_nl_append]
  have := splitlines_line [] (by intro c hc; cases hc) y
  rw [List.nil_append] at this
  rw [this]

theorem noIndent_blank : NoIndentFirst [([] : Str)] := by
  intro pre l post e hp hq
  have : l ∈ [([] : Str)] := by rw [e]; simp
  rw [List.mem_singleton.1 this] at hq
  cases hq

theorem rest_cons {n : Nat} {x y : Str} {S T : List (Sec × List Str)} (hx : Piece n x) (hS : parse n (splitlines x) = .ok S)
    (hy : Rest n y T) : Rest n (x ++ '\n' :: y) (S ++ (.blank, [[]]) :: T) := by
  obtain ⟨S', h1, h2, h3, h4, h5⟩ := hx.sections
  rw [hS] at h1
  cases h1
  refine ⟨?_, by simp, ?_, ?_⟩
  · rw [splitlines_two hx.lf]
    refine C50_sections (B1 := [[]]) rfl h3 ?_ (by simp) noIndent_blank hy.flush h4 hy.parse
    exact (C08_parse_partition _ _ _ hS).1
  · intro s hs
    rcases List.mem_append.1 hs with hs | hs
    · exact h5 s hs
    · rcases List.mem_cons.1 hs with rfl | hs
      · rfl
      · exact hy.repr s hs
  · rw [splitlines_two hx.lf]
    exact hx.flush _

/-! Formatting of sections in sequence -/

theorem build_ok : ∀ (T : List (Sec × List Str)) i last, (∀ s ∈ T, reprCheck s.1 s.2 = .ok ()) →
    ∃ G, buildFmts i last T = .ok G := by
  intro T
  induction T with
  | nil => intro i last _; exact ⟨[], rfl⟩
  | cons s T ih =>
    intro i last h
    obtain ⟨ty, c⟩ := s
    obtain ⟨G, hG⟩ := ih (i + c.length) (some ty) (fun s hs => h s (by simp [hs]))
    simp only [buildFmts, bind, Except.bind, h (ty, c) (by simp), hG]
    split <;> exact ⟨_, rfl⟩

theorem build_append (T : List (Sec × List Str)) : ∀ (S : List (Sec × List Str)) i last,
    (∀ s ∈ S, reprCheck s.1 s.2 = .ok ()) → (∀ s ∈ T, reprCheck s.1 s.2 = .ok ()) →
    ∃ F G G' f, buildFmts i last S = .ok F ∧ buildFmts 0 none T = .ok G ∧
      buildFmts i last (S ++ (.blank, [[]]) :: T) = .ok (F ++ f :: G') ∧ f.key = (.blank, [[]]) ∧
      G.map Fmt.key = G'.map Fmt.key := by
  intro S
  induction S with
  | nil =>
    intro i last _ hT
    obtain ⟨G, hG⟩ := build_ok T 0 none hT
    obtain ⟨G', h1, h2⟩ := buildFmts_shift T 0 (i + 1) none (some .blank) G (by simp) (by simp) hG
    refine ⟨[], G, G', ⟨i, .blank, [[]]⟩, rfl, hG, ?_, rfl, h2⟩
    simp only [List.nil_append, buildFmts, reprCheck, bind, Except.bind, List.length_singleton, h1]
    rfl
  | cons s S ih =>
    intro i last hS hT
    obtain ⟨ty, c⟩ := s
    obtain ⟨F, G, G', f, h1, h2, h3, h4, h5⟩ := ih (i + c.length) (some ty) (fun s hs => hS s (by simp [hs])) hT
    simp only [List.cons_append, buildFmts, bind, Except.bind, hS (ty, c) (by simp), h1, h3]
    split
    · exact ⟨_, G, G', f, rfl, h2, rfl, h4, h5⟩
    · exact ⟨_, G, G', f, rfl, h2, rfl, h4, h5⟩

theorem fmtAll_bind {sub : Width → Str → Except Err Str} {w : Width} (F G : List Fmt) :
    fmtAll sub w (F ++ G) = (fmtAll sub w F).bind fun P => (fmtAll sub w G).bind fun Q => .ok (P ++ Q) := by
  induction F with
  | nil =>
    simp only [List.nil_append, fmtAll, Except.bind]
    cases fmtAll sub w G <;> rfl
  | cons f F ih =>
    simp only [List.cons_append, fmtAll, bind, ih]
    cases (fmtSection sub w f.lineIndex f.ty f.lines).mapError genError with
    | error e => rfl
    | ok t =>
      cases fmtAll sub w F with
      | error e => rfl
      | ok P => cases fmtAll sub w G <;> rfl

/-- The same result, or the same exception but for the line number. -/
def Same {α : Type} (a b : Except Err α) : Prop := a.mapError Err.noLine = b.mapError Err.noLine

theorem Same.refl {α : Type} (a : Except Err α) : Same a a := rfl

theorem Same.cases {α : Type} {a b : Except Err α} (h : Same a b) :
    (∃ v, a = .ok v ∧ b = .ok v) ∨ ∃ e e', a = .error e ∧ b = .error e' ∧ e.noLine = e'.noLine := by
  unfold Same at h
  cases a with
  | ok v =>
    cases b with
    | ok v' => exact .inl ⟨v, rfl, by rw [Except.ok.inj h]⟩
    | error e => cases h
  | error e =>
    cases b with
    | ok v' => cases h
    | error e' => exact .inr ⟨e, e', rfl, rfl, Except.error.inj h⟩

theorem Same.error {α : Type} {e e' : Err} (h : e.noLine = e'.noLine) :
    Same (.error e : Except Err α) (.error e') := congrArg Except.error h

theorem Same.bind {α β : Type} {a a' : Except Err α} {f f' : α → Except Err β} (h : Same a a') (hf : ∀ v, a' = .ok v → Same (f v) (f' v)) :
    Same (a.bind f) (a'.bind f') := by
  rcases h.cases with ⟨v, rfl, rfl⟩ | ⟨e, e', rfl, rfl, h'⟩
  · exact hf v rfl
  · exact Same.error (α := β) h'

theorem Same.genError {α : Type} {a b : Except Err α} (h : Same a b) : Same (a.mapError genError) (b.mapError genError) := by
  rcases h.cases with ⟨v, rfl, rfl⟩ | ⟨e, e', rfl, rfl, h'⟩
  · rfl
  · refine Same.error (α := α) ?_
    cases e <;> cases e' <;> first | exact h' | (cases h' <;> rfl)

theorem checkRows_same {i j h : Nat} (rows : List (List Str)) : ∀ k, Same (checkRows i h k rows) (checkRows j h k rows) := by
  induction rows with
  | nil => intro k; rfl
  | cons r rows ih =>
    intro k
    simp only [checkRows]
    split
    · rfl
    · exact ih _

theorem fmtSection_same {sub : Width → Str → Except Err Str} {w : Width} {i j : Nat} {ty : Sec} {ls : List Str} :
    Same (fmtSection sub w i ty ls) (fmtSection sub w j ty ls) := by
  cases ty <;> try exact Same.refl _
  simp only [fmtSection]
  cases ls with
  | nil => rfl
  | cons header ls =>
    cases ls with
    | nil => rfl
    | cons divider body => exact Same.bind (checkRows_same _ _) (fun _ _ => rfl)

theorem fmtAll_same {sub : Width → Str → Except Err Str} {w : Width} : ∀ (F G : List Fmt),
    F.map Fmt.key = G.map Fmt.key → Same (fmtAll sub w F) (fmtAll sub w G) := by
  intro F
  induction F with
  | nil =>
    intro G h
    cases G with
    | nil => rfl
    | cons g G => cases h
  | cons f F ih =>
    intro G h
    cases G with
    | nil => cases h
    | cons g G =>
      simp only [List.map_cons] at h
      obtain ⟨h1, h2⟩ := List.cons.inj h
      have e1 : f.ty = g.ty := congrArg Prod.fst h1
      have e2 : f.lines = g.lines := congrArg Prod.snd h1
      simp only [fmtAll, bind]
      rw [e1, e2]
      exact Same.bind fmtSection_same.genError (fun _ _ => Same.bind (ih G h2) (fun _ _ => rfl))

theorem fmtAll_length {sub : Width → Str → Except Err Str} {w : Width} : ∀ (F : List Fmt) (P : List Str),
    fmtAll sub w F = .ok P → P.length = F.length := by
  intro F
  induction F with
  | nil => intro P h; cases h; rfl
  | cons f F ih =>
    intro P h
    simp only [fmtAll, bind, Except.bind] at h
    split at h
    · cases h
    · split at h
      · cases h
      · rename_i Q hQ
        cases h
        simp [ih Q hQ]

theorem fmtAll_nonempty {sub : Width → Str → Except Err Str} {w : Width} {S : List (Sec × List Str)} {i : Nat} {last : Option Sec}
    {F : List Fmt} {P : List Str} (hS : S ≠ []) (h1 : buildFmts i last S = .ok F) (h2 : fmtAll sub w F = .ok P) : P ≠ [] := by
  rintro rfl
  have := fmtAll_length F [] h2
  exact buildFmts_ne h1 hS (List.length_eq_zero_iff.1 this.symm)

/-- One pass over a piece, an empty line and the rest. -/
theorem pass_two {n : Nat} {w : Width} {x y : Str} {T : List (Sec × List Str)} (hx : Piece n x) (hy : Rest n y T) :
    Same (reformatText (n + 1) w (x ++ '\n' :: y))
      ((reformatText (n + 1) w x).bind fun u => (reformatText (n + 1) w y).bind fun v => .ok (u ++ '\n' :: v)) := by
  obtain ⟨S, h1, h2, h3, h4, h5⟩ := hx.sections
  have hr := (rest_cons hx h1 hy).parse
  obtain ⟨F, G, G', f, b1, b2, b3, b4, b5⟩ := build_append T S 0 none h5 hy.repr
  simp only [reformatText, reformatBody, bind]
  rw [hr, h1, hy.parse]
  simp only [Except.bind]
  rw [b1, b2, b3]
  simp only
  have hf : ∀ H, fmtAll (reformatText n) w (f :: H) = (fmtAll (reformatText n) w H).bind fun Q => .ok ([] :: Q) := by
    intro H
    have hf1 : f.ty = .blank := congrArg Prod.fst b4
    simp only [fmtAll, hf1, fmtSection, fmtBlank, Except.mapError, bind, Except.bind]
  rw [fmtAll_bind, hf]
  cases hP : fmtAll (reformatText n) w F with
  | error e => rfl
  | ok P =>
    have hPne := fmtAll_nonempty h2 b1 hP
    rcases (fmtAll_same (sub := reformatText n) (w := w) G G' b5).cases with ⟨Q, e1, e2⟩ | ⟨e, e', e1, e2, e3⟩
    · have hQne := fmtAll_nonempty hy.some b2 e1
      rw [e1, e2]
      simp only [Except.bind]
      rw [pyJoin_append hPne (by simp), pyJoin_cons_ne hQne]
      simp [Same]
    · rw [e1, e2]
      exact Same.error (α := Str) e3.symm

theorem pyJoin_cons_pieces (x : Str) {ts : List Str} (h : ts ≠ []) : pyJoin ['\n'] (x :: ts) = x ++ '\n' :: pyJoin ['\n'] ts := by
  rw [pyJoin_cons_ne h]; simp

theorem rest_pieces {n : Nat} : ∀ {ts : List Str}, ts ≠ [] → (∀ t ∈ ts, Piece n t) → ∃ T, Rest n (pyJoin ['\n'] ts) T := by
  intro ts
  induction ts with
  | nil => intro h; exact absurd rfl h
  | cons t ts ih =>
    intro _ h
    obtain ⟨S, h1, h2, h3, h4, h5⟩ := (h t (by simp)).sections
    by_cases hts : ts = []
    · subst hts
      exact ⟨S, h1, h2, h5, by simpa [pyJoin] using (h t (by simp)).flush []⟩
    · obtain ⟨T, hT⟩ := ih hts (fun x hx => h x (by simp [hx]))
      rw [pyJoin_cons_pieces t hts]
      exact ⟨_, rest_cons (h t (by simp)) h1 hT⟩

/-- C105: one pass over pieces with empty lines between them is one pass over every piece. -/
theorem C105_pass {n : Nat} {w : Width} : ∀ {ts : List Str}, ts ≠ [] → (∀ t ∈ ts, Piece n t) →
    Same (reformatText (n + 1) w (pyJoin ['\n'] ts)) ((ts.mapM (reformatText (n + 1) w)).map (pyJoin ['\n'])) := by
  intro ts
  induction ts with
  | nil => intro h; exact absurd rfl h
  | cons t ts ih =>
    intro _ h
    rw [List.mapM_cons]
    by_cases hts : ts = []
    · subst hts
      show Same (reformatText (n + 1) w t) _
      simp only [List.mapM_nil, bind, Except.bind, pure, Except.pure]
      cases reformatText (n + 1) w t <;> rfl
    · have ih := ih hts (fun x hx => h x (by simp [hx]))
      obtain ⟨T, hT⟩ := rest_pieces hts (fun x hx => h x (by simp [hx]))
      rw [pyJoin_cons_pieces t hts]
      have h2 := pass_two (w := w) (h t (by simp)) hT
      unfold Same at h2 ⊢
      rw [h2]
      cases reformatText (n + 1) w t with
      | error e => rfl
      | ok u =>
        simp only [bind, Except.bind, pure, Except.pure]
        rcases ih.cases with ⟨v, e1, e2⟩ | ⟨e, e', e1, e2, e3⟩
        · rw [e1]
          cases hm : ts.mapM (reformatText (n + 1) w) with
          | error e => rw [hm] at e2; cases e2
          | ok vs =>
            rw [hm] at e2
            have : vs ≠ [] := by
              rintro rfl
              have := mapM_length hm
              exact hts (List.length_eq_zero_iff.1 this.symm)
            cases e2
            simp only [Except.map, Except.mapError]
            rw [pyJoin_cons_pieces u this]
        · rw [e1]
          cases hm : ts.mapM (reformatText (n + 1) w) with
          | error e4 => rw [hm] at e2; cases e2; exact congrArg Except.error e3
          | ok vs => rw [hm] at e2; cases e2

/-- No empty line after a line. -/
def Filled (t : Str) : Prop := ¬ c!"\n\n" <:+: t

theorem filled_cut {a b Y Z : Str} (ha : Filled (a ++ ['\n'])) (hb : Filled (b ++ ['\n']))
    (h : a ++ '\n' :: '\n' :: Y = b ++ '\n' :: '\n' :: Z) : a = b ∧ Y = Z := by
  have key : ∀ {a b Y Z : Str}, Filled (b ++ ['\n']) → a ++ '\n' :: '\n' :: Y = b ++ '\n' :: '\n' :: Z →
      ∀ d, b = a ++ d → d = [] := by
    intro a b Y Z hb h d hd
    subst hd
    rw [List.append_assoc] at h
    have k := List.append_cancel_left h
    cases d with
    | nil => rfl
    | cons c d =>
      exfalso
      rw [List.cons_append] at k
      obtain ⟨k1, k2⟩ := List.cons.inj k
      cases d with
      | nil => exact hb ⟨a, [], by simp [← k1]⟩
      | cons c' d =>
        rw [List.cons_append] at k2
        have k3 := (List.cons.inj k2).1
        exact hb ⟨a, d ++ ['\n'], by simp [← k1, ← k3]⟩
  rcases List.append_eq_append_iff.1 h with ⟨d, h1, h2⟩ | ⟨d, h1, h2⟩
  · have := key hb h d h1
    subst this
    rw [List.append_nil] at h1
    subst h1
    exact ⟨rfl, by simpa using List.append_cancel_left h⟩
  · have := key ha h.symm d h1
    subst this
    rw [List.append_nil] at h1
    subst h1
    exact ⟨rfl, by simpa using List.append_cancel_left h⟩

theorem pieces_inj : ∀ {us rs : List Str}, us.length = rs.length → (∀ u ∈ us, ∃ a, u = a ++ ['\n']) →
    (∀ r ∈ rs, ∃ a, r = a ++ ['\n']) → (∀ u ∈ us, Filled u) → (∀ r ∈ rs, Filled r) →
    pyJoin ['\n'] us = pyJoin ['\n'] rs → us = rs := by
  intro us
  induction us with
  | nil => intro rs h _ _ _ _ _; exact (List.length_eq_zero_iff.1 h.symm).symm
  | cons u us ih =>
    intro rs hl h1 h2 h3 h4 h
    cases rs with
    | nil => simp at hl
    | cons r rs =>
      have hl' : us.length = rs.length := by simpa using hl
      by_cases hus : us = []
      · subst hus
        have : rs = [] := List.length_eq_zero_iff.1 hl'.symm
        subst this
        exact congrArg (· :: []) h
      · have hrs : rs ≠ [] := by
          rintro rfl
          exact hus (List.length_eq_zero_iff.1 hl')
        rw [pyJoin_cons_pieces u hus, pyJoin_cons_pieces r hrs] at h
        obtain ⟨a, rfl⟩ := h1 u (by simp)
        obtain ⟨b, rfl⟩ := h2 r (by simp)
        rw [List.append_assoc, List.append_assoc] at h
        obtain ⟨hab, h'⟩ := filled_cut (h3 _ (by simp)) (h4 _ (by simp)) h
        rw [hab, ih hl' (fun x hx => h1 x (by simp [hx])) (fun x hx => h2 x (by simp [hx])) (fun x hx => h3 x (by simp [hx]))
          (fun x hx => h4 x (by simp [hx])) h']

theorem reformatText_lf {n : Nat} {w : Width} {t u : Str} (h : reformatText n w t = .ok u) : ∃ a, u = a ++ ['\n'] := by
  cases n with
  | zero => cases h
  | succ n =>
    simp only [reformatText, reformatBody, bind, Except.bind] at h
    split at h
    · cases h
    · split at h
      · cases h
      · split at h
        · cases h
        · cases h; exact ⟨_, rfl⟩

theorem rstrip_pieces : ∀ {us : List Str}, us ≠ [] → (∀ u ∈ us, ∃ a c, u = a ++ [c, '\n'] ∧ isWs c = false) →
    ∃ a c, pyJoin ['\n'] us = a ++ [c, '\n'] ∧ isWs c = false := by
  intro us
  induction us with
  | nil => intro h; exact absurd rfl h
  | cons u us ih =>
    intro _ h
    by_cases hus : us = []
    · subst hus
      exact h u (by simp)
    · obtain ⟨a, c, e, hc⟩ := ih hus (fun x hx => h x (by simp [hx]))
      rw [pyJoin_cons_pieces u hus, e]
      exact ⟨u ++ '\n' :: a, c, by simp, hc⟩

/-- Formatting twice every piece of its own. -/
def byPieces (n : Nat) (w : Width) (ts : List Str) : Except Err Str :=
  (ts.mapM (reformatText n w)).bind fun us => (us.mapM (reformatText n w)).bind fun rs =>
    if rs = us then .ok (pyJoin ['\n'] us) else .error .inconsistent

/-- The texts are pieces, before and after formatting, and formatting writes no empty lines. -/
structure AllPieces (n m : Nat) (w : Width) (ts : List Str) : Prop where
  some : ts ≠ []
  before : ∀ t ∈ ts, Piece n t
  after : ∀ t ∈ ts, ∀ u, reformatText m w t = .ok u → Piece n u ∧ Filled u ∧ ∀ r, reformatText m w u = .ok r → Filled r

/-- C105: the program's answer for pieces with empty lines between them is made of its answers for the pieces. -/
theorem C105_exact {n : Nat} {w : Width} {ts : List Str} (h : AllPieces n (n + 1) w ts) :
    Same (reformatMarkdownText (n + 1) w (pyJoin ['\n'] ts)) (byPieces (n + 1) w ts) := by
  have h1 := C105_pass (w := w) h.some h.before
  simp only [reformatMarkdownText, bind, byPieces]
  cases hm : ts.mapM (reformatText (n + 1) w) with
  | error e =>
    rw [hm] at h1
    rcases h1.cases with ⟨v, _, e2⟩ | ⟨e1, e2, h2, h3, h4⟩
    · cases e2
    · rw [h2]; cases h3; exact Same.error (α := Str) h4
  | ok us =>
    rw [hm] at h1
    rcases h1.cases with ⟨v, h2, e2⟩ | ⟨e1, e2, h2, h3, h4⟩
    · cases e2
      rw [h2]
      simp only [Except.bind]
      have hlen := mapM_length hm
      have hne : us ≠ [] := by
        rintro rfl
        exact h.some (List.length_eq_zero_iff.1 hlen.symm)
      have hu : ∀ u ∈ us, Piece n u ∧ Filled u ∧ ∀ r, reformatText (n + 1) w u = .ok r → Filled r := by
        intro u hu
        obtain ⟨t, ht, e⟩ := mapM_mem hm u hu
        exact h.after t ht u e
      have h3 := C105_pass (w := w) hne (fun u h => (hu u h).1)
      cases hr : us.mapM (reformatText (n + 1) w) with
      | error e =>
        rw [hr] at h3
        rcases h3.cases with ⟨v, _, e2⟩ | ⟨e1, e2, h4, h5, h6⟩
        · cases e2
        · rw [h4]; cases h5; exact Same.error (α := Str) h6
      | ok rs =>
        rw [hr] at h3
        rcases h3.cases with ⟨v, h4, e2⟩ | ⟨e1, e2, h4, h5, h6⟩
        · cases e2
          rw [h4]
          simp only
          by_cases heq : rs = us
          · subst heq
            rw [if_pos rfl, if_neg (by simp)]
            obtain ⟨a, c, e, hc⟩ := rstrip_pieces hne (fun u h => (hu u h).1.last)
            rw [e, show a ++ [c, '\n'] = (a ++ [c]) ++ ['\n'] by simp, rstrip_append_ws _ ['\n'] (by decide), rstrip_concat_of_not _ _ hc]
            rfl
          · rw [if_neg heq, if_pos]
            · rfl
            · simp only [bne_iff_ne, ne_eq]
              intro hj
              refine heq (pieces_inj (mapM_length hr) ?_ ?_ ?_ ?_ hj)
              · intro r hr'
                obtain ⟨u, hu', e⟩ := mapM_mem hr r hr'
                exact reformatText_lf e
              · intro u hu'; exact (hu u hu').1.lf
              · intro r hr'
                obtain ⟨u, hu', e⟩ := mapM_mem hr r hr'
                exact (hu u hu').2.2 r e
              · intro u hu'; exact (hu u hu').2.1
        · cases h5
    · cases h3

theorem Piece.program {n : Nat} {w : Width} {t u : Str} (hu : Piece n u) (h1 : reformatText (n + 1) w t = .ok u) (v : Str) :
    reformatMarkdownText (n + 1) w t = .ok v ↔ reformatText (n + 1) w u = .ok u ∧ v = u := by
  have hs : rstrip u ++ ['\n'] = u := by
    obtain ⟨a, c, rfl, hc⟩ := hu.last
    rw [show a ++ [c, '\n'] = (a ++ [c]) ++ ['\n'] by simp, rstrip_append_ws _ ['\n'] (by decide), rstrip_concat_of_not _ _ hc]
  simp only [reformatMarkdownText, bind, Except.bind, h1]
  cases h2 : reformatText (n + 1) w u with
  | error e => constructor <;> intro h <;> simp at h
  | ok r =>
    simp only
    by_cases hr : r = u
    · subst hr
      rw [if_neg (by simp), hs]
      constructor
      · intro h; cases h; exact ⟨rfl, rfl⟩
      · rintro ⟨_, rfl⟩; rfl
    · rw [if_pos (by simp [hr])]
      constructor
      · intro h; cases h
      · rintro ⟨h, _⟩; exact absurd (Except.ok.inj h) hr

/-- C105: the document is accepted exactly if all pieces are, and is then made of the formatted pieces. -/
theorem C105_accepted {n : Nat} {w : Width} {ts : List Str} (h : AllPieces n (n + 1) w ts) (y : Str) :
    reformatMarkdownText (n + 1) w (pyJoin ['\n'] ts) = .ok y ↔
      ∃ us, ts.mapM (reformatMarkdownText (n + 1) w) = .ok us ∧ y = pyJoin ['\n'] us := by
  have hx := C105_exact h
  have h1 : reformatMarkdownText (n + 1) w (pyJoin ['\n'] ts) = .ok y ↔ byPieces (n + 1) w ts = .ok y := by
    rcases hx.cases with ⟨v, e1, e2⟩ | ⟨e, e', e1, e2, _⟩
    · rw [e1, e2]
    · rw [e1, e2]; simp
  rw [h1]
  have h2 : ∀ (ts us : List Str), (∀ t ∈ ts, ∀ u, reformatText (n + 1) w t = .ok u → Piece n u) →
      (ts.mapM (reformatMarkdownText (n + 1) w) = .ok us ↔
        ts.mapM (reformatText (n + 1) w) = .ok us ∧ us.mapM (reformatText (n + 1) w) = .ok us) := by
    intro ts
    induction ts with
    | nil =>
      intro us _
      constructor
      · intro h; cases h; exact ⟨rfl, rfl⟩
      · rintro ⟨h, _⟩; exact h
    | cons t ts ih =>
      intro us hp
      rw [List.mapM_cons, List.mapM_cons]
      simp only [bind, Except.bind, pure, Except.pure]
      cases hu : reformatText (n + 1) w t with
      | error e =>
        have : reformatMarkdownText (n + 1) w t = .error e := by
          simp only [reformatMarkdownText, bind, Except.bind, hu]
        rw [this]
        simp
      | ok u =>
        have hpu := hp t (by simp) u hu
        have ih := fun us => ih us (fun x hx => hp x (by simp [hx]))
        constructor
        · intro h
          cases ht : reformatMarkdownText (n + 1) w t with
          | error e => rw [ht] at h; cases h
          | ok v =>
            obtain ⟨e1, rfl⟩ := (hpu.program hu v).1 ht
            rw [ht] at h
            simp only at h
            cases hm : ts.mapM (reformatMarkdownText (n + 1) w) with
            | error e => rw [hm] at h; cases h
            | ok vs =>
              rw [hm] at h
              cases h
              obtain ⟨e2, e3⟩ := (ih vs).1 hm
              rw [e2]
              refine ⟨rfl, ?_⟩
              rw [List.mapM_cons]
              simp only [bind, Except.bind, pure, Except.pure, e1, e3]
        · rintro ⟨h1, h2⟩
          cases hm : ts.mapM (reformatText (n + 1) w) with
          | error e => rw [hm] at h1; cases h1
          | ok vs =>
            rw [hm] at h1
            cases h1
            rw [List.mapM_cons] at h2
            simp only [bind, Except.bind, pure, Except.pure] at h2
            cases hr : reformatText (n + 1) w u with
            | error e => rw [hr] at h2; cases h2
            | ok r =>
              rw [hr] at h2
              simp only at h2
              cases hrs : vs.mapM (reformatText (n + 1) w) with
              | error e => rw [hrs] at h2; cases h2
              | ok rs =>
                rw [hrs] at h2
                have h2 := Except.ok.inj h2
                obtain ⟨rfl, rfl⟩ := List.cons.inj h2
                rw [(hpu.program hu r).2 ⟨hr, rfl⟩, (ih rs).2 ⟨hm, hrs⟩]
  have h3 := fun us => h2 ts us (fun t ht u hu => (h.after t ht u hu).1)
  simp only [byPieces]
  constructor
  · intro hb
    cases hm : ts.mapM (reformatText (n + 1) w) with
    | error e => rw [hm] at hb; cases hb
    | ok us =>
      rw [hm] at hb
      simp only [Except.bind] at hb
      cases hr : us.mapM (reformatText (n + 1) w) with
      | error e => rw [hr] at hb; cases hb
      | ok rs =>
        rw [hr] at hb
        simp only at hb
        by_cases heq : rs = us
        · subst heq
          rw [if_pos rfl] at hb
          exact ⟨rs, (h3 rs).2 ⟨hm, hr⟩, (Except.ok.inj hb).symm⟩
        · rw [if_neg heq] at hb; cases hb
  · rintro ⟨us, hu, rfl⟩
    obtain ⟨e1, e2⟩ := (h3 us).1 hu
    rw [e1]
    simp only [Except.bind]
    rw [e2]
    simp

/-! ## Pieces recognised by their lines -/

/-- A text without tabs, trailing spaces, colons after brackets and fences, that starts with text which is not indented
and ends with the line feed of a line of text. -/
structure PlainText (t : Str) : Prop where
  spaces : OnlySpaces t
  quiet : Quiet t
  fences : ∀ l ∈ splitlines t, fenceLine l = false
  first : ∃ l ls, splitlines t = l :: ls ∧ isBlankLine l = false ∧ getIndent l < 4
  last : ∃ t0 c, t = t0 ++ [c, '\n'] ∧ isWs c = false

theorem calm_of_quiet {t : Str} (h : Quiet t) : Calm (splitlines t) := by
  intro l hl
  obtain ⟨h1, h2⟩ := h l hl
  refine ⟨?_, h2⟩
  cases hb : hardBreak l with
  | false => rfl
  | true =>
    rw [hardBreak, endsWith_iff] at hb
    obtain ⟨a, rfl⟩ := hb
    simp at h1

theorem label_colon {content : List Str} (h : StartsLabel content) : ∃ l ∈ content, c!"]:" <:+: l := by
  obtain ⟨l0, more, ws, name, r, rfl, rfl, _⟩ := h
  exact ⟨_, List.mem_cons_self, ws ++ '[' :: name, r, by simp⟩

theorem fenced_line {l : Str} (h : kindOf l = some .fenced) : fenceLine l = true := by
  unfold kindOf at h
  split at h
  · cases h
  · split at h
    · assumption
    · repeat' split at h
      all_goals cases h

theorem sp_sub {M : Nat} {a b : List Str} (h : Sp M b) (hs : ∀ l ∈ a, l ∈ b) : Sp M a := fun l hl => h l (hs l hl)

/-- A plain text is a piece, given enough depth. -/
theorem PlainText.piece {t : Str} (h : PlainText t) : ∃ N, ∀ n, N ≤ n → Piece n t := by
  have hlf : ∃ t0, t = t0 ++ ['\n'] := by
    obtain ⟨t0, c, rfl, _⟩ := h.last
    exact ⟨t0 ++ [c], by simp⟩
  have hgood : Good (splitlines t) := by
    obtain ⟨t0, c, rfl, hc⟩ := h.last
    obtain ⟨front, l, e⟩ := splitlines_last t0 c (noLB_of_not_ws hc)
    rw [show t0 ++ [c, '\n'] = t0 ++ [c] ++ ['\n'] by simp, e]
    refine ⟨front, _, rfl, ?_, ?_⟩
    · cases hs : isBlankLine (l ++ [c]) with
      | false => rfl
      | true =>
        rw [isBlankLine, List.isEmpty_iff, strip_eq_nil] at hs
        rw [hs c (by simp)] at hc
        cases hc
    · cases he : endsWith (l ++ [c]) c!"  " with
      | false => rfl
      | true =>
        rw [endsWith_iff] at he
        obtain ⟨a, ha⟩ := he
        have := congrArg List.getLast? ha
        simp at this
        subst this
        exact absurd hc (by decide)
  obtain ⟨t0, ht0⟩ := hlf
  have hlines : splitlines (t ++ c!"\n\n") = splitlines t ++ [[], []] := by
    rw [ht0]; exact splitlines_append_nls t0 2
  have hsp : Sp (longest (splitlines t)) (splitlines t ++ [[], []]) := by
    intro l hl
    rcases List.mem_append.1 hl with hl | hl
    · exact h.spaces.sp l hl
    · have : l = [] := by simpa using hl
      subst this
      exact ⟨Nat.zero_le _, by intro c hc; cases hc⟩
  have hcalm : Calm (splitlines t ++ [[], []]) := by
    intro l hl
    rcases List.mem_append.1 hl with hl | hl
    · exact calm_of_quiet h.quiet l hl
    · have : l = [] := by simpa using hl
      subst this
      exact ⟨by decide, by decide⟩
  refine ⟨mu (longest (splitlines t)) (splitlines t ++ [[], []]), fun n hn => ⟨h.first, h.last, ?_⟩⟩
  rw [hlines]
  obtain ⟨secs, hsecs⟩ : ∃ secs, parse n (splitlines t ++ [[], []]) = .ok secs := by
    cases hp : parse n (splitlines t ++ [[], []]) with
    | ok secs => exact ⟨secs, rfl⟩
    | error e =>
      exfalso
      have he := parse_calm_errors hcalm hp
      subst he
      refine parse_nr (n := n) (lines := splitlines t ++ [[], []]) ?_ hp
      intro s hs
      exact splitQuote_nr n s (sp_sub hsp fun l hl => hs.subset hl) (Nat.le_trans (mu_suffix hsp hs) hn)
  have hB : Blanks [[], []] := ⟨by simp, by intro b hb; simp at hb; subst hb; rfl⟩
  have hpart := (C08_parse_partition _ _ _ hsecs).1
  have hmem : ∀ s ∈ secs, ∀ l ∈ s.2, l ∈ splitlines t ++ [[], []] := by
    intro s hs l hl
    rw [← hpart]
    exact List.mem_flatten.2 ⟨s.2, List.mem_map.2 ⟨s, hs, rfl⟩, hl⟩
  have hlab : ∀ s ∈ secs, ¬ StartsLabel s.2 := by
    intro s hs hl
    obtain ⟨l, h1, h2⟩ := label_colon hl
    exact (hcalm l (hmem s hs l h1)).2 h2
  rcases parseLoop_eof n hB _ _ _ _ (.inr hgood) (Nat.le_refl _) hsecs with ⟨S, h3, rfl⟩ | ⟨S, a, rfl⟩ | ⟨S, a, T, rfl, _⟩
  · exact ⟨S, h3, hsecs, fun p hp _ => hlab p (by simp [hp])⟩
  · exfalso
    have hne := (C08_parse_partition _ _ _ hsecs).2 (.fenced, a) (by simp)
    obtain ⟨l, ls, rfl⟩ := List.exists_cons_of_ne_nil hne
    have hk := C51_kind (post := []) hsecs
    have hk : kindOf l = some .fenced := by
      cases hkl : kindOf l with
      | none => rw [hkl] at hk; simp at hk
      | some k => rw [hkl] at hk; rw [← hk]
    have hf := fenced_line hk
    rcases List.mem_append.1 (hmem (.fenced, l :: ls) (by simp) l (by simp)) with hl | hl
    · rw [h.fences l hl] at hf; cases hf
    · have : l = [] := by simpa using hl
      subst this
      exact absurd hf (by decide)
  · exact absurd (C52_extent hsecs) (hlab (.lrd, a) (by simp))

/-- C105 for plain texts: given enough depth, the document is accepted exactly if all pieces are. -/
theorem C105_plain {w : Width} {ts : List Str} (hne : ts ≠ []) (h1 : ∀ t ∈ ts, PlainText t)
    (h2 : ∀ t ∈ ts, ∀ m u, reformatText m w t = .ok u → PlainText u ∧ Filled u ∧ ∀ r, reformatText m w u = .ok r → Filled r) :
    ∃ N, ∀ n, N ≤ n → Same (reformatMarkdownText n w (pyJoin ['\n'] ts)) (byPieces n w ts) ∧
      ∀ y, reformatMarkdownText n w (pyJoin ['\n'] ts) = .ok y ↔
        ∃ us, ts.mapM (reformatMarkdownText n w) = .ok us ∧ y = pyJoin ['\n'] us := by
  have one : ∀ t, PlainText t → (∀ m u, reformatText m w t = .ok u → PlainText u) →
      ∃ N, ∀ n, N ≤ n → Piece n t ∧ ∀ m u, reformatText m w t = .ok u → Piece n u := by
    intro t ht hu
    obtain ⟨N, hN⟩ := ht.piece
    by_cases hex : ∃ m u, reformatText m w t = .ok u
    · obtain ⟨m, u, hm⟩ := hex
      obtain ⟨N', hN'⟩ := (hu m u hm).piece
      refine ⟨max N N', fun n hn => ⟨hN n (by omega), fun m' u' hm' => ?_⟩⟩
      have : u' = u := by
        have a1 := C07_budget_irrelevant m (max m m') w t (by omega) (by rw [hm]; simp)
        have a2 := C07_budget_irrelevant m' (max m m') w t (by omega) (by rw [hm']; simp)
        rw [hm] at a1
        rw [hm'] at a2
        rw [a1] at a2
        cases a2
        rfl
      rw [this]
      exact hN' n (by omega)
    · exact ⟨N, fun n hn => ⟨hN n hn, fun m u hm => absurd ⟨m, u, hm⟩ hex⟩⟩
  have all : ∀ L : List Str, (∀ t ∈ L, PlainText t) → (∀ t ∈ L, ∀ m u, reformatText m w t = .ok u → PlainText u) →
      ∃ N, ∀ n, N ≤ n → ∀ t ∈ L, Piece n t ∧ ∀ m u, reformatText m w t = .ok u → Piece n u := by
    intro L
    induction L with
    | nil => intro _ _; exact ⟨0, fun n _ t ht => by cases ht⟩
    | cons t L ih =>
      intro ha hb
      obtain ⟨N, hN⟩ := ih (fun x hx => ha x (by simp [hx])) (fun x hx => hb x (by simp [hx]))
      obtain ⟨N', hN'⟩ := one t (ha t (by simp)) (hb t (by simp))
      refine ⟨max N N', fun n hn x hx => ?_⟩
      rcases List.mem_cons.1 hx with rfl | hx
      · exact hN' n (by omega)
      · exact hN n (by omega) x hx
  obtain ⟨N, hN⟩ := all ts h1 (fun t ht m u hm => (h2 t ht m u hm).1)
  refine ⟨N + 1, fun n hn => ?_⟩
  obtain ⟨k, rfl⟩ : ∃ k, n = k + 1 := ⟨n - 1, by omega⟩
  have hp : AllPieces k (k + 1) w ts := ⟨hne, fun t ht => (hN k (by omega) t ht).1, fun t ht u hu =>
    ⟨(hN k (by omega) t ht).2 _ u hu, (h2 t ht _ u hu).2⟩⟩
  exact ⟨C105_exact hp, C105_accepted hp⟩

theorem piece_of {n : Nat} {t t0 l : Str} {c : Char} {ls : List Str} {S : List (Sec × List Str)} (h1 : splitlines t = l :: ls)
    (h2 : isBlankLine l = false ∧ getIndent l < 4) (h3 : t = t0 ++ [c, '\n'] ∧ isWs c = false)
    (h4 : parse n (splitlines t) = .ok S) (h5 : parse n (splitlines (t ++ c!"\n\n")) = .ok (S ++ [(.blank, [[]]), (.blank, [[]])]))
    (h6 : ∀ p ∈ S, ∀ l ∈ p.2, ¬ c!"]:" <:+: l) : Piece n t :=
  ⟨⟨l, ls, h1, h2⟩, ⟨t0, c, h3⟩, S, h4, h5, fun p hp _ hl => by
    obtain ⟨l, h7, h8⟩ := label_colon hl
    exact h6 p hp l h7 h8⟩

/-- A paragraph, a list and a fenced block. -/
theorem C105_pieces : AllPieces 3 4 (.fin 10) [c!"aaa bbb ccc\n", c!"* x\n  y\n", c!"```\nx\n```\n"] := by
  have p1 : Piece 3 c!"aaa bbb ccc\n" := piece_of (t0 := c!"aaa bbb cc") (c := 'c') (l := c!"aaa bbb ccc") (ls := [])
    (S := [(.par, [c!"aaa bbb ccc"])]) (by decide +kernel) (by decide +kernel) (by decide +kernel) (by decide +kernel)
    (by decide +kernel) (by decide +kernel)
  have p2 : Piece 3 c!"aaa bbb\nccc\n" := piece_of (t0 := c!"aaa bbb\ncc") (c := 'c') (l := c!"aaa bbb") (ls := [c!"ccc"])
    (S := [(.par, [c!"aaa bbb", c!"ccc"])]) (by decide +kernel) (by decide +kernel) (by decide +kernel) (by decide +kernel)
    (by decide +kernel) (by decide +kernel)
  have p3 : Piece 3 c!"* x\n  y\n" := piece_of (t0 := c!"* x\n  ") (c := 'y') (l := c!"* x") (ls := [c!"  y"])
    (S := [(.bullet, [c!"* x", c!"  y"])]) (by decide +kernel) (by decide +kernel) (by decide +kernel) (by decide +kernel)
    (by decide +kernel) (by decide +kernel)
  have p4 : Piece 3 c!"* x y\n" := piece_of (t0 := c!"* x ") (c := 'y') (l := c!"* x y") (ls := [])
    (S := [(.bullet, [c!"* x y"])]) (by decide +kernel) (by decide +kernel) (by decide +kernel) (by decide +kernel)
    (by decide +kernel) (by decide +kernel)
  have p5 : Piece 3 c!"```\nx\n```\n" := piece_of (t0 := c!"```\nx\n``") (c := '`') (l := c!"```") (ls := [c!"x", c!"```"])
    (S := [(.fenced, [c!"```", c!"x", c!"```"])]) (by decide +kernel) (by decide +kernel) (by decide +kernel) (by decide +kernel)
    (by decide +kernel) (by decide +kernel)
  have key : ∀ {t u r : Str}, reformatText 4 (.fin 10) t = .ok u → Piece 3 u → reformatText 4 (.fin 10) u = .ok r → Filled u →
      Filled r → ∀ u', reformatText 4 (.fin 10) t = .ok u' → Piece 3 u' ∧ Filled u' ∧
        ∀ r', reformatText 4 (.fin 10) u' = .ok r' → Filled r' := by
    intro t u r h1 h2 h3 h4 h5 u' h6
    rw [h1] at h6
    cases h6
    refine ⟨h2, h4, fun r' h7 => ?_⟩
    rw [h3] at h7
    cases h7
    exact h5
  refine ⟨by simp, ?_, ?_⟩
  · intro t ht
    rcases List.mem_cons.1 ht with rfl | ht
    · exact p1
    rcases List.mem_cons.1 ht with rfl | ht
    · exact p3
    rcases List.mem_cons.1 ht with rfl | ht
    · exact p5
    · cases ht
  · intro t ht
    rcases List.mem_cons.1 ht with rfl | ht
    · exact key (u := c!"aaa bbb\nccc\n") (r := c!"aaa bbb\nccc\n") (by decide +kernel) p2 (by decide +kernel)
        (by unfold Filled; decide +kernel) (by unfold Filled; decide +kernel)
    rcases List.mem_cons.1 ht with rfl | ht
    · exact key (u := c!"* x y\n") (r := c!"* x y\n") (by decide +kernel) p4 (by decide +kernel)
        (by unfold Filled; decide +kernel) (by unfold Filled; decide +kernel)
    rcases List.mem_cons.1 ht with rfl | ht
    · exact key (u := c!"```\nx\n```\n") (r := c!"```\nx\n```\n") (by decide +kernel) p5 (by decide +kernel)
        (by unfold Filled; decide +kernel) (by unfold Filled; decide +kernel)
    · cases ht

theorem C105_example : [c!"aaa bbb ccc\n", c!"* x\n  y\n", c!"```\nx\n```\n"].mapM (reformatMarkdownText 4 (.fin 10)) =
      .ok [c!"aaa bbb\nccc\n", c!"* x y\n", c!"```\nx\n```\n"] ∧
    reformatMarkdownText 4 (.fin 10) (pyJoin ['\n'] [c!"aaa bbb ccc\n", c!"* x\n  y\n", c!"```\nx\n```\n"]) =
      .ok c!"aaa bbb\nccc\n\n* x y\n\n```\nx\n```\n" := by
  have h : [c!"aaa bbb ccc\n", c!"* x\n  y\n", c!"```\nx\n```\n"].mapM (reformatMarkdownText 4 (.fin 10)) =
      .ok [c!"aaa bbb\nccc\n", c!"* x y\n", c!"```\nx\n```\n"] := by decide +kernel
  exact ⟨h, (C105_accepted C105_pieces _).2 ⟨_, h, rfl⟩⟩

/-- A piece that is refused: the document is refused. A definition at the end is no piece: alone it is a paragraph, and
before other text a definition. -/
theorem C105_refused_example : reformatMarkdownText 4 (.fin 10) c!"foo\n-- -\n" = .error .inconsistent ∧
    reformatMarkdownText 4 (.fin 10) c!"a b\n\nfoo\n-- -\n\nc\n" = .error .inconsistent ∧
    parse 3 [c!"[a]: b"] = .ok [(.par, [c!"[a]: b"])] ∧
    parse 3 [c!"[a]: b", [], []] = .ok [(.lrd, [c!"[a]: b"]), (.blank, [[]]), (.blank, [[]])] := by decide +kernel

end MF
