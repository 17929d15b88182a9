import Verif.Props.Budget
import Verif.Props.Lists
import Verif.Props.Tables
/-!
# C06: formatting terminates

If the only horizontal whitespace of a text is the space character, one pass finishes within a recursion depth that
depends on the text alone. The measure that falls is the pair (number of lines, length of the first line): nested text
has fewer lines or a shorter first line. The other lines may get longer, because lazy continuation lines of a quote
get its markers.
-/

namespace MF

/-- the recursion limit is not exceeded -/
def NR {α : Type} (a : Except Err α) : Prop := a ≠ .error .recursion

theorem NR.ok {α : Type} {x : α} : NR (.ok x : Except Err α) := by simp [NR]

theorem NR.bind {α β : Type} {a : Except Err α} {f : α → Except Err β} (h1 : NR a) (h2 : ∀ x, a = .ok x → NR (f x)) :
    NR (a >>= f) := by
  cases a with
  | error e =>
    intro h
    exact h1 (by simpa [Bind.bind, Except.bind] using h)
  | ok x => exact h2 x rfl

theorem NR.ite {α : Type} {p : Prop} [Decidable p] {a b : Except Err α} (h1 : p → NR a) (h2 : ¬p → NR b) :
    NR (if p then a else b) := by
  split
  · exact h1 ‹_›
  · exact h2 ‹_›

theorem splitAtx_nr (ls : List Str) : NR (splitAtx ls) := by
  cases ls <;> simp only [splitAtx, NR] <;> (try split) <;> simp

theorem splitBlank_nr (ls : List Str) : NR (splitBlank ls) := by
  cases ls <;> simp only [splitBlank, NR] <;> (try split) <;> simp

theorem splitThematic_nr (ls : List Str) : NR (splitThematic ls) := by
  cases ls <;> simp only [splitThematic, NR] <;> (try split) <;> simp

theorem splitBullet_nr (ls : List Str) : NR (splitBullet ls) := by
  cases ls <;> simp only [splitBullet, NR] <;> (try split) <;> simp

theorem splitOrdered_nr (ls : List Str) : NR (splitOrdered ls) := by
  cases ls <;> simp only [splitOrdered, NR] <;> (try split) <;> simp

theorem splitTable_nr (ls : List Str) : NR (splitTable ls) := by
  cases ls <;> simp only [splitTable, NR] <;> (try split) <;> simp

theorem splitIndented_nr (ls : List Str) : NR (splitIndented ls) := by
  cases ls <;> simp only [splitIndented, NR] <;> (try split) <;> simp

theorem splitFenced_nr (ls : List Str) : NR (splitFenced ls) := by
  cases ls <;> simp only [splitFenced, NR] <;> (try split) <;> simp

theorem lrdFinish_nr (lines : List Str) (c : Bool) (i : Nat) (t : Str) (g : List Str) : NR (lrdFinish lines c i t g) := by
  unfold lrdFinish
  exact .ite (fun _ => .ok) fun _ => .ok

theorem splitLrd_nr (ls : List Str) : NR (splitLrd ls) := by
  cases ls with
  | nil => simp [splitLrd, NR]
  | cons l ls =>
    simp only [splitLrd]
    repeat' split
    all_goals first
      | exact .ok
      | exact lrdFinish_nr _ _ _ _ _
      | simp [NR]

theorem anySplits_nr {lines : List Str} {fs : List (List Str → Split)} (h : ∀ f ∈ fs, NR (f lines)) :
    NR (anySplits lines fs) := by
  induction fs with
  | nil => exact .ok
  | cons f fs ih =>
    simp only [anySplits]
    refine (h f (by simp)).bind fun r _ => .ite (fun _ => .ok) fun _ => ih fun g hg => h g (by simp [hg])

theorem isParCont_nr {s : List Str → Split} {lines : List Str} (h : NR (s lines)) : NR (isParCont s lines) := by
  unfold isParCont
  refine NR.bind (anySplits_nr ?_) fun r _ => .ite (fun _ => .ok) fun _ => ?_
  · intro f hf
    simp only [List.mem_cons, List.not_mem_nil, or_false] at hf
    rcases hf with rfl | rfl | rfl | rfl | rfl | rfl | rfl | rfl
    · exact splitAtx_nr _
    · exact splitBlank_nr _
    · exact h
    · exact splitBullet_nr _
    · exact splitFenced_nr _
    · exact splitOrdered_nr _
    · exact splitTable_nr _
    · exact splitThematic_nr _
  · cases lines with
    | nil => simp [NR]
    | cons l ls => exact .ite (fun _ => .ok) fun _ => .ok

theorem parLoop_nr {s : List Str → Split} (ls : List Str) (h : ∀ t, t <:+ ls → NR (s t)) : NR (parLoop s ls) := by
  induction ls with
  | nil => exact .ok
  | cons l ls ih =>
    simp only [parLoop]
    refine (isParCont_nr (h _ (List.suffix_refl _))).bind fun b _ => .ite (fun _ => .ite (fun _ => ?_) fun _ => ?_) fun _ => .ok
    · cases ls with
      | nil => simp [NR]
      | cons l' ls => exact .ok
    · exact (ih fun t ht => h t (ht.trans (List.suffix_cons _ _))).bind fun r _ => .ok

theorem splitParIgn_nr {s : List Str → Split} (lines : List Str)
    (h : ∀ t, t <:+ lines → t.length < lines.length → NR (s t)) : NR (splitParIgn s lines) := by
  cases lines with
  | nil => simp [splitParIgn, NR]
  | cons l ls =>
    simp only [splitParIgn]
    refine .ite (fun _ => .ite (fun _ => .ok) fun _ => ?_) fun _ => .ok
    refine (parLoop_nr ls fun t ht => h t (ht.trans (List.suffix_cons _ _)) ?_).bind fun r _ => .ok
    have := ht.length_le
    simp only [List.length_cons]
    omega

theorem splitPar_nr {s : List Str → Split} (lines : List Str)
    (h : ∀ t, t <:+ lines → t.length < lines.length → NR (s t)) : NR (splitPar s lines) := by
  refine (splitParIgn_nr lines h).bind fun r _ => ?_
  cases r.2 with
  | nil => exact .ok
  | cons l ls => exact .ite (fun _ => .ok) fun _ => .ok

theorem splitSetext_nr {s : List Str → Split} (lines : List Str)
    (h : ∀ t, t <:+ lines → t.length < lines.length → NR (s t)) : NR (splitSetext s lines) := by
  refine (splitParIgn_nr lines h).bind fun r _ => ?_
  obtain ⟨a, b⟩ := r
  cases a with
  | nil => exact .ok
  | cons p ps =>
    cases b with
    | nil => exact .ok
    | cons l ls => exact .ite (fun _ => .ok) fun _ => .ok

theorem firstSection_nr {fs : List (Sec × (List Str → Split))} (hk : ∀ p ∈ fs, Keeps p.2) {l : Str} {ls : List Str}
    (h : ∀ p ∈ fs, NR (p.2 (l :: ls))) : NR (firstSection fs (l :: ls)) := by
  induction fs with
  | nil => simp [firstSection, NR]
  | cons f fs ih =>
    obtain ⟨ty, f⟩ := f
    simp only [firstSection]
    refine (h (ty, f) (by simp)).bind fun r hr => .ite (fun _ => .ok) fun hne => ?_
    obtain ⟨a, b⟩ := r
    have := hk (ty, f) (by simp) _ _ _ _ hr
    simp only [Bool.not_eq_true, Bool.not_eq_false', List.isEmpty_iff] at hne
    subst hne
    simp only [List.nil_append] at this
    rw [this]
    exact ih (fun p hp => hk p (by simp [hp])) fun p hp => h p (by simp [hp])

theorem splitters_nr {s : List Str → Split} {lines : List Str} (h : ∀ t, t <:+ lines → NR (s t)) :
    ∀ p ∈ splitters s, NR (p.2 lines) := by
  intro p hp
  simp only [splitters, List.mem_cons, List.not_mem_nil, or_false] at hp
  rcases hp with rfl | rfl | rfl | rfl | rfl | rfl | rfl | rfl | rfl | rfl | rfl | rfl
  · exact splitAtx_nr _
  · exact splitBlank_nr _
  · exact h _ (List.suffix_refl _)
  · exact splitBullet_nr _
  · exact splitFenced_nr _
  · exact splitIndented_nr _
  · exact splitLrd_nr _
  · exact splitOrdered_nr _
  · exact splitPar_nr _ fun t ht _ => h t ht
  · exact splitSetext_nr _ fun t ht _ => h t ht
  · exact splitTable_nr _
  · exact splitThematic_nr _

theorem parseLoop_nr (n : Nat) : ∀ fuel lines, lines.length ≤ fuel → (∀ t, t <:+ lines → NR (splitQuote n t)) →
    NR (parseLoop (splitQuote n) fuel lines) := by
  intro fuel
  induction fuel with
  | zero =>
    intro lines hl h
    cases lines with
    | nil => exact .ok
    | cons l ls => simp at hl
  | succ fuel ih =>
    intro lines hl h
    cases lines with
    | nil => exact .ok
    | cons l ls =>
      simp only [parseLoop]
      refine (firstSection_nr (splitters_keep n) (splitters_nr h)).bind fun r hr => ?_
      obtain ⟨ty, a, b⟩ := r
      obtain ⟨h1, h2, _⟩ := firstSection_keeps (splitters_keep n) hr
      have hlen : b.length ≤ fuel := by
        have := congrArg List.length h1
        have := List.length_pos_iff.2 h2
        simp only [List.length_append, List.length_cons] at *
        omega
      have hsuf : b <:+ l :: ls := ⟨a, h1⟩
      exact (ih b hlen fun t ht => h t (ht.trans hsuf)).bind fun r _ => .ok

theorem isQuoteCont_nr {s : List Str → Split} {lines : List Str}
    (h : ∀ t, t <:+ lines → t.length < lines.length → NR (s t)) : NR (isQuoteCont s lines) := by
  unfold isQuoteCont
  refine NR.bind (anySplits_nr ?_) fun r _ => .ite (fun _ => .ok) fun _ => ?_
  · intro f hf
    simp only [List.mem_cons, List.not_mem_nil, or_false] at hf
    rcases hf with rfl | rfl | rfl | rfl | rfl | rfl | rfl | rfl
    · exact splitAtx_nr _
    · exact splitBlank_nr _
    · exact splitBullet_nr _
    · exact splitFenced_nr _
    · exact splitOrdered_nr _
    · exact splitSetext_nr _ h
    · exact splitTable_nr _
    · exact splitThematic_nr _
  · cases lines with
    | nil => simp [NR]
    | cons l ls => exact .ite (fun _ => .ok) fun _ => .ok

theorem contLoop_nr {s : List Str → Split} (ls : List Str) (h : ∀ t, t <:+ ls → t.length < ls.length → NR (s t)) :
    ∀ first, NR (contLoop s first ls) := by
  induction ls with
  | nil => intro first; exact .ok
  | cons l ls ih =>
    intro first
    simp only [contLoop]
    refine (isQuoteCont_nr h).bind fun b _ => .ite (fun _ => .ite (fun _ => .ok) fun _ => ?_) fun _ => .ok
    refine (ih (fun t ht hl => h t (ht.trans (List.suffix_cons _ _)) ?_) _).bind fun r _ => .ok
    simp only [List.length_cons]
    omega

/-- lines of at most `M` characters whose only whitespace is the space -/
def Sp (M : Nat) (ls : List Str) : Prop := ∀ l ∈ ls, l.length ≤ M ∧ ∀ c ∈ l, isWs c = true → c = ' '

/-- sufficient recursion depth for block quote detection -/
def mu (M : Nat) (ls : List Str) : Nat := ls.length * (M + 2) + (ls.headD []).length + 1

theorem Sp.suffix {M : Nat} {a b : List Str} (hb : Sp M b) (h : a <:+ b) : Sp M a := fun l hl => hb l (h.subset hl)

theorem Sp.prefix {M : Nat} {a b : List Str} (hb : Sp M b) (h : a <+: b) : Sp M a := fun l hl => hb l (h.subset hl)

theorem Sp.head {M : Nat} {a : List Str} (h : Sp M a) : (a.headD []).length ≤ M := by
  cases a with
  | nil => simp
  | cons l ls => exact (h l (by simp)).1

/-- fewer lines need less depth -/
theorem mu_lt {M : Nat} {a b : List Str} (h : Sp M a) (hl : a.length < b.length) : mu M a < mu M b := by
  unfold mu
  have := h.head
  have : (a.length + 1) * (M + 2) ≤ b.length * (M + 2) := Nat.mul_le_mul_right _ hl
  rw [Nat.succ_mul] at this
  omega

theorem mu_suffix {M : Nat} {a b : List Str} (hb : Sp M b) (h : a <:+ b) : mu M a ≤ mu M b := by
  rcases Nat.lt_or_ge a.length b.length with hl | hl
  · exact Nat.le_of_lt (mu_lt (hb.suffix h) hl)
  · rw [h.eq_of_length (Nat.le_antisymm h.length_le hl)]
    exact Nat.le_refl _

theorem unquote_length (l : Str) : (unquote l).length ≤ l.length := by
  by_cases h : ∃ r, Marked l r
  · obtain ⟨r, hr⟩ := h
    rw [unquote_marked hr]
    obtain ⟨k, _, rfl⟩ := hr
    simp only [List.length_append, List.length_cons]
    omega
  · rw [unquote_unmarked fun r hr => h ⟨r, hr⟩]
    exact Nat.le_refl _

theorem unquote_shorter {l : Str} (hq : isQuote l = true) (hs : ∀ c ∈ l, isWs c = true → c = ' ') :
    (unquote l).length < l.length := by
  obtain ⟨r, hr⟩ := quote_marked hq hs
  rw [unquote_marked hr]
  obtain ⟨k, _, rfl⟩ := hr
  simp only [List.length_append, List.length_cons]
  omega

theorem Sp.unquote {M : Nat} {ls : List Str} (h : Sp M ls) : Sp M (ls.map MF.unquote) := by
  intro l hl
  obtain ⟨x, hx, rfl⟩ := List.mem_map.1 hl
  exact ⟨Nat.le_trans (unquote_length x) (h x hx).1, fun c hc => (h x hx).2 c (unquote_mem hc)⟩

/-- one level of quoting less needs less depth -/
theorem mu_unquote {M : Nat} {l : Str} {ls : List Str} (h : Sp M (l :: ls)) (hq : isQuote l = true) :
    mu M ((l :: ls).map unquote) < mu M (l :: ls) := by
  have := unquote_shorter hq (h l (by simp)).2
  simp only [mu, List.map_cons, List.length_cons, List.length_map, List.headD_cons]
  omega

/-- the content of a block quote starts with a quote line -/
theorem parse_quote_head {n : Nat} {lines : List Str} {secs : List (Sec × List Str)} (h : parse n lines = .ok secs)
    {ty : Sec} {content : List Str} (hm : (ty, content) ∈ secs) :
    ∃ l ls, content = l :: ls ∧ headPred ty l = true := by
  obtain ⟨f, rest, hf, hne, hfs⟩ := parse_section h hm
  cases content with
  | nil => exact absurd rfl hne
  | cons l ls => exact ⟨l, ls, rfl, headPred_of_recognises n hf ⟨_, _, hfs, hne⟩⟩

theorem parse_nr {n : Nat} {lines : List Str} (h : ∀ t, t <:+ lines → NR (splitQuote n t)) : NR (parse n lines) :=
  parseLoop_nr n _ _ (Nat.le_refl _) h

theorem endsWithPar_nr {n M : Nat} : ∀ (k : Nat) (l : Str) (ls : List Str), Sp M (l :: ls) → isQuote l = true →
    mu M (l :: ls) ≤ k + 1 → (∀ t, Sp M t → mu M t < mu M (l :: ls) → NR (splitQuote n t)) →
    NR (endsWithPar (parse n) k (l :: ls)) := by
  intro k
  induction k with
  | zero =>
    intro l ls _ _ hmu
    exfalso
    simp only [mu, List.length_cons, Nat.succ_mul] at hmu
    omega
  | succ k ih =>
    intro l ls hsp hq hmu hsub
    have hlt := mu_unquote hsp hq
    have hsp' := hsp.unquote
    simp only [endsWithPar]
    refine NR.bind (parse_nr fun t ht => hsub t (hsp'.suffix ht) (Nat.lt_of_le_of_lt (mu_suffix hsp' ht) hlt)) fun secs hs => ?_
    cases hg : secs.getLast? with
    | none => simp [NR]
    | some x =>
      obtain ⟨ty, content⟩ := x
      have hmem := List.mem_of_getLast? hg
      obtain ⟨l', ls', rfl, hhead⟩ := parse_quote_head hs hmem
      cases ty with
      | quote =>
        have hsuf : l' :: ls' <:+ (l :: ls).map unquote := by
          rw [← (C08_parse_partition n _ _ hs).1]
          obtain ⟨pre, rfl⟩ := List.getLast?_eq_some_iff.1 hg
          exact ⟨(pre.map (·.2)).flatten, by simp⟩
        have hle := mu_suffix hsp' hsuf
        exact ih l' ls' (hsp'.suffix hsuf) hhead (by omega) fun t ht hlt' => hsub t ht (by omega)
      | atx | blank | bullet | fenced | indented | lrd | ordered | par | setext | table | thematic => exact .ok

theorem mu_prefix {M : Nat} {l : Str} {a b : List Str} (h : l :: a <+: l :: b) : mu M (l :: a) ≤ mu M (l :: b) := by
  have := Nat.mul_le_mul_right (M + 2) h.length_le
  simp only [mu, List.headD_cons] at *
  omega

theorem quoteLoop_nr {n k M : Nat} (lines : List Str) (hsp : Sp M lines) (hmu : mu M lines ≤ k + 1)
    (hsub : ∀ t, Sp M t → mu M t < mu M lines → NR (splitQuote n t)) : ∀ fuel bq rem, bq ++ rem = lines →
    (∀ l ls, bq = l :: ls → isQuote l = true) → rem.length < fuel →
    NR (quoteLoop (endsWithPar (parse n) k) (splitQuote n) fuel bq rem) := by
  intro fuel
  induction fuel with
  | zero => intro bq rem _ _ h; omega
  | succ fuel ih =>
    intro bq rem heq hbq hlen
    cases rem with
    | nil => exact .ok
    | cons l ls =>
      simp only [quoteLoop]
      refine .ite (fun _ => .ok) fun hq => ?_
      simp only [Bool.not_eq_true', Bool.not_eq_false] at hq
      have hsplit : (l :: ls).takeWhile isQuote ++ (l :: ls).dropWhile isQuote = l :: ls := List.takeWhile_append_dropWhile
      have htw : (l :: ls).takeWhile isQuote = l :: ls.takeWhile isQuote := by simp [hq]
      have hlines : (bq ++ (l :: ls).takeWhile isQuote) ++ (l :: ls).dropWhile isQuote = lines := by
        rw [List.append_assoc, hsplit, heq]
      obtain ⟨x, xs, hx, hxq⟩ : ∃ x xs, bq ++ (l :: ls).takeWhile isQuote = x :: xs ∧ isQuote x = true := by
        cases bq with
        | nil => exact ⟨l, ls.takeWhile isQuote, by rw [htw]; rfl, hq⟩
        | cons b bs => exact ⟨b, _, rfl, hbq b bs rfl⟩
      have hpre : x :: xs <+: lines := ⟨_, by rw [← hx]; exact hlines⟩
      have hdrop : ((l :: ls).dropWhile isQuote).length ≤ ls.length := by
        have := congrArg List.length hsplit
        rw [htw] at this
        simp only [List.length_append, List.length_cons] at this
        omega
      have hlines' : ∃ ys, lines = x :: ys := by
        obtain ⟨t, ht⟩ := hpre
        exact ⟨_, ht.symm⟩
      obtain ⟨ys, rfl⟩ := hlines'
      have hle := mu_prefix (M := M) hpre
      refine NR.bind ?_ fun b hb => .ite (fun _ => ?_) fun _ => .ok
      · rw [hx]
        exact endsWithPar_nr k x xs (hsp.prefix hpre) hxq (by omega) fun t ht hlt => hsub t ht (by omega)
      · have hsuf : (l :: ls).dropWhile isQuote <:+ x :: ys := ⟨_, hlines⟩
        refine NR.bind (contLoop_nr _ (fun t ht hlt => hsub t (hsp.suffix (ht.trans hsuf)) ?_) _) fun r hr => ?_
        · refine mu_lt (hsp.suffix (ht.trans hsuf)) ?_
          have := hsuf.length_le
          omega
        · obtain ⟨a, b⟩ := r
          have hk := contLoop_keeps _ _ _ _ _ hr
          refine ih _ _ ?_ ?_ ?_
          · rw [List.append_assoc]
            show _ ++ (a ++ b) = _
            rw [hk]
            exact hlines
          · intro y ys' hy
            rw [hx] at hy
            simp only [List.cons_append, List.cons.injEq] at hy
            rw [← hy.1]; exact hxq
          · have := congrArg List.length hk
            simp only [List.length_append, List.length_cons] at *
            omega

/-- block quote detection needs no more depth than `mu` -/
theorem splitQuote_nr {M : Nat} : ∀ n lines, Sp M lines → mu M lines ≤ n → NR (splitQuote n lines) := by
  intro n
  induction n with
  | zero =>
    intro lines _ h
    simp [mu] at h
  | succ n ih =>
    intro lines hsp hmu
    exact quoteLoop_nr (n := n) (k := n) lines hsp (by omega) (fun t ht hlt => ih t ht (by omega)) _ [] lines rfl
      (by simp) (by omega)

/-- parsing needs no more depth than `mu` -/
theorem parse_terminates {M n : Nat} {lines : List Str} (hsp : Sp M lines) (hmu : mu M lines ≤ n) : NR (parse n lines) :=
  parse_nr fun t ht => splitQuote_nr n t (hsp.suffix ht) (Nat.le_trans (mu_suffix hsp ht) hmu)

/-- `inner` is text nested in `lines`: it has fewer lines or a shorter first line -/
structure Nested (M : Nat) (lines inner : List Str) : Prop where
  ne : inner ≠ []
  sp : Sp (2 * M) inner
  le : inner.length ≤ lines.length
  lt : inner.length < lines.length ∨ (inner.headD []).length < (lines.headD []).length

theorem fullyQuote_length (ls : List Str) : ∀ d, (fullyQuote d ls).length = ls.length := by
  induction ls with
  | nil => intro d; rfl
  | cons l ls ih =>
    intro d
    simp only [fullyQuote]
    split <;> simp [ih]

theorem fullyQuote_sp {M : Nat} (ls : List Str) : ∀ d, d ≤ M → Sp M ls → Sp (2 * M) (fullyQuote d ls) := by
  induction ls with
  | nil => intro d _ _ l hl; simp [fullyQuote] at hl
  | cons l ls ih =>
    intro d hd hsp
    have hl := hsp l (by simp)
    have hls : Sp M ls := fun x hx => hsp x (by simp [hx])
    simp only [fullyQuote]
    split
    · intro x hx
      rcases List.mem_cons.1 hx with rfl | hx
      · exact ⟨by omega, hl.2⟩
      · refine ih _ ?_ hls x hx
        have : (spaceless l).length ≤ l.length := by
          rw [spaceless_eq]; exact List.length_filter_le _ _
        omega
    · intro x hx
      rcases List.mem_cons.1 hx with rfl | hx
      · refine ⟨by simp; omega, fun c hc hw => ?_⟩
        rcases List.mem_append.1 hc with h | h
        · rw [(List.mem_replicate.1 h).2] at hw
          exact absurd hw (by decide)
        · exact hl.2 c h hw
      · exact ih d hd hls x hx

theorem dropSpace_length (l : Str) : (dropSpace l).length ≤ l.length := by
  cases l with
  | nil => simp [dropSpace]
  | cons c cs =>
    simp only [dropSpace]
    split <;> simp

theorem quoteInner_nested {M : Nat} {l : Str} {ls : List Str} (hsp : Sp M (l :: ls)) (hq : isQuote l = true) :
    Nested M (l :: ls) (quoteInner (l :: ls)).1 := by
  have h1 : Sp (2 * M) ((fullyQuote 0 (l :: ls)).map unquote) := (fullyQuote_sp (l :: ls) 0 (by omega) hsp).unquote
  have hlen : ((fullyQuote 0 (l :: ls)).map unquote).length = (l :: ls).length := by
    rw [List.length_map, fullyQuote_length]
  obtain ⟨t, ht⟩ : ∃ t, (fullyQuote 0 (l :: ls)).map unquote = unquote l :: t := by
    simp only [fullyQuote, hq, if_true, List.map_cons]
    exact ⟨_, rfl⟩
  have hsh := unquote_shorter hq (hsp l (by simp)).2
  have hds : Sp (2 * M) (((fullyQuote 0 (l :: ls)).map unquote).map dropSpace) := by
    intro x hx
    obtain ⟨y, hy, rfl⟩ := List.mem_map.1 hx
    exact ⟨Nat.le_trans (dropSpace_length y) (h1 y hy).1, fun c hc => (h1 y hy).2 c (dropSpace_mem hc)⟩
  unfold quoteInner
  simp only
  split
  · refine ⟨by rw [ht]; simp, hds, by rw [List.length_map, hlen]; exact Nat.le_refl _, .inr ?_⟩
    rw [ht]
    have := dropSpace_length (unquote l)
    simp only [List.map_cons, List.headD_cons]
    omega
  · refine ⟨by rw [ht]; simp, h1, by rw [hlen]; exact Nat.le_refl _, .inr ?_⟩
    rw [ht]
    exact hsh

theorem Sp.mono {M N : Nat} {ls : List Str} (h : Sp M ls) (hMN : M ≤ N) : Sp N ls := fun l hl =>
  ⟨Nat.le_trans (h l hl).1 hMN, (h l hl).2⟩

theorem dedentEntry_nested {M : Nat} {content : List Str} {es : List (List Str)} (hsp : Sp M content)
    (hflat : es.flatten = content) {e d : List Str} (he : e ∈ es) (h : dedentEntry e = .ok d) : Nested M content d := by
  cases e with
  | nil => cases h
  | cons l ls =>
    simp only [dedentEntry, listMarkerEndPos, bind, Except.bind] at h
    split at h
    · cases h
    · rename_i pos hpos
      split at hpos
      · cases hpos
      · rename_i k hk
        cases hpos
        cases h
        obtain ⟨ws, m, r, hm, hkk⟩ := markerEnd_sound hk
        have hmem : ∀ x ∈ l :: ls, x ∈ content := fun x hx => by
          rw [← hflat]; exact List.mem_flatten.2 ⟨_, he, hx⟩
        obtain ⟨a, b, rfl⟩ := List.append_of_mem he
        have hlen : content.length = a.flatten.length + ((ls.length + 1) + b.flatten.length) := by
          rw [← hflat]; simp; omega
        refine ⟨by simp, ?_, ?_, ?_⟩
        · intro x hx
          rcases List.mem_cons.1 hx with rfl | hx
          · have := hsp l (hmem l (by simp))
            exact ⟨by simp; omega, fun c hc => this.2 c (List.mem_of_mem_drop hc)⟩
          · obtain ⟨y, hy, rfl⟩ := List.mem_map.1 hx
            have := hsp y (hmem y (by simp [hy]))
            refine ⟨?_, fun c hc => ?_⟩
            · have h1 : (lstrip (y.take (pos + 1))).length ≤ (y.take (pos + 1)).length := by
                obtain ⟨t, ht, _⟩ := lstrip_split (y.take (pos + 1))
                have := congrArg List.length ht
                simp only [List.length_append] at this
                omega
              have h2 : (y.take (pos + 1)).length + (y.drop (pos + 1)).length = y.length := by
                rw [← List.length_append, List.take_append_drop]
              simp only [List.length_append]
              omega
            · rcases List.mem_append.1 hc with hc | hc
              · exact this.2 c (List.mem_of_mem_take (mem_of_mem_lstrip hc))
              · exact this.2 c (List.mem_of_mem_drop hc)
        · simp only [List.length_cons, List.length_map]
          omega
        · by_cases ha : a.flatten = []
          · right
            have hh : content.headD [] = l := by
              rw [← hflat]; simp [ha]
            rw [hh]
            obtain ⟨c, t, hc, _⟩ := hm.marker.head
            have := congrArg List.length hm.eq
            simp only [hc, List.length_append, List.length_cons] at this
            simp only [List.headD_cons, List.length_drop]
            omega
          · left
            have := List.length_pos_iff.2 ha
            simp only [List.length_cons, List.length_map]
            omega

theorem wrap_nr (text : Str) (w : Width) : NR (wrap text w) := by
  intro h
  cases (C27_wrap_partial h).1

theorem lrdParts_nr (lines : List Str) : NR (lrdParts lines) := by
  unfold lrdParts
  split
  · simp [NR]
  · exact .ok

theorem firstNumber_nr (l : Str) : NR (firstNumber l) := by
  unfold firstNumber
  exact .ite (fun _ => by simp [NR]) fun _ => .ok

theorem reprCheck_nr (ty : Sec) (lines : List Str) : NR (reprCheck ty lines) := by
  cases ty <;> cases lines <;> simp only [reprCheck] <;> repeat' split
  all_goals first
    | exact .ok
    | exact (lrdParts_nr _).bind fun _ _ => .ok
    | exact (firstNumber_nr _).bind fun _ _ => .ok
    | simp [NR]

theorem buildFmts_nr (secs : List (Sec × List Str)) : ∀ i last, NR (buildFmts i last secs) := by
  induction secs with
  | nil => intro i last; exact .ok
  | cons s secs ih =>
    intro i last
    obtain ⟨ty, content⟩ := s
    simp only [buildFmts]
    refine (reprCheck_nr _ _).bind fun _ _ => (ih _ _).bind fun _ _ => ?_
    exact .ite (fun _ => .ok) fun _ => .ok

theorem dedentEntries_nr (es : List (List Str)) : NR (dedentEntries es) := by
  have h1 : ∀ e, NR (dedentEntry e) := by
    intro e
    cases e with
    | nil => simp [dedentEntry, NR]
    | cons l ls =>
      simp only [dedentEntry]
      refine NR.bind ?_ fun _ _ => .ok
      unfold listMarkerEndPos
      split
      · simp [NR]
      · exact .ok
  induction es with
  | nil => exact .ok
  | cons e es ih =>
    simp only [dedentEntries, List.mapM_cons]
    exact (h1 e).bind fun _ _ => NR.bind ih fun _ _ => .ok

theorem dedentEntries_mem (es : List (List Str)) : ∀ ds, dedentEntries es = .ok ds → ∀ d ∈ ds, ∃ e ∈ es, dedentEntry e = .ok d := by
  induction es with
  | nil => intro ds h d hd; cases h; cases hd
  | cons e es ih =>
    intro ds h d hd
    obtain ⟨d', ds', h1, h2, rfl⟩ := mapM_cons_ok h
    rcases List.mem_cons.1 hd with rfl | hd
    · exact ⟨e, by simp, h1⟩
    · obtain ⟨e', h3, h4⟩ := ih ds' h2 d hd
      exact ⟨e', by simp [h3], h4⟩

theorem fmtBulletEntries_nr {sub : Width → Str → Except Err Str} {w : Width} {m : Str} (es : List (List Str))
    (h : ∀ e ∈ es, ∀ w', NR (sub w' (pyJoin ['\n'] e ++ ['\n']))) : NR (fmtBulletEntries sub w m es) := by
  induction es with
  | nil => exact .ok
  | cons e es ih =>
    simp only [fmtBulletEntries, fmtEntry, reformatLines]
    exact NR.bind ((h e (by simp) _).bind fun _ _ => .ok) fun _ _ => (ih fun x hx => h x (by simp [hx])).bind fun _ _ => .ok

theorem fmtOrderedEntries_nr {sub : Width → Str → Except Err Str} {w : Width} {i : Nat} (es : List (List Str))
    (h : ∀ e ∈ es, ∀ w', NR (sub w' (pyJoin ['\n'] e ++ ['\n']))) : ∀ k, NR (fmtOrderedEntries sub w i k es) := by
  induction es with
  | nil => intro k; exact .ok
  | cons e es ih =>
    intro k
    simp only [fmtOrderedEntries, fmtEntry, reformatLines]
    exact NR.bind ((h e (by simp) _).bind fun _ _ => .ok) fun _ _ => (ih (fun x hx => h x (by simp [hx])) _).bind fun _ _ => .ok

theorem checkRows_nr (li n : Nat) (rows : List (List Str)) (i : Nat) : NR (checkRows li n i rows) := by
  intro h
  obtain ⟨_, _, _, _, _, _, h4⟩ := checkRows_error _ _ _ _ _ h
  cases h4

theorem fmtSection_nr {M n : Nat} {lines : List Str} {secs : List (Sec × List Str)} (hp : parse n lines = .ok secs)
    {ty : Sec} {content : List Str} (hm : (ty, content) ∈ secs) (hsp : Sp M content)
    {sub : Width → Str → Except Err Str} (w : Width) (i : Nat)
    (hsub : ∀ d w', Nested M content d → NR (sub w' (pyJoin ['\n'] d ++ ['\n']))) :
    NR (fmtSection sub w i ty content) := by
  obtain ⟨l, ls, rfl, hhead⟩ := parse_quote_head hp hm
  have hlist : ty = .bullet ∨ ty = .ordered → ∃ es, splitList (l :: ls) = .ok es ∧
      ∀ ds, dedentEntries es = .ok ds → ∀ d ∈ ds, ∀ w', NR (sub w' (pyJoin ['\n'] d ++ ['\n'])) := by
    intro hty
    obtain ⟨es, h1, _, h2, _⟩ := C19_entries_partition n lines secs hp ty _ hm hty
    refine ⟨es, h1, fun ds hds d hd w' => ?_⟩
    obtain ⟨e, he, hed⟩ := dedentEntries_mem es ds hds d hd
    exact hsub d w' (dedentEntry_nested hsp h2 he hed)
  cases ty with
  | quote =>
    simp only [fmtSection, fmtQuote, reformatLines]
    exact (hsub _ _ (quoteInner_nested hsp hhead)).bind fun _ _ => .ok
  | bullet =>
    obtain ⟨es, h1, h2⟩ := hlist (.inl rfl)
    simp only [fmtSection, fmtBullet, h1]
    refine NR.ok.bind fun es' hes => ?_
    cases hes
    refine (dedentEntries_nr es).bind fun ds hds => ?_
    cases lstrip l with
    | nil => simp [NR]
    | cons c r => exact (fmtBulletEntries_nr ds (h2 ds hds)).bind fun _ _ => .ok
  | ordered =>
    obtain ⟨es, h1, h2⟩ := hlist (.inr rfl)
    simp only [fmtSection, fmtOrdered, h1]
    refine NR.ok.bind fun es' hes => ?_
    cases hes
    refine (firstNumber_nr l).bind fun k _ => (dedentEntries_nr es).bind fun ds hds => ?_
    exact (fmtOrderedEntries_nr ds (h2 ds hds) _).bind fun _ _ => .ok
  | atx => exact .ok
  | blank => exact .ok
  | indented => exact .ok
  | fenced =>
    simp only [fmtSection, fmtFenced]
    split
    · simp [NR]
    · exact .ok
  | thematic =>
    simp only [fmtSection, fmtThematic]
    split
    · simp [NR]
    · split <;> exact .ok
  | par =>
    simp only [fmtSection, fmtPar]
    refine (wrap_nr _ _).bind fun _ _ => ?_
    split
    · simp [NR]
    · exact .ok
  | setext =>
    simp only [fmtSection, fmtSetext]
    refine .ite (fun _ => by simp [NR]) fun _ => (wrap_nr _ _).bind fun _ _ => NR.bind ?_ fun _ _ => ?_
    · unfold maxLen
      split
      · simp [NR]
      · exact .ok
    · split
      · simp [NR]
      · exact .ok
  | table =>
    simp only [fmtSection, fmtTable]
    cases ls with
    | nil => simp [NR]
    | cons d b => exact (checkRows_nr _ _ _ _).bind fun _ _ => .ok
  | lrd =>
    simp only [fmtSection, fmtLrd]
    refine (lrdParts_nr _).bind fun p _ => ?_
    obtain ⟨name, link, title⟩ := p
    simp only
    repeat' split
    all_goals first
      | exact .ok
      | exact (wrap_nr _ _).bind fun _ _ => .ok
      | simp [NR]

theorem fmtAll_nr {sub : Width → Str → Except Err Str} {w : Width} (fs : List Fmt)
    (h : ∀ f ∈ fs, NR (fmtSection sub w f.lineIndex f.ty f.lines)) : NR (fmtAll sub w fs) := by
  induction fs with
  | nil => exact .ok
  | cons f fs ih =>
    simp only [fmtAll]
    refine NR.bind ?_ fun _ _ => (ih fun g hg => h g (by simp [hg])).bind fun _ _ => .ok
    have := h f (by simp)
    cases hs : fmtSection sub w f.lineIndex f.ty f.lines with
    | ok t => exact .ok
    | error e =>
      rw [hs] at this
      cases e <;> simp_all [NR, Except.mapError, genError]

/-- Sufficient recursion depth for a text of at most `k` lines of at most `M` characters, the first of at most `f`. -/
def depthBound : Nat → Nat → Nat → Nat
  | 0, _, _ => 1
  | k + 1, 0, M => (k + 1) * (M + 2) + M + 2 + depthBound k (2 * M) (2 * M)
  | k + 1, f + 1, M => (k + 1) * (M + 2) + M + 2 + depthBound k (2 * M) (2 * M) + depthBound (k + 1) f (2 * M)

theorem depthBound_pos (k f M : Nat) : 1 ≤ depthBound k f M := by
  cases k with
  | zero => simp [depthBound]
  | succ k => cases f <;> simp only [depthBound] <;> omega

theorem depthBound_parse (k f M : Nat) : (k + 1) * (M + 2) + M + 2 ≤ depthBound (k + 1) f M := by
  cases f <;> simp only [depthBound] <;> omega

theorem depthBound_fewer (k f M : Nat) : depthBound k (2 * M) (2 * M) + 1 ≤ depthBound (k + 1) f M := by
  cases f <;> simp only [depthBound] <;> omega

theorem depthBound_shorter (k f M : Nat) : depthBound (k + 1) f (2 * M) + 1 ≤ depthBound (k + 1) (f + 1) M := by
  simp only [depthBound]; omega

theorem section_measure {lines : List Str} {secs : List (Sec × List Str)} (h : (secs.map (·.2)).flatten = lines)
    {s : Sec × List Str} (hs : s ∈ secs) : (∀ l ∈ s.2, l ∈ lines) ∧ s.2.length ≤ lines.length ∧
      (s.2.length < lines.length ∨ s.2.headD [] = lines.headD []) := by
  obtain ⟨a, b, rfl⟩ := List.append_of_mem hs
  have hl : lines = (a.map (·.2)).flatten ++ (s.2 ++ (b.map (·.2)).flatten) := by rw [← h]; simp
  refine ⟨fun l hl' => by rw [hl]; simp [hl'], by rw [hl]; simp; omega, ?_⟩
  by_cases ha : (a.map (·.2)).flatten = []
  · by_cases hs' : s.2 = []
    · by_cases hb : (b.map (·.2)).flatten = []
      · right; rw [hl, ha, hs', hb]; rfl
      · left
        have := List.length_pos_iff.2 hb
        rw [hl]; simp only [List.length_append, hs', List.length_nil]; omega
    · right
      rw [hl, ha]
      cases h2 : s.2 with
      | nil => exact absurd h2 hs'
      | cons x xs => rfl
  · left
    have := List.length_pos_iff.2 ha
    rw [hl]; simp only [List.length_append]; omega

theorem reformatText_nr : ∀ (k f M : Nat) (text : Str), (splitlines text).length ≤ k →
    ((splitlines text).headD []).length ≤ f → Sp M (splitlines text) → ∀ n w, depthBound k f M ≤ n →
    NR (reformatText n w text) := by
  intro k
  induction k with
  | zero =>
    intro f M text hk hf hsp n w hn
    cases n with
    | zero => simp [depthBound] at hn
    | succ n =>
      have : splitlines text = [] := List.eq_nil_of_length_eq_zero (by omega)
      simp only [reformatText, reformatBody, this, parse, parseWith, parseLoop]
      exact .ok
  | succ k ihk =>
    intro f
    induction f with
    | zero =>
      intro M text hk hf hsp n w hn
      have := depthBound_pos (k + 1) 0 M
      cases n with
      | zero => omega
      | succ n =>
        have h1 := depthBound_parse k 0 M
        have h2 := depthBound_fewer k 0 M
        simp only [reformatText, reformatBody]
        have hmul : (splitlines text).length * (M + 2) ≤ (k + 1) * (M + 2) := Nat.mul_le_mul_right _ hk
        refine NR.bind (parse_terminates hsp ?_) fun secs hp => (buildFmts_nr _ _ _).bind fun fs hfs =>
          (fmtAll_nr fs fun g hg => ?_).bind fun _ _ => .ok
        · unfold mu; omega
        · rcases buildFmts_fmt _ _ _ _ hfs g hg with hm | ⟨e1, e2⟩
          · obtain ⟨m1, m2, m3⟩ := section_measure (C08_parse_partition n _ _ hp).1 hm
            simp only at m1 m2 m3
            refine fmtSection_nr hp hm (fun l hl => hsp l (m1 l hl)) w _ fun d w' hd => ?_
            have hsplit := splitlines_join_nl d (fun l hl => spaces_noLB (hd.sp l hl).2) hd.ne
            refine ihk (2 * M) (2 * M) _ ?_ ?_ ?_ n w' (by omega)
            · rw [hsplit]
              rcases hd.lt with h | h
              · omega
              · rcases m3 with m3 | m3
                · have := hd.le; omega
                · rw [m3] at h; omega
            · rw [hsplit]; exact hd.sp.head
            · rw [hsplit]; exact hd.sp
          · rw [e1, e2]; exact .ok
    | succ f ihf =>
      intro M text hk hf hsp n w hn
      have := depthBound_pos (k + 1) (f + 1) M
      cases n with
      | zero => omega
      | succ n =>
        have h1 := depthBound_parse k (f + 1) M
        have h2 := depthBound_fewer k (f + 1) M
        have h3 := depthBound_shorter k f M
        simp only [reformatText, reformatBody]
        have hmul : (splitlines text).length * (M + 2) ≤ (k + 1) * (M + 2) := Nat.mul_le_mul_right _ hk
        have hM := hsp.head
        refine NR.bind (parse_terminates hsp ?_) fun secs hp => (buildFmts_nr _ _ _).bind fun fs hfs =>
          (fmtAll_nr fs fun g hg => ?_).bind fun _ _ => .ok
        · unfold mu; omega
        · rcases buildFmts_fmt _ _ _ _ hfs g hg with hm | ⟨e1, e2⟩
          · obtain ⟨m1, m2, m3⟩ := section_measure (C08_parse_partition n _ _ hp).1 hm
            simp only at m1 m2 m3
            refine fmtSection_nr hp hm (fun l hl => hsp l (m1 l hl)) w _ fun d w' hd => ?_
            have hsplit := splitlines_join_nl d (fun l hl => spaces_noLB (hd.sp l hl).2) hd.ne
            have hle := hd.le
            by_cases hlt : d.length ≤ k
            · refine ihk (2 * M) (2 * M) _ ?_ ?_ ?_ n w' (by omega)
              · rw [hsplit]; exact hlt
              · rw [hsplit]; exact hd.sp.head
              · rw [hsplit]; exact hd.sp
            · refine ihf (2 * M) _ ?_ ?_ ?_ n w' (by omega)
              · rw [hsplit]; omega
              · rw [hsplit]
                rcases hd.lt with h | h
                · omega
                · rcases m3 with m3 | m3
                  · omega
                  · rw [m3] at h; omega
              · rw [hsplit]; exact hd.sp
          · rw [e1, e2]; exact .ok

/-- length of the longest line -/
def longest (ls : List Str) : Nat := ls.foldr (fun l n => max l.length n) 0

theorem longest_ge (ls : List Str) : ∀ l ∈ ls, l.length ≤ longest ls := by
  induction ls with
  | nil => intro l hl; cases hl
  | cons x ls ih =>
    intro l hl
    simp only [longest, List.foldr_cons]
    rcases List.mem_cons.1 hl with rfl | hl
    · exact Nat.le_max_left _ _
    · exact Nat.le_trans (ih l hl) (Nat.le_max_right _ _)

theorem OnlySpaces.sp {text : Str} (h : OnlySpaces text) : Sp (longest (splitlines text)) (splitlines text) := fun l hl =>
  ⟨longest_ge _ l hl, fun c hc hw => by
    rcases h c (splitlines_mem text l hl c hc) hw with h1 | h1
    · exact h1
    · rw [splitlines_noLB text l hl c hc] at h1; cases h1⟩

/-- Recursion depth that suffices for a text: a function of its number of lines, the length of its first line and the
length of its longest line. -/
def depthOf (text : Str) : Nat :=
  depthBound (splitlines text).length ((splitlines text).headD []).length (longest (splitlines text))

/-- C06: a text whose only horizontal whitespace is the space is formatted within the depth `depthOf text`, for every
width. -/
theorem C06_terminates (text : Str) (h : OnlySpaces text) (w : Width) (n : Nat) (hn : depthOf text ≤ n) :
    reformatText n w text ≠ .error .recursion :=
  reformatText_nr _ _ _ text (Nat.le_refl _) (Nat.le_refl _) h.sp n w hn

/-- With C07: there is one outcome, which every sufficiently large recursion limit gives. -/
theorem C06_outcome (text : Str) (h : OnlySpaces text) (w : Width) :
    ∃ outcome, outcome ≠ .error .recursion ∧ ∀ n, depthOf text ≤ n → reformatText n w text = outcome :=
  ⟨reformatText (depthOf text) w text, C06_terminates text h w _ (Nat.le_refl _), fun n hn =>
    C07_budget_irrelevant _ n w text hn (C06_terminates text h w _ (Nat.le_refl _))⟩

theorem markup_ws : ∀ c ∈ markup, isWs c = true → c = ' ' := by decide

/-- The rewritten text again has no horizontal whitespace but the space. -/
theorem OnlySpaces.reformatText {n : Nat} {w : Width} {text out : Str} (h : OnlySpaces text)
    (ho : MF.reformatText n w text = .ok out) : OnlySpaces out := by
  intro c hc hw
  rcases reformatText_fine n w text out ho c hc with rfl | ⟨h1, h2 | h2⟩
  · exact .inr (by decide)
  · rcases h2 with h2 | ⟨rfl, _⟩ | ⟨h2, _⟩
    · exact h c h2 hw
    · cases hw
    · rw [digit_not_ws h2] at hw; cases hw
  · exact .inl (markup_ws c h2 hw)

/-- The program's entry point, which formats twice, terminates too. -/
theorem C06_terminates_api (text : Str) (h : OnlySpaces text) (w : Width) :
    ∃ N, ∀ n, N ≤ n → reformatMarkdownText n w text ≠ .error .recursion := by
  obtain ⟨o, ho, hall⟩ := C06_outcome text h w
  cases o with
  | error e =>
    refine ⟨depthOf text, fun n hn hr => ho ?_⟩
    simp only [reformatMarkdownText, bind, Except.bind, hall n hn] at hr
    exact hr
  | ok out =>
    have hout : OnlySpaces out := h.reformatText (hall _ (Nat.le_refl _))
    refine ⟨max (depthOf text) (depthOf out), fun n hn hr => ?_⟩
    have h1 := hall n (by omega)
    have h2 := C06_terminates out hout w n (by omega)
    simp only [reformatMarkdownText, bind, Except.bind, h1] at hr
    cases h3 : reformatText n w out with
    | error e =>
      rw [h3] at hr
      exact h2 (by rw [h3]; exact hr)
    | ok o2 =>
      rw [h3] at hr
      simp only at hr
      split at hr <;> cases hr

/-- A tab in front of a quote marker: the line counts as quoted, but its marker is never removed, so every recursion
limit is exceeded. -/
theorem C06_tab_before_quote (n : Nat) (w : Width) : reformatText n w c!"\t> a" = .error .recursion := by
  have hq : ∀ n, splitQuote n [c!"\t> a"] = .error .recursion := by
    intro n
    induction n with
    | zero => rfl
    | succ n ih =>
      have hu : [c!"\t> a"].map unquote = [c!"\t> a"] := by decide +kernel
      have hp : parseWith (splitQuote n) [c!"\t> a"] = .error .recursion := by
        simp only [parseWith, List.length_cons, List.length_nil, parseLoop, splitters, firstSection, bind, Except.bind]
        have e1 : splitAtx [c!"\t> a"] = .ok ([], [c!"\t> a"]) := by decide +kernel
        have e2 : splitBlank [c!"\t> a"] = .ok ([], [c!"\t> a"]) := by decide +kernel
        simp [e1, e2, ih]
      have he : ∀ k, endsWithPar (parseWith (splitQuote n)) k [c!"\t> a"] = .error .recursion := by
        intro k
        cases k with
        | zero => rfl
        | succ k => simp only [endsWithPar, hu, hp, bind, Except.bind]
      have ht : isQuote c!"\t> a" = true := by decide +kernel
      simp only [splitQuote, quoteLoop, ht, List.takeWhile_cons, List.takeWhile_nil,
        if_true, List.nil_append, he, bind, Except.bind]
      rfl
  cases n with
  | zero => rfl
  | succ n =>
    have hs : splitlines c!"\t> a" = [c!"\t> a"] := by decide +kernel
    have e1 : splitAtx [c!"\t> a"] = .ok ([], [c!"\t> a"]) := by decide +kernel
    have e2 : splitBlank [c!"\t> a"] = .ok ([], [c!"\t> a"]) := by decide +kernel
    simp only [reformatText, reformatBody, hs, parse, parseWith, List.length_cons, List.length_nil, parseLoop, splitters,
      firstSection, bind, Except.bind]
    simp [e1, e2, hq]

/-- A text with nested quotes and a lazy continuation line that gets longer. -/
example : OnlySpaces c!"> > > a\nb\n- c\n  > d\n" ∧
    reformatMarkdownText 12 (.fin 80) c!"> > > a\nb\n- c\n  > d\n" = .ok c!"> > > a b\n- c\n  > d\n" := by
  refine ⟨by unfold OnlySpaces; decide +kernel, by decide +kernel⟩

end MF
