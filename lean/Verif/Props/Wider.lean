import Verif.Props.Tree
/-!
# C114: a larger width never takes more lines
-/

namespace MF

/-- One width is at most another. -/
def Width.le : Width → Width → Prop
  | .fin a, .fin b => a ≤ b
  | _, .inf => True
  | .inf, .fin _ => False

theorem Width.le.ge {w w' : Width} (h : w.le w') {k : Nat} (hk : w.ge k = true) : w'.ge k = true := by
  cases w <;> cases w' <;> simp only [Width.le, Width.ge, decide_eq_true_eq] at h hk ⊢
  · omega

theorem Width.le.pos {w w' : Width} (h : w.le w') (hp : w.nonpos = false) : w'.nonpos = false := by
  cases w <;> cases w' <;> simp only [Width.le, Width.nonpos, decide_eq_false_iff_not] at h hp ⊢
  · omega

theorem Width.le.sub {w w' : Width} (h : w.le w') (k : Int) : (w.sub k).le (w'.sub k) := by
  cases w <;> cases w' <;> simp only [Width.le, Width.sub] at h ⊢
  · omega

/-- The state on the left has fewer lines, or as many and a current line that is not longer. -/
def Ahead (a b : List Str × Str) : Prop :=
  a.1.length < b.1.length ∨ a.1.length = b.1.length ∧ a.2.length ≤ b.2.length

theorem joinStep_ahead {w w' : Width} (h : w.le w') (hp : w.nonpos = false) {a b : List Str × Str} (hab : Ahead a b)
    (t : Str) (l : Bool) : Ahead (joinStep w' a t l) (joinStep w b t l) := by
  have hp' := h.pos hp
  have hge : ∀ k m, k ≤ m → w.ge m = true → w'.ge k = true := fun k m hk hm => ge_mono hk (h.ge hm)
  obtain ⟨a1, a2⟩ := a
  obtain ⟨b1, b2⟩ := b
  unfold Ahead at hab
  dsimp only at hab
  -- the lines after the token, before a line break tag is looked at
  have key : ∀ (a' b' : List Str × Str),
      a' = (if w'.ge (if (l && !a2.isEmpty) = true then a2 ++ [' '] ++ t else a2 ++ t).length || a2.isEmpty || w'.nonpos
        then (a1, if (l && !a2.isEmpty) = true then a2 ++ [' '] ++ t else a2 ++ t) else (a2 :: a1, t)) →
      b' = (if w.ge (if (l && !b2.isEmpty) = true then b2 ++ [' '] ++ t else b2 ++ t).length || b2.isEmpty || w.nonpos
        then (b1, if (l && !b2.isEmpty) = true then b2 ++ [' '] ++ t else b2 ++ t) else (b2 :: b1, t)) → Ahead a' b' := by
    intro a' b' ea eb
    have la : (if (l && !a2.isEmpty) = true then a2 ++ [' '] ++ t else a2 ++ t).length =
        a2.length + (if a2.length = 0 then 0 else l.toNat) + t.length := by
      cases a2 <;> cases l <;> simp <;> omega
    have lb : (if (l && !b2.isEmpty) = true then b2 ++ [' '] ++ t else b2 ++ t).length =
        b2.length + (if b2.length = 0 then 0 else l.toNat) + t.length := by
      cases b2 <;> cases l <;> simp <;> omega
    generalize (if (l && !a2.isEmpty) = true then a2 ++ [' '] ++ t else a2 ++ t) = pa at *
    generalize (if (l && !b2.isEmpty) = true then b2 ++ [' '] ++ t else b2 ++ t) = pb at *
    rw [hp', Bool.or_false] at ea
    rw [hp, Bool.or_false] at eb
    have ea0 : a2.isEmpty = true ↔ a2.length = 0 := by cases a2 <;> simp
    have eb0 : b2.isEmpty = true ↔ b2.length = 0 := by cases b2 <;> simp
    subst ea; subst eb
    unfold Ahead
    by_cases cb : (w.ge pb.length || b2.isEmpty) = true
    · rw [if_pos cb]
      rcases hab with hab | ⟨h1, h2⟩
      · split
        · exact .inl hab
        · simp only [List.length_cons]
          rcases Nat.lt_or_ge (a1.length + 1) b1.length with h3 | h3
          · exact .inl h3
          · refine .inr ⟨by omega, by split at lb <;> omega⟩
      · have ca : (w'.ge pa.length || a2.isEmpty) = true := by
          rw [Bool.or_eq_true] at cb ⊢
          rcases cb with cb | cb
          · refine .inl (hge _ _ ?_ cb)
            rw [la, lb]
            split <;> split <;> omega
          · right; rw [ea0]; rw [eb0] at cb; omega
        rw [if_pos ca]
        refine .inr ⟨h1, ?_⟩
        show pa.length ≤ pb.length
        rw [la, lb]
        split <;> split <;> omega
    · rw [if_neg cb]
      simp only [List.length_cons]
      split
      · rcases hab with hab | ⟨h1, h2⟩ <;> exact .inl (by simp only []; omega)
      · rcases hab with hab | ⟨h1, h2⟩
        · exact .inl (by simp only [List.length_cons]; omega)
        · exact .inr ⟨by simp only [List.length_cons]; omega, Nat.le_refl _⟩
  have := key _ _ rfl rfl
  unfold joinStep
  dsimp only
  generalize hA : (if (w'.ge (if (l && !a2.isEmpty) = true then a2 ++ [' '] ++ t else a2 ++ t).length || a2.isEmpty || w'.nonpos) = true
        then (a1, if (l && !a2.isEmpty) = true then a2 ++ [' '] ++ t else a2 ++ t) else (a2 :: a1, t)) = A at *
  generalize hB : (if (w.ge (if (l && !b2.isEmpty) = true then b2 ++ [' '] ++ t else b2 ++ t).length || b2.isEmpty || w.nonpos) = true
        then (b1, if (l && !b2.isEmpty) = true then b2 ++ [' '] ++ t else b2 ++ t) else (b2 :: b1, t)) = B at *
  split
  · unfold Ahead at this ⊢
    simp only [List.length_cons, List.length_nil]
    omega
  · exact this

theorem joinLoop_ahead {w w' : Width} (h : w.le w') (hp : w.nonpos = false) : ∀ (ts : List (Str × Bool))
    (a b : List Str × Str), Ahead a b → Ahead (joinLoop w' a ts) (joinLoop w b ts)
  | [], _, _, hab => hab
  | (t, l) :: ts, _, _, hab => joinLoop_ahead h hp ts _ _ (joinStep_ahead h hp hab t l)

theorem joinPairs_fewer {w w' : Width} (h : w.le w') (hp : w.nonpos = false) (ts : List (Str × Bool)) :
    (joinPairs ts w').length ≤ (joinPairs ts w).length := by
  have := joinLoop_ahead h hp ts ([], []) ([], []) (.inr ⟨rfl, Nat.le_refl _⟩)
  unfold joinPairs
  dsimp only
  generalize joinLoop w' ([], []) ts = a at *
  generalize joinLoop w ([], []) ts = b at *
  obtain ⟨a1, a2⟩ := a
  obtain ⟨b1, b2⟩ := b
  unfold Ahead at this
  dsimp only at this ⊢
  cases a2 <;> cases b2 <;> simp at this ⊢ <;> omega

/-- C114 for wrapping: with a larger width the text has no more lines, whatever the text is. -/
theorem C114_wrap {text s s' : Str} {w w' : Width} (h : w.le w') (hp : w.nonpos = false) (hs : wrap text w = .ok s)
    (hs' : wrap text w' = .ok s') : (splitlines s').length ≤ (splitlines s).length := by
  unfold wrap at hs hs'
  simp only [bind, Except.bind] at hs hs'
  cases ht : wrapToks (wrapInput text) with
  | error e => rw [ht] at hs; cases hs
  | ok t =>
    rw [ht] at hs hs'
    simp only [Except.ok.injEq] at hs hs'
    have out := wrapToks_out ht
    have e : ∀ v, splitlines (join t.split t.lead v) = joinPairs (t.split.zip t.lead) v := fun v => by
      refine splitlines_join _ (wrapLines_noLB out v) fun hl => ?_
      exact joinPairs_nonempty _ _ _ (getLast?_mem hl) rfl
    rw [← hs, ← hs', e, e]
    exact joinPairs_fewer h hp _

theorem layLines_fewer {w w' : Width} (h : w.le w') (hp : w.nonpos = false) {ts : List Tok} (hl : Layable ts) :
    (layLines w' ts).length ≤ (layLines w ts).length := by
  obtain ⟨s, hs⟩ := hl.inline
  have hi : Inline (wrapInput s) ts := by rwa [wrapInput_line (spaces_noLB hs.spaces) hs.stripped]
  have := C114_wrap h hp (wrap_fill hi w) (wrap_fill hi w')
  rwa [splitlines_layLines hi, splitlines_layLines hi] at this

mutual
/-- There is a positive width left for every paragraph and every underlined heading. -/
def Node.roomy (w : Width) : Node → Bool
  | .underlined _ _ | .par _ | .hard _ => !w.nonpos
  | .quote sp inner => roomyDoc (w.sub (if sp then 2 else 1)) inner
  | .bullets _ items => roomyItems (w.sub 2) items
  | .numbers first items => roomyItems (w.sub ((natStr (first + items.length - 1)).length + 2)) items
  | _ => true
/-- The same for the blocks of a document. -/
def roomyDoc (w : Width) : List Node → Bool
  | [] => true
  | a :: r => a.roomy w && roomyDoc w r
/-- The same for list entries. -/
def roomyItems (w : Width) : List (List Node) → Bool
  | [] => true
  | it :: r => roomyDoc w it && roomyItems w r
end

theorem roomyDoc_mem {w : Width} {doc : List Node} : roomyDoc w doc = true ↔ ∀ a ∈ doc, a.roomy w = true := by
  induction doc with
  | nil => simp [roomyDoc]
  | cons a r ih => simp [roomyDoc, ih]

theorem roomyItems_mem {w : Width} {items : List (List Node)} :
    roomyItems w items = true ↔ ∀ it ∈ items, roomyDoc w it = true := by
  induction items with
  | nil => simp [roomyItems]
  | cons a r ih => simp [roomyItems, ih]

theorem hardLast_length : ∀ ls : List Str, (hardLast ls).length = ls.length
  | [] => rfl
  | [_] => rfl
  | l :: m :: r => by rw [hardLast, List.length_cons, hardLast_length (m :: r)]; rfl

theorem hang_length (p q : Str) (ls : List Str) : (hang p q ls).length = ls.length := by
  cases ls <;> simp [hang]

theorem printDoc_fewer {w w' : Width} {doc : List Node} (h : ∀ a ∈ doc, (a.print w').length ≤ (a.print w).length) :
    (printDoc w' doc).length ≤ (printDoc w doc).length := by
  induction doc with
  | nil => exact Nat.le_refl _
  | cons a r ih =>
    rw [printDoc, printDoc, List.length_append, List.length_append]
    have := h a (by simp)
    have := ih fun x hx => h x (by simp [hx])
    omega

theorem printItems_fewer {w w' : Width} {mark : Nat → Str} {cont : Str} {items : List (List Node)}
    (h : ∀ it ∈ items, (printDoc w' it).length ≤ (printDoc w it).length) :
    ∀ k, (printItems w' mark cont k items).length ≤ (printItems w mark cont k items).length := by
  induction items with
  | nil => exact fun _ => Nat.le_refl _
  | cons a r ih =>
    intro k
    rw [printItems, printItems, List.length_append, List.length_append, hang_length, hang_length]
    have := h a (by simp)
    have := ih (fun x hx => h x (by simp [hx])) (k + 1)
    omega

theorem print_fewer : ∀ (d : Nat) (a : Node), a.WF d → ∀ {w w' : Width}, w.le w' → a.roomy w = true →
    (a.print w').length ≤ (a.print w).length := by
  intro d
  induction d with
  | zero => exact fun a h => h.elim
  | succ d ih =>
    intro a ha w w' h hr
    have lines : ∀ {ts : List Tok}, Layable ts → (!w.nonpos) = true → (layLines w' ts).length ≤ (layLines w ts).length :=
      fun hl hp => layLines_fewer h (by simpa using hp) hl
    have items : ∀ {k : Int} {its : List (List Node)} {mark : Nat → Str} {cont : Str},
        (∀ it ∈ its, it ≠ [] ∧ (∀ a ∈ it, a.WF d ∧ a.inside = true) ∧ Flow it) → roomyItems (w.sub k) its = true →
        (printItems (w'.sub k) mark cont 0 its).length ≤ (printItems (w.sub k) mark cont 0 its).length := by
      intro k its mark cont hi hr
      refine printItems_fewer (fun it hit => printDoc_fewer fun a ha => ?_) 0
      exact ih a ((hi it hit).2.1 a ha).1 (h.sub k) (roomyDoc_mem.1 (roomyItems_mem.1 hr it hit) a ha)
    cases a with
    | underlined c ts =>
      simp only [Node.print, List.length_append, List.length_singleton, Nat.add_le_add_iff_right]
      exact lines ha.2 hr
    | par ts => exact lines ha hr
    | hard ts => simp only [Node.print, hardLast_length]; exact lines ha hr
    | quote sp inner =>
      simp only [Node.print, List.length_map]
      exact printDoc_fewer fun a hm => ih a (ha.2.1 a hm) (h.sub _) (roomyDoc_mem.1 hr a hm)
    | bullets c its => exact items ha.2.2 hr
    | numbers first its => exact items ha.2.2 hr
    | _ => exact Nat.le_refl _

theorem wide_more : ∀ (d : Nat) (a : Node), a.WF d → ∀ {w w' : Width}, w.le w' → a.wide w = true → a.wide w' = true := by
  intro d
  induction d with
  | zero => exact fun a h => h.elim
  | succ d ih =>
    intro a ha w w' h hr
    have items : ∀ {k : Int} {its : List (List Node)},
        (∀ it ∈ its, it ≠ [] ∧ (∀ a ∈ it, a.WF d ∧ a.inside = true) ∧ Flow it) → wideItems (w.sub k) its = true →
        wideItems (w'.sub k) its = true := by
      intro k its hi hr
      rw [wideItems_mem] at hr ⊢
      intro it hit
      rw [wideDoc_mem]
      exact fun a ha => ih a ((hi it hit).2.1 a ha).1 (h.sub k) (wideDoc_mem.1 (hr it hit) a ha)
    cases a with
    | rule c => exact h.ge hr
    | ref label link title =>
      simp only [Node.wide, Bool.or_eq_true] at hr ⊢
      exact hr.imp id h.ge
    | tail label link => exact h.ge hr
    | quote sp inner =>
      simp only [Node.wide] at hr ⊢
      rw [wideDoc_mem] at hr ⊢
      exact fun a hm => ih a (ha.2.1 a hm) (h.sub _) (hr a hm)
    | bullets c its => exact items ha.2.2 hr
    | numbers first its => exact items ha.2.2 hr
    | _ => rfl

/-- C114 for documents: if a text stands for a tree that fits a width, it fits every larger one, and formatted for the
larger width it has no more lines, provided that the smaller width leaves room for every paragraph. -/
theorem C114_document {text : Str} {doc : List Node} (hs : StandsFor text doc) {w w' : Width} (h : w.le w')
    (hwide : wideDoc w doc = true) (hr : roomyDoc w doc = true) : ∃ n, ∀ m, n ≤ m → ∃ y y',
      reformatMarkdownText m w text = .ok y ∧ reformatMarkdownText m w' text = .ok y' ∧
        (splitlines y').length ≤ (splitlines y).length := by
  obtain ⟨d, h1, h2⟩ := hs
  have hwide' : wideDoc w' doc = true := by
    rw [wideDoc_mem] at hwide ⊢
    exact fun a ha => wide_more d a (h2.1 a ha) h (hwide a ha)
  refine ⟨d + 1, fun m hm => ⟨_, _, C54_format d m hm w text doc h1 h2 hwide, C54_format d m hm w' text doc h1 h2 hwide', ?_⟩⟩
  by_cases hne : trimEnd doc = []
  · rw [hne]; exact Nat.le_refl _
  · cases d with
    | zero => exact h1.elim
    | succ d =>
      have h3 := wfDoc_trim h2
      rw [(print_text h3 (wideDoc_trim hwide) hne).1, (print_text h3 (wideDoc_trim hwide') hne).1]
      refine printDoc_fewer fun a ha => print_fewer (d + 1) a (h3.1 a ha) h ?_
      obtain ⟨k, e, _⟩ := trimEnd_spec doc
      exact roomyDoc_mem.1 hr a (by rw [e]; simp [ha])

/-- Without room the text is not wrapped at all, so the smaller width may give fewer lines. -/
theorem C114_room_needed : reformatMarkdownText 3 (.fin 2) c!"- a b" = .ok c!"- a b\n" ∧
    reformatMarkdownText 3 (.fin 3) c!"- a b" = .ok c!"- a\n  b\n" := ⟨by decide +kernel, by decide +kernel⟩

/-- The tree of C54's example has room in twelve columns, where it takes two more lines than in eighty. -/
theorem C114_example : StandsFor (pyJoin ['\n'] treeExample) treeExampleDoc ∧ wideDoc (.fin 12) treeExampleDoc = true ∧
    roomyDoc (.fin 12) treeExampleDoc = true ∧
    (reformatMarkdownText 5 (.fin 12) (pyJoin ['\n'] treeExample)).map (fun y => (splitlines y).length) = .ok 18 ∧
    (reformatMarkdownText 5 (.fin 80) (pyJoin ['\n'] treeExample)).map (fun y => (splitlines y).length) = .ok 16 := by
  refine ⟨⟨3, ?_, C54_example_wf⟩, by decide +kernel, by decide +kernel, by decide +kernel, by decide +kernel⟩
  rw [show splitlines (pyJoin ['\n'] treeExample) = treeExample by decide +kernel]
  exact C54_example_reads

/-- A text without a tree. -/
theorem C114_wrap_example : wrap c!"`a` ]( b.<br>c  d `" (.fin 5) = .ok c!"`a`\n]( b.\n<br>\nc d `" ∧
    wrap c!"`a` ]( b.<br>c  d `" (.fin 6) = .ok c!"`a` ](\nb.<br>\nc d `" := ⟨by decide +kernel, by decide +kernel⟩

end MF
