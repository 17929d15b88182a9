import Verif.Lemmas.TreeUnique
/-!
# Trees after they were written down
-/

namespace MF

theorem settleDoc_map (w : Width) (doc : List Node) : settleDoc w doc = doc.map (·.settle w) := by
  induction doc with
  | nil => rfl
  | cons a r ih => rw [settleDoc, ih]; rfl

theorem settleItems_map (w : Width) (items : List (List Node)) : settleItems w items = items.map (settleDoc w) := by
  induction items with
  | nil => rfl
  | cons a r ih => rw [settleItems, ih]; rfl

theorem settle_kind (w : Width) (a : Node) : (a.settle w).kind = a.kind := by cases a <;> rfl

theorem settle_inside (w : Width) (a : Node) : (a.settle w).inside = a.inside := by cases a <;> rfl

theorem settle_rule {w : Width} {a : Node} {c : Char} (h : a.settle w = .rule c) : a = .rule c := by
  cases a <;> first | exact h | (simp only [Node.settle] at h; cases h) | skip

theorem settle_tailRef {w : Width} {a : Node} {label link : Str} (h : a.settle w = .tail label link) : a = .tail label link := by
  cases a <;> first | exact h | (simp only [Node.settle] at h; cases h) | skip

theorem settle_ahead (w : Width) (a : Node) : (a.settle w).ahead = a.ahead := by cases a <;> rfl

theorem settleDoc_apart (w : Width) (doc : List Node) : ∀ s, apart s (settleDoc w doc) = apart s doc := by
  induction doc with
  | nil => intro s; rfl
  | cons a doc ih =>
    intro s
    rw [settleDoc]
    cases a <;> simp only [Node.settle, apart, ih]

theorem settleDoc_trim (w : Width) (doc : List Node) : trimEnd (settleDoc w doc) = settleDoc w (trimEnd doc) := by
  induction doc with
  | nil => rfl
  | cons a r ih =>
    by_cases hab : a = .blank ∧ trimEnd r = []
    · obtain ⟨rfl, h0⟩ := hab
      have e : trimEnd (settleDoc w r) = [] := by rw [ih, h0]; rfl
      have e2 : trimEnd (.blank :: settleDoc w r) = [] := by simp [trimEnd, e]
      have e3 : trimEnd (.blank :: r) = [] := by simp [trimEnd, h0]
      rw [e3]; exact e2
    · have e1 : trimEnd (a :: r) = a :: trimEnd r := by
        rw [trimEnd]
        exact fun h1 h2 => hab ⟨h1, h2⟩
      have e2 : trimEnd (a.settle w :: settleDoc w r) = a.settle w :: trimEnd (settleDoc w r) := by
        rw [trimEnd]
        intro h1 h2
        rw [ih] at h2
        refine hab ⟨?_, ?_⟩
        · have := settle_kind w a
          rw [h1] at this
          cases a <;> first | rfl | cases this
        · cases h : trimEnd r with
          | nil => rfl
          | cons x y => rw [h, settleDoc] at h2; cases h2
      rw [e1, settleDoc, settleDoc, e2, ih]

/-- Settling twice is settling once. -/
theorem settle_idem {ts : List Tok} (h : Layable ts) (w : Width) : settle w (settle w ts) = settle w ts := by
  have h1 := (text_layLines h w).1
  have h2 := (text_layLines h1.layable w).1
  rw [layLines_settle] at h2
  exact h2.unique h1

theorem settleDoc_opn {w : Width} {doc : List Node} (h : ∀ a ∈ doc, (a.settle w).opn = a.opn) :
    opnDoc (settleDoc w doc) = opnDoc doc := by
  rcases List.eq_nil_or_concat doc with rfl | ⟨doc', a, rfl⟩
  · rfl
  · rw [List.concat_eq_append] at h ⊢
    rw [settleDoc_map, List.map_append, List.map_singleton, opnDoc_concat, opnDoc_concat]
    exact h a (by simp)

theorem printDoc_settle {w : Width} {doc : List Node} (h : ∀ a ∈ doc, (a.settle w).print w = a.print w) :
    printDoc w (settleDoc w doc) = printDoc w doc := by
  induction doc with
  | nil => rfl
  | cons a r ih =>
    rw [settleDoc, printDoc, printDoc, h a (by simp), ih fun x hx => h x (by simp [hx])]

theorem printItems_settle {w : Width} {mark : Nat → Str} {cont : Str} {items : List (List Node)}
    (h : ∀ it ∈ items, printDoc w (settleDoc w it) = printDoc w it) : ∀ k,
    printItems w mark cont k (settleItems w items) = printItems w mark cont k items := by
  induction items with
  | nil => intro k; rfl
  | cons it r ih =>
    intro k
    rw [settleItems, printItems, printItems, h it (by simp), ih (fun x hx => h x (by simp [hx]))]

/-- What settling keeps. -/
structure Kept (d : Nat) (w : Width) (a : Node) : Prop where
  wf : (a.settle w).WF d
  print : (a.settle w).print w = a.print w
  idem : (a.settle w).settle w = a.settle w
  wide : ∀ v, (a.settle w).wide v = a.wide v
  opn : (a.settle w).opn = a.opn
  soft : (a.settle w).soft = a.soft

theorem settle_before {d : Nat} {w : Width} {a b : Node} (ha : Kept d w a) (h : a.Before b) :
    (a.settle w).Before (b.settle w) := by
  constructor
  · rw [settle_kind, settle_kind]
    intro e
    refine ⟨fun e' => (h.par e).1 (settle_rule e'), (h.par e).2.imp_left ?_⟩
    rintro ⟨ts, rfl⟩
    exact ⟨_, rfl⟩
  · intro label link e
    exact h.tail label link (settle_tailRef e)
  · rw [settle_kind, settle_kind]
    intro e
    refine ⟨(h.lrd e).1, fun e' => ?_⟩
    obtain ⟨label, link, rfl⟩ := (h.lrd e).2 e'
    exact ⟨label, link, rfl⟩
  · rw [settle_kind, settle_kind, ha.opn]; exact h.quote
  · rw [settle_kind, settle_kind]; exact h.list
  · rw [settle_kind, settle_kind]; exact h.table

theorem adj_map_mem {α β : Type} {R : α → α → Prop} {S : β → β → Prop} {f : α → β} {xs : List α} (h : Adj R xs)
    (hf : ∀ x ∈ xs, ∀ y, R x y → S (f x) (f y)) : Adj S (xs.map f) := by
  induction xs with
  | nil => exact Adj.nil
  | cons x xs ih =>
    rw [List.map_cons]
    refine Adj.cons ?_ (ih h.tail fun x hx => hf x (by simp [hx]))
    intro y hy
    cases xs with
    | nil => cases hy
    | cons z zs =>
      simp only [List.map_cons, List.head?_cons, Option.some.injEq] at hy
      subst hy
      exact hf x (by simp) z h.head

/-- The same for documents. -/
structure KeptDoc (d : Nat) (w : Width) (doc : List Node) : Prop where
  wf : ∀ a ∈ settleDoc w doc, a.WF d
  flow : Flow doc → Flow (settleDoc w doc)
  print : printDoc w (settleDoc w doc) = printDoc w doc
  idem : settleDoc w (settleDoc w doc) = settleDoc w doc
  wide : ∀ v, wideDoc v (settleDoc w doc) = wideDoc v doc
  opn : opnDoc (settleDoc w doc) = opnDoc doc
  soft : softDoc (settleDoc w doc) = softDoc doc

theorem keptDoc {d : Nat} {w : Width} {doc : List Node} (h : ∀ a ∈ doc, Kept d w a) : KeptDoc d w doc := by
  refine ⟨?_, ?_, printDoc_settle fun a ha => (h a ha).print, ?_, ?_, settleDoc_opn fun a ha => (h a ha).opn, ?_⟩
  · intro a ha
    rw [settleDoc_map] at ha
    obtain ⟨x, hx, rfl⟩ := List.mem_map.1 ha
    exact (h x hx).wf
  · intro hflow
    refine ⟨?_, by rw [settleDoc_apart]; exact hflow.apart, ?_⟩
    · rw [settleDoc_map]
      exact adj_map_mem hflow.adj fun x hx y hxy => settle_before (h x hx) hxy
    · intro r b e
      rw [settleDoc_trim, settleDoc_map] at e
      obtain ⟨r', z, e1, _, e2⟩ := List.map_eq_append_iff.1 e
      obtain ⟨y, z', rfl, rfl, e4⟩ := List.map_eq_cons_iff.1 e2
      rw [List.map_eq_nil_iff.1 e4] at e1
      rw [settle_ahead]
      exact hflow.last r' y e1
  · rw [settleDoc_eq]
    intro a ha
    rw [settleDoc_map] at ha
    obtain ⟨x, hx, rfl⟩ := List.mem_map.1 ha
    exact (h x hx).idem
  · intro v
    induction doc with
    | nil => rfl
    | cons a r ih => rw [settleDoc, wideDoc, wideDoc, (h a (by simp)).wide, ih fun x hx => h x (by simp [hx])]
  · induction doc with
    | nil => rfl
    | cons a r ih => rw [settleDoc, softDoc, softDoc, (h a (by simp)).soft, ih fun x hx => h x (by simp [hx])]

theorem keptItems {d : Nat} {w : Width} {items : List (List Node)} (h : ∀ it ∈ items, KeptDoc d w it)
    (hit : ∀ it ∈ items, it ≠ [] ∧ (∀ a ∈ it, a.WF d ∧ a.inside = true) ∧ Flow it) :
    (∀ it ∈ settleItems w items, it ≠ [] ∧ (∀ a ∈ it, a.WF d ∧ a.inside = true) ∧ Flow it) ∧
    settleItems w (settleItems w items) = settleItems w items ∧
    (∀ v, wideItems v (settleItems w items) = wideItems v items) ∧ (settleItems w items).length = items.length ∧
    softItems (settleItems w items) = softItems items := by
  refine ⟨?_, ?_, ?_, by rw [settleItems_map, List.length_map], ?_⟩
  · intro it hi
    rw [settleItems_map] at hi
    obtain ⟨x, hx, rfl⟩ := List.mem_map.1 hi
    obtain ⟨h1, h2, h3⟩ := hit x hx
    refine ⟨by rw [settleDoc_map]; simpa using h1, fun a ha => ⟨(h x hx).wf a ha, ?_⟩, (h x hx).flow h3⟩
    rw [settleDoc_map] at ha
    obtain ⟨y, hy, rfl⟩ := List.mem_map.1 ha
    rw [settle_inside]; exact (h2 y hy).2
  · rw [settleItems_eq]
    intro it hi
    rw [settleItems_map] at hi
    obtain ⟨x, hx, rfl⟩ := List.mem_map.1 hi
    exact (h x hx).idem
  · intro v
    clear hit
    induction items with
    | nil => rfl
    | cons a r ih => rw [settleItems, wideItems, wideItems, (h a (by simp)).wide, ih fun x hx => h x (by simp [hx])]
  · clear hit
    induction items with
    | nil => rfl
    | cons a r ih => rw [settleItems, softItems, softItems, (h a (by simp)).soft, ih fun x hx => h x (by simp [hx])]

theorem settle_isText (w : Width) (a : Node) : (a.settle w).isText = a.isText := by cases a <;> rfl

theorem settle_slides (w : Width) (a : Node) : (a.settle w).slides = a.slides := by cases a <;> rfl

theorem slidesDoc_settle (w : Width) (doc : List Node) : slidesDoc (settleDoc w doc) = slidesDoc doc := by
  cases doc with
  | nil => rfl
  | cons a r =>
    rw [settleDoc, slidesDoc, slidesDoc, settle_isText, settleDoc_map, List.all_map]
    congr 2
    funext b
    exact settle_slides w b

theorem fitsItems_settle (w : Width) (n : Nat) (items : List (List Node)) : ∀ k,
    fitsItems n k (settleItems w items) = fitsItems n k items := by
  induction items with
  | nil => intro k; rfl
  | cons it r ih => intro k; rw [settleItems, fitsItems, fitsItems, slidesDoc_settle, ih]

theorem kept : ∀ (d : Nat) (a : Node), a.WF d → ∀ w, Kept d w a := by
  intro d
  induction d with
  | zero => intro a h; exact h.elim
  | succ d ih =>
    intro a hw w
    cases a with
    | underlined c ts =>
      obtain ⟨hc, hts⟩ := hw
      refine ⟨⟨hc, (text_layLines hts w).1.layable⟩, ?_, ?_, fun v => rfl, rfl, rfl⟩
      · simp only [Node.settle, Node.print, layLines_settle]
      · simp only [Node.settle, settle_idem hts]
    | hard ts =>
      have hts : Layable ts := hw
      refine ⟨(text_layLines hts w).1.layable, ?_, ?_, fun v => rfl, rfl, rfl⟩
      · simp only [Node.settle, Node.print, layLines_settle]
      · simp only [Node.settle, settle_idem hts]
    | par ts =>
      have hts : Layable ts := hw
      refine ⟨(text_layLines hts w).1.layable, ?_, ?_, fun v => rfl, rfl, rfl⟩
      · simp only [Node.settle, Node.print, layLines_settle]
      · simp only [Node.settle, settle_idem hts]
    | quote sp inner =>
      obtain ⟨hne, hin, hflow, hsoft, hsp⟩ := hw
      have hk : KeptDoc d (w.sub (if sp then 2 else 1)) inner := keptDoc fun a ha => ih a (hin a ha) _
      refine ⟨⟨?_, hk.wf, hk.flow hflow, by rw [hk.soft]; exact hsoft, ?_⟩, ?_, ?_, ?_, ?_, ?_⟩
      · rw [settleDoc_map]; simpa using hne
      · intro h
        obtain ⟨a, ha, hb⟩ := hsp h
        exact ⟨a.settle _, by rw [settleDoc_map]; exact List.mem_map.2 ⟨a, ha, rfl⟩, by rw [settle_kind]; exact hb⟩
      · simp only [Node.settle, Node.print, hk.print]
      · simp only [Node.settle, hk.idem]
      · intro v; simp only [Node.settle, Node.wide, hk.wide]
      · simp only [Node.settle, Node.opn, hk.opn]
      · simp only [Node.settle, Node.soft, hk.soft]
    | bullets c items =>
      obtain ⟨hc, hne, hit⟩ := hw
      have hk : ∀ it ∈ items, KeptDoc d (w.sub 2) it := fun it hi => keptDoc fun a ha => ih a ((hit it hi).2.1 a ha).1 _
      obtain ⟨k1, k2, k3, k4, k5⟩ := keptItems hk hit
      refine ⟨⟨hc, ?_, k1⟩, ?_, ?_, ?_, rfl, k5⟩
      · rw [settleItems_map]; simpa using hne
      · simp only [Node.settle, Node.print]
        exact printItems_settle (fun it hi => (hk it hi).print) _
      · simp only [Node.settle, k2]
      · intro v; simp only [Node.settle, Node.wide, k3]
    | numbers first items =>
      obtain ⟨hlen, hne, hit⟩ := hw
      have hk : ∀ it ∈ items, KeptDoc d (w.sub ((natStr (first + items.length - 1)).length + 2 : Nat)) it :=
        fun it hi => keptDoc fun a ha => ih a ((hit it hi).2.1 a ha).1 _
      obtain ⟨k1, k2, k3, k4, k5⟩ := keptItems hk hit
      refine ⟨⟨by rw [k4, fitsItems_settle]; exact hlen, ?_, k1⟩, ?_, ?_, ?_, rfl, k5⟩
      · rw [settleItems_map]; simpa using hne
      · simp only [Node.settle, Node.print, k4]
        exact printItems_settle (fun it hi => (hk it hi).print) _
      · simp only [Node.settle, k4, k2]
      · intro v; simp only [Node.settle, Node.wide, k4, k3]
    | _ => exact ⟨hw, rfl, rfl, fun v => rfl, rfl, rfl⟩

/-- Documents. -/
theorem kept_doc {d : Nat} {doc : List Node} (h : WFDoc d doc) (w : Width) : KeptDoc d w doc ∧ WFDoc d (settleDoc w doc) := by
  have := keptDoc (w := w) fun a ha => kept d a (h.1 a ha) w
  exact ⟨this, this.wf, this.flow h.2⟩

theorem settle_tail {w : Width} {ts : List Tok} (h : ∀ t ∈ ts.tail, t.gap ≠ .glue) : settle w ts = ts := by
  cases ts with
  | nil => rfl
  | cons t ts => exact settle_spaced h

mutual
/-- Without glued tokens nothing is settled. -/
theorem settle_loose (w : Width) : ∀ a : Node, a.loose → a.settle w = a
  | .underlined _ _, h => by rw [Node.settle, settle_tail h]
  | .par _, h => by rw [Node.settle, settle_tail h]
  | .hard _, h => by rw [Node.settle, settle_tail h]
  | .quote sp inner, h => by rw [Node.settle, settleDoc_loose _ inner h]
  | .bullets _ items, h => by rw [Node.settle, settleItems_loose _ items h]
  | .numbers _ items, h => by rw [Node.settle, settleItems_loose _ items h]
  | .blank, _ | .heading .., _ | .rule _, _ | .code .., _ | .indented _, _ | .ref .., _ | .tail .., _ | .table .., _ => rfl
theorem settleDoc_loose (w : Width) : ∀ doc : List Node, looseDoc doc → settleDoc w doc = doc
  | [], _ => rfl
  | a :: r, h => by rw [settleDoc, settle_loose w a h.1, settleDoc_loose w r h.2]
theorem settleItems_loose (w : Width) : ∀ items : List (List Node), looseItems items → settleItems w items = items
  | [], _ => rfl
  | it :: r, h => by rw [settleItems, settleDoc_loose w it h.1, settleItems_loose w r h.2]
end

end MF
