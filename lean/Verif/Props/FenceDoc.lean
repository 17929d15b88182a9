import Verif.Props.Extents
import Verif.Props.Prose
/-!
# Documents that are one fenced code block (C95)
-/

namespace MF

theorem reformat_single {n : Nat} {w : Width} {t : Str} {ty : Sec} {lines : List Str} {o : Str}
    (hp : parse n (splitlines t) = .ok [(ty, lines)]) (hr : reprCheck ty lines = .ok ())
    (h : fmtSection (reformatText n) w 0 ty lines = .ok o) : reformatText (n + 1) w t = .ok (o ++ ['\n']) := by
  rw [reformatText]
  simp only [reformatBody, bind, Except.bind, hp, buildFmts, hr]
  rw [if_neg (by simp)]
  simp only [fmtAll, bind, Except.bind, h, Except.mapError]
  rfl

/-- The opening line: whitespace, `k` fence characters and an information string. -/
theorem openFence_line {ws info : Str} {f : Char} {k : Nat} (hf : f = '`' ∨ f = '~') (hws : ∀ c ∈ ws, isWs c = true)
    (hk : 3 ≤ k) (hinfo : info.head? ≠ some f) :
    openFence (ws ++ List.replicate k f ++ info) = some (List.replicate k f) := by
  obtain ⟨j, rfl⟩ : ∃ j, k = j + 3 := ⟨k - 3, by omega⟩
  have hfw : isWs f = false := by rcases hf with rfl | rfl <;> decide
  have hd : (ws ++ List.replicate (j + 3) f ++ info).dropWhile isWs = List.replicate (j + 3) f ++ info := by
    rw [List.append_assoc]
    have := lstrip_append_ws ws (List.replicate (j + 3) f ++ info) hws
    rw [show (ws ++ (List.replicate (j + 3) f ++ info)).dropWhile isWs = lstrip (ws ++ (List.replicate (j + 3) f ++ info)) from rfl,
      this, List.replicate_succ, List.cons_append]
    exact lstrip_cons_of_not _ _ hfw
  have hfl : fenceLine (ws ++ List.replicate (j + 3) f ++ info) = true := by
    have ht : ((ws ++ List.replicate (j + 3) f ++ info).dropWhile isWs).take 3 = [f, f, f] := by
      rw [hd]; simp [List.replicate_succ]
    simp only [fenceLine, ht]
    rcases hf with rfl | rfl <;> rfl
  rw [fenceLine_eq] at hfl
  cases h : openFence (ws ++ List.replicate (j + 3) f ++ info) with
  | none => rw [(openFence_none _).1 h] at hfl; cases hfl
  | some F =>
    rw [openFence_run h, fenceRun, hd]
    have htw : (List.replicate (j + 3) f ++ info).takeWhile (· == f) = List.replicate (j + 3) f := by
      rw [List.takeWhile_append_of_pos (by intro c hc; simp [List.eq_of_mem_replicate hc])]
      cases info with
      | nil => simp
      | cons c r =>
        have : ¬ (c == f) = true := by
          intro h0
          exact hinfo (by rw [eq_of_beq h0]; rfl)
        rw [List.takeWhile_cons, if_neg this, List.append_nil]
    rw [show List.replicate (j + 3) f ++ info = f :: (List.replicate (j + 2) f ++ info) by
      rw [List.replicate_succ, List.cons_append]] at htw ⊢
    simp only
    rw [htw]

theorem parse_fence_all (n : Nat) {l F : Str} (ls : List Str) (hF : openFence l = some F)
    (hsplit : splitFenced (l :: ls) = .ok (l :: ls, [])) : parse (n + 1) (l :: ls) = .ok [(.fenced, l :: ls)] := by
  have hfs : isFenceStart l = true := by
    cases h : isFenceStart l with
    | true => rfl
    | false => rw [(openFence_none l).2 h] at hF; cases hF
  have hfirst : firstSection (splitters (splitQuote (n + 1))) (l :: ls) = .ok (.fenced, l :: ls, []) := by
    have key : ∀ c, firstCh l = some c → c = '`' ∨ c = '~' →
        firstSection (splitters (splitQuote (n + 1))) (l :: ls) = .ok (.fenced, l :: ls, []) := by
      intro c hc1 hc2
      obtain ⟨h1, h2, _, _, h5, _, _, _, h9⟩ := false_of_first hc1
      have hne : ∀ x ∈ c!"#>*+-", c ≠ x := by
        intro x hx e
        subst e
        rcases hc2 with rfl | rfl <;> exact absurd hx (by decide)
      unfold splitters
      rw [firstSection_skip (splitAtx_eq_nil _ (h1 (hne _ (by decide)))),
        firstSection_skip (splitBlank_eq_nil _ h9), firstSection_skip (splitQuote_unquoted n _ (h2 (hne _ (by decide)))),
        firstSection_skip (splitBullet_eq_nil _ (h5 (hne _ (by decide)) (hne _ (by decide)) (hne _ (by decide))))]
      exact firstSection_take hsplit (by simp)
    rcases isFenceStart_first hfs with h | h
    · exact key _ h (.inl rfl)
    · exact key _ h (.inr rfl)
  have := parse_of_first (n := n + 1) [(.fenced, l :: ls)] (by
    intro a b c e
    match a, e with
    | [], e =>
      cases e
      refine ⟨by simp, ?_⟩
      simpa [linesOf] using hfirst
    | [_], e => cases e
    | _ :: _ :: _, e => cases e)
  simpa [linesOf] using this

/-- A fence that only the last line can close is the whole document. -/
theorem parse_fence (n : Nat) {l F : Str} (body : List Str) (last : Str) (hF : openFence l = some F)
    (hb : ∀ x ∈ body, strip x ≠ F) : parse (n + 1) (l :: body ++ [last]) = .ok [(.fenced, l :: body ++ [last])] := by
  refine parse_fence_all n (body ++ [last]) hF ?_
  by_cases hc : strip last = F
  · exact (C14_extent l _ F hF).1 body last [] rfl hb hc
  · refine (C14_extent l _ F hF).2 ?_
    intro c hx
    rcases List.mem_append.1 hx with hx | hx
    · exact hb c hx
    · simp at hx; rw [hx]; exact hc

theorem repr_fence {ws info last : Str} {body : List Str} {f : Char} {k : Nat} (hf : f = '`' ∨ f = '~') (hk : 3 ≤ k) :
    reprCheck .fenced ((ws ++ List.replicate k f ++ info) :: body ++ [last]) = .ok () := by
  have hfw : isWs f = false := by rcases hf with rfl | rfl <;> decide
  obtain ⟨j, rfl⟩ : ∃ j, k = j + 1 := ⟨k - 1, by omega⟩
  have h1 : (strip (ws ++ List.replicate (j + 1) f ++ info)).isEmpty = false := by
    cases h : strip (ws ++ List.replicate (j + 1) f ++ info) with
    | nil =>
      have := (strip_eq_nil _).1 h f (by simp)
      rw [hfw] at this; cases this
    | cons => rfl
  simp only [reprCheck, List.cons_append]
  rw [if_neg (by simp), h1]
  rfl

/-- The fenced block that is written. -/
def fenceLines (F info : Str) (body : List Str) : List Str := (F ++ strip info) :: body.map rstrip ++ [F]

theorem fenceLines_nl {text l info last : Str} {body : List Str} {F : Str} (hs : splitlines text = l :: body ++ [last])
    (hi : ∀ c ∈ info, c ∈ l) (hF : ∀ c ∈ F, c ∈ l) : ∀ x ∈ fenceLines F info body, NoLB x := by
  have h := splitlines_noLB text
  rw [hs] at h
  have hFn : NoLB F := (h l (by simp)).of_mem hF
  intro x hx
  simp only [fenceLines, List.cons_append, List.mem_cons, List.mem_append, List.mem_map, List.not_mem_nil, or_false] at hx
  rcases hx with rfl | ⟨b, hb, rfl⟩ | rfl
  · exact hFn.append ((h l (by simp)).of_mem fun c hc => hi c (mem_of_mem_strip hc))
  · exact (h b (by simp [hb])).of_mem fun c hc => mem_of_mem_rstrip hc
  · exact hFn

/-- One pass over a document that is one fenced block. -/
theorem fence_pass (n : Nat) (w : Width) {text ws info last : Str} {body : List Str} {f : Char} {k : Nat}
    (hf : f = '`' ∨ f = '~') (hws : ∀ c ∈ ws, isWs c = true) (hk : 3 ≤ k) (hinfo : info.head? ≠ some f)
    (hs : splitlines text = (ws ++ List.replicate k f ++ info) :: body ++ [last])
    (hb : ∀ x ∈ body, strip x ≠ List.replicate k f) :
    reformatText (n + 2) w text = .ok (pyJoin ['\n'] (fenceLines (List.replicate k f) info body) ++ ['\n']) := by
  have hF := openFence_line (ws := ws) hf hws hk hinfo
  exact reformat_single (by rw [hs]; exact parse_fence n body last hF hb) (repr_fence hf hk)
    (C14_fenced_partial _ w 0 ws info last body f k hf hws (by omega) hinfo)

theorem fenceLines_rstrip {info : Str} {body : List Str} {f : Char} {k : Nat} (hf : f = '`' ∨ f = '~') (hk : 3 ≤ k) :
    rstrip (pyJoin ['\n'] (fenceLines (List.replicate k f) info body) ++ ['\n']) =
      pyJoin ['\n'] (fenceLines (List.replicate k f) info body) := by
  have hfw : isWs f = false := by rcases hf with rfl | rfl <;> decide
  obtain ⟨j, rfl⟩ : ∃ j, k = j + 1 := ⟨k - 1, by omega⟩
  rw [rstrip_append_ws _ _ (by decide), fenceLines, pyJoin_append (by simp) (by simp)]
  rw [show pyJoin ['\n'] [List.replicate (j + 1) f] = List.replicate j f ++ [f] from List.replicate_succ', ← List.append_assoc]
  exact rstrip_concat_of_not _ f hfw

/-- C95: a document that is one fenced block, whose information string does not begin with the fence character, is
accepted. The fences and the trimmed information string are kept, and of the other lines all but the last one, without
trailing whitespace: the last line is taken for the closing fence, whether it is one or not. -/
theorem C95_accepted (n : Nat) (w : Width) (text ws info last : Str) (body : List Str) (f : Char) (k : Nat)
    (hf : f = '`' ∨ f = '~') (hws : ∀ c ∈ ws, isWs c = true) (hk : 3 ≤ k) (hinfo : info.head? ≠ some f)
    (hs : splitlines text = (ws ++ List.replicate k f ++ info) :: body ++ [last])
    (hb : ∀ x ∈ body, strip x ≠ List.replicate k f) (hi : (strip info).head? ≠ some f) :
    reformatMarkdownText (n + 2) w text = .ok (pyJoin ['\n'] (fenceLines (List.replicate k f) info body) ++ ['\n']) := by
  have hnl := fenceLines_nl (F := List.replicate k f) (info := info) hs (by intro c hc; simp [hc]) (by intro c hc; simp [hc])
  have h1 := fence_pass n w hf hws hk hinfo hs hb
  have h2 := fence_pass n w (ws := []) (info := strip info) (last := List.replicate k f) (body := body.map rstrip)
    (text := pyJoin ['\n'] (fenceLines (List.replicate k f) info body) ++ ['\n']) hf (by simp) hk hi
    (by rw [splitlines_join_nl _ hnl (by simp [fenceLines])]; rfl) (by
      intro x hx
      obtain ⟨b, hb', rfl⟩ := List.mem_map.1 hx
      rw [strip_rstrip]
      exact hb b hb')
  have e : fenceLines (List.replicate k f) (strip info) (body.map rstrip) = fenceLines (List.replicate k f) info body := by
    simp only [fenceLines, strip_idem, List.map_map]
    congr 2
    apply List.map_congr_left
    intro b _
    exact rstrip_idem b
  rw [e] at h2
  simp only [reformatMarkdownText, bind, Except.bind, h1, h2]
  rw [if_neg (by simp), fenceLines_rstrip hf hk]

/-- C95: if the information string begins with the fence character, the opening fence gets longer. If no other line is
the longer fence, the document is refused. -/
theorem C95_refused (n : Nat) (w : Width) (text ws info last more : Str) (body : List Str) (f : Char) (k p : Nat)
    (hf : f = '`' ∨ f = '~') (hws : ∀ c ∈ ws, isWs c = true) (hk : 3 ≤ k) (hinfo : info.head? ≠ some f)
    (hs : splitlines text = (ws ++ List.replicate k f ++ info) :: body ++ [last])
    (hb : ∀ x ∈ body, strip x ≠ List.replicate k f) (hi : strip info = List.replicate (p + 1) f ++ more)
    (hm : more.head? ≠ some f) (hb' : ∀ x ∈ body, strip x ≠ List.replicate (k + (p + 1)) f) :
    reformatMarkdownText (n + 2) w text = .error .inconsistent := by
  have hnl := fenceLines_nl (F := List.replicate k f) (info := info) hs (by intro c hc; simp [hc]) (by intro c hc; simp [hc])
  have hopen : List.replicate k f ++ strip info = List.replicate (k + (p + 1)) f ++ more := by
    rw [hi, ← List.append_assoc, List.replicate_append_replicate]
  have h1 := fence_pass n w hf hws hk hinfo hs hb
  have hs2 : splitlines (pyJoin ['\n'] (fenceLines (List.replicate k f) info body) ++ ['\n']) =
      ([] ++ List.replicate (k + (p + 1)) f ++ more) :: body.map rstrip ++ [List.replicate k f] := by
    rw [splitlines_join_nl _ hnl (by simp [fenceLines]), fenceLines, hopen]
    rfl
  have h2 := fence_pass n w (ws := []) (info := more) (last := List.replicate k f) (body := body.map rstrip)
    (text := pyJoin ['\n'] (fenceLines (List.replicate k f) info body) ++ ['\n']) hf (by simp) (by omega) hm hs2 (by
      intro x hx
      obtain ⟨b, hb', rfl⟩ := List.mem_map.1 hx
      rw [strip_rstrip]
      exact ‹∀ x ∈ body, strip x ≠ List.replicate (k + (p + 1)) f› b hb')
  have hnl2 := fenceLines_nl (F := List.replicate (k + (p + 1)) f) (info := more) hs2 (by intro c hc; simp [hc])
    (by intro c hc; simp at hc; simp [hc])
  have hne : pyJoin ['\n'] (fenceLines (List.replicate (k + (p + 1)) f) more (body.map rstrip)) ++ ['\n'] ≠
      pyJoin ['\n'] (fenceLines (List.replicate k f) info body) ++ ['\n'] := by
    intro h
    have h := congrArg splitlines h
    rw [splitlines_join_nl _ hnl (by simp [fenceLines]), splitlines_join_nl _ hnl2 (by simp [fenceLines])] at h
    have h := congrArg (fun l => l.getLast?) h
    simp only [fenceLines, List.getLast?_concat] at h
    have h := congrArg List.length (Option.some.inj h)
    simp at h
  simp only [reformatMarkdownText, bind, Except.bind, h1, h2]
  rw [if_pos (by simpa using hne)]

/-- C95: an opening fence alone is an IndexError. -/
theorem C95_alone (n : Nat) (w : Width) (text ws info : Str) (f : Char) (k : Nat)
    (hf : f = '`' ∨ f = '~') (hws : ∀ c ∈ ws, isWs c = true) (hk : 3 ≤ k) (hinfo : info.head? ≠ some f)
    (hs : splitlines text = [ws ++ List.replicate k f ++ info]) :
    reformatMarkdownText (n + 2) w text = .error .indexError := by
  have hF := openFence_line (ws := ws) hf hws hk hinfo
  have hp := parse_fence_all n [] hF ((C14_extent _ [] _ hF).2 (by simp))
  have : reformatText (n + 2) w text = .error .indexError := by
    rw [show n + 2 = (n + 1) + 1 from rfl, reformatText]
    simp only [reformatBody, bind, Except.bind, hs, hp, buildFmts, reprCheck]
    rfl
  simp only [reformatMarkdownText, bind, Except.bind, this]

/-- The code in a fenced block: the lines in front of the closing fence `F`, all of them if there is none. -/
def codeOf (F : Str) (ls : List Str) : List Str := ls.takeWhile fun x => strip x != F

/-- C95: the code is kept, up to trailing whitespace, exactly if the block is closed; otherwise its last line is lost. -/
theorem C95_kept (n : Nat) (w : Width) (text y ws info last : Str) (body : List Str) (f : Char) (k : Nat)
    (hf : f = '`' ∨ f = '~') (hws : ∀ c ∈ ws, isWs c = true) (hk : 3 ≤ k) (hinfo : info.head? ≠ some f)
    (hs : splitlines text = (ws ++ List.replicate k f ++ info) :: body ++ [last])
    (hb : ∀ x ∈ body, strip x ≠ List.replicate k f) (hi : (strip info).head? ≠ some f)
    (hy : reformatMarkdownText (n + 2) w text = .ok y) :
    codeOf (List.replicate k f) (splitlines y).tail = body.map rstrip ∧
    (codeOf (List.replicate k f) (splitlines y).tail = (codeOf (List.replicate k f) (splitlines text).tail).map rstrip ↔
      strip last = List.replicate k f) ∧
    (strip last ≠ List.replicate k f → (codeOf (List.replicate k f) (splitlines text).tail).map rstrip =
      codeOf (List.replicate k f) (splitlines y).tail ++ [rstrip last]) := by
  have hfw : isWs f = false := by rcases hf with rfl | rfl <;> decide
  have hnl := fenceLines_nl (F := List.replicate k f) (info := info) hs (by intro c hc; simp [hc]) (by intro c hc; simp [hc])
  rw [C95_accepted n w text ws info last body f k hf hws hk hinfo hs hb hi] at hy
  cases hy
  have hcode : ∀ (b : List Str) (l : Str), (∀ x ∈ b, strip x ≠ List.replicate k f) → codeOf (List.replicate k f) (b ++ [l]) =
      if strip l = List.replicate k f then b else b ++ [l] := by
    intro b l h
    rw [codeOf, List.takeWhile_append_of_pos (by intro x hx; simpa using h x hx)]
    by_cases hl : strip l = List.replicate k f
    · simp [hl]
    · simp [hl]
  have h1 : codeOf (List.replicate k f) (splitlines (pyJoin ['\n'] (fenceLines (List.replicate k f) info body) ++ ['\n'])).tail =
      body.map rstrip := by
    rw [splitlines_join_nl _ hnl (by simp [fenceLines]), fenceLines, List.cons_append, List.tail_cons, hcode, if_pos]
    · exact strip_noWs _ (by intro c hc; rw [List.eq_of_mem_replicate hc]; exact hfw)
    · intro x hx
      obtain ⟨b, hb', rfl⟩ := List.mem_map.1 hx
      rw [strip_rstrip]
      exact hb b hb'
  rw [h1, hs, List.cons_append, List.tail_cons, hcode body last hb]
  refine ⟨rfl, ⟨fun h => ?_, fun h => by rw [if_pos h]⟩, fun h => by rw [if_neg h]; simp⟩
  refine Classical.byContradiction fun hl => ?_
  rw [if_neg hl] at h
  have := congrArg List.length h
  simp at this

/-- An unclosed block, a closed one, an information string that makes the fence longer, and one fence alone. -/
theorem C95_example :
    reformatMarkdownText 3 (.fin 80) c!"  ``` py \na `` b\n ```` \nlost" = .ok c!"```py\na `` b\n ````\n```\n" ∧
    reformatMarkdownText 3 (.fin 80) c!"~~~~\n  a  \n~~~\n  ~~~~\n" = .ok c!"~~~~\n  a\n~~~\n~~~~\n" ∧
    reformatMarkdownText 3 (.fin 80) c!"~~~ ~x\na\n~~~\n" = .error .inconsistent ∧
    reformatMarkdownText 3 (.fin 80) c!"```" = .error .indexError := by decide +kernel

/-- The condition of `C95_refused` on the other lines is needed: here the longer fence closes at the second line, and
what was one code block is two of them in the result, which is accepted. -/
theorem C95_two_blocks :
    parse 3 (splitlines c!"~~~ ~x\n~~~~\n~~~z\n~~~\n") = .ok [(.fenced, [c!"~~~ ~x", c!"~~~~", c!"~~~z", c!"~~~"])] ∧
    reformatMarkdownText 3 (.fin 80) c!"~~~ ~x\n~~~~\n~~~z\n~~~\n" = .ok c!"~~~~x\n~~~~\n~~~z\n~~~\n" ∧
    parse 3 (splitlines c!"~~~~x\n~~~~\n~~~z\n~~~\n") =
      .ok [(.fenced, [c!"~~~~x", c!"~~~~"]), (.fenced, [c!"~~~z", c!"~~~"])] := by decide +kernel

end MF
