import Verif.Proofs.CostStep

/-!
# C64: the work of parsing

Without the two repairs that take up a finished text again the work is at most linear in the length of the
text, for accepted and rejected texts alike; with them it is quadratic.
-/

namespace Rphtml

/-! ## When a finished text is current -/

/-- Where a finished text can be the current node between two constructs. -/
structure NoText (d : Doc) : Prop where
  wait : d.handle = .wait → d.cur.nodeType = .text → d.opts.autoFixUnclosedTag = true ∧ d.opts.autoFixUnexpectedEndtag = true
  endTag : d.handle = .tagEnd → d.cur.prev ≠ none → d.opts.autoFixUnclosedTag = true

theorem NoText.idle {d : Doc} (h1 : d.handle ≠ .wait) (h2 : d.handle ≠ .tagEnd) : NoText d :=
  ⟨fun h => absurd h h1, fun h => absurd h h2⟩

theorem NoText.other {d : Doc} (h1 : d.cur.nodeType ≠ .text) (h2 : d.handle ≠ .tagEnd) : NoText d :=
  ⟨fun _ h => absurd h h1, fun h => absurd h h2⟩

theorem NoText.step {d d' : Doc} {c : Char} (hd : Ctl d) (h : NoText d) (hs : Step d c d') : NoText d' := by
  have hok := hd.hs
  unfold HandleOk at hok
  cases hs with
  | lt hh hc => exact NoText.idle (by simp) (by simp)
  | textResume hh hc hf ht w hw => exact NoText.idle (by simp) (by simp)
  | textStart hh hc hf p hp => exact NoText.idle (by simp) (by simp)
  | textMore hh hc => exact NoText.idle (by simp [hh]) (by simp [hh])
  | textEnd hh hc => exact NoText.idle (by simp [Doc.endText]) (by simp [Doc.endText])
  | tagOpen hh hc p hp => exact NoText.idle (by simp) (by simp)
  | endOpen hh hc =>
    refine ⟨fun h => (by cases h), fun _ h => ?_⟩
    simp only [Doc.cur, Heap.push_cell, if_true] at h
    cases hx : d.opts.autoFixUnclosedTag with
    | true => rfl
    | false => rw [hx] at h; simp at h
  | bang hh hc => exact NoText.idle (by simp) (by simp)
  | ltExtend hh hf hc ht w hw d1 h1 => subst h1; split <;> exact NoText.idle (by simp [Doc.endText]) (by simp [Doc.endText])
  | ltNew hh hf hc ht p hp d1 h1 => subst h1; split <;> exact NoText.idle (by simp [Doc.endText]) (by simp [Doc.endText])
  | exclFirst hh hdet D hD => exact NoText.idle (by simp [hh]) (by simp [hh])
  | exclMore hh D hdet hl hc => exact NoText.idle (by simp [hh]) (by simp [hh])
  | commentOpen hh hdet hl hc p hp => exact NoText.idle (by simp) (by simp)
  | cdataOpen hh hdet hl hc p hp => exact NoText.idle (by simp) (by simp)
  | doctypeOpen hh hdet hl hc p hp => exact NoText.idle (by simp) (by simp)
  | commentMore hh hc => exact NoText.idle (by simp [hh]) (by simp [hh])
  | commentClose hh hc b hb hp =>
    simp only [hh] at hok
    refine NoText.other ?_ (by simp)
    unfold Doc.cur at hok ⊢
    simp only [Heap.upd_cell_self]
    rcases hok.2 with ⟨_, _, h⟩ | ⟨_, _, h⟩ <;> rw [h] <;> simp
  | doctypeName hh hc => exact NoText.idle (by simp [Doc.putTag]) (by simp [Doc.putTag])
  | nameMore hh hc => exact NoText.idle (by simp [hh]) (by simp [hh])
  | nameEnd hh hc => refine NoText.idle ?_ ?_ <;> (simp only [Doc.putTag]; split <;> simp)
  | nameClose hh hc m hm =>
    simp only [hh] at hok
    refine NoText.other ?_ (by rw [closeTag_handle]; split <;> simp)
    unfold Doc.cur
    rw [closeTag_heap, closeTag_current, putTag_current, putTag_curcell]
    simp only
    rw [hok.2.2.1]; simp
  | tagMore hh m hm t id ht =>
    have := (tagChar_cont (hd.inTag hh hm).1 ht).2.2
    refine NoText.idle ?_ ?_ <;> (intro h; simp only [Doc.putTag] at h; rw [h] at this; cases this)
  | tagClose hh m hm m' pc mark id ht =>
    refine NoText.other ?_ (by rw [closeTag_handle]; split <;> simp)
    unfold Doc.cur
    rw [closeTag_heap, closeTag_current, putTag_current, putTag_curcell]
    simp only
    rcases (hd.inTag hh hm).2.2.2 with h | h
    · rw [h.2.1]; simp
    · rw [h.2.1]; simp
  | tagSelf hh hc m hm ha =>
    refine NoText.other ?_ (by simp)
    unfold Doc.cur
    simp only [Heap.upd_cell_self]
    rcases (hd.inTag (by rw [hh]; rfl) hm).2.2.2 with h | h
    · have := h.2.1; unfold Doc.cur at this; rw [this]; simp
    · have := h.2.1; unfold Doc.cur at this; rw [this]; simp
  | endMore hh hc => exact ⟨fun h => (by rw [hh] at h; cases h), h.endTag⟩
  | endMatch hh hc t m hm =>
    simp only [hh] at hok
    refine NoText.other ?_ (by simp)
    have hne : d.current ≠ t := by
      intro e
      have h1 := hd.chainTag t (List.mem_of_mem_head? hm.2.1)
      have h2 := hok.2.2.1
      unfold Doc.cur at h2
      rw [e] at h2
      by_cases h0 : t = 0
      · have := (hd.rootTy t (by rw [h0]; exact hd.sizePos)).2 h0; rw [this] at h2; cases h2
      · rw [h1 h0] at h2; cases h2
    unfold Doc.cur Doc.endHeap
    simp only [Heap.upd_cell_self]
    rw [markSpaces_cell]
    have h2 := hok.2.2.1
    unfold Doc.cur at h2
    split <;> simp [Heap.upd_cell_ne _ _ hne, h2]
  | endStray hh hc hf hm =>
    simp only [hh] at hok
    refine ⟨fun _ ht => ?_, fun h => (by cases h)⟩
    refine ⟨?_, hf⟩
    cases hx : d.cur.prev with
    | some p => exact h.endTag hh (by rw [hx]; simp)
    | none =>
      unfold Doc.cur at hx
      simp only [Doc.cur, hx, Option.getD_none] at ht
      have h2 := hok.2.2.1
      unfold Doc.cur at h2
      rw [h2] at ht; cases ht
  | rawMore hh hc => exact NoText.idle (by simp [hh]) (by simp [hh])
  | rawClose hh hc e he n hn =>
    simp only [hh] at hok
    refine NoText.other ?_ (by simp)
    unfold Doc.cur Doc.rawHeap
    simp only [Heap.upd_cell_self]
    rw [Heap.push_cell, if_neg (by have := hd.curLt; omega)]
    have h2 := hok.1
    unfold Doc.cur at h2
    rw [h2]; simp

theorem Reach.noText {o : ParseOptions} {s : Str} {d : Doc} (h : Reach o s d) : NoText d := by
  induction h with
  | init => exact NoText.other (by simp [Doc.new, Doc.cur, Cell.new]) (by simp [Doc.new])
  | step hr hs ih => have := ih.step hr.ctl hs; exact ⟨this.wait, this.endTag⟩

/-! ## The length of the texts -/

/-- How many characters the content of a node has. -/
def Cell.held (c : Cell) : Nat := (c.content.getD []).length

/-- No content and no unfinished token is longer than `n`. -/
structure Within (n : Nat) (d : Doc) : Prop where
  prev : d.prevChars.length ≤ n
  cells : ∀ i, (d.heap.cell i).held ≤ n

theorem held_upd {h : Heap} {n : Nat} (hc : ∀ i, (h.cell i).held ≤ n) (i : NodeId) (f : Cell → Cell)
    (hf : (f (h.cell i)).held ≤ n) : ∀ j, ((h.upd i f).cell j).held ≤ n := by
  intro j
  rw [Heap.upd_cell]
  split
  · rename_i e; subst e; exact hf
  · exact hc j

theorem held_push {h : Heap} {n : Nat} (hc : ∀ i, (h.cell i).held ≤ n) (x : Cell) (hx : x.held ≤ n) :
    ∀ j, ((h.push x).cell j).held ≤ n := by
  intro j
  rw [Heap.push_cell]
  split
  · exact hx
  · exact hc j

theorem held_mark {h : Heap} {n : Nat} (hc : ∀ i, (h.cell i).held ≤ n) (o : Option NodeId) :
    ∀ j, ((h.markSpaces o).cell j).held ≤ n := by
  intro j
  rw [markSpaces_cell]
  split
  · exact hc j
  · exact hc j

theorem held_child {d : Doc} {n : Nat} (hc : ∀ i, (d.heap.cell i).held ≤ n) (p : NodeId) (x : Cell) (hx : x.held ≤ n) :
    ∀ j, ((d.addChild p x).heap.cell j).held ≤ n := by
  unfold Doc.addChild
  dsimp only
  have h1 := held_push hc { x with index := ((d.heap.cell p).childs.getD []).length, parent := some p, root := some d.root } hx
  exact held_upd h1 _ _ (h1 p)

theorem Within.step {d d' : Doc} {c : Char} {n : Nat} (hd : Ctl d) (h : Within n d) (hs : Step d c d') : Within (n + 5) d' := by
  obtain ⟨hp, hc0⟩ := h
  have hc5 : ∀ i, (d.heap.cell i).held ≤ n + 5 := fun i => Nat.le_trans (hc0 i) (by omega)
  have hcur : d.cur.held ≤ n + 5 := hc5 d.current
  have hput : ∀ t id, ∀ i, ((d.putTag t id).heap.cell i).held ≤ n + 5 := by
    intro t id
    unfold Doc.putTag
    dsimp only
    exact held_upd hc5 _ _ hcur
  have hsome : ∀ w, d.cur.content = some w → w.length ≤ n := by
    intro w hw
    have := hc0 d.current
    unfold Doc.cur at hw
    unfold Cell.held at this
    rw [hw] at this
    exact this
  cases hs with
  | lt hh hc => exact ⟨by simp only; omega, hc5⟩
  | textResume hh hc hf ht w hw =>
    have := hsome w hw
    refine ⟨?_, ?_⟩
    · simp only [List.length_append, List.length_cons, List.length_nil]; omega
    · dsimp only
      refine held_upd hc5 _ _ ?_
      simp [Cell.held]
  | textStart hh hc hf p hp' =>
    refine ⟨?_, ?_⟩
    · simp
    · dsimp only
      exact held_child hc5 _ _ (by simp [Cell.held, Cell.new])
  | textMore hh hc =>
    refine ⟨?_, hc5⟩
    simp only [List.length_append, List.length_cons, List.length_nil]; omega
  | textEnd hh hc =>
    refine ⟨?_, ?_⟩
    · simp [Doc.endText]
    · unfold Doc.endText
      dsimp only
      refine held_upd hc5 _ _ ?_
      simp [Cell.held]; omega
  | tagOpen hh hc p hp' =>
    refine ⟨?_, ?_⟩
    · simp
    · dsimp only
      exact held_mark (held_child hc5 _ _ (by simp [Cell.held, Cell.new])) _
  | endOpen hh hc =>
    refine ⟨?_, ?_⟩
    · dsimp only; omega
    · dsimp only
      refine held_push hc5 _ ?_
      simp [Cell.held, Cell.new]
  | bang hh hc => exact ⟨by dsimp only; omega, hc5⟩
  | ltExtend hh hf hc ht w hw d1 h1 =>
    have := hsome w hw
    have h2 : ∀ i, (d1.heap.cell i).held ≤ n + 5 := by
      subst h1
      dsimp only
      refine held_upd hc5 _ _ ?_
      simp [Cell.held]
    have h3 : d1.prevChars.length ≤ n + 5 := by
      subst h1
      dsimp only
      split <;> simp <;> omega
    split
    · refine ⟨?_, ?_⟩
      · simp [Doc.endText]
      · unfold Doc.endText
        dsimp only
        refine held_upd h2 _ _ ?_
        simp [Cell.held]; omega
    · exact ⟨h3, h2⟩
  | ltNew hh hf hc ht p hp' d1 h1 =>
    have h2 : ∀ i, (d1.heap.cell i).held ≤ n + 5 := by
      subst h1
      dsimp only
      have h4 := held_push hc5 { Cell.new .text d.memPosition with index := ((d.heap.cell p).childs.getD []).length }
        (by simp [Cell.held, Cell.new])
      exact held_upd h4 _ _ (h4 p)
    have h3 : d1.prevChars.length ≤ 5 := by subst h1; dsimp only; split <;> simp
    split
    · refine ⟨?_, ?_⟩
      · simp [Doc.endText]
      · unfold Doc.endText
        dsimp only
        refine held_upd h2 _ _ ?_
        simp [Cell.held]; omega
    · exact ⟨by omega, h2⟩
  | exclFirst hh hdet D hD => exact ⟨by simp, hc5⟩
  | exclMore hh D hdet hl hc =>
    refine ⟨?_, hc5⟩
    simp only [List.length_append, List.length_cons, List.length_nil]; omega
  | commentOpen hh hdet hl hc p hp' =>
    refine ⟨?_, ?_⟩
    · simp
    · dsimp only
      exact held_mark (held_child hc5 _ _ (by simp [Cell.held, Cell.new])) _
  | cdataOpen hh hdet hl hc p hp' =>
    refine ⟨?_, ?_⟩
    · simp
    · dsimp only
      exact held_mark (held_child hc5 _ _ (by simp [Cell.held, Cell.new])) _
  | doctypeOpen hh hdet hl hc p hp' =>
    refine ⟨?_, ?_⟩
    · simp only [List.length_append, List.length_cons, List.length_nil]; omega
    · dsimp only
      exact held_mark (held_child hc5 _ _ (by simp [Cell.held, Cell.new])) _
  | commentMore hh hc =>
    refine ⟨?_, hc5⟩
    simp only [List.length_append, List.length_cons, List.length_nil]; omega
  | commentClose hh hc b hb hp' =>
    have : b.length ≤ n := by
      rw [hp'] at hp
      simp only [List.length_append, List.length_cons, List.length_nil] at hp
      omega
    refine ⟨?_, ?_⟩
    · simp
    · dsimp only
      refine held_upd hc5 _ _ ?_
      simp [Cell.held]; omega
  | doctypeName hh hc => exact ⟨by simp [Doc.putTag], hput _ _⟩
  | nameMore hh hc =>
    refine ⟨?_, hc5⟩
    simp only [List.length_append, List.length_cons, List.length_nil]; omega
  | nameEnd hh hc => exact ⟨by simp [Doc.putTag], hput _ _⟩
  | nameClose hh hc m hm =>
    refine ⟨?_, ?_⟩
    · rw [closeTag_prevChars]; simp [Doc.putTag]
    · rw [closeTag_heap]; exact hput _ _
  | tagMore hh m hm t id ht =>
    refine ⟨?_, hput _ _⟩
    have hp' : (d.putTag t id).prevChars = t.pc := rfl
    rw [hp']
    rcases tagMore_cost hm hh ht with ⟨h2 | h2, _⟩ | ⟨h2, _⟩ <;> rw [h2] <;> simp <;> omega
  | tagClose hh m hm m' pc mark id ht =>
    obtain ⟨_, rfl, _⟩ := tagChar_close (hd.inTag hh hm).1 ht
    refine ⟨?_, ?_⟩
    · rw [closeTag_prevChars]; simp [Doc.putTag]
    · rw [closeTag_heap]; exact hput _ _
  | tagSelf hh hc m hm ha =>
    refine ⟨?_, ?_⟩
    · dsimp only; omega
    · dsimp only
      exact held_upd hc5 _ _ hcur
  | endMore hh hc =>
    refine ⟨?_, hc5⟩
    simp only [List.length_append, List.length_cons, List.length_nil]; omega
  | endMatch hh hc t m hm =>
    refine ⟨?_, ?_⟩
    · simp
    · dsimp only
      unfold Doc.endHeap
      refine held_upd (held_mark (held_upd hc5 _ _ ?_) _) _ _ ?_
      · exact hc5 t
      · simp [Cell.held]; omega
  | endStray hh hc hf hm => exact ⟨by simp, hc5⟩
  | rawMore hh hc =>
    refine ⟨?_, hc5⟩
    simp only [List.length_append, List.length_cons, List.length_nil]; omega
  | rawClose hh hc e he n' hn =>
    refine ⟨?_, ?_⟩
    · simp
    · dsimp only
      unfold Doc.rawHeap
      refine held_upd (held_push hc5 _ ?_) _ _ ?_
      · simp [Cell.held]; omega
      · simp [Cell.held]; omega

theorem Reach.within {o : ParseOptions} {s : Str} {d : Doc} (h : Reach o s d) : Within (5 * s.length) d := by
  induction h with
  | init => exact ⟨by simp [Doc.new], fun i => by simp only [Doc.new]; split <;> exact Nat.zero_le _⟩
  | step hr hs ih =>
    have := ih.step hr.ctl hs
    simp only [List.length_append, List.length_cons, List.length_nil, Nat.mul_add]
    exact ⟨this.prev, this.cells⟩

/-! ## The bounds -/

/-- C64, the common case: the work of parsing any text, accepted or not, is linear. -/
theorem c64_linear (s : Str) (o : ParseOptions) (h1 : o.autoFixUnescapedLt = false)
    (h2 : o.autoFixUnexpectedEndtag = false ∨ o.autoFixUnclosedTag = false) : parseWork s o ≤ 401 * (s.length + 1) := by
  have h := run_cost (ctx := s) (R := 0) s [] (Doc.new o) Reach.init (fun s' d' hr _ => by
    unfold resumed
    split
    · rename_i hx
      rcases hx with ⟨hh, hf, ht⟩ | ⟨hh, hf⟩
      · have := hr.noText.wait hh ht
        rw [hr.opts] at this
        rcases h2 with h2 | h2
        · rw [h2] at this; cases this.2
        · rw [h2] at this; cases this.1
      · rw [hr.opts, h1] at hf; cases hf
    · exact Nat.le_refl _)
  have hp : potential (Doc.new o) = 1 := rfl
  unfold parseWork
  omega

/-- C64, with every option: the work is at most quadratic. -/
theorem c64_quadratic (s : Str) (o : ParseOptions) : parseWork s o ≤ 401 * (s.length + 1) * (s.length + 1) := by
  have h := run_cost (ctx := s) (R := 5 * s.length) s [] (Doc.new o) Reach.init (fun s' d' hr hl => by
    have hw := hr.within.cells d'.current
    simp only [List.length_nil, Nat.zero_add] at hl
    unfold resumed
    split
    · exact Nat.le_trans hw (Nat.mul_le_mul_left 5 hl)
    · omega)
  have hp : potential (Doc.new o) = 1 := rfl
  unfold parseWork
  rw [hp] at h
  have e1 : (400 + 32 * (5 * s.length)) * s.length = 400 * s.length + 160 * (s.length * s.length) := by
    rw [Nat.add_mul, ← Nat.mul_assoc, Nat.mul_assoc]
  have e2 : 401 * (s.length + 1) * (s.length + 1) = 401 * (s.length * s.length) + 802 * s.length + 401 := by
    rw [Nat.mul_assoc, Nat.add_mul, Nat.mul_add, Nat.mul_add]
    omega
  omega

/-! ## Slow texts -/

/-- `k` unescaped `<` in one text. -/
def manyLt (k : Nat) : Str := 'a' :: (List.replicate k ['<', '1']).flatten

/-- `k` stray end tags in one text. -/
def manyEnds (k : Nat) : Str := 'a' :: (List.replicate k ['<', '/', 'b', '>', 'a']).flatten

theorem text_lt {d : Doc} (hh : d.handle = .text) (ht : d.cur.nodeType = .text) (ctx : Str) :
    ∃ d1, d.next '<' ctx = .ok d1 ∧ d1.handle = .unkownTag ∧ d1.cur.nodeType = .text ∧ d1.cur.content = some d.prevChars ∧
      d1.opts = d.opts ∧ d1.chain = d.chain ∧ d1.current = d.current ∧ d1.heap.size = d.heap.size ∧ d1.prevChars = [] := by
  have h : d.next '<' ctx = .ok { ({ (d.cleanChars.modCur fun n => { n with content := some d.prevChars }) with checkTextnode := if d.repeatWhitespace then some d.current else none, memPosition := d.position }.setTagEndInfo.setCodeIn .unkownTag) with position := d.position + 1 } := by
    unfold Doc.next runHandle
    rw [hh]
    rfl
  refine ⟨_, h, rfl, ?_, ?_, rfl, rfl, rfl, rfl, rfl⟩
  · simp only [Doc.setCodeIn, Doc.setTagEndInfo, Doc.modCur, Doc.cleanChars, Doc.cur, Heap.upd_cell, if_true]
    exact ht
  · simp only [Doc.setCodeIn, Doc.setTagEndInfo, Doc.modCur, Doc.cleanChars, Doc.cur, Heap.upd_cell, if_true]

theorem lt_one {d : Doc} (hh : d.handle = .unkownTag) (ht : d.cur.nodeType = .text) (w : Str) (hw : d.cur.content = some w)
    (ho : d.opts.autoFixUnescapedLt = true) (ctx : Str) :
    ∃ d1, d.next '1' ctx = .ok d1 ∧ d1.handle = .text ∧ d1.cur.nodeType = .text ∧ d1.prevChars.length = w.length + 5 ∧
      d1.opts = d.opts := by
  have h : d.next '1' ctx = .ok { d with prevChars := w ++ ['&', 'l', 't', ';', '1'], heap := d.heap.upd d.current fun n => { n with content := some [] }, repeatWhitespace := false, codeIn := .textNode, handle := .text, position := d.position + 1 } := by
    unfold Doc.next runHandle
    rw [hh]
    simp only
    unfold parseUnkownTag
    have h1 : (isLower '1' || isUpper '1') = false := by decide
    rw [h1, ho]
    simp only [Bool.false_eq_true, if_false, Bool.not_true]
    have h2 : ¬ ('1' = '/') := by decide
    have h3 : ¬ ('1' = '!') := by decide
    rw [if_neg h2, if_neg h3]
    unfold fixUnescapedLt
    simp only [ht, hw]
    rfl
  refine ⟨_, h, rfl, ?_, by simp, rfl⟩
  simp only [Doc.cur, Heap.upd_cell, if_true]
  exact ht

theorem lt_slow (ctx rest : Str) : ∀ (k : Nat) (d : Doc), d.handle = .text → d.cur.nodeType = .text → d.opts.autoFixUnescapedLt = true →
    2 * (k * d.prevChars.length) + 5 * (k * k) ≤ runWork d ctx ((List.replicate k ['<', '1']).flatten ++ rest)
  | 0, d, _, _, _ => by simp
  | k + 1, d, hh, ht, ho => by
    obtain ⟨d1, h1, hh1, ht1, hw1, ho1, _⟩ := text_lt hh ht ctx
    rw [← ho1] at ho
    obtain ⟨d2, h2, hh2, ht2, hp2, ho2⟩ := lt_one hh1 ht1 _ hw1 ho ctx
    have hs1 : stepWork d '<' = d.prevChars.length := by unfold stepWork; rw [hh]; simp
    have hs2 : stepWork d1 '1' = d.prevChars.length + 5 := by
      unfold stepWork
      rw [hh1]
      have h1 : (isLower '1' || isUpper '1') = false := by decide
      simp only [h1, ho]
      unfold ltWork
      rw [ht1, hw1]
      simp
    have ih := lt_slow ctx rest k d2 hh2 ht2 (by rw [ho2]; exact ho)
    rw [List.replicate_succ, List.flatten_cons]
    have hr : runWork d ctx (['<', '1'] ++ (List.replicate k ['<', '1']).flatten ++ rest) = 1 + d.prevChars.length +
        (1 + (d.prevChars.length + 5) + runWork d2 ctx ((List.replicate k ['<', '1']).flatten ++ rest)) := by
      simp only [List.cons_append, List.nil_append, runWork, h1, h2, hs1, hs2]
    rw [hr]
    rw [hp2, Nat.mul_add] at ih
    have e1 : (k + 1) * d.prevChars.length = k * d.prevChars.length + d.prevChars.length := Nat.succ_mul _ _
    have e2 : (k + 1) * (k + 1) = k * k + 2 * k + 1 := by rw [Nat.succ_mul, Nat.mul_succ]; omega
    rw [e1, e2]
    omega

/-- A stray end tag and the letter behind it. -/
theorem stray_round {d : Doc} (hh : d.handle = .text) (ht : d.cur.nodeType = .text) (ho1 : d.opts.autoFixUnexpectedEndtag = true)
    (ho2 : d.opts.autoFixUnclosedTag = true) (hc : d.chain.length = 1) (hl : d.current < d.heap.size) (ctx : Str) :
    ∃ d1 d2 d3 d4 d5, d.next '<' ctx = .ok d1 ∧ d1.next '/' ctx = .ok d2 ∧ d2.next 'b' ctx = .ok d3 ∧ d3.next '>' ctx = .ok d4 ∧
      d4.next 'a' ctx = .ok d5 ∧ stepWork d '<' = d.prevChars.length ∧ stepWork d4 'a' = d.prevChars.length + 1 ∧
      d5.handle = .text ∧ d5.cur.nodeType = .text ∧ d5.opts = d.opts ∧ d5.chain = d.chain ∧ d5.current < d5.heap.size ∧
      d5.prevChars.length = d.prevChars.length + 1 := by
  obtain ⟨d1, h1, hh1, ht1, hw1, hq1, hc1, hl1, hz1, hp1⟩ := text_lt hh ht ctx
  have h2 : d1.next '/' ctx = .ok { d1 with heap := (d1.heap.push (Cell.new .tagEnd d1.memPosition)).upd d1.heap.size fun n => { n with prev := some d1.current }, current := d1.heap.size, codeIn := .tagEnd, handle := .tagEnd, position := d1.position + 1 } := by
    unfold Doc.next runHandle
    rw [hh1]
    simp only
    unfold parseUnkownTag
    have h1 : (isLower '/' || isUpper '/') = false := by decide
    have ho : d1.opts.autoFixUnclosedTag = true := by rw [hq1]; exact ho2
    rw [h1, ho]
    rfl
  generalize hd2 : ({ d1 with heap := (d1.heap.push (Cell.new .tagEnd d1.memPosition)).upd d1.heap.size fun n => { n with prev := some d1.current }, current := d1.heap.size, codeIn := .tagEnd, handle := .tagEnd, position := d1.position + 1 } : Doc) = d2 at h2
  have h3 : d2.next 'b' ctx = .ok { d2 with prevChars := ['b'], position := d2.position + 1 } := by
    subst hd2
    unfold Doc.next runHandle
    simp only
    unfold parseTagEnd
    have h1 : ¬ ('b' = '>') := by decide
    rw [if_neg h1]
    simp only [Doc.pushChar, hp1]
    rfl
  have h4 : ({ d2 with prevChars := ['b'], position := d2.position + 1 } : Doc).next '>' ctx = .ok { d2 with current := d1.current, prevChars := [], codeIn := .unkown, handle := .wait, position := d2.position + 1 + 1 } := by
    subst hd2
    unfold Doc.next runHandle
    simp only
    unfold parseTagEnd
    have h1 : ¬ (d1.chain.length > 1) := by rw [hc1, hc]; decide
    rw [if_pos rfl]
    simp only [if_neg h1, hq1, ho1, Doc.cur, Heap.upd_cell, if_true, Bool.not_true, Bool.false_eq_true, if_false]
    rfl
  have hcell : d2.heap.cell d1.current = d1.cur := by
    subst hd2
    simp only [Heap.upd_cell, Heap.push_cell]
    have : d1.current ≠ d1.heap.size := by omega
    rw [if_neg this, if_neg this]
    rfl
  have h5 : ({ d2 with current := d1.current, prevChars := [], codeIn := .unkown, handle := .wait, position := d2.position + 1 + 1 } : Doc).next 'a' ctx = .ok { d2 with current := d1.current, prevChars := d.prevChars ++ ['a'], heap := d2.heap.upd d1.current fun n => { n with content := some [] }, codeIn := .textNode, handle := .text, repeatWhitespace := false, position := d2.position + 1 + 1 + 1 } := by
    unfold Doc.next runHandle
    simp only
    unfold parseWait
    have h1 : ¬ ('a' = '<') := by decide
    have ho : d2.opts.autoFixUnexpectedEndtag = true := by subst hd2; rw [hq1]; exact ho1
    rw [if_neg h1]
    simp only [Doc.cur, hcell, ho]
    unfold Doc.cur at ht1 hw1
    simp only [ht1, hw1]
    rfl
  refine ⟨d1, d2, _, _, _, h1, h2, h3, h4, h5, ?_, ?_, rfl, ?_, ?_, ?_, ?_, ?_⟩
  · unfold stepWork; rw [hh]; simp
  · have ho : d2.opts.autoFixUnexpectedEndtag = true := by subst hd2; rw [hq1]; exact ho1
    unfold stepWork
    have h1 : ¬ ('a' = '<') := by decide
    simp only [if_neg h1, Doc.cur, hcell, ho]
    unfold Doc.cur at ht1 hw1
    simp only [ht1, hw1]
    simp
  · simp only [Doc.cur, Heap.upd_cell, if_true, hcell]
    exact ht1
  · subst hd2; exact hq1
  · subst hd2; exact hc1
  · subst hd2; simp only [Heap.upd_size, Heap.push_size]; omega
  · simp

theorem stray_slow (ctx rest : Str) : ∀ (k : Nat) (d : Doc), d.handle = .text → d.cur.nodeType = .text →
    d.opts.autoFixUnexpectedEndtag = true → d.opts.autoFixUnclosedTag = true → d.chain.length = 1 → d.current < d.heap.size →
    2 * (k * d.prevChars.length) + k * k ≤ runWork d ctx ((List.replicate k ['<', '/', 'b', '>', 'a']).flatten ++ rest)
  | 0, d, _, _, _, _, _, _ => by simp
  | k + 1, d, hh, ht, ho1, ho2, hc, hl => by
    obtain ⟨d1, d2, d3, d4, d5, h1, h2, h3, h4, h5, hs1, hs5, hh5, ht5, hq5, hc5, hl5, hp5⟩ := stray_round hh ht ho1 ho2 hc hl ctx
    have ih := stray_slow ctx rest k d5 hh5 ht5 (by rw [hq5]; exact ho1) (by rw [hq5]; exact ho2) (by rw [hc5]; exact hc) hl5
    rw [List.replicate_succ, List.flatten_cons]
    have hr : runWork d ctx (['<', '/', 'b', '>', 'a'] ++ (List.replicate k ['<', '/', 'b', '>', 'a']).flatten ++ rest) =
        1 + d.prevChars.length + (1 + stepWork d1 '/' + (1 + stepWork d2 'b' + (1 + stepWork d3 '>' +
          (1 + (d.prevChars.length + 1) + runWork d5 ctx ((List.replicate k ['<', '/', 'b', '>', 'a']).flatten ++ rest))))) := by
      simp only [List.cons_append, List.nil_append, runWork, h1, h2, h3, h4, h5, hs1, hs5]
    rw [hr]
    rw [hp5, Nat.mul_add] at ih
    have e1 : (k + 1) * d.prevChars.length = k * d.prevChars.length + d.prevChars.length := Nat.succ_mul _ _
    have e2 : (k + 1) * (k + 1) = k * k + 2 * k + 1 := by rw [Nat.succ_mul, Nat.mul_succ]; omega
    rw [e1, e2]
    omega

/-- The first character of both texts. -/
theorem first_a (o : ParseOptions) (ctx : Str) :
    ∃ d, (Doc.new o).next 'a' ctx = .ok d ∧ d.handle = .text ∧ d.cur.nodeType = .text ∧ d.opts = o ∧ d.chain.length = 1 ∧
      d.current < d.heap.size := by
  refine ⟨{ (Doc.new o).addChild 0 (Cell.new .text 0) with prevChars := ['a'], repeatWhitespace := false, codeIn := .textNode, handle := .text, position := 1 }, ?_, rfl, ?_, rfl, ?_, ?_⟩
  · unfold Doc.next runHandle
    show (do let d ← parseWait (Doc.new o) 'a'; Res.ok { d with position := d.position + 1 }) = _
    unfold parseWait
    have h1 : ¬ ('a' = '<') := by decide
    rw [if_neg h1]
    have h2 : ((Doc.new o).opts.autoFixUnexpectedEndtag && ((Doc.new o).cur.nodeType = .text || (Doc.new o).cur.nodeType = .spacesBetweenTag)) = false := by
      have : (Doc.new o).cur.nodeType = .abstractRoot := rfl
      rw [this]; simp
    rw [if_neg (by rw [h2]; decide)]
    rfl
  · rfl
  · rfl
  · exact Nat.lt_succ_self 1

/-- C64, texts with unescaped `<`: the repair that takes the text up again makes the work quadratic. -/
theorem c64_slow_lt (o : ParseOptions) (h : o.autoFixUnescapedLt = true) (k : Nat) :
    (manyLt k).length = 2 * k + 1 ∧ 5 * (k * k) ≤ parseWork (manyLt k) o := by
  refine ⟨?_, ?_⟩
  · simp [manyLt, Nat.mul_comm]
  · obtain ⟨d, h1, hh, ht, ho, _⟩ := first_a o (manyLt k)
    have := lt_slow (manyLt k) [] k d hh ht (by rw [ho]; exact h)
    rw [List.append_nil] at this
    unfold parseWork
    generalize hx : manyLt k = ctx at *
    have hy : ctx = 'a' :: (List.replicate k ['<', '1']).flatten := by rw [← hx]; rfl
    rw [show runWork (Doc.new o) ctx ctx = runWork (Doc.new o) ctx ('a' :: (List.replicate k ['<', '1']).flatten) from by rw [← hy]]
    simp only [runWork, h1]
    omega

/-- C64, texts with stray end tags: so does leaving them out when the open tags are repaired too. -/
theorem c64_slow_ends (o : ParseOptions) (h1 : o.autoFixUnexpectedEndtag = true) (h2 : o.autoFixUnclosedTag = true) (k : Nat) :
    (manyEnds k).length = 5 * k + 1 ∧ k * k ≤ parseWork (manyEnds k) o := by
  refine ⟨?_, ?_⟩
  · simp [manyEnds, Nat.mul_comm]
  · obtain ⟨d, h, hh, ht, ho, hc, hl⟩ := first_a o (manyEnds k)
    have := stray_slow (manyEnds k) [] k d hh ht (by rw [ho]; exact h1) (by rw [ho]; exact h2) hc hl
    rw [List.append_nil] at this
    unfold parseWork
    generalize hx : manyEnds k = ctx at *
    have hy : ctx = 'a' :: (List.replicate k ['<', '/', 'b', '>', 'a']).flatten := by rw [← hx]; rfl
    rw [show runWork (Doc.new o) ctx ctx = runWork (Doc.new o) ctx ('a' :: (List.replicate k ['<', '/', 'b', '>', 'a']).flatten) from by rw [← hy]]
    simp only [runWork, h]
    omega

/-- C64: the work of parsing is linear in the length of the text exactly when neither repair can take up a
finished text again. -/
theorem c64_iff (o : ParseOptions) :
    (∃ K, ∀ s, parseWork s o ≤ K * (s.length + 1)) ↔
      o.autoFixUnescapedLt = false ∧ (o.autoFixUnexpectedEndtag = false ∨ o.autoFixUnclosedTag = false) := by
  constructor
  · rintro ⟨K, hK⟩
    refine ⟨?_, ?_⟩
    · cases hx : o.autoFixUnescapedLt with
      | false => rfl
      | true =>
        exfalso
        obtain ⟨hl, hw⟩ := c64_slow_lt o hx (K + 1)
        have := hK (manyLt (K + 1))
        rw [hl] at this
        have e1 : K * (2 * (K + 1) + 1 + 1) = 2 * (K * K) + 4 * K := by simp only [Nat.mul_add, Nat.mul_one, Nat.mul_left_comm K 2 K]; omega
        have e2 : (K + 1) * (K + 1) = K * K + 2 * K + 1 := by rw [Nat.succ_mul, Nat.mul_succ]; omega
        omega
    · cases hx : o.autoFixUnexpectedEndtag with
      | false => exact Or.inl rfl
      | true =>
        cases hy : o.autoFixUnclosedTag with
        | false => exact Or.inr rfl
        | true =>
          exfalso
          obtain ⟨hl, hw⟩ := c64_slow_ends o hx hy (5 * K + 3)
          have := hK (manyEnds (5 * K + 3))
          rw [hl] at this
          have e1 : K * (5 * (5 * K + 3) + 1 + 1) = 25 * (K * K) + 17 * K := by simp only [Nat.mul_add, Nat.mul_one, Nat.mul_left_comm K 5]; omega
          have e2 : (5 * K + 3) * (5 * K + 3) = 25 * (K * K) + 30 * K + 9 := by
            simp only [Nat.mul_add, Nat.add_mul]
            have : 5 * K * (5 * K) = 25 * (K * K) := by rw [Nat.mul_mul_mul_comm]
            omega
          omega
  · rintro ⟨h1, h2⟩
    exact ⟨401, fun s => c64_linear s o h1 h2⟩

/-! Samples: the hypotheses are met by the default options, and by those of the slow texts. -/

example : parseWork "<p id=x>a<b>c</b></p>".toList {} = 100 := by decide +kernel
example : parseWork "<p id=x>a<b>c</b></p>".toList {} ≤ 401 * (21 + 1) := c64_linear _ {} rfl (Or.inl rfl)
example : 5 * (9 * 9) ≤ parseWork "a<1<1<1<1<1<1<1<1<1".toList { autoFixUnescapedLt := true } :=
  (c64_slow_lt { autoFixUnescapedLt := true } rfl 9).2
example : parseWork "a</b>a</b>a".toList { autoFixUnexpectedEndtag := true, autoFixUnclosedTag := true } = 32 := by
  decide +kernel
example : 100 * 100 ≤ parseWork (manyEnds 100) { autoFixUnexpectedEndtag := true, autoFixUnclosedTag := true } :=
  (c64_slow_ends _ rfl rfl 100).2
example : ∃ K, ∀ s, parseWork s { autoFixUnclosedTag := true } ≤ K * (s.length + 1) := (c64_iff _).mpr ⟨rfl, Or.inl rfl⟩
example : ¬ ∃ K, ∀ s, parseWork s { autoFixUnescapedLt := true } ≤ K * (s.length + 1) := by
  rw [c64_iff]
  exact fun h => by cases h.1

end Rphtml
