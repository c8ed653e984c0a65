import Verif.Proofs.Final

/-!
# What text nodes contain

In every reachable state a finished text is non-empty and free of `<`, and whatever is or may become a spaces node
consists of whitespace.
-/

namespace Rphtml

/-- Only ASCII whitespace. -/
def AllWs (w : Str) : Prop := ∀ c ∈ w, isWs c = true

/-- A text node. -/
def NodeType.isText (t : NodeType) : Prop := t = .text ∨ t = .spacesBetweenTag

/-- What the text nodes contain. -/
structure TextInv (d : Doc) : Prop where
  pend : d.handle = .text → '<' ∉ d.prevChars ∧ (d.repeatWhitespace = true → AllWs d.prevChars)
  done : ∀ i, i < d.heap.size → (d.heap.cell i).nodeType.isText → (d.handle = .text ∧ i = d.current) ∨
    ∃ w, (d.heap.cell i).content = some w ∧ w ≠ [] ∧ '<' ∉ w ∧
      ((d.heap.cell i).nodeType = .spacesBetweenTag → AllWs w)
  check : ∀ t, d.checkTextnode = some t → (d.handle = .text ∧ t = d.current) ∨
    ∃ w, (d.heap.cell t).content = some w ∧ AllWs w

theorem TextInv.new (o : ParseOptions) : TextInv (Doc.new o) := by
  refine ⟨(by intro h; cases h), ?_, (by intro t h; cases h)⟩
  intro i hi ht
  have : i = 0 := by simp only [Doc.new] at hi; omega
  subst this
  rcases ht with h | h <;> cases h

/-- A transition that leaves the contents of all texts alone, and does not start or end reading one. -/
theorem TextInv.keep {d d' : Doc} (hd : Ctl d) (g : TextInv d) (he : Eff d d') (hh : d.handle ≠ .text)
    (hh' : d'.handle ≠ .text) (hcur : d.cur.nodeType.isText → (d'.heap.cell d.current).content = d.cur.content)
    (hnew : d.heap.size < d'.heap.size → ¬ (d'.heap.cell d.heap.size).nodeType.isText)
    (hchk : d'.checkTextnode = d.checkTextnode ∨ d'.checkTextnode = none) : TextInv d' := by
  have hk := he.keep hd
  have hsz := he.size_le
  have hcon : ∀ i, i < d.heap.size → (d.heap.cell i).nodeType.isText →
      (d'.heap.cell i).content = (d.heap.cell i).content := by
    intro i hi ht
    by_cases h1 : i = d.current
    · subst h1; exact hcur ht
    · exact ((hk i hi).other h1).1
  have hty : ∀ i, i < d.heap.size → (d'.heap.cell i).nodeType.isText → (d.heap.cell i).nodeType.isText := by
    intro i hi ht
    rcases (hk i hi).ty with h | h
    · rw [h] at ht; exact ht
    · exact Or.inl h.1
  refine ⟨fun h => absurd h hh', ?_, ?_⟩
  · intro i hi ht
    have hi' : i < d.heap.size := by
      rcases Nat.lt_or_ge i d.heap.size with h | h
      · exact h
      · have : i = d.heap.size := by omega
        subst this
        exact absurd ht (hnew hi)
    right
    have ht' := hty i hi' ht
    rcases g.done i hi' ht' with h | ⟨w, h1, h2, h3, h4⟩
    · exact absurd h.1 hh
    · refine ⟨w, by rw [hcon i hi' ht', h1], h2, h3, ?_⟩
      intro hs
      rcases (hk i hi').ty with h | h
      · rw [h] at hs; exact h4 hs
      · rcases g.check i h.2.2 with h5 | ⟨w', h5, h6⟩
        · exact absurd h5.1 hh
        · rw [h1] at h5; cases h5; exact h6
  · intro t ht
    rcases hchk with h | h
    · rw [h] at ht
      rcases g.check t ht with h1 | ⟨w, h1, h2⟩
      · exact absurd h1.1 hh
      · obtain ⟨h3, h4⟩ := hd.check t ht
        exact Or.inr ⟨w, by rw [hcon t h3 (Or.inl h4), h1], h2⟩
    · rw [h] at ht; cases ht

/-- The end of a text. -/
theorem TextInv.endText {d : Doc} (g : TextInv d) (hh : d.handle = .text) (hty : d.cur.nodeType = .text)
    (hne : d.prevChars ≠ []) : TextInv d.endText := by
  obtain ⟨p1, p2⟩ := g.pend hh
  have hcell : ∀ i, d.endText.heap.cell i = if i = d.current then
      { d.heap.cell i with content := some d.prevChars, endAt := d.position } else d.heap.cell i := fun i => rfl
  refine ⟨(by intro h; cases h), ?_, ?_⟩
  · intro i hi ht
    right
    rw [hcell] at ht ⊢
    by_cases h1 : i = d.current
    · subst h1
      rw [if_pos rfl]
      refine ⟨d.prevChars, rfl, hne, p1, ?_⟩
      intro h
      have : (d.heap.cell d.current).nodeType = .text := hty
      rw [show (d.heap.cell d.current).nodeType = .spacesBetweenTag from h] at this; cases this
    · rw [if_neg h1] at ht ⊢
      rcases g.done i hi ht with h | h
      · exact absurd h.2 h1
      · exact h
  · intro t ht
    right
    have ht : (if d.repeatWhitespace then some d.current else none) = some t := ht
    split at ht
    · rename_i hw
      cases ht
      rw [hcell, if_pos rfl]
      exact ⟨_, rfl, p2 hw⟩
    · cases ht

theorem isWs_lt : isWs '<' = false := by decide

/-- The state in which the current text is being read again. -/
theorem TextInv.resume {d d' : Doc} (g : TextInv d) (hh : d.handle ≠ .text) (hh' : d'.handle = .text)
    (hc : d'.current = d.current) (hheap : d'.heap = d.heap.upd d.current fun n => { n with content := some [] })
    (hchk : d'.checkTextnode = d.checkTextnode) (hlt : '<' ∉ d'.prevChars) (hw : d'.repeatWhitespace = false) :
    TextInv d' := by
  have hcell : ∀ i, d'.heap.cell i = if i = d.current then
      { d.heap.cell i with content := some [] } else d.heap.cell i := fun i => by rw [hheap]; rfl
  have hsz : d'.heap.size = d.heap.size := by rw [hheap]; rfl
  refine ⟨fun _ => ⟨hlt, fun h => by rw [hw] at h; cases h⟩, ?_, ?_⟩
  · intro i hi ht
    by_cases h1 : i = d.current
    · exact Or.inl ⟨hh', by rw [hc, h1]⟩
    · rw [hcell, if_neg h1] at ht ⊢
      rw [hsz] at hi
      rcases g.done i hi ht with h | h
      · exact absurd h.1 hh
      · exact Or.inr h
  · intro t ht
    rw [hchk] at ht
    by_cases h1 : t = d.current
    · exact Or.inl ⟨hh', by rw [hc, h1]⟩
    · rw [hcell, if_neg h1]
      rcases g.check t ht with h | h
      · exact absurd h.1 hh
      · exact Or.inr h

/-- The state in which a new text is being read. -/
theorem TextInv.start {d d' : Doc} (hd : Ctl d) (g : TextInv d) (he : Eff d d') (hh : d.handle ≠ .text) (hh' : d'.handle = .text)
    (hc : d'.current = d.heap.size)
    (hsame : ∀ i, i < d.heap.size → (d'.heap.cell i).nodeType = (d.heap.cell i).nodeType ∧
      (d'.heap.cell i).content = (d.heap.cell i).content)
    (hchk : d'.checkTextnode = d.checkTextnode) (hlt : '<' ∉ d'.prevChars)
    (hw : d'.repeatWhitespace = true → AllWs d'.prevChars) :
    TextInv d' := by
  have hsz := he.size_le
  refine ⟨fun _ => ⟨hlt, hw⟩, ?_, ?_⟩
  · intro i hi ht
    by_cases h1 : i = d.heap.size
    · exact Or.inl ⟨hh', by rw [hc, h1]⟩
    · have hi' : i < d.heap.size := by omega
      rw [(hsame i hi').1] at ht
      rw [(hsame i hi').1, (hsame i hi').2]
      rcases g.done i hi' ht with h | h
      · exact absurd h.1 hh
      · exact Or.inr h
  · intro t ht
    rw [hchk] at ht
    rw [(hsame t (hd.check t ht).1).2]
    rcases g.check t ht with h | h
    · exact absurd h.1 hh
    · exact Or.inr h

theorem inTag_ne_text {h : Handler} (hh : h.inTag = true) : h ≠ .text := by
  rintro rfl; cases hh

theorem putTag_content (d : Doc) (t : TagSt) (id : Option Str) :
    ((d.putTag t id).heap.cell d.current).content = d.cur.content := by
  rw [putTag_curcell]

theorem closeTag_ne_text (d : Doc) (m : TagMeta) : (d.closeTag m).handle ≠ .text := by
  rw [closeTag_handle]; split <;> simp

theorem TextInv.step {d d' : Doc} {c : Char} (hd : Ctl d) (hd' : Ctl d') (g : TextInv d) (h : Step d c d') : TextInv d' := by
  have he := h.eff hd
  have hs := hd.hs
  cases h with
  | lt hh hc => exact g.keep hd he (by simp [hh]) (by simp) (fun _ => rfl) (fun h => absurd h (Nat.lt_irrefl _)) (Or.inl rfl)
  | textResume hh hc hf ht w hw =>
    refine g.resume (by simp [hh]) rfl rfl rfl rfl ?_ rfl
    rcases g.done d.current hd.curLt (Or.inl ht) with h | ⟨w', h1, h2, h3, _⟩
    · rw [hh] at h; cases h.1
    · have : some w = some w' := by rw [← hw]; exact h1
      cases this
      simp only [List.mem_append, List.mem_singleton]
      rintro (h | h)
      · exact h3 h
      · exact hc h.symm
  | textStart hh hc hf p hp =>
    refine g.start hd he (by simp [hh]) rfl rfl ?_ rfl ?_ ?_
    · intro i hi
      obtain ⟨a, b, _⟩ := addChild_ty d p (Cell.new .text d.position) (hd.chain_head hp) i hi
      exact ⟨a, b⟩
    · simp only [List.mem_singleton]; exact fun h => hc h.symm
    · intro h x hx
      simp only [List.mem_singleton] at hx
      rw [hx]; exact h
  | textMore hh hc =>
    refine ⟨fun _ => ?_, g.done, g.check⟩
    obtain ⟨p1, p2⟩ := g.pend hh
    refine ⟨?_, ?_⟩
    · simp only [List.mem_append, List.mem_singleton]
      rintro (h | h)
      · exact p1 h
      · exact hc h.symm
    · intro h x hx
      simp only [Bool.and_eq_true] at h
      rcases List.mem_append.1 hx with h1 | h1
      · exact p2 h.1 x h1
      · simp only [List.mem_singleton] at h1; rw [h1]; exact h.2
  | textEnd hh hc =>
    unfold HandleOk at hs
    simp only [hh] at hs
    exact g.endText hh hs.2.2.1 hs.2.2.2
  | tagOpen hh hc p hp =>
    refine g.keep hd he (by simp [hh]) (by simp) ?_ ?_ (Or.inr rfl)
    · intro _
      show (((d.addChild p (Cell.new .tag d.memPosition)).heap.markSpaces d.checkTextnode).cell d.current).content = _
      rw [markSpaces_cell]
      have := (addChild_ty d p (Cell.new .tag d.memPosition) (hd.chain_head hp) d.current hd.curLt).2.1
      split <;> exact this
    · intro _
      show ¬ (((d.addChild p (Cell.new .tag d.memPosition)).heap.markSpaces d.checkTextnode).cell d.heap.size).nodeType.isText
      rw [grown_cell hd p hp _ _ (Or.inl rfl)]
      rintro (h | h) <;> cases h
  | endOpen hh hc =>
    refine g.keep hd he (by simp [hh]) (by simp) ?_ ?_ (Or.inl rfl)
    · intro _
      have := hd.curLt
      show ((d.heap.push _).cell d.current).content = _
      rw [Heap.push_cell, if_neg (by omega)]; rfl
    · intro _
      show ¬ ((d.heap.push _).cell d.heap.size).nodeType.isText
      rw [Heap.push_cell, if_pos rfl]
      rintro (h | h) <;> cases h
  | bang hh hc => exact g.keep hd he (by simp [hh]) (by simp) (fun _ => rfl) (fun h => absurd h (Nat.lt_irrefl _)) (Or.inl rfl)
  | ltExtend hh hf hc ht w hw d1 h1 =>
    have hw3 : '<' ∉ w := by
      rcases g.done d.current hd.curLt (Or.inl ht) with h | ⟨w', h1, h2, h3, _⟩
      · rw [hh] at h; cases h.1
      · have : some w = some w' := by rw [← hw]; exact h1
        cases this; exact h3
    have g1 : TextInv d1 := by
      subst h1
      refine g.resume (by simp [hh]) rfl rfl rfl rfl ?_ rfl
      simp only [List.mem_append]
      rintro (h | h)
      · exact hw3 h
      · split at h
        · revert h; decide
        · rename_i h5; simp only [List.mem_cons, List.not_mem_nil, or_false] at h
          rcases h with h | h | h | h | h
          · revert h; decide
          · revert h; decide
          · revert h; decide
          · revert h; decide
          · exact h5 h.symm
    by_cases h5 : c = '<'
    · rw [if_pos h5] at hd' ⊢
      refine g1.endText (by rw [h1]) ?_ (by rw [h1]; simp [h5])
      rw [h1]; simp only [Doc.cur, Heap.upd_cell_self]; exact ht
    · rw [if_neg h5]; exact g1
  | ltNew hh hf hc ht p hp d1 h1 =>
    have hplt : p < d.heap.size := by
      rw [hp]
      split
      · exact hd.curLt
      · cases hc : d.chain with
        | nil => simp only [List.head?_nil, Option.getD_none]; rw [hd.root0]; exact hd.sizePos
        | cons a as => exact hd.chainLt a (by rw [hc]; simp)
    have hcell : ∀ i, d1.heap.cell i = if i = d.heap.size then
        { Cell.new .text d.memPosition with index := ((d.heap.cell p).childs.getD []).length }
        else if i = p then { d.heap.cell i with childs := some ((d.heap.cell p).childs.getD [] ++ [d.heap.size]) }
        else d.heap.cell i := by
      intro i
      rw [h1]; simp only [Heap.upd_cell, Heap.push_cell]
      by_cases h2 : i = d.heap.size
      · have : ¬ i = p := by omega
        simp only [this, if_false, h2, if_true]
        rw [if_neg (by omega)]
      · simp only [h2, if_false]
    have g1 : TextInv d1 := by
      refine ⟨fun _ => ⟨?_, ?_⟩, ?_, ?_⟩
      · rw [h1]; simp only
        intro h
        split at h
        · revert h; decide
        · rename_i h5; simp only [List.mem_cons, List.not_mem_nil, or_false] at h
          rcases h with h | h | h | h | h
          · revert h; decide
          · revert h; decide
          · revert h; decide
          · revert h; decide
          · exact h5 h.symm
      · intro h; rw [h1] at h; cases h
      · intro i hi hti
        by_cases h2 : i = d.heap.size
        · left; rw [h1]; exact ⟨rfl, h2⟩
        · have hi' : i < d.heap.size := by rw [h1] at hi; simp only [Heap.upd_size, Heap.push_size] at hi; omega
          rw [hcell, if_neg h2] at hti ⊢
          have key : (d.heap.cell i).nodeType.isText := by split at hti <;> exact hti
          right
          rcases g.done i hi' key with h | h
          · rw [hh] at h; cases h.1
          · split <;> exact h
      · intro t hct
        have hct : d.checkTextnode = some t := by rw [h1] at hct; exact hct
        have h2 : ¬ t = d.heap.size := by have := (hd.check t hct).1; omega
        rw [hcell, if_neg h2]
        right
        rcases g.check t hct with h | h
        · rw [hh] at h; cases h.1
        · split <;> exact h
    by_cases h5 : c = '<'
    · rw [if_pos h5] at hd' ⊢
      refine g1.endText (by rw [h1]) ?_ (by rw [h1]; simp [h5])
      have := hcell d.heap.size
      rw [if_pos rfl] at this
      have hc1 : d1.current = d.heap.size := by rw [h1]
      unfold Doc.cur; rw [hc1, this]; rfl
    · rw [if_neg h5]; exact g1
  | exclFirst hh hdt D hD => exact g.keep hd he (by simp [hh]) (by simp [hh]) (fun _ => rfl) (fun h => absurd h (Nat.lt_irrefl _)) (Or.inl rfl)
  | exclMore hh D hdt hl hc => exact g.keep hd he (by simp [hh]) (by simp [hh]) (fun _ => rfl) (fun h => absurd h (Nat.lt_irrefl _)) (Or.inl rfl)
  | commentOpen hh hdt hl hc p hp =>
    refine g.keep hd he (by simp [hh]) (by simp) ?_ ?_ (Or.inr rfl)
    · intro _
      show (((d.addChild p (Cell.new .comment d.memPosition)).heap.markSpaces d.checkTextnode).cell d.current).content = _
      rw [markSpaces_cell]
      have := (addChild_ty d p (Cell.new .comment d.memPosition) (hd.chain_head hp) d.current hd.curLt).2.1
      split <;> exact this
    · intro _
      show ¬ (((d.addChild p (Cell.new .comment d.memPosition)).heap.markSpaces d.checkTextnode).cell d.heap.size).nodeType.isText
      rw [grown_cell hd p hp _ _ (Or.inl rfl)]
      rintro (h | h) <;> cases h
  | cdataOpen hh hdt hl hc p hp =>
    refine g.keep hd he (by simp [hh]) (by simp) ?_ ?_ (Or.inr rfl)
    · intro _
      show (((d.addChild p (Cell.new .xmlCdata d.memPosition)).heap.markSpaces d.checkTextnode).cell d.current).content = _
      rw [markSpaces_cell]
      have := (addChild_ty d p (Cell.new .xmlCdata d.memPosition) (hd.chain_head hp) d.current hd.curLt).2.1
      split <;> exact this
    · intro _
      show ¬ (((d.addChild p (Cell.new .xmlCdata d.memPosition)).heap.markSpaces d.checkTextnode).cell d.heap.size).nodeType.isText
      rw [grown_cell hd p hp _ _ (Or.inl rfl)]
      rintro (h | h) <;> cases h
  | doctypeOpen hh hdt hl hc p hp =>
    refine g.keep hd he (by simp [hh]) (by simp) ?_ ?_ (Or.inr rfl)
    · intro _
      show (((d.addChild p (Cell.new .htmlDoctype d.memPosition)).heap.markSpaces d.checkTextnode).cell d.current).content = _
      rw [markSpaces_cell]
      have := (addChild_ty d p (Cell.new .htmlDoctype d.memPosition) (hd.chain_head hp) d.current hd.curLt).2.1
      split <;> exact this
    · intro _
      show ¬ (((d.addChild p (Cell.new .htmlDoctype d.memPosition)).heap.markSpaces d.checkTextnode).cell d.heap.size).nodeType.isText
      rw [grown_cell hd p hp _ _ (Or.inl rfl)]
      rintro (h | h) <;> cases h
  | commentMore hh hc => exact g.keep hd he (by simp [hh]) (by simp [hh]) (fun _ => rfl) (fun h => absurd h (Nat.lt_irrefl _)) (Or.inl rfl)
  | commentClose hh hc b hb hp =>
    unfold HandleOk at hs
    simp only [hh] at hs
    refine g.keep hd he (by simp [hh]) (by simp) ?_ (fun h => absurd h (Nat.lt_irrefl _)) (Or.inl rfl)
    rcases hs.2 with h | h <;> rw [h.2.2] <;> rintro (h | h) <;> cases h
  | doctypeName hh hc =>
    exact g.keep hd he (by simp [hh]) (by simp [Doc.putTag]) (fun _ => putTag_content d _ _) (fun h => absurd h (Nat.lt_irrefl _)) (Or.inl rfl)
  | nameMore hh hc => exact g.keep hd he (by simp [hh]) (by simp [hh]) (fun _ => rfl) (fun h => absurd h (Nat.lt_irrefl _)) (Or.inl rfl)
  | nameEnd hh hc =>
    refine g.keep hd he (by simp [hh]) ?_ (fun _ => putTag_content d _ _) (fun h => absurd h (Nat.lt_irrefl _)) (Or.inl rfl)
    simp only [Doc.putTag]; split <;> simp
  | nameClose hh hc m hm =>
    refine g.keep hd he (by simp [hh]) (closeTag_ne_text _ _) ?_ ?_ (Or.inl (closeTag_check _ _))
    · intro _; rw [closeTag_heap]; exact putTag_content d _ _
    · intro h; rw [closeTag_heap] at h; exact absurd h (Nat.lt_irrefl _)
  | tagMore hh m hm t id ht =>
    obtain ⟨_, _, k3⟩ := tagChar_cont (hd.inTag hh hm).1 ht
    exact g.keep hd he (inTag_ne_text hh) (inTag_ne_text k3) (fun _ => putTag_content d _ _) (fun h => absurd h (Nat.lt_irrefl _)) (Or.inl rfl)
  | tagClose hh m hm m' pc mark id ht =>
    refine g.keep hd he (inTag_ne_text hh) (closeTag_ne_text _ _) ?_ ?_ (Or.inl (closeTag_check _ _))
    · intro _; rw [closeTag_heap]; exact putTag_content d _ _
    · intro h; rw [closeTag_heap] at h; exact absurd h (Nat.lt_irrefl _)
  | tagSelf hh hc m hm ha =>
    refine g.keep hd he (by simp [hh]) (by simp) ?_ (fun h => absurd h (Nat.lt_irrefl _)) (Or.inl rfl)
    intro _
    simp only [Heap.upd_cell_self]; rfl
  | endMore hh hc => exact g.keep hd he (by simp [hh]) (by simp [hh]) (fun _ => rfl) (fun h => absurd h (Nat.lt_irrefl _)) (Or.inl rfl)
  | endMatch hh hc t m hm =>
    unfold HandleOk at hs
    simp only [hh] at hs
    refine g.keep hd he (by simp [hh]) (by simp) ?_ ?_ ?_
    · rw [hs.2.2.1]; rintro (h | h) <;> cases h
    · intro h
      have h : d.heap.size < (d.endHeap t d.prevChars).size := h
      rw [endHeap_size] at h; exact absurd h (Nat.lt_irrefl _)
    · show (if onlyText d.heap t then d.checkTextnode else none) = _ ∨ _ = _
      split
      · exact Or.inl rfl
      · exact Or.inr rfl
  | endStray hh hc hf hm => exact g.keep hd he (by simp [hh]) (by simp) (fun _ => rfl) (fun h => absurd h (Nat.lt_irrefl _)) (Or.inl rfl)
  | rawMore hh hc => exact g.keep hd he (by simp [hh]) (by simp [hh]) (fun _ => rfl) (fun h => absurd h (Nat.lt_irrefl _)) (Or.inl rfl)
  | rawClose hh hc e he' n hn =>
    unfold HandleOk at hs
    simp only [hh] at hs
    refine g.keep hd he (by simp [hh]) (by simp) ?_ ?_ (Or.inl rfl)
    · rw [hs.1]; rintro (h | h) <;> cases h
    · intro _
      show ¬ ((d.rawHeap n).cell d.heap.size).nodeType.isText
      rw [rawHeap_cell hd, if_pos rfl]
      rintro (h | h) <;> cases h

theorem Reach.text {o : ParseOptions} {s : Str} {d : Doc} (h : Reach o s d) : TextInv d := by
  induction h with
  | init => exact TextInv.new o
  | step hr hs ih =>
    have := ih.step hr.ctl (hr.ctl.step hs) hs
    exact ⟨this.pend, this.done, this.check⟩

/-- The text nodes of the finished document. -/
theorem Reach.finalText {o : ParseOptions} {s : Str} {d : Doc} (hr : Reach o s d) (he : EofOk d) (i : NodeId)
    (hi : i < d.finalHeap.size) (ht : (d.finalHeap.cell i).nodeType.isText) :
    ∃ w, (d.finalHeap.cell i).content = some w ∧ w ≠ [] ∧ '<' ∉ w ∧
      ((d.finalHeap.cell i).nodeType = .spacesBetweenTag → AllWs w) := by
  have hd := hr.ctl
  have g := hr.text
  by_cases h1 : i < d.heap.size
  · have hc := eofCell hd he i h1
    by_cases h2 : d.codeIn = .textNode ∧ i = d.current
    · have hh := hd.codeIn_text h2.1
      have hs := hd.hs
      unfold HandleOk at hs
      simp only [hh] at hs
      refine ⟨d.prevChars, by rw [hc.content, if_pos h2], hs.2.2.2, (g.pend hh).1, ?_⟩
      intro h3
      rcases hc.ty with h4 | h4
      · rw [h4, h2.2] at h3
        have := hs.2.2.1
        unfold Doc.cur at this
        rw [h3] at this; cases this
      · exact (g.pend hh).2 h4.2.2.2.2
    · have h3 := hc.content
      rw [if_neg h2] at h3
      have hty : (d.finalHeap.cell i).nodeType = (d.heap.cell i).nodeType := by
        rcases hc.ty with h4 | h4
        · exact h4
        · exact absurd ⟨h4.2.2.2.1, h4.2.2.1⟩ h2
      rw [hty] at ht ⊢
      rw [h3]
      rcases g.done i h1 ht with h4 | h4
      · exfalso
        refine h2 ⟨?_, h4.2⟩
        have hs := hd.hs
        unfold HandleOk at hs
        simp only [h4.1] at hs
        exact hs.1
      · exact h4
  · rw [finalHeap_size] at hi
    obtain ⟨_, j, m, _, _, _, hc⟩ := fixedHeap_new hd i (by omega) hi
    have h2 := hd.curLt
    have h3 := hd.sizePos
    rw [finalHeap_cell i (by omega) (fun _ => by omega), hc] at ht
    rcases ht with h | h <;> cases h

end Rphtml
