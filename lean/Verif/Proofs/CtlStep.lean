import Verif.Proofs.StepSound

/-! # The control invariant is preserved -/

namespace Rphtml

/-- How an existing cell may change as far as `Ctl` is concerned. -/
structure CellLe (a b : Cell) : Prop where
  ty : b.nodeType = a.nodeType ∨ (a.nodeType = .text ∧ b.nodeType = .spacesBetweenTag)
  content : a.content ≠ none → b.content ≠ none
  tmeta : a.tmeta ≠ none → b.tmeta ≠ none

theorem CellLe.refl (a : Cell) : CellLe a a := ⟨Or.inl rfl, id, id⟩

/-- The parts of a cell that rendering needs are filled in, unless the cell is being read. -/
structure Done (d : Doc) (i : NodeId) : Prop where
  text : (d.heap.cell i).nodeType = .text ∨ (d.heap.cell i).nodeType = .spacesBetweenTag →
    (d.heap.cell i).content ≠ none ∨ (d.handle = .text ∧ i = d.current)
  tag : (d.heap.cell i).nodeType = .tag →
    (d.heap.cell i).tmeta ≠ none ∨ (d.handle = .tagName ∧ i = d.current)
  doctype : (d.heap.cell i).nodeType = .htmlDoctype →
    (d.heap.cell i).tmeta ≠ none ∨ (d.handle = .doctypeName ∧ i = d.current)

theorem Ctl.done {d : Doc} (hd : Ctl d) {i : NodeId} (hi : i < d.heap.size) : Done d i :=
  ⟨hd.textDone i hi, hd.metaDone i hi, hd.docDone i hi⟩

theorem Done.tagEnd {d : Doc} {i : NodeId} (h : (d.heap.cell i).nodeType = .tagEnd) : Done d i :=
  ⟨by rw [h]; simp, by rw [h]; simp, by rw [h]; simp⟩

theorem Done.readText {d : Doc} {i : NodeId} (hh : d.handle = .text) (hi : i = d.current)
    (ht : (d.heap.cell i).nodeType = .text) : Done d i :=
  ⟨fun _ => Or.inr ⟨hh, hi⟩, by rw [ht]; simp, by rw [ht]; simp⟩

theorem Done.readTag {d : Doc} {i : NodeId} (hh : d.handle = .tagName) (hi : i = d.current)
    (ht : (d.heap.cell i).nodeType = .tag) : Done d i :=
  ⟨by rw [ht]; simp, fun _ => Or.inr ⟨hh, hi⟩, by rw [ht]; simp⟩

theorem Done.readDoctype {d : Doc} {i : NodeId} (hh : d.handle = .doctypeName) (hi : i = d.current)
    (ht : (d.heap.cell i).nodeType = .htmlDoctype) : Done d i :=
  ⟨by rw [ht]; simp, by rw [ht]; simp, fun _ => Or.inr ⟨hh, hi⟩⟩

theorem Done.other {d : Doc} {i : NodeId} (h : (d.heap.cell i).nodeType = .tagEnd ∨
    (d.heap.cell i).nodeType = .comment ∨ (d.heap.cell i).nodeType = .xmlCdata) : Done d i := by
  rcases h with h | h | h <;> exact ⟨by rw [h]; simp, by rw [h]; simp, by rw [h]; simp⟩

theorem Done.withText {d : Doc} {i : NodeId} (ht : (d.heap.cell i).nodeType = .text)
    (hc : (d.heap.cell i).content ≠ none) : Done d i :=
  ⟨fun _ => Or.inl hc, by rw [ht]; simp, by rw [ht]; simp⟩

/-- Cells other than the one being read stay done. -/
theorem Done.mono {d d' : Doc} {i : NodeId} (h : Done d i) (hle : CellLe (d.heap.cell i) (d'.heap.cell i))
    (hi : i = d.current → d.handle ≠ .text ∧ d.handle ≠ .tagName ∧ d.handle ≠ .doctypeName) : Done d' i := by
  refine ⟨fun ht => ?_, fun ht => ?_, fun ht => ?_⟩
  · have : (d.heap.cell i).nodeType = .text ∨ (d.heap.cell i).nodeType = .spacesBetweenTag := by
      rcases hle.ty with h1 | h1
      · rw [← h1]; exact ht
      · exact Or.inl h1.1
    rcases h.text this with h2 | h2
    · exact Or.inl (hle.content h2)
    · exact absurd h2.1 (hi h2.2).1
  · have : (d.heap.cell i).nodeType = .tag := by
      rcases hle.ty with h1 | h1
      · rw [← h1]; exact ht
      · rw [h1.2] at ht; cases ht
    rcases h.tag this with h2 | h2
    · exact Or.inl (hle.tmeta h2)
    · exact absurd h2.1 (hi h2.2).2.1
  · have : (d.heap.cell i).nodeType = .htmlDoctype := by
      rcases hle.ty with h1 | h1
      · rw [← h1]; exact ht
      · rw [h1.2] at ht; cases ht
    rcases h.doctype this with h2 | h2
    · exact Or.inl (hle.tmeta h2)
    · exact absurd h2.1 (hi h2.2).2.2

/-- The general preservation lemma. -/
theorem Ctl.mono {d d' : Doc} (hd : Ctl d) (hroot : d'.root = d.root) (hsize : d.heap.size ≤ d'.heap.size)
    (hle : ∀ i, i < d.heap.size → CellLe (d.heap.cell i) (d'.heap.cell i))
    (hrm : (d'.heap.cell 0).tmeta = none)
    (hnew : ∀ i, d.heap.size ≤ i → i < d'.heap.size → (d'.heap.cell i).nodeType ≠ .abstractRoot)
    (hdone : ∀ i, i < d'.heap.size → (i = d.current ∨ d.heap.size ≤ i) → Done d' i)
    (hcur : d'.current < d'.heap.size) (hcurTy : d'.cur.nodeType ≠ .spacesBetweenTag)
    (hchain : d'.chain = d.chain ∨ d'.chain = d.chain.tail ∨
      (d.chain ≠ [] ∧ d'.chain = d.heap.size :: d.chain ∧ d.heap.size < d'.heap.size ∧
        (d'.heap.cell d.heap.size).nodeType = .tag))
    (hcheck : ∀ t, d'.checkTextnode = some t → t < d'.heap.size ∧ (d'.heap.cell t).nodeType = .text)
    (hs : HandleOk d') : Ctl d' := by
  have hsub : ∀ i ∈ d'.chain, i ∈ d.chain ∨ (i = d.heap.size ∧ d.heap.size < d'.heap.size ∧
      (d'.heap.cell d.heap.size).nodeType = .tag) := by
    intro i hi
    rcases hchain with h | h | ⟨_, h, h2, h3⟩ <;> rw [h] at hi
    · exact Or.inl hi
    · exact Or.inl (List.mem_of_mem_tail hi)
    · rcases List.mem_cons.1 hi with rfl | h4
      · exact Or.inr ⟨rfl, h2, h3⟩
      · exact Or.inl h4
  have hall : ∀ i, i < d'.heap.size → Done d' i := by
    intro i hi
    by_cases h1 : i = d.current ∨ d.heap.size ≤ i
    · exact hdone i hi h1
    · have h2 : i < d.heap.size := by omega
      exact (hd.done h2).mono (hle i h2) (fun h => absurd (Or.inl h) h1)
  have htyeq : ∀ i, i < d.heap.size → (d.heap.cell i).nodeType ≠ .text →
      (d'.heap.cell i).nodeType = (d.heap.cell i).nodeType := by
    intro i hi h
    rcases (hle i hi).ty with h1 | h1
    · exact h1
    · exact absurd h1.1 h
  refine ⟨by rw [hroot, hd.root0], by have := hd.sizePos; omega, hcur, ?_, hrm, ?_, ?_, ?_, ?_, hcheck, hcurTy,
    fun i hi => (hall i hi).text, fun i hi => (hall i hi).tag, fun i hi => (hall i hi).doctype, hs⟩
  · intro i hi
    by_cases h1 : i < d.heap.size
    · rw [← hd.rootTy i h1]
      rcases (hle i h1).ty with h2 | h2
      · rw [h2]
      · rw [h2.1, h2.2]; simp
    · have := hnew i (by omega) hi
      have h0 := hd.sizePos
      constructor
      · intro h; exact absurd h this
      · rintro rfl; exact absurd h0 h1
  · rcases hchain with h | h | ⟨_, h, _⟩ <;> rw [h]
    · exact hd.chainSorted
    · exact hd.chainSorted.tail
    · exact List.pairwise_cons.2 ⟨fun i hi => hd.chainLt i hi, hd.chainSorted⟩
  · intro hne
    rcases hchain with h | h | ⟨hne', h, _⟩
    · rw [h] at hne ⊢; exact hd.chainLast hne
    · rw [h] at hne ⊢
      cases hc : d.chain with
      | nil => rw [hc] at hne; simp at hne
      | cons a as =>
        rw [hc] at hne
        have := hd.chainLast (by rw [hc]; simp)
        rw [hc] at this
        rw [List.tail_cons] at hne ⊢
        rwa [List.getLast?_cons_of_ne_nil hne] at this
    · rw [h, List.getLast?_cons_of_ne_nil hne']
      exact hd.chainLast hne'
  · intro i hi
    rcases hsub i hi with h | ⟨rfl, h, _⟩
    · have := hd.chainLt i h; omega
    · exact h
  · intro i hi h0
    rcases hsub i hi with h | ⟨rfl, _, h⟩
    · rw [htyeq i (hd.chainLt i h)]
      · exact hd.chainTag i h h0
      · rw [hd.chainTag i h h0]; simp
    · exact h

theorem Ctl.new (o : ParseOptions) : Ctl (Doc.new o) := by
  refine ⟨rfl, by simp [Doc.new], by simp [Doc.new], ?_, rfl, by simp [Doc.new], by simp [Doc.new],
    by simp [Doc.new], by simp [Doc.new], by simp [Doc.new], by simp [Doc.new, Doc.cur, Cell.new], ?_, ?_, ?_, ?_⟩
  · intro i hi
    simp only [Doc.new, Nat.lt_one_iff] at hi
    subst hi
    simp [Doc.new, Cell.new]
  · intro i hi
    simp only [Doc.new, Nat.lt_one_iff] at hi
    subst hi
    simp [Doc.new, Cell.new]
  · intro i hi
    simp only [Doc.new, Nat.lt_one_iff] at hi
    subst hi
    simp [Doc.new, Cell.new]
  · intro i hi
    simp only [Doc.new, Nat.lt_one_iff] at hi
    subst hi
    simp [Doc.new, Cell.new]
  · unfold HandleOk; simp [Doc.new]

theorem Ctl.setPos {d : Doc} (hd : Ctl d) (k : Nat) : Ctl { d with position := k } :=
  ⟨hd.root0, hd.sizePos, hd.curLt, hd.rootTy, hd.rootMeta, hd.chainSorted, hd.chainLast, hd.chainLt, hd.chainTag,
    hd.check, hd.curTy, hd.textDone, hd.metaDone, hd.docDone, hd.hs⟩

/-- Only the current cell changes. -/
theorem Ctl.updCur {d d' : Doc} (hd : Ctl d) (f : Cell → Cell) (hroot : d'.root = d.root)
    (hheap : d'.heap = d.heap.upd d.current f) (hcur : d'.current = d.current)
    (hle : CellLe d.cur (f d.cur)) (hty : (f d.cur).nodeType = d.cur.nodeType)
    (hrm : d.cur.nodeType = .abstractRoot → (f d.cur).tmeta = none)
    (hdone : Done d' d.current)
    (hchain : d'.chain = d.chain ∨ d'.chain = d.chain.tail)
    (hcheck : d'.checkTextnode = d.checkTextnode ∨ d'.checkTextnode = none ∨
      (d'.checkTextnode = some d.current ∧ d.cur.nodeType = .text))
    (hs : HandleOk d') : Ctl d' := by
  have hcell : ∀ i, (d'.heap.cell i).nodeType = (d.heap.cell i).nodeType := by
    intro i
    rw [hheap, Heap.upd_cell]
    split
    · rename_i h; subst h; exact hty
    · rfl
  have hsz : d'.heap.size = d.heap.size := by rw [hheap]; rfl
  refine hd.mono hroot (by omega) ?_ ?_ ?_ ?_ (by rw [hcur, hsz]; exact hd.curLt) ?_ ?_ ?_ hs
  · intro i hi
    rw [hheap, Heap.upd_cell]
    split
    · rename_i h; subst h; exact hle
    · exact CellLe.refl _
  · rw [hheap, Heap.upd_cell]
    split
    · rename_i h
      have := hrm ((hd.rootTy d.current hd.curLt).2 h.symm)
      rw [h]; exact this
    · exact hd.rootMeta
  · intro i h1 h2; omega
  · intro i h1 h2
    rcases h2 with rfl | h2
    · exact hdone
    · omega
  · unfold Doc.cur; rw [hcell, hcur]; exact hd.curTy
  · rcases hchain with h | h
    · exact Or.inl h
    · exact Or.inr (Or.inl h)
  · intro t ht
    rw [hcell, hsz]
    rcases hcheck with h | h | ⟨h, h2⟩ <;> rw [h] at ht
    · exact hd.check t ht
    · cases ht
    · cases ht; exact ⟨hd.curLt, h2⟩

/-- Nothing in the heap changes. -/
theorem Ctl.same {d d' : Doc} (hd : Ctl d) (hroot : d'.root = d.root) (hheap : d'.heap = d.heap)
    (hcur : d'.current = d.current)
    (hhan : d'.handle = d.handle ∨ (d.handle ≠ .text ∧ d.handle ≠ .tagName ∧ d.handle ≠ .doctypeName))
    (hchain : d'.chain = d.chain) (hcheck : d'.checkTextnode = d.checkTextnode)
    (hs : HandleOk d') : Ctl d' := by
  refine hd.updCur id hroot (by rw [hheap, Heap.upd_self rfl]) hcur (CellLe.refl _) rfl ?_ ?_ (Or.inl hchain)
    (Or.inl hcheck) hs
  · intro h
    have := (hd.rootTy d.current hd.curLt).1 h
    show d.cur.tmeta = none
    unfold Doc.cur
    rw [this]; exact hd.rootMeta
  · have h := hd.done hd.curLt
    rcases hhan with h1 | h1
    · refine ⟨?_, ?_, ?_⟩ <;> rw [hheap, h1, hcur]
      · exact h.text
      · exact h.tag
      · exact h.doctype
    · exact h.mono (by rw [hheap]; exact CellLe.refl _) (fun _ => h1)

/-! ## Inside tags -/

/-- What a character inside a tag leaves alone. -/
structure TagFrame (a b : TagMeta) : Prop where
  name : b.name = a.name
  isVoid : b.isVoid = a.isVoid
  selfClosed : b.selfClosed = a.selfClosed
  autoFix : b.autoFix = a.autoFix

theorem TagFrame.rfl' {a : TagMeta} : TagFrame a a := ⟨rfl, rfl, rfl, rfl⟩

theorem mapOrInsert_frame (m : TagMeta) (k : Str) (i : Nat) : TagFrame m (m.mapOrInsert k i) := by
  unfold TagMeta.mapOrInsert
  split <;> exact ⟨rfl, rfl, rfl, rfl⟩

theorem nameLast_frame (m : TagMeta) (k : Str) : TagFrame m (m.nameLast k) := by
  have := mapOrInsert_frame m (lowerAll k) (m.attrs.length - 1)
  exact ⟨this.name, this.isVoid, this.selfClosed, this.autoFix⟩

theorem tagWaitC_cont {isDoc allowEq : Bool} {t t' : TagSt} {c : Char} {i id : Option Str}
    (hpc : t.pc = []) (hci : t.m.codeIn = .wait ∨ t.m.codeIn = .keyEnd ∨ t.m.codeIn = .waitValue)
    (hat : t.m.codeIn ≠ .wait → t.m.attrs ≠ []) (hh : t.handle = .tagWait ∨ t.handle = .tagSelfClosing)
    (h : tagWaitC isDoc allowEq t c i = .cont t' id) : t'.Ok2 ∧ TagFrame t.m t'.m ∧ t'.handle.inTag = true := by
  have hok : t.Ok2 := by
    unfold TagSt.Ok2
    rcases hh with h | h <;> simp only [h] <;> exact ⟨hpc, hci, hat⟩
  unfold tagWaitC at h
  repeat' split at h
  all_goals first
    | (cases h; done)
    | skip
  all_goals
    simp only [TagOut.cont.injEq] at h
    obtain ⟨rfl, _⟩ := h
  · refine ⟨?_, ⟨rfl, rfl, rfl, rfl⟩, rfl⟩
    simp [TagSt.Ok2, TagMeta.addAttrValue]
  · refine ⟨?_, ⟨rfl, rfl, rfl, rfl⟩, rfl⟩
    simp [TagSt.Ok2, TagMeta.addAttrKey]
  · refine ⟨?_, ⟨rfl, rfl, rfl, rfl⟩, rfl⟩
    simp [TagSt.Ok2]
    apply hat; simp_all
  · refine ⟨?_, ⟨rfl, rfl, rfl, rfl⟩, rfl⟩
    simp only [TagSt.Ok2]
    exact ⟨hpc, hci, hat⟩
  · refine ⟨?_, ⟨rfl, rfl, rfl, rfl⟩, rfl⟩
    simp only [TagSt.Ok2]
    exact ⟨hpc, by simp, fun _ => hat (by simp_all)⟩
  · refine ⟨?_, ⟨rfl, rfl, rfl, rfl⟩, rfl⟩
    simp [TagSt.Ok2, TagMeta.addAttrKey]
  · refine ⟨?_, ⟨rfl, rfl, rfl, rfl⟩, rfl⟩
    simp only [TagSt.Ok2]
    exact ⟨trivial, hat (by simp_all)⟩
  · refine ⟨hok, ⟨rfl, rfl, rfl, rfl⟩, ?_⟩
    rcases hh with h | h <;> rw [h] <;> rfl
  · refine ⟨?_, ⟨rfl, rfl, rfl, rfl⟩, rfl⟩
    simp only [TagSt.Ok2]
    exact ⟨trivial, hat (by simp_all)⟩
  · refine ⟨?_, ⟨rfl, rfl, rfl, rfl⟩, rfl⟩
    simp [TagSt.Ok2, TagMeta.addAttrKey]

theorem tagWaitC_close {isDoc allowEq : Bool} {t : TagSt} {c : Char} {i id : Option Str} {m : TagMeta} {pc : Str}
    {mark : Char} (h : tagWaitC isDoc allowEq t c i = .close m pc mark id) :
    m = t.m ∧ pc = t.pc ∧ mark = t.mark ∧ id = i ∧ c = '>' := by
  unfold tagWaitC at h
  repeat' split at h
  all_goals first
    | (cases h; done)
    | skip
  simp only [TagOut.close.injEq] at h
  obtain ⟨rfl, rfl, rfl, rfl⟩ := h
  exact ⟨rfl, rfl, rfl, rfl, by assumption⟩

theorem tagChar_cont {isDoc allowEq : Bool} {t t' : TagSt} {c : Char} {id : Option Str} (hok : t.Ok2)
    (h : tagChar isDoc allowEq t c = .cont t' id) : t'.Ok2 ∧ TagFrame t.m t'.m ∧ t'.handle.inTag = true := by
  have hok' := hok
  unfold TagSt.Ok2 at hok
  unfold tagChar at h
  split at h
  · rename_i hh
    simp only [hh] at hok
    exact tagWaitC_cont hok.1 hok.2.1 hok.2.2 (Or.inl hh) h
  · rename_i hh
    simp only [hh] at hok
    repeat' split at h
    · cases h
    · simp only [TagOut.cont.injEq] at h
      obtain ⟨rfl, _⟩ := h
      exact ⟨hok', TagFrame.rfl', by rw [hh]; rfl⟩
    · exact tagWaitC_cont hok.1 hok.2.1 hok.2.2 (Or.inr hh) h
  · rename_i hh
    simp only [hh] at hok
    have hf := nameLast_frame t.m t.pc
    have hat : (t.m.nameLast t.pc).attrs ≠ [] := by simp [TagMeta.nameLast]
    repeat' split at h
    all_goals first
      | (cases h; done)
      | skip
    all_goals
      simp only [TagOut.cont.injEq] at h
      obtain ⟨rfl, _⟩ := h
    · exact ⟨by simp only [TagSt.Ok2]; exact ⟨trivial, by simp, fun _ => hat⟩,
        ⟨hf.name, hf.isVoid, hf.selfClosed, hf.autoFix⟩, rfl⟩
    · exact ⟨by simp only [TagSt.Ok2]; exact ⟨trivial, by simp, fun _ => hat⟩,
        ⟨hf.name, hf.isVoid, hf.selfClosed, hf.autoFix⟩, rfl⟩
    · exact ⟨by simp only [TagSt.Ok2]; exact ⟨trivial, by simp, fun _ => hat⟩,
        ⟨hf.name, hf.isVoid, hf.selfClosed, hf.autoFix⟩, rfl⟩
    · exact ⟨by simp only [TagSt.Ok2, hh]; exact ⟨hok.1, hok.2.1, by simp⟩, TagFrame.rfl', by simp only [hh]; rfl⟩
  · rename_i hh
    simp only [hh] at hok
    have hat : ∀ v q, (t.m.valueLast v q).attrs ≠ [] := by simp [TagMeta.valueLast]
    repeat' split at h
    all_goals first
      | (cases h; done)
      | skip
    all_goals
      simp only [TagOut.cont.injEq] at h
      obtain ⟨rfl, _⟩ := h
    all_goals first
      | exact ⟨by simp only [TagSt.Ok2]; exact ⟨trivial, by simp, fun _ => hat _ _⟩, ⟨rfl, rfl, rfl, rfl⟩, rfl⟩
      | exact ⟨by simp only [TagSt.Ok2, hh]; exact hok, TagFrame.rfl', by simp only [hh]; rfl⟩
  · rename_i h1 h2 h3 h4
    cases hh : t.handle <;> simp only [hh] at hok
    · exact absurd hh h2
    · exact absurd hh h1
    · exact absurd hh h3
    · exact absurd hh h4

theorem tagChar_close {isDoc allowEq : Bool} {t : TagSt} {c : Char} {id : Option Str} {m : TagMeta} {pc : Str}
    {mark : Char} (hok : t.Ok2) (h : tagChar isDoc allowEq t c = .close m pc mark id) :
    TagFrame t.m m ∧ pc = [] ∧ c = '>' := by
  unfold TagSt.Ok2 at hok
  unfold tagChar at h
  split at h
  · rename_i hh
    simp only [hh] at hok
    obtain ⟨rfl, rfl, _, _, h⟩ := tagWaitC_close h
    exact ⟨TagFrame.rfl', hok.1, h⟩
  · rename_i hh
    simp only [hh] at hok
    repeat' split at h
    · cases h
    · cases h
    · obtain ⟨rfl, rfl, _, _, h⟩ := tagWaitC_close h
      exact ⟨TagFrame.rfl', hok.1, h⟩
  · have hf := nameLast_frame t.m t.pc
    repeat' split at h
    all_goals first
      | (cases h; done)
      | skip
    simp only [TagOut.close.injEq] at h
    obtain ⟨rfl, rfl, _⟩ := h
    exact ⟨⟨hf.name, hf.isVoid, hf.selfClosed, hf.autoFix⟩, rfl, by assumption⟩
  · repeat' split at h
    all_goals first
      | (cases h; done)
      | skip
    rename_i h1
    simp only [TagOut.close.injEq] at h
    obtain ⟨rfl, rfl, _⟩ := h
    exact ⟨⟨rfl, rfl, rfl, rfl⟩, rfl, h1.2⟩
  · cases h

/-- A doctype keyword is no special tag name. -/
theorem lower_of_upper_doctype {s : Str} (h : s.map toUpper = detectDoctype) :
    lowerAll s = ['d', 'o', 'c', 't', 'y', 'p', 'e'] := by
  have key : ∀ c k : Char, toUpper c = k → toLower c = toLower k := by
    intro c k h
    subst h
    simp only [char_eq_iff, toNat_toUpper, toNat_toLower]
    repeat' split
    all_goals omega
  have h2 : lowerAll s = lowerAll detectDoctype := by
    rw [← h]
    unfold lowerAll
    rw [List.map_map]
    apply List.map_congr_left
    intro c _
    exact key c _ rfl
  rw [h2]; decide

theorem doctype_plain {s : Str} (h : s.map toUpper = detectDoctype) :
    isVoidTag (lowerAll s) = false ∧ isContentTag (lowerAll s) none = false ∧ specialTag (lowerAll s) = none := by
  rw [lower_of_upper_doctype h]; decide

/-! ## The cases of `Step` -/

theorem alpha_name {c : Char} (h : isAlpha c = true) : isWs c = false ∧ c ≠ '/' ∧ c ≠ '>' := by
  unfold isAlpha at h
  rw [Bool.or_eq_true, isLower_iff, isUpper_iff] at h
  refine ⟨?_, ?_, ?_⟩
  · cases hw : isWs c with
    | false => rfl
    | true =>
      unfold isWs at hw
      simp only [Bool.or_eq_true, decide_eq_true_eq] at hw
      exfalso
      rcases hw with (((h1 | h1) | h1) | h1) | h1 <;> subst h1 <;> revert h <;> decide
  · rintro rfl; revert h; decide
  · rintro rfl; revert h; decide

theorem ctl_same_han {d : Doc} (h : d.handle = .wait ∨ d.handle = .unkownTag ∨ d.handle = .exclamationBegin) :
    d.handle ≠ .text ∧ d.handle ≠ .tagName ∧ d.handle ≠ .doctypeName := by
  rcases h with h | h | h <;> rw [h] <;> simp

theorem addChild_cell (d : Doc) (p : NodeId) (n : Cell) (hp : p < d.heap.size) (i : NodeId) :
    ((d.addChild p n).heap.cell i) =
      if i = d.heap.size then { n with parent := some p, index := ((d.heap.cell p).childs.getD []).length,
                                       root := some d.root }
      else if i = p then { d.heap.cell p with childs := some ((d.heap.cell p).childs.getD [] ++ [d.heap.size]) }
      else d.heap.cell i := by
  unfold Doc.addChild
  simp only [Heap.upd_cell, Heap.push_cell]
  by_cases h1 : i = d.heap.size
  · have : i ≠ p := by omega
    have h3 : d.heap.size ≠ p := by omega
    simp [h1, h3]
  · by_cases h2 : i = p
    · subst h2; simp [h1]
    · simp [h1, h2]

theorem addChild_size (d : Doc) (p : NodeId) (n : Cell) : (d.addChild p n).heap.size = d.heap.size + 1 := rfl

theorem addChild_ty (d : Doc) (p : NodeId) (n : Cell) (hp : p < d.heap.size) (i : NodeId) (hi : i < d.heap.size) :
    ((d.addChild p n).heap.cell i).nodeType = (d.heap.cell i).nodeType ∧
    ((d.addChild p n).heap.cell i).content = (d.heap.cell i).content ∧
    ((d.addChild p n).heap.cell i).tmeta = (d.heap.cell i).tmeta := by
  rw [addChild_cell d p n hp]
  have : i ≠ d.heap.size := by omega
  rw [if_neg this]
  split
  · rename_i h; subst h; exact ⟨rfl, rfl, rfl⟩
  · exact ⟨rfl, rfl, rfl⟩

theorem markSpaces_cell (h : Heap) (o : Option NodeId) (i : NodeId) :
    (h.markSpaces o).cell i =
      if o = some i then { h.cell i with nodeType := .spacesBetweenTag } else h.cell i := by
  unfold Heap.markSpaces
  cases o with
  | none => simp
  | some t =>
    simp only [Heap.upd_cell, Option.some.injEq]
    by_cases h1 : i = t
    · simp [h1]
    · have : ¬ t = i := fun h => h1 h.symm
      simp [h1, this]

@[simp] theorem markSpaces_size (h : Heap) (o : Option NodeId) : (h.markSpaces o).size = h.size := by
  cases o <;> rfl

/-- A node was added below the innermost open tag, and the remembered whitespace text was retyped. -/
theorem Ctl.grow {d d' : Doc} (hd : Ctl d) (n : Cell) (p : NodeId) (hp : d.chain.head? = some p)
    (hroot : d'.root = d.root)
    (o : Option NodeId) (hheap : d'.heap = ((d.addChild p n).heap.markSpaces o))
    (hcur : d'.current = d.heap.size)
    (hchain : d'.chain = if n.nodeType = .tag then d.heap.size :: d.chain else d.chain)
    (hn : n.nodeType ≠ .abstractRoot ∧ n.nodeType ≠ .spacesBetweenTag)
    (hcheck : (o = d.checkTextnode ∧ d'.checkTextnode = none) ∨ (o = none ∧ d'.checkTextnode = d.checkTextnode))
    (hhan : d.handle ≠ .text ∧ d.handle ≠ .tagName ∧ d.handle ≠ .doctypeName)
    (hdone : Done d' d.heap.size)
    (hs : HandleOk d') : Ctl d' := by
  have hplt := hd.chainLt p (List.mem_of_mem_head? hp)
  have hsz : d'.heap.size = d.heap.size + 1 := by rw [hheap]; simp [addChild_size]
  have ho : ∀ t, o = some t → d.checkTextnode = some t := by
    intro t ht
    rcases hcheck with h | h
    · rw [← h.1]; exact ht
    · rw [h.1] at ht; cases ht
  have hnew : (d'.heap.cell d.heap.size).nodeType = n.nodeType := by
    rw [hheap, markSpaces_cell]
    split
    · rename_i h
      have := (hd.check _ (ho _ h)).1
      omega
    · rw [addChild_cell d p n hplt]; simp
  have hle : ∀ i, i < d.heap.size → CellLe (d.heap.cell i) (d'.heap.cell i) := by
    intro i hi
    obtain ⟨h1, h2, h3⟩ := addChild_ty d p n hplt i hi
    rw [hheap, markSpaces_cell]
    split
    · rename_i h
      exact ⟨Or.inr ⟨(hd.check i (ho _ h)).2, rfl⟩, by rw [← h2]; exact id, by rw [← h3]; exact id⟩
    · exact ⟨Or.inl h1, by rw [← h2]; exact id, by rw [← h3]; exact id⟩
  refine hd.mono hroot (by omega) hle ?_ ?_ ?_ (by omega) ?_ ?_ ?_ hs
  · have h0 := (addChild_ty d p n hplt 0 hd.sizePos).2.2
    rw [hd.rootMeta] at h0
    rw [hheap, markSpaces_cell]
    split <;> exact h0
  · intro i h1 h2
    have : i = d.heap.size := by omega
    rw [this, hnew]; exact hn.1
  · intro i h1 h2
    by_cases h3 : i = d.heap.size
    · rw [h3]; exact hdone
    · have h4 : i < d.heap.size := by omega
      exact (hd.done h4).mono (hle i h4) (fun _ => hhan)
  · unfold Doc.cur; rw [hcur, hnew]; exact hn.2
  · rw [hchain]
    split
    · rename_i h
      exact Or.inr (Or.inr ⟨by intro h; rw [h] at hp; simp at hp, rfl, by omega, by rw [hnew, h]⟩)
    · exact Or.inl rfl
  · intro t ht
    rcases hcheck with h | h <;> rw [h.2] at ht
    · cases ht
    · obtain ⟨h1, h2⟩ := hd.check t ht
      refine ⟨by omega, ?_⟩
      rw [hheap, h.1, markSpaces_cell]
      simp only [reduceCtorEq, if_false]
      rw [(addChild_ty d p n hplt t h1).1, h2]

theorem putTag_cell (d : Doc) (t : TagSt) (id : Option Str) (i : NodeId) :
    (d.putTag t id).heap.cell i = if i = d.current then { d.heap.cell i with tmeta := some t.m } else d.heap.cell i :=
  rfl

/-- A tag state was written back. -/
theorem Ctl.put {d d' : Doc} (hd : Ctl d) (m : TagMeta) (hroot : d'.root = d.root)
    (hheap : d'.heap = d.heap.upd d.current fun c => { c with tmeta := some m })
    (hcur : d'.current = d.current) (hty : d.cur.nodeType = .tag ∨ d.cur.nodeType = .htmlDoctype)
    (hchain : d'.chain = d.chain ∨ d'.chain = d.chain.tail)
    (hcheck : d'.checkTextnode = d.checkTextnode)
    (hs : HandleOk d') : Ctl d' := by
  refine hd.updCur (fun c => { c with tmeta := some m }) hroot hheap hcur ⟨Or.inl rfl, id, by simp⟩ rfl ?_ ?_ hchain
    (Or.inl hcheck) hs
  · intro h; rw [h] at hty; simp at hty
  · have hc : d'.heap.cell d.current = { d.cur with tmeta := some m } := by rw [hheap]; simp [Doc.cur]
    refine ⟨?_, ?_, ?_⟩ <;> rw [hc]
    · intro h
      exfalso
      rcases hty with h2 | h2 <;> simp [h2] at h
    · intro _; left; simp
    · intro _; left; simp

theorem putTag_cur (d : Doc) (t : TagSt) (id : Option Str) :
    (d.putTag t id).cur = { d.cur with tmeta := some t.m } := by
  simp [Doc.cur, Doc.putTag]

theorem rawCode_cases (n : Str) :
    rawCode n = .htmlScript ∨ rawCode n = .htmlStyle ∨ rawCode n = .escapeableRawText := by
  unfold rawCode
  split
  · simp
  · split <;> simp

/-- The end of a start tag. -/
theorem Ctl.close {d : Doc} (hd : Ctl d) (m : TagMeta) (mark : Char) (id : Option Str)
    (hty : (d.cur.nodeType = .tag ∧ d.chain.head? = some d.current ∧ TagNameOk m.name) ∨
      (d.cur.nodeType = .htmlDoctype ∧ m.name.map toUpper = detectDoctype))
    (hdet : d.detect = none) (hsc : m.selfClosed = false) :
    Ctl ((d.putTag { handle := d.handle, m := m, pc := [], mark := mark } id).closeTag m) := by
  have hty' : d.cur.nodeType = .tag ∨ d.cur.nodeType = .htmlDoctype := by
    rcases hty with h | h
    · exact Or.inl h.1
    · exact Or.inr h.1
  unfold Doc.closeTag
  split
  · refine hd.put m rfl rfl rfl hty' (Or.inr rfl) rfl ?_
    simp [HandleOk, Doc.setCodeIn, Doc.putTag, hdet]
  · rename_i hnv
    split
    · rename_i hct
      refine hd.put m rfl rfl rfl hty' (Or.inl rfl) rfl ?_
      rcases hty with ⟨h1, h2, h3⟩ | ⟨h1, h2⟩
      · have hh : ((d.putTag { handle := d.handle, m := m, pc := [], mark := mark } id).setCodeIn
            (rawCode m.name)).handle = .contentTag := by
          rcases rawCode_cases m.name with h | h | h <;> simp [h, Doc.setCodeIn]
        have hr : rawCode m.name = (if isEqualChars (lowerAll m.name) scriptTagName none then CodeTypeIn.htmlScript
         else if isEqualChars (lowerAll m.name) styleTagName none then .htmlStyle
         else .escapeableRawText) := rfl
        rw [← hr]
        refine HandleOk.content hh ?_ h2 m ?_ rfl rfl hct h3 hsc (by simpa using hnv)
        · show (d.putTag _ id).cur.nodeType = .tag
          rw [putTag_cur]; exact h1
        · show (d.putTag _ id).cur.tmeta = some m
          rw [putTag_cur]
      · have := (doctype_plain h2).2.1
        rw [this] at hct; cases hct
    · refine hd.put m rfl rfl rfl hty' (Or.inl rfl) rfl ?_
      simp [HandleOk, Doc.setCodeIn, Doc.putTag, hdet]

/-- `HandleOk` for a tag state written back. -/
theorem handleOk_put {d : Doc} (t : TagSt) (id : Option Str) (hok : t.Ok2) (hin : t.handle.inTag = true)
    (hdet : d.detect = none) (hsc : t.m.selfClosed = false) (hv : t.m.isVoid = isVoidTag (lowerAll t.m.name))
    (hty : (d.codeIn = .tag ∧ d.cur.nodeType = .tag ∧ d.chain.head? = some d.current ∧ TagNameOk t.m.name) ∨
      (d.codeIn = .htmlDoctype ∧ d.cur.nodeType = .htmlDoctype ∧ t.m.name.map toUpper = detectDoctype)) :
    HandleOk (d.putTag t id) := by
  have hcur := putTag_cur d t id
  have key : (d.putTag t id).detect = none ∧
      ∃ m, (d.putTag t id).cur.tmeta = some m ∧ ((d.putTag t id).tagSt m).Ok2 ∧ m.selfClosed = false ∧
        m.isVoid = isVoidTag (lowerAll m.name) ∧
        (((d.putTag t id).codeIn = .tag ∧ (d.putTag t id).cur.nodeType = .tag ∧
            (d.putTag t id).chain.head? = some (d.putTag t id).current ∧ TagNameOk m.name) ∨
         ((d.putTag t id).codeIn = .htmlDoctype ∧ (d.putTag t id).cur.nodeType = .htmlDoctype ∧
            m.name.map toUpper = detectDoctype)) := by
    refine ⟨hdet, t.m, by rw [hcur], hok, hsc, hv, ?_⟩
    rw [hcur]
    exact hty
  have hh : (d.putTag t id).handle = t.handle := rfl
  unfold HandleOk
  rw [hh]
  cases h : t.handle <;> rw [h] at hin <;> first | (cases hin; done) | exact key

theorem Ctl.chain_head {d : Doc} (hd : Ctl d) {p : NodeId} (hp : d.chain.head? = some p) : p < d.heap.size :=
  hd.chainLt p (List.mem_of_mem_head? hp)

/-- The cell created by `addChild` followed by `setTextSpacesBetween`. -/
theorem grown_cell {d : Doc} (hd : Ctl d) (p : NodeId) (hp : d.chain.head? = some p) (n : Cell) (o : Option NodeId)
    (ho : o = d.checkTextnode ∨ o = none) :
    ((d.addChild p n).heap.markSpaces o).cell d.heap.size =
      { n with parent := some p, index := ((d.heap.cell p).childs.getD []).length, root := some d.root } := by
  rw [markSpaces_cell]
  have : ¬ o = some d.heap.size := by
    intro h
    rcases ho with h1 | h1 <;> rw [h1] at h
    · have := (hd.check _ h).1; omega
    · cases h
  rw [if_neg this, addChild_cell d p n (hd.chain_head hp)]
  simp

theorem markTarget_text {d : Doc} (hd : Ctl d) {t x : NodeId} (h : d.markTarget t = some x) :
    x < d.heap.size ∧ (d.heap.cell x).nodeType = .text := by
  unfold Doc.markTarget at h
  split at h
  · cases h
  · exact hd.check x h

theorem chain_not_text {d : Doc} (hd : Ctl d) {t : NodeId} (ht : t ∈ d.chain) :
    (d.heap.cell t).nodeType = .tag ∨ (d.heap.cell t).nodeType = .abstractRoot := by
  by_cases h0 : t = 0
  · right; rw [h0, (hd.rootTy 0 hd.sizePos).2 rfl]
  · left; exact hd.chainTag t ht h0

/-- The cells after a matched end tag. -/
theorem endHeap_cell {d : Doc} (hd : Ctl d) (t : NodeId) (name : Str) (ht : d.chain.head? = some t)
    (hty : d.cur.nodeType = .tagEnd) (i : NodeId) :
    (d.endHeap t name).cell i =
    if i = d.current then
      { d.heap.cell i with endAt := d.position + 1, parent := some t, content := some name }
    else if i = t then { d.heap.cell i with endTag := some d.current }
    else if d.markTarget t = some i then { d.heap.cell i with nodeType := .spacesBetweenTag }
    else d.heap.cell i := by
  have hct : ∀ x, (d.heap.cell x).nodeType ≠ .text → ¬ d.markTarget t = some x :=
    fun x hx h => hx (markTarget_text hd h).2
  have htt := chain_not_text hd (List.mem_of_mem_head? ht)
  have htt' : (d.heap.cell t).nodeType ≠ .text := by rcases htt with h | h <;> rw [h] <;> simp
  have hne : d.current ≠ t := by
    intro h
    unfold Doc.cur at hty
    rw [h] at hty
    rcases htt with h | h <;> rw [h] at hty <;> cases hty
  unfold Doc.endHeap
  rw [Heap.upd_cell, markSpaces_cell, Heap.upd_cell]
  by_cases h1 : i = d.current
  · subst h1
    have := hct d.current (by unfold Doc.cur at hty; rw [hty]; simp)
    simp only [if_true, this, if_false, hne]
  · by_cases h2 : i = t
    · subst h2
      have := hct i htt'
      simp only [h1, if_true, this, if_false]
    · simp only [h1, h2, if_false]

@[simp] theorem endHeap_size (d : Doc) (t : NodeId) (name : Str) : (d.endHeap t name).size = d.heap.size := by
  simp [Doc.endHeap]

theorem endHeap_cell_eq {d : Doc} (hd : Ctl d) (t : NodeId) (name : Str) (ht : d.chain.head? = some t)
    (hty : d.cur.nodeType = .tagEnd) (i : NodeId) :
    ((d.endHeap t name).cell i).nodeType =
        (if d.markTarget t = some i then NodeType.spacesBetweenTag else (d.heap.cell i).nodeType) ∧
      ((d.endHeap t name).cell i).content = (if i = d.current then some name else (d.heap.cell i).content) ∧
      ((d.endHeap t name).cell i).tmeta = (d.heap.cell i).tmeta := by
  rw [endHeap_cell hd t name ht hty]
  have htt := chain_not_text hd (List.mem_of_mem_head? ht)
  have hne : d.current ≠ t := by
    intro h
    unfold Doc.cur at hty
    rw [h] at hty
    rcases htt with h | h <;> rw [h] at hty <;> cases hty
  by_cases h1 : i = d.current
  · subst h1
    have : ¬ d.markTarget t = some d.current := fun h => by
      have := (markTarget_text hd h).2
      unfold Doc.cur at hty; rw [hty] at this; cases this
    simp only [if_true, this, if_false, and_self]
  · by_cases h2 : i = t
    · subst h2
      have : ¬ d.markTarget i = some i := fun h => by
        have := (markTarget_text hd h).2
        rcases htt with h | h <;> rw [h] at this <;> cases this
      simp only [h1, if_true, this, if_false, and_self]
    · by_cases h3 : d.markTarget t = some i <;> simp only [h1, h2, h3, if_true, if_false, and_self]

@[simp] theorem rawHeap_size (d : Doc) (n : Nat) : (d.rawHeap n).size = d.heap.size + 1 := rfl

theorem rawHeap_cell {d : Doc} (hd : Ctl d) (n : Nat) (i : NodeId) :
    (d.rawHeap n).cell i =
      if i = d.heap.size then { Cell.new .tagEnd (d.position + 1) with
        content := some (d.prevChars.drop (n + 2)), parent := some d.current }
      else if i = d.current then
        { d.heap.cell i with endTag := some d.heap.size, content := some (d.prevChars.take n) }
      else d.heap.cell i := by
  unfold Doc.rawHeap
  rw [Heap.upd_cell, Heap.push_cell]
  have := hd.curLt
  by_cases h1 : i = d.heap.size
  · have h2 : ¬ i = d.current := by omega
    rw [if_neg h2, if_pos h1, if_pos h1]
  · simp only [h1, if_false]

/-- The end of a text. -/
theorem Ctl.endText {d : Doc} (hd : Ctl d) (ht : d.cur.nodeType = .text) (hdet : d.detect = none) : Ctl d.endText := by
  refine hd.updCur (fun n => { n with content := some d.prevChars, endAt := d.position }) rfl rfl rfl
    ⟨Or.inl rfl, by simp, id⟩ rfl (by rw [ht]; simp) ?_ (Or.inl rfl) ?_ ?_
  · refine Done.withText ?_ ?_
    · unfold Doc.endText; simpa [Doc.cur] using ht
    · unfold Doc.endText; simp
  · unfold Doc.endText
    cases d.repeatWhitespace
    · exact Or.inr (Or.inl rfl)
    · exact Or.inr (Or.inr ⟨rfl, ht⟩)
  · exact HandleOk.unkownTag rfl rfl rfl hdet

/-- `Ctl` is preserved by every transition. -/
theorem Ctl.step {d d' : Doc} {c : Char} (hd : Ctl d) (h : Step d c d') : Ctl d' := by
  have hs := hd.hs
  unfold HandleOk at hs
  cases h with
  | lt hh hc =>
    simp only [hh] at hs
    exact hd.same rfl rfl rfl (Or.inr (ctl_same_han (Or.inl hh))) rfl rfl
      (HandleOk.unkownTag rfl rfl hs.2.1 hs.2.2)
  | textResume hh hc hf ht w hw =>
    simp only [hh] at hs
    refine hd.updCur (fun n => { n with content := some [] }) rfl rfl rfl ⟨Or.inl rfl, by simp, id⟩ rfl
      (by rw [ht]; simp) (Done.readText rfl rfl (by simpa [Doc.cur] using ht)) (Or.inl rfl) (Or.inl rfl) ?_
    exact HandleOk.text rfl rfl hs.2.2 (by simpa [Doc.cur] using ht) (by simp)
  | textStart hh hc hf p hp =>
    simp only [hh] at hs
    have hcell := grown_cell hd p hp (Cell.new .text d.position) none (Or.inr rfl)
    refine hd.grow (Cell.new .text d.position) p hp rfl none rfl rfl rfl ⟨by simp [Cell.new], by simp [Cell.new]⟩
      (Or.inr ⟨rfl, rfl⟩) (ctl_same_han (Or.inl hh)) (Done.readText rfl rfl ?_) ?_
    · exact congrArg (fun c => c.nodeType) hcell
    · exact HandleOk.text rfl rfl hs.2.2 (congrArg (fun c => c.nodeType) hcell) (by simp)
  | textMore hh hc =>
    simp only [hh] at hs
    exact hd.same rfl rfl rfl (Or.inl rfl) rfl rfl (HandleOk.text hh hs.1 hs.2.1 hs.2.2.1 (by simp))
  | textEnd hh hc =>
    simp only [hh] at hs
    exact hd.endText hs.2.2.1 hs.2.1
  | tagOpen hh hc p hp =>
    simp only [hh] at hs
    have hcell := grown_cell hd p hp (Cell.new .tag d.memPosition) d.checkTextnode (Or.inl rfl)
    refine hd.grow (Cell.new .tag d.memPosition) p hp rfl d.checkTextnode rfl rfl rfl
      ⟨by simp [Cell.new], by simp [Cell.new]⟩
      (Or.inl ⟨rfl, rfl⟩) (ctl_same_han (Or.inr (Or.inl hh))) (Done.readTag rfl rfl ?_) ?_
    · exact congrArg (fun c => c.nodeType) hcell
    · refine HandleOk.tagName rfl rfl hs.2.2 (congrArg (fun c => c.nodeType) hcell) (congrArg (fun c => c.tmeta) hcell) ?_ ?_
      · simp [Doc.addChild, Cell.new]
      · refine ⟨c, [], rfl, hc, ?_⟩
        intro x hx
        simp only [List.mem_singleton] at hx
        subst hx
        exact alpha_name hc
  | endOpen hh hc =>
    simp only [hh] at hs
    have hcell : ∀ i, ((d.heap.push { Cell.new .tagEnd d.memPosition with
          prev := if d.opts.autoFixUnclosedTag then some d.current else none }).cell i) =
        if i = d.heap.size then { Cell.new .tagEnd d.memPosition with
          prev := if d.opts.autoFixUnclosedTag then some d.current else none } else d.heap.cell i := fun i => rfl
    have hle : ∀ i, i < d.heap.size → CellLe (d.heap.cell i) ((d.heap.push { Cell.new .tagEnd d.memPosition with
          prev := if d.opts.autoFixUnclosedTag then some d.current else none }).cell i) := by
      intro i hi
      rw [hcell, if_neg (by omega)]
      exact CellLe.refl _
    have h0 := hd.sizePos
    refine hd.mono rfl (Nat.le_succ _) hle ?_ ?_ ?_ (Nat.lt_succ_self _) ?_ (Or.inl rfl) ?_ ?_
    · show ((d.heap.push _).cell 0).tmeta = none
      rw [hcell, if_neg (by omega)]
      exact hd.rootMeta
    · intro i h1 h2
      have : i = d.heap.size := by simp at h2; omega
      subst this
      show ((d.heap.push _).cell _).nodeType ≠ _
      rw [hcell, if_pos rfl]; simp [Cell.new]
    · intro i h1 h2
      by_cases hi : i = d.heap.size
      · refine Done.other (Or.inl ?_)
        show ((d.heap.push _).cell _).nodeType = _
        rw [hcell, if_pos hi]; rfl
      · have hi' : i < d.heap.size := by simp at h1; omega
        exact (hd.done hi').mono (hle i hi') (fun _ => ctl_same_han (Or.inr (Or.inl hh)))
    · show ((d.heap.push _).cell _).nodeType ≠ _
      rw [hcell, if_pos rfl]; simp [Cell.new]
    · intro t ht
      obtain ⟨h1, h2⟩ := hd.check t ht
      refine ⟨Nat.lt_succ_of_lt h1, ?_⟩
      show ((d.heap.push _).cell _).nodeType = _
      rw [hcell, if_neg (by omega)]; exact h2
    · refine HandleOk.tagEnd rfl rfl hs.2.2 ?_ (by rw [hs.2.1]; simp) ?_
      · show ((d.heap.push _).cell _).nodeType = _
        rw [hcell, if_pos rfl]; rfl
      · intro q hq
        have hq' : ((d.heap.push { Cell.new .tagEnd d.memPosition with
          prev := if d.opts.autoFixUnclosedTag then some d.current else none }).cell d.heap.size).prev = some q := hq
        rw [hcell, if_pos rfl] at hq'
        simp only at hq'
        split at hq'
        · cases hq'
          refine ⟨Nat.lt_succ_of_lt hd.curLt, ?_⟩
          show ((d.heap.push _).cell _).nodeType ≠ _
          rw [hcell, if_neg (by have := hd.curLt; omega)]; exact hd.curTy
        · cases hq'
  | bang hh hc =>
    simp only [hh] at hs
    exact hd.same rfl rfl rfl (Or.inr (ctl_same_han (Or.inr (Or.inl hh)))) rfl rfl
      (HandleOk.exclFirst rfl rfl hs.2.2 hs.2.1)
  | ltExtend hh hf hc ht w hw d1 h1 =>
    simp only [hh] at hs
    have hty : d1.cur.nodeType = .text := by rw [h1]; simpa [Doc.cur] using ht
    have hpc : d1.prevChars ≠ [] := by rw [h1]; simp only; split <;> simp
    have hc1 : Ctl d1 := by
      refine hd.updCur (fun n => { n with content := some [] }) (by rw [h1]) (by rw [h1]) (by rw [h1])
        ⟨Or.inl rfl, by simp, id⟩ rfl
        (by rw [ht]; simp) (Done.readText (by rw [h1]) (by rw [h1]) ?_) (Or.inl (by rw [h1])) (Or.inl (by rw [h1])) ?_
      · rw [h1]; simpa [Doc.cur] using ht
      · exact HandleOk.text (by rw [h1]) (by rw [h1]) (by rw [h1]; exact hs.2.2) hty hpc
    split
    · exact hc1.endText hty (by rw [h1]; exact hs.2.2)
    · exact hc1
  | ltNew hh hf hc ht p hp d1 h1 =>
    simp only [hh] at hs
    have hplt : p < d.heap.size := by
      rw [hp]
      split
      · exact hd.curLt
      · cases hch : d.chain.head? with
        | none => rw [Option.getD_none, hd.root0]; exact hd.sizePos
        | some q => exact hd.chain_head hch
    have hcell : ∀ i, d1.heap.cell i = if i = d.heap.size then
          { Cell.new .text d.memPosition with index := ((d.heap.cell p).childs.getD []).length }
        else if i = p then { d.heap.cell p with childs := some ((d.heap.cell p).childs.getD [] ++ [d.heap.size]) }
        else d.heap.cell i := by
      intro i
      rw [h1]
      simp only [Heap.upd_cell, Heap.push_cell]
      by_cases hi : i = d.heap.size
      · have h2 : d.heap.size ≠ p := by omega
        subst hi
        rw [if_neg h2, if_pos rfl, if_pos rfl]
      · by_cases hip : i = p
        · subst hip; simp [hi]
        · simp [hi, hip]
    have hold : ∀ i, i < d.heap.size → (d1.heap.cell i).nodeType = (d.heap.cell i).nodeType ∧
        (d1.heap.cell i).content = (d.heap.cell i).content ∧ (d1.heap.cell i).tmeta = (d.heap.cell i).tmeta := by
      intro i hi
      rw [hcell, if_neg (by omega)]
      split
      · rename_i h; subst h; exact ⟨rfl, rfl, rfl⟩
      · exact ⟨rfl, rfl, rfl⟩
    have hle : ∀ i, i < d.heap.size → CellLe (d.heap.cell i) (d1.heap.cell i) := by
      intro i hi
      obtain ⟨a, b, e⟩ := hold i hi
      exact ⟨Or.inl a, by rw [b]; exact id, by rw [e]; exact id⟩
    have hsz : d1.heap.size = d.heap.size + 1 := by rw [h1]; rfl
    have hcur : d1.current = d.heap.size := by rw [h1]
    have hty : d1.cur.nodeType = .text := by
      unfold Doc.cur; rw [hcur, hcell, if_pos rfl]; rfl
    have hpc : d1.prevChars ≠ [] := by rw [h1]; simp only; split <;> simp
    have hc1 : Ctl d1 := by
      refine hd.mono (by rw [h1]) (by omega) hle ?_ ?_ ?_ (by omega) (by rw [hty]; simp) (Or.inl (by rw [h1])) ?_ ?_
      · rw [(hold 0 hd.sizePos).2.2]; exact hd.rootMeta
      · intro i hi1 hi2
        have : i = d.heap.size := by omega
        rw [hcell, if_pos this]; simp [Cell.new]
      · intro i hi1 hi2
        by_cases hi : i = d.heap.size
        · refine Done.readText (by rw [h1]) (by rw [hcur, hi]) ?_
          rw [hcell, if_pos hi]; rfl
        · have hi' : i < d.heap.size := by omega
          exact (hd.done hi').mono (hle i hi') (fun _ => ctl_same_han (Or.inr (Or.inl hh)))
      · intro t ht
        have ht' : d.checkTextnode = some t := by rw [h1] at ht; exact ht
        obtain ⟨h2, h3⟩ := hd.check t ht'
        exact ⟨by omega, by rw [(hold t h2).1]; exact h3⟩
      · exact HandleOk.text (by rw [h1]) (by rw [h1]) (by rw [h1]; exact hs.2.2) hty hpc
    split
    · exact hc1.endText hty (by rw [h1]; exact hs.2.2)
    · exact hc1
  | exclFirst hh hdet D hD =>
    simp only [hh] at hs
    refine hd.same rfl rfl rfl (Or.inl rfl) rfl rfl (HandleOk.exclMore hh hs.1 D rfl ?_ (by simp) ?_ ?_)
    · rcases hD with h | h | h
      · exact Or.inl h.2
      · exact Or.inr (Or.inl h.2)
      · exact Or.inr (Or.inr h.2.1)
    · rcases hD with h | h | h
      · rw [h.2]; simp [detectComment]
      · rw [h.2]; simp [detectDoctype]
      · rw [h.2.1]; simp [detectCdata]
    · show [c].map toUpper = D.take 1
      rcases hD with h | h | h
      · rw [h.2, h.1]; decide
      · rw [h.2]; rcases h.1 with h | h <;> rw [h] <;> decide
      · rw [h.2.1, h.1]; decide
  | exclMore hh D hdet hl hc =>
    simp only [hh] at hs
    obtain ⟨hci, hs⟩ := hs
    rcases hs with ⟨h1, _⟩ | ⟨D', h1, h2, h3, h4, h5⟩
    · rw [hdet] at h1; cases h1
    · rw [hdet] at h1; cases h1
      refine hd.same rfl rfl rfl (Or.inl rfl) rfl rfl (HandleOk.exclMore hh hci D hdet h2 (by simp) ?_ ?_)
      · simpa using hl
      · simp only [List.map_append, List.map_cons, List.map_nil, List.length_append, List.length_cons, List.length_nil]
        rw [List.take_add_one, hc, h5]
        rfl
  | commentOpen hh hdet hl hc p hp =>
    have hcell := grown_cell hd p hp (Cell.new .comment d.memPosition) d.checkTextnode (Or.inl rfl)
    refine hd.grow (Cell.new .comment d.memPosition) p hp rfl d.checkTextnode rfl rfl rfl
      ⟨by simp [Cell.new], by simp [Cell.new]⟩
      (Or.inl ⟨rfl, rfl⟩) (ctl_same_han (Or.inr (Or.inr hh))) (Done.other (Or.inr (Or.inl ?_))) ?_
    · exact congrArg (fun c => c.nodeType) hcell
    · exact HandleOk.comment rfl rfl (Or.inl ⟨rfl, rfl, congrArg (fun c => c.nodeType) hcell⟩)
  | cdataOpen hh hdet hl hc p hp =>
    have hcell := grown_cell hd p hp (Cell.new .xmlCdata d.memPosition) d.checkTextnode (Or.inl rfl)
    refine hd.grow (Cell.new .xmlCdata d.memPosition) p hp rfl d.checkTextnode rfl rfl rfl
      ⟨by simp [Cell.new], by simp [Cell.new]⟩
      (Or.inl ⟨rfl, rfl⟩) (ctl_same_han (Or.inr (Or.inr hh))) (Done.other (Or.inr (Or.inr ?_))) ?_
    · exact congrArg (fun c => c.nodeType) hcell
    · exact HandleOk.comment rfl rfl (Or.inr ⟨rfl, rfl, congrArg (fun c => c.nodeType) hcell⟩)
  | doctypeOpen hh hdet hl hc p hp =>
    simp only [hh] at hs
    have hcell := grown_cell hd p hp (Cell.new .htmlDoctype d.memPosition) d.checkTextnode (Or.inl rfl)
    refine hd.grow (Cell.new .htmlDoctype d.memPosition) p hp rfl d.checkTextnode rfl rfl rfl
      ⟨by simp [Cell.new], by simp [Cell.new]⟩
      (Or.inl ⟨rfl, rfl⟩) (ctl_same_han (Or.inr (Or.inr hh))) (Done.readDoctype rfl rfl ?_) ?_
    · exact congrArg (fun c => c.nodeType) hcell
    · refine HandleOk.doctypeName rfl rfl rfl (congrArg (fun c => c.nodeType) hcell)
        (congrArg (fun c => c.tmeta) hcell) ?_
      rcases hs.2 with ⟨h1, _⟩ | ⟨D', h1, h2, h3, h4, h5⟩
      · rw [hdet] at h1; cases h1
      · rw [hdet] at h1; cases h1
        simp only [List.map_append, List.map_cons, List.map_nil]
        have hlen : d.prevChars.length = 6 := by simp [detectDoctype] at hl; exact hl
        rw [h5, hlen]
        rcases hc with rfl | rfl <;> decide
  | commentMore hh hc =>
    simp only [hh] at hs
    exact hd.same rfl rfl rfl (Or.inl rfl) rfl rfl (HandleOk.comment hh hs.1 hs.2)
  | commentClose hh hc b hb hp =>
    simp only [hh] at hs
    have hty : d.cur.nodeType = .tagEnd ∨ d.cur.nodeType = .comment ∨ d.cur.nodeType = .xmlCdata := by
      rcases hs.2 with h | h
      · exact Or.inr (Or.inl h.2.2)
      · exact Or.inr (Or.inr h.2.2)
    refine hd.updCur (fun n => { n with content := some b, endAt := d.position + 1 }) rfl rfl rfl
      ⟨Or.inl rfl, by simp, id⟩ rfl ?_ (Done.other (by simpa [Doc.cur] using hty)) (Or.inl rfl) (Or.inl rfl)
      (HandleOk.wait rfl (Or.inl rfl) rfl hs.1)
    intro h; rw [h] at hty; simp at hty
  | doctypeName hh hc =>
    simp only [hh] at hs
    refine hd.put _ rfl rfl rfl (Or.inr hs.2.2.1) (Or.inl rfl) rfl ?_
    refine handleOk_put _ _ ?_ rfl hs.2.1 rfl rfl (Or.inr ⟨hs.1, hs.2.2.1, hs.2.2.2.2⟩)
    simp [TagSt.Ok2]
  | nameMore hh hc =>
    simp only [hh] at hs
    refine hd.same rfl rfl rfl (Or.inl rfl) rfl rfl
      (HandleOk.tagName hh hs.1 hs.2.1 hs.2.2.1 hs.2.2.2.1 hs.2.2.2.2.1 ?_)
    obtain ⟨a, as, h1, h2, h3⟩ := hs.2.2.2.2.2
    refine ⟨a, as ++ [c], by rw [h1]; rfl, h2, ?_⟩
    intro x hx
    rcases List.mem_append.1 hx with hx | hx
    · exact h3 x hx
    · simp only [List.mem_singleton] at hx
      rw [hx]; exact hc
  | nameEnd hh hc =>
    simp only [hh] at hs
    refine hd.put _ rfl rfl rfl (Or.inl hs.2.2.1) (Or.inl rfl) rfl ?_
    refine handleOk_put _ _ ?_ ?_ hs.2.1 rfl rfl (Or.inl ⟨hs.1, hs.2.2.1, hs.2.2.2.2.1, hs.2.2.2.2.2⟩)
    · by_cases h : c = '/' <;> simp [TagSt.Ok2, h]
    · by_cases h : c = '/' <;> simp [h, Handler.inTag]
  | nameClose hh hc m hm =>
    simp only [hh] at hs
    exact hd.close m d.markChar none (Or.inl ⟨hs.2.2.1, hs.2.2.2.2.1, by rw [hm]; exact hs.2.2.2.2.2⟩) hs.2.1
      (by rw [hm])
  | tagMore hh m hm t id ht =>
    obtain ⟨hdet, m', hm', hok, hsc, hv, hty⟩ := inTag_hs hd hh
    rw [hm] at hm'; cases hm'
    obtain ⟨h1, h2, h3⟩ := tagChar_cont hok ht
    have hname : t.m.name = m.name := h2.name
    refine hd.put t.m rfl rfl rfl ?_ (Or.inl rfl) rfl ?_
    · rcases hty with h | h
      · exact Or.inl h.2.1
      · exact Or.inr h.2.1
    · refine handleOk_put t id h1 h3 hdet (h2.selfClosed.trans hsc) ?_ ?_
      · rw [hname, ← hv]; exact h2.isVoid
      · rw [hname]; exact hty
  | tagClose hh m hm m' pc mark id ht =>
    obtain ⟨hdet, m'', hm', hok, hsc, hv, hty⟩ := inTag_hs hd hh
    rw [hm] at hm'; cases hm'
    obtain ⟨h1, h2, h3⟩ := tagChar_close hok ht
    have hname : m'.name = m.name := h1.name
    subst h2
    refine hd.close m' mark id ?_ hdet (h1.selfClosed.trans hsc)
    rw [hname]
    rcases hty with h | h
    · exact Or.inl ⟨h.2.1, h.2.2⟩
    · exact Or.inr ⟨h.2.1, h.2.2⟩
  | tagSelf hh hc m hm ha =>
    obtain ⟨hdet, m', hm', hok, hsc, hv, hty⟩ := inTag_hs hd (by rw [hh]; rfl)
    rw [hm] at hm'; cases hm'
    have hpc : d.prevChars = [] := by
      unfold TagSt.Ok2 at hok
      have : (d.tagSt m).handle = .tagSelfClosing := hh
      simp only [this] at hok
      exact hok.1
    refine hd.put { m with selfClosed := true } rfl rfl rfl ?_ (Or.inr rfl) rfl
      (HandleOk.wait rfl (Or.inl rfl) hpc hdet)
    rcases hty with h | h
    · exact Or.inl h.2.1
    · exact Or.inr h.2.1
  | endMore hh hc =>
    simp only [hh] at hs
    refine hd.same rfl rfl rfl (Or.inl rfl) rfl rfl (HandleOk.tagEnd hh hs.1 hs.2.1 hs.2.2.1 ?_ hs.2.2.2.2)
    intro h
    rcases List.mem_append.1 h with h | h
    · exact hs.2.2.2.1 h
    · simp at h; exact hc h.symm
  | endMatch hh hc t m hm =>
    simp only [hh] at hs
    have hcell := endHeap_cell_eq hd t d.prevChars hm.2.1 hs.2.2.1
    have hle : ∀ i, i < d.heap.size → CellLe (d.heap.cell i) ((d.endHeap t d.prevChars).cell i) := by
      intro i hi
      obtain ⟨h1, h2, h3⟩ := hcell i
      refine ⟨?_, ?_, by rw [h3]; exact id⟩
      · rw [h1]
        split
        · rename_i h; exact Or.inr ⟨(markTarget_text hd h).2, rfl⟩
        · exact Or.inl rfl
      · rw [h2]
        split
        · simp
        · exact id
    have hcm : ¬ d.markTarget t = some d.current := fun h => by
      have := (markTarget_text hd h).2
      have h2 := hs.2.2.1
      unfold Doc.cur at h2; rw [h2] at this; cases this
    refine hd.mono rfl (by simp) hle ?_ ?_ ?_ (by simpa using hd.curLt) ?_ (Or.inr (Or.inl rfl)) ?_
      (HandleOk.wait rfl (Or.inl rfl) rfl hs.2.1)
    · exact (hcell 0).2.2.trans hd.rootMeta
    · intro i h1 h2
      simp at h2; omega
    · intro i h1 h2
      simp at h1
      exact (hd.done h1).mono (hle i h1) (fun _ => by rw [hh]; simp)
    · intro h
      have h2 := (hcell d.current).1.symm.trans h
      rw [if_neg hcm] at h2
      exact hd.curTy h2
    · intro x hx
      have hx' : (if onlyText d.heap t then d.checkTextnode else none) = some x := hx
      split at hx'
      · rename_i ho
        obtain ⟨h1, h2⟩ := hd.check x hx'
        refine ⟨by simpa using h1, (hcell x).1.trans ?_⟩
        have : d.markTarget t = none := by unfold Doc.markTarget; rw [if_pos ho]
        rw [this]; exact h2
      · cases hx'
  | endStray hh hc hf hm =>
    simp only [hh] at hs
    have hdn : ∀ i, i < d.heap.size → Done { d with
        current := d.cur.prev.getD d.current, prevChars := [], codeIn := .unkown, handle := .wait } i := by
      intro i hi
      exact (hd.done hi).mono (CellLe.refl _) (fun _ => by rw [hh]; simp)
    refine hd.mono rfl (Nat.le_refl _) (fun i _ => CellLe.refl _) hd.rootMeta ?_ ?_ ?_ ?_ (Or.inl rfl) hd.check
      (HandleOk.wait rfl (Or.inl rfl) rfl hs.2.1)
    · intro i h1 h2; exact absurd h2 (Nat.not_lt.2 h1)
    · intro i hi _; exact hdn i hi
    · show d.cur.prev.getD d.current < d.heap.size
      cases hp : d.cur.prev with
      | none => exact hd.curLt
      | some q => exact (hs.2.2.2.2 q hp).1
    · show (d.heap.cell (d.cur.prev.getD d.current)).nodeType ≠ _
      cases hp : d.cur.prev with
      | none => exact hd.curTy
      | some q => exact (hs.2.2.2.2 q hp).2
  | rawMore hh hc =>
    simp only [hh] at hs
    obtain ⟨h1, h2, m, h3, h4, h5, h6, h7, h8, h9⟩ := hs
    exact hd.same rfl rfl rfl (Or.inl rfl) rfl rfl (HandleOk.content hh h1 h2 m h3 h4 h5 h6 h7 h8 h9)
  | rawClose hh hc e he n hn =>
    simp only [hh] at hs
    have hcl := hd.curLt
    have hcell := rawHeap_cell hd n
    have hle : ∀ i, i < d.heap.size → CellLe (d.heap.cell i) ((d.rawHeap n).cell i) := by
      intro i hi
      rw [hcell, if_neg (by omega)]
      split
      · exact ⟨Or.inl rfl, by simp, id⟩
      · exact CellLe.refl _
    refine hd.mono rfl (by simp) hle ?_ ?_ ?_ (by simp; omega) ?_ (Or.inr (Or.inl rfl)) ?_
      (HandleOk.wait rfl (Or.inl rfl) rfl rfl)
    · show ((d.rawHeap n).cell 0).tmeta = none
      have := hd.sizePos
      rw [hcell, if_neg (by omega)]
      split <;> exact hd.rootMeta
    · intro i h1 h2
      simp at h2
      show ((d.rawHeap n).cell i).nodeType ≠ _
      rw [hcell, if_pos (by omega)]
      simp [Cell.new]
    · intro i h1 h2
      simp at h1
      by_cases hi : i = d.heap.size
      · refine Done.other (Or.inl ?_)
        show ((d.rawHeap n).cell i).nodeType = _
        rw [hcell, if_pos hi]; rfl
      · have hi' : i < d.heap.size := by omega
        exact (hd.done hi').mono (hle i hi') (fun _ => by rw [hh]; simp)
    · show ((d.rawHeap n).cell d.current).nodeType ≠ _
      rw [hcell, if_neg (by omega), if_pos rfl]
      exact hd.curTy
    · intro x hx
      obtain ⟨h1, h2⟩ := hd.check x hx
      refine ⟨by simp; omega, ?_⟩
      show ((d.rawHeap n).cell x).nodeType = _
      rw [hcell, if_neg (by omega)]
      split <;> exact h2

end Rphtml
