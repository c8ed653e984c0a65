import Verif.Proofs.Spaces
import Verif.Proofs.Span
import Verif.Proofs.NoFix
import Verif.Spec.Blank

/-!
# Which whitespace texts become `SpacesBetweenTag`, with any options

`BlankInv` says for every whitespace-only text of a run how it was or still can be decided, whatever was repaired.
-/

namespace Rphtml
open Spec

/-! ## What has been decided -/

/-- The next sibling of `x` is a text. -/
def ByText (h : Heap) (x : NodeId) : Prop :=
  ∃ q l y r, q < h.size ∧ h.kids q = l ++ x :: y :: r ∧ (h.cell y).nodeType.isText

/-- The next sibling of `x` is something else. -/
def ByOther (h : Heap) (x : NodeId) : Prop :=
  ∃ q l y r, q < h.size ∧ h.kids q = l ++ x :: y :: r ∧ ¬ (h.cell y).nodeType.isText

/-- The text `x` stays a text. -/
def Stays (h : Heap) (x : NodeId) : Prop := ByText h x ∨ ∃ t, Lone h x t ∧ ByText h t

/-- The text `x` becomes spaces. -/
def Goes (h : Heap) (x : NodeId) : Prop :=
  ByOther h x ∨
  (∃ p l, p < h.size ∧ h.kids p = l ++ [x] ∧ l ≠ [] ∧ (h.cell p).endTag ≠ none) ∨
  (∃ t, Lone h x t ∧ ByOther h t) ∨
  (∃ t q, Lone h x t ∧ q < h.size ∧ (h.kids q).getLast? = some t ∧ (h.cell q).endTag ≠ none)

/-- The content is as long as the span. -/
def Whole (c : Cell) (w : Str) : Prop := c.endAt = c.beginAt + w.length

/-- What a transition does to the children of old nodes. -/
structure GrowH (h h' : Heap) : Prop where
  size : h.size ≤ h'.size
  kids : ∀ i, i < h.size → h'.kids i = h.kids i ∨
    (((h.cell i).endTag = none ∨ h.kids i = []) ∧ h'.kids i = h.kids i ++ [h.size])
  childs : ∀ i, i < h.size → h'.kids i = h.kids i → (h'.cell i).childs = (h.cell i).childs
  closed : ∀ i, i < h.size → (h.cell i).endTag ≠ none → (h'.cell i).endTag ≠ none
  txt : ∀ i, i < h.size → ((h'.cell i).nodeType.isText ↔ (h.cell i).nodeType.isText)

theorem GrowH.kept {h h' : Heap} (g : GrowH h h') {i : NodeId} (hi : i < h.size) (he : (h.cell i).endTag ≠ none)
    (hk : h.kids i ≠ []) : h'.kids i = h.kids i := by
  rcases g.kids i hi with h1 | ⟨h1 | h1, _⟩
  · exact h1
  · exact absurd h1 he
  · exact absurd h1 hk

theorem GrowH.lone {h h' : Heap} (g : GrowH h h') {x t : NodeId} (q : Lone h x t) : Lone h' x t := by
  obtain ⟨h1, h2, h3⟩ := q
  refine ⟨Nat.lt_of_lt_of_le h1 g.size, ?_, g.closed t h1 h3⟩
  rw [g.childs t h1 (g.kept h1 h3 (by rw [kids_of_childs h2]; simp))]
  exact h2

theorem GrowH.next {h h' : Heap} (g : GrowH h h') {q x y : NodeId} {l r : List NodeId} (hq : q < h.size)
    (hk : h.kids q = l ++ x :: y :: r) : ∃ r', h'.kids q = l ++ x :: y :: r' := by
  rcases g.kids q hq with h1 | ⟨_, h1⟩
  · exact ⟨r, by rw [h1, hk]⟩
  · exact ⟨r ++ [h.size], by rw [h1, hk]; simp⟩

theorem GrowH.byText {h h' : Heap} {lt : Bool} (g : GrowH h h') (o : Owns lt h) {x : NodeId} (q : ByText h x) : ByText h' x := by
  obtain ⟨p, l, y, r, h1, h2, h3⟩ := q
  obtain ⟨r', h4⟩ := g.next h1 h2
  exact ⟨p, l, y, r', Nat.lt_of_lt_of_le h1 g.size, h4, (g.txt y (o.range p y h1 (by rw [h2]; simp)).2).2 h3⟩

theorem GrowH.byOther {h h' : Heap} {lt : Bool} (g : GrowH h h') (o : Owns lt h) {x : NodeId} (q : ByOther h x) : ByOther h' x := by
  obtain ⟨p, l, y, r, h1, h2, h3⟩ := q
  obtain ⟨r', h4⟩ := g.next h1 h2
  exact ⟨p, l, y, r', Nat.lt_of_lt_of_le h1 g.size, h4, fun h5 => h3 ((g.txt y (o.range p y h1 (by rw [h2]; simp)).2).1 h5)⟩

theorem GrowH.stays {h h' : Heap} {lt : Bool} (g : GrowH h h') (o : Owns lt h) {x : NodeId} (q : Stays h x) : Stays h' x := by
  rcases q with q | ⟨t, q1, q2⟩
  · exact .inl (g.byText o q)
  · exact .inr ⟨t, g.lone q1, g.byText o q2⟩

theorem GrowH.goes {h h' : Heap} {lt : Bool} (g : GrowH h h') (o : Owns lt h) {x : NodeId} (q : Goes h x) : Goes h' x := by
  rcases q with q | ⟨p, l, h1, h2, h3, h4⟩ | ⟨t, q1, q2⟩ | ⟨t, p, q1, h1, h2, h3⟩
  · exact .inl (g.byOther o q)
  · refine .inr (.inl ⟨p, l, Nat.lt_of_lt_of_le h1 g.size, ?_, h3, g.closed p h1 h4⟩)
    rw [g.kept h1 h4 (by rw [h2]; simp)]; exact h2
  · exact .inr (.inr (.inl ⟨t, g.lone q1, g.byOther o q2⟩))
  · refine .inr (.inr (.inr ⟨t, p, g.lone q1, Nat.lt_of_lt_of_le h1 g.size, ?_, g.closed p h1 h3⟩))
    rw [g.kept h1 h3 (by intro h; rw [h] at h2; cases h2)]; exact h2

/-- The same shape. -/
structure SameH (h h' : Heap) : Prop where
  size : h'.size = h.size
  childs : ∀ i, (h'.cell i).childs = (h.cell i).childs
  endTag : ∀ i, (h'.cell i).endTag = (h.cell i).endTag
  ty : ∀ i, (h'.cell i).nodeType = (h.cell i).nodeType

theorem SameH.kids {h h' : Heap} (g : SameH h h') (i : NodeId) : h'.kids i = h.kids i := by
  unfold Heap.kids; rw [g.childs]

theorem SameH.lone {h h' : Heap} (g : SameH h h') {x t : NodeId} (q : Lone h x t) : Lone h' x t := by
  unfold Lone at q ⊢; rw [g.size, g.childs, g.endTag]; exact q

theorem SameH.byText {h h' : Heap} (g : SameH h h') {x : NodeId} (q : ByText h x) : ByText h' x := by
  obtain ⟨p, l, y, r, h1, h2, h3⟩ := q
  exact ⟨p, l, y, r, by rw [g.size]; exact h1, by rw [g.kids]; exact h2, by rw [g.ty]; exact h3⟩

theorem SameH.byOther {h h' : Heap} (g : SameH h h') {x : NodeId} (q : ByOther h x) : ByOther h' x := by
  obtain ⟨p, l, y, r, h1, h2, h3⟩ := q
  exact ⟨p, l, y, r, by rw [g.size]; exact h1, by rw [g.kids]; exact h2, by rw [g.ty]; exact h3⟩

theorem SameH.stays {h h' : Heap} (g : SameH h h') {x : NodeId} (q : Stays h x) : Stays h' x := by
  rcases q with q | ⟨t, q1, q2⟩
  · exact .inl (g.byText q)
  · exact .inr ⟨t, g.lone q1, g.byText q2⟩

theorem SameH.goes {h h' : Heap} (g : SameH h h') {x : NodeId} (q : Goes h x) : Goes h' x := by
  rcases q with q | ⟨p, l, h1, h2, h3, h4⟩ | ⟨t, q1, q2⟩ | ⟨t, p, q1, h1, h2, h3⟩
  · exact .inl (g.byOther q)
  · exact .inr (.inl ⟨p, l, by rw [g.size]; exact h1, by rw [g.kids]; exact h2, h3, by rw [g.endTag]; exact h4⟩)
  · exact .inr (.inr (.inl ⟨t, g.lone q1, g.byOther q2⟩))
  · exact .inr (.inr (.inr ⟨t, p, g.lone q1, by rw [g.size]; exact h1, by rw [g.kids]; exact h2, by rw [g.endTag]; exact h3⟩))

theorem SameH.nested {h h' : Heap} (g : SameH h h') {l : List NodeId} (q : Nested h l) : Nested h' l :=
  q.congr fun a _ => g.kids a

theorem Nested.ne_nil {h : Heap} : ∀ {l : List NodeId}, Nested h l → ∀ q ∈ l.tail, h.kids q ≠ []
  | [], _, q, hq => by cases hq
  | [_], _, q, hq => by cases hq
  | t :: p :: r, g, q, hq => by
    rcases List.mem_cons.1 hq with h1 | h1
    · rw [h1]; intro h2; have := g.1; rw [h2] at this; cases this
    · exact Nested.ne_nil g.2 q h1

/-! ## What a transition does to the children -/

theorem Eff.kidsAll {d d' : Doc} (hd : Ctl d) (hl : Links d) (h : Eff d d')
    (hf : d.handle = .unkownTag → d.cur.nodeType = .tag → d.heap.kids d.current = []) :
    (∀ i, i < d.heap.size → d'.heap.kids i = d.heap.kids i ∨
      ((d.chain.head? = some i ∨ d.heap.kids i = [] ∨ d.chain = []) ∧ (d.heap.cell i).endTag = none ∧
        d'.heap.kids i = d.heap.kids i ++ [d.heap.size]) ∨
      (d.heap.kids i = [] ∧ d'.heap.kids i = d.heap.kids i ++ [d.heap.size])) ∧
    (∀ i, i < d.heap.size → (d.heap.cell i).endTag ≠ none → (d'.heap.cell i).endTag ≠ none) ∧
    (∀ i, i < d.heap.size → d'.heap.kids i = d.heap.kids i → (d'.heap.cell i).childs = (d.heap.cell i).childs) ∧
    (d'.chain = d.chain ∨ d'.chain = d.chain.tail ∨
      (d'.chain = d.heap.size :: d.chain ∧
        ∃ p, d.chain.head? = some p ∧ d'.heap.kids p = d.heap.kids p ++ [d.heap.size])) := by
  cases h with
  | ltChild p n hfl hn hp hheap hchain hcur hend =>
    have hpl : p < d.heap.size := by
      rcases hp with h | h | h
      · rw [h.1]; exact hd.curLt
      · exact hd.chain_head h
      · rw [h.2, hd.root0]; exact hd.sizePos
    have hcell : ∀ i, i < d.heap.size → d'.heap.cell i =
        if i = p then { d.heap.cell i with childs := some (d.heap.kids p ++ [d.heap.size]) } else d.heap.cell i := by
      intro i hi
      have h1 : ¬ i = d.heap.size := by omega
      rw [hheap, Heap.upd_cell, Heap.push_cell]
      simp only [h1, if_false]
      rfl
    have hk : ∀ i, i < d.heap.size → d'.heap.kids i = if i = p then d.heap.kids p ++ [d.heap.size] else d.heap.kids i := by
      intro i hi
      unfold Heap.kids; rw [hcell i hi]
      split <;> rfl
    refine ⟨fun i hi => ?_, fun i hi => ?_, fun i hi => ?_, Or.inl hchain⟩
    · rw [hk i hi]
      split
      · rename_i h; subst h
        right
        rcases hp with h | h | h
        · right
          rw [h.1]
          exact ⟨hf hend.1 h.2.1, rfl⟩
        · exact Or.inl ⟨Or.inl h, hl.chainOpen i (List.mem_of_mem_head? h), rfl⟩
        · refine Or.inl ⟨Or.inr (Or.inr h.1), ?_, rfl⟩
          rw [h.2, hd.root0]
          cases he : (d.heap.cell 0).endTag with
          | none => rfl
          | some e =>
            have := (hl.ends.down 0 e hd.sizePos he).2.2.2.2.2
            rw [(hd.rootTy 0 hd.sizePos).2 rfl] at this; cases this
      · exact Or.inl rfl
    · rw [hcell i hi]; split <;> exact id
    · rw [hk i hi, hcell i hi]
      split
      · rename_i h; subst h
        intro e
        have := congrArg List.length e
        simp at this
      · exact fun _ => rfl
  | data ct m e hea hheap hm hchain hct hend =>
    have hcell : ∀ i, d'.heap.cell i =
        if i = d.current then { d.heap.cell i with content := ct, tmeta := m, endAt := e } else d.heap.cell i := by
      intro i; rw [hheap]; rfl
    refine ⟨fun i _ => Or.inl ?_, fun i _ => ?_, fun i _ _ => ?_, ?_⟩
    · unfold Heap.kids; rw [hcell]; split <;> rfl
    · rw [hcell]; split <;> exact id
    · rw [hcell]; split <;> rfl
    · rcases hchain with h | h
      · exact Or.inl h
      · exact Or.inr (Or.inl h.1)
  | child p ty b o hp hty ho hb hheap hchain hcur hend =>
    have hpl := hd.chain_head hp
    have hcell : ∀ i, i < d.heap.size → (d'.heap.cell i).endTag = (d.heap.cell i).endTag ∧
        (d'.heap.cell i).childs = if i = p then some (d.heap.kids p ++ [d.heap.size]) else (d.heap.cell i).childs := by
      intro i hi
      rw [hheap, markSpaces_cell, addChild_cell d p _ hpl]
      have h1 : ¬ i = d.heap.size := by omega
      simp only [h1, if_false]
      by_cases h2 : i = p
      · subst h2; simp only [if_true]; split <;> exact ⟨rfl, rfl⟩
      · simp only [h2, if_false]; split <;> exact ⟨rfl, rfl⟩
    have hk : ∀ i, i < d.heap.size → d'.heap.kids i = if i = p then d.heap.kids p ++ [d.heap.size] else d.heap.kids i := by
      intro i hi
      unfold Heap.kids; rw [(hcell i hi).2]
      split
      · rfl
      · rfl
    refine ⟨fun i hi => ?_, fun i hi => ?_, fun i hi => ?_, ?_⟩
    · rw [hk i hi]
      split
      · rename_i h; subst h; exact Or.inr (Or.inl ⟨Or.inl hp, hl.chainOpen i (List.mem_of_mem_head? hp), rfl⟩)
      · exact Or.inl rfl
    · rw [(hcell i hi).1]; exact id
    · rw [hk i hi, (hcell i hi).2]
      split
      · rename_i h; subst h
        intro e
        have := congrArg List.length e
        simp at this
      · exact fun _ => rfl
    · rw [hchain]
      split
      · exact Or.inr (Or.inr ⟨rfl, p, hp, by rw [hk p hpl, if_pos rfl]⟩)
      · exact Or.inl rfl
  | endPush pv hpv hheap hchain hcur hend =>
    have hcell : ∀ i, i < d.heap.size → d'.heap.cell i = d.heap.cell i := by
      intro i hi; rw [hheap, Heap.push_cell, if_neg (by omega)]
    refine ⟨fun i hi => Or.inl ?_, fun i hi => ?_, fun i hi _ => ?_, Or.inl hchain⟩
    · unfold Heap.kids; rw [hcell i hi]
    · rw [hcell i hi]; exact id
    · rw [hcell i hi]
  | endLink t m hm hty hheap hchain hcur hend =>
    have hcell := endHeap_cell hd t d.prevChars hm.2.1 hty
    have hcc : ∀ i, (d'.heap.cell i).childs = (d.heap.cell i).childs := by
      intro i; rw [hheap, hcell]; split <;> (try rfl); split <;> (try rfl); split <;> rfl
    refine ⟨fun i hi => Or.inl ?_, fun i hi he => ?_, fun i hi _ => hcc i, Or.inr (Or.inl hchain)⟩
    · unfold Heap.kids; rw [hcc]
    · rw [hheap, hcell]
      split
      · exact he
      split
      · simp
      split <;> exact he
  | rawEnd n hty hp hheap hchain hcur hend =>
    have hcell := rawHeap_cell hd n
    have hcc : ∀ i, i < d.heap.size → (d'.heap.cell i).childs = (d.heap.cell i).childs := by
      intro i hi; rw [hheap, hcell, if_neg (by omega)]; split <;> rfl
    refine ⟨fun i hi => Or.inl ?_, fun i hi he => ?_, fun i hi _ => hcc i hi, Or.inr (Or.inl hchain)⟩
    · unfold Heap.kids; rw [hcc i hi]
    · rw [hheap, hcell, if_neg (by omega)]
      split
      · simp
      · exact he

theorem Eff.growH {d d' : Doc} (hd : Ctl d) (hl : Links d) (h : Eff d d')
    (hf : d.handle = .unkownTag → d.cur.nodeType = .tag → d.heap.kids d.current = []) : GrowH d.heap d'.heap := by
  obtain ⟨h1, h2, h3, _⟩ := h.kidsAll hd hl hf
  refine ⟨h.size_le.1, fun i hi => ?_, h3, h2, fun i hi => ?_⟩
  · rcases h1 i hi with h | h | h
    · exact Or.inl h
    · exact Or.inr ⟨Or.inl h.2.1, h.2.2⟩
    · exact Or.inr ⟨Or.inr h.1, h.2⟩
  · rcases (h.keep hd i hi).ty with h | h
    · rw [h]
    · rw [h.1, h.2.1]; exact ⟨fun _ => Or.inl rfl, fun _ => Or.inr rfl⟩

theorem Eff.nestedAll {d d' : Doc} (hd : Ctl d) (hl : Links d) (h : Eff d d')
    (hf : d.handle = .unkownTag → d.cur.nodeType = .tag → d.heap.kids d.current = [])
    (g : Nested d.heap d.chain) : Nested d'.heap d'.chain := by
  obtain ⟨h1, _, _, h4⟩ := h.kidsAll hd hl hf
  have key : Nested d'.heap d.chain := by
    refine g.congr fun q hq => ?_
    have hq' := List.mem_of_mem_tail hq
    rcases h1 q (hd.chainLt q hq') with h | ⟨h | h | h, _⟩ | ⟨h, _⟩
    · exact h
    · have hs := hd.chainSorted
      cases hc : d.chain with
      | nil => rw [hc] at hq'; cases hq'
      | cons a as =>
        rw [hc] at h hs hq
        simp only [List.head?_cons, Option.some.injEq] at h
        have := (List.pairwise_cons.1 hs).1 q hq
        omega
    · exact absurd h (g.ne_nil q hq)
    · rw [h] at hq'; cases hq'
    · exact absurd h (g.ne_nil q hq)
  rcases h4 with h | h | ⟨h, p, hp, hk⟩
  · rw [h]; exact key
  · rw [h]; exact key.tail
  · rw [h]
    cases hc : d.chain with
    | nil => rw [hc] at hp; cases hp
    | cons a as =>
      rw [hc] at hp key
      simp only [List.head?_cons, Option.some.injEq] at hp
      subst hp
      exact ⟨by rw [hk]; simp, key⟩

end Rphtml
