import Verif.Proofs.TextInv
import Verif.Proofs.Order
import Verif.Proofs.Final
import Verif.Spec.Spaces

/-!
# Which whitespace texts become `SpacesBetweenTag`

The parser remembers the last whitespace-only text in `checkTextnode` and decides about it later.  `SpInv` says, for
every whitespace-only text of a run without auto-fix options, how it was or still can be decided.
-/

namespace Rphtml

/-- The node types of texts. -/
theorem isText_iff {t : NodeType} : t.isText ↔ t = .text ∨ t = .spacesBetweenTag := Iff.rfl

/-- `x` is the only child of the closed element `t`. -/
def Lone (h : Heap) (x t : NodeId) : Prop :=
  t < h.size ∧ (h.cell t).childs = some [x] ∧ (h.cell t).endTag ≠ none

/-- Each open tag is the last child of the next one. -/
def Nested (h : Heap) : List NodeId → Prop
  | t :: q :: r => (h.kids q).getLast? = some t ∧ Nested h (q :: r)
  | _ => True

/-- `x` is alone in an element that is followed by a text. -/
def Stay (h : Heap) (x : NodeId) : Prop :=
  ∃ t q l y r, Lone h x t ∧ q < h.size ∧ h.kids q = l ++ t :: y :: r ∧ (h.cell y).nodeType.isText

/-- `x` is not alone, or its element is followed by something else. -/
def Gone (h : Heap) (x : NodeId) : Prop :=
  (∃ p, p < h.size ∧ x ∈ h.kids p ∧ h.kids p ≠ [x]) ∨
  (∃ t q l z r, Lone h x t ∧ q < h.size ∧ h.kids q = l ++ t :: z :: r ∧ ¬ (h.cell z).nodeType.isText) ∨
  (∃ t q, Lone h x t ∧ q < h.size ∧ (h.kids q).getLast? = some t ∧ (h.cell q).endTag ≠ none)

/-- Where the remembered text can be. -/
def PendAt (d : Doc) (x : NodeId) : Prop :=
  (∃ p, d.chain.head? = some p ∧ (d.heap.kids p).getLast? = some x ∧
    (d.handle = .unkownTag ∨ d.handle = .exclamationBegin ∨ d.handle = .tagEnd)) ∨
  (∃ t q, Lone d.heap x t ∧ d.chain.head? = some q ∧ (d.heap.kids q).getLast? = some t ∧
    (d.handle = .wait ∨ d.handle = .unkownTag ∨ d.handle = .exclamationBegin ∨ d.handle = .tagEnd)) ∨
  (∃ t q l, Lone d.heap x t ∧ d.chain.head? = some q ∧ d.heap.kids q = l ++ [t, d.current] ∧ d.handle = .text)

/-- The state of all whitespace-only texts. -/
structure SpInv (d : Doc) : Prop where
  nested : Nested d.heap d.chain
  reading : d.handle = .text → (∃ p, d.chain.head? = some p ∧ (d.heap.kids p).getLast? = some d.current) ∧
    (d.repeatWhitespace = false → ¬ AllWs d.prevChars)
  pend : ∀ x, d.checkTextnode = some x → PendAt d x
  done : ∀ x w, x < d.heap.size → (d.heap.cell x).nodeType.isText → ¬ (d.handle = .text ∧ x = d.current) →
    (d.heap.cell x).content = some w → AllWs w → d.checkTextnode ≠ some x →
    ((d.heap.cell x).nodeType = .text ∧ Stay d.heap x) ∨ ((d.heap.cell x).nodeType = .spacesBetweenTag ∧ Gone d.heap x)

/-- What a transition does to the children of old nodes. -/
structure Grow (d d' : Doc) : Prop where
  size : d.heap.size ≤ d'.heap.size
  kids : ∀ i, i < d.heap.size → d'.heap.kids i = d.heap.kids i ∨
    (d.chain.head? = some i ∧ d'.heap.kids i = d.heap.kids i ++ [d.heap.size])
  childs : ∀ i, i < d.heap.size → (d.heap.cell i).endTag ≠ none →
    (d'.heap.cell i).childs = (d.heap.cell i).childs ∧ (d'.heap.cell i).endTag ≠ none
  txt : ∀ i, i < d.heap.size → ((d'.heap.cell i).nodeType.isText ↔ (d.heap.cell i).nodeType.isText)

theorem Lone.grow {d d' : Doc} (g : Grow d d') {x t : NodeId} (h : Lone d.heap x t) : Lone d'.heap x t := by
  obtain ⟨h1, h2, h3⟩ := h
  obtain ⟨h4, h5⟩ := g.childs t h1 h3
  exact ⟨Nat.lt_of_lt_of_le h1 g.size, by rw [h4]; exact h2, h5⟩

theorem Stay.grow {d d' : Doc} (g : Grow d d') (ho : Owns d.opts.autoFixUnescapedLt d.heap) {x : NodeId}
    (h : Stay d.heap x) : Stay d'.heap x := by
  obtain ⟨t, q, l, y, r, h1, h2, h3, h4⟩ := h
  have hy : y < d.heap.size := (ho.range q y h2 (by rw [h3]; simp)).2
  rcases g.kids q h2 with h | ⟨_, h⟩
  · exact ⟨t, q, l, y, r, h1.grow g, Nat.lt_of_lt_of_le h2 g.size, by rw [h, h3], (g.txt y hy).2 h4⟩
  · exact ⟨t, q, l, y, r ++ [d.heap.size], h1.grow g, Nat.lt_of_lt_of_le h2 g.size, by rw [h, h3]; simp, (g.txt y hy).2 h4⟩

theorem Gone.grow {d d' : Doc} (g : Grow d d') (ho : Owns d.opts.autoFixUnescapedLt d.heap) {x : NodeId}
    (h : Gone d.heap x) : Gone d'.heap x := by
  rcases h with ⟨p, h1, h2, h3⟩ | ⟨t, q, l, z, r, h1, h2, h3, h4⟩ | ⟨t, q, h1, h2, h3, h4⟩
  · left
    refine ⟨p, Nat.lt_of_lt_of_le h1 g.size, ?_⟩
    rcases g.kids p h1 with h | ⟨_, h⟩
    · rw [h]; exact ⟨h2, h3⟩
    · rw [h]
      refine ⟨List.mem_append_left _ h2, fun e => ?_⟩
      have h5 := congrArg List.length e
      have h6 := List.length_pos_of_mem h2
      rw [List.length_append] at h5
      simp only [List.length_cons, List.length_nil] at h5
      omega
  · right; left
    have hz : z < d.heap.size := (ho.range q z h2 (by rw [h3]; simp)).2
    rcases g.kids q h2 with h | ⟨_, h⟩
    · exact ⟨t, q, l, z, r, h1.grow g, Nat.lt_of_lt_of_le h2 g.size, by rw [h, h3], fun h5 => h4 ((g.txt z hz).1 h5)⟩
    · exact ⟨t, q, l, z, r ++ [d.heap.size], h1.grow g, Nat.lt_of_lt_of_le h2 g.size, by rw [h, h3]; simp,
        fun h5 => h4 ((g.txt z hz).1 h5)⟩
  · right; right
    obtain ⟨h5, h6⟩ := g.childs q h2 h4
    refine ⟨t, q, h1.grow g, Nat.lt_of_lt_of_le h2 g.size, ?_, h6⟩
    unfold Heap.kids at h3 ⊢
    rw [h5]; exact h3

theorem Nested.tail {h : Heap} {l : List NodeId} (g : Nested h l) : Nested h l.tail := by
  match l, g with
  | [], _ => trivial
  | [_], _ => trivial
  | _ :: _ :: _, g => exact g.2

/-- Only the children of the non-head elements matter. -/
theorem Nested.congr {h h' : Heap} : ∀ {l : List NodeId}, (∀ q ∈ l.tail, h'.kids q = h.kids q) → Nested h l → Nested h' l
  | [], _, _ => trivial
  | [_], _, _ => trivial
  | t :: q :: r, hk, g => by
    refine ⟨by rw [hk q (by simp)]; exact g.1, Nested.congr (fun a ha => hk a ?_) g.2⟩
    simp only [List.tail_cons] at ha ⊢
    exact List.mem_cons_of_mem _ ha

/-- The children after a transition that is not the fix of a `<`. -/
theorem Eff.kids {d d' : Doc} (hd : Ctl d) (h : Eff d d') (hf : d.opts.autoFixUnescapedLt = false) :
    (∀ i, i < d.heap.size → d'.heap.kids i = d.heap.kids i ∨
      (d.chain.head? = some i ∧ d'.heap.kids i = d.heap.kids i ++ [d.heap.size])) ∧
    (∀ i, i < d.heap.size → (d.heap.cell i).endTag ≠ none → (d'.heap.cell i).endTag ≠ none) ∧
    (∀ i, i < d.heap.size → d'.heap.kids i = d.heap.kids i → (d'.heap.cell i).childs = (d.heap.cell i).childs) ∧
    (d'.chain = d.chain ∨ d'.chain = d.chain.tail ∨
      (d'.chain = d.heap.size :: d.chain ∧
        ∃ p, d.chain.head? = some p ∧ d'.heap.kids p = d.heap.kids p ++ [d.heap.size])) := by
  cases h with
  | data ct m e hea hheap hm hchain hct hend =>
    have hcell : ∀ i, d'.heap.cell i =
        if i = d.current then { d.heap.cell i with content := ct, tmeta := m, endAt := e } else d.heap.cell i := by
      intro i; rw [hheap]; rfl
    refine ⟨fun i _ => Or.inl ?_, fun i _ => ?_, fun i _ _ => ?_, ?_⟩
    · unfold Heap.kids; rw [hcell]; split <;> rfl
    · rw [hcell]; split <;> exact id
    · rw [hcell]; split <;> rfl
    · rcases hchain with h | h
      · exact Or.inl h
      · exact Or.inr (Or.inl h.1)
  | child p ty b o hp hty ho hb hheap hchain hcur hend =>
    have hpl := hd.chain_head hp
    have hcell : ∀ i, i < d.heap.size → (d'.heap.cell i).endTag = (d.heap.cell i).endTag ∧
        (d'.heap.cell i).childs = if i = p then some (d.heap.kids p ++ [d.heap.size]) else (d.heap.cell i).childs := by
      intro i hi
      rw [hheap, markSpaces_cell, addChild_cell d p _ hpl]
      have h1 : ¬ i = d.heap.size := by omega
      simp only [h1, if_false]
      by_cases h2 : i = p
      · subst h2; simp only [if_true]; split <;> exact ⟨rfl, rfl⟩
      · simp only [h2, if_false]; split <;> exact ⟨rfl, rfl⟩
    have hk : ∀ i, i < d.heap.size → d'.heap.kids i = if i = p then d.heap.kids p ++ [d.heap.size] else d.heap.kids i := by
      intro i hi
      unfold Heap.kids; rw [(hcell i hi).2]
      split
      · rfl
      · rfl
    refine ⟨fun i hi => ?_, fun i hi => ?_, fun i hi => ?_, ?_⟩
    · rw [hk i hi]
      split
      · rename_i h; subst h; exact Or.inr ⟨hp, rfl⟩
      · exact Or.inl rfl
    · rw [(hcell i hi).1]; exact id
    · rw [hk i hi, (hcell i hi).2]
      split
      · rename_i h; subst h
        intro e
        have := congrArg List.length e
        simp at this
      · exact fun _ => rfl
    · rw [hchain]
      split
      · exact Or.inr (Or.inr ⟨rfl, p, hp, by rw [hk p hpl, if_pos rfl]⟩)
      · exact Or.inl rfl
  | ltChild p n hf' hn hp hheap hchain hcur hend => rw [hf] at hf'; cases hf'
  | endPush pv hpv hheap hchain hcur hend =>
    have hcell : ∀ i, i < d.heap.size → d'.heap.cell i = d.heap.cell i := by
      intro i hi; rw [hheap, Heap.push_cell, if_neg (by omega)]
    refine ⟨fun i hi => Or.inl ?_, fun i hi => ?_, fun i hi _ => ?_, Or.inl hchain⟩
    · unfold Heap.kids; rw [hcell i hi]
    · rw [hcell i hi]; exact id
    · rw [hcell i hi]
  | endLink t m hm hty hheap hchain hcur hend =>
    have hcell := endHeap_cell hd t d.prevChars hm.2.1 hty
    have hcc : ∀ i, (d'.heap.cell i).childs = (d.heap.cell i).childs := by
      intro i; rw [hheap, hcell]; split <;> (try rfl); split <;> (try rfl); split <;> rfl
    refine ⟨fun i hi => Or.inl ?_, fun i hi he => ?_, fun i hi _ => hcc i, Or.inr (Or.inl hchain)⟩
    · unfold Heap.kids; rw [hcc]
    · rw [hheap, hcell]
      split
      · exact he
      split
      · simp
      split <;> exact he
  | rawEnd n hty hp hheap hchain hcur hend =>
    have hcell := rawHeap_cell hd n
    have hcc : ∀ i, i < d.heap.size → (d'.heap.cell i).childs = (d.heap.cell i).childs := by
      intro i hi; rw [hheap, hcell, if_neg (by omega)]; split <;> rfl
    refine ⟨fun i hi => Or.inl ?_, fun i hi he => ?_, fun i hi _ => hcc i hi, Or.inr (Or.inl hchain)⟩
    · unfold Heap.kids; rw [hcc i hi]
    · rw [hheap, hcell, if_neg (by omega)]
      split
      · simp
      · exact he

theorem Eff.grow {d d' : Doc} (hd : Ctl d) (hl : Links d) (h : Eff d d') (hf : d.opts.autoFixUnescapedLt = false) :
    Grow d d' := by
  obtain ⟨h1, h2, h3, _⟩ := h.kids hd hf
  refine ⟨h.size_le.1, h1, fun i hi he => ⟨?_, h2 i hi he⟩, fun i hi => ?_⟩
  · refine h3 i hi ?_
    rcases h1 i hi with h | ⟨h, _⟩
    · exact h
    · exact absurd (hl.chainOpen i (List.mem_of_mem_head? h)) he
  · rcases (h.keep hd i hi).ty with h | h
    · rw [h]
    · rw [h.1, h.2.1]; exact ⟨fun _ => Or.inl rfl, fun _ => Or.inr rfl⟩

theorem Eff.nested {d d' : Doc} (hd : Ctl d) (h : Eff d d') (hf : d.opts.autoFixUnescapedLt = false)
    (g : Nested d.heap d.chain) : Nested d'.heap d'.chain := by
  obtain ⟨h1, _, _, h4⟩ := h.kids hd hf
  have key : Nested d'.heap d.chain := by
    refine g.congr fun q hq => ?_
    have hq' := List.mem_of_mem_tail hq
    rcases h1 q (hd.chainLt q hq') with h | ⟨h, _⟩
    · exact h
    · have hs := hd.chainSorted
      cases hc : d.chain with
      | nil => rw [hc] at hq'; cases hq'
      | cons a as =>
        rw [hc] at h hs hq
        simp only [List.head?_cons, Option.some.injEq] at h
        have := (List.pairwise_cons.1 hs).1 q hq
        omega
  rcases h4 with h | h | ⟨h, p, hp, hk⟩
  · rw [h]; exact key
  · rw [h]; exact key.tail
  · rw [h]
    cases hc : d.chain with
    | nil => rw [hc] at hp; cases hp
    | cons a as =>
      rw [hc] at hp key
      simp only [List.head?_cons, Option.some.injEq] at hp
      subst hp
      exact ⟨by rw [hk]; simp, key⟩

/-- Being remembered only depends on the children, the open tags and the handler. -/
theorem PendAt.same {d d' : Doc} (g : Grow d d') (hk : ∀ i, i < d.heap.size → d'.heap.kids i = d.heap.kids i)
    (hd : Ctl d) (hc : d'.chain = d.chain) {x : NodeId}
    (hh : d.handle ≠ .text)
    (h2 : (d.handle = .wait ∨ d.handle = .unkownTag ∨ d.handle = .exclamationBegin ∨ d.handle = .tagEnd) →
      (d'.handle = .unkownTag ∨ d'.handle = .exclamationBegin ∨ d'.handle = .tagEnd))
    (h : PendAt d x) : PendAt d' x := by
  rcases h with ⟨p, a, b, c⟩ | ⟨t, q, a, b, c, e⟩ | ⟨t, q, l, a, b, c, e⟩
  · exact Or.inl ⟨p, by rw [hc]; exact a, by rw [hk p (hd.chain_head a)]; exact b, h2 (Or.inr c)⟩
  · exact Or.inr (Or.inl ⟨t, q, a.grow g, by rw [hc]; exact b, by rw [hk q (hd.chain_head b)]; exact c, Or.inr (h2 e)⟩)
  · exact absurd e hh

/-- Transitions outside texts. -/
theorem SpInv.keep {d d' : Doc} (hd : Ctl d) (hl : Links d) (g : SpInv d) (he : Eff d d')
    (hf : d.opts.autoFixUnescapedLt = false)
    (hh : d.handle ≠ .text) (hh' : d'.handle ≠ .text)
    (hcont : d.cur.nodeType.isText → (d'.heap.cell d.current).content = d.cur.content)
    (hnew : d.heap.size < d'.heap.size → ¬ (d'.heap.cell d.heap.size).nodeType.isText)
    (hchk : d'.checkTextnode = d.checkTextnode ∨ d'.checkTextnode = none)
    (hmark : ∀ x, d.checkTextnode = some x → (d'.checkTextnode = some x ∧ PendAt d' x) ∨
      (d'.checkTextnode = none ∧ (d'.heap.cell x).nodeType = .spacesBetweenTag ∧ Gone d'.heap x)) : SpInv d' := by
  have hg := he.grow hd hl hf
  have hsz := he.size_le
  refine ⟨he.nested hd hf g.nested, fun h => absurd h hh', ?_, ?_⟩
  · intro x hx
    rcases hchk with h | h
    · rcases hmark x (by rw [← h]; exact hx) with h1 | h1
      · exact h1.2
      · rw [h1.1] at hx; cases hx
    · rw [h] at hx; cases hx
  · intro x w hx ht _ hw hws hnc
    by_cases h1 : x = d.heap.size
    · rw [h1] at ht hx; exact absurd ht (hnew hx)
    · have hx' : x < d.heap.size := by omega
      by_cases h2 : d.checkTextnode = some x
      · rcases hmark x h2 with h3 | h3
        · exact absurd h3.1 hnc
        · exact Or.inr h3.2
      · have hk := he.keep hd x hx'
        have hty : (d'.heap.cell x).nodeType = (d.heap.cell x).nodeType := by
          rcases hk.ty with h | h
          · exact h
          · exact absurd h.2.2 h2
        have hcon : (d.heap.cell x).content = some w := by
          by_cases h3 : x = d.current
          · subst h3
            have := hcont (by unfold Doc.cur; rw [← hty]; exact ht)
            rw [hw] at this; exact this.symm
          · rw [← (hk.other h3).1]; exact hw
        rw [hty] at ht ⊢
        rcases g.done x w hx' ht (fun h => hh h.1) hcon hws h2 with h | h
        · exact Or.inl ⟨h.1, h.2.grow hg hl.owns⟩
        · exact Or.inr ⟨h.1, h.2.grow hg hl.owns⟩

/-- A remembered text when a node other than a text is linked below the innermost open tag. -/
theorem PendAt.gone {d d' : Doc} (hd : Ctl d) (g : Grow d d') {p x : NodeId}
    (hp : d.chain.head? = some p) (hk : d'.heap.kids p = d.heap.kids p ++ [d.heap.size])
    (hn : ¬ (d'.heap.cell d.heap.size).nodeType.isText) (hh : d.handle ≠ .text) (h : PendAt d x) : Gone d'.heap x := by
  have hpl := Nat.lt_of_lt_of_le (hd.chain_head hp) g.size
  rcases h with ⟨q, a, b, c⟩ | ⟨t, q, a, b, c, e⟩ | ⟨t, q, l, a, b, c, e⟩
  · left
    rw [hp] at a; cases a
    refine ⟨p, hpl, ?_, ?_⟩
    · rw [hk]; exact List.mem_append_left _ (List.mem_of_getLast? b)
    · rw [hk]
      intro e
      have h5 := congrArg List.length e
      have h6 := List.length_pos_of_mem (List.mem_of_getLast? b)
      rw [List.length_append] at h5
      simp only [List.length_cons, List.length_nil] at h5
      omega
  · right; left
    rw [hp] at b; cases b
    obtain ⟨l, hl'⟩ := List.getLast?_eq_some_iff.1 c
    exact ⟨t, p, l, d.heap.size, [], a.grow g, hpl, by rw [hk, hl']; simp, hn⟩
  · exact absurd e hh

/-- A node other than a text is linked below the innermost open tag. -/
theorem SpInv.open {d d' : Doc} (hd : Ctl d) (hl : Links d) (g : SpInv d) (he : Eff d d')
    (hf : d.opts.autoFixUnescapedLt = false) (hh : d.handle ≠ .text) (hh' : d'.handle ≠ .text) {p : NodeId}
    (hp : d.chain.head? = some p) {n : Cell} (hn : ¬ n.nodeType.isText)
    (hheap : d'.heap = (d.addChild p n).heap.markSpaces d.checkTextnode) (hc : d'.checkTextnode = none) : SpInv d' := by
  have hnew : ¬ (d'.heap.cell d.heap.size).nodeType.isText := by
    rw [hheap, grown_cell hd p hp _ _ (Or.inl rfl)]; exact hn
  refine g.keep hd hl he hf hh hh' ?_ (fun _ => hnew) (Or.inr hc) ?_
  · intro _
    rw [hheap, markSpaces_cell]
    have := (addChild_ty d p n (hd.chain_head hp) d.current hd.curLt).2.1
    split <;> exact this
  · intro x hx
    refine Or.inr ⟨hc, ?_, ?_⟩
    · rw [hheap, markSpaces_cell, if_pos hx]
    · refine (g.pend x hx).gone hd (he.grow hd hl hf) hp ?_ hnew hh
      have hpl := hd.chain_head hp
      unfold Heap.kids
      rw [hheap, markSpaces_cell, addChild_cell d p _ hpl]
      have h1 : ¬ p = d.heap.size := by omega
      simp only [h1, if_false, if_true]
      split <;> rfl

/-- Transitions that only change the contents of a node that is no text. -/
theorem SpInv.data {d d' : Doc} (hd : Ctl d) (hl : Links d) (g : SpInv d) (he : Eff d d')
    (hf : d.opts.autoFixUnescapedLt = false) (hh : d.handle ≠ .text) (hh' : d'.handle ≠ .text)
    (hcont : d.cur.nodeType.isText → (d'.heap.cell d.current).content = d.cur.content)
    (hsz : d'.heap.size = d.heap.size) (hk : ∀ i, i < d.heap.size → d'.heap.kids i = d.heap.kids i)
    (hc : d'.checkTextnode = d.checkTextnode)
    (h2 : (d.handle = .wait ∨ d.handle = .unkownTag ∨ d.handle = .exclamationBegin ∨ d.handle = .tagEnd) →
      d'.chain = d.chain ∧ (d'.handle = .unkownTag ∨ d'.handle = .exclamationBegin ∨ d'.handle = .tagEnd)) : SpInv d' := by
  refine g.keep hd hl he hf hh hh' hcont (fun h => by omega) (Or.inl hc) fun x hx => Or.inl ⟨by rw [hc]; exact hx, ?_⟩
  have hp := g.pend x hx
  have hw : d.handle = .wait ∨ d.handle = .unkownTag ∨ d.handle = .exclamationBegin ∨ d.handle = .tagEnd := by
    rcases hp with ⟨q, a, b, c⟩ | ⟨t, q, a, b, c, e⟩ | ⟨t, q, l, a, b, c, e⟩
    · exact Or.inr c
    · exact e
    · exact absurd e hh
  exact hp.same (he.grow hd hl hf) hk hd (h2 hw).1 hh fun _ => (h2 hw).2

/-- No text is remembered while other handlers run. -/
theorem SpInv.idle {d : Doc} (g : SpInv d) (hh : d.handle ≠ .text)
    (h2 : ¬ (d.handle = .wait ∨ d.handle = .unkownTag ∨ d.handle = .exclamationBegin ∨ d.handle = .tagEnd)) :
    d.checkTextnode = none := by
  cases hc : d.checkTextnode with
  | none => rfl
  | some x =>
    rcases g.pend x hc with ⟨q, a, b, c⟩ | ⟨t, q, a, b, c, e⟩ | ⟨t, q, l, a, b, c, e⟩
    · exact absurd (Or.inr c) h2
    · exact absurd e h2
    · exact absurd e hh

/-- Transitions while no text is remembered. -/
theorem SpInv.quiet {d d' : Doc} (hd : Ctl d) (hl : Links d) (g : SpInv d) (he : Eff d d')
    (hf : d.opts.autoFixUnescapedLt = false) (hh : d.handle ≠ .text) (hh' : d'.handle ≠ .text)
    (hi : ¬ (d.handle = .wait ∨ d.handle = .unkownTag ∨ d.handle = .exclamationBegin ∨ d.handle = .tagEnd))
    (hcont : d.cur.nodeType.isText → (d'.heap.cell d.current).content = d.cur.content)
    (hnew : d.heap.size < d'.heap.size → ¬ (d'.heap.cell d.heap.size).nodeType.isText)
    (hchk : d'.checkTextnode = d.checkTextnode) : SpInv d' :=
  g.keep hd hl he hf hh hh' hcont hnew (Or.inl hchk) fun x hx => by rw [g.idle hh hi] at hx; cases hx

theorem inTag_idle {h : Handler} (hh : h.inTag = true) :
    ¬ (h = .wait ∨ h = .unkownTag ∨ h = .exclamationBegin ∨ h = .tagEnd) := by
  rintro (h | h | h | h) <;> subst h <;> cases hh

theorem SpInv.new (o : ParseOptions) : SpInv (Doc.new o) := by
  refine ⟨trivial, ?_, ?_, ?_⟩
  · intro h; cases h
  · intro x h; cases h
  · intro x w hx ht
    have : x = 0 := by have : (Doc.new o).heap.size = 1 := rfl; omega
    subst this
    rcases ht with h | h <;> cases h

theorem SpInv.step {d d' : Doc} {c : Char} (hd : Ctl d) (hl : Links d) (g : SpInv d)
    (hf1 : d.opts.autoFixUnescapedLt = false) (hf2 : d.opts.autoFixUnexpectedEndtag = false) (h : Step d c d') :
    SpInv d' := by
  have he := h.eff hd
  have hs := hd.hs
  cases h with
  | lt hh hc =>
    exact g.data hd hl he hf1 (by simp [hh]) (by simp) (fun _ => rfl) rfl (fun _ _ => rfl) rfl fun _ => ⟨rfl, Or.inl rfl⟩
  | textResume hh hc hf ht w hw => rw [hf2] at hf; cases hf
  | textStart hh hc hf p hp =>
    have hg := he.grow hd hl hf1
    have hpl := hd.chain_head hp
    have hk : (d.addChild p (Cell.new .text d.position)).heap.kids p = d.heap.kids p ++ [d.heap.size] := by
      unfold Heap.kids
      rw [addChild_cell d p _ hpl]
      have h1 : ¬ p = d.heap.size := by omega
      simp only [h1, if_false, if_true]; rfl
    refine ⟨he.nested hd hf1 g.nested, ?_, ?_, ?_⟩
    · intro _
      refine ⟨⟨p, hp, ?_⟩, ?_⟩
      · show ((d.addChild p (Cell.new .text d.position)).heap.kids p).getLast? = some d.heap.size
        rw [hk]; simp
      · intro h h'
        have h : isWs c = false := h
        rw [h' c (by simp)] at h; cases h
    · intro x hx
      rcases g.pend x hx with ⟨q, a, b, e⟩ | ⟨t, q, a, b, e, _⟩ | ⟨t, q, l, a, b, e, e'⟩
      · rw [hh] at e; rcases e with e | e | e <;> cases e
      · rw [hp] at b; cases b
        obtain ⟨l, hl'⟩ := List.getLast?_eq_some_iff.1 e
        refine Or.inr (Or.inr ⟨t, p, l, a.grow hg, hp, ?_, rfl⟩)
        show (d.addChild p (Cell.new .text d.position)).heap.kids p = _
        rw [hk, hl']; simp [Doc.addChild]
      · rw [hh] at e'; cases e'
    · intro x w hx ht hne hw hws hnc
      have hx' : x < d.heap.size := by
        have h1 : x ≠ d.heap.size := fun h => hne ⟨rfl, h⟩
        have h2 : x < d.heap.size + 1 := hx
        omega
      obtain ⟨h1, h2, _⟩ := addChild_ty d p (Cell.new .text d.position) hpl x hx'
      have ht : ((d.addChild p (Cell.new .text d.position)).heap.cell x).nodeType.isText := ht
      have hw : ((d.addChild p (Cell.new .text d.position)).heap.cell x).content = some w := hw
      show (((d.addChild p (Cell.new .text d.position)).heap.cell x).nodeType = _ ∧ _) ∨
        (((d.addChild p (Cell.new .text d.position)).heap.cell x).nodeType = _ ∧ _)
      rw [h1] at ht ⊢
      rw [h2] at hw
      rcases g.done x w hx' ht (by rw [hh]; simp) hw hws hnc with h | h
      · exact Or.inl ⟨h.1, h.2.grow hg hl.owns⟩
      · exact Or.inr ⟨h.1, h.2.grow hg hl.owns⟩
  | textMore hh hc =>
    refine ⟨g.nested, fun _ => ⟨(g.reading hh).1, ?_⟩, g.pend, g.done⟩
    intro h h'
    have h : (d.repeatWhitespace && isWs c) = false := h
    have h'' : AllWs (d.prevChars ++ [c]) := h'
    rw [h'' c (by simp), Bool.and_true] at h
    exact (g.reading hh).2 h fun x hx => h'' x (List.mem_append_left _ hx)
  | textEnd hh hc =>
    unfold HandleOk at hs
    simp only [hh] at hs
    have hg := he.grow hd hl hf1
    have hk : ∀ q, d.endText.heap.kids q = d.heap.kids q := by
      intro q; unfold Heap.kids Doc.endText; rw [Heap.upd_cell]; split <;> rfl
    have hcell : ∀ i, d.endText.heap.cell i = if i = d.current then
        { d.heap.cell i with content := some d.prevChars, endAt := d.position } else d.heap.cell i := fun i => rfl
    refine ⟨he.nested hd hf1 g.nested, (by intro h; cases h), ?_, ?_⟩
    · intro x hx
      have hx : (if d.repeatWhitespace then some d.current else none) = some x := hx
      split at hx
      · cases hx
        obtain ⟨⟨p, h1, h2⟩, _⟩ := g.reading hh
        exact Or.inl ⟨p, h1, by rw [hk]; exact h2, Or.inl rfl⟩
      · cases hx
    · intro x w hx ht _ hw hws hnc
      have hnc : (if d.repeatWhitespace then some d.current else none) ≠ some x := hnc
      by_cases h1 : x = d.current
      · subst h1
        exfalso
        rw [hcell, if_pos rfl] at hw
        simp only [Option.some.injEq] at hw
        subst hw
        cases h2 : d.repeatWhitespace with
        | true => rw [h2] at hnc; exact hnc rfl
        | false => exact (g.reading hh).2 h2 hws
      · rw [hcell, if_neg h1] at ht hw ⊢
        by_cases h2 : d.checkTextnode = some x
        · left
          refine ⟨(hd.check x h2).2, ?_⟩
          rcases g.pend x h2 with ⟨q, a, b, e⟩ | ⟨t, q, a, b, e, e'⟩ | ⟨t, q, l, a, b, e, e'⟩
          · rw [hh] at e; rcases e with e | e | e <;> cases e
          · rw [hh] at e'; rcases e' with e | e | e | e <;> cases e
          · refine ⟨t, q, l, d.current, [], a.grow hg, hd.chain_head b, by rw [hk]; exact e, ?_⟩
            rw [hcell, if_pos rfl]; exact Or.inl hs.2.2.1
        · rcases g.done x w hx ht (fun h => h1 h.2) hw hws h2 with h | h
          · exact Or.inl ⟨h.1, h.2.grow hg hl.owns⟩
          · exact Or.inr ⟨h.1, h.2.grow hg hl.owns⟩
  | tagOpen hh hc p hp =>
    exact g.open hd hl he hf1 (by simp [hh]) (by simp) hp (n := Cell.new .tag d.memPosition) (by rintro (h | h) <;> cases h) rfl rfl
  | endOpen hh hc =>
    have hcell : ∀ i, i < d.heap.size → ((d.heap.push { Cell.new .tagEnd d.memPosition with prev := if d.opts.autoFixUnclosedTag then some d.current else none }).cell i) = d.heap.cell i := by
      intro i hi; rw [Heap.push_cell, if_neg (by omega)]
    refine g.keep hd hl he hf1 (by simp [hh]) (by simp) ?_ ?_ (Or.inl rfl) ?_
    · intro _
      have h1 := hcell _ hd.curLt
      show (Heap.cell (d.heap.push _) d.current).content = _
      rw [h1]; rfl
    · intro _
      show ¬ ((d.heap.push _).cell d.heap.size).nodeType.isText
      rw [Heap.push_cell, if_pos rfl]
      rintro (h | h) <;> cases h
    · intro x hx
      refine Or.inl ⟨hx, ?_⟩
      refine (g.pend x hx).same (he.grow hd hl hf1) (fun i hi => ?_) hd rfl (by simp [hh]) (fun _ => Or.inr (Or.inr rfl))
      unfold Heap.kids
      have h1 := hcell i hi
      show (Heap.cell (d.heap.push _) i).childs.getD [] = _
      rw [h1]
  | bang hh hc =>
    exact g.data hd hl he hf1 (by simp [hh]) (by simp) (fun _ => rfl) rfl (fun _ _ => rfl) rfl fun _ => ⟨rfl, Or.inr (Or.inl rfl)⟩
  | ltExtend hh hf hc ht w hw d1 h1 => rw [hf1] at hf; cases hf
  | ltNew hh hf hc ht p hp d1 h1 => rw [hf1] at hf; cases hf
  | exclFirst hh hdt D hD =>
    exact g.data hd hl he hf1 (by simp [hh]) (by simp [hh]) (fun _ => rfl) rfl (fun _ _ => rfl) rfl fun _ => ⟨rfl, Or.inr (Or.inl hh)⟩
  | exclMore hh D hdt hl' hc =>
    exact g.data hd hl he hf1 (by simp [hh]) (by simp [hh]) (fun _ => rfl) rfl (fun _ _ => rfl) rfl fun _ => ⟨rfl, Or.inr (Or.inl hh)⟩
  | commentOpen hh hdt hl' hc p hp =>
    exact g.open hd hl he hf1 (by simp [hh]) (by simp) hp (n := Cell.new .comment d.memPosition) (by rintro (h | h) <;> cases h) rfl rfl
  | cdataOpen hh hdt hl' hc p hp =>
    exact g.open hd hl he hf1 (by simp [hh]) (by simp) hp (n := Cell.new .xmlCdata d.memPosition) (by rintro (h | h) <;> cases h) rfl rfl
  | doctypeOpen hh hdt hl' hc p hp =>
    exact g.open hd hl he hf1 (by simp [hh]) (by simp) hp (n := Cell.new .htmlDoctype d.memPosition) (by rintro (h | h) <;> cases h) rfl rfl
  | commentMore hh hc =>
    exact g.data hd hl he hf1 (by simp [hh]) (by simp [hh]) (fun _ => rfl) rfl (fun _ _ => rfl) rfl (by simp [hh])
  | commentClose hh hc b hb hp =>
    unfold HandleOk at hs
    simp only [hh] at hs
    refine g.data hd hl he hf1 (by simp [hh]) (by simp) ?_ rfl (fun i _ => ?_) rfl (by simp [hh])
    · rcases hs.2 with h | h <;> rw [h.2.2] <;> rintro (h | h) <;> cases h
    · unfold Heap.kids; rw [Heap.upd_cell]; split <;> rfl
  | doctypeName hh hc =>
    exact g.quiet hd hl he hf1 (by simp [hh]) (by simp [Doc.putTag]) (by simp [hh]) (fun _ => putTag_content d _ _)
      (fun h => absurd h (Nat.lt_irrefl _)) rfl
  | nameMore hh hc =>
    exact g.data hd hl he hf1 (by simp [hh]) (by simp [hh]) (fun _ => rfl) rfl (fun _ _ => rfl) rfl (by simp [hh])
  | nameEnd hh hc =>
    refine g.quiet hd hl he hf1 (by simp [hh]) ?_ (by simp [hh]) (fun _ => putTag_content d _ _)
      (fun h => absurd h (Nat.lt_irrefl _)) rfl
    simp only [Doc.putTag]; split <;> simp
  | nameClose hh hc m hm =>
    refine g.quiet hd hl he hf1 (by simp [hh]) (closeTag_ne_text _ _) (by simp [hh]) ?_ ?_ (closeTag_check _ _)
    · intro _; rw [closeTag_heap]; exact putTag_content d _ _
    · intro h; rw [closeTag_heap] at h; exact absurd h (Nat.lt_irrefl _)
  | tagMore hh m hm t id ht =>
    obtain ⟨_, _, k3⟩ := tagChar_cont (hd.inTag hh hm).1 ht
    exact g.quiet hd hl he hf1 (inTag_ne_text hh) (inTag_ne_text k3) (inTag_idle hh) (fun _ => putTag_content d _ _)
      (fun h => absurd h (Nat.lt_irrefl _)) rfl
  | tagClose hh m hm m' pc mark id ht =>
    refine g.quiet hd hl he hf1 (inTag_ne_text hh) (closeTag_ne_text _ _) (inTag_idle hh) ?_ ?_ (closeTag_check _ _)
    · intro _; rw [closeTag_heap]; exact putTag_content d _ _
    · intro h; rw [closeTag_heap] at h; exact absurd h (Nat.lt_irrefl _)
  | tagSelf hh hc m hm ha =>
    refine g.quiet hd hl he hf1 (by simp [hh]) (by simp) (by simp [hh]) ?_ (fun h => absurd h (Nat.lt_irrefl _)) rfl
    intro _
    simp only [Heap.upd_cell_self]; rfl
  | endMore hh hc =>
    exact g.data hd hl he hf1 (by simp [hh]) (by simp [hh]) (fun _ => rfl) rfl (fun _ _ => rfl) rfl fun _ => ⟨rfl, Or.inr (Or.inr hh)⟩
  | endMatch hh hc t m hm =>
    unfold HandleOk at hs
    simp only [hh] at hs
    have hg := he.grow hd hl hf1
    have hcell := endHeap_cell hd t d.prevChars hm.2.1 hs.2.2.1
    have htl := hd.chain_head hm.2.1
    have hne : d.current ≠ t := by
      intro h
      have h1 := hs.2.2.1
      unfold Doc.cur at h1
      rw [h] at h1
      rcases chain_not_text hd (List.mem_of_mem_head? hm.2.1) with h2 | h2 <;> rw [h2] at h1 <;> cases h1
    have hcc : ∀ i, ((d.endHeap t d.prevChars).cell i).childs = (d.heap.cell i).childs := by
      intro i; rw [hcell]; split <;> (try rfl); split <;> (try rfl); split <;> rfl
    have hk : ∀ i, (d.endHeap t d.prevChars).kids i = d.heap.kids i := by
      intro i; unfold Heap.kids; rw [hcc]
    have hte : ((d.endHeap t d.prevChars).cell t).endTag ≠ none := by
      rw [hcell, if_neg (Ne.symm hne), if_pos rfl]; simp
    refine g.keep hd hl he hf1 (by simp [hh]) (by simp) ?_ ?_ ?_ ?_
    · rw [hs.2.2.1]; rintro (h | h) <;> cases h
    · intro h
      have h : d.heap.size < (d.endHeap t d.prevChars).size := h
      rw [endHeap_size] at h; exact absurd h (Nat.lt_irrefl _)
    · show (if onlyText d.heap t then d.checkTextnode else none) = _ ∨ _ = _
      split
      · exact Or.inl rfl
      · exact Or.inr rfl
    · intro x hx
      have hxt := hd.check x hx
      by_cases ho : onlyText d.heap t = true
      · left
        refine ⟨by show (if onlyText d.heap t then d.checkTextnode else none) = _; rw [if_pos ho]; exact hx, ?_⟩
        unfold onlyText at ho
        split at ho
        · rename_i y hy
          simp only [decide_eq_true_eq] at ho
          have hky : d.heap.kids t = [y] := by unfold Heap.kids; rw [hy]; rfl
          rcases g.pend x hx with ⟨q, a, b, e⟩ | ⟨u, q, a, b, e, _⟩ | ⟨u, q, l, a, b, e, e'⟩
          · rw [hm.2.1] at a; cases a
            rw [hky] at b
            simp only [List.getLast?_singleton, Option.some.injEq] at b
            subst b
            right; left
            have hn := g.nested
            have hcl := hm.1
            have hht := hm.2.1
            cases hch : d.chain with
            | nil => rw [hch] at hcl; simp at hcl
            | cons a as =>
              cases as with
              | nil => rw [hch] at hcl; simp at hcl
              | cons q r =>
                rw [hch] at hn hht
                simp only [List.head?_cons, Option.some.injEq] at hht
                subst hht
                refine ⟨a, q, ⟨?_, ?_, hte⟩, ?_, ?_, Or.inl rfl⟩
                · show a < (d.endHeap a d.prevChars).size
                  rw [endHeap_size]; exact htl
                · show ((d.endHeap a d.prevChars).cell a).childs = _
                  rw [hcc]; exact hy
                · rfl
                · show ((d.endHeap a d.prevChars).kids q).getLast? = some a
                  rw [hk]; exact hn.1
          · rw [hm.2.1] at b; cases b
            rw [hky] at e
            simp only [List.getLast?_singleton, Option.some.injEq] at e
            subst e
            exfalso
            have := hl.owns.inner y a.1 (by rw [a.2.1]; simp)
            rw [ho] at this
            rcases this with h | h <;> cases h
          · rw [hh] at e'; cases e'
        · cases ho
      · right
        have ho' : ¬ onlyText d.heap t = true := ho
        refine ⟨by show (if onlyText d.heap t then d.checkTextnode else none) = _; rw [if_neg ho], ?_, ?_⟩
        · show ((d.endHeap t d.prevChars).cell x).nodeType = _
          rw [(endHeap_cell_eq hd t d.prevChars hm.2.1 hs.2.2.1 x).1]
          unfold Doc.markTarget
          rw [if_neg ho, if_pos hx]
        · show Gone (d.endHeap t d.prevChars) x
          rcases g.pend x hx with ⟨q, a, b, e⟩ | ⟨u, q, a, b, e, _⟩ | ⟨u, q, l, a, b, e, e'⟩
          · rw [hm.2.1] at a; cases a
            left
            refine ⟨t, by rw [endHeap_size]; exact htl, by rw [hk]; exact List.mem_of_getLast? b, ?_⟩
            rw [hk]
            intro h
            apply ho
            unfold onlyText
            unfold Heap.kids at h
            cases hch : (d.heap.cell t).childs with
            | none => rw [hch] at h; cases h
            | some l =>
              rw [hch] at h
              simp only [Option.getD_some] at h
              subst h
              simp only [hxt.2, decide_true]
          · rw [hm.2.1] at b; cases b
            right; right
            exact ⟨u, t, a.grow hg, by rw [endHeap_size]; exact htl, by rw [hk]; exact e, hte⟩
          · rw [hh] at e'; cases e'
  | endStray hh hc hf hm => rw [hf2] at hf; cases hf
  | rawMore hh hc =>
    exact g.data hd hl he hf1 (by simp [hh]) (by simp [hh]) (fun _ => rfl) rfl (fun _ _ => rfl) rfl (by simp [hh])
  | rawClose hh hc e he' n hn =>
    unfold HandleOk at hs
    simp only [hh] at hs
    refine g.quiet hd hl he hf1 (by simp [hh]) (by simp) (by simp [hh]) ?_ ?_ rfl
    · rw [hs.1]; rintro (h | h) <;> cases h
    · intro _
      show ¬ ((d.rawHeap n).cell d.heap.size).nodeType.isText
      rw [rawHeap_cell hd, if_pos rfl]
      rintro (h | h) <;> cases h

theorem Reach.sp {o : ParseOptions} {s : Str} {d : Doc} (h : Reach o s d) (hf1 : o.autoFixUnescapedLt = false)
    (hf2 : o.autoFixUnexpectedEndtag = false) : SpInv d := by
  induction h with
  | init => exact SpInv.new o
  | step hr hs ih =>
    have := ih.step hr.ctl hr.links (by rw [hr.opts]; exact hf1) (by rw [hr.opts]; exact hf2) hs
    exact ⟨this.nested, this.reading, this.pend, this.done⟩

theorem childs_of_kids {h : Heap} {q : NodeId} {l : List NodeId} (hk : h.kids q = l) (hl : l ≠ []) :
    (h.cell q).childs = some l := by
  unfold Heap.kids at hk
  cases hc : (h.cell q).childs with
  | none => rw [hc] at hk; exact absurd hk.symm hl
  | some a => rw [hc] at hk; simp only [Option.getD_some] at hk; rw [hk]

theorem kids_of_childs {h : Heap} {q : NodeId} {l : List NodeId} (hk : (h.cell q).childs = some l) : h.kids q = l := by
  unfold Heap.kids; rw [hk]; rfl

/-- A decided text is not kept. -/
theorem Gone.not_kept {lt : Bool} {h : Heap} (g : Owns lt h) (e : Ends h) (h0 : (h.cell 0).nodeType = .abstractRoot)
    (hpos : 0 < h.size) {x : NodeId} (hx : Gone h x) : ¬ Spec.KeptSpace h x := by
  rintro ⟨t, ht, hch, het, hk⟩
  have hkt := kids_of_childs hch
  have hxt : x ∈ h.kids t := by rw [hkt]; simp
  rcases hx with ⟨p, h1, h2, h3⟩ | ⟨t', q, l, z, r, h1, h2, h3, h4⟩ | ⟨t', q, h1, h2, h3, h4⟩
  · have := g.owner p t x h1 ht h2 hxt
    subst this; exact h3 hkt
  · have := g.owner t' t x h1.1 ht (by rw [kids_of_childs h1.2.1]; simp) hxt
    subst this
    have hmem : t' ∈ h.kids q := by rw [h3]; simp
    have i1 := g.index q l.length t' h2 (by rw [h3]; simp)
    rcases hk with ⟨q', l', y, r', h5, h6, h7⟩ | ⟨l', h6⟩
    · have hk6 := kids_of_childs h6
      have := g.owner q q' t' h2 h5 hmem (by rw [hk6]; simp)
      subst this
      have i2 := g.index q l'.length t' h2 (by rw [hk6]; simp)
      have hlen : l.length = l'.length := by rw [← i1, i2]
      have e1 : (h.kids q)[l.length + 1]? = some z := by rw [h3]; simp
      have e2 : (h.kids q)[l'.length + 1]? = some y := by rw [hk6]; simp
      rw [hlen, e2] at e1
      cases e1
      exact h4 h7
    · have hk6 := kids_of_childs h6
      have := g.owner q 0 t' h2 hpos hmem (by rw [hk6]; simp)
      subst this
      have hz : z ∈ h.kids 0 := by rw [h3]; simp
      have := g.le_last hpos (x := t') (by rw [hk6]; simp) hz
      have hs := g.sorted 0 hpos
      rw [h3] at hs
      have := (List.pairwise_cons.1 (List.pairwise_append.1 hs).2.1).1 z (by simp)
      omega
  · have := g.owner t' t x h1.1 ht (by rw [kids_of_childs h1.2.1]; simp) hxt
    subst this
    have hmem : t' ∈ h.kids q := List.mem_of_getLast? h3
    rcases hk with ⟨q', l', y, r', h5, h6, h7⟩ | ⟨l', h6⟩
    · have hk6 := kids_of_childs h6
      have := g.owner q q' t' h2 h5 hmem (by rw [hk6]; simp)
      subst this
      have := g.le_last h2 h3 (b := y) (by rw [hk6]; simp)
      have hs := g.sorted q h2
      rw [hk6] at hs
      have := (List.pairwise_cons.1 (List.pairwise_append.1 hs).2.1).1 y (by simp)
      omega
    · have hk6 := kids_of_childs h6
      have := g.owner q 0 t' h2 hpos hmem (by rw [hk6]; simp)
      subst this
      cases he : (h.cell 0).endTag with
      | none => exact h4 he
      | some a =>
        have := (e.down 0 a hpos he).2.2.2.2.2
        rw [h0] at this; cases this

theorem Stay.kept {h : Heap} {x : NodeId} (hx : Stay h x) : Spec.KeptSpace h x := by
  obtain ⟨t, q, l, y, r, h1, h2, h3, h4⟩ := hx
  exact ⟨t, h1.1, h1.2.1, h1.2.2, Or.inl ⟨q, l, y, r, h2, childs_of_kids h3 (by simp), h4⟩⟩

/-- The whitespace-only texts of the finished document. -/
theorem Reach.finalSpaces {o : ParseOptions} {s : Str} {d : Doc} (hr : Reach o s d) (he : EofOk d)
    (hf1 : o.autoFixUnescapedLt = false) (hf2 : o.autoFixUnexpectedEndtag = false) (hf3 : o.autoFixUnclosedTag = false)
    (hown : Owns o.autoFixUnescapedLt d.finalHeap) (hends : Ends d.finalHeap)
    (x : NodeId) (w : Str) (hx : x < d.finalHeap.size) (ht : (d.finalHeap.cell x).nodeType.isText)
    (hw : (d.finalHeap.cell x).content = some w) (hws : AllWs w) :
    (d.finalHeap.cell x).nodeType = .text ↔ Spec.KeptSpace d.finalHeap x := by
  have hd := hr.ctl
  have g := hr.sp hf1 hf2
  have hof : d.opts.autoFixUnclosedTag = false := by rw [hr.opts]; exact hf3
  have hlen : d.chain.length ≤ 1 := by
    rcases he.closed with h | h
    · exact h
    · rw [hof] at h; cases h
  have hsz : d.finalHeap.size = d.heap.size := by
    rw [finalHeap_size]; unfold Doc.fixedHeap; rw [if_neg (by omega)]
  have hpos : 0 < d.finalHeap.size := by rw [hsz]; exact hd.sizePos
  have hcell := eofCell hd he
  have het : ∀ i, i < d.heap.size → (d.finalHeap.cell i).endTag = (d.heap.cell i).endTag := by
    intro i hi
    rcases (hcell i hi).endTag with h | h
    · exact h
    · rw [hof] at h; cases h.2.2.1
  have htx : ∀ i, i < d.heap.size → ((d.finalHeap.cell i).nodeType.isText ↔ (d.heap.cell i).nodeType.isText) := by
    intro i hi
    rcases (hcell i hi).ty with h | h
    · rw [h]
    · rw [h.1, h.2.1]; exact ⟨fun _ => Or.inl rfl, fun _ => Or.inr rfl⟩
  have h0 : (d.finalHeap.cell 0).nodeType = .abstractRoot := by
    have h1 := (hd.rootTy 0 hd.sizePos).2 rfl
    rcases (hcell 0 hd.sizePos).ty with h | h
    · rw [h]; exact h1
    · rw [h1] at h; cases h.1
  have hkid : ∀ i, i < d.heap.size → d.finalHeap.kids i = d.heap.kids i := by
    intro i hi; unfold Heap.kids; rw [(hcell i hi).childs]
  have hgrow : Grow d { d with heap := d.finalHeap } :=
    ⟨Nat.le_of_eq hsz.symm, fun i hi => Or.inl (hkid i hi),
      fun i hi h => ⟨(hcell i hi).childs, by rw [show (d.finalHeap.cell i).endTag = _ from het i hi]; exact h⟩, htx⟩
  have hlo := hr.links.owns
  have hx' : x < d.heap.size := by rw [hsz] at hx; exact hx
  have hq0 : ∀ q, d.chain.head? = some q → q = 0 := by
    intro q hq
    have hl := hd.chainLast
    cases hc : d.chain with
    | nil => rw [hc] at hq; cases hq
    | cons a as =>
      cases as with
      | nil =>
        rw [hc] at hq hl
        have := hl (by simp)
        simp only [List.head?_cons, Option.some.injEq, List.getLast?_singleton] at hq this
        omega
      | cons b bs => rw [hc] at hlen; simp at hlen
  by_cases hcur : d.handle = .text ∧ x = d.current
  · -- the text read last
    obtain ⟨hh, hxc⟩ := hcur
    have hs := hd.hs
    unfold HandleOk at hs
    simp only [hh] at hs
    have hcon := (hcell x hx').content
    rw [if_pos ⟨hs.1, hxc⟩, hw] at hcon
    cases hcon
    obtain ⟨⟨p, hp, hlast⟩, hrw⟩ := g.reading hh
    have hrep : d.repeatWhitespace = true := by
      cases h : d.repeatWhitespace with
      | true => rfl
      | false => exact absurd hws (hrw h)
    have hty : (d.finalHeap.cell x).nodeType = .spacesBetweenTag := by
      unfold Doc.finalHeap
      have hne : ¬ x = 0 := by
        intro h
        have h1 := (hd.rootTy 0 hd.sizePos).2 rfl
        have h2 := hs.2.2.1
        unfold Doc.cur at h2
        rw [← hxc, h, h1] at h2; cases h2
      rw [Heap.upd_cell, if_neg hne, if_pos hs.1, Heap.upd_cell, if_pos hxc]
      simp only [Doc.lastText, hrep, if_true]
    rw [hty]
    refine ⟨fun h => (by cases h), ?_⟩
    rintro ⟨t, h1, h2, h3, _⟩
    exfalso
    have hp0 := hq0 p hp
    subst hp0
    have hxm : x ∈ d.finalHeap.kids 0 := by rw [hkid 0 hd.sizePos, hxc]; exact List.mem_of_getLast? hlast
    have := hown.owner 0 t x hpos h1 hxm (by rw [kids_of_childs h2]; simp)
    subst this
    cases hee : (d.finalHeap.cell 0).endTag with
    | none => exact h3 hee
    | some a =>
      have := (hends.down 0 a hpos hee).2.2.2.2.2
      rw [h0] at this; cases this
  · have hnt : ¬ (d.codeIn = .textNode ∧ x = d.current) := by
      intro h
      exact hcur ⟨hd.codeIn_text h.1, h.2⟩
    have hty : (d.finalHeap.cell x).nodeType = (d.heap.cell x).nodeType := by
      rcases (hcell x hx').ty with h | h
      · exact h
      · exact absurd ⟨h.2.2.2.1, h.2.2.1⟩ hnt
    have hcon := (hcell x hx').content
    rw [if_neg hnt, hw] at hcon
    rw [hty] at ht ⊢
    by_cases hch : d.checkTextnode = some x
    · rw [(hd.check x hch).2]
      refine ⟨fun _ => ?_, fun _ => rfl⟩
      have hstate : ¬ (d.handle = .unkownTag ∨ d.handle = .exclamationBegin ∨ d.handle = .tagEnd) := by
        have hs := hd.hs
        unfold HandleOk at hs
        have hco := he.code
        rintro (h | h | h) <;> simp only [h] at hs <;> rw [hs.1, hof] at hco <;>
          rcases hco with h | h | h | ⟨_, h⟩ <;> cases h
      rcases g.pend x hch with ⟨q, a, b, e⟩ | ⟨t, q, a, b, e, _⟩ | ⟨t, q, l, a, b, e, e'⟩
      · exact absurd e hstate
      · have := hq0 q b
        subst this
        have hl := a.grow hgrow
        obtain ⟨l, hl'⟩ := List.getLast?_eq_some_iff.1 e
        exact ⟨t, hl.1, hl.2.1, hl.2.2, Or.inr ⟨l, childs_of_kids (by rw [hkid 0 hd.sizePos, hl']) (by simp)⟩⟩
      · have hs := hd.hs
        unfold HandleOk at hs
        simp only [e'] at hs
        have hl := a.grow hgrow
        refine ⟨t, hl.1, hl.2.1, hl.2.2, Or.inl ⟨q, l, d.current, [], ?_, ?_, ?_⟩⟩
        · rw [hsz]; exact hd.chain_head b
        · exact childs_of_kids (by rw [hkid q (hd.chain_head b)]; exact e) (by simp)
        · exact (htx d.current hd.curLt).2 (Or.inl hs.2.2.1)
    · rcases g.done x w hx' ht hcur hcon.symm hws hch with h | h
      · rw [h.1]
        exact ⟨fun _ => (h.2.grow hgrow hlo).kept, fun _ => rfl⟩
      · rw [h.1]
        refine ⟨fun h' => (by cases h'), fun hk => ?_⟩
        exact absurd hk ((h.2.grow hgrow hlo).not_kept hown hends h0 hpos)

end Rphtml
