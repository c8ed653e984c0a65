import Verif.Proofs.Effect

/-!
# The node graph is a tree

`Owns` describes the `childs`, `index`, `parent` and `root` links of a heap, `Ends` the `end_tag` links.
Both hold in every reachable parser state.
-/

namespace Rphtml

/-- The children of a node as a list. -/
def Heap.kids (h : Heap) (p : NodeId) : List NodeId := (h.cell p).childs.getD []

/-- How the type of an existing node may change. -/
def TyLe (a b : NodeType) : Prop := b = a ∨ (a = .text ∧ b = .spacesBetweenTag)

/-- The `childs` links form a forest in creation order and the other links agree with them.
`lt` allows the unlinked text nodes of `auto_fix_unescaped_lt`. -/
structure Owns (lt : Bool) (h : Heap) : Prop where
  nonempty : ∀ p, p < h.size → (h.cell p).childs ≠ some []
  sorted : ∀ p, p < h.size → (h.kids p).Pairwise (· < ·)
  range : ∀ p x, p < h.size → x ∈ h.kids p → p < x ∧ x < h.size
  index : ∀ p k x, p < h.size → (h.kids p)[k]? = some x → (h.cell x).index = k
  kind : ∀ p x, p < h.size → x ∈ h.kids p →
    (h.cell x).nodeType ≠ .tagEnd ∧ (h.cell x).nodeType ≠ .abstractRoot
  owner : ∀ p q x, p < h.size → q < h.size → x ∈ h.kids p → x ∈ h.kids q → p = q
  owned : ∀ x, x < h.size → 0 < x → (h.cell x).nodeType ≠ .tagEnd → ∃ p, p < h.size ∧ x ∈ h.kids p
  up : ∀ p x, p < h.size → x ∈ h.kids p →
    ((h.cell x).parent = some p ∧ (h.cell x).root = some 0) ∨
    (lt = true ∧ ((h.cell x).nodeType = .text ∨ (h.cell x).nodeType = .spacesBetweenTag) ∧
      (h.cell x).parent = none ∧ (h.cell x).root = none)
  inner : ∀ p, p < h.size → (h.cell p).childs ≠ none → (h.cell p).nodeType = .tag ∨ (h.cell p).nodeType = .abstractRoot

/-- The `end_tag` links. -/
structure Ends (h : Heap) : Prop where
  down : ∀ t e, t < h.size → (h.cell t).endTag = some e →
    t < e ∧ e < h.size ∧ (h.cell e).nodeType = .tagEnd ∧ (h.cell e).parent = some t ∧ (h.cell e).content ≠ none ∧
      (h.cell t).nodeType = .tag

theorem Ends.inj {h : Heap} (he : Ends h) {s t e : NodeId} (hs : s < h.size) (ht : t < h.size)
    (h1 : (h.cell s).endTag = some e) (h2 : (h.cell t).endTag = some e) : s = t := by
  have a := (he.down s e hs h1).2.2.2.1
  have b := (he.down t e ht h2).2.2.2.1
  rw [a] at b; cases b; rfl

theorem TyLe.refl (a : NodeType) : TyLe a a := Or.inl rfl

theorem TyLe.eq {a b : NodeType} (h : TyLe a b) (ha : a ≠ .text) : b = a := by
  rcases h with h | h
  · exact h
  · exact absurd h.1 ha

theorem TyLe.ne {a b c : NodeType} (h : TyLe a b) (ha : a ≠ c) (hc : c ≠ .spacesBetweenTag) : b ≠ c := by
  rcases h with h | h
  · rw [h]; exact ha
  · rw [h.2]; exact hc.symm

theorem TyLe.text {a b : NodeType} (h : TyLe a b) (ha : a = .text ∨ a = .spacesBetweenTag) :
    b = .text ∨ b = .spacesBetweenTag := by
  rcases h with h | h
  · rw [h]; exact ha
  · exact Or.inr h.2

/-- Only data changed. -/
theorem Owns.keep {lt : Bool} {h h' : Heap} (g : Owns lt h) (hsz : h'.size = h.size)
    (hk : ∀ i, i < h.size → (h'.cell i).childs = (h.cell i).childs ∧ (h'.cell i).index = (h.cell i).index ∧
      (h'.cell i).root = (h.cell i).root ∧ TyLe (h.cell i).nodeType (h'.cell i).nodeType ∧
      ((h.cell i).nodeType ≠ .tagEnd → (h'.cell i).parent = (h.cell i).parent)) : Owns lt h' := by
  have kid : ∀ p, p < h.size → h'.kids p = h.kids p := by
    intro p hp; unfold Heap.kids; rw [(hk p hp).1]
  refine ⟨?_, ?_, ?_, ?_, ?_, ?_, ?_, ?_, ?_⟩
  · intro p hp; rw [hsz] at hp; rw [(hk p hp).1]; exact g.nonempty p hp
  · intro p hp; rw [hsz] at hp; rw [kid p hp]; exact g.sorted p hp
  · intro p x hp hx; rw [hsz] at hp ⊢; rw [kid p hp] at hx; exact g.range p x hp hx
  · intro p k x hp hx; rw [hsz] at hp; rw [kid p hp] at hx
    rw [(hk x (g.range p x hp (List.mem_of_getElem? hx)).2).2.1]; exact g.index p k x hp hx
  · intro p x hp hx; rw [hsz] at hp; rw [kid p hp] at hx
    have hx' := (g.range p x hp hx).2
    have := g.kind p x hp hx
    exact ⟨(hk x hx').2.2.2.1.ne this.1 (by simp), (hk x hx').2.2.2.1.ne this.2 (by simp)⟩
  · intro p q x hp hq h1 h2; rw [hsz] at hp hq; rw [kid p hp] at h1; rw [kid q hq] at h2
    exact g.owner p q x hp hq h1 h2
  · intro x hx h0 ht; rw [hsz] at hx ⊢
    have ht' : (h.cell x).nodeType ≠ .tagEnd := by
      intro hc; exact ht ((hk x hx).2.2.2.1.eq (by rw [hc]; simp) ▸ hc)
    obtain ⟨p, hp, hxp⟩ := g.owned x hx h0 ht'
    exact ⟨p, hp, by rw [kid p hp]; exact hxp⟩
  · intro p x hp hx; rw [hsz] at hp; rw [kid p hp] at hx
    have hx' := (g.range p x hp hx).2
    obtain ⟨_, _, e3, e4, e5⟩ := hk x hx'
    rw [e3, e5 (g.kind p x hp hx).1]
    rcases g.up p x hp hx with h1 | h1
    · exact Or.inl h1
    · exact Or.inr ⟨h1.1, e4.text h1.2.1, h1.2.2⟩
  · intro p hp hne; rw [hsz] at hp; rw [(hk p hp).1] at hne
    rcases g.inner p hp hne with h1 | h1
    · left; rw [(hk p hp).2.2.2.1.eq (by rw [h1]; simp)]; exact h1
    · right; rw [(hk p hp).2.2.2.1.eq (by rw [h1]; simp)]; exact h1

/-- An end tag node was allocated. -/
theorem Owns.addEnd {lt : Bool} {h h' : Heap} (g : Owns lt h) (hsz : h'.size = h.size + 1)
    (hk : ∀ i, i < h.size → (h'.cell i).childs = (h.cell i).childs ∧ (h'.cell i).index = (h.cell i).index ∧
      (h'.cell i).root = (h.cell i).root ∧ TyLe (h.cell i).nodeType (h'.cell i).nodeType ∧
      ((h.cell i).nodeType ≠ .tagEnd → (h'.cell i).parent = (h.cell i).parent))
    (hn : (h'.cell h.size).nodeType = .tagEnd ∧ (h'.cell h.size).childs = none) : Owns lt h' := by
  have g' : Owns lt { h' with size := h.size } := g.keep (h' := { h' with size := h.size }) rfl hk
  have kn : h'.kids h.size = [] := by unfold Heap.kids; rw [hn.2]; rfl
  have split : ∀ p, p < h'.size → p < h.size ∨ p = h.size := by intro p hp; omega
  refine ⟨?_, ?_, ?_, ?_, ?_, ?_, ?_, ?_, ?_⟩
  · intro p hp; rcases split p hp with h1 | h1
    · exact g'.nonempty p h1
    · rw [h1, hn.2]; simp
  · intro p hp; rcases split p hp with h1 | h1
    · exact g'.sorted p h1
    · rw [h1, kn]; exact List.Pairwise.nil
  · intro p x hp hx; rcases split p hp with h1 | h1
    · have := g'.range p x h1 hx; simp only at this; omega
    · rw [h1, kn] at hx; cases hx
  · intro p k x hp hx; rcases split p hp with h1 | h1
    · exact g'.index p k x h1 hx
    · rw [h1, kn] at hx; simp at hx
  · intro p x hp hx; rcases split p hp with h1 | h1
    · exact g'.kind p x h1 hx
    · rw [h1, kn] at hx; cases hx
  · intro p q x hp hq hx hy
    rcases split p hp with h1 | h1
    · rcases split q hq with h2 | h2
      · exact g'.owner p q x h1 h2 hx hy
      · rw [h2, kn] at hy; cases hy
    · rw [h1, kn] at hx; cases hx
  · intro x hx h0 ht; rcases split x hx with h1 | h1
    · obtain ⟨p, hp, hxp⟩ := g'.owned x h1 h0 ht
      simp only at hp
      exact ⟨p, by omega, hxp⟩
    · rw [h1] at ht; exact absurd hn.1 ht
  · intro p x hp hx; rcases split p hp with h1 | h1
    · exact g'.up p x h1 hx
    · rw [h1, kn] at hx; cases hx
  · intro p hp hne; rcases split p hp with h1 | h1
    · exact g'.inner p h1 hne
    · rw [h1] at hne; exact absurd hn.2 hne

/-- A child was linked below `p`. -/
theorem Owns.addKid {lt : Bool} {h h' : Heap} (g : Owns lt h) (p : NodeId) (hp : p < h.size)
    (hsz : h'.size = h.size + 1)
    (hk : ∀ i, i < h.size → (h'.cell i).childs = (if i = p then some (h.kids p ++ [h.size]) else (h.cell i).childs) ∧
      (h'.cell i).index = (h.cell i).index ∧
      (h'.cell i).root = (h.cell i).root ∧ TyLe (h.cell i).nodeType (h'.cell i).nodeType ∧
      ((h.cell i).nodeType ≠ .tagEnd → (h'.cell i).parent = (h.cell i).parent))
    (hpt : (h.cell p).nodeType = .tag ∨ (h.cell p).nodeType = .abstractRoot)
    (hn : (h'.cell h.size).nodeType ≠ .tagEnd ∧ (h'.cell h.size).nodeType ≠ .abstractRoot ∧
      (h'.cell h.size).childs = none ∧ (h'.cell h.size).index = (h.kids p).length)
    (hup : ((h'.cell h.size).parent = some p ∧ (h'.cell h.size).root = some 0) ∨
      (lt = true ∧ (h'.cell h.size).nodeType = .text ∧ (h'.cell h.size).parent = none ∧
        (h'.cell h.size).root = none)) : Owns lt h' := by
  obtain ⟨n1, n2, n3, n4⟩ := hn
  have kid : ∀ q, q < h.size → h'.kids q = if q = p then h.kids p ++ [h.size] else h.kids q := by
    intro q hq; unfold Heap.kids; rw [(hk q hq).1]; split <;> rfl
  have kn : h'.kids h.size = [] := by unfold Heap.kids; rw [n3]; rfl
  have split : ∀ p, p < h'.size → p < h.size ∨ p = h.size := by intro p hp; omega
  have memk : ∀ q x, q < h'.size → x ∈ h'.kids q → (q < h.size ∧ x ∈ h.kids q) ∨ (q = p ∧ x = h.size) := by
    intro q x hq hx
    rcases split q hq with h1 | h1
    · rw [kid q h1] at hx
      by_cases hqp : q = p
      · rw [if_pos hqp] at hx
        rcases List.mem_append.1 hx with h2 | h2
        · left; exact ⟨h1, by rw [hqp]; exact h2⟩
        · right; exact ⟨hqp, by simpa using h2⟩
      · rw [if_neg hqp] at hx; exact Or.inl ⟨h1, hx⟩
    · rw [h1, kn] at hx; cases hx
  have sub : ∀ q x, q < h.size → x ∈ h.kids q → x ∈ h'.kids q := by
    intro q x hq hx
    rw [kid q hq]; split
    · rename_i e; rw [← e]; exact List.mem_append_left _ hx
    · exact hx
  refine ⟨?_, ?_, ?_, ?_, ?_, ?_, ?_, ?_, ?_⟩
  · intro q hq; rcases split q hq with h1 | h1
    · rw [(hk q h1).1]; split
      · simp
      · exact g.nonempty q h1
    · rw [h1, n3]; simp
  · intro q hq; rcases split q hq with h1 | h1
    · rw [kid q h1]; split
      · rw [List.pairwise_append]
        refine ⟨g.sorted p hp, List.pairwise_singleton _ _, ?_⟩
        intro a ha b hb
        rw [List.mem_singleton] at hb; subst hb
        exact (g.range p a hp ha).2
      · exact g.sorted q h1
    · rw [h1, kn]; exact List.Pairwise.nil
  · intro q x hq hx
    rcases memk q x hq hx with ⟨h1, h2⟩ | ⟨h1, h2⟩
    · have := g.range q x h1 h2; omega
    · omega
  · intro q k x hq hx
    rcases split q hq with h1 | h1
    · rw [kid q h1] at hx
      split at hx
      · by_cases hlt : k < (h.kids p).length
        · rw [List.getElem?_append_left hlt] at hx
          rw [(hk x (g.range p x hp (List.mem_of_getElem? hx)).2).2.1]
          exact g.index p k x hp hx
        · rw [List.getElem?_append_right (by omega)] at hx
          have hk0 : k - (h.kids p).length = 0 := by
            rcases Nat.eq_zero_or_pos (k - (h.kids p).length) with hz | hz
            · exact hz
            · rw [List.getElem?_eq_none (by simp; omega)] at hx; cases hx
          rw [hk0] at hx
          simp only [List.getElem?_cons_zero, Option.some.injEq] at hx
          rw [← hx, n4]; omega
      · rw [(hk x (g.range q x h1 (List.mem_of_getElem? hx)).2).2.1]
        exact g.index q k x h1 hx
    · rw [h1, kn] at hx; simp at hx
  · intro q x hq hx
    rcases memk q x hq hx with ⟨h1, h2⟩ | ⟨h1, h2⟩
    · have hx' := (g.range q x h1 h2).2
      have := g.kind q x h1 h2
      exact ⟨(hk x hx').2.2.2.1.ne this.1 (by simp), (hk x hx').2.2.2.1.ne this.2 (by simp)⟩
    · rw [h2]; exact ⟨n1, n2⟩
  · intro q r x hq hr hx hy
    rcases memk q x hq hx with ⟨h1, h2⟩ | ⟨h1, h2⟩
    · rcases memk r x hr hy with ⟨h3, h4⟩ | ⟨h3, h4⟩
      · exact g.owner q r x h1 h3 h2 h4
      · have := (g.range q x h1 h2).2; omega
    · rcases memk r x hr hy with ⟨h3, h4⟩ | ⟨h3, h4⟩
      · have := (g.range r x h3 h4).2; omega
      · rw [h1, h3]
  · intro x hx h0 ht
    rcases split x hx with h1 | h1
    · have ht' : (h.cell x).nodeType ≠ .tagEnd := by
        intro hc; exact ht ((hk x h1).2.2.2.1.eq (by rw [hc]; simp) ▸ hc)
      obtain ⟨q, hq, hxq⟩ := g.owned x h1 h0 ht'
      exact ⟨q, by omega, sub q x hq hxq⟩
    · refine ⟨p, by omega, ?_⟩
      rw [kid p hp, if_pos rfl, h1]; simp
  · intro q x hq hx
    rcases memk q x hq hx with ⟨h1, h2⟩ | ⟨h1, h2⟩
    · obtain ⟨_, _, e3, e4, e5⟩ := hk x (g.range q x h1 h2).2
      rw [e3, e5 (g.kind q x h1 h2).1]
      rcases g.up q x h1 h2 with h3 | h3
      · exact Or.inl h3
      · exact Or.inr ⟨h3.1, e4.text h3.2.1, h3.2.2⟩
    · rw [h1, h2]
      rcases hup with h3 | h3
      · exact Or.inl h3
      · exact Or.inr ⟨h3.1, Or.inl h3.2.1, h3.2.2⟩
  · intro q hq hne
    rcases split q hq with h1 | h1
    · have hin : (h.cell q).nodeType = .tag ∨ (h.cell q).nodeType = .abstractRoot := by
        by_cases hqp : q = p
        · rw [hqp]; exact hpt
        · rw [(hk q h1).1, if_neg hqp] at hne; exact g.inner q h1 hne
      rcases hin with h2 | h2
      · left; rw [(hk q h1).2.2.2.1.eq (by rw [h2]; simp)]; exact h2
      · right; rw [(hk q h1).2.2.2.1.eq (by rw [h2]; simp)]; exact h2
    · rw [h1] at hne; exact absurd n3 hne

/-- The end-tag links survive when no end tag cell that is linked changes. -/
theorem Ends.keep {h h' : Heap} (g : Ends h) (hsz : h.size ≤ h'.size)
    (hk : ∀ i, i < h.size → (h'.cell i).endTag = (h.cell i).endTag ∧ TyLe (h.cell i).nodeType (h'.cell i).nodeType ∧
      ((h.cell i).nodeType = .tagEnd → (h'.cell i).parent = (h.cell i).parent ∧
        ((h.cell i).content ≠ none → (h'.cell i).content ≠ none)))
    (hn : ∀ i, h.size ≤ i → i < h'.size → (h'.cell i).endTag = none) : Ends h' := by
  refine ⟨fun t e ht he => ?_⟩
  by_cases h1 : t < h.size
  · obtain ⟨k1, k2, k3⟩ := hk t h1
    rw [k1] at he
    obtain ⟨a1, a2, a3, a4, a5, a6⟩ := g.down t e h1 he
    obtain ⟨b1, b2, b3⟩ := hk e a2
    refine ⟨a1, by omega, ?_, ?_, (b3 a3).2 a5, ?_⟩
    · rw [b2.eq (by rw [a3]; simp)]; exact a3
    · rw [(b3 a3).1]; exact a4
    · rw [k2.eq (by rw [a6]; simp)]; exact a6
  · rw [hn t (by omega) ht] at he; cases he

/-- One tag got an end tag that no other tag has. -/
theorem Ends.link {h h' : Heap} (g : Ends h) (t e : NodeId) (hsz : h.size ≤ h'.size)
    (ht : t < h.size) (he : e < h'.size) (hte : t < e)
    (hk : ∀ i, i < h.size → i ≠ t → i ≠ e → (h'.cell i).endTag = (h.cell i).endTag ∧
      TyLe (h.cell i).nodeType (h'.cell i).nodeType ∧
      ((h.cell i).nodeType = .tagEnd → (h'.cell i).parent = (h.cell i).parent ∧ (h'.cell i).content = (h.cell i).content))
    (hfresh : ∀ s, s < h.size → (h.cell s).endTag ≠ some e)
    (htt : (h.cell t).nodeType = .tag ∧ (h'.cell t).nodeType = .tag ∧ (h'.cell t).endTag = some e)
    (hee : (h'.cell e).nodeType = .tagEnd ∧ (h'.cell e).parent = some t ∧ (h'.cell e).content ≠ none ∧
      (h'.cell e).endTag = none)
    (hn : ∀ i, h.size ≤ i → i < h'.size → (h'.cell i).endTag = none) : Ends h' := by
  refine ⟨fun s x hs hx => ?_⟩
  by_cases h1 : s < h.size
  · by_cases h2 : s = t
    · subst h2
      rw [htt.2.2] at hx; cases hx
      exact ⟨hte, he, hee.1, hee.2.1, hee.2.2.1, htt.2.1⟩
    · by_cases h3 : s = e
      · subst h3; rw [hee.2.2.2] at hx; cases hx
      · obtain ⟨k1, k2, k3⟩ := hk s h1 h2 h3
        rw [k1] at hx
        obtain ⟨a1, a2, a3, a4, a5, a6⟩ := g.down s x h1 hx
        have hxt : x ≠ t := by intro h; rw [h, htt.1] at a3; cases a3
        have hxe : x ≠ e := by intro h; rw [h] at hx; exact hfresh s h1 hx
        obtain ⟨b1, b2, b3⟩ := hk x a2 hxt hxe
        refine ⟨a1, by omega, ?_, ?_, ?_, ?_⟩
        · rw [b2.eq (by rw [a3]; simp)]; exact a3
        · rw [(b3 a3).1]; exact a4
        · rw [(b3 a3).2]; exact a5
        · rw [k2.eq (by rw [a6]; simp)]; exact a6
  · rw [hn s (by omega) hs] at hx; cases hx

/-- The link invariant of the parser. -/
structure Links (d : Doc) : Prop where
  owns : Owns d.opts.autoFixUnescapedLt d.heap
  ends : Ends d.heap
  chainOpen : ∀ t ∈ d.chain, (d.heap.cell t).endTag = none
  endFresh : d.handle = .tagEnd → ∀ t, t < d.heap.size → (d.heap.cell t).endTag ≠ some d.current
  endNewest : d.handle = .tagEnd → d.current + 1 = d.heap.size

theorem Links.new (o : ParseOptions) : Links (Doc.new o) := by
  have hc : ∀ p, p < (Doc.new o).heap.size → (Doc.new o).heap.cell p =
      { Cell.new .abstractRoot 0 with root := some 0 } := by
    intro p hp
    have : p = 0 := by have : (Doc.new o).heap.size = 1 := rfl; omega
    subst this; rfl
  have hk : ∀ p, p < (Doc.new o).heap.size → (Doc.new o).heap.kids p = [] := by
    intro p hp; unfold Heap.kids; rw [hc p hp]; rfl
  refine ⟨⟨?_, ?_, ?_, ?_, ?_, ?_, ?_, ?_, ?_⟩, ⟨?_⟩, ?_, ?_, ?_⟩
  · intro p hp; rw [hc p hp]; simp [Cell.new]
  · intro p hp; rw [hk p hp]; exact List.Pairwise.nil
  · intro p x hp hx; rw [hk p hp] at hx; cases hx
  · intro p k x hp hx; rw [hk p hp] at hx; simp at hx
  · intro p x hp hx; rw [hk p hp] at hx; cases hx
  · intro p q x hp _ hx; rw [hk p hp] at hx; cases hx
  · intro x hx h0; have : (Doc.new o).heap.size = 1 := rfl; omega
  · intro p x hp hx; rw [hk p hp] at hx; cases hx
  · intro p hp hne; rw [hc p hp] at hne; exact absurd rfl hne
  · intro t e ht he; rw [hc t ht] at he; cases he
  · intro t ht
    have : t = 0 := by simpa [Doc.new] using ht
    subst this; rfl
  · intro h; cases h
  · intro h; cases h

/-- An open tag that is not the innermost element of a one-element chain is a tag. -/
theorem Ctl.head_tag {d : Doc} (hd : Ctl d) {t : NodeId} (hl : d.chain.length > 1) (ht : d.chain.head? = some t) :
    (d.heap.cell t).nodeType = .tag := by
  have hs := hd.chainSorted
  have hl' := hd.chainLast
  have htag := hd.chainTag t (List.mem_of_mem_head? ht)
  cases hc : d.chain with
  | nil => rw [hc] at hl; simp at hl
  | cons a as =>
    rw [hc] at hs hl hl' ht
    simp only [List.head?_cons, Option.some.injEq] at ht
    subst ht
    refine htag ?_
    rintro rfl
    cases as with
    | nil => simp at hl
    | cons b bs =>
      have := (List.pairwise_cons.1 hs).1 b (by simp)
      omega

theorem Ctl.chain_kind {d : Doc} (hd : Ctl d) {t : NodeId} (ht : t ∈ d.chain) :
    (d.heap.cell t).nodeType = .tag ∨ (d.heap.cell t).nodeType = .abstractRoot := chain_not_text hd ht

theorem Links.eff {d d' : Doc} (hd : Ctl d) (g : Links d) (hopt : d'.opts = d.opts) (h : Eff d d') : Links d' := by
  have hkeep := h.keep hd
  have hsz := h.size_le
  have hroot := hd.root0
  cases h with
  | data ct m e hea hheap hm hchain hct hend =>
    have hcell : ∀ i, d'.heap.cell i =
        if i = d.current then { d.heap.cell i with content := ct, tmeta := m, endAt := e } else d.heap.cell i := by
      intro i; rw [hheap]; rfl
    have hsz' : d'.heap.size = d.heap.size := by rw [hheap]; rfl
    have he : ∀ i, (d'.heap.cell i).endTag = (d.heap.cell i).endTag := by
      intro i; rw [hcell]; split <;> rfl
    refine ⟨?_, ?_, ?_, ?_, ?_⟩
    · rw [hopt]
      refine g.owns.keep hsz' fun i hi => ?_
      rw [hcell]
      split <;> exact ⟨rfl, rfl, rfl, TyLe.refl _, fun _ => rfl⟩
    · refine g.ends.keep (by omega) (fun i hi => ?_) (fun i h1 h2 => by omega)
      rw [hcell]
      split
      · rename_i hi
        refine ⟨rfl, TyLe.refl _, fun ht => ⟨rfl, fun hne => ?_⟩⟩
        have := hct (.inl (by unfold Doc.cur; rw [← hi]; exact ht))
        simp only
        rw [this]; unfold Doc.cur; rw [← hi]; exact hne
      · exact ⟨rfl, TyLe.refl _, fun _ => ⟨rfl, id⟩⟩
    · intro t ht
      rw [he]
      refine g.chainOpen t ?_
      rcases hchain with h | h
      · rw [h] at ht; exact ht
      · rw [h.1] at ht; exact List.mem_of_mem_tail ht
    · intro hh t ht
      rw [hsz'] at ht
      rw [he]
      rcases hend with h | h
      · rw [h.1]; exact g.endFresh (h.2.1 hh) t ht
      · rw [h.2.2.1] at hh; cases hh
    · intro hh
      rcases hend with h | h
      · rw [h.1, hsz']; exact g.endNewest (h.2.1 hh)
      · rw [h.2.2.1] at hh; cases hh
  | child p ty b o hp hty ho hb hheap hchain hcur hend =>
    have hpl := hd.chain_head hp
    have hsz' : d'.heap.size = d.heap.size + 1 := by rw [hheap]; simp [addChild_size]
    have hnew : d'.heap.cell d.heap.size =
        { Cell.new ty b with parent := some p, index := ((d.heap.cell p).childs.getD []).length, root := some d.root } := by
      rw [hheap]; exact grown_cell hd p hp _ o ho
    have hold : ∀ i, i < d.heap.size → (d'.heap.cell i).endTag = (d.heap.cell i).endTag ∧
        (d'.heap.cell i).parent = (d.heap.cell i).parent ∧ (d'.heap.cell i).content = (d.heap.cell i).content ∧
        (d'.heap.cell i).childs = if i = p then some (d.heap.kids p ++ [d.heap.size]) else (d.heap.cell i).childs := by
      intro i hi
      rw [hheap, markSpaces_cell, addChild_cell d p _ hpl]
      have h1 : ¬ i = d.heap.size := by omega
      simp only [h1, if_false]
      by_cases h2 : i = p
      · subst h2; simp only [if_true]; split <;> exact ⟨rfl, rfl, rfl, rfl⟩
      · simp only [h2, if_false]; split <;> exact ⟨rfl, rfl, rfl, rfl⟩
    have hty' : ∀ i, i < d.heap.size → TyLe (d.heap.cell i).nodeType (d'.heap.cell i).nodeType := by
      intro i hi
      rcases (hkeep i hi).ty with h | h
      · exact Or.inl h
      · exact Or.inr ⟨h.1, h.2.1⟩
    refine ⟨?_, ?_, ?_, ?_, ?_⟩
    · rw [hopt]
      refine g.owns.addKid p hpl hsz' (fun i hi => ?_) (hd.chain_kind (List.mem_of_mem_head? hp)) ?_ ?_
      · exact ⟨(hold i hi).2.2.2, (hkeep i hi).index, (hkeep i hi).root, hty' i hi, fun _ => (hold i hi).2.1⟩
      · rw [hnew]
        refine ⟨?_, ?_, rfl, rfl⟩ <;> simp only [Cell.new] <;> intro h <;> rw [h] at hty <;> cases hty
      · left; rw [hnew]; exact ⟨rfl, by simp only [hroot]⟩
    · refine g.ends.keep (by omega) (fun i hi => ?_) (fun i h1 h2 => ?_)
      · exact ⟨(hold i hi).1, hty' i hi, fun _ => ⟨(hold i hi).2.1, by rw [(hold i hi).2.2.1]; exact id⟩⟩
      · have : i = d.heap.size := by omega
        rw [this, hnew]; rfl
    · intro t ht
      rw [hchain] at ht
      have : t ∈ d.heap.size :: d.chain := by
        split at ht
        · exact ht
        · exact List.mem_cons_of_mem _ ht
      rcases List.mem_cons.1 this with h | h
      · rw [h, hnew]; rfl
      · rw [(hold t (hd.chainLt t h)).1]; exact g.chainOpen t h
    · intro hh; exact absurd hh hend.2
    · intro hh; exact absurd hh hend.2
  | ltChild p n hf hn hp hheap hchain hcur hend =>
    have hpl : p < d.heap.size := by
      rcases hp with h | h | h
      · rw [h.1]; exact hd.curLt
      · exact hd.chain_head h
      · rw [h.2, hd.root0]; exact hd.sizePos
    have hpt : (d.heap.cell p).nodeType = .tag ∨ (d.heap.cell p).nodeType = .abstractRoot := by
      rcases hp with h | h | h
      · rw [h.1]; exact Or.inl h.2.1
      · exact hd.chain_kind (List.mem_of_mem_head? h)
      · rw [h.2, hd.root0]; right; exact (hd.rootTy 0 hd.sizePos).2 rfl
    obtain ⟨ct, e, k, hn, hk, _⟩ := hn
    have hsz' : d'.heap.size = d.heap.size + 1 := by rw [hheap]; rfl
    have hnew : d'.heap.cell d.heap.size = n := by
      rw [hheap, Heap.upd_cell, Heap.push_cell]
      have : ¬ d.heap.size = p := by omega
      simp only [this, if_false, if_true]
    have hold : ∀ i, i < d.heap.size → d'.heap.cell i =
        if i = p then { d.heap.cell i with childs := some (d.heap.kids p ++ [d.heap.size]) } else d.heap.cell i := by
      intro i hi
      rw [hheap, Heap.upd_cell, Heap.push_cell]
      have h1 : ¬ i = d.heap.size := by omega
      simp only [h1, if_false]; rfl
    refine ⟨?_, ?_, ?_, ?_, ?_⟩
    · rw [hopt]
      refine g.owns.addKid p hpl hsz' (fun i hi => ?_) hpt ?_ ?_
      · rw [hold i hi]
        split
        · exact ⟨rfl, rfl, rfl, TyLe.refl _, fun _ => rfl⟩
        · exact ⟨rfl, rfl, rfl, TyLe.refl _, fun _ => rfl⟩
      · rw [hnew, hn]; exact ⟨by simp [Cell.new], by simp [Cell.new], rfl, hk⟩
      · right; rw [hnew, hn]; exact ⟨hf, rfl, rfl, rfl⟩
    · refine g.ends.keep (by omega) (fun i hi => ?_) (fun i h1 h2 => ?_)
      · rw [hold i hi]
        split <;> exact ⟨rfl, TyLe.refl _, fun _ => ⟨rfl, id⟩⟩
      · have : i = d.heap.size := by omega
        rw [this, hnew, hn]; rfl
    · intro t ht
      rw [hchain] at ht
      rw [hold t (hd.chainLt t ht)]
      have := g.chainOpen t ht
      split <;> exact this
    · intro hh; exact absurd hh hend.2
    · intro hh; exact absurd hh hend.2
  | endPush pv hpv hheap hchain hcur hend =>
    have hsz' : d'.heap.size = d.heap.size + 1 := by rw [hheap]; rfl
    have hnew : d'.heap.cell d.heap.size = { Cell.new .tagEnd d.memPosition with prev := pv } := by
      rw [hheap, Heap.push_cell]; simp
    have hold : ∀ i, i < d.heap.size → d'.heap.cell i = d.heap.cell i := by
      intro i hi
      rw [hheap, Heap.push_cell, if_neg (by omega)]
    refine ⟨?_, ?_, ?_, ?_, ?_⟩
    · rw [hopt]
      refine g.owns.addEnd hsz' (fun i hi => ?_) (by rw [hnew]; exact ⟨rfl, rfl⟩)
      rw [hold i hi]; exact ⟨rfl, rfl, rfl, TyLe.refl _, fun _ => rfl⟩
    · refine g.ends.keep (by omega) (fun i hi => ?_) (fun i h1 h2 => ?_)
      · rw [hold i hi]; exact ⟨rfl, TyLe.refl _, fun _ => ⟨rfl, id⟩⟩
      · have : i = d.heap.size := by omega
        rw [this, hnew]; rfl
    · intro t ht
      rw [hchain] at ht
      rw [hold t (hd.chainLt t ht)]; exact g.chainOpen t ht
    · intro _ t ht
      rw [hcur]
      by_cases h1 : t < d.heap.size
      · rw [hold t h1]
        intro h
        have := (g.ends.down t _ h1 h).2.1
        omega
      · have : t = d.heap.size := by omega
        rw [this, hnew]; simp [Cell.new]
    · intro _; rw [hcur, hsz']
  | endLink t m hm hty hheap hchain hcur hend =>
    have hcell := endHeap_cell hd t d.prevChars hm.2.1 hty
    rw [← hheap] at hcell
    have hsz' : d'.heap.size = d.heap.size := by rw [hheap]; simp
    have htl := hd.chain_head hm.2.1
    have htag := hd.head_tag hm.1 hm.2.1
    have hne : d.current ≠ t := by
      intro h; unfold Doc.cur at hty; rw [h, htag] at hty; cases hty
    have hty' : ∀ i, i < d.heap.size → TyLe (d.heap.cell i).nodeType (d'.heap.cell i).nodeType := by
      intro i hi
      rcases (hkeep i hi).ty with h | h
      · exact Or.inl h
      · exact Or.inr ⟨h.1, h.2.1⟩
    have hce : d.cur.endTag = none := by
      cases hx : d.cur.endTag with
      | none => rfl
      | some x =>
        have := (g.ends.down d.current x hd.curLt hx).2.2.2.2.2
        unfold Doc.cur at hty; rw [hty] at this; cases this
    have hfr := g.endFresh hend.1
    have hct : d'.heap.cell t = { d.heap.cell t with endTag := some d.current } := by
      rw [hcell, if_neg (Ne.symm hne), if_pos rfl]
    have hcc : d'.heap.cell d.current =
        { d.cur with endAt := d.position + 1, parent := some t, content := some d.prevChars } := by
      rw [hcell, if_pos rfl]; rfl
    have htcur : t < d.current := by
      have := g.endNewest hend.1
      omega
    refine ⟨?_, ?_, ?_, ?_, ?_⟩
    · rw [hopt]
      refine g.owns.keep hsz' fun i hi => ⟨?_, (hkeep i hi).index, (hkeep i hi).root, hty' i hi, fun hx => ?_⟩
      · rw [hcell]; split
        · rfl
        · split
          · rfl
          · split <;> rfl
      · refine ((hkeep i hi).other ?_).2.2.2
        intro h; unfold Doc.cur at hty; rw [← h] at hty; exact hx hty
    · refine g.ends.link t d.current (by omega) htl (by rw [hsz']; exact hd.curLt) htcur ?_ hfr ?_ ?_
        (fun i h1 h2 => by omega)
      · intro i hi h1 h2
        refine ⟨?_, hty' i hi, fun _ => ?_⟩
        · rw [hcell, if_neg h2, if_neg h1]; split <;> rfl
        · have := (hkeep i hi).other h2
          exact ⟨this.2.2.2, this.1⟩
      · rw [hct]; exact ⟨htag, htag, rfl⟩
      · rw [hcc]; exact ⟨hty, rfl, by simp, hce⟩
    · intro s hs
      rw [hchain] at hs
      have hs' := List.mem_of_mem_tail hs
      have hst : s ≠ t := by
        rintro rfl
        have h1 := hd.chainSorted
        have h2 := hm.2.1
        cases hc : d.chain with
        | nil => rw [hc] at h2; cases h2
        | cons a as =>
          rw [hc] at h1 h2 hs
          simp only [List.head?_cons, Option.some.injEq] at h2
          have := (List.pairwise_cons.1 h1).1 s hs
          omega
      have hsc : s ≠ d.current := by
        intro h
        have := hd.chain_kind hs'
        unfold Doc.cur at hty; rw [h, hty] at this
        rcases this with h | h <;> cases h
      rw [hcell, if_neg hsc, if_neg hst]
      have := g.chainOpen s hs'
      split <;> exact this
    · intro hh; rw [hend.2] at hh; cases hh
    · intro hh; rw [hend.2] at hh; cases hh
  | rawEnd n hty hp hheap hchain hcur hend =>
    have hcell := rawHeap_cell hd n
    rw [← hheap] at hcell
    have hsz' : d'.heap.size = d.heap.size + 1 := by rw [hheap]; rfl
    have hcl := hd.curLt
    have hcc : d'.heap.cell d.current =
        { d.cur with endTag := some d.heap.size, content := some (d.prevChars.take n) } := by
      rw [hcell, if_neg (by omega), if_pos rfl]; rfl
    have hnew : d'.heap.cell d.heap.size = { Cell.new .tagEnd (d.position + 1) with
        content := some (d.prevChars.drop (n + 2)), parent := some d.current } := by
      rw [hcell, if_pos rfl]
    have hold : ∀ i, i < d.heap.size → i ≠ d.current → d'.heap.cell i = d.heap.cell i := by
      intro i hi h1; rw [hcell, if_neg (by omega), if_neg h1]
    refine ⟨?_, ?_, ?_, ?_, ?_⟩
    · rw [hopt]
      refine g.owns.addEnd hsz' (fun i hi => ?_) (by rw [hnew]; exact ⟨rfl, rfl⟩)
      by_cases h1 : i = d.current
      · rw [h1, hcc]; exact ⟨rfl, rfl, rfl, TyLe.refl _, fun _ => rfl⟩
      · rw [hold i hi h1]; exact ⟨rfl, rfl, rfl, TyLe.refl _, fun _ => rfl⟩
    · refine g.ends.link d.current d.heap.size (by omega) hcl (by omega) hcl ?_ ?_ ?_ ?_ ?_
      · intro i hi h1 h2
        rw [hold i hi h1]; exact ⟨rfl, TyLe.refl _, fun _ => ⟨rfl, rfl⟩⟩
      · intro s hs h
        have := (g.ends.down s _ hs h).2.1
        omega
      · rw [hcc]; exact ⟨hty, hty, rfl⟩
      · rw [hnew]; exact ⟨rfl, rfl, by simp, rfl⟩
      · intro i h1 h2
        have : i = d.heap.size := by omega
        rw [this, hnew]; rfl
    · intro s hs
      rw [hchain] at hs
      have hs' := List.mem_of_mem_tail hs
      have hst : s ≠ d.current := by
        rintro rfl
        have h1 := hd.chainSorted
        cases hc : d.chain with
        | nil => rw [hc] at hp; cases hp
        | cons a as =>
          rw [hc] at h1 hp hs
          simp only [List.head?_cons, Option.some.injEq] at hp
          have := (List.pairwise_cons.1 h1).1 _ hs
          omega
      rw [hold s (hd.chainLt s hs') hst]; exact g.chainOpen s hs'
    · intro hh; rw [hend.2] at hh; cases hh
    · intro hh; rw [hend.2] at hh; cases hh

theorem Reach.links {o : ParseOptions} {s : Str} {d : Doc} (h : Reach o s d) : Links d := by
  induction h with
  | init => exact Links.new o
  | step hr hs ih =>
    have := ih.eff hr.ctl hs.frame.2.1 (hs.eff hr.ctl)
    exact ⟨this.owns, this.ends, this.chainOpen, this.endFresh, this.endNewest⟩

end Rphtml
