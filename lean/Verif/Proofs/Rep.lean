import Verif.Proofs.Abs
import Verif.Proofs.Graph

/-!
# How the heap represents plain documents

`Rep h p i j`: the node `i` of the heap represents `p`, and all cells of that representation lie in
`[i, j)`.  `Zip` does the same for the open elements.
-/

namespace Rphtml

/-- Text nodes and whitespace text nodes are not distinguished. -/
def NodeType.core : NodeType → NodeType
  | .spacesBetweenTag => .text
  | t => t

/-- Two cells say the same about the document. -/
structure SameCore (a b : Cell) : Prop where
  ty : b.nodeType.core = a.nodeType.core
  content : b.content = a.content
  tmeta : b.tmeta = a.tmeta
  endTag : b.endTag = a.endTag
  childs : b.childs = a.childs

theorem SameCore.refl (a : Cell) : SameCore a a := ⟨rfl, rfl, rfl, rfl, rfl⟩

theorem SameCore.trans {a b c : Cell} (h : SameCore a b) (g : SameCore b c) : SameCore a c :=
  ⟨g.ty.trans h.ty, g.content.trans h.content, g.tmeta.trans h.tmeta, g.endTag.trans h.endTag, g.childs.trans h.childs⟩

/-- The end tag of an element. -/
def EndRep (h : Heap) (i j : NodeId) (e : Option NodeId) : Option Str → Prop
  | none => e = none
  | some w => ∃ k, e = some k ∧ i < k ∧ k < j ∧ (h.cell k).nodeType = .tagEnd ∧ (h.cell k).content = some w

/-- A leaf of the given type. -/
def LeafRep (h : Heap) (ty : NodeType) (i j : NodeId) : Prop :=
  i < j ∧ (h.cell i).nodeType.core = ty ∧ (h.cell i).endTag = none ∧ (h.cell i).childs = none

mutual
/-- Node `i` represents the plain node, using only cells in `[i, j)`. -/
def Rep (h : Heap) : PNode → NodeId → NodeId → Prop
  | .text w, i, j => LeafRep h .text i j ∧ (h.cell i).content = some w
  | .comment w, i, j => LeafRep h .comment i j ∧ (h.cell i).content = some w
  | .cdata w, i, j => LeafRep h .xmlCdata i j ∧ (h.cell i).content = some w
  | .doctype n a s, i, j => LeafRep h .htmlDoctype i j ∧
      ∃ m, (h.cell i).tmeta = some m ∧ m.name = n ∧ m.attrs = a ∧ m.selfClosed = s
  | .elem n a s ct ks e, i, j => i < j ∧ (h.cell i).nodeType = .tag ∧ (h.cell i).content = ct ∧
      (∃ m, (h.cell i).tmeta = some m ∧ m.name = n ∧ m.attrs = a ∧ m.selfClosed = s) ∧
      EndRep h i j (h.cell i).endTag e ∧ Reps h ks (h.kids i) (i + 1) j

/-- The nodes `ids` represent the list, one after the other, inside `[a, b)`. -/
def Reps (h : Heap) : List PNode → List NodeId → NodeId → NodeId → Prop
  | [], ids, a, b => ids = [] ∧ a ≤ b
  | p :: ps, ids, a, b => ∃ i is j, ids = i :: is ∧ a ≤ i ∧ Rep h p i j ∧ Reps h ps is j b
end

theorem core_tag {t : NodeType} (h : t.core = .tag) : t = .tag := by cases t <;> simp_all [NodeType.core]
theorem core_end {t : NodeType} (h : t.core = .tagEnd) : t = .tagEnd := by cases t <;> simp_all [NodeType.core]

theorem SameCore.kids {h h' : Heap} {i : NodeId} (g : SameCore (h.cell i) (h'.cell i)) : h'.kids i = h.kids i := by
  unfold Heap.kids; rw [g.childs]

theorem SameCore.ty_eq {a b : Cell} (g : SameCore a b) {t : NodeType} (ht : t ≠ .text) (ht2 : t ≠ .spacesBetweenTag)
    (h : a.nodeType = t) : b.nodeType = t := by
  have := g.ty
  rw [h] at this
  revert this
  cases b.nodeType <;> cases t <;> simp_all [NodeType.core]

theorem Rep.lt {h : Heap} {p : PNode} {i j : NodeId} (g : Rep h p i j) : i < j := by
  cases p <;> simp only [Rep, LeafRep] at g
  · exact g.1.1
  · exact g.1.1
  · exact g.1.1
  · exact g.1.1
  · exact g.1

theorem Reps.mono_hi {h : Heap} {j k : NodeId} (hk : j ≤ k) : ∀ {ps : List PNode} {ids : List NodeId} {a : NodeId},
    Reps h ps ids a j → Reps h ps ids a k
  | [], _, _, g => by simp only [Reps] at g ⊢; exact ⟨g.1, Nat.le_trans g.2 hk⟩
  | p :: ps, ids, a, g => by
    simp only [Reps] at g ⊢
    obtain ⟨i, is, l, h1, h2, h3, h4⟩ := g
    exact ⟨i, is, l, h1, h2, h3, Reps.mono_hi hk h4⟩

theorem Rep.mono_hi {h : Heap} {p : PNode} {i j k : NodeId} (g : Rep h p i j) (hk : j ≤ k) : Rep h p i k := by
  cases p with
  | elem n a s ct ks e =>
    simp only [Rep] at g ⊢
    obtain ⟨h1, h2, h3, h4, h5, h6⟩ := g
    refine ⟨Nat.lt_of_lt_of_le h1 hk, h2, h3, h4, ?_, h6.mono_hi hk⟩
    cases e with
    | none => exact h5
    | some w =>
      obtain ⟨x, k1, k2, k3, k4⟩ := h5
      exact ⟨x, k1, k2, Nat.lt_of_lt_of_le k3 hk, k4⟩
  | _ =>
    simp only [Rep, LeafRep] at g ⊢
    exact ⟨⟨Nat.lt_of_lt_of_le g.1.1 hk, g.1.2⟩, g.2⟩

theorem Reps.le {h : Heap} {b : NodeId} : ∀ {ps : List PNode} {ids : List NodeId} {a : NodeId},
    Reps h ps ids a b → a ≤ b
  | [], _, _, g => by simp only [Reps] at g; exact g.2
  | p :: ps, ids, a, g => by
    simp only [Reps] at g
    obtain ⟨i, is, l, h1, h2, h3, h4⟩ := g
    exact Nat.le_trans h2 (Nat.le_trans (Nat.le_of_lt h3.lt) (Reps.le h4))

theorem Reps.snoc {h : Heap} {p : PNode} {i j : NodeId} (g : Rep h p i j) :
    ∀ {ps : List PNode} {ids : List NodeId} {a b : NodeId}, Reps h ps ids a b → b ≤ i →
      Reps h (ps ++ [p]) (ids ++ [i]) a j
  | [], ids, a, b, hr, hb => by
    simp only [Reps] at hr
    simp only [List.nil_append, Reps]
    exact ⟨i, [], j, by rw [hr.1]; rfl, Nat.le_trans hr.2 hb, g, rfl, Nat.le_refl _⟩
  | q :: ps, ids, a, b, hr, hb => by
    simp only [Reps] at hr
    obtain ⟨x, xs, l, h1, h2, h3, h4⟩ := hr
    simp only [List.cons_append, Reps]
    exact ⟨x, xs ++ [i], l, by rw [h1]; rfl, h2, h3, Reps.snoc g h4 hb⟩

theorem Reps.unsnoc {h : Heap} : ∀ {ps : List PNode} {ids : List NodeId} {x a b : NodeId},
    Reps h ps (ids ++ [x]) a b → ∃ qs q c j, ps = qs ++ [q] ∧ Reps h qs ids a c ∧ c ≤ x ∧ Rep h q x j ∧ j ≤ b
  | [], ids, x, a, b, hr => by simp [Reps] at hr
  | p :: ps, ids, x, a, b, hr => by
    simp only [Reps] at hr
    obtain ⟨i, is, l, h1, h2, h3, h4⟩ := hr
    cases ids with
    | nil =>
      simp only [List.nil_append, List.cons.injEq] at h1
      obtain ⟨rfl, rfl⟩ := h1
      cases ps with
      | nil =>
        simp only [Reps, true_and] at h4
        exact ⟨[], p, a, l, rfl, by simp only [Reps]; exact ⟨trivial, Nat.le_refl _⟩, h2, h3, h4⟩
      | cons q qs => simp [Reps] at h4
    | cons y ys =>
      simp only [List.cons_append, List.cons.injEq] at h1
      obtain ⟨rfl, rfl⟩ := h1
      obtain ⟨qs, q, c, j, e, g1, g2, g3, g4⟩ := Reps.unsnoc h4
      exact ⟨p :: qs, q, c, j, by rw [e]; rfl, by simp only [Reps]; exact ⟨y, ys, l, rfl, h2, h3, g1⟩, g2, g3, g4⟩

/-- A representation only depends on the cells of its interval. -/
theorem rep_frame (h h' : Heap) : (∀ p i j, Rep h p i j → (∀ k, i ≤ k → k < j → SameCore (h.cell k) (h'.cell k)) →
      Rep h' p i j) ∧
    (∀ ps ids a b, Reps h ps ids a b → (∀ k, a ≤ k → k < b → SameCore (h.cell k) (h'.cell k)) → Reps h' ps ids a b) := by
  have hleaf : ∀ ty i j, LeafRep h ty i j → (∀ k, i ≤ k → k < j → SameCore (h.cell k) (h'.cell k)) → LeafRep h' ty i j := by
    intro ty i j hl hs
    have := hs i (Nat.le_refl _) hl.1
    exact ⟨hl.1, this.ty.trans hl.2.1, this.endTag.trans hl.2.2.1, this.childs.trans hl.2.2.2⟩
  apply PNode.induct
  · intro w i j g hs
    simp only [Rep] at g ⊢
    exact ⟨hleaf _ _ _ g.1 hs, (hs i (Nat.le_refl _) g.1.1).content.trans g.2⟩
  · intro w i j g hs
    simp only [Rep] at g ⊢
    exact ⟨hleaf _ _ _ g.1 hs, (hs i (Nat.le_refl _) g.1.1).content.trans g.2⟩
  · intro w i j g hs
    simp only [Rep] at g ⊢
    exact ⟨hleaf _ _ _ g.1 hs, (hs i (Nat.le_refl _) g.1.1).content.trans g.2⟩
  · intro n a s i j g hs
    simp only [Rep] at g ⊢
    exact ⟨hleaf _ _ _ g.1 hs, by rw [(hs i (Nat.le_refl _) g.1.1).tmeta]; exact g.2⟩
  · intro n a s ct ks e ih i j g hs
    simp only [Rep] at g ⊢
    obtain ⟨h1, h2, h3, h4, h5, h6⟩ := g
    have hi := hs i (Nat.le_refl _) h1
    refine ⟨h1, hi.ty_eq (by simp) (by simp) h2, hi.content.trans h3, by rw [hi.tmeta]; exact h4, ?_, ?_⟩
    · rw [hi.endTag]
      cases e with
      | none => exact h5
      | some w =>
        obtain ⟨k, k1, k2, k3, k4, k5⟩ := h5
        have hk := hs k (Nat.le_of_lt k2) k3
        exact ⟨k, k1, k2, k3, hk.ty_eq (by simp) (by simp) k4, hk.content.trans k5⟩
    · rw [hi.kids]
      exact ih _ _ _ h6 fun k hk1 hk2 => hs k (by omega) hk2
  · intro ids a b g _
    simp only [Reps] at g ⊢
    exact g
  · intro p ps hp hps ids a b g hs
    simp only [Reps] at g ⊢
    obtain ⟨i, is, l, h1, h2, h3, h4⟩ := g
    have h5 := Reps.le h4
    have h6 := h3.lt
    exact ⟨i, is, l, h1, h2, hp _ _ h3 fun k k1 k2 => hs k (by omega) (by omega),
      hps _ _ _ h4 fun k k1 k2 => hs k (by omega) k2⟩

/-! ## The open elements -/

/-- Cell `c` is the open element `f`. -/
def OpenRep (h : Heap) (c : NodeId) (f : Frame) : Prop :=
  (h.cell c).nodeType = .tag ∧ (h.cell c).content = none ∧ (h.cell c).endTag = none ∧
    ∃ m, (h.cell c).tmeta = some m ∧ m.name = f.name ∧ m.attrs = f.attrs ∧ m.selfClosed = false

/-- The finished children of cell `c`, and further ones that are not finished. -/
def KidsRep (h : Heap) (c : NodeId) (ks : List PNode) (extra : List NodeId) (hi : NodeId) : Prop :=
  ∃ ids, h.kids c = ids ++ extra ∧ Reps h ks ids (c + 1) hi

/-- The open elements, innermost first, with the document last. -/
def Zip (h : Heap) : List NodeId → List Frame → List NodeId → NodeId → Prop
  | [c], [f], extra, hi => c = 0 ∧ (h.cell 0).nodeType = .abstractRoot ∧ (h.cell 0).endTag = none ∧
      KidsRep h c f.kids extra hi
  | c :: c' :: cs, f :: f' :: fs, extra, hi => OpenRep h c f ∧ KidsRep h c f.kids extra hi ∧
      Zip h (c' :: cs) (f' :: fs) [c] c
  | _, _, _, _ => False

theorem KidsRep.lt {h : Heap} {c hi : NodeId} {ks : List PNode} {ex : List NodeId} (g : KidsRep h c ks ex hi) :
    c < hi := by
  obtain ⟨ids, _, h2⟩ := g
  exact h2.le

theorem KidsRep.frame {h h' : Heap} {c hi : NodeId} {ks : List PNode} {ex : List NodeId} (g : KidsRep h c ks ex hi)
    (hs : ∀ k, c ≤ k → k < hi → SameCore (h.cell k) (h'.cell k)) : KidsRep h' c ks ex hi := by
  have hlt := g.lt
  obtain ⟨ids, h1, h2⟩ := g
  exact ⟨ids, by rw [(hs c (Nat.le_refl _) hlt).kids, h1],
    (rep_frame h h').2 _ _ _ _ h2 fun k k1 k2 => hs k (by omega) k2⟩

/-- The frames only depend on the cells below the bound. -/
theorem Zip.frame {h h' : Heap} : ∀ {st : List NodeId} {fs : List Frame} {ex : List NodeId} {hi : NodeId},
    Zip h st fs ex hi → (∀ k, k < hi → SameCore (h.cell k) (h'.cell k)) → Zip h' st fs ex hi
  | [c], [f], ex, hi, g, hs => by
    simp only [Zip] at g ⊢
    obtain ⟨h1, h2, h3, h4⟩ := g
    have hlt := h4.lt
    have h0 := hs 0 (by omega)
    exact ⟨h1, h0.ty_eq (by simp) (by simp) h2, h0.endTag.trans h3, h4.frame fun k _ hk => hs k hk⟩
  | c :: c' :: cs, f :: f' :: fs, ex, hi, g, hs => by
    simp only [Zip] at g ⊢
    obtain ⟨⟨a1, a2, a3, a4⟩, h2, h3⟩ := g
    have hlt := h2.lt
    have hc := hs c hlt
    refine ⟨⟨hc.ty_eq (by simp) (by simp) a1, hc.content.trans a2, hc.endTag.trans a3, by rw [hc.tmeta]; exact a4⟩,
      h2.frame fun k _ hk => hs k hk, Zip.frame h3 fun k hk => hs k (by omega)⟩
  | [], _, _, _, g, _ => by cases ‹List Frame› <;> simp [Zip] at g
  | [_], [], _, _, g, _ => by simp [Zip] at g
  | [_], _ :: _ :: _, _, _, g, _ => by simp [Zip] at g
  | _ :: _ :: _, [], _, _, g, _ => by simp [Zip] at g
  | _ :: _ :: _, [_], _, _, g, _ => by simp [Zip] at g

/-- The innermost open element, taken off. -/
theorem Zip.cons {h : Heap} {c : NodeId} {cs : List NodeId} {f : Frame} {fs : List Frame} {ex : List NodeId}
    {hi : NodeId} (g : Zip h (c :: cs) (f :: fs) ex hi) :
    KidsRep h c f.kids ex hi ∧
      ((c = 0 ∧ cs = [] ∧ fs = [] ∧ (h.cell 0).nodeType = .abstractRoot ∧ (h.cell 0).endTag = none) ∨
       (OpenRep h c f ∧ cs ≠ [] ∧ fs ≠ [] ∧ Zip h cs fs [c] c)) := by
  cases cs with
  | nil =>
    cases fs with
    | nil => simp only [Zip] at g; exact ⟨g.2.2.2, Or.inl ⟨g.1, rfl, rfl, g.2.1, g.2.2.1⟩⟩
    | cons f' fs => simp [Zip] at g
  | cons c' cs =>
    cases fs with
    | nil => simp [Zip] at g
    | cons f' fs => simp only [Zip] at g; exact ⟨g.2.1, Or.inr ⟨g.1, by simp, by simp, g.2.2⟩⟩

/-- Change the innermost open element's children. -/
theorem Zip.setKids {h h' : Heap} {c : NodeId} {cs : List NodeId} {f f' : Frame} {fs : List Frame} {ex ex' : List NodeId}
    {hi hi' : NodeId} (g : Zip h (c :: cs) (f :: fs) ex hi) (hn : f'.name = f.name) (ha : f'.attrs = f.attrs)
    (hlow : ∀ k, k < c → SameCore (h.cell k) (h'.cell k))
    (hty : (h'.cell c).nodeType.core = (h.cell c).nodeType.core) (hct : (h'.cell c).content = (h.cell c).content)
    (hen : (h'.cell c).endTag = (h.cell c).endTag) (hm : (h'.cell c).tmeta = (h.cell c).tmeta)
    (hk : KidsRep h' c f'.kids ex' hi') : Zip h' (c :: cs) (f' :: fs) ex' hi' := by
  obtain ⟨_, g2⟩ := g.cons
  rcases g2 with ⟨rfl, rfl, rfl, h1, h2⟩ | ⟨⟨a1, a2, a3, a4⟩, h1, h2, h3⟩
  · simp only [Zip]
    refine ⟨trivial, ?_, hen.trans h2, hk⟩
    rw [h1] at hty
    revert hty
    cases (h'.cell 0).nodeType <;> simp [NodeType.core]
  · cases cs with
    | nil => exact absurd rfl h1
    | cons c' cs =>
      cases fs with
      | nil => exact absurd rfl h2
      | cons f'' fs =>
        simp only [Zip]
        refine ⟨⟨?_, hct.trans a2, hen.trans a3, ?_⟩, hk, h3.frame hlow⟩
        · rw [a1] at hty; exact core_tag hty
        · rw [hm, hn, ha]; exact a4

/-- The innermost element gets a new, unfinished child. -/
theorem Zip.link {h h' : Heap} {c : NodeId} {cs : List NodeId} {fs : List Frame} {n : NodeId}
    (g : Zip h (c :: cs) fs [] n) (hn : n = h.size)
    (hcell : ∀ k, k < n → k ≠ c → SameCore (h.cell k) (h'.cell k))
    (hc : SameCore { h.cell c with childs := some (h.kids c ++ [n]) } (h'.cell c)) : Zip h' (c :: cs) fs [n] n := by
  cases fs with
  | nil => cases cs <;> simp [Zip] at g
  | cons f fs =>
    have hk := g.cons.1
    obtain ⟨ids, h1, h2⟩ := hk
    simp only [List.append_nil] at h1
    have hlt := h2.le
    refine g.setKids rfl rfl (fun k hk => hcell k (by omega) (by omega)) hc.ty hc.content hc.endTag hc.tmeta ?_
    refine ⟨ids, ?_, (rep_frame h h').2 _ _ _ _ h2 fun k k1 k2 => hcell k k2 (by omega)⟩
    unfold Heap.kids
    rw [hc.childs, ← h1]
    rfl

/-- The unfinished child is finished. -/
theorem Zip.done {h : Heap} {c : NodeId} {cs : List NodeId} {f : Frame} {fs : List Frame} {n j : NodeId} {p : PNode}
    (g : Zip h (c :: cs) (f :: fs) [n] n) (hp : Rep h p n j) :
    Zip h (c :: cs) ({ f with kids := f.kids ++ [p] } :: fs) [] j := by
  obtain ⟨ids, h1, h2⟩ := g.cons.1
  refine g.setKids rfl rfl (fun k _ => SameCore.refl _) rfl rfl rfl rfl ?_
  exact ⟨ids ++ [n], by rw [h1]; simp, h2.snoc hp (Nat.le_refl _)⟩

/-- The unfinished child is an element that stays open. -/
theorem Zip.enter {h : Heap} {st : List NodeId} {f : Frame} {fs : List Frame} {n : NodeId}
    (g : Zip h st fs [n] n) (ho : OpenRep h n f) (hk : h.kids n = []) (hf : f.kids = []) :
    Zip h (n :: st) (f :: fs) [] (n + 1) := by
  cases st with
  | nil => cases fs <;> simp [Zip] at g
  | cons c cs =>
    cases fs with
    | nil => cases cs <;> simp [Zip] at g
    | cons f' fs =>
      simp only [Zip]
      refine ⟨ho, ⟨[], by rw [hk]; rfl, ?_⟩, g⟩
      rw [hf]; simp only [Reps]; exact ⟨trivial, Nat.le_refl _⟩

/-- The innermost element is left. -/
theorem Zip.leave {h h' : Heap} {n : NodeId} {st : List NodeId} {f g : Frame} {fs : List Frame} {hi hi' : NodeId}
    {e : Option Str} (z : Zip h (n :: st) (f :: g :: fs) [] hi)
    (hcell : ∀ k, k < hi → k ≠ n → SameCore (h.cell k) (h'.cell k))
    (hn : ∃ x, SameCore { h.cell n with endTag := x } (h'.cell n) ∧ EndRep h' n hi' x e) (hle : hi ≤ hi') :
    Zip h' st ({ g with kids := g.kids ++ [.elem f.name f.attrs false none f.kids e] } :: fs) [] hi' := by
  obtain ⟨hk, h2⟩ := z.cons
  rcases h2 with ⟨_, _, h, _⟩ | ⟨⟨a1, a2, a3, m, a4, a5, a6, a7⟩, h3, _, h4⟩
  · cases h
  · obtain ⟨x, hx, he⟩ := hn
    obtain ⟨ids, h5, h6⟩ := hk
    have hlt := h6.le
    cases st with
    | nil => exact absurd rfl h3
    | cons c cs =>
      refine Zip.done (h4.frame fun k hk => hcell k (by omega) (by omega)) ?_
      simp only [Rep]
      refine ⟨by omega, ?_, hx.content.trans a2, ⟨m, hx.tmeta.trans a4, a5, a6, a7⟩, ?_, ?_⟩
      · exact hx.ty_eq (by simp) (by simp) a1
      · rw [hx.endTag]; exact he
      · have : h'.kids n = ids := by
          unfold Heap.kids; rw [hx.childs]
          unfold Heap.kids at h5
          simpa using h5
        rw [this]
        exact ((rep_frame h h').2 _ _ _ _ h6 fun k k1 k2 => hcell k k2 (by omega)).mono_hi hle

theorem Zip.mono {h : Heap} {c : NodeId} {cs : List NodeId} {fs : List Frame} {ex : List NodeId} {hi hi' : NodeId}
    (g : Zip h (c :: cs) fs ex hi) (hle : hi ≤ hi') : Zip h (c :: cs) fs ex hi' := by
  cases fs with
  | nil => cases cs <;> simp [Zip] at g
  | cons f fs =>
    obtain ⟨ids, h1, h2⟩ := g.cons.1
    exact g.setKids rfl rfl (fun k _ => SameCore.refl _) rfl rfl rfl rfl ⟨ids, h1, h2.mono_hi hle⟩

/-! ## Changing the last text -/

theorem modLast_snoc {α : Type} (f : α → α) : ∀ (l : List α) (a : α), modLast f (l ++ [a]) = l ++ [f a]
  | [], a => rfl
  | [x], a => rfl
  | x :: y :: l, a => by
    have := modLast_snoc f (y :: l) a
    simp only [List.cons_append] at this
    simp only [List.cons_append, modLast, this]

theorem getLast?_snoc {α : Type} {l : List α} {x : α} (h : l.getLast? = some x) : ∃ l', l = l' ++ [x] := by
  obtain ⟨l', h⟩ := List.getLast?_eq_some_iff.1 h
  exact ⟨l', h⟩

/-- The place of a text node. -/
def TextAt (h : Heap) (c x : NodeId) : Place → Prop
  | .top => (h.kids c).getLast? = some x
  | .nested => ∃ e, (h.kids c).getLast? = some e ∧ (h.kids e).getLast? = some x

theorem rep_text {h : Heap} {p : PNode} {x j : NodeId} (g : Rep h p x j) (ht : (h.cell x).nodeType.core = .text) :
    ∃ w, p = .text w ∧ (h.cell x).content = some w := by
  cases p <;> simp only [Rep, LeafRep] at g
  · exact ⟨_, rfl, g.2⟩
  · rw [ht] at g; simp at g
  · rw [ht] at g; simp at g
  · rw [ht] at g; simp at g
  · rw [g.2.1] at ht; cases ht

theorem rep_elem {h : Heap} {p : PNode} {x j : NodeId} (g : Rep h p x j) (ht : h.kids x ≠ []) :
    ∃ n a s ct ks e, p = .elem n a s ct ks e := by
  cases p
  case elem n a s ct ks e => exact ⟨n, a, s, ct, ks, e, rfl⟩
  all_goals
    simp only [Rep, LeafRep] at g
    unfold Heap.kids at ht
    rw [g.1.2.2.2] at ht
    exact absurd rfl ht

/-- The last text is replaced. -/
theorem reps_setText {h h' : Heap} {x : NodeId} {w w' : Str} {ks : List PNode} {ids : List NodeId} {a b : NodeId}
    (g : Reps h ks (ids ++ [x]) a b) (ht : (h.cell x).nodeType.core = .text) (hw : (h.cell x).content = some w)
    (hcell : ∀ k, a ≤ k → k < b → k ≠ x → SameCore (h.cell k) (h'.cell k))
    (hx : SameCore { h.cell x with content := some (w ++ w') } (h'.cell x)) :
    Reps h' (modLast (PNode.addText w') ks) (ids ++ [x]) a b := by
  obtain ⟨qs, q, c, j, rfl, h1, h2, h3, h4⟩ := g.unsnoc
  obtain ⟨v, rfl, hv⟩ := rep_text h3 ht
  rw [hw] at hv; cases hv
  rw [modLast_snoc]
  have hle := h1.le
  have hlt := h3.lt
  refine (Reps.snoc (j := j) ?_ ((rep_frame h h').2 _ _ _ _ h1 fun k k1 k2 => hcell k k1 (by omega) (by omega)) h2).mono_hi h4
  simp only [Rep, LeafRep, PNode.addText] at h3 ⊢
  exact ⟨⟨hlt, hx.ty.trans ht, hx.endTag.trans h3.1.2.2.1, hx.childs.trans h3.1.2.2.2⟩, hx.content⟩

/-- The last element's children are replaced. -/
theorem reps_setKids {h h' : Heap} {e : NodeId} {F : List PNode → List PNode} {ks : List PNode} {ids : List NodeId}
    {a b b' : NodeId} (g : Reps h ks (ids ++ [e]) a b) (ht : (h.cell e).nodeType = .tag) (hb : b ≤ b')
    (hlow : ∀ k, a ≤ k → k < e → SameCore (h.cell k) (h'.cell k))
    (hend : ∀ k, e < k → k < b → (h.cell k).nodeType = .tagEnd → SameCore (h.cell k) (h'.cell k))
    (hx : SameCore { h.cell e with childs := (h'.cell e).childs } (h'.cell e))
    (hk : ∀ ks j, Reps h ks (h.kids e) (e + 1) j → j ≤ b → Reps h' (F ks) (h'.kids e) (e + 1) b') :
    Reps h' (modLast (PNode.modKids F) ks) (ids ++ [e]) a b' := by
  obtain ⟨qs, q, c, j, rfl, h1, h2, h3, h4⟩ := g.unsnoc
  have hq : ∃ n a s ct ks e, q = .elem n a s ct ks e := by
    cases q
    case elem n a s ct ks e => exact ⟨n, a, s, ct, ks, e, rfl⟩
    all_goals
      simp only [Rep, LeafRep] at h3
      rw [ht] at h3
      simp [NodeType.core] at h3
  obtain ⟨n, as, s, ct, ks', en, rfl⟩ := hq
  rw [modLast_snoc]
  have hle := h1.le
  have hlt := h3.lt
  refine Reps.snoc ?_ ((rep_frame h h').2 _ _ _ _ h1 fun k k1 k2 => hlow k k1 (by omega)) h2
  simp only [Rep, PNode.modKids] at h3 ⊢
  obtain ⟨k1, k2, k3, k4, k5, k6⟩ := h3
  refine ⟨by omega, hx.ty_eq (by simp) (by simp) k2, hx.content.trans k3, by rw [hx.tmeta]; exact k4, ?_, hk _ _ k6 h4⟩
  rw [hx.endTag]
  cases en with
  | none => exact k5
  | some w =>
    obtain ⟨y, y1, y2, y3, y4, y5⟩ := k5
    have hy := hend y y2 (by omega) y4
    exact ⟨y, y1, y2, by omega, hy.ty_eq (by simp) (by simp) y4, hy.content.trans y5⟩

/-- The last text of the innermost element is extended. -/
theorem Zip.setText {h h' : Heap} {c x : NodeId} {cs : List NodeId} {f : Frame} {fs : List Frame} {hi : NodeId}
    {pl : Place} {w w' : Str} (z : Zip h (c :: cs) (f :: fs) [] hi) (hat : TextAt h c x pl)
    (ht : (h.cell x).nodeType.core = .text) (hw : (h.cell x).content = some w)
    (hcell : ∀ k, k < hi → k ≠ x → SameCore (h.cell k) (h'.cell k))
    (hx : SameCore { h.cell x with content := some (w ++ w') } (h'.cell x)) :
    Zip h' (c :: cs) ({ f with kids := addTextAt pl w' f.kids } :: fs) [] hi := by
  obtain ⟨ids, h1, h2⟩ := z.cons.1
  simp only [List.append_nil] at h1
  have hlt := h2.le
  have hcx : c < x ∧ KidsRep h' c (addTextAt pl w' f.kids) [] hi := by
    have hkids : ∀ y, y ≠ x → y < hi → h'.kids y = h.kids y := fun y hy hy2 => (hcell y hy2 hy).kids
    cases pl with
    | top =>
      obtain ⟨is, hi1⟩ := getLast?_snoc hat
      rw [h1] at hi1; subst hi1
      obtain ⟨qs, q, c', j, _, g1, g2, g3, g4⟩ := h2.unsnoc
      have := g1.le
      have := g3.lt
      have hcx : c < x := by omega
      refine ⟨hcx, is ++ [x], ?_, ?_⟩
      · rw [hkids c (by omega) hlt, h1]; simp
      · exact reps_setText h2 ht hw (fun k k1 k2 k3 => hcell k k2 k3) hx
    | nested =>
      obtain ⟨e, he1, he2⟩ := hat
      obtain ⟨is, hi1⟩ := getLast?_snoc he1
      rw [h1] at hi1; subst hi1
      obtain ⟨qs, q, c', j, _, g1, g2, g3, g4⟩ := h2.unsnoc
      have := g1.le
      have := g3.lt
      have hne : h.kids e ≠ [] := by intro h; rw [h] at he2; simp at he2
      obtain ⟨n, as, s, ct, ks', en, rfl⟩ := rep_elem g3 hne
      obtain ⟨js, hj⟩ := getLast?_snoc he2
      simp only [Rep] at g3
      obtain ⟨k1, k2, k3, k4, k5, k6⟩ := g3
      rw [hj] at k6
      obtain ⟨qs', q', c'', j', _, g1', g2', g3', g4'⟩ := k6.unsnoc
      have := g1'.le
      have := g3'.lt
      have hcx : c < x := by omega
      refine ⟨hcx, is ++ [e], ?_, ?_⟩
      · rw [hkids c (by omega) hlt, h1]; simp
      · refine reps_setKids h2 k2 (Nat.le_refl _) (fun k k1 k2 => hcell k (by omega) (by omega)) ?_ ?_ ?_
        · intro k k1 k2 k3
          refine hcell k k2 ?_
          rintro rfl
          rw [k3] at ht; cases ht
        · have := hcell e (by omega) (by omega)
          exact ⟨this.ty, this.content, this.tmeta, this.endTag, rfl⟩
        · intro ks j hr hjb
          rw [hkids e (by omega) (by omega)]
          rw [hj] at hr ⊢
          exact (reps_setText hr ht hw (fun k k1 k2 k3 => hcell k (by omega) k3) hx).mono_hi hjb
  have hc := hcell c hlt (by omega)
  exact z.setKids rfl rfl (fun k hk => hcell k (by omega) (by omega)) hc.ty hc.content hc.endTag hc.tmeta hcx.2

/-- The empty last element of the innermost element gets a text. -/
theorem Zip.fill {h h' : Heap} {c e n : NodeId} {cs : List NodeId} {f : Frame} {fs : List Frame} {w : Str}
    (z : Zip h (c :: cs) (f :: fs) [] n) (hn : n = h.size) (hl : (h.kids c).getLast? = some e) (hke : h.kids e = [])
    (hte : (h.cell e).nodeType = .tag)
    (hcell : ∀ k, k < n → k ≠ e → SameCore (h.cell k) (h'.cell k))
    (hx : SameCore { h.cell e with childs := some [n] } (h'.cell e))
    (hnew : Rep h' (.text w) n (n + 1)) :
    Zip h' (c :: cs) ({ f with kids := modLast (PNode.modKids fun ks => ks ++ [.text w]) f.kids } :: fs) [] (n + 1) := by
  obtain ⟨ids, h1, h2⟩ := z.cons.1
  simp only [List.append_nil] at h1
  obtain ⟨is, hi1⟩ := getLast?_snoc hl
  rw [h1] at hi1; subst hi1
  obtain ⟨qs, q, c', j, _, g1, g2, g3, g4⟩ := h2.unsnoc
  have := g1.le
  have := g3.lt
  have hc := hcell c (by omega) (by omega)
  refine z.setKids rfl rfl (fun k hk => hcell k (by omega) (by omega)) hc.ty hc.content hc.endTag hc.tmeta ?_
  refine ⟨is ++ [e], by rw [hc.kids, h1]; simp, ?_⟩
  refine reps_setKids h2 hte (by omega) (fun k k1 k2 => hcell k (by omega) (by omega)) (fun k k1 k2 _ => hcell k k2 (by omega))
    ⟨hx.ty, hx.content, hx.tmeta, hx.endTag, rfl⟩ ?_
  intro ks j hr hjb
  have hk' : h'.kids e = [n] := by unfold Heap.kids; rw [hx.childs]; rfl
  rw [hke] at hr
  cases ks with
  | nil =>
    rw [hk']
    refine Reps.snoc (ids := []) hnew (b := e + 1) ?_ (by omega)
    simp only [Reps]; exact ⟨trivial, Nat.le_refl _⟩
  | cons p ps => simp [Reps] at hr

end Rphtml
