import Verif.Proofs.Order
import Verif.Spec.Graph
import Verif.Spec.Samples
import Verif.Props.RenderInner
import Verif.Props.Panics

/-! # C06, C07, C08, C02: the shape of parsed documents -/

namespace Rphtml
open Spec

theorem kids_some {h : Heap} {p : NodeId} {ids : List NodeId} (hc : (h.cell p).childs = some ids) : h.kids p = ids := by
  unfold Heap.kids; rw [hc]; rfl

theorem kids_mem {h : Heap} {p x : NodeId} (hx : x ∈ h.kids p) : ∃ ids, (h.cell p).childs = some ids ∧ x ∈ ids := by
  unfold Heap.kids at hx
  cases hc : (h.cell p).childs with
  | none => rw [hc] at hx; cases hx
  | some ids => rw [hc] at hx; exact ⟨ids, rfl, hx⟩

theorem Owns.inDoc_lt {lt : Bool} {h : Heap} (g : Owns lt h) {r x : NodeId} (hr : r < h.size) (hx : InDoc h r x) :
    r ≤ x ∧ x < h.size := by
  induction hx with
  | root => exact ⟨Nat.le_refl _, hr⟩
  | child hp hc hx ih =>
    have := g.range _ _ ih.2 (by rw [kids_some hc]; exact hx)
    omega

theorem Owns.inDoc_all {lt : Bool} {h : Heap} (g : Owns lt h) : ∀ (n x : Nat), x ≤ n → x < h.size →
    (x = 0 ∨ (h.cell x).nodeType ≠ .tagEnd) → InDoc h 0 x := by
  intro n
  induction n with
  | zero => intro x hx _ _; rw [Nat.le_zero.1 hx]; exact InDoc.root
  | succ n ih =>
    intro x hx hl ht
    by_cases h0 : x = 0
    · rw [h0]; exact InDoc.root
    · have ht' : (h.cell x).nodeType ≠ .tagEnd := by
        rcases ht with h1 | h1
        · exact absurd h1 h0
        · exact h1
      obtain ⟨p, hp, hxp⟩ := g.owned x hl (by omega) ht'
      have hlt := (g.range p x hp hxp).1
      have hpt : (h.cell p).nodeType ≠ .tagEnd := by
        obtain ⟨ids, hc, _⟩ := kids_mem hxp
        rcases g.inner p hp (by rw [hc]; simp) with h1 | h1 <;> rw [h1] <;> simp
      obtain ⟨ids, hc, hm⟩ := kids_mem hxp
      exact InDoc.child (ih p (by omega) hp (Or.inr hpt)) hc hm

theorem Owns.inDoc_iff {lt : Bool} {h : Heap} (g : Owns lt h) (h0 : 0 < h.size) (ht0 : (h.cell 0).nodeType = .abstractRoot)
    (x : NodeId) : InDoc h 0 x ↔ x < h.size ∧ (h.cell x).nodeType ≠ .tagEnd := by
  constructor
  · intro hx
    refine ⟨(g.inDoc_lt h0 hx).2, ?_⟩
    cases hx with
    | root => rw [ht0]; simp
    | child hp hc hx => exact (g.kind _ _ (g.inDoc_lt h0 hp).2 (by rw [kids_some hc]; exact hx)).1
  · intro hx; exact g.inDoc_all x x (Nat.le_refl _) hx.1 (Or.inr hx.2)

/-- What every parsed document satisfies. -/
theorem parse_graph {s : Str} {o : ParseOptions} {d : Doc} (h : Doc.parse s o = .ok d) :
    d.root = 0 ∧ 0 < d.heap.size ∧ (d.heap.cell 0).nodeType = .abstractRoot ∧ Owns o.autoFixUnescapedLt d.heap ∧
      Ends d.heap ∧ Ordered d.heap := by
  obtain ⟨d0, hr, he, hh, hroot, _, _⟩ := parse_ok h
  have hd := hr.ctl
  have hl := hr.finalLinks
  rw [hh]
  have hs := hd.sizePos
  refine ⟨hroot, ?_, ?_, hl.1, hl.2, hr.finalOrdered he⟩
  · rw [finalHeap_size]; exact Nat.lt_of_lt_of_le hs (fixedHeap_size d0)
  · have h0 := (hd.rootTy 0 hs).2 rfl
    rcases (eofCell hd he 0 hs).ty with h1 | h1
    · rw [h1]; exact h0
    · rw [h0] at h1; cases h1.1

/-! ## C06 -/

/-- **C06**: the `index` of a node is its position in the `childs` list of its parent. -/
theorem c06_index {s : Str} {o : ParseOptions} {d : Doc} (h : Doc.parse s o = .ok d) (p k x : Nat)
    (hp : InDoc d.heap d.root p) (hx : childAt d.heap p k x) : (d.heap.cell x).index = k := by
  obtain ⟨hr, h0, _, g, _, _⟩ := parse_graph h
  rw [hr] at hp
  obtain ⟨ids, hc, hk⟩ := hx
  exact g.index p k x (g.inDoc_lt h0 hp).2 (by rw [kids_some hc]; exact hk)

/-- The children lists and indices of a sample, node by node. -/
def Spec.shape (s : String) (o : ParseOptions := {}) : Option (List (Option (List Nat) × Nat)) :=
  match Doc.parse s.toList o with
  | .ok d => some ((List.range d.heap.size).map fun i => ((d.heap.cell i).childs, (d.heap.cell i).index))
  | _ => none

example : shape "<p>a<b></b>c</p><i></i>" =
    some [(some [1, 7], 0), (some [2, 3, 5], 0), (none, 0), (none, 1), (none, 0), (none, 2), (none, 0), (none, 1), (none, 0)] := by
  decide +kernel

/-! ## C07 -/

/-- **C07** without `auto_fix_unescaped_lt`: the parent and root links of a child, and the back link of an end tag. -/
theorem c07_links {s : Str} {o : ParseOptions} {d : Doc} (h : Doc.parse s o = .ok d)
    (hlt : o.autoFixUnescapedLt = false) :
    (∀ p k x, InDoc d.heap d.root p → childAt d.heap p k x →
      (d.heap.cell x).parent = some p ∧ (d.heap.cell x).root = some d.root) ∧
    (∀ t e, InDoc d.heap d.root t → (d.heap.cell t).endTag = some e → (d.heap.cell e).parent = some t) := by
  obtain ⟨hr, h0, _, g, ge, _⟩ := parse_graph h
  rw [hr]
  constructor
  · intro p k x hp ⟨ids, hc, hk⟩
    rcases g.up p x (g.inDoc_lt h0 hp).2 (by rw [kids_some hc]; exact List.mem_of_getElem? hk) with h1 | h1
    · exact h1
    · rw [hlt] at h1; cases h1.1
  · intro t e ht he
    exact (ge.down t e (g.inDoc_lt h0 ht).2 he).2.2.2.1

/-- **C07** for all options.  Missing from the full claim: the text nodes that `auto_fix_unescaped_lt` creates have
neither link (`Verif.Findings`). -/
theorem c07_links_partial {s : Str} {o : ParseOptions} {d : Doc} (h : Doc.parse s o = .ok d) :
    (∀ p k x, InDoc d.heap d.root p → childAt d.heap p k x →
      ((d.heap.cell x).parent = some p ∧ (d.heap.cell x).root = some d.root) ∨
      (o.autoFixUnescapedLt = true ∧ ((d.heap.cell x).nodeType = .text ∨ (d.heap.cell x).nodeType = .spacesBetweenTag) ∧
        (d.heap.cell x).parent = none ∧ (d.heap.cell x).root = none)) ∧
    (∀ t e, InDoc d.heap d.root t → (d.heap.cell t).endTag = some e → (d.heap.cell e).parent = some t) := by
  obtain ⟨hr, h0, _, g, ge, _⟩ := parse_graph h
  rw [hr]
  constructor
  · intro p k x hp ⟨ids, hc, hk⟩
    exact g.up p x (g.inDoc_lt h0 hp).2 (by rw [kids_some hc]; exact List.mem_of_getElem? hk)
  · intro t e ht he
    exact (ge.down t e (g.inDoc_lt h0 ht).2 he).2.2.2.1

/-- The parent, root and end tag links of a sample, node by node. -/
def Spec.links (s : String) (o : ParseOptions := {}) : Option (List (Option Nat × Option Nat × Option Nat)) :=
  match Doc.parse s.toList o with
  | .ok d => some ((List.range d.heap.size).map fun i =>
      ((d.heap.cell i).parent, (d.heap.cell i).root, (d.heap.cell i).endTag))
  | _ => none

example : links "<p>a<b></b></p>" = some [(none, some 0, none), (some 0, some 0, some 5), (some 1, some 0, none),
    (some 1, some 0, some 4), (some 3, none, none), (some 1, none, none)] := by decide +kernel
-- the second disjunct of `c07_links_partial` does occur
example : links "<p>< </p>" { autoFixUnescapedLt := true } =
    some [(none, some 0, none), (some 0, some 0, some 3), (none, none, none), (some 1, none, none)] := by decide +kernel

/-! ## C08 -/

theorem mapM_some {α β : Type} {f : α → Option β} : ∀ {l : List α}, (∀ a ∈ l, ∃ b, f a = some b) →
    ∃ bs, l.mapM f = some bs ∧ bs.length = l.length ∧ ∀ (i : Nat) a b, l[i]? = some a → bs[i]? = some b → f a = some b
  | [], _ => ⟨[], rfl, rfl, by intro i a b h; simp at h⟩
  | a :: l, h => by
    obtain ⟨b, hb⟩ := h a (by simp)
    obtain ⟨bs, h1, h2, h3⟩ := mapM_some (l := l) fun x hx => h x (by simp [hx])
    refine ⟨b :: bs, by simp [List.mapM_cons, hb, h1], by simp [h2], ?_⟩
    intro i x y hx hy
    cases i with
    | zero => simp at hx hy; subst hx hy; exact hb
    | succ i => simp at hx hy; exact h3 i x y hx hy

theorem Below.to_inDoc {h : Heap} {a z : NodeId} (hz : Below h a z) : InDoc h a z := by
  induction hz with
  | self => exact InDoc.root
  | step _ hz ih => obtain ⟨ids, hc, hm⟩ := kids_mem hz; exact InDoc.child ih hc hm

theorem InDoc.to_below {h : Heap} {a z : NodeId} (hz : InDoc h a z) : Below h a z := by
  induction hz with
  | root => exact Below.self
  | child _ hc hx ih => exact Below.step ih (by rw [kids_some hc]; exact hx)

theorem Below.of_child {h : Heap} {p a z : NodeId} (ha : a ∈ h.kids p) (hz : Below h a z) : Below h p z := by
  induction hz with
  | self => exact Below.step Below.self ha
  | step _ hz ih => exact Below.step ih hz

theorem Below.cases_child {h : Heap} {p z : NodeId} (hz : Below h p z) : z = p ∨ ∃ a, a ∈ h.kids p ∧ Below h a z := by
  induction hz with
  | self => exact Or.inl rfl
  | step hq hz ih =>
    rcases ih with rfl | ⟨a, ha, hb⟩
    · exact Or.inr ⟨_, hz, Below.self⟩
    · exact Or.inr ⟨a, ha, Below.step hb hz⟩

theorem preorder_spec {lt : Bool} {h : Heap} (g : Owns lt h) (ho : Ordered h) : ∀ (fuel i : Nat), i < h.size →
    h.size ≤ fuel + i → ∃ l, preorder h fuel i = some l ∧ l.Pairwise (· < ·) ∧ ∀ x, x ∈ l ↔ Below h i x := by
  intro fuel
  induction fuel with
  | zero => intro i hi hf; omega
  | succ fuel ih =>
    intro i hi hf
    unfold preorder
    cases hc : (h.cell i).childs with
    | none =>
      refine ⟨[i], rfl, List.pairwise_singleton _ _, fun x => ?_⟩
      have hk : h.kids i = [] := by unfold Heap.kids; rw [hc]; rfl
      constructor
      · intro hx; rw [List.mem_singleton.1 hx]; exact Below.self
      · intro hx
        rcases hx.cases_child with rfl | ⟨a, ha, _⟩
        · simp
        · rw [hk] at ha; cases ha
    | some ids =>
      have hk := kids_some hc
      have hsub : ∀ a ∈ ids, ∃ l, preorder h fuel a = some l ∧ l.Pairwise (· < ·) ∧ ∀ x, x ∈ l ↔ Below h a x := by
        intro a ha
        have := g.range i a hi (by rw [hk]; exact ha)
        exact ih a this.2 (by omega)
      obtain ⟨ls, h1, h2, h3⟩ := mapM_some (f := preorder h fuel) (l := ids) fun a ha => by
        obtain ⟨l, hl, _⟩ := hsub a ha; exact ⟨l, hl⟩
      have hidx : ∀ (k : Nat) (l : List NodeId), ls[k]? = some l → ∃ a, ids[k]? = some a ∧ a ∈ ids ∧ l.Pairwise (· < ·) ∧
          ∀ x, x ∈ l ↔ Below h a x := by
        intro k l hl
        have hkl : k < ids.length := by
          rw [← h2]; exact (List.getElem?_eq_some_iff.1 hl).1
        have hka : ids[k]? = some ids[k] := List.getElem?_eq_getElem hkl
        obtain ⟨l', e1, e2, e3⟩ := hsub ids[k] (List.getElem_mem hkl)
        have := h3 k _ _ hka hl
        rw [e1] at this; cases this
        exact ⟨_, hka, List.getElem_mem hkl, e2, e3⟩
      refine ⟨i :: ls.flatten, by simp only [h1, Option.map_some], ?_, ?_⟩
      · refine List.pairwise_cons.2 ⟨?_, ?_⟩
        · intro x hx
          obtain ⟨l, hl, hxl⟩ := List.mem_flatten.1 hx
          obtain ⟨k, hkl⟩ := List.mem_iff_getElem?.1 hl
          obtain ⟨a, _, ha, _, e3⟩ := hidx k l hkl
          have h4 := g.range i a hi (by rw [hk]; exact ha)
          have h5 := ((e3 x).1 hxl).lt g h4.2
          omega
        · refine List.pairwise_flatten.2 ⟨?_, ?_⟩
          · intro l hl
            obtain ⟨k, hkl⟩ := List.mem_iff_getElem?.1 hl
            exact (hidx k l hkl).choose_spec.2.2.1
          · refine List.pairwise_iff_getElem.2 ?_
            intro u v hu hv huv x hx y hy
            obtain ⟨a, ea, ha, _, e3⟩ := hidx u _ (List.getElem?_eq_getElem hu)
            obtain ⟨b, eb, hb, _, f3⟩ := hidx v _ (List.getElem?_eq_getElem hv)
            have hsorted := g.sorted i hi
            rw [hk] at hsorted
            have hab : a < b := by
              obtain ⟨hu', rfl⟩ := List.getElem?_eq_some_iff.1 ea
              obtain ⟨hv', rfl⟩ := List.getElem?_eq_some_iff.1 eb
              exact List.pairwise_iff_getElem.1 hsorted u v hu' hv' huv
            have h6 := ho i a b x hi (by rw [hk]; exact ha) (by rw [hk]; exact hb) hab ((e3 x).1 hx)
            have h7 := ((f3 y).1 hy).lt g (g.range i b hi (by rw [hk]; exact hb)).2
            omega
      · intro x
        constructor
        · intro hx
          rcases List.mem_cons.1 hx with rfl | hx
          · exact Below.self
          · obtain ⟨l, hl, hxl⟩ := List.mem_flatten.1 hx
            obtain ⟨k, hkl⟩ := List.mem_iff_getElem?.1 hl
            obtain ⟨a, _, ha, _, e3⟩ := hidx k l hkl
            exact ((e3 x).1 hxl).of_child (by rw [hk]; exact ha)
        · intro hx
          rcases hx.cases_child with rfl | ⟨a, ha, hb⟩
          · simp
          · rw [hk] at ha
            obtain ⟨k, hka⟩ := List.mem_iff_getElem?.1 ha
            have hkl : k < ls.length := by rw [h2]; exact (List.getElem?_eq_some_iff.1 hka).1
            obtain ⟨b, e1, _, _, e3⟩ := hidx k _ (List.getElem?_eq_getElem hkl)
            rw [hka] at e1; cases e1
            refine List.mem_cons_of_mem _ (List.mem_flatten.2 ⟨_, List.getElem_mem hkl, (e3 x).2 hb⟩)

/-- **C08**: no node occurs twice, nobody owns the root, everything that is not an end tag is reachable, and a
traversal terminates and meets every node once, in creation order. -/
theorem c08_tree {s : Str} {o : ParseOptions} {d : Doc} (h : Doc.parse s o = .ok d) :
    (∀ x, InDoc d.heap d.root x → x ≠ d.root →
      ∃ p k, (InDoc d.heap d.root p ∧ childAt d.heap p k x) ∧
        ∀ p' k', InDoc d.heap d.root p' → childAt d.heap p' k' x → p' = p ∧ k' = k) ∧
    (∀ p k, InDoc d.heap d.root p → ¬ childAt d.heap p k d.root) ∧
    (∀ x, x < d.heap.size → (d.heap.cell x).nodeType ≠ .tagEnd → InDoc d.heap d.root x) ∧
    (∃ l, preorder d.heap d.heap.size d.root = some l ∧ l.Pairwise (· < ·) ∧ ∀ x, x ∈ l ↔ InDoc d.heap d.root x) := by
  obtain ⟨hr, h0, ht0, g, ge, ho⟩ := parse_graph h
  rw [hr]
  have hmem : ∀ {p k x}, childAt d.heap p k x → (d.heap.kids p)[k]? = some x := by
    intro p k x ⟨ids, hc, hk⟩; rw [kids_some hc]; exact hk
  refine ⟨?_, ?_, ?_, ?_⟩
  · intro x hx hne
    cases hx with
    | root => exact absurd rfl hne
    | child hp hc hm =>
      rename_i p ids
      obtain ⟨k, hk⟩ := List.mem_iff_getElem?.1 hm
      refine ⟨p, k, ⟨hp, ids, hc, hk⟩, ?_⟩
      intro p' k' hp' hx'
      have hpl := (g.inDoc_lt h0 hp).2
      have hpl' := (g.inDoc_lt h0 hp').2
      have e1 := hmem hx'
      have e2 : (d.heap.kids p)[k]? = some x := by rw [kids_some hc]; exact hk
      have e3 := g.owner p' p x hpl' hpl (List.mem_of_getElem? e1) (List.mem_of_getElem? e2)
      refine ⟨e3, ?_⟩
      rw [← g.index p' k' x hpl' e1, ← g.index p k x hpl e2]
  · intro p k hp hx
    have := g.range p 0 (g.inDoc_lt h0 hp).2 (List.mem_of_getElem? (hmem hx))
    omega
  · intro x hx ht; exact (g.inDoc_iff h0 ht0 x).2 ⟨hx, ht⟩
  · obtain ⟨l, h1, h2, h3⟩ := preorder_spec g ho d.heap.size 0 h0 (by omega)
    exact ⟨l, h1, h2, fun x => (h3 x).trans ⟨Below.to_inDoc, InDoc.to_below⟩⟩

/-- The traversal of a sample. -/
def Spec.visit (s : String) (o : ParseOptions := {}) : Option (List Nat) :=
  match Doc.parse s.toList o with
  | .ok d => preorder d.heap d.heap.size d.root
  | _ => none

example : visit "<p>a<b>c</b>d</p><i></i>" = some [0, 1, 2, 3, 4, 6, 8] := by decide +kernel
-- a late child of an element that is already closed still comes in document order
example : visit "<script></script>< <br>< " { autoFixUnescapedLt := true } = some [0, 1, 3, 4, 5] := by decide +kernel

/-! ## C02 -/

theorem optAll_some {α β : Type} {f : α → Option β} {P : β → Prop} : ∀ {l : List α}, (∀ a ∈ l, ∃ b, f a = some b ∧ P b) →
    ∃ bs, optAll f l = some bs ∧ ∀ b ∈ bs, P b
  | [], _ => ⟨[], rfl, by simp⟩
  | a :: l, h => by
    obtain ⟨b, hb, hp⟩ := h a (by simp)
    obtain ⟨bs, h1, h2⟩ := optAll_some (l := l) fun x hx => h x (by simp [hx])
    refine ⟨b :: bs, by simp [optAll, hb, h1], ?_⟩
    intro x hx
    rcases List.mem_cons.1 hx with rfl | hx
    · exact hp
    · exact h2 x hx

theorem allForest_of {p : NodeD → Prop} : ∀ {ts : List Tree}, (∀ t ∈ ts, allNodes p t) → allForest p ts
  | [], _ => by simp [allForest]
  | t :: ts, h => by
    simp only [allForest]
    exact ⟨h t (by simp), allForest_of fun x hx => h x (by simp [hx])⟩

theorem toTree_spec {lt : Bool} {h : Heap} (g : Owns lt h) (P : NodeD → Prop)
    (hP : ∀ x, x < h.size → (h.cell x).nodeType ≠ .tagEnd → P (h.cell x).toNodeD)
    (hE : ∀ x e, x < h.size → (h.cell x).endTag = some e → P (h.cell e).toNodeD) : ∀ (fuel i : Nat), i < h.size →
    (h.cell i).nodeType ≠ .tagEnd → h.size ≤ fuel + i → ∃ t, h.toTree? fuel i = some t ∧ allNodes P t := by
  intro fuel
  induction fuel with
  | zero => intro i hi _ hf; omega
  | succ fuel ih =>
    intro i hi hty hf
    unfold Heap.toTree?
    have he : ∀ x, (h.cell i).endTag.map (fun e => (h.cell e).toNodeD) = some x → P x := by
      intro x hx
      cases hc : (h.cell i).endTag with
      | none => rw [hc] at hx; cases hx
      | some e => rw [hc] at hx; cases hx; exact hE i e hi hc
    cases hc : (h.cell i).childs with
    | none =>
      refine ⟨.mk (h.cell i).toNodeD ((h.cell i).endTag.map fun e => (h.cell e).toNodeD) none, by simp only [hc], ?_⟩
      simp only [allNodes]
      exact ⟨hP i hi hty, he⟩
    | some ids =>
      obtain ⟨ts, h1, h2⟩ := optAll_some (f := h.toTree? fuel) (P := allNodes P) (l := ids) fun a ha => by
        have hm : a ∈ h.kids i := by rw [kids_some hc]; exact ha
        have := g.range i a hi hm
        exact ih a this.2 (g.kind i a hi hm).1 (by omega)
      refine ⟨.mk (h.cell i).toNodeD ((h.cell i).endTag.map fun e => (h.cell e).toNodeD) (some ts), by simp only [hc, h1], ?_⟩
      simp only [allNodes]
      exact ⟨hP i hi hty, he, allForest_of h2⟩

theorem endsInTagName_of {o : ParseOptions} {s : Str} {d : Doc} (hr : Reach o s d) (hh : d.handle = .tagName) :
    endsInTagName s := by
  have hsrc := hr.srcAt
  have hs := hr.ctl.hs
  unfold SrcAt at hsrc
  unfold HandleOk at hs
  simp only [hh] at hsrc hs
  obtain ⟨pre, e, _⟩ := hsrc
  obtain ⟨c, name, e2, h4, h5⟩ := tagNameOk_spec hs.2.2.2.2.2
  exact ⟨pre, c, name, by rw [e, e2], h4, h5⟩

/-- The nodes of a parsed document carry what rendering unwraps, but for a tag whose name is being read at the end. -/
theorem parse_printable_but {s : Str} {o : ParseOptions} {d : Doc} (h : Doc.parse s o = .ok d) :
    ∃ d0 t, (Doc.new o).run s s = .ok d0 ∧ d.tree? = some t ∧
      allNodes (fun n => printable n ∨ (d0.handle = .tagName ∧ n.nodeType = .tag ∧ n.tmeta = none)) t := by
  obtain ⟨hroot, h0, ht0, g, ge, ho⟩ := parse_graph h
  obtain ⟨d0, hrun, hr, he, hh, _, _, hopts⟩ := parse_run h
  refine ⟨d0, ?_⟩
  have hd := hr.ctl
  have hlt : d0.heap.size ≤ d.heap.size := by rw [hh, finalHeap_size]; exact fixedHeap_size d0
  unfold Doc.tree?
  rw [hroot]
  suffices ht : ∃ t, d.heap.toTree? d.heap.size 0 = some t ∧
      allNodes (fun n => printable n ∨ (d0.handle = .tagName ∧ n.nodeType = .tag ∧ n.tmeta = none)) t by
    obtain ⟨t, h1, h2⟩ := ht
    exact ⟨t, hrun, h1, h2⟩
  refine toTree_spec g _ ?_ ?_ d.heap.size 0 h0 (by rw [ht0]; simp) (by omega)
  · intro x hx hty
    have hxl : x < d0.heap.size := by
      rcases Nat.lt_or_ge x d0.heap.size with h1 | h1
      · exact h1
      · exfalso
        rw [hh, finalHeap_size] at hx
        obtain ⟨_, i, m, _, _, _, hc⟩ := fixedHeap_new hd x h1 hx
        have h1' := hd.curLt
        have h2' := hd.sizePos
        apply hty
        rw [hh, finalHeap_cell x (by omega) (fun _ => by omega), hc]; rfl
    rw [hh] at hty ⊢
    have hc := eofCell hd he x hxl
    have hcont : (d0.heap.cell x).content ≠ none → (d0.finalHeap.cell x).content ≠ none := by
      intro h1; rw [hc.content]; split
      · simp
      · exact h1
    have hmeta : (d0.heap.cell x).tmeta ≠ none → (d0.finalHeap.cell x).tmeta ≠ none := by
      intro h1
      rcases hc.tmeta with h2 | ⟨_, _, _, m, _, h2⟩
      · rw [h2]; exact h1
      · rw [h2]; simp
    have htext : (d0.heap.cell x).nodeType = .text ∨ (d0.heap.cell x).nodeType = .spacesBetweenTag →
        (d0.finalHeap.cell x).content ≠ none := by
      intro h1
      rcases hd.textDone x hxl h1 with h2 | h2
      · exact hcont h2
      · rw [hc.content, if_pos]
        · simp
        · have hs := hd.hs
          unfold HandleOk at hs
          simp only [h2.1] at hs
          exact ⟨hs.1, h2.2⟩
    by_cases hbad : d0.handle = .tagName ∧ (d0.finalHeap.cell x).nodeType = .tag ∧ (d0.finalHeap.cell x).tmeta = none
    · exact Or.inr hbad
    left
    unfold printable
    rcases hc.ty with h1 | h1
    · cases ht : (d0.finalHeap.cell x).nodeType <;> simp only [] <;> rw [ht] at h1
      case text => exact htext (Or.inl h1.symm)
      case spacesBetweenTag => exact htext (Or.inr h1.symm)
      case tagEnd => exact absurd ht hty
      case tag =>
        rcases hd.metaDone x hxl h1.symm with h2 | h2
        · exact hmeta h2
        · exact fun h3 => hbad ⟨h2.1, ht, h3⟩
      case htmlDoctype =>
        rcases hd.docDone x hxl h1.symm with h2 | h2
        · exact hmeta h2
        · exfalso
          have hs := hd.hs
          unfold HandleOk at hs
          simp only [h2.1] at hs
          rcases he.code with h3 | h3 | h3 | h3
          all_goals (rw [hs.1] at h3; simp at h3)
    · rw [h1.2.1]
      exact htext (Or.inl h1.1)
  · intro x e hx hend
    obtain ⟨_, _, h3, _, h5, _⟩ := ge.down x e hx hend
    left
    unfold printable
    rw [h3]
    exact h5

theorem allNodes_imp {P Q : NodeD → Prop} (h : ∀ n, P n → Q n) :
    (∀ t : Tree, allNodes P t → allNodes Q t) ∧ (∀ ts : List Tree, allForest P ts → allForest Q ts) := by
  apply Tree.induct
  · intro d e h1
    simp only [allNodes] at h1 ⊢
    exact ⟨h _ h1.1, fun x hx => h _ (h1.2 x hx)⟩
  · intro d e ts ih h1
    simp only [allNodes] at h1 ⊢
    exact ⟨h _ h1.1, fun x hx => h _ (h1.2.1 x hx), ih h1.2.2⟩
  · intro _; simp [allForest]
  · intro t ts h1 h2 h3
    simp only [allForest] at h3 ⊢
    exact ⟨h1 h3.1, h2 h3.2⟩

/-- The nodes of a parsed document carry what rendering unwraps, unless the input ends inside a tag name. -/
theorem parse_printable {s : Str} {o : ParseOptions} {d : Doc} (h : Doc.parse s o = .ok d)
    (hn : o.autoFixUnclosedTag = false ∨ ¬ endsInTagName s) : ∃ t, d.tree? = some t ∧ allNodes printable t := by
  obtain ⟨d0, t, hrun, h1, h2⟩ := parse_printable_but h
  obtain ⟨d0', hrun', hr, he, _⟩ := parse_run h
  rw [hrun] at hrun'
  cases hrun'
  refine ⟨t, h1, (allNodes_imp ?_).1 t h2⟩
  intro n hp
  rcases hp with hp | ⟨hh, _⟩
  · exact hp
  · exfalso
    rcases hn with h1 | h1
    · have hs := hr.ctl.hs
      unfold HandleOk at hs
      simp only [hh] at hs
      rcases he.code with h2 | h2 | h2 | h2
      all_goals first
        | (rw [hs.1] at h2; cases h2; done)
        | skip
      all_goals
        have := hr.opts
        rw [this, h1] at h2
        simp at h2
    · exact h1 (endsInTagName_of hr hh)

/-- **C02** (partial): a parsed document renders without a panic, for every combination of render options with
`inner_html = false` and every codec, unless `auto_fix_unclosed_tag` is on and the input ends inside the name of a start
tag.  The excluded case does panic (`Verif.Findings`). -/
theorem c02_renderable_partial {s : Str} {o : ParseOptions} {d : Doc} (h : Doc.parse s o = .ok d)
    (hn : o.autoFixUnclosedTag = false ∨ ¬ endsInTagName s) (lib : EntityLib) (r : RenderOptions)
    (hi : r.innerHtml = false) : ∃ out, d.render lib r = .ok out := by
  obtain ⟨t, ht, hp⟩ := parse_printable h hn
  unfold Doc.render
  rw [ht]
  have h1 := c45_panic_iff lib r t false hp
  cases hb : build lib t r false with
  | ok out => exact ⟨out, by simp only [hb]⟩
  | error e =>
    exfalso
    have := h1.1 ⟨e, hb⟩
    unfold misuse at this
    rw [hi] at this
    simp at this

example : rendersTo "<p a=1>x<br>" "<p a=1>x<br></p>" { autoFixUnclosedTag := true } = true := by decide +kernel

end Rphtml
