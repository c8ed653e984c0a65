import Verif.Proofs.Clone
import Verif.Props.Position

/-! # C37, C38: deep clones -/

namespace Rphtml
open Spec

theorem built_toTree (h : Heap) :
    (∀ t a b i par prv, built h a b i par prv t → ∀ fuel, b ≤ fuel + i → h.toTree? fuel i = some t) ∧
    (∀ ts a b me prv ids, builts h a b me prv ids ts → ∀ fuel, b ≤ fuel + a → optAll (h.toTree? fuel) ids = some ts) := by
  have hb := built_bounds h
  have he : ∀ {a i e}, builtEnd h a i e → (h.cell i).endTag.map (fun e => (h.cell e).toNodeD) = e := by
    intro a i e g
    cases e with
    | none => rw [g.2]; rfl
    | some x => rw [g.2.1]; simp only [Option.map_some]; rw [g.2.2.1]
  refine Tree.induct
    (P := fun t => ∀ a b i par prv, built h a b i par prv t → ∀ fuel, b ≤ fuel + i → h.toTree? fuel i = some t)
    (Q := fun ts => ∀ a b me prv ids, builts h a b me prv ids ts → ∀ fuel, b ≤ fuel + a → optAll (h.toTree? fuel) ids = some ts)
    ?_ ?_ ?_ ?_
  · intro d e a b i par prv g fuel hf
    simp only [built] at g
    obtain ⟨g1, g2, g3, g4, g5, g6⟩ := g
    cases fuel with
    | zero => omega
    | succ fuel =>
      unfold Heap.toTree?
      simp only [g5, he g4, g1]
  · intro d e ts ih a b i par prv g fuel hf
    simp only [built] at g
    obtain ⟨g1, g2, g3, g4, ids, g5, g6⟩ := g
    cases fuel with
    | zero => have := hb.2 _ _ _ _ _ _ g6; omega
    | succ fuel =>
      unfold Heap.toTree?
      simp only [g5, he g4, g1, ih _ _ _ _ _ g6 fuel (by omega)]
  · intro a b me prv ids g fuel hf
    simp only [builts] at g
    rw [g.1]; rfl
  · intro t ts iht ihts a b me prv ids g fuel hf
    simp only [builts] at g
    obtain ⟨m, x, xs, rfl, g1, g2⟩ := g
    have k1 := hb.1 _ _ _ _ _ _ g1
    have k2 := hb.2 _ _ _ _ _ _ g2
    simp only [optAll, iht _ _ _ _ _ g1 fuel (by omega), ihts _ _ _ _ _ g2 fuel (by omega)]

/-- The `k`-th child of a stored tree. -/
theorem builts_get {h : Heap} : ∀ {ts : List Tree} {a b me : NodeId} {prv : Option NodeId} {ids : List NodeId},
    builts h a b me prv ids ts → ∀ k x, ids[k]? = some x → ∃ m m' t, built h m m' x (some me) (if k = 0 then prv else ids[k - 1]?) t ∧
      a ≤ m ∧ m' ≤ b
  | [], a, b, me, prv, ids, g, k, x, hk => by
    simp only [builts] at g
    rw [g.1] at hk; simp at hk
  | t :: ts, a, b, me, prv, ids, g, k, x, hk => by
    simp only [builts] at g
    obtain ⟨m, y, ys, rfl, g1, g2⟩ := g
    have k1 := (built_bounds h).1 _ _ _ _ _ _ g1
    have k2 := (built_bounds h).2 _ _ _ _ _ _ g2
    cases k with
    | zero =>
      simp only [List.getElem?_cons_zero, Option.some.injEq] at hk
      subst hk
      exact ⟨a, m, t, by simpa using g1, Nat.le_refl _, k2⟩
    | succ k =>
      simp only [List.getElem?_cons_succ] at hk
      obtain ⟨n, n', u, c1, c2, c3⟩ := builts_get g2 k x hk
      refine ⟨n, n', u, ?_, by omega, c3⟩
      have : (if k + 1 = 0 then prv else (y :: ys)[k + 1 - 1]?) = (if k = 0 then some y else ys[k - 1]?) := by
        cases k with
        | zero => rfl
        | succ k => simp
      rw [this]; exact c1

theorem built_child {h : Heap} {a b i x : NodeId} {par prv : Option NodeId} {t : Tree} (g : built h a b i par prv t) {k : Nat}
    (hc : childAt h i k x) : ∃ m m' u, built h m m' x (some i) (if k = 0 then none else ((h.cell i).childs.getD [])[k - 1]?) u ∧
      i < m ∧ m' ≤ b := by
  obtain ⟨ids, hi, hk⟩ := hc
  cases t with
  | mk d e c =>
    cases c with
    | none => simp only [built] at g; rw [g.2.2.2.2.1] at hi; cases hi
    | some ts =>
      simp only [built] at g
      obtain ⟨_, _, _, _, ids', h1, h2⟩ := g
      rw [hi] at h1; cases h1
      obtain ⟨m, m', u, c1, c2, c3⟩ := builts_get h2 k x hk
      refine ⟨m, m', u, ?_, c2, c3⟩
      rw [hi]; exact c1

theorem built_inDoc {h : Heap} {a b i : NodeId} {par prv : Option NodeId} {t : Tree} (g : built h a b i par prv t) {x : NodeId}
    (hx : InDoc h i x) : ∃ m m' q r u, built h m m' x q r u ∧ a ≤ m ∧ m' ≤ b := by
  induction hx with
  | root => exact ⟨a, b, par, prv, t, g, Nat.le_refl _, Nat.le_refl _⟩
  | child hp hc hx ih =>
    obtain ⟨m, m', q, r, u, h1, h2, h3⟩ := ih
    obtain ⟨k, hk⟩ := List.getElem?_of_mem hx
    obtain ⟨n, n', v, c1, c2, c3⟩ := built_child h1 ⟨_, hc, hk⟩
    have := (built_bounds h).1 _ _ _ _ _ _ h1
    exact ⟨n, n', _, _, v, c1, by omega, by omega⟩

/-- Forget the positions. -/
def unplaced (n : NodeD) : NodeD := { n with beginAt := 0, endAt := 0, index := 0 }

theorem rebase_unplaced (r : Nat) : (∀ t k, mapTree unplaced (rebase r k t) = mapTree unplaced t) ∧
    (∀ ts, mapForest unplaced (rebases r ts) = mapForest unplaced ts) := by
  have he : ∀ e : Option NodeD, (e.map (shift r 0)).map unplaced = e.map unplaced := by
    intro e; cases e <;> rfl
  refine Tree.induct (P := fun t => ∀ k, mapTree unplaced (rebase r k t) = mapTree unplaced t)
    (Q := fun ts => mapForest unplaced (rebases r ts) = mapForest unplaced ts) ?_ ?_ ?_ ?_
  · intro d e k; simp only [rebase, mapTree, he]; rfl
  · intro d e ts ih k; simp only [rebase, mapTree, he, ih]; rfl
  · rfl
  · intro t ts h1 h2; simp only [rebases, mapForest, h1, h2]

/-- Rendering does not look at positions. -/
theorem build_unplaced (lib : EntityLib) (o : RenderOptions) (t : Tree) (it : Bool) :
    build lib t o it = build lib (mapTree unplaced t) o it :=
  build_map lib o o unplaced rfl (fun _ => rfl) (fun _ _ => rfl) t it

/-- **C37**: `clone_node` of a node whose subtree `t` begins nowhere before it adds a new tree to the heap: the same
types, contents, metadata and child structure with positions counted from the beginning of the node, rendering the same
with all options, with parent and sibling links among the new nodes and a root without parent and sibling.  No node is
shared with the original and no old node changes. -/
theorem c37_clone {h : Heap} (g : Linked h) {fuel : Nat} {i : NodeId} {t : Tree} (hi : i < h.size)
    (ht : h.toTree? fuel i = some t) (hp : allNodes (startsAt (h.cell i).beginAt) t) :
    ∃ h' i', h.cloneNode (fuel + 1) i = some (h', i') ∧
      (∀ j, j < h.size → h'.cell j = h.cell j) ∧
      (∀ x, InDoc h' i' x → h.size ≤ x ∧ x < h'.size) ∧
      (∀ x e, InDoc h' i' x → (h'.cell x).endTag = some e → h.size ≤ e ∧ e < h'.size) ∧
      h'.toTree? h'.size i' = some (rebase (h.cell i).beginAt 0 t) ∧
      (∀ lib o it, build lib (rebase (h.cell i).beginAt 0 t) o it = build lib t o it) ∧
      (∀ p k x, InDoc h' i' p → childAt h' p k x → (h'.cell x).parent = some p ∧
        ∀ y, (h'.cell x).prev = some y ↔ 0 < k ∧ childAt h' p (k - 1) y) ∧
      (h'.cell i').parent = none ∧ (h'.cell i').prev = none := by
  obtain ⟨h', i', c1, c2, c3⟩ := clone_built g (h.cell i).beginAt fuel i t h (Ext.refl h) hi ht hp
  have hcell : ∀ {m m' x q r u}, built h' m m' x q r u → (h'.cell x).parent = q ∧ (h'.cell x).prev = r ∧
      ∀ e, (h'.cell x).endTag = some e → e = m ∧ m < x := by
    intro m m' x q r u hb
    have hend : ∀ e, builtEnd h' m x e → ∀ e', (h'.cell x).endTag = some e' → e' = m ∧ m < x := by
      intro e he e' he'
      cases e with
      | none => rw [he.2] at he'; cases he'
      | some z => rw [he.2.1] at he'; cases he'; have := he.1; exact ⟨rfl, by omega⟩
    cases u with
    | mk d e c =>
      cases c <;> simp only [built] at hb <;> exact ⟨hb.2.1, hb.2.2.1, hend _ hb.2.2.2.1⟩
  have hbd := (built_bounds h').1 _ _ _ _ _ _ c3
  refine ⟨h', i', c1, c2.2, ?_, ?_, ?_, ?_, ?_, (hcell c3).1, (hcell c3).2.1⟩
  · intro x hx
    obtain ⟨m, m', q, r, u, k1, k2, k3⟩ := built_inDoc c3 hx
    have := (built_bounds h').1 _ _ _ _ _ _ k1
    omega
  · intro x e hx he
    obtain ⟨m, m', q, r, u, k1, k2, k3⟩ := built_inDoc c3 hx
    have k4 := (hcell k1).2.2 e he
    have := (built_bounds h').1 _ _ _ _ _ _ k1
    omega
  · exact (built_toTree h').1 _ _ _ _ _ _ c3 _ (by omega)
  · intro lib o it
    rw [build_unplaced, (rebase_unplaced _).1, ← build_unplaced]
  · intro p k x hpd hc
    obtain ⟨m, m', q, r, u, k1, k2, k3⟩ := built_inDoc c3 hpd
    obtain ⟨n, n', v, l1, l2, l3⟩ := built_child k1 hc
    refine ⟨(hcell l1).1, fun y => ?_⟩
    rw [(hcell l1).2.1]
    obtain ⟨ids, hids, hk⟩ := hc
    rw [hids]
    cases k with
    | zero => simp
    | succ k =>
      simp only [Nat.add_one_ne_zero, if_false, Option.getD_some, Nat.add_sub_cancel, Nat.zero_lt_succ, true_and]
      constructor
      · intro h1; exact ⟨ids, hids, h1⟩
      · rintro ⟨ids', h1, h2⟩
        rw [hids] at h1; cases h1; exact h2

/-- `toTree_spec` for a part of the heap. -/
theorem toTree_from {lt : Bool} {h : Heap} (g : Owns lt h) (P : NodeD → Prop) (i0 : NodeId)
    (hP : ∀ x, i0 ≤ x → x < h.size → P (h.cell x).toNodeD)
    (hE : ∀ x e, i0 ≤ x → x < h.size → (h.cell x).endTag = some e → P (h.cell e).toNodeD) : ∀ (fuel i : Nat), i0 ≤ i → i < h.size →
    h.size ≤ fuel + i → ∃ t, h.toTree? fuel i = some t ∧ allNodes P t := by
  intro fuel
  induction fuel with
  | zero => intro i _ hi hf; omega
  | succ fuel ih =>
    intro i h0 hi hf
    unfold Heap.toTree?
    have he : ∀ x, (h.cell i).endTag.map (fun e => (h.cell e).toNodeD) = some x → P x := by
      intro x hx
      cases hc : (h.cell i).endTag with
      | none => rw [hc] at hx; cases hx
      | some e => rw [hc] at hx; cases hx; exact hE i e h0 hi hc
    cases hc : (h.cell i).childs with
    | none =>
      refine ⟨.mk (h.cell i).toNodeD ((h.cell i).endTag.map fun e => (h.cell e).toNodeD) none, by simp only [hc], ?_⟩
      simp only [allNodes]
      exact ⟨hP i h0 hi, he⟩
    | some ids =>
      obtain ⟨ts, h1, h2⟩ := optAll_some (f := h.toTree? fuel) (P := allNodes P) (l := ids) fun a ha => by
        have hm : a ∈ h.kids i := by rw [kids_some hc]; exact ha
        have := g.range i a hi hm
        exact ih a (by omega) this.2 (by omega)
      refine ⟨.mk (h.cell i).toNodeD ((h.cell i).endTag.map fun e => (h.cell e).toNodeD) (some ts), by simp only [hc, h1], ?_⟩
      simp only [allNodes]
      exact ⟨hP i h0 hi, he, allForest_of h2⟩

theorem parse_linked {s : Str} {o : ParseOptions} {d : Doc} (h : Doc.parse s o = .ok d) : Linked d.heap := by
  obtain ⟨hr, h0, ht0, g, ge, ho⟩ := parse_graph h
  refine ⟨?_, ?_⟩
  · intro p ids x hp hc hx
    exact (g.range p x hp (by rw [kids_some hc]; exact hx)).2
  · intro p e hp he
    obtain ⟨h1, h2, h3, _, _, _⟩ := ge.down p e hp he
    refine ⟨h2, ?_, ?_⟩
    · cases hc : (d.heap.cell e).childs with
      | none => rfl
      | some ids =>
        rcases g.inner e h2 (by rw [hc]; simp) with h4 | h4 <;> rw [h3] at h4 <;> cases h4
    · cases hc : (d.heap.cell e).endTag with
      | none => rfl
      | some e' =>
        have := (ge.down e e' h2 hc).2.2.2.2.2
        rw [h3] at this; cases this

/-- The nodes below a node of a parsed document begin nowhere before it. -/
theorem parse_subtree {s : Str} {o : ParseOptions} {d : Doc} (h : Doc.parse s o = .ok d) (i : NodeId)
    (hi : InDoc d.heap d.root i ∨ ∃ t, InDoc d.heap d.root t ∧ (d.heap.cell t).endTag = some i) :
    i < d.heap.size ∧ ∃ t, d.heap.toTree? d.heap.size i = some t ∧ allNodes (startsAt (d.heap.cell i).beginAt) t := by
  obtain ⟨hr, h0, ht0, g, ge, ho⟩ := parse_graph h
  have hp := parse_pos h
  have hil : i < d.heap.size := by
    rcases hi with hi | ⟨t, ht, he⟩
    · rw [hr] at hi; exact (g.inDoc_lt h0 hi).2
    · rw [hr] at ht; exact (ge.down t i (g.inDoc_lt h0 ht).2 he).2.1
  refine ⟨hil, ?_⟩
  by_cases hty : (d.heap.cell i).nodeType = .tagEnd
  · -- an end tag is a leaf
    have hc : (d.heap.cell i).childs = none ∧ (d.heap.cell i).endTag = none := by
      constructor
      · cases hc : (d.heap.cell i).childs with
        | none => rfl
        | some ids => rcases g.inner i hil (by rw [hc]; simp) with h4 | h4 <;> rw [hty] at h4 <;> cases h4
      · cases hc : (d.heap.cell i).endTag with
        | none => rfl
        | some e' =>
          have := (ge.down i e' hil hc).2.2.2.2.2
          rw [hty] at this; cases this
    refine ⟨.mk (d.heap.cell i).toNodeD none none, ?_, ?_⟩
    · obtain ⟨n, hn⟩ : ∃ n, d.heap.size = n + 1 := ⟨d.heap.size - 1, by omega⟩
      rw [hn]
      unfold Heap.toTree?
      simp only [hc.1, hc.2, Option.map_none]
    · simp only [allNodes]
      exact ⟨⟨Nat.le_refl _, (hp.span i hil).1⟩, fun x hx => by cases hx⟩
  · have hge : ∀ x, i ≤ x → x < d.heap.size → (d.heap.cell i).beginAt ≤ (d.heap.cell x).beginAt := by
      intro x h1 h2
      rcases Nat.lt_or_ge i x with h3 | h3
      · rcases Nat.eq_zero_or_pos i with h4 | h4
        · rw [h4, hp.root]; exact Nat.zero_le _
        · rcases hp.incr i x h4 h3 h2 hty with h5 | h5
          · exact Nat.le_of_lt h5
          · exact h5.2
      · have : i = x := by omega
        rw [this]; exact Nat.le_refl _
    have hst : ∀ x, i ≤ x → x < d.heap.size → startsAt (d.heap.cell i).beginAt (d.heap.cell x).toNodeD :=
      fun x h1 h2 => ⟨hge x h1 h2, Nat.le_trans (hge x h1 h2) (hp.span x h2).1⟩
    refine toTree_from g _ i hst ?_ d.heap.size i (Nat.le_refl _) hil (by omega)
    intro x e h1 h2 h3
    have := ge.down x e h2 h3
    exact hst e (by omega) this.2.1

/-- **C38**: cloning any node or end tag of a parsed document succeeds (no position underflows), gives nodes that were
not there before and leaves every old node as it was. -/
theorem c38_clone_total {s : Str} {o : ParseOptions} {d : Doc} (h : Doc.parse s o = .ok d) (i : NodeId)
    (hi : InDoc d.heap d.root i ∨ ∃ t, InDoc d.heap d.root t ∧ (d.heap.cell t).endTag = some i) :
    ∃ t h' i', d.heap.toTree? d.heap.size i = some t ∧ d.heap.cloneNode (d.heap.size + 1) i = some (h', i') ∧
      (∀ j, j < d.heap.size → h'.cell j = d.heap.cell j) ∧
      (∀ x, InDoc h' i' x → d.heap.size ≤ x ∧ x < h'.size) ∧
      (∀ x e, InDoc h' i' x → (h'.cell x).endTag = some e → d.heap.size ≤ e ∧ e < h'.size) ∧
      h'.toTree? h'.size i' = some (rebase (d.heap.cell i).beginAt 0 t) ∧
      (∀ lib o it, build lib (rebase (d.heap.cell i).beginAt 0 t) o it = build lib t o it) := by
  have hl := parse_linked h
  obtain ⟨hil, t, ht, hall⟩ := parse_subtree h i hi
  obtain ⟨h', i', c1, c2, c3, c4, c5, c6, _⟩ := c37_clone hl hil ht hall
  exact ⟨t, h', i', ht, c1, c2, c3, c4, c5, c6⟩

/-- A clone of the second element of a sample: old size, new root, and the spans and indices of the copy. -/
def Spec.cloneSample (s : String) (i : NodeId) : Option (Nat × NodeId × List (Nat × Nat × Nat)) :=
  match Doc.parse s.toList {} with
  | .ok d =>
    match d.heap.cloneNode (d.heap.size + 1) i with
    | some (h, j) => some (d.heap.size, j, (List.range (h.size - d.heap.size)).map fun k =>
        ((h.cell (d.heap.size + k)).beginAt, (h.cell (d.heap.size + k)).endAt, (h.cell (d.heap.size + k)).index))
    | none => none
  | _ => none

/-- The hypotheses are met by a nested element that does not start at 0 and has two children. -/
example : cloneSample "<a>x</a><p>b<i>c</i></p>" 4 =
    some (10, 11, [(12, 16, 0), (0, 0, 0), (3, 4, 0), (8, 12, 0), (4, 4, 1), (7, 8, 0)]) := by decide +kernel

/-- Outside of parsed documents the subtraction of positions can fail, as in a node moved into a later one. -/
example : ({ size := 2, cell := fun i => if i = 0 then { nodeType := .tag, beginAt := 5, endAt := 5, childs := some [1] } else { nodeType := .text } } : Heap).cloneNode 3 0
    = none := by rfl

end Rphtml
