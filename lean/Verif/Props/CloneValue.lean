import Verif.Proofs.CloneValue

/-!
# C50: cloning a node by value

`impl Clone for Node` moves the copy out of its reference-counted cell.
-/

namespace Rphtml
open Spec

/-- **Cloning any node of a parsed document by value succeeds** and gives the same tree as `clone_node`, which shares nothing
with the document.  The links among the copies are right, except that **the children of the copy have lost their parent**. -/
theorem c50_clone_value {s : Str} {o : ParseOptions} {d : Doc} (h : Doc.parse s o = .ok d) (i : NodeId)
    (hi : InDoc d.heap d.root i ∨ ∃ t, InDoc d.heap d.root t ∧ (d.heap.cell t).endTag = some i) :
    ∃ t h' f, d.heap.toTree? d.heap.size i = some t ∧ d.heap.cloneValue (d.heap.size + 1) i = some (h', f, h'.cell f) ∧
      h'.toTree? h'.size f = some (rebase (d.heap.cell i).beginAt 0 t) ∧
      (∀ j, j < d.heap.size → h'.cell j = d.heap.cell j) ∧
      (∀ j x, j < d.heap.size → InDoc h' f x → isSame j x = false) ∧
      (h'.cell f).parent = none ∧
      (∀ k x, childAt h' f k x → upgrade f (h'.cell x).parent = none) ∧
      (∀ p k x, InDoc h' f p → p ≠ f → childAt h' p k x → upgrade f (h'.cell x).parent = some p) ∧
      (∀ p k x y, InDoc h' f p → childAt h' p k x → (upgrade f (h'.cell x).prev = some y ↔ 0 < k ∧ childAt h' p (k - 1) y)) := by
  obtain ⟨hil, t, ht, hall⟩ := parse_subtree h i hi
  have hl := parse_linked h
  obtain ⟨h', f, c1, c2, c3⟩ := clone_built hl (d.heap.cell i).beginAt d.heap.size i t d.heap (Ext.refl _) hil ht hall
  obtain ⟨h'', f', e1, e2, e3, _, e5, _, e7, e8, _⟩ := c37_clone hl hil ht hall
  have e0 : d.heap.cloneNode (d.heap.size + 1) i = some (h', f) := c1
  rw [e0] at e1
  cases e1
  have hb := (built_bounds h').1 _ _ _ _ _ _ c3
  have hr := (built_refs h').1 _ _ _ _ _ _ c3
  have hz : h'.owners f = 0 := by
    apply owners_zero
    intro j hj
    rcases Nat.lt_or_ge j d.heap.size with hj' | hj'
    · rw [c2.2 j hj']
      constructor
      · intro hm
        cases hc : (d.heap.cell j).childs with
        | none => rw [hc] at hm; cases hm
        | some ids =>
          rw [hc] at hm
          have := hl.childs j ids f hj' hc hm
          omega
      · intro he
        have := (hl.ends j f hj' he).1
        omega
    · obtain ⟨k1, k2⟩ := hr j hj' hj
      exact ⟨fun hm => by have := (k1 f hm).1; omega, fun he => (k2 f he).2.2 rfl⟩
  have hno : ∀ p k x, InDoc h' f p → childAt h' p k x → x ≠ f := by
    rintro p k x hp ⟨ids, h1, h2⟩ rfl
    have h3 := e3 p hp
    obtain ⟨k1, _⟩ := hr p h3.1 h3.2
    have := (k1 x (by rw [h1]; exact List.mem_of_getElem? h2)).1
    omega
  refine ⟨t, h', f, ht, ?_, e5, c2.2, ?_, e8, ?_, ?_, ?_⟩
  · unfold Heap.cloneValue
    rw [e0]
    simp only [hz, if_true]
  · intro j x hj hx
    have := (e3 x hx).1
    simp only [isSame, beq_eq_false_iff_ne]
    omega
  · intro k x hc
    unfold upgrade
    rw [if_pos (e7 f k x InDoc.root hc).1]
  · intro p k x hp hpf hc
    unfold upgrade
    rw [(e7 p k x hp hc).1, if_neg (by simpa using hpf)]
  · intro p k x y hp hc
    have h1 := (e7 p k x hp hc).2
    unfold upgrade
    by_cases hf : (h'.cell x).prev = some f
    · obtain ⟨_, h2⟩ := (h1 f).1 hf
      exact absurd rfl (hno p _ f hp h2)
    · rw [if_neg hf]; exact h1 y

/-- The copy of the second paragraph and, for each of its nodes, the parent that can still be reached. -/
def Spec.cloneValueSample (s : String) (i : NodeId) : Option (NodeId × Option (List NodeId) × List (Option NodeId)) :=
  match Doc.parse s.toList {} with
  | .ok d =>
    match d.heap.cloneValue (d.heap.size + 1) i with
    | some (h, f, c) => some (f, c.childs, (List.range (h.size - d.heap.size)).map fun k => upgrade f (h.cell (d.heap.size + k)).parent)
    | none => none
  | _ => none

/-- The copy of `<p>` is node 11 with the children 12 and 14.  These have no parent; the text in `<i>` has. -/
example : cloneValueSample "<a>x</a><p>b<i>c</i></p>" 4 =
    some (11, some [12, 14], [none, none, none, none, none, some 14]) := by decide +kernel

/-- A node that is held as an end tag has an owner, so moving it out would fail. -/
example : ({ size := 1, cell := fun _ => { nodeType := .tag, endTag := some 0 } } : Heap).owners 0 = 1 := by decide +kernel

end Rphtml
