import Verif.Props.Clone

/-!
# Cloning a node by value
-/

namespace Rphtml
open Spec

/-- The nodes a copy refers to lie behind its root, or are its end tag. -/
theorem built_refs (h : Heap) :
    (∀ t a b i par prv, built h a b i par prv t → ∀ j, a ≤ j → j < b →
      (∀ x ∈ (h.cell j).childs.getD [], i < x ∧ x < b) ∧ (∀ e, (h.cell j).endTag = some e → a ≤ e ∧ e < b ∧ e ≠ i)) ∧
    (∀ ts a b me prv ids, builts h a b me prv ids ts → (∀ x ∈ ids, a ≤ x ∧ x < b) ∧ ∀ j, a ≤ j → j < b →
      (∀ x ∈ (h.cell j).childs.getD [], a ≤ x ∧ x < b) ∧ (∀ e, (h.cell j).endTag = some e → a ≤ e ∧ e < b)) := by
  have hb := built_bounds h
  have hend : ∀ {a i e}, builtEnd h a i e → ∀ j, a ≤ j → j ≤ i →
      (j ≠ i → (h.cell j).childs = none) ∧ ∀ e', (h.cell j).endTag = some e' → a ≤ e' ∧ e' < i := by
    intro a i e g j h1 h2
    cases e with
    | none =>
      have := g.1
      have hj : j = i := by omega
      subst hj
      exact ⟨fun h => absurd rfl h, fun e' he => by rw [g.2] at he; cases he⟩
    | some x =>
      obtain ⟨g1, g2, _, g4, g5, _⟩ := g
      by_cases hj : j = i
      · subst hj
        refine ⟨fun h => absurd rfl h, fun e' he => ?_⟩
        rw [g2] at he; cases he; omega
      · have hj : j = a := by omega
        subst hj
        exact ⟨fun _ => g4, fun e' he => by rw [g5] at he; cases he⟩
  refine Tree.induct
    (P := fun t => ∀ a b i par prv, built h a b i par prv t → ∀ j, a ≤ j → j < b →
      (∀ x ∈ (h.cell j).childs.getD [], i < x ∧ x < b) ∧ (∀ e, (h.cell j).endTag = some e → a ≤ e ∧ e < b ∧ e ≠ i))
    (Q := fun ts => ∀ a b me prv ids, builts h a b me prv ids ts → (∀ x ∈ ids, a ≤ x ∧ x < b) ∧ ∀ j, a ≤ j → j < b →
      (∀ x ∈ (h.cell j).childs.getD [], a ≤ x ∧ x < b) ∧ (∀ e, (h.cell j).endTag = some e → a ≤ e ∧ e < b)) ?_ ?_ ?_ ?_
  · intro d e a b i par prv g j h1 h2
    have h0 := hb.1 _ _ _ _ _ _ g
    simp only [built] at g
    obtain ⟨_, _, _, g4, g5, g6⟩ := g
    obtain ⟨k1, k2⟩ := hend g4 j h1 (by omega)
    constructor
    · intro x hx
      have : (h.cell j).childs = none := by
        by_cases hj : j = i
        · rw [hj]; exact g5
        · exact k1 hj
      rw [this] at hx; cases hx
    · intro e' he
      have := k2 e' he
      omega
  · intro d e ts ih a b i par prv g j h1 h2
    have h0 := hb.1 _ _ _ _ _ _ g
    simp only [built] at g
    obtain ⟨_, _, _, g4, ids, g5, g6⟩ := g
    obtain ⟨k1, k2⟩ := ih _ _ _ _ _ g6
    by_cases hj : j ≤ i
    · obtain ⟨k3, k4⟩ := hend g4 j h1 hj
      constructor
      · intro x hx
        by_cases hji : j = i
        · rw [hji, g5] at hx
          have := k1 x hx
          omega
        · rw [k3 hji] at hx; cases hx
      · intro e' he
        have := k4 e' he
        omega
    · obtain ⟨k3, k4⟩ := k2 j (by omega) h2
      constructor
      · intro x hx
        have := k3 x hx
        omega
      · intro e' he
        have := k4 e' he
        omega
  · intro a b me prv ids g
    simp only [builts] at g
    obtain ⟨rfl, rfl⟩ := g
    exact ⟨by simp, fun j h1 h2 => by omega⟩
  · intro t ts iht ihts a b me prv ids g
    simp only [builts] at g
    obtain ⟨m, x, xs, rfl, g1, g2⟩ := g
    have b1 := hb.1 _ _ _ _ _ _ g1
    have b2 := hb.2 _ _ _ _ _ _ g2
    obtain ⟨k1, k2⟩ := ihts _ _ _ _ _ g2
    constructor
    · intro y hy
      rcases List.mem_cons.1 hy with rfl | hy
      · omega
      · have := k1 y hy; omega
    · intro j h1 h2
      by_cases hj : j < m
      · obtain ⟨k3, k4⟩ := iht _ _ _ _ _ g1 j h1 hj
        exact ⟨fun y hy => by have := k3 y hy; omega, fun e he => by have := k4 e he; omega⟩
      · obtain ⟨k3, k4⟩ := k2 j (by omega) h2
        exact ⟨fun y hy => by have := k3 y hy; omega, fun e he => by have := k4 e he; omega⟩

theorem owners_zero {h : Heap} {i : NodeId} (hc : ∀ j, j < h.size → i ∉ (h.cell j).childs.getD [] ∧ (h.cell j).endTag ≠ some i) :
    h.owners i = 0 := by
  have hs : ∀ l : List Nat, (∀ x ∈ l, x = 0) → l.sum = 0 := by
    intro l
    induction l with
    | nil => intro _; rfl
    | cons x l ih =>
      intro hl
      rw [List.sum_cons, hl x (by simp), ih fun y hy => hl y (by simp [hy])]
  unfold Heap.owners
  apply hs
  intro x hx
  obtain ⟨j, hj, rfl⟩ := List.mem_map.1 hx
  obtain ⟨h1, h2⟩ := hc j (List.mem_range.1 hj)
  rw [if_neg h2, List.count_eq_zero.2 h1]

end Rphtml
