import Verif.Spec.Memory

/-! # Chains of nodes (spec) -/

namespace Rphtml.Spec

/-- The node `b` is a child of the node `a`. -/
def Child (h : Heap) (a b : NodeId) : Prop := ∃ ids, (h.cell a).childs = some ids ∧ b ∈ ids

/-- There are `n` nodes, the first one `a`, each related to the next. -/
inductive Chain (R : NodeId → NodeId → Prop) : NodeId → Nat → Prop where
  | one (a : NodeId) : Chain R a 1
  | more {a b : NodeId} {n : Nat} : R a b → Chain R b n → Chain R a (n + 1)

end Rphtml.Spec
