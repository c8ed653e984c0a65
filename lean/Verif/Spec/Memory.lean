import Verif.Model.Parser

/-!
# Specification: reference counting

Nodes are `Rc<RefCell<Node>>` (parser.rs:410).  The strong references between nodes are the `childs` and the `end_tag`
(parser.rs:446, 464); `prev`, `parent` and `root` are weak (parser.rs:449-455).  The arena of the model never frees a cell.
This file says, for a heap and a set of handles held from outside (variables and the fields of `Doc`), what reference
counting frees.
-/

namespace Rphtml.Spec

/-- The node `a` has a strong reference to the node `b`. -/
def Holds (h : Heap) (a b : NodeId) : Prop :=
  (∃ ids, (h.cell a).childs = some ids ∧ b ∈ ids) ∨ (h.cell a).endTag = some b

/-- `b` can be reached from `a` through strong references. -/
inductive Reaches (h : Heap) (a : NodeId) : NodeId → Prop where
  | self : Reaches h a a
  | step {b c : NodeId} : Reaches h a b → Holds h b c → Reaches h a c

/-- Nobody has a strong reference to `x`: it is not `held` from outside, and no node that is still `alive` holds it. -/
def Unused (h : Heap) (held alive : NodeId → Prop) (x : NodeId) : Prop := ¬ held x ∧ ∀ a, alive a → ¬ Holds h a x

/-- Nodes that nobody has a reference to are freed, one after the other, in any order: `Frees h held A B` if the nodes `A`
were alive and the nodes `B` still are. -/
inductive Frees (h : Heap) (held : NodeId → Prop) (A : NodeId → Prop) : (NodeId → Prop) → Prop where
  | start : Frees h held A A
  | free {B : NodeId → Prop} {x : NodeId} (hB : Frees h held A B) (hx : B x) (hu : Unused h held B x) :
      Frees h held A (fun y => B y ∧ y ≠ x)

/-- Nothing is left to free. -/
def Settled (h : Heap) (held alive : NodeId → Prop) : Prop := ∀ x, alive x → ¬ Unused h held alive x

end Rphtml.Spec
