import Verif.Model.Parser

/-!
# Specification vocabulary for the node graph

What a user sees who only follows the `childs` links.
-/

namespace Rphtml.Spec

/-- The nodes of a document: everything reachable from `r` through `childs`. -/
inductive InDoc (h : Heap) (r : NodeId) : NodeId → Prop where
  | root : InDoc h r r
  | child {p x : NodeId} {ids : List NodeId} (hp : InDoc h r p) (hc : (h.cell p).childs = some ids) (hx : x ∈ ids) :
      InDoc h r x

/-- `x` is the `k`-th entry of the `childs` list of `p`. -/
def childAt (h : Heap) (p : NodeId) (k : Nat) (x : NodeId) : Prop :=
  ∃ ids, (h.cell p).childs = some ids ∧ ids[k]? = some x

/-- The ids met by a depth first traversal from `i`, in order; `none` if it does not finish within `fuel` levels. -/
def preorder (h : Heap) : Nat → NodeId → Option (List NodeId)
  | 0, _ => none
  | fuel + 1, i =>
    match (h.cell i).childs with
    | none => some [i]
    | some ids => (ids.mapM (preorder h fuel)).map fun ls => i :: ls.flatten

end Rphtml.Spec
