import Verif.Model.Node

/-! # Copies of a tree (spec) -/

namespace Rphtml.Spec

/-- Positions count from `r`, the index among the siblings is `k`, all else stays. -/
def shift (r k : Nat) (n : NodeD) : NodeD := { n with beginAt := n.beginAt - r, endAt := n.endAt - r, index := k }

mutual
/-- The tree with all positions counted from `r`.  The root and the end tags get index 0 or the given one, inner nodes
keep theirs. -/
def rebase (r k : Nat) : Tree → Tree
  | .mk d e none => .mk (shift r k d) (e.map (shift r 0)) none
  | .mk d e (some ts) => .mk (shift r k d) (e.map (shift r 0)) (some (rebases r ts))

def rebases (r : Nat) : List Tree → List Tree
  | [] => []
  | t :: ts => rebase r t.data.index t :: rebases r ts
end

/-- No position lies before `r`. -/
def startsAt (r : Nat) (n : NodeD) : Prop := r ≤ n.beginAt ∧ r ≤ n.endAt

/-- Every link leads to a node of the heap, and end tags have neither children nor end tags. -/
structure Linked (h : Heap) : Prop where
  childs : ∀ p ids x, p < h.size → (h.cell p).childs = some ids → x ∈ ids → x < h.size
  ends : ∀ p e, p < h.size → (h.cell p).endTag = some e → e < h.size ∧ (h.cell e).childs = none ∧ (h.cell e).endTag = none

end Rphtml.Spec
