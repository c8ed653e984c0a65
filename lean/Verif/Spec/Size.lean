import Verif.Spec.Doc

/-!
# The nesting depth of a document
-/

namespace Rphtml.Spec

mutual
/-- How deep a node is: one for the node itself, and its children. -/
def depth : PNode → Nat
  | .elem _ _ _ _ ks _ => 1 + depths ks
  | _ => 1

/-- The depth of the deepest of some nodes. -/
def depths : List PNode → Nat
  | [] => 0
  | p :: ps => max (depth p) (depths ps)
end

end Rphtml.Spec
