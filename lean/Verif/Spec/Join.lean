import Verif.Spec.Doc

/-!
# Documents up to the splitting of texts
-/

namespace Rphtml.Spec

/-- Put a node before others; two texts become one. -/
def glue : PNode → List PNode → List PNode
  | .text w, .text v :: ps => .text (w ++ v) :: ps
  | p, ps => p :: ps

mutual
/-- Join neighbouring texts below a node. -/
def joinNode : PNode → PNode
  | .elem n as s ct ks e => .elem n as s ct (joinTexts ks) e
  | p => p

/-- Join neighbouring texts, at every depth. -/
def joinTexts : List PNode → List PNode
  | [] => []
  | p :: ps => glue (joinNode p) (joinTexts ps)
end

example : joinTexts [.text ['a'], .text ['b'], .elem ['p'] [] false none [.text ['c'], .text ['d']] none, .text ['e']] =
    [.text ['a', 'b'], .elem ['p'] [] false none [.text ['c', 'd']] none, .text ['e']] := by decide

end Rphtml.Spec
