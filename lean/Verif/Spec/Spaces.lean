import Verif.Model.Node

/-!
# Which whitespace-only text is not "spaces between tags"
-/

namespace Rphtml.Spec

/-- The text node `x` is the only content of an element `t` that has an end tag, and either the next sibling of `t` is
again a text, or `t` is the last node of the document. -/
def KeptSpace (h : Heap) (x : NodeId) : Prop :=
  ∃ t, t < h.size ∧ (h.cell t).childs = some [x] ∧ (h.cell t).endTag ≠ none ∧
    ((∃ q l y r, q < h.size ∧ (h.cell q).childs = some (l ++ t :: y :: r) ∧
        ((h.cell y).nodeType = .text ∨ (h.cell y).nodeType = .spacesBetweenTag)) ∨
      (∃ l, (h.cell 0).childs = some (l ++ [t])))

end Rphtml.Spec
