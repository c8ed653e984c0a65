import Verif.Spec.Wf
import Verif.Spec.Join

/-!
# Texts inside elements without children

`auto_fix_unescaped_lt` puts a text behind a void or raw-text element into that element.  `hoistNodes` takes such texts out
again.  The source text of the document stays the same where only void elements are emptied.
-/

namespace Rphtml.Spec

/-- Elements that are emptied: void elements and, if `raws`, raw-text elements. -/
def emptied (raws : Bool) (n : Str) (ct e : Option Str) : Prop :=
  (isVoid n ∧ ct = none ∧ e = none) ∨ (raws = true ∧ (isVoid n ∨ isRaw n))

instance (raws : Bool) (n : Str) (ct e : Option Str) : Decidable (emptied raws n ct e) := by unfold emptied; infer_instance

mutual
/-- Put the children of the emptied elements behind them. -/
def hoistNode (raws : Bool) : PNode → List PNode
  | .elem n as sc ct ks e =>
    if emptied raws n ct e then .elem n as sc ct [] e :: hoistNodes raws ks else [.elem n as sc ct (hoistNodes raws ks) e]
  | p => [p]

/-- The same for a list of nodes. -/
def hoistNodes (raws : Bool) : List PNode → List PNode
  | [] => []
  | p :: ps => hoistNode raws p ++ hoistNodes raws ps
end

/-- The document up to where texts stand: texts inside void and raw-text elements are put behind them, and neighbouring texts are
joined. -/
def loose (ps : List PNode) : List PNode := joinTexts (hoistNodes true ps)

example : hoistNodes false [.elem ['b', 'r'] [] false none [.text ['a']] none, .elem ['p'] [] false none [.text ['b']] (some ['p'])] =
    [.elem ['b', 'r'] [] false none [] none, .text ['a'], .elem ['p'] [] false none [.text ['b']] (some ['p'])] := by
  decide +kernel

example : loose [.elem ['b', 'r'] [] false none [.text ['a']] none, .text ['b']] = [.elem ['b', 'r'] [] false none [] none, .text ['a', 'b']] := by
  decide +kernel

end Rphtml.Spec
