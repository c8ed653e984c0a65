import Verif.Spec.Wf

/-!
# Changing a node of a document
-/

namespace Rphtml.Spec

/-- `Replaced p p' ctx' par' ctx par ps ps'`: `ps'` is `ps` with `p'` in the place of one node `p`, which is below the element
`par'` and inside the foreign element `ctx'`.  (`ctx` and `par` are the same for the beginning of `ps`.)  A text is replaced
by a text, anything else by anything but a text. -/
inductive Replaced (p p' : PNode) (ctx' par' : Option Str) : Option Str → Option Str → List PNode → List PNode → Prop
  | here {ctx par : Option Str} {l r : List PNode} (hc : ctxNodes ctx l = ctx') (hp : par = par') (ht : isText p' = isText p) :
      Replaced p p' ctx' par' ctx par (l ++ p :: r) (l ++ p' :: r)
  | down {ctx par : Option Str} {l r : List PNode} {n : Str} {as : List Attr} {s : Bool} {ct : Option Str} {ks ks' : List PNode} {e : Option Str}
      (h : Replaced p p' ctx' par' (enter (ctxNodes ctx l) n) (some n) ks ks') :
      Replaced p p' ctx' par' ctx par (l ++ .elem n as s ct ks e :: r) (l ++ .elem n as s ct ks' e :: r)

end Rphtml.Spec
