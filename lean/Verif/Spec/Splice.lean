import Verif.Spec.Wf

/-!
# Inserting a fragment into a document
-/

namespace Rphtml.Spec

/-- `Spliced qs ctx' par' ctx par ps ps'`: `ps'` is `ps` with the nodes `qs` inserted somewhere, below the element `par'` and
inside the foreign element `ctx'`, where they join no texts.  (`ctx` and `par` are the same for the beginning of `ps`.) -/
inductive Spliced (qs : List PNode) (ctx' par' : Option Str) : Option Str → Option Str → List PNode → List PNode → Prop
  | here {ctx par : Option Str} {l r : List PNode} (hc : ctxNodes ctx l = ctx') (hp : par = par')
      (h1 : ∀ a b, l.getLast? = some a → qs.head? = some b → isText a = true → isText b = false)
      (h2 : ∀ a b, qs.getLast? = some a → r.head? = some b → isText a = true → isText b = false) :
      Spliced qs ctx' par' ctx par (l ++ r) (l ++ qs ++ r)
  | down {ctx par : Option Str} {l r : List PNode} {n : Str} {as : List Attr} {ct : Option Str} {ks ks' : List PNode} {e : Option Str}
      (h : Spliced qs ctx' par' (enter (ctxNodes ctx l) n) (some n) ks ks') :
      Spliced qs ctx' par' ctx par (l ++ .elem n as false ct ks e :: r) (l ++ .elem n as false ct ks' e :: r)

end Rphtml.Spec
