import Verif.Spec.Wf

/-!
# Inserting a node into a document
-/

namespace Rphtml.Spec

/-- `Inserted p ctx' par' ctx par ps ps'`: `ps'` is `ps` with the node `p` inserted somewhere, below the element `par'` and
inside the foreign element `ctx'`, where it joins no texts.  (`ctx` and `par` are the same for the beginning of `ps`.) -/
inductive Inserted (p : PNode) (ctx' par' : Option Str) : Option Str → Option Str → List PNode → List PNode → Prop
  | here {ctx par : Option Str} {l r : List PNode} (hc : ctxNodes ctx l = ctx') (hp : par = par')
      (h1 : isText p = true → (∀ a, l.getLast? = some a → isText a = false) ∧ ∀ b, r.head? = some b → isText b = false)
      (h2 : ∀ a b, l.getLast? = some a → r.head? = some b → isText a = true → isText b = false) :
      Inserted p ctx' par' ctx par (l ++ r) (l ++ p :: r)
  | down {ctx par : Option Str} {l r : List PNode} {n : Str} {as : List Attr} {ct : Option Str} {ks ks' : List PNode} {e : Option Str}
      (h : Inserted p ctx' par' (enter (ctxNodes ctx l) n) (some n) ks ks') :
      Inserted p ctx' par' ctx par (l ++ .elem n as false ct ks e :: r) (l ++ .elem n as false ct ks' e :: r)

/-- The node types that a node can have. -/
def hasKind : PNode → NodeType → Prop
  | .text _, t => t = .text ∨ t = .spacesBetweenTag
  | .comment _, t => t = .comment
  | .cdata _, t => t = .xmlCdata
  | .doctype .., t => t = .htmlDoctype
  | .elem .., t => t = .tag

end Rphtml.Spec
