import Verif.Spec.Tree
import Verif.Spec.Wf

/-!
# Attributes without quotes
-/

namespace Rphtml.Spec

/-- The attribute without its quotes, unless they are marked as necessary. -/
def unquoteAttr (a : Attr) : Attr := if a.needQuote then a else { a with quote := none }

/-- Drop the quotes of the attributes of a node. -/
def dropQuotes (n : NodeD) : NodeD :=
  match n.nodeType with
  | .tag | .htmlDoctype => { n with tmeta := n.tmeta.map fun m => { m with attrs := m.attrs.map unquoteAttr } }
  | _ => n

mutual
/-- Drop the quotes of all attributes of a document node. -/
def unquoteNode : PNode → PNode
  | .doctype n as s => .doctype n (as.map unquoteAttr) s
  | .elem n as s ct ks e => .elem n (as.map unquoteAttr) s ct (unquoteNodes ks) e
  | p => p

/-- The same for a list of nodes. -/
def unquoteNodes : List PNode → List PNode
  | [] => []
  | p :: ps => unquoteNode p :: unquoteNodes ps
end

/-- The value of the attribute does not need quotes: it has a name, and its value, if quoted, is not empty, contains no
whitespace and no `>`, and does not begin with a quote or a slash. -/
def quotesOptional (a : Attr) : Prop := a.quote ≠ none → a.key ≠ none ∧ ∀ v, a.value = some v → plainValue v

mutual
/-- No attribute of the node needs its quotes. -/
def optionalNode : PNode → Prop
  | .doctype _ as _ => ∀ a ∈ as, quotesOptional a
  | .elem _ as _ _ ks _ => (∀ a ∈ as, quotesOptional a) ∧ optionalNodes ks
  | _ => True

/-- The same for a list of nodes. -/
def optionalNodes : List PNode → Prop
  | [] => True
  | p :: ps => optionalNode p ∧ optionalNodes ps
end

end Rphtml.Spec
