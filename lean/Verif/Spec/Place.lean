import Verif.Spec.Doc
import Verif.Spec.Wf

/-!
# Places in a document
-/

namespace Rphtml.Spec

/-- `At anc ks ps`: in the document `ps`, `ks` are all the children of an element; `anc` are the names of that element
and of those around it, innermost first.  (No names: `ks` is the document itself.) -/
inductive At : List Str → List PNode → List PNode → Prop
  | root {ps : List PNode} : At [] ps ps
  | child {anc : List Str} {ks ps : List PNode} {n : Str} {as : List Attr} {s : Bool} {ct : Option Str} {ks' : List PNode}
      {e : Option Str} (h : At anc ks ps) (hp : .elem n as s ct ks' e ∈ ks) : At (n :: anc) ks' ps

/-- The lists of siblings of a document. -/
def Siblings (ks ps : List PNode) : Prop := ∃ anc, At anc ks ps

/-- A node of a document, at any depth. -/
def Occurs (p : PNode) (ps : List PNode) : Prop := ∃ ks, Siblings ks ps ∧ p ∈ ks

end Rphtml.Spec
