import Verif.Spec.Gap

/-!
# The open elements
-/

namespace Rphtml.Spec

/-- The names of the elements that are open after a text, innermost first (everything on `chain_nodes` but the document
itself).  `c21_unclosed` shows that their end tags are what completes the text. -/
def openNames (s : Str) (o : ParseOptions) : List Str :=
  match (Doc.new o).run s s with
  | .ok d => d.chain.dropLast.map fun i => ((d.heap.cell i).tmeta.getD {}).name
  | _ => []

/-- End tags with these names. -/
def endTags (ns : List Str) : Str := ns.flatMap fun n => ['<', '/'] ++ n ++ ['>']

/-- The text is read, and what was read last is an element that can have no children and was not self-closed: the current
node is a tag, but not the innermost open one. -/
def afterHollow (s : Str) (o : ParseOptions) : Bool :=
  match (Doc.new o).run s s with
  | .ok d => d.handle = .wait ∧ d.cur.nodeType = .tag ∧ (d.cur.tmeta.getD {}).selfClosed = false ∧ d.chain.head? ≠ some d.current
  | _ => false

/-- The text is read, and the document has not been closed (a self-closed doctype at its top level does that). -/
def notClosed (s : Str) (o : ParseOptions) : Bool :=
  match (Doc.new o).run s s with
  | .ok d => !d.chain.isEmpty
  | _ => false

end Rphtml.Spec
