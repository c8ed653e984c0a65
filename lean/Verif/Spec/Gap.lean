import Verif.Spec.Doc
import Verif.Spec.DocOf

/-!
# Documents with a gap
-/

namespace Rphtml.Spec

/-- A document with a gap at one place, at any depth, between any nodes. -/
inductive Gap where
  | here (l r : List PNode)
  | inside (l : List PNode) (name : Str) (attrs : List Attr) (selfClosed : Bool) (content : Option Str) (g : Gap)
      (endName : Option Str) (r : List PNode)

/-- Put a node into the gap. -/
def Gap.put (p : PNode) : Gap → List PNode
  | .here l r => l ++ p :: r
  | .inside l n as s ct g e r => l ++ .elem n as s ct (g.put p) e :: r

/-- The text is read without complaint, and it ends between two pieces of markup or in a text: the next character is handled
by `parse_wait` or `parse_text`. -/
def outside (s : Str) (o : ParseOptions) : Bool :=
  match (Doc.new o).run s s with
  | .ok d => d.handle = .wait ∨ d.handle = .text
  | _ => false

end Rphtml.Spec
