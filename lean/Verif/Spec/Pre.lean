import Verif.Spec.Doc
import Verif.Spec.Tree

/-!
# Preformatted text
-/

namespace Rphtml.Spec

/-- Every whitespace character that follows another one is dropped. -/
def collapse (s : Str) : Str :=
  ((s.zip (none :: s.map some)).filter fun x => !(x.1 ∈ ws && x.2.any (· ∈ ws))).map Prod.fst

example : collapse " a \t\n b  ".toList = " a b ".toList := by decide

/-- A name of the element `pre`. -/
def isPre (n : Str) : Prop := sameName n ['p', 'r', 'e']

instance (n : Str) : Decidable (isPre n) := inferInstanceAs (Decidable (sameName _ _))

/-- A text node with its whitespace collapsed; a whitespace-only node with nothing left. -/
def squeeze (n : NodeD) : NodeD :=
  match n.nodeType with
  | .text => { n with content := n.content.map collapse }
  | .spacesBetweenTag => { n with content := some [] }
  | _ => n

/-- The start tag of a `pre` element. -/
def startsPre (n : NodeD) : Bool := n.nodeType = .tag ∧ isPre (n.tmeta.getD {}).name

mutual
/-- Collapse the whitespace of all texts that are not below a `pre` element. -/
def squeezeTree (inPre : Bool) : Tree → Tree
  | .mk d e none => .mk (if inPre then d else squeeze d) e none
  | .mk d e (some ts) => .mk (if inPre then d else squeeze d) e (some (squeezeForest (inPre || startsPre d) ts))

/-- The same for a list of trees. -/
def squeezeForest (inPre : Bool) : List Tree → List Tree
  | [] => []
  | t :: ts => squeezeTree inPre t :: squeezeForest inPre ts
end

mutual
/-- Every `pre` element has its own end tag, no other element has one named `pre`, and `pre` elements are not nested. -/
def preScoped (inPre : Bool) : PNode → Prop
  | .elem n _ _ _ ks e =>
    if isPre n then inPre = false ∧ (∃ e', e = some e' ∧ isPre (trimEnd e')) ∧ preScopeds true ks
    else (∀ e', e = some e' → ¬ isPre (trimEnd e')) ∧ preScopeds inPre ks
  | _ => True

/-- The same for a list of nodes. -/
def preScopeds (inPre : Bool) : List PNode → Prop
  | [] => True
  | p :: ps => preScoped inPre p ∧ preScopeds inPre ps
end

mutual
/-- `pre` elements are neither nested nor self-closed. -/
def preApart (inPre : Bool) : PNode → Prop
  | .elem n _ s _ ks _ => if isPre n then inPre = false ∧ s = false ∧ preAparts true ks else preAparts inPre ks
  | _ => True

/-- The same for a list of nodes. -/
def preAparts (inPre : Bool) : List PNode → Prop
  | [] => True
  | p :: ps => preApart inPre p ∧ preAparts inPre ps
end

end Rphtml.Spec
