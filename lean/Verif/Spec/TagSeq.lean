import Verif.Spec.Wf

/-!
# The tags of a document, in order
-/

namespace Rphtml.Spec

/-- A tag. -/
inductive TagEv where
  | start (name : Str)
  | selfClosed (name : Str)
  | close (name : Str)
deriving DecidableEq

/-- The end tag of an element. -/
def closeEv : Option Str → List TagEv
  | some e => [.close e]
  | none => []

mutual
/-- The tags of a node in the order of the text. -/
def tagsOf : PNode → List TagEv
  | .elem n _ s _ ks e => (if s then .selfClosed n else .start n) :: (tagsOfs ks ++ closeEv e)
  | _ => []

/-- The tags of a list of nodes. -/
def tagsOfs : List PNode → List TagEv
  | [] => []
  | p :: ps => tagsOf p ++ tagsOfs ps
end

/-- The foreign element `m` has been started, and no end tag spelled like its start tag has followed. -/
def foreignOpen (before : List TagEv) (m : Str) : Prop :=
  isForeign m ∧ ∃ a b, before = a ++ .start m :: b ∧ ∀ e, .close e ∈ b → trimEnd e ≠ m

end Rphtml.Spec
