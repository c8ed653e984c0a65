import Verif.Spec.Doc

/-!
# Unfinished documents as plain values
-/

namespace Rphtml

/-- An open element (or the document itself) with its finished children. -/
structure Frame where
  name : Str := []
  attrs : List Attr := []
  kids : List PNode := []

/-- Where the last text is: directly in the innermost open element, or (with `auto_fix_unescaped_lt`) in the last child of it. -/
inductive Place where
  | top
  | nested
deriving DecidableEq

/-- What a text would be added to, between two constructs. -/
inductive Last where
  /-- nothing: it begins a new text -/
  | other
  /-- the text at a place -/
  | text (p : Place)
  /-- a void or raw-text element, whose children `auto_fix_unescaped_lt` fills -/
  | hole
deriving DecidableEq

/-- Append text to a text node. -/
def PNode.addText (s : Str) : PNode → PNode
  | .text w => .text (w ++ s)
  | p => p

/-- Change the last element of a list. -/
def modLast {α : Type} (f : α → α) : List α → List α
  | [] => []
  | [a] => [f a]
  | a :: b :: as => a :: modLast f (b :: as)

/-- Change the children of an element. -/
def PNode.modKids (f : List PNode → List PNode) : PNode → PNode
  | .elem n a s ct ks e => .elem n a s ct (f ks) e
  | p => p

/-- Append text to the text node at a place. -/
def addTextAt (p : Place) (s : Str) (ks : List PNode) : List PNode :=
  match p with
  | .top => modLast (PNode.addText s) ks
  | .nested => modLast (PNode.modKids (modLast (PNode.addText s))) ks

end Rphtml
