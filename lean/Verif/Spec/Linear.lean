import Verif.Spec.Pre

/-!
# Documents as a sequence of tags and texts
-/

namespace Rphtml.Spec

mutual
/-- The nodes of a tree in document order; an end tag comes after the children of its element. -/
def linear : Tree → List NodeD
  | .mk d e none => d :: e.toList
  | .mk d e (some ts) => d :: (linears ts ++ e.toList)

/-- The same for a list of trees. -/
def linears : List Tree → List NodeD
  | [] => []
  | t :: ts => linear t ++ linears ts
end

/-- An end tag named `pre`. -/
def endsPre (n : NodeD) : Bool := n.nodeType = .tagEnd ∧ isPre (trimEnd (n.content.getD []))

/-- What has been written so far contains a `pre` start tag that no `pre` end tag follows. -/
def afterPre (before : List NodeD) : Prop :=
  ∃ a n b, before = a ++ n :: b ∧ startsPre n = true ∧ ∀ x ∈ b, endsPre x = false

/-- Is the last tag named `pre` in the sequence a start tag?  (`openPre_iff` says that this decides `afterPre`.) -/
def openPre : List NodeD → Bool
  | before => match before.reverse.find? fun n => startsPre n || endsPre n with
    | some n => startsPre n
    | none => false

/-- Collapse the texts that do not come after an open `pre`. -/
def squeezed (before : List NodeD) : List NodeD → List NodeD
  | [] => []
  | n :: ns => (if openPre before then n else squeeze n) :: squeezed (before ++ [n]) ns

end Rphtml.Spec
