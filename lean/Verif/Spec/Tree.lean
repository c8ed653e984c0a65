import Verif.Model.Node
import Verif.Spec.Text

/-!
# Specification vocabulary for trees

Tree transformations and tree predicates, written without any of the rendering code.
-/

namespace Rphtml
open Spec

/-- Simultaneous induction over trees and child lists. -/
theorem Tree.induct {P : Tree → Prop} {Q : List Tree → Prop}
    (leaf : ∀ d e, P (.mk d e none)) (node : ∀ d e ts, Q ts → P (.mk d e (some ts)))
    (nil : Q []) (cons : ∀ t ts, P t → Q ts → Q (t :: ts)) : (∀ t, P t) ∧ (∀ ts, Q ts) := by
  have h : ∀ t, P t := fun t =>
    Tree.rec (motive_1 := P) (motive_2 := fun o => ∀ ts, o = some ts → Q ts) (motive_3 := Q)
      (fun d e o ho => by
        cases o with
        | none => exact leaf d e
        | some ts => exact node d e ts (ho ts rfl))
      (fun ts h => by cases h)
      (fun ts h ts' he => by cases he; exact h)
      nil (fun t ts ht hts => cons t ts ht hts) t
  refine ⟨h, fun ts => ?_⟩
  induction ts with
  | nil => exact nil
  | cons t ts ih => exact cons t ts (h t) ih

namespace Spec

mutual
/-- Apply `f` to the data of every node and of every end tag. -/
def mapTree (f : NodeD → NodeD) : Tree → Tree
  | .mk d e none => .mk (f d) (e.map f) none
  | .mk d e (some ts) => .mk (f d) (e.map f) (some (mapForest f ts))

def mapForest (f : NodeD → NodeD) : List Tree → List Tree
  | [] => []
  | t :: ts => mapTree f t :: mapForest f ts
end

mutual
/-- Every node and every end tag satisfies `p`. -/
def allNodes (p : NodeD → Prop) : Tree → Prop
  | .mk d e none => p d ∧ (∀ x, e = some x → p x)
  | .mk d e (some ts) => p d ∧ (∀ x, e = some x → p x) ∧ allForest p ts

def allForest (p : NodeD → Prop) : List Tree → Prop
  | [] => True
  | t :: ts => allNodes p t ∧ allForest p ts
end

mutual
/-- Delete every child for which `p` holds, with everything below it. -/
def pruneTree (p : NodeD → Bool) : Tree → Tree
  | .mk d e none => .mk d e none
  | .mk d e (some ts) => .mk d e (some (pruneForest p ts))

def pruneForest (p : NodeD → Bool) : List Tree → List Tree
  | [] => []
  | t :: ts => if p t.data then pruneForest p ts else pruneTree p t :: pruneForest p ts
end

mutual
/-- Every node for which `p` holds is a leaf without end tag. -/
def leafOnly (p : NodeD → Bool) : Tree → Prop
  | .mk d e none => (p d = true → e = none) ∧ (∀ x, e = some x → p x = false)
  | .mk d e (some ts) =>
    (p d = true → e = none ∧ ts = []) ∧ (∀ x, e = some x → p x = false) ∧ leafOnlyForest p ts

def leafOnlyForest (p : NodeD → Bool) : List Tree → Prop
  | [] => True
  | t :: ts => leafOnly p t ∧ leafOnlyForest p ts
end

/-- What a node must carry so that it can be printed at all. -/
def printable (n : NodeD) : Prop :=
  match n.nodeType with
  | .text | .spacesBetweenTag | .tagEnd => n.content ≠ none
  | .tag | .htmlDoctype => n.tmeta ≠ none
  | .comment | .xmlCdata | .abstractRoot => True

/-- Lowercase the names of start and end tags. -/
def lowerNames (n : NodeD) : NodeD :=
  match n.nodeType with
  | .tag => { n with tmeta := n.tmeta.map fun m => { m with name := fold m.name } }
  | .tagEnd => { n with content := n.content.map fold }
  | _ => n

/-- Trim the names of end tags. -/
def trimEndNames (n : NodeD) : NodeD :=
  match n.nodeType with
  | .tagEnd => { n with content := n.content.map trimEnd }
  | _ => n

/-- Mark the tag nodes that have been repaired by `auto_fix_unclosed_tag` as self-closed. -/
def closeFixed (n : NodeD) : NodeD :=
  match n.nodeType with
  | .tag => { n with tmeta := n.tmeta.map fun m => { m with selfClosed := m.selfClosed || m.autoFix } }
  | _ => n

end Spec
end Rphtml
