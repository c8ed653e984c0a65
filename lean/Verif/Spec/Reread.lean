import Verif.Spec.Linear
import Verif.Spec.Join
import Verif.Spec.Quote
import Verif.Spec.Place
import Verif.Model.Render

/-!
# What the rendering options do to a document
-/

namespace Rphtml.Spec

mutual
/-- Collapse the texts of a tree that do not come after an open `pre`, where `before` is what comes before the tree. -/
def squeezeAt (before : List NodeD) : Tree → Tree
  | .mk d e none => .mk (if openPre before then d else squeeze d) e none
  | .mk d e (some ts) => .mk (if openPre before then d else squeeze d) e (some (squeezeAts (before ++ [d]) ts))

/-- The same for a list of trees. -/
def squeezeAts (before : List NodeD) : List Tree → List Tree
  | [] => []
  | t :: ts => squeezeAt before t :: squeezeAts (before ++ linear t) ts
end

mutual
/-- Change the names of start tags by `f` and those of end tags by `g`. -/
def renameNode (f g : Str → Str) : PNode → PNode
  | .elem n as s ct ks e => .elem (f n) as s ct (renameNodes f g ks) (e.map g)
  | p => p

/-- The same for a list of nodes. -/
def renameNodes (f g : Str → Str) : List PNode → List PNode
  | [] => []
  | p :: ps => renameNode f g p :: renameNodes f g ps
end

mutual
/-- Remove the nodes below a node for which `q` holds. -/
def withoutNode (q : PNode → Bool) : PNode → PNode
  | .elem n as s ct ks e => .elem n as s ct (withoutNodes q ks) e
  | p => p

/-- Remove the nodes for which `q` holds, at every depth. -/
def withoutNodes (q : PNode → Bool) : List PNode → List PNode
  | [] => []
  | p :: ps => if q p then withoutNodes q ps else withoutNode q p :: withoutNodes q ps
end

/-- A comment. -/
def isNote : PNode → Bool
  | .comment _ => true
  | _ => false

/-- A text without characters. -/
def isEmptyText : PNode → Bool
  | .text [] => true
  | _ => false

/-- Remove empty texts and join neighbouring ones. -/
def tidyTexts (ps : List PNode) : List PNode := joinTexts (withoutNodes isEmptyText ps)

/-- The document that a rendering of the tree with these options stands for. -/
def rendered (ro : RenderOptions) (t : Tree) : List PNode :=
  let ps := if ro.minifySpaces then Tree.pnodes (squeezeAts [] t.kids) else t.doc
  let ps := if ro.removeAttrQuote then unquoteNodes ps else ps
  let ps := if ro.lowercaseTagname then renameNodes fold fold ps else ps
  let ps := if ro.removeEndtagSpace then renameNodes id trimEnd ps else ps
  let ps := if ro.removeComment then withoutNodes isNote ps else ps
  tidyTexts ps

/-- Lower-casing the tag names does not change how the document is read: names and end tags of svg and math elements are
lower-case already, and so are those of raw-text elements if names are case-sensitive. -/
def lowerSafe (o : ParseOptions) (ps : List PNode) : Prop :=
  ∀ n as s ct ks e, Occurs (.elem n as s ct ks e) ps →
    (isForeign n ∨ (o.caseSensitiveTagname = true ∧ isRaw n) → fold n = n) ∧
    ∀ e', e = some e' → isForeign (trimEnd e') → fold (trimEnd e') = trimEnd e'

end Rphtml.Spec
