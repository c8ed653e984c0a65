import Verif.Spec.Entity
import Verif.Spec.Linear
import Verif.Spec.Minified

/-!
# What the entity options do to a document
-/

namespace Rphtml.Spec

/-- A text cut at its references (`pieces_cut` says that this is the `Cut`). -/
def pieces : Str → List Piece
  | [] => []
  | c :: cs =>
    if c = '&' then
      match h : cutSemi cs with
      | none => [.rest cs]
      | some (e, r) =>
        have := cutSemi_length h
        .ref e :: pieces r
    else .char c :: pieces cs
termination_by s => s.length
decreasing_by all_goals simp_all <;> omega

/-- A text decoded, without the plain whitespace that follows plain whitespace. -/
def squeezeDecoded (one : Str → Option Char) (w : Str) : Str := ((flagged one (pieces w)).filter (·.2)).map Prod.fst

/-- What is written for a text; `pre`: it comes after an open `pre`. -/
def textOut (lib : EntityLib) (ro : RenderOptions) (pre : Bool) (w : Str) : Str :=
  if ro.minifySpaces = true ∧ pre = false then
    if ro.decodeEntity then squeezeDecoded lib.decodeOne w else collapse w
  else if ro.decodeEntity then lib.decodeAll w
  else w

/-- Every character that the codec has an entity for is replaced by it. -/
def encoded (lib : EntityLib) (w : Str) : Str := w.flatMap fun c => if lib.inHtmlSet c then (lib.encodeNamed c).getD [c] else [c]

/-- The elements whose content is text but not markup. -/
def isPlainRaw (n : Str) : Prop := sameName n ['t', 'i', 't', 'l', 'e'] ∨ sameName n ['t', 'e', 'x', 't', 'a', 'r', 'e', 'a']

instance (n : Str) : Decidable (isPlainRaw n) := by unfold isPlainRaw; infer_instance

/-- What `minify_spaces`, `decode_entity` and `encode_content` do to a node. -/
def recode (lib : EntityLib) (ro : RenderOptions) (pre : Bool) (n : NodeD) : NodeD :=
  match n.nodeType with
  | .text => { n with content := n.content.map (textOut lib ro pre) }
  | .spacesBetweenTag => if ro.minifySpaces = true ∧ pre = false then { n with content := some [] } else n
  | .tag => if ro.encodeContent = true ∧ isPlainRaw (n.tmeta.getD {}).name then { n with content := n.content.map (encoded lib) } else n
  | _ => n

mutual
/-- The same for a tree, where `before` is what comes before it. -/
def recodeAt (lib : EntityLib) (ro : RenderOptions) (before : List NodeD) : Tree → Tree
  | .mk d e none => .mk (recode lib ro (openPre before) d) e none
  | .mk d e (some ts) => .mk (recode lib ro (openPre before) d) e (some (recodeAts lib ro (before ++ [d]) ts))

/-- The same for a list of trees. -/
def recodeAts (lib : EntityLib) (ro : RenderOptions) (before : List NodeD) : List Tree → List Tree
  | [] => []
  | t :: ts => recodeAt lib ro before t :: recodeAts lib ro (before ++ linear t) ts
end

/-- The document of a tree with these changes. -/
def recodedDoc (lib : EntityLib) (ro : RenderOptions) (t : Tree) : List PNode := Tree.pnodes (recodeAts lib ro [] t.kids)

/-- The document that a rendering of the tree with these options stands for. -/
def writtenDoc (lib : EntityLib) (ro : RenderOptions) (t : Tree) : List PNode := tidyTexts (changed ro (recodedDoc lib ro t))

/-- The codec has an entity for `<`, and no entity contains a `<`. -/
def hidesLt (lib : EntityLib) : Prop :=
  lib.inHtmlSet '<' = true ∧ ∀ c, lib.inHtmlSet c = true → ∃ s, lib.encodeNamed c = some s ∧ '<' ∉ s

end Rphtml.Spec
