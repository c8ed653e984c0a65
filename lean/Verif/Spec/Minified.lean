import Verif.Spec.Reread

/-!
# The minified document

What `minify_spaces` and the other formatting options make of a document, as a plain value.
-/

namespace Rphtml.Spec

/-- Only whitespace. -/
def blank (w : Str) : Bool := w.all (· ∈ ws)

/-- The nodes begin with a text. -/
def textFirst : List PNode → Bool
  | .text _ :: _ => true
  | _ => false

mutual
/-- Is text that comes after the node preformatted, if text before it is (`pre`)? -/
def preAfter (pre : Bool) : PNode → Bool
  | .elem n _ _ _ ks e =>
    match e with
    | some e' => if isPre (trimEnd e') then false else preAfters (pre || isPre n) ks
    | none => preAfters (pre || isPre n) ks
  | _ => pre

/-- The same for a list of nodes. -/
def preAfters (pre : Bool) : List PNode → Bool
  | [] => pre
  | p :: ps => preAfters (preAfter pre p) ps
end

/-- A text: it stays if it is preformatted, disappears if it is blank and not to be kept, and is collapsed otherwise. -/
def minText (pre keep : Bool) (w : Str) : Str := if pre then w else if blank w && !keep then [] else collapse w

mutual
/-- A node; `keep` says that it is to be kept if it is a blank text, and `next` that a blank text is to be kept if it is the
only child of the node. -/
def minNode (pre keep next : Bool) : PNode → PNode
  | .text w => .text (minText pre keep w)
  | .elem n as s ct ks e => .elem n as s ct (minNodes (pre || isPre n) (next && e.isSome) false ks) e
  | p => p

/-- A list of nodes; `keep` is for a text that is alone, and `top` says that the document ends with the list.  The only child
of an element is kept if the element is followed by a text or ends the document. -/
def minNodes (pre keep top : Bool) : List PNode → List PNode
  | [] => []
  | p :: ps =>
    minNode pre (keep && ps.isEmpty) (textFirst ps || top && ps.isEmpty) p :: minNodes (preAfter pre p) false top ps
end

/-- The document with redundant whitespace removed. -/
def minDoc (ps : List PNode) : List PNode := minNodes false false true ps

/-- The changes that the options other than `minify_spaces` make. -/
def changed (ro : RenderOptions) (ps : List PNode) : List PNode :=
  let ps := if ro.removeAttrQuote then unquoteNodes ps else ps
  let ps := if ro.lowercaseTagname then renameNodes fold fold ps else ps
  let ps := if ro.removeEndtagSpace then renameNodes id trimEnd ps else ps
  if ro.removeComment then withoutNodes isNote ps else ps

/-- All changes. -/
def formatted (ro : RenderOptions) (ps : List PNode) : List PNode :=
  changed ro (if ro.minifySpaces then minDoc ps else ps)

end Rphtml.Spec
