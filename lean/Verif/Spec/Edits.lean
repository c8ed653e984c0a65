import Verif.Spec.Insert
import Verif.Spec.Replace

/-!
# Editing a document in several steps
-/

namespace Rphtml.Spec

/-- One edit: a node is inserted that is well-formed in its place, below an element that can have children; or a node is
removed; or one is replaced by a node that is well-formed in that place.  The svg and math elements that are open after the
place are the same before and after. -/
inductive SafeEdit (o : ParseOptions) : List PNode → List PNode → Prop
  | insert {p : PNode} {c q : Option Str} {ps ps' : List PNode} (h : Inserted p c q none none ps ps') (hx : ctxNode c p = c)
      (hp : wfNode o c q p) (hq : ∀ n, q = some n → ¬ isVoid n ∧ ¬ isRaw n) : SafeEdit o ps ps'
  | remove {p : PNode} {c q : Option Str} {ps ps' : List PNode} (h : Inserted p c q none none ps' ps) (hx : ctxNode c p = c) : SafeEdit o ps ps'
  | replace {p p' : PNode} {c q : Option Str} {ps ps' : List PNode} (h : Replaced p p' c q none none ps ps')
      (hx : ctxNode c p' = ctxNode c p) (hp : wfNode o c q p') : SafeEdit o ps ps'

/-- Any number of edits, one after the other. -/
inductive SafeEdits (o : ParseOptions) : List PNode → List PNode → Prop
  | none (ps : List PNode) : SafeEdits o ps ps
  | more {ps qs rs : List PNode} (h : SafeEdits o ps qs) (e : SafeEdit o qs rs) : SafeEdits o ps rs

end Rphtml.Spec
