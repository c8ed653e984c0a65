import Verif.Model.Stack

/-!
# Rendering in the heap

`build_tree` and `build` as they run: on the nodes in the heap, following `childs` and `end_tag`, appending to `result`.
Nothing keeps a user from linking nodes into a graph that is no tree, so the recursion is cut off by the stack: `none`
means that there was no room for another call of `build_tree`.  `Model/Render.lean` works on the tree that a node denotes
instead; `Props/RenderHeap.lean` compares the two.
-/

namespace Rphtml

/-- The child loops of `build_tree` (parser.rs:802-809), with `f` for the recursive call. -/
def forestAt (f : NodeId → RenderStatus → Str → Option (RRes (RenderStatus × Str))) :
    List NodeId → RenderStatus → Str → Option (RRes (RenderStatus × Str))
  | [], st, result => some (.ok (st, result))
  | i :: ids, st, result =>
    match f i st result with
    | none => none
    | some (.error p) => some (.error p)
    | some (.ok (st, result)) => forestAt f ids st result

/-- `build_tree` (parser.rs:794-815) on the node `i`, with room for `n` nested calls. -/
def Heap.buildTreeAt (h : Heap) (lib : EntityLib) (o : RenderOptions) :
    Nat → NodeId → RenderStatus → Str → Option (RRes (RenderStatus × Str))
  | 0, _, _, _ => none
  | n + 1, i, st, result =>
    match buildNode lib o (h.cell i).toNodeD st with
    | .error p => some (.error p)
    | .ok (st, out) =>
      let result := result ++ out
      let kids : Option (RRes (RenderStatus × Str)) :=
        match (h.cell i).childs with
        | none => some (.ok (st, result))
        | some ids =>
          if st.root then
            match forestAt (h.buildTreeAt lib o n) ids { st with root := false } result with
            | none => none
            | some (.error p) => some (.error p)
            | some (.ok (_, result)) => some (.ok (st, result))
          else forestAt (h.buildTreeAt lib o n) ids st result
      match kids with
      | none => none
      | some (.error p) => some (.error p)
      | some (.ok (st, result)) =>
        match (h.cell i).endTag with
        | none => some (.ok (st, result))
        | some e =>
          match buildNode lib o (h.cell e).toNodeD st with
          | .error p => some (.error p)
          | .ok (st, out) => some (.ok (st, result ++ out))

/-- The loop over the children of an abstract root in `build` (parser.rs:849-859). -/
def Heap.findOnlyTagAt (h : Heap) : List NodeId → Option NodeId → RRes (Option NodeId)
  | [], acc => .ok acc
  | i :: ids, acc =>
    if (h.cell i).nodeType = .tag then
      match acc with
      | some _ => .error .innerManyTags
      | none => h.findOnlyTagAt ids (some i)
    else h.findOnlyTagAt ids acc

/-- The node that `build` hands to `build_tree` (parser.rs:840-889). -/
def Heap.buildTargetAt (h : Heap) (i : NodeId) (innerType : InnerType) : RRes (Option NodeId) :=
  if innerType = .html ∨ innerType = .text then
    if (h.cell i).nodeType = .abstractRoot then
      match (h.cell i).childs with
      | some ids =>
        match h.findOnlyTagAt ids none with
        | .error s => .error s
        | .ok (some child) => .ok (some child)
        | .ok none => if ids.isEmpty then .error .innerNoChild else .error .innerWrongNode
      | none => .ok none
    else if innerType = .html then
      if (h.cell i).nodeType ≠ .tag then .error .innerWrongNode else .ok (some i)
    else if ¬ ((h.cell i).nodeType = .tag ∨ (h.cell i).nodeType = .comment ∨ (h.cell i).nodeType = .xmlCdata) then
      .error .innerWrongNode
    else .ok (some i)
  else .ok (some i)

/-- `Node::build` (parser.rs:817-891) on the node `i`, with room for `n` nested calls of `build_tree`. -/
def Heap.buildAt (h : Heap) (n : Nat) (lib : EntityLib) (i : NodeId) (o : RenderOptions) (innerText : Bool) : Option (RRes Str) :=
  match innerTypeOf o innerText with
  | .error s => some (.error s)
  | .ok innerType =>
    match h.buildTargetAt i innerType with
    | .error s => some (.error s)
    | .ok none => some (.ok [])
    | .ok (some i) =>
      match h.buildTreeAt lib o n i { innerType := innerType, root := true } [] with
      | none => none
      | some (.error p) => some (.error p)
      | some (.ok (_, result)) => some (.ok result)

end Rphtml
