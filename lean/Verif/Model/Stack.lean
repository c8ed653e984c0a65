import Verif.Model.Render

/-!
# The call stack

Rendering, cloning and dropping recurse over the nodes.  Here they run with room for `n` nested calls, and `none` (`false`
for dropping) means that the stack overflows, which aborts the program.  For cloning that is the `fuel` of
`Heap.cloneWith`.  Only the calls that recurse are counted: `build_tree`, `clone_node_with`, and the drop of a node.  Each
of them has a bounded number of other frames on top.
-/

namespace Rphtml

/-- The child loops of `build_tree` (parser.rs:802-809), with `f` for the recursive call. -/
def forestIn (f : Tree → RenderStatus → Option (RRes (RenderStatus × Str))) : List Tree → RenderStatus → Option (RRes (RenderStatus × Str))
  | [], st => some (.ok (st, []))
  | t :: ts, st =>
    match f t st with
    | none => none
    | some (.error p) => some (.error p)
    | some (.ok (st, out1)) =>
      match forestIn f ts st with
      | none => none
      | some (.error p) => some (.error p)
      | some (.ok (st, out2)) => some (.ok (st, out1 ++ out2))

/-- `build_tree` (parser.rs:794-815) with room for `n` nested calls. -/
def buildTreeIn (lib : EntityLib) (o : RenderOptions) : Nat → Tree → RenderStatus → Option (RRes (RenderStatus × Str))
  | 0, _, _ => none
  | n + 1, .mk d e childs, st =>
    match buildNode lib o d st with
    | .error p => some (.error p)
    | .ok (st, out1) =>
      let kids : Option (RRes (RenderStatus × Str)) :=
        match childs with
        | none => some (.ok (st, []))
        | some ts =>
          if st.root then
            match forestIn (buildTreeIn lib o n) ts { st with root := false } with
            | none => none
            | some (.error p) => some (.error p)
            | some (.ok (_, out)) => some (.ok (st, out))
          else forestIn (buildTreeIn lib o n) ts st
      match kids with
      | none => none
      | some (.error p) => some (.error p)
      | some (.ok (st, out2)) =>
        match buildEnd lib o e st with
        | .error p => some (.error p)
        | .ok (st, out3) => some (.ok (st, out1 ++ out2 ++ out3))

/-- `Node::build` (parser.rs:817-891) with room for `n` nested calls of `build_tree`. -/
def buildIn (n : Nat) (lib : EntityLib) (t : Tree) (o : RenderOptions) (innerText : Bool) : Option (RRes Str) :=
  match innerTypeOf o innerText with
  | .error s => some (.error s)
  | .ok innerType =>
    match buildTarget t innerType with
    | .error s => some (.error s)
    | .ok none => some (.ok [])
    | .ok (some t) => (buildTreeIn lib o n t { innerType := innerType, root := true }).map fun r => r.map (·.2)

/-- `DocHolder::render` (parser.rs:2246-2248) with room for `n` nested calls of `build_tree`. -/
def Doc.renderIn (n : Nat) (lib : EntityLib) (d : Doc) (o : RenderOptions) : Option (RRes Str) :=
  match d.tree? with
  | none => some (.error .notATree)
  | some t => buildIn n lib t o false

/-- The drop of a node that nobody else holds, with room for `n` nested drops: the fields are dropped, among them
`end_tag` and `childs` (parser.rs:446, 464), whose nodes are held by this node only.  (A node that `id_tags` holds too is
dropped with the map instead.) -/
def Heap.dropIn (h : Heap) : Nat → NodeId → Bool
  | 0, _ => false
  | n + 1, i =>
    (match (h.cell i).endTag with
      | none => true
      | some e => h.dropIn n e) &&
    ((h.cell i).childs.getD []).all (h.dropIn n)

end Rphtml
