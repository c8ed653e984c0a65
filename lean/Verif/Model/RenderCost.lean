import Verif.Model.Cost
import Verif.Model.Render

/-!
# The work of rendering and cloning

How many characters rendering and cloning touch, counted as in `Model/Cost.lean`: every character that is read in
a loop, pushed, moved, copied or compared counts one, and so does every call of `build_node`.  The work stops where the
code panics.

`htmlentity` is not modelled: `decode_chars_to` and `decode_chars` are charged the characters they get, `encode_char` is
charged one, and what they append is charged like everything else that is appended.
-/

namespace Rphtml

/-- One attribute in `attrs_to_string` (parser.rs:364-373): `Attr::build` (parser.rs:289-311) pushes its characters,
`splice(0..0, …)` inserts a space in front of them, and `collect` moves all of them. -/
def attrWork (removeQuote : Bool) (a : Attr) : Nat :=
  let n := (a.build removeQuote).length
  n + (n + 1) + (n + 1)

/-- `attrs_to_string` (parser.rs:364-373) and `extend_from_slice` of its result (parser.rs:683-686, 757-759). -/
def attrsWork (removeQuote : Bool) (m : TagMeta) : Nat :=
  (m.attrs.map (attrWork removeQuote)).sum + (m.attrsToString removeQuote).length

/-- The rounds of the collapsing loop with decoding (parser.rs:602-632); `ent` is as in `minifyDecodeLoop`. -/
def decodeLoopWork : Option Str → Str → Nat
  | _, [] => 0
  | none, c :: cs => 1 + decodeLoopWork (if c = '&' then some [] else none) cs
  | some e, c :: cs =>
    if c = ';' then 1 + e.length + decodeLoopWork none cs
    else 1 + decodeLoopWork (some (e ++ [c])) cs

/-- The text branch of `build_node` (parser.rs:591-661). -/
def textWork (lib : EntityLib) (o : RenderOptions) (isInPre : Bool) (content : Str) : Nat :=
  (if !isInPre && o.minifySpaces then
    if o.decodeEntity then decodeLoopWork none content else content.length
  else if o.decodeEntity then content.length
  else 0) + (buildText lib o isInPre content).length

/-- `write_content_encode` (parser.rs:186-200). -/
def encodeWork (lib : EntityLib) (content : Str) : Nat := content.length + (writeContentEncode lib content).length

/-- One call of `build_node` (parser.rs:577-792).  For an end tag: the two calls of `chars_trim_end` (parser.rs:203-212,
720-733) and the lower-cased copy (parser.rs:734-739). -/
def nodeWork (lib : EntityLib) (o : RenderOptions) (n : NodeD) (st : RenderStatus) : Nat :=
  match n.nodeType with
  | .text => textWork lib o st.isInPre (n.content.getD [])
  | .tag =>
    match n.tmeta with
    | none => 0
    | some m =>
      (if st.isInPre then 0 else eqWork m.name preTagName) +
        (if st.needTag then
          1 + m.name.length + (if !m.attrs.isEmpty then attrsWork o.removeAttrQuote m else 0)
            + (if m.selfClosed || (m.autoFix && o.alwaysCloseVoid) then 2 else 0) + 1
        else 0) +
        match n.content with
        | some content =>
          (if o.encodeContent then eqWork m.name titleTagName + eqWork m.name textareaTagName else 0) +
            if o.encodeContent && isPlainTextTag m.name (some .lower) then encodeWork lib content else content.length
        | none => 0
  | .tagEnd =>
    let content := n.content.getD []
    (if st.isInPre then trailing content + 1 + eqWork (charsTrimEnd content) preTagName else 0) +
      if st.needTag then
        2 + (if o.removeEndtagSpace then trailing content + 1 else 0) +
          (if o.lowercaseTagname then content.length + content.length else content.length) + 1
      else 0
  | .spacesBetweenTag => if !st.isInPre && o.minifySpaces then 0 else (n.content.getD []).length
  | .htmlDoctype =>
    match n.tmeta with
    | none => 0
    | some m => 2 + m.name.length + (if !m.attrs.isEmpty then attrsWork o.removeAttrQuote m else 0) + 1
  | .comment => if !o.removeComment then 7 + (n.content.getD []).length else 0
  | .xmlCdata => 12 + (n.content.getD []).length
  | .abstractRoot => 0

/-- The end tag in `build_tree` (parser.rs:812-814). -/
def endTagWork (lib : EntityLib) (o : RenderOptions) (e : Option NodeD) (st : RenderStatus) : Nat :=
  match e with
  | some e => 1 + nodeWork lib o e st
  | none => 0

mutual

/-- `build_tree` (parser.rs:794-815), up to the first panic. -/
def treeWork (lib : EntityLib) (o : RenderOptions) : Tree → RenderStatus → Nat
  | .mk d e childs, st => 1 + nodeWork lib o d st +
    match buildNode lib o d st with
    | .error _ => 0
    | .ok (st, _) =>
      match childs with
      | none => endTagWork lib o e st
      | some ts =>
        forestWork lib o ts { st with root := false } +
          match buildForest lib o ts { st with root := false } with
          | .error _ => 0
          | .ok (st', _) => endTagWork lib o e (if st.root then st else st')

/-- The two child loops of `build_tree` (parser.rs:802-804, 806-809). -/
def forestWork (lib : EntityLib) (o : RenderOptions) : List Tree → RenderStatus → Nat
  | [], _ => 0
  | t :: ts, st => treeWork lib o t st +
    match buildTree lib o t st with
    | .error _ => 0
    | .ok (st, _) => forestWork lib o ts st

end

/-- `Node::build` (parser.rs:817-891): the search for the only element of a document (parser.rs:849-859), and
`build_tree`. -/
def buildWork (lib : EntityLib) (t : Tree) (o : RenderOptions) (innerText : Bool) : Nat :=
  match innerTypeOf o innerText with
  | .error _ => 0
  | .ok innerType =>
    (if innerType = .none then 0 else t.kids.length) +
      match buildTarget t innerType with
      | .ok (some t) => treeWork lib o t { innerType := innerType, root := true }
      | _ => 0

/-- What `Attr::clone` copies (parser.rs:274-285). -/
def Attr.size (a : Attr) : Nat := (a.key.getD []).length + (a.value.getD []).length

/-- What `clone_node_without_childs` copies (parser.rs:508-529): the content, the name, the attributes, and the map of
the lower-cased keys, which is charged with all keys although it holds equal ones once. -/
def cloneNodeWork (n : NodeD) : Nat :=
  (n.content.getD []).length +
    match n.tmeta with
    | none => 0
    | some m => m.name.length + (m.attrs.map Attr.size).sum + (m.attrs.map fun a => (a.key.getD []).length).sum

mutual

/-- `clone_node_with` (parser.rs:532-546): the node and its end tag, then the children. -/
def cloneWork : Tree → Nat
  | .mk d e childs => 1 + cloneNodeWork d + (match e with
      | some e => 1 + cloneNodeWork e
      | none => 0) +
    match childs with
    | none => 0
    | some ts => cloneForestWork ts

/-- The loop over the children (parser.rs:535-543). -/
def cloneForestWork : List Tree → Nat
  | [] => 0
  | t :: ts => cloneWork t + cloneForestWork ts

end

end Rphtml
