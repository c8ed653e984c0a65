import Verif.Model.Parser

/-!
# Rendering, cloning and the public helpers

Models `Node::build*`, `Node::clone_node*`, `Node::is_document`, `Node::create_text_node`,
`allow_insert` (src/parser.rs) and `src/util.rs`.
-/

namespace Rphtml

/-- What rphtml uses of the external crate `htmlentity`; nothing is assumed about it here.
`decodeAll` is what `decode_chars_to` appends, `decodeOne` is `Entity::decode_chars`,
`inHtmlSet` is `CharacterSet::Html.contains`, `encodeNamed` is `encode_char(_, EncodeType::Named)`
followed by `write_chars`. -/
structure EntityLib where
  decodeAll : Str → Str
  decodeOne : Str → Option Char
  inHtmlSet : Char → Bool
  encodeNamed : Char → Option Str

/-- `RenderStatuInnerType` (parser.rs:420-426). -/
inductive InnerType where
  | none
  | html
  | text
deriving DecidableEq, Repr, Inhabited

/-- `RenderStatus` (parser.rs:414-419). -/
structure RenderStatus where
  innerType : InnerType := .none
  isInPre : Bool := false
  root : Bool := false
deriving DecidableEq, Repr, Inhabited

/-- What a render function appends to `result`, or the panic it dies with. -/
abbrev RRes (α : Type) := Except Site α

/-- `write_content_encode` (parser.rs:186-200). -/
def writeContentEncode (lib : EntityLib) (content : Str) : Str :=
  content.flatMap fun ch =>
    if lib.inHtmlSet ch then
      match lib.encodeNamed ch with
      | some s => s
      | none => [ch]
    else [ch]

/-- The whitespace collapsing loop (parser.rs:640-650); `prevIsSpace` is the loop variable. -/
def minifyLoop : Bool → Str → Str
  | _, [] => []
  | prevIsSpace, c :: cs =>
    if isWs c then
      if prevIsSpace then minifyLoop true cs else c :: minifyLoop true cs
    else c :: minifyLoop false cs

/-- The collapsing loop with entity decoding (parser.rs:602-637).  `ent = some e` means
`is_in_entity`, `e` being the characters after the `&`, i.e. `content[start_index + 1..index]`. -/
def minifyDecodeLoop (lib : EntityLib) : Bool → Option Str → Str → Str
  | _, none, [] => []
  | _, some e, [] => '&' :: e
  | prevIsSpace, none, c :: cs =>
    if c = '&' then minifyDecodeLoop lib prevIsSpace (some []) cs
    else if isWs c then
      if prevIsSpace then minifyDecodeLoop lib prevIsSpace none cs
      else c :: minifyDecodeLoop lib true none cs
    else c :: minifyDecodeLoop lib false none cs
  | prevIsSpace, some e, c :: cs =>
    if c = ';' then
      match lib.decodeOne e with
      | some decoded => decoded :: minifyDecodeLoop lib prevIsSpace none cs
      | none => ['&'] ++ e ++ [';'] ++ minifyDecodeLoop lib prevIsSpace none cs
    else minifyDecodeLoop lib prevIsSpace (some (e ++ [c])) cs

/-- The text branch of `build_node` (parser.rs:591-661). -/
def buildText (lib : EntityLib) (o : RenderOptions) (isInPre : Bool) (content : Str) : Str :=
  if !isInPre && o.minifySpaces then
    if o.decodeEntity then minifyDecodeLoop lib false none content
    else minifyLoop false content
  else if o.decodeEntity then lib.decodeAll content
  else content

/-- `need_tag` of `build_node` (parser.rs:583-588). -/
def RenderStatus.needTag (st : RenderStatus) : Bool :=
  if st.root then st.innerType = .none else st.innerType ≠ .text

/-- `build_node` (parser.rs:577-792): the updated status and the appended characters. -/
def buildNode (lib : EntityLib) (o : RenderOptions) (n : NodeD) (st : RenderStatus) :
    RRes (RenderStatus × Str) :=
  match n.nodeType with
  | .text =>
    match n.content with
    | none => .error .textContent
    | some content => .ok (st, buildText lib o st.isInPre content)
  | .tag =>
    match n.tmeta with
    | none => .error .tagMeta
    | some m =>
      let st' := { st with isInPre := st.isInPre || isEqualChars m.name preTagName (some .lower) }
      let open_ : Str :=
        if st.needTag then
          ['<'] ++ (if !o.lowercaseTagname then m.name else lowerAll m.name)
            ++ (if !m.attrs.isEmpty then m.attrsToString o.removeAttrQuote else [])
            ++ (if m.selfClosed || (m.autoFix && o.alwaysCloseVoid) then [' ', '/'] else [])
            ++ ['>']
        else []
      let body : Str := match n.content with
        | some content =>
          if o.encodeContent && isPlainTextTag m.name (some .lower) then
            writeContentEncode lib content
          else content
        | none => []
      .ok (st', open_ ++ body)
  | .tagEnd =>
    match n.content with
    | none => .error .endTagContent
    | some content =>
      let st' := if st.isInPre && isEqualChars (charsTrimEnd content) preTagName (some .lower)
        then { st with isInPre := false } else st
      let out : Str :=
        if st.needTag then
          let content := if o.removeEndtagSpace then charsTrimEnd content else content
          ['<', '/'] ++ (if o.lowercaseTagname then lowerAll content else content) ++ ['>']
        else []
      .ok (st', out)
  | .spacesBetweenTag =>
    if !st.isInPre && o.minifySpaces then .ok (st, [])
    else
      match n.content with
      | none => .error .spacesContent
      | some content => .ok (st, content)
  | .htmlDoctype =>
    match n.tmeta with
    | none => .error .doctypeMeta
    | some m =>
      .ok (st, ['<', '!'] ++ m.name
        ++ (if !m.attrs.isEmpty then m.attrsToString o.removeAttrQuote else []) ++ ['>'])
  | .comment =>
    if !o.removeComment then
      let isInnerText : Bool := st.innerType = .text
      if st.root || !isInnerText then
        let needWrap := !(st.root && isInnerText)
        .ok (st, (if needWrap then ['<', '!', '-', '-'] else []) ++ n.content.getD []
          ++ (if needWrap then ['-', '-', '>'] else []))
      else .ok (st, [])
    else .ok (st, [])
  | .xmlCdata =>
    .ok (st, ['<', '!', '[', 'C', 'D', 'A', 'T', 'A', '['] ++ n.content.getD [] ++ [']', ']', '>'])
  | .abstractRoot => .ok (st, [])

/-- The optional end tag at the end of `build_tree` (parser.rs:812-814). -/
def buildEnd (lib : EntityLib) (o : RenderOptions) (e : Option NodeD) (st : RenderStatus) :
    RRes (RenderStatus × Str) :=
  match e with
  | some e => buildNode lib o e st
  | none => .ok (st, [])

mutual

/-- `build_tree` (parser.rs:794-815). -/
def buildTree (lib : EntityLib) (o : RenderOptions) : Tree → RenderStatus → RRes (RenderStatus × Str)
  | .mk d e childs, st => do
    let (st, out1) ← buildNode lib o d st
    let (st, out2) ← match childs with
      | none => .ok (st, [])
      | some ts =>
        if st.root then do
          let (_, out) ← buildForest lib o ts { st with root := false }
          .ok (st, out)
        else buildForest lib o ts st
    let (st, out3) ← buildEnd lib o e st
    .ok (st, out1 ++ out2 ++ out3)

/-- The two child loops of `build_tree` (parser.rs:802-804, 806-809). -/
def buildForest (lib : EntityLib) (o : RenderOptions) :
    List Tree → RenderStatus → RRes (RenderStatus × Str)
  | [], st => .ok (st, [])
  | t :: ts, st => do
    let (st, out1) ← buildTree lib o t st
    let (st, out2) ← buildForest lib o ts st
    .ok (st, out1 ++ out2)

end

/-- The loop over the children of an abstract root in `build` (parser.rs:849-859): the last tag child
seen, or a panic at the second one. -/
def findOnlyTag : List Tree → Option Tree → RRes (Option Tree)
  | [], acc => .ok acc
  | t :: ts, acc =>
    if t.data.nodeType = .tag then
      match acc with
      | some _ => .error .innerManyTags
      | none => findOnlyTag ts (some t)
    else findOnlyTag ts acc

/-- The inner type computed at the start of `Node::build` (parser.rs:818-828). -/
def innerTypeOf (o : RenderOptions) (innerText : Bool) : RRes InnerType :=
  if innerText then (if o.innerHtml then .error .innerBoth else .ok .text)
  else if o.innerHtml then .ok .html else .ok .none

/-- The node that `Node::build` hands to `build_tree` (parser.rs:840-889); `none` means that the result
is empty (an abstract root without `childs`, parser.rs:868). -/
def buildTarget (t : Tree) (innerType : InnerType) : RRes (Option Tree) :=
  if innerType = .html ∨ innerType = .text then
    if t.data.nodeType = .abstractRoot then
      match t.childs with
      | some childs =>
        match findOnlyTag childs none with
        | .error s => .error s
        | .ok (some child) => .ok (some child)
        | .ok none => if childs.isEmpty then .error .innerNoChild else .error .innerWrongNode
      | none => .ok none
    else if innerType = .html then
      if t.data.nodeType ≠ .tag then .error .innerWrongNode else .ok (some t)
    else if ¬ (t.data.nodeType = .tag ∨ t.data.nodeType = .comment ∨ t.data.nodeType = .xmlCdata) then
      .error .innerWrongNode
    else .ok (some t)
  else .ok (some t)

/-- `Node::build` (parser.rs:817-891). -/
def build (lib : EntityLib) (t : Tree) (o : RenderOptions) (innerText : Bool) : RRes Str :=
  match innerTypeOf o innerText with
  | .error s => .error s
  | .ok innerType =>
    match buildTarget t innerType with
    | .error s => .error s
    | .ok none => .ok []
    | .ok (some t) => (buildTree lib o t { innerType := innerType, root := true }).map (·.2)

/-- `DocHolder::render` (parser.rs:2246-2248). -/
def Doc.render (lib : EntityLib) (d : Doc) (o : RenderOptions) : RRes Str :=
  match d.tree? with
  | none => .error .notATree
  | some t => build lib t o false

/-- `DocHolder::render_text` (parser.rs:2251-2253). -/
def Doc.renderText (lib : EntityLib) (d : Doc) (o : RenderOptions) : RRes Str :=
  match d.tree? with
  | none => .error .notATree
  | some t => build lib t o true

/-! ## Cloning -/

/-- `clone_node_without_childs` (parser.rs:508-529) on the plain data: `usize` subtraction panics on
underflow (debug builds; release builds wrap around). -/
def cloneData (reduce : Nat) (d : NodeD) : Option NodeD :=
  if reduce ≤ d.beginAt ∧ reduce ≤ d.endAt then
    some { d with beginAt := d.beginAt - reduce, endAt := d.endAt - reduce, index := 0 }
  else none

/-- `clone_node_with` (parser.rs:532-546) in the heap.  New nodes are pushed; the result is the new
heap and the id of the copy, `none` being the underflow panic (or a node graph deeper than `fuel`).
`root` and `document` are copied, `parent`/`prev` are set by the caller's loop. -/
def Heap.cloneWith (reduce : Nat) : Nat → Heap → NodeId → Option (Heap × NodeId)
  | 0, _, _ => none
  | fuel + 1, h, i =>
    let c := h.cell i
    match cloneData reduce c.toNodeD with
    | none => none
    | some dat =>
      -- `end_tag.borrow().clone_node_with(reduce_code_at)` inside `clone_node_without_childs`
      let afterEnd : Option (Heap × Option NodeId) :=
        match c.endTag with
        | none => some (h, none)
        | some e =>
          match Heap.cloneWith reduce fuel h e with
          | none => none
          | some (h, e') => some (h, some e')
      match afterEnd with
      | none => none
      | some (h, e') =>
        let me := h.size
        let h := h.push { toNodeD := dat, endTag := e', root := c.root, document := c.document }
        match c.childs with
        | none => some (h, me)
        | some ids =>
          -- the loop over the children; the accumulator holds the copies made so far
          let step : Option (Heap × List NodeId) → NodeId → Option (Heap × List NodeId) :=
            fun acc node =>
              match acc with
              | none => none
              | some (h, done) =>
                match Heap.cloneWith reduce fuel h node with
                | none => none
                | some (h, cid) =>
                  let h := h.upd cid fun n =>
                    { n with parent := some me, prev := done.getLast?, index := (h.cell node).index }
                  some (h, done ++ [cid])
          match ids.foldl step (some (h, [])) with
          | none => none
          | some (h, done) => some (h.upd me fun n => { n with childs := some done }, me)

/-- `clone_node` (parser.rs:549-551). -/
def Heap.cloneNode (h : Heap) (fuel : Nat) (i : NodeId) : Option (Heap × NodeId) :=
  h.cloneWith (h.cell i).beginAt fuel i

/-- The strong references to a node that are held by nodes: the entries of `childs` and the `end_tag`s
(parser.rs:445, 463). -/
def Heap.owners (h : Heap) (i : NodeId) : Nat :=
  ((List.range h.size).map fun j =>
    ((h.cell j).childs.getD []).count i + if (h.cell j).endTag = some i then 1 else 0).sum

/-- `Clone::clone` of a `Node` (parser.rs:488-494).  The copy is moved out of its `Rc`, which fails unless the local
handle is the only strong reference (`Rc::try_unwrap(…).unwrap()`).  The result is the heap, the id of the copy, which is
freed, and the copy. -/
def Heap.cloneValue (h : Heap) (fuel : Nat) (i : NodeId) : Option (Heap × NodeId × Cell) :=
  match h.cloneNode fuel i with
  | none => none
  | some (h, me) => if h.owners me = 0 then some (h, me, h.cell me) else none

/-- `Weak::upgrade` after the node `freed` has been freed. -/
def upgrade (freed : NodeId) (link : Option NodeId) : Option NodeId := if link = some freed then none else link

/-- `Node::is_same` (parser.rs:943-945): the addresses are equal. -/
def isSame (cur other : NodeId) : Bool := cur == other

/-! ## Other public functions -/

/-- `Node::create_text_node` (parser.rs:554-575). -/
def createTextNode (content : Str) (codeAt : Option Nat) : Cell :=
  let at_ := codeAt.getD 0
  { nodeType := if content.all isWs then .spacesBetweenTag else .text
    beginAt := at_, endAt := at_, content := some content }

/-- The loop of `is_document` (parser.rs:902-934) with its three flags `(find_html, is_document,
syntax_ok)`. -/
def isDocumentLoop : List NodeD → Bool → Bool → Bool → Bool × Bool
  | [], _, isDoc, ok => (isDoc, ok)
  | n :: ns, found, isDoc, ok =>
    match n.nodeType with
    | .comment | .spacesBetweenTag | .htmlDoctype => isDocumentLoop ns found isDoc ok
    | .tag =>
      if found then (isDoc, false)
      else
        match n.tmeta with
        | some m =>
          if isEqualChars m.name htmlTagName (some .lower) then isDocumentLoop ns true true ok
          else isDocumentLoop ns found isDoc false
        | none => isDocumentLoop ns found isDoc false
    | _ => isDocumentLoop ns found isDoc false

/-- `Node::is_document` (parser.rs:895-941). -/
def isDocument (t : Tree) : Bool × Bool :=
  if t.data.nodeType = .abstractRoot then
    let r := match t.childs with
      | some ts => isDocumentLoop (ts.map Tree.data) false false true
      | none => (false, true)
    if !r.1 then (r.1, true) else r
  else (false, true)

/-- `allow_insert` (parser.rs:129-147). -/
def allowInsert (name : Str) (nodeType : NodeType) : Bool :=
  let lc := lowerAll name
  if isVoidTag lc then false
  else if isPlainTextTag name none then nodeType = .text || nodeType = .spacesBetweenTag
  else if nodeType = .xmlCdata then (specialTag lc).isSome
  else true

/-- `is_non_character` (util.rs:5-45): the listed code points. -/
def isNonCharacter (ch : Char) : Bool :=
  (0xFDD0 ≤ ch.toNat && ch.toNat ≤ 0xFDEF) ||
  [0xFFFE, 0xFFFF, 0x1FFFE, 0x1FFFF, 0x2FFFE, 0x2FFFF, 0x3FFFE, 0x3FFFF, 0x4FFFE, 0x4FFFF,
   0x5FFFE, 0x5FFFF, 0x6FFFE, 0x6FFFF, 0x7FFFE, 0x7FFFF, 0x8FFFE, 0x8FFFF, 0x9FFFE, 0x9FFFF,
   0xAFFFE, 0xAFFFF, 0xBFFFE, 0xBFFFF, 0xCFFFE, 0xCFFFF, 0xDFFFE, 0xDFFFF, 0xEFFFE, 0xEFFFF,
   0xFFFFE, 0xFFFFF, 0x10FFFE, 0x10FFFF].contains ch.toNat

/-- `char::is_ascii_alphanumeric`. -/
def isAsciiAlphanumeric (c : Char) : Bool :=
  isUpper c || isLower c || (48 ≤ c.toNat && c.toNat ≤ 57)

/-- `char::is_ascii_control`. -/
def isAsciiControl (c : Char) : Bool := c.toNat ≤ 31 || c.toNat = 127

/-- `char::is_ascii_punctuation`: `!`–`/`, `:`–`@`, `[`–`` ` ``, `{`–`~`. -/
def isAsciiPunctuation (c : Char) : Bool :=
  (33 ≤ c.toNat && c.toNat ≤ 47) || (58 ≤ c.toNat && c.toNat ≤ 64)
    || (91 ≤ c.toNat && c.toNat ≤ 96) || (123 ≤ c.toNat && c.toNat ≤ 126)

/-- `is_char_available_in_key` (util.rs:52-65). -/
def isCharAvailableInKey (ch : Char) : Bool :=
  if isAsciiAlphanumeric ch || ['_', '-', '.', ':'].contains ch then true
  else if isWs ch || isAsciiControl ch || isNonCharacter ch || isAsciiPunctuation ch || ch = '\x00'
  then false
  else true

/-- `is_char_available_in_value` (util.rs:67-72). -/
def isCharAvailableInValue (ch : Char) : Bool :=
  if isWs ch then false
  else !(['\x00', '"', '\'', '<', '>', '/', '=', '`'].contains ch)

end Rphtml
