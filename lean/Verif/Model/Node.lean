import Verif.Model.Basic

/-!
# Nodes, the node heap and finite trees

Models the data types of `src/parser.rs` (`Attr`, `TagMeta`, `Node`) and the `Rc<RefCell<Node>>` graph.
-/

namespace Rphtml

/-- `NodeType` (parser.rs:156-167). -/
inductive NodeType where
  | abstractRoot
  | htmlDoctype
  | comment
  | text
  | spacesBetweenTag
  | tag
  | tagEnd
  | xmlCdata
deriving DecidableEq, Repr, Inhabited

/-- `CodeTypeIn` (parser.rs:169-184). -/
inductive CodeTypeIn where
  | abstractRoot
  | unkown
  | unkownTag
  | tag
  | tagEnd
  | exclamationBegin
  | comment
  | htmlDoctype
  | escapeableRawText
  | htmlScript
  | htmlStyle
  | xmlCdata
  | textNode
deriving DecidableEq, Repr, Inhabited

/-- The derived `Debug` output `format!("{:?}", code_in)` used in parser.rs:2055, 2063. -/
def CodeTypeIn.debug : CodeTypeIn → Str
  | .abstractRoot => "AbstractRoot".toList
  | .unkown => "Unkown".toList
  | .unkownTag => "UnkownTag".toList
  | .tag => "Tag".toList
  | .tagEnd => "TagEnd".toList
  | .exclamationBegin => "ExclamationBegin".toList
  | .comment => "Comment".toList
  | .htmlDoctype => "HTMLDOCTYPE".toList
  | .escapeableRawText => "EscapeableRawText".toList
  | .htmlScript => "HTMLScript".toList
  | .htmlStyle => "HTMLStyle".toList
  | .xmlCdata => "XMLCDATA".toList
  | .textNode => "TextNode".toList

/-- `TagCodeIn` (parser.rs:341-350). -/
inductive TagCodeIn where
  | wait
  | key
  | keyEnd
  | waitValue
  | value
  | valueEnd
deriving DecidableEq, Repr, Inhabited

/-- `Attr` (parser.rs:274-280).  `AttrData { content }` (parser.rs:282-285) is its content. -/
structure Attr where
  key : Option Str := none
  value : Option Str := none
  quote : Option Char := none
  needQuote : Bool := false
deriving DecidableEq, Repr, Inhabited

/-- `TagMeta` (parser.rs:352-361).  The `HashMap` `lc_name_map` is an association list. -/
structure TagMeta where
  codeIn : TagCodeIn := .wait
  isVoid : Bool := false
  selfClosed : Bool := false
  autoFix : Bool := false
  name : Str := []
  attrs : List Attr := []
  lcNameMap : List (Str × Nat) := []
deriving DecidableEq, Repr, Inhabited

/-- The plain data fields of `Node` (parser.rs:432-468): everything that is not a link. -/
structure NodeD where
  index : Nat := 0
  nodeType : NodeType := .abstractRoot
  beginAt : Nat := 0
  endAt : Nat := 0
  content : Option Str := none
  tmeta : Option TagMeta := none
deriving DecidableEq, Repr, Inhabited

/-- `Node` (parser.rs:432-468): the data plus the links.  `document` only records that the weak link
to the `Doc` is set. -/
structure Cell extends NodeD where
  endTag : Option NodeId := none
  prev : Option NodeId := none
  parent : Option NodeId := none
  root : Option NodeId := none
  document : Bool := false
  childs : Option (List NodeId) := none
deriving DecidableEq, Repr, Inhabited

/-- `Node::new` (parser.rs:498-505). -/
def Cell.new (nodeType : NodeType) (codeAt : Nat) : Cell :=
  { nodeType := nodeType, beginAt := codeAt, endAt := codeAt }

/-! ## Attribute operations -/

namespace Attr

/-- `MUST_QUOTE_ATTR_CHARS` (parser.rs:87-94). -/
def mustQuoteChars : List Char := ['"', '\'', '<', '>', '=', '`']

/-- `Attr::build` (parser.rs:289-311). -/
def build (a : Attr) (removeQuote : Bool) : Str :=
  let ret : Str := match a.key with
    | some k => k
    | none => []
  match a.value with
  | none => ret
  | some v =>
    let ret := if a.key.isSome then ret ++ ['='] else ret
    match a.quote with
    | some q => if a.needQuote || !removeQuote then ret ++ [q] ++ v ++ [q] else ret ++ v
    | none => ret ++ v

/-- `Attr::need_quoted_char` (parser.rs:313-315).  No code path of the crate calls it. -/
def needQuotedChar (ch : Char) : Bool := isWs ch || mustQuoteChars.contains ch

/-- `Attr::check_if_id` (parser.rs:317-326). -/
def checkIfId (a : Attr) : Option Str :=
  match a.key with
  | some k => if isEqualChars k ['i', 'd'] (some .lower) then a.value else none
  | none => none

end Attr

namespace TagMeta

/-- `TagMeta::attrs_to_string` (parser.rs:364-374). -/
def attrsToString (m : TagMeta) (removeQuote : Bool) : Str :=
  m.attrs.flatMap fun a => ' ' :: a.build removeQuote

/-- `TagMeta::add_attr_key` (parser.rs:376-381). -/
def addAttrKey (m : TagMeta) : TagMeta := { m with attrs := m.attrs ++ [{ key := some [] }] }

/-- `TagMeta::add_attr_value` (parser.rs:383-389). -/
def addAttrValue (m : TagMeta) (quote : Option Char) : TagMeta :=
  { m with attrs := m.attrs ++ [{ value := some [], quote := quote }] }

/-- Replace the last attribute (`attrs.last_mut()`), `none` if there is none. -/
def modLast (m : TagMeta) (f : Attr → Attr) : Option TagMeta :=
  match m.attrs.getLast? with
  | none => none
  | some a => some { m with attrs := m.attrs.dropLast ++ [f a] }

/-- `TagMeta::set_attr_key` (parser.rs:391-397); `none` is the failed `expect`. -/
def setAttrKey (m : TagMeta) (key : Str) : Option TagMeta :=
  m.modLast fun a => { a with key := some key }

/-- `TagMeta::set_attr_value` (parser.rs:399-407); `none` is the failed `expect`. -/
def setAttrValue (m : TagMeta) (value : Str) (quote : Option Char) : Option TagMeta :=
  m.modLast fun a => { a with value := some value, quote := quote }

/-- `meta.lc_name_map.entry(key_name).or_insert(index)` (parser.rs:2138). -/
def mapOrInsert (m : TagMeta) (k : Str) (index : Nat) : TagMeta :=
  if (m.lcNameMap.lookup k).isSome then m else { m with lcNameMap := (k, index) :: m.lcNameMap }

end TagMeta

/-! ## The heap of nodes -/

/-- All nodes ever allocated during a parse.  Cells at or above `size` are unallocated. -/
structure Heap where
  size : Nat
  cell : NodeId → Cell

namespace Heap

/-- `Rc::new(RefCell::new(node))`: the new node's id is the old `size`. -/
def push (h : Heap) (c : Cell) : Heap :=
  { size := h.size + 1, cell := fun j => if j = h.size then c else h.cell j }

/-- `node.borrow_mut().… = …`. -/
def upd (h : Heap) (i : NodeId) (f : Cell → Cell) : Heap :=
  { h with cell := fun j => if j = i then f (h.cell j) else h.cell j }

@[simp] theorem push_size (h : Heap) (c : Cell) : (h.push c).size = h.size + 1 := rfl
@[simp] theorem upd_size (h : Heap) (i : NodeId) (f : Cell → Cell) : (h.upd i f).size = h.size := rfl
theorem push_cell (h : Heap) (c : Cell) (j : NodeId) :
    (h.push c).cell j = if j = h.size then c else h.cell j := rfl
theorem upd_cell (h : Heap) (i : NodeId) (f : Cell → Cell) (j : NodeId) :
    (h.upd i f).cell j = if j = i then f (h.cell j) else h.cell j := rfl

end Heap

/-! ## Finite trees -/

/-- The value seen by following `childs` and `end_tag` from a node.  The end tag is kept as plain
data: rendering calls `build_node`, not `build_tree`, on it (parser.rs:812-814), so its own children
and end tag are never looked at. -/
inductive Tree where
  | mk (d : NodeD) (endTag : Option NodeD) (childs : Option (List Tree))
deriving Repr

namespace Tree

def data : Tree → NodeD
  | mk d _ _ => d

def endTag : Tree → Option NodeD
  | mk _ e _ => e

def childs : Tree → Option (List Tree)
  | mk _ _ cs => cs

/-- The children as a list (`None` and `Some(vec![])` both give `[]`). -/
def kids : Tree → List Tree
  | mk _ _ cs => cs.getD []

end Tree

/-- All results of `f`, or `none` if one is missing. -/
def optAll {α β : Type} (f : α → Option β) : List α → Option (List β)
  | [] => some []
  | a :: as =>
    match f a, optAll f as with
    | some b, some bs => some (b :: bs)
    | _, _ => none

/-- The tree below node `i`, following at most `fuel` levels of `childs`; `none` means the nodes
reached do not form a tree of that height. -/
def Heap.toTree? (h : Heap) : Nat → NodeId → Option Tree
  | 0, _ => none
  | fuel + 1, i =>
    let c := h.cell i
    let e := c.endTag.map fun e => (h.cell e).toNodeD
    match c.childs with
    | none => some (.mk c.toNodeD e none)
    | some ids =>
      match optAll (Heap.toTree? h fuel) ids with
      | some ts => some (.mk c.toNodeD e (some ts))
      | none => none

end Rphtml
