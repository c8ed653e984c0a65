import Verif.Model.Parser
import Verif.Model.Render
import Verif.Spec.Borrow

/-!
# The borrows of the parser

For each function of `src/parser.rs` that borrows `RefCell`s the sequence of its borrows, in the order and with the scopes of the
source: a temporary of a `let` or an expression statement, or of the condition of an `if`, is dropped at the end of that; the
scrutinee of an `if let` or `match` and a guard bound by `let` live until the end of the block.  Where the control flow depends on
the state, the state functions of `Model/Parser.lean` are used.  After an error or panic no further borrow is listed.
-/

namespace Rphtml
open Spec

/-- A `borrow()` that is alive during `t`. -/
def rd (x : RCell) (t : List Borrow := []) : List Borrow := .take .shared x :: (t ++ [.give .shared x])

/-- A `borrow_mut()` that is alive during `t`. -/
def wr (x : RCell) (t : List Borrow := []) : List Borrow := .take .excl x :: (t ++ [.give .excl x])

/-- The events of what follows a step that may fail. -/
def Res.after (r : Res Doc) (f : Doc → List Borrow) : List Borrow :=
  match r with
  | .ok d => f d
  | _ => []

namespace Doc

/-- The cell of `current_node`. -/
def curCell (d : Doc) : RCell := .node d.current

/-- What is borrowed if the current node has tag data (`if let Some(meta) = …`). -/
def ifMeta (d : Doc) (i : NodeId) (t : List Borrow) : List Borrow := if (d.heap.cell i).tmeta.isSome then t else []

/-- `Doc::new` (parser.rs:1732). -/
def newB : List Borrow := wr (.node 0)

/-- `add_new_node` (parser.rs:1874, 1878, 1880-1891); the new node gets the next free id. -/
def addNewNodeB (d : Doc) (node : Cell) : List Borrow :=
  let id := d.heap.size
  rd (.node id) ++
    if node.nodeType ≠ .tagEnd then
      match d.chain.head? with
      | none => []
      | some p => wr (.node id) ++ wr (.node p) (wr (.node id) ++ wr (.node id))
    else []

/-- `set_tag_end_info` (parser.rs:1903). -/
def setTagEndInfoB (d : Doc) : List Borrow := wr d.curCell

/-- `set_text_spaces_between` (parser.rs:1914). -/
def setTextSpacesBetweenB (d : Doc) : List Borrow :=
  match d.checkTextnode with
  | some t => wr (.node t)
  | none => []

/-- `set_tag_meta` (parser.rs:2092). -/
def setTagMetaB (d : Doc) : List Borrow := wr d.curCell

/-- `set_tag_code_in` (parser.rs:2104-2105). -/
def setTagCodeInB (d : Doc) : List Borrow := wr d.curCell (d.ifMeta d.current (wr (.tagMeta d.current)))

/-- `is_tag_code_in` (parser.rs:2110-2115). -/
def isTagCodeInB (d : Doc) : List Borrow := rd d.curCell (d.ifMeta d.current (rd (.tagMeta d.current)))

/-- `add_tag_attr_key` (parser.rs:2121-2123). -/
def addTagAttrKeyB (d : Doc) : List Borrow :=
  wr d.curCell (d.ifMeta d.current (wr (.tagMeta d.current) ++ wr (.tagMeta d.current)))

/-- `set_tag_attr_key` (parser.rs:2129-2130). -/
def setTagAttrKeyB (d : Doc) : List Borrow := wr d.curCell (d.ifMeta d.current (wr (.tagMeta d.current)))

/-- `add_tag_attr_value` (parser.rs:2145-2151). -/
def addTagAttrValueB (d : Doc) : List Borrow :=
  wr d.curCell (d.ifMeta d.current (wr (.tagMeta d.current) ++ wr (.tagMeta d.current)))

/-- `set_tag_attr_value` (parser.rs:2157-2166): the table of ids is borrowed while the node and its data are. -/
def setTagAttrValueB (d : Doc) (quote : Option Char) : List Borrow :=
  wr d.curCell (d.ifMeta d.current (wr (.tagMeta d.current)
    (match d.cur.tmeta.bind fun m => (m.setAttrValue d.prevChars quote).bind fun m => (m.attrs.getLast?).bind Attr.checkIfId with
      | some _ => wr .idTags
      | none => [])))

/-- `check_tag_type_do` (parser.rs:2175-2183, 2201-2207, 2216-2224). -/
def checkTagTypeDoB (d : Doc) : List Borrow :=
  let look := rd d.curCell (d.ifMeta d.current (rd (.tagMeta d.current)))
  look ++
    match d.cur.tmeta with
    | none => []
    | some m =>
      if isContentTag (lowerAll m.name) none then look
      else if d.inSpecial.isNone && (specialTag (lowerAll m.name)).isSome then look
      else []

end Doc

/-- `parse_wait` (parser.rs:976, 980-989). -/
def parseWaitB (d : Doc) (c : Char) : List Borrow :=
  if c = '<' then []
  else if d.opts.autoFixUnexpectedEndtag then
    rd d.curCell ++
      if d.cur.nodeType = .text || d.cur.nodeType = .spacesBetweenTag then wr d.curCell
      else d.addNewNodeB (Cell.new .text d.position)
  else d.addNewNodeB (Cell.new .text d.position)

/-- `parse_text` (parser.rs:1014, 1021). -/
def parseTextB (d : Doc) (c : Char) : List Borrow :=
  if c = '<' then wr d.curCell ++ d.setTagEndInfoB else []

/-- `parse_doctype_name` (parser.rs:1040-1041). -/
def parseDoctypeNameB (d : Doc) (c : Char) : List Borrow :=
  if isWs c then d.setTagMetaB ++ d.setTagMeta.setTagCodeInB else []

/-- `parse_tag_name` (parser.rs:1061-1081). -/
def parseTagNameB (d : Doc) (c : Char) : List Borrow :=
  if c = '>' then
    d.setTagMetaB ++ if isVoidTag (lowerAll d.prevChars) then [] else d.setTagMeta.checkTagTypeDoB
  else if c = '/' then d.setTagMetaB
  else if isWs c then d.setTagMetaB ++ d.setTagMeta.setTagCodeInB
  else []

/-- `parse_tag_wait` (parser.rs:1146-1229). -/
def parseTagWaitB (d : Doc) (c : Char) : List Borrow :=
  if c = '"' ∨ c = '\'' then
    d.isTagCodeInB ++
      match d.tagCodeIn? with
      | none => []
      | some ci =>
        if ci ≠ .waitValue then
          if d.codeIn = .htmlDoctype then
            d.addTagAttrValueB ++ (d.addTagAttrValue (some c)).after fun d => { d with markChar := c }.setTagCodeInB
          else d.addTagAttrKeyB ++ (d.addTagAttrKey.pushChar c).setTagCodeInB
        else { d with markChar := c }.setTagCodeInB
  else if c = '>' then
    rd d.curCell (d.ifMeta d.current (rd (.tagMeta d.current))) ++
      match d.cur.tmeta with
      | none => []
      | some m => if m.isVoid then [] else d.checkTagTypeDoB
  else if c = '/' then []
  else if c = '=' then
    d.isTagCodeInB ++
      match d.tagCodeIn? with
      | none => []
      | some ci =>
        if ci = .keyEnd then d.setTagCodeInB
        else
          d.isTagCodeInB ++
            if ci = .wait then
              if !d.opts.allowAttrKeyStartsWithEqualSign then []
              else (d.pushChar c).addTagAttrKeyB ++ ((d.pushChar c).addTagAttrKey).setTagCodeInB
            else { d.pushChar c with markChar := ' ' }.setTagCodeInB
  else if isWs c then []
  else
    d.isTagCodeInB ++
      match d.tagCodeIn? with
      | none => []
      | some ci =>
        if ci = .waitValue then { d.pushChar c with markChar := ' ' }.setTagCodeInB
        else (d.pushChar c).addTagAttrKeyB ++ (d.pushChar c).addTagAttrKey.setTagCodeInB

/-- `parse_tag_self_closing` (parser.rs:1100-1112): the node stays borrowed during the whole `if let`. -/
def parseTagSelfClosingB (d : Doc) (c : Char) : List Borrow :=
  if c = '>' then
    wr d.curCell
      (match d.cur.tmeta with
      | none => []
      | some m =>
        if !d.opts.allowSelfClosing && d.codeIn ≠ .htmlDoctype then
          rd (.tagMeta d.current) ++
            if !(m.isVoid || d.inSpecial.isSome) then rd (.tagMeta d.current) else wr (.tagMeta d.current)
        else wr (.tagMeta d.current))
  else if c = '/' then []
  else parseTagWaitB d c

/-- `parse_tag_attr_key` (parser.rs:1242-1269). -/
def parseTagAttrKeyB (d : Doc) (c : Char) : List Borrow :=
  if c = '=' ∨ c = '>' ∨ c = '/' ∨ isWs c = true then
    d.setTagAttrKeyB ++ d.setTagAttrKey.after fun d =>
      d.setTagCodeInB ++ if c = '>' then parseTagWaitB (d.setTagCodeIn .keyEnd) c else []
  else []

/-- `parse_tag_attr_value` (parser.rs:1287-1301). -/
def parseTagAttrValueB (d : Doc) (c : Char) : List Borrow :=
  if d.markChar = ' ' ∧ c = '>' then
    d.setTagAttrValueB none ++ (d.setTagAttrValue none).after fun d =>
      d.setTagCodeInB ++ parseTagWaitB (d.setTagCodeIn .valueEnd) c
  else if (if d.markChar = ' ' then isWs c else c == d.markChar) then
    let q := if d.markChar = ' ' then none else some d.markChar
    d.setTagAttrValueB q ++ ({ d with markChar := '\x00' }.setTagAttrValue q).after fun d => d.setTagCodeInB
  else []

/-- The matched branch of `parse_tagend` (parser.rs:1350-1371). -/
def Doc.closeMatchedB (d : Doc) (lastTag : NodeId) : List Borrow :=
  wr (.node lastTag) ++
    rd (.node lastTag)
      (match (d.heap.cell lastTag).childs with
      | some [x] => rd (.node x)
      | _ => []) ++
    (if !onlyText d.heap lastTag then d.setTextSpacesBetweenB else []) ++
    d.setTagEndInfoB ++ wr d.curCell

/-- `parse_tagend` (parser.rs:1321-1336, 1382-1384). -/
def parseTagEndB (d : Doc) (c : Char) : List Borrow :=
  if c = '>' then
    let stray : List Borrow := if !d.opts.autoFixUnexpectedEndtag then [] else rd d.curCell
    if d.chain.length > 1 then
      match d.chain.head? with
      | none => stray
      | some t =>
        rd (.node t) (d.ifMeta t (rd (.tagMeta t))) ++
          match (d.heap.cell t).tmeta with
          | none => []
          | some m =>
            let r := isEqualCharsIgnoreCase m.name (charsTrimEnd d.prevChars)
            if r.1 then
              if d.opts.caseSensitiveTagname && !r.2 then [] else d.closeMatchedB t
            else stray
    else stray
  else []

/-- `parse_content_tag` (parser.rs:1479). -/
def parseContentTagB (d : Doc) (c : Char) : List Borrow :=
  if c ≠ '>' then []
  else
    match d.detect with
    | none => []
    | some endTag =>
      match contentMatch d.opts.caseSensitiveTagname endTag.reverse (d.prevChars.reverse.dropWhile isWs) with
      | some _ => wr d.curCell
      | none => []

/-- `parse_comment_or_cdata` (parser.rs:1509-1512). -/
def parseCommentOrCdataB (d : Doc) (c : Char) : List Borrow :=
  let total := d.prevChars.length
  if c = '>' ∧ total > 2
      ∧ d.prevChars[total - 1]? = some d.markChar ∧ d.prevChars[total - 2]? = some d.markChar then
    wr d.curCell ++ d.setTagEndInfoB
  else []

/-- `fix_unescaped_lt` (parser.rs:1943, 1951-1960, 1964-1972, 1994-1996, 2010). -/
def fixUnescapedLtB (d : Doc) (c : Char) : List Borrow :=
  let chainTop : NodeId := match d.chain.head? with
    | some p => p
    | none => d.root
  -- a new text below `p`, then `parse_text` on it
  let below (p : NodeId) : List Borrow :=
    wr (.node p) (wr (.node d.heap.size)) ++
      if c = '<' then wr (.node d.heap.size) ++ wr (.node d.heap.size) else []
  rd d.curCell ++
    match d.cur.nodeType with
    | .text => wr d.curCell ++ parseTextB d c
    | .spacesBetweenTag => wr d.curCell ++ wr d.curCell ++ parseTextB d c
    | .tag =>
      let isClosed := match d.cur.tmeta with
        | some m => m.selfClosed || m.autoFix
        | none => false
      rd d.curCell (d.ifMeta d.current (rd (.tagMeta d.current))) ++ below (if !isClosed then d.current else chainTop)
    | _ => below chainTop

/-- `parse_unkown_tag` (parser.rs:1533-1552, 1570). -/
def parseUnkownTagB (d : Doc) (c : Char) : List Borrow :=
  if isLower c || isUpper c then
    d.addNewNodeB (Cell.new .tag d.memPosition) ++
      (d.addNewNode (Cell.new .tag d.memPosition)).after fun d => (d.setCodeIn .tag).setTextSpacesBetweenB
  else if c = '/' then
    d.addNewNodeB (Cell.new .tagEnd d.memPosition) ++
      if !d.opts.autoFixUnclosedTag then []
      else (d.addNewNode (Cell.new .tagEnd d.memPosition)).after fun d => wr d.curCell
  else if c = '!' then []
  else if !d.opts.autoFixUnescapedLt then []
  else fixUnescapedLtB d c

/-- `parse_exclamation_begin` (parser.rs:1607-1609, 1615-1620, 1651-1660). -/
def parseExclamationBeginB (d : Doc) (c : Char) : List Borrow :=
  match d.detect with
  | some nextChars =>
    if d.prevChars.length < nextChars.length ∧ nextChars[d.prevChars.length]? = some (toUpper c) ∧
        d.prevChars.length = nextChars.length - 1 then
      let new (t : NodeType) : List Borrow :=
        d.addNewNodeB (Cell.new t d.memPosition) ++
          (d.addNewNode (Cell.new t d.memPosition)).after fun d => d.setTextSpacesBetweenB
      if c = '-' then new .comment
      else if c = '[' then new .xmlCdata
      else if c = 'E' ∨ c = 'e' then new .htmlDoctype
      else []
    else []
  | none =>
    if c = '[' ∧ d.inSpecial.isSome then
      match d.chain.head? with
      | none => []
      | some t => rd (.node t) (d.ifMeta t (rd (.tagMeta t)))
    else []

/-- The borrows of `next` (parser.rs:1863-1869). -/
def runHandleB (d : Doc) (c : Char) : List Borrow :=
  match d.handle with
  | .noop => []
  | .wait => parseWaitB d c
  | .text => parseTextB d c
  | .doctypeName => parseDoctypeNameB d c
  | .tagName => parseTagNameB d c
  | .tagSelfClosing => parseTagSelfClosingB d c
  | .tagWait => parseTagWaitB d c
  | .attrKey => parseTagAttrKeyB d c
  | .attrValue => parseTagAttrValueB d c
  | .tagEnd => parseTagEndB d c
  | .contentTag => parseContentTagB d c
  | .commentOrCdata => parseCommentOrCdataB d c
  | .unkownTag => parseUnkownTagB d c
  | .exclamationBegin => parseExclamationBeginB d c

namespace Doc

/-- `fix_unclosed_tag` (parser.rs:1923-1927, 1934); the borrow of line 1927 lives until the end of the `if let`. -/
def fixUnclosedTagB (d : Doc) (unclosed : List NodeId) : List Borrow :=
  unclosed.flatMap fun t =>
    wr (.node t) (d.ifMeta t (wr (.tagMeta t) ++ rd (.tagMeta t))) ++ d.ifMeta t (wr (.node t))

/-- `eof` (parser.rs:2022-2031, 2042, 2058, 2065, 2070). -/
def eofB (d : Doc) (ctx : Str) : List Borrow :=
  (if d.chain.length > 1 then
    if !d.opts.autoFixUnclosedTag then
      match d.chain.head? with
      | none => []
      | some t => rd (.node t) (d.ifMeta t (rd (.tagMeta t)))
    else { d with chain := d.chain.drop (d.chain.length - 1) }.fixUnclosedTagB d.chain.dropLast.reverse
  else []) ++
  (d.eofChain ctx).after fun d =>
    (match d.codeIn with
    | .textNode => wr d.curCell
    | .unkown | .abstractRoot => []
    | .tag => if !d.opts.autoFixUnclosedTag then rd d.curCell else []
    | _ => rd d.curCell) ++
    (d.eofState ctx).after fun d => wr (.node d.root)

/-- `into_root` (parser.rs:1766). -/
def intoRootB (d : Doc) : List Borrow := wr .doc (wr (.node d.root))

/-- The loop of `parse` (parser.rs:1774-1776). -/
def runB (d : Doc) (ctx : Str) : Str → List Borrow
  | [] => []
  | c :: cs => runHandleB d c ++ (d.next c ctx).after fun d => d.runB ctx cs

/-- All borrows of `Doc::parse` (parser.rs:1771-1779). -/
def parseB (content : Str) (opts : ParseOptions) : List Borrow :=
  newB ++ (Doc.new opts).runB content content ++
    ((Doc.new opts).run content content).after fun d =>
      d.eofB content ++ (d.eof content).after fun d => d.intoRootB

end Doc

/-- `clone_node_with` (parser.rs:522, 528, 537-543).  The node `i` itself is borrowed by the caller. -/
def Heap.cloneWithB (reduce : Nat) : Nat → Heap → NodeId → List Borrow
  | 0, _, _ => []
  | fuel + 1, h, i =>
    let c := h.cell i
    match cloneData reduce c.toNodeD with
    | none => []
    | some dat =>
      (if c.tmeta.isSome then rd (.tagMeta i) else []) ++
      let afterEnd : List Borrow × Option (Heap × Option NodeId) :=
        match c.endTag with
        | none => ([], some (h, none))
        | some e => (rd (.node e) (Heap.cloneWithB reduce fuel h e),
          (Heap.cloneWith reduce fuel h e).map fun x => (x.1, some x.2))
      afterEnd.1 ++
      match afterEnd.2 with
      | none => []
      | some (h, e') =>
        let me := h.size
        let h := h.push { toNodeD := dat, endTag := e', root := c.root, document := c.document }
        match c.childs with
        | none => []
        | some ids =>
          -- the loop over the children with the heap so far; `none` after a panic
          let step : List Borrow × Option (Heap × List NodeId) → NodeId → List Borrow × Option (Heap × List NodeId) :=
            fun acc node =>
              match acc.2 with
              | none => acc
              | some (h, done) =>
                let t := acc.1 ++ rd (.node node) (Heap.cloneWithB reduce fuel h node)
                match Heap.cloneWith reduce fuel h node with
                | none => (t, none)
                | some (h, cid) =>
                  (t ++ wr (.node cid) ++ wr (.node cid) ++ rd (.node node) (wr (.node cid)),
                    some (h.upd cid fun n =>
                      { n with parent := some me, prev := done.getLast?, index := (h.cell node).index }, done ++ [cid]))
          let r := ids.foldl step ([], some (h, []))
          r.1 ++ if r.2.isSome then wr (.node me) else []

/-- `node.borrow().clone_node()` (parser.rs:549-551). -/
def Heap.cloneNodeB (h : Heap) (fuel : Nat) (i : NodeId) : List Borrow :=
  rd (.node i) (h.cloneWithB (h.cell i).beginAt fuel i)

/-- `build_node` (parser.rs:663-667, 750-754): the tag data of a tag or doctype. -/
def Heap.buildNodeB (h : Heap) (i : NodeId) : List Borrow :=
  if ((h.cell i).nodeType = .tag ∨ (h.cell i).nodeType = .htmlDoctype) ∧ (h.cell i).tmeta.isSome then rd (.tagMeta i) else []

/-- `build_tree` (parser.rs:794-815), down to depth `fuel`; the node itself is borrowed by the caller. -/
def Heap.buildTreeB (h : Heap) : Nat → NodeId → List Borrow
  | 0, _ => []
  | fuel + 1, i =>
    h.buildNodeB i ++
      (((h.cell i).childs.getD []).flatMap fun x => rd (.node x) (h.buildTreeB fuel x)) ++
      match (h.cell i).endTag with
      | some e => rd (.node e) (h.buildNodeB e)
      | none => []

/-- `build` (parser.rs:817-891); `inner` tells that `inner_html` or `inner_text` is asked for.  For the root the element among the
children is looked for then.  Where the code panics because there is no such node the list goes on: it then holds more borrows than
are made. -/
def Heap.buildB (h : Heap) (fuel : Nat) (i : NodeId) (inner : Bool) : List Borrow :=
  if inner && (h.cell i).nodeType = .abstractRoot then
    ((h.cell i).childs.getD []).flatMap (fun x => rd (.node x)) ++
      match ((h.cell i).childs.getD []).filter fun x => (h.cell x).nodeType = .tag with
      | [x] => rd (.node x) (h.buildTreeB fuel x)
      | _ => ((h.cell i).childs.getD []).getLast?.elim [] fun x => rd (.node x)
  else h.buildTreeB fuel i

/-- `DocHolder::render` and `render_text` (parser.rs:2246-2253). -/
def Doc.renderB (d : Doc) (fuel : Nat) (inner : Bool) : List Borrow :=
  rd .doc (rd (.node d.root) (d.heap.buildB fuel d.root inner))

/-- `DocHolder::get_element_by_id` (parser.rs:2266-2268). -/
def Doc.getElementByIdB : List Borrow := rd .doc (rd .idTags)

end Rphtml
