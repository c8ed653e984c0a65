import Verif.Model.Node

/-!
# The parser state machine

Models `Doc` and the `parse_*` handlers of `src/parser.rs` (lines 954-2238).
-/

namespace Rphtml

/-- The possible values of the function pointer `Doc.handle` (parser.rs:954, 1711). -/
inductive Handler where
  | noop
  | wait
  | text
  | doctypeName
  | tagName
  | tagSelfClosing
  | tagWait
  | attrKey
  | attrValue
  | tagEnd
  | contentTag
  | commentOrCdata
  | unkownTag
  | exclamationBegin
deriving DecidableEq, Repr, Inhabited

/-- `Doc` (parser.rs:1699-1717), without the unused `chars` and `onerror`.
`chain` is `chain_nodes` with the last element first (top of the stack = head).
`heap` holds all nodes; `root` is always node `0`.
`idTags` is the `HashMap` as an association list whose first match wins (insert = cons). -/
structure Doc where
  codeIn : CodeTypeIn
  position : Nat
  memPosition : Nat
  detect : Option Str
  prevChars : Str
  markChar : Char
  chain : List NodeId
  current : NodeId
  inSpecial : Option (SpecialTag × Str)
  repeatWhitespace : Bool
  checkTextnode : Option NodeId
  handle : Handler
  opts : ParseOptions
  root : NodeId
  idTags : List (Str × NodeId)
  heap : Heap

namespace Doc

/-- `Doc::new` (parser.rs:1724-1761) followed by `doc.parse_options = options` (parser.rs:1773):
the heap holds only the abstract root, whose `root` link is itself. -/
def new (opts : ParseOptions) : Doc :=
  { codeIn := .abstractRoot, position := 0, memPosition := 0, detect := none, prevChars := [],
    markChar := '\x00', chain := [0], current := 0, inSpecial := none, repeatWhitespace := false,
    checkTextnode := none, handle := .wait, opts := opts, root := 0, idTags := [],
    heap := { size := 1,
              cell := fun i => if i = 0 then { Cell.new .abstractRoot 0 with root := some 0 }
                               else default } }

/-- The cell of `current_node`. -/
def cur (d : Doc) : Cell := d.heap.cell d.current

/-- `self.current_node.borrow_mut().… = …`. -/
def modCur (d : Doc) (f : Cell → Cell) : Doc := { d with heap := d.heap.upd d.current f }

/-- `if let Some(meta) = &self.current_node.borrow_mut().meta { *meta.borrow_mut() = f(meta) }`. -/
def modMeta (d : Doc) (f : TagMeta → TagMeta) : Doc :=
  d.modCur fun c => { c with tmeta := c.tmeta.map f }

/-- `set_code_in` (parser.rs:1822-1860). -/
def setCodeIn (d : Doc) (ci : CodeTypeIn) : Doc :=
  { d with
    codeIn := ci
    handle := match ci with
      | .unkown => .wait
      | .tag => .tagName
      | .tagEnd => .tagEnd
      | .textNode => .text
      | .htmlScript | .htmlStyle | .escapeableRawText => .contentTag
      | .htmlDoctype => .doctypeName
      | .abstractRoot => .wait
      | .comment => .commentOrCdata
      | .xmlCdata => .commentOrCdata
      | .unkownTag => .unkownTag
      | .exclamationBegin => .exclamationBegin }

/-- `self.prev_chars.push(c)`. -/
def pushChar (d : Doc) (c : Char) : Doc := { d with prevChars := d.prevChars ++ [c] }

/-- `add_new_node` (parser.rs:1872-1899). -/
def addNewNode (d : Doc) (node : Cell) : Res Doc :=
  let id := d.heap.size
  if node.nodeType ≠ .tagEnd then
    match d.chain.head? with
    | none => .panic .chainLast
    | some p =>
      let siblings := ((d.heap.cell p).childs).getD []
      let heap := d.heap.push
        { node with parent := some p, index := siblings.length, root := some d.root }
      let heap := heap.upd p fun c => { c with childs := some (siblings ++ [id]) }
      .ok { d with
        heap := heap
        current := id
        chain := if node.nodeType = .tag then id :: d.chain else d.chain }
  else
    .ok { d with heap := d.heap.push node, current := id }

/-- `set_tag_end_info` (parser.rs:1901-1910). -/
def setTagEndInfo (d : Doc) : Doc :=
  d.modCur fun c =>
    { c with endAt := if c.nodeType = .text then d.position else d.position + 1 }

/-- `set_text_spaces_between` (parser.rs:1912-1917). -/
def setTextSpacesBetween (d : Doc) : Doc :=
  match d.checkTextnode with
  | some t =>
    { d with heap := d.heap.upd t fun c => { c with nodeType := .spacesBetweenTag }
             checkTextnode := none }
  | none => d

/-- `clean_chars_to_vec` (parser.rs:1815-1819): the effect on `prev_chars`; the returned value is the
old `prevChars`. -/
def cleanChars (d : Doc) : Doc := { d with prevChars := [] }

/-- `set_tag_meta` (parser.rs:2078-2094); the returned flag is `isVoidTag (lowerAll d.prevChars)`. -/
def setTagMeta (d : Doc) : Doc :=
  let name := d.prevChars
  let m : TagMeta := { name := name, isVoid := isVoidTag (lowerAll name) }
  d.cleanChars.modCur fun c => { c with tmeta := some m }

/-- `set_tag_code_in` (parser.rs:2096-2107). -/
def setTagCodeIn (d : Doc) (ci : TagCodeIn) : Doc :=
  { (d.modMeta fun m => { m with codeIn := ci }) with
    handle := match ci with
      | .wait | .waitValue | .valueEnd => .tagWait
      | .key => .attrKey
      | .value => .attrValue
      | .keyEnd => d.handle }

/-- `is_tag_code_in` (parser.rs:2109-2118), as the tag state itself; `none` is the failed `expect`. -/
def tagCodeIn? (d : Doc) : Option TagCodeIn := d.cur.tmeta.map (·.codeIn)

/-- `add_tag_attr_key` (parser.rs:2120-2125). -/
def addTagAttrKey (d : Doc) : Doc :=
  d.modMeta fun m => { m.addAttrKey with codeIn := .key }

/-- `set_tag_attr_key` (parser.rs:2127-2142). -/
def setTagAttrKey (d : Doc) : Res Doc :=
  let key := d.prevChars
  let d := d.cleanChars
  match d.cur.tmeta with
  | none => .ok d
  | some m =>
    if m.attrs.length = 0 then .panic .attrKeyUnderflow
    else
      let m := m.mapOrInsert (lowerAll key) (m.attrs.length - 1)
      match m.setAttrKey key with
      | none => .panic .setAttrKeyLast
      | some m => .ok (d.modCur fun c => { c with tmeta := some m })

/-- `add_tag_attr_value` (parser.rs:2144-2152). -/
def addTagAttrValue (d : Doc) (quote : Option Char) : Res Doc :=
  match d.cur.tmeta with
  | none => .panic .addAttrValueMeta
  | some m =>
    .ok (d.modCur fun c => { c with tmeta := some { m.addAttrValue quote with codeIn := .value } })

/-- `set_tag_attr_value` (parser.rs:2155-2170). -/
def setTagAttrValue (d : Doc) (quote : Option Char) : Res Doc :=
  let value := d.prevChars
  let d := d.cleanChars
  match d.cur.tmeta with
  | none => .ok d
  | some m =>
    match m.setAttrValue value quote with
    | none => .panic .setAttrValueLast
    | some m =>
      let d := d.modCur fun c => { c with tmeta := some m }
      match (m.attrs.getLast?).bind Attr.checkIfId with
      | some idName => .ok { d with idTags := (idName, d.current) :: d.idTags }
      | none => .ok d

/-- `check_tag_type_do` (parser.rs:2173-2232). -/
def checkTagTypeDo (d : Doc) : Res Doc :=
  match d.cur.tmeta with
  | none => .panic .checkTagMeta
  | some m =>
    let lc := lowerAll m.name
    if isContentTag lc none then
      let d := { d with memPosition := d.position }
      let ci : CodeTypeIn :=
        if isEqualChars lc scriptTagName none then .htmlScript
        else if isEqualChars lc styleTagName none then .htmlStyle
        else .escapeableRawText
      .ok { d.setCodeIn ci with detect := some (['<', '/'] ++ m.name) }
    else
      let sp := match d.inSpecial with
        | some s => some s
        | none =>
          match specialTag lc with
          | some s => some (s, m.name)
          | none => none
      .ok ({ d with inSpecial := sp }.setCodeIn .unkown)

end Doc

/-- `Doc::error` (parser.rs:2074-2076). -/
def Doc.error {α : Type} (d : Doc) (kind : ErrorKind) (context : Str) : Res α :=
  createParseError kind d.position context

/-! ## Handlers -/

/-- `parse_wait` (parser.rs:966-1003). -/
def parseWait (d : Doc) (c : Char) : Res Doc :=
  if c = '<' then
    .ok ({ d with memPosition := d.position }.setCodeIn .unkownTag)
  else if d.opts.autoFixUnexpectedEndtag
      && (d.cur.nodeType = .text || d.cur.nodeType = .spacesBetweenTag) then
    let t := d.cur.nodeType
    let d := match d.cur.content with
      | some content =>
        { d with prevChars := d.prevChars ++ content }.modCur fun n => { n with content := some [] }
      | none => d
    let d := { d with repeatWhitespace := if t = NodeType.text then false else isWs c }
    .ok ((d.pushChar c).setCodeIn .textNode)
  else do
    let d ← d.addNewNode (Cell.new .text d.position)
    let d := { d with repeatWhitespace := isWs c }
    .ok ((d.pushChar c).setCodeIn .textNode)

/-- `parse_text` (parser.rs:1008-1033). -/
def parseText (d : Doc) (c : Char) : Res Doc :=
  if c = '<' then
    let content := d.prevChars
    let d := d.cleanChars.modCur fun n => { n with content := some content }
    let d := { d with
      checkTextnode := if d.repeatWhitespace then some d.current else none
      memPosition := d.position }
    .ok (d.setTagEndInfo.setCodeIn .unkownTag)
  else
    let d := if d.repeatWhitespace then { d with repeatWhitespace := isWs c } else d
    .ok (d.pushChar c)

/-- `parse_doctype_name` (parser.rs:1038-1046). -/
def parseDoctypeName (d : Doc) (c : Char) (ctx : Str) : Res Doc :=
  if isWs c then .ok (d.setTagMeta.setTagCodeIn .wait)
  else d.error (.wrongHtmlDoctype c) ctx

/-- `parse_tag_name` (parser.rs:1052-1088). -/
def parseTagName (d : Doc) (c : Char) : Res Doc :=
  if c = '>' then
    if isVoidTag (lowerAll d.prevChars) then
      .ok ({ d.setTagMeta with chain := d.chain.tail }.setCodeIn .unkown)
    else d.setTagMeta.checkTagTypeDo
  else if c = '/' then
    .ok { d.setTagMeta with handle := .tagSelfClosing }
  else if isWs c then
    .ok (d.setTagMeta.setTagCodeIn .wait)
  else .ok (d.pushChar c)

/-- `parse_tag_wait` (parser.rs:1133-1234). -/
def parseTagWait (d : Doc) (c : Char) (ctx : Str) : Res Doc :=
  if c = '"' ∨ c = '\'' then
    match d.tagCodeIn? with
    | none => .panic .tagCodeInMeta
    | some ci =>
      if ci ≠ .waitValue then
        if d.codeIn = .htmlDoctype then do
          let d ← d.addTagAttrValue (some c)
          .ok ({ d with markChar := c }.setTagCodeIn .value)
        else
          .ok ((d.addTagAttrKey.pushChar c).setTagCodeIn .key)
      else .ok ({ d with markChar := c }.setTagCodeIn .value)
  else if c = '>' then
    match d.cur.tmeta with
    | none => .panic .tagWaitMeta
    | some m =>
      if m.isVoid then .ok ({ d with chain := d.chain.tail }.setCodeIn .unkown)
      else d.checkTagTypeDo
  else if c = '/' then .ok { d with handle := .tagSelfClosing }
  else if c = '=' then
    match d.tagCodeIn? with
    | none => .panic .tagCodeInMeta
    | some ci =>
      if ci = .keyEnd then .ok (d.setTagCodeIn .waitValue)
      else if ci = .wait then
        if !d.opts.allowAttrKeyStartsWithEqualSign then
          createParseError (.wrongTag "'=' is not a valid attribute name".toList) d.position ctx
        else .ok (((d.pushChar c).addTagAttrKey).setTagCodeIn .key)
      else .ok ({ d.pushChar c with markChar := ' ' }.setTagCodeIn .value)
  else if isWs c then .ok d
  else
    match d.tagCodeIn? with
    | none => .panic .tagCodeInMeta
    | some ci =>
      if ci = .waitValue then .ok ({ d.pushChar c with markChar := ' ' }.setTagCodeIn .value)
      else .ok ((d.pushChar c).addTagAttrKey.setTagCodeIn .key)

/-- `parse_tag_self_closing` (parser.rs:1094-1130). -/
def parseTagSelfClosing (d : Doc) (c : Char) (ctx : Str) : Res Doc :=
  if c = '>' then
    match d.cur.tmeta with
    | none => .panic .selfClosingMeta
    | some m =>
      if !d.opts.allowSelfClosing && d.codeIn ≠ .htmlDoctype
          && !(m.isVoid || d.inSpecial.isSome) then
        d.error (.wrongSelfClosing m.name) ctx
      else
        let d := d.modCur fun n => { n with tmeta := some { m with selfClosed := true } }
        .ok ({ d with chain := d.chain.tail }.setCodeIn .unkown)
  else if c = '/' then .ok d
  else parseTagWait d c ctx

/-- `parse_tag_attr_key` (parser.rs:1237-1276). -/
def parseTagAttrKey (d : Doc) (c : Char) (ctx : Str) : Res Doc :=
  if c = '=' then do
    let d ← d.setTagAttrKey
    .ok (d.setTagCodeIn .waitValue)
  else if c = '>' then do
    let d ← d.setTagAttrKey
    parseTagWait (d.setTagCodeIn .keyEnd) c ctx
  else if c = '/' then do
    let d ← d.setTagAttrKey
    .ok { d.setTagCodeIn .wait with handle := .tagSelfClosing }
  else if isWs c then do
    let d ← d.setTagAttrKey
    .ok { d.setTagCodeIn .keyEnd with handle := .tagWait }
  else .ok (d.pushChar c)

/-- `parse_tag_attr_value` (parser.rs:1279-1306). -/
def parseTagAttrValue (d : Doc) (c : Char) (ctx : Str) : Res Doc :=
  let quote := d.markChar
  if quote = ' ' ∧ c = '>' then do
    let d ← d.setTagAttrValue none
    parseTagWait (d.setTagCodeIn .valueEnd) c ctx
  else
    let isEnd := if quote = ' ' then isWs c else c == quote
    let attrQuote := if quote = ' ' then none else some quote
    if isEnd then do
      let d ← { d with markChar := '\x00' }.setTagAttrValue attrQuote
      .ok (d.setTagCodeIn .wait)
    else .ok (d.pushChar c)

/-- Does the tag hold nothing but one text node (parser.rs:1352-1355)? -/
def onlyText (h : Heap) (t : NodeId) : Bool :=
  match (h.cell t).childs with
  | some [x] => (h.cell x).nodeType = .text
  | _ => false

/-- Leaving svg / math (parser.rs:1363-1368). -/
def Doc.leaveSpecial (d : Doc) (fixEndTagName : Str) : Doc :=
  match d.inSpecial with
  | some (_, name) => if isEqualChars name fixEndTagName none then { d with inSpecial := none } else d
  | none => d

/-- The matched branch of `parse_tagend` (parser.rs:1343-1373). -/
def Doc.closeMatched (d : Doc) (lastTag : NodeId) (endTagName : Str) : Doc :=
  let d := { d with chain := d.chain.tail }
  let d := { d with heap := d.heap.upd lastTag fun n => { n with endTag := some d.current } }
  let d := if !onlyText d.heap lastTag then d.setTextSpacesBetween else d
  let d := (d.setTagEndInfo).setCodeIn .unkown
  let d := d.leaveSpecial (charsTrimEnd endTagName)
  d.cleanChars.modCur fun n => { n with parent := some lastTag, content := some endTagName }

/-- `parse_tagend` (parser.rs:1311-1402).  The arena never frees a node, so the `upgrade()` of line
1383 succeeds here; `c01_upgrade` shows that its target is held by the tree at that point. -/
def parseTagEnd (d : Doc) (c : Char) (ctx : Str) : Res Doc :=
  if c = '>' then
    let endTagName := d.prevChars
    let fixEndTagName := charsTrimEnd endTagName
    -- is_endtag_ok: `none` = not matched, `some last_tag` = matched
    let matched : Res (Option NodeId) :=
      if d.chain.length > 1 then
        match d.chain.head? with
        | none => .ok none
        | some t =>
          match (d.heap.cell t).tmeta with
          | none => .panic .tagendMeta
          | some m =>
            let r := isEqualCharsIgnoreCase m.name fixEndTagName
            if r.1 then
              if d.opts.caseSensitiveTagname && !r.2 then
                d.error (.wrongCaseSensitive endTagName) ctx
              else .ok (some t)
            else .ok none
      else .ok none
    match matched with
    | .panic s => .panic s
    | .err e => .err e
    | .ok (some lastTag) =>
      .ok (d.closeMatched lastTag endTagName)
    | .ok none =>
      if !d.opts.autoFixUnexpectedEndtag then
        d.error (.wrongEndTag d.prevChars) ctx
      else
        let d := match d.cur.prev with
          | some p => { d with current := p }
          | none => d
        .ok (d.cleanChars.setCodeIn .unkown)
  else .ok (d.pushChar c)

/-- One comparison of `parse_content_tag` (parser.rs:1441-1454). -/
def contentCharMatch (caseSensitive : Bool) (detectChar prevChar : Char) : Bool :=
  if detectChar = prevChar then true
  else if caseSensitive then false
  else if isUpper detectChar then toLower detectChar = prevChar
  else if isLower detectChar then toUpper detectChar = prevChar
  else false

/-- The backwards matching loop of `parse_content_tag` (parser.rs:1436-1463), on the reversed
detect characters and the reversed previous characters.  `some rest` means that all detect characters
matched (`detect_len == 0`) and `rest` is what is left before them, reversed. -/
def contentMatch (caseSensitive : Bool) : Str → Str → Option Str
  | [], prev => some prev
  | _ :: _, [] => none
  | dc :: ds, p :: ps => if contentCharMatch caseSensitive dc p then contentMatch caseSensitive ds ps else none

/-- `parse_content_tag` (parser.rs:1407-1490).  The loop `prev_len >= detect_len` checks and the
index arithmetic are replaced by matching on reversed lists: `revPrev` is `prev_chars` without the
trailing whitespace, reversed.  With `prev_len < detect_len` the loop is skipped and `detect_len`
stays positive (it is at least 2), which is the `none` of `contentMatch` on a too short list. -/
def parseContentTag (d : Doc) (c : Char) : Res Doc :=
  if c ≠ '>' then .ok (d.pushChar c)
  else
    match d.detect with
    | none => .panic .detectMissing
    | some endTag =>
      let revPrev := d.prevChars.reverse.dropWhile isWs
      match contentMatch d.opts.caseSensitiveTagname endTag.reverse revPrev with
      | some rest =>
        let prevLen := rest.length
        let d := d.setCodeIn .unkown
        let endTagName := (d.prevChars.drop prevLen).drop 2
        let content := d.prevChars.take prevLen
        let id := d.heap.size
        let e : Cell := { Cell.new .tagEnd (d.position + 1) with
          content := some endTagName, parent := some d.current }
        let d := { d with heap := d.heap.push e }
        let d := d.modCur fun n => { n with endTag := some id, content := some content }
        .ok { d with prevChars := [], chain := d.chain.tail, detect := none }
      | none => .ok (d.pushChar c)

/-- `parse_comment_or_cdata` (parser.rs:1495-1520). -/
def parseCommentOrCdata (d : Doc) (c : Char) : Res Doc :=
  let total := d.prevChars.length
  if c = '>' ∧ total > 2
      ∧ d.prevChars[total - 1]? = some d.markChar ∧ d.prevChars[total - 2]? = some d.markChar then
    let content := d.prevChars.take (total - 2)
    let d := d.cleanChars.modCur fun n => { n with content := some content }
    .ok ({ d with markChar := '\x00' }.setTagEndInfo.setCodeIn .unkown)
  else .ok (d.pushChar c)

/-- `fix_unescaped_lt` (parser.rs:1939-2014).  The final `handle(self, c, context)` is `parse_text`,
because `set_code_in(TextNode)` has just been executed. -/
def fixUnescapedLt (d : Doc) (c : Char) : Res Doc :=
  let isEndText := c = '<'
  let chars : Str := if isEndText then ['&', 'l', 't', ';'] else ['&', 'l', 't', ';', c]
  let nodeType := d.cur.nodeType
  let chainTop : NodeId := match d.chain.head? with
    | some p => p
    | none => d.root
  -- the match on the node type: the new state and the parent for a fresh text node
  let r : Doc × Option NodeId :=
    match nodeType with
    | .text | .spacesBetweenTag =>
      let d := match d.cur.content with
        | some content =>
          { d with prevChars := content ++ chars }.modCur fun n => { n with content := some [] }
        | none => d
      let d := if nodeType = .spacesBetweenTag then
          d.modCur fun n => { n with nodeType := .text } else d
      (d, none)
    | .tag =>
      let isClosed := match d.cur.tmeta with
        | some m => m.selfClosed || m.autoFix
        | none => false
      (d, some (if !isClosed then d.current else chainTop))
    | _ => (d, some chainTop)
  let d := match r.2 with
    | some p =>
      let d := r.1
      let id := d.heap.size
      let siblings := ((d.heap.cell p).childs).getD []
      let heap := d.heap.push { Cell.new .text d.memPosition with index := siblings.length }
      let heap := heap.upd p fun n => { n with childs := some (siblings ++ [id]) }
      { d with heap := heap, current := id, prevChars := chars }
    | none => r.1
  let d := { d with repeatWhitespace := false }.setCodeIn .textNode
  if isEndText then parseText d c else .ok d

/-- `parse_unkown_tag` (parser.rs:1525-1574). -/
def parseUnkownTag (d : Doc) (c : Char) (ctx : Str) : Res Doc :=
  if isLower c || isUpper c then do
    let d ← d.addNewNode (Cell.new .tag d.memPosition)
    .ok ((d.setCodeIn .tag).setTextSpacesBetween.pushChar c)
  else if c = '/' then
    if !d.opts.autoFixUnclosedTag then do
      let d ← d.addNewNode (Cell.new .tagEnd d.memPosition)
      .ok (d.setCodeIn .tagEnd)
    else do
      let prevNode := d.current
      let d ← d.addNewNode (Cell.new .tagEnd d.memPosition)
      .ok ((d.modCur fun n => { n with prev := some prevNode }).setCodeIn .tagEnd)
  else if c = '!' then .ok (d.setCodeIn .exclamationBegin)
  else if !d.opts.autoFixUnescapedLt then
    createParseError (.wrongTag [c]) d.memPosition ctx
  else fixUnescapedLt d c

/-- `parse_exclamation_begin` (parser.rs:1579-1692). -/
def parseExclamationBegin (d : Doc) (c : Char) (ctx : Str) : Res Doc :=
  match d.detect with
  | some nextChars =>
    let totalLen := d.prevChars.length
    let actualLen := nextChars.length
    if totalLen < actualLen then
      match nextChars[totalLen]? with
      | none => .panic .detectGet
      | some curShouldBe =>
        if curShouldBe = toUpper c then
          if totalLen = actualLen - 1 then
            if c = '-' ∨ c = '[' then do
              let d := if c = '-' then { d with markChar := '-' }.setCodeIn .comment
                else { d with markChar := ']' }.setCodeIn .xmlCdata
              let d ← d.addNewNode
                (Cell.new (if c = '-' then .comment else .xmlCdata) d.memPosition)
              .ok { d.cleanChars.setTextSpacesBetween with detect := none }
            else if c = 'E' ∨ c = 'e' then do
              let d ← (d.setCodeIn .htmlDoctype).addNewNode (Cell.new .htmlDoctype d.memPosition)
              .ok ({ d.setTextSpacesBetween with detect := none }.pushChar c)
            else .panic .exclUnreachable
          else .ok (d.pushChar c)
        else createParseError (.unrecognizedTag d.prevChars nextChars) d.memPosition ctx
    else .ok (d.pushChar c)
  | none =>
    if c = '-' then .ok ({ d with detect := some detectComment }.pushChar c)
    else if c = 'D' ∨ c = 'd' then .ok ({ d with detect := some detectDoctype }.pushChar c)
    else if c = '[' then
      match d.inSpecial with
      | some (_, tagName) =>
        match d.chain.head? with
        | none => .panic .cdataChainLast
        | some t =>
          match (d.heap.cell t).tmeta with
          | none => .panic .cdataChainMeta
          | some m =>
            if isEqualChars tagName m.name none then
              createParseError (.commonError "<![CDATA tag can in sub node".toList) d.position ctx
            else .ok ({ d with detect := some detectCdata }.pushChar c)
      | none =>
        createParseError
          (.commonError "wrong <![CDATA tag can only used in Svg or MathML".toList) d.position ctx
    else createParseError (.wrongTag d.prevChars) d.memPosition ctx

/-- Calling the function pointer `self.handle` (parser.rs:1864-1865). -/
def runHandle (d : Doc) (c : Char) (ctx : Str) : Res Doc :=
  match d.handle with
  | .noop => .ok d
  | .wait => parseWait d c
  | .text => parseText d c
  | .doctypeName => parseDoctypeName d c ctx
  | .tagName => parseTagName d c
  | .tagSelfClosing => parseTagSelfClosing d c ctx
  | .tagWait => parseTagWait d c ctx
  | .attrKey => parseTagAttrKey d c ctx
  | .attrValue => parseTagAttrValue d c ctx
  | .tagEnd => parseTagEnd d c ctx
  | .contentTag => parseContentTag d c
  | .commentOrCdata => parseCommentOrCdata d c
  | .unkownTag => parseUnkownTag d c ctx
  | .exclamationBegin => parseExclamationBegin d c ctx

/-- `Doc::next` (parser.rs:1863-1869). -/
def Doc.next (d : Doc) (c : Char) (ctx : Str) : Res Doc := do
  let d ← runHandle d c ctx
  .ok { d with position := d.position + 1 }

/-- `fix_unclosed_tag` (parser.rs:1920-1937), over the open tags from the outermost to the innermost. -/
def Doc.fixUnclosedTag (d : Doc) : List NodeId → Doc
  | [] => d
  | t :: ts =>
    match (d.heap.cell t).tmeta with
    | none => d.fixUnclosedTag ts
    | some m =>
      let id := d.heap.size
      let e : Cell := { Cell.new .tagEnd d.position with content := some m.name, parent := some t }
      let heap := (d.heap.push e).upd t fun n =>
        { n with tmeta := some { m with autoFix := true }, endTag := some id }
      Doc.fixUnclosedTag { d with heap := heap } ts

/-- The first half of `eof`: open tags (parser.rs:2018-2037). -/
def Doc.eofChain (d : Doc) (ctx : Str) : Res Doc :=
  if d.chain.length > 1 then
    if !d.opts.autoFixUnclosedTag then
      match d.chain.head? with
      | none => .ok d
      | some t =>
        match (d.heap.cell t).tmeta with
        | none => .panic .eofMeta
        | some m => createParseError (.unclosedTag m.name) (d.heap.cell t).beginAt ctx
    else
      .ok ({ d with chain := d.chain.drop (d.chain.length - 1) }.fixUnclosedTag d.chain.dropLast.reverse)
  else .ok d

/-- The second half of `eof`: the unfinished construct (parser.rs:2038-2070). -/
def Doc.eofState (d : Doc) (ctx : Str) : Res Doc :=
  match d.codeIn with
  | .textNode =>
    .ok (d.modCur fun n =>
      { n with
        content := some d.prevChars
        nodeType := if d.repeatWhitespace then .spacesBetweenTag else n.nodeType
        endAt := d.position })
  | .unkown | .abstractRoot => .ok d
  | .tag =>
    if !d.opts.autoFixUnclosedTag then
      createParseError (.unclosedTag d.codeIn.debug) d.cur.beginAt ctx
    else .ok d
  | _ => createParseError (.unclosedTag d.codeIn.debug) d.cur.beginAt ctx

/-- `eof` (parser.rs:2017-2072). -/
def Doc.eof (d : Doc) (ctx : Str) : Res Doc := do
  let d ← d.eofChain ctx
  let d ← d.eofState ctx
  .ok { d with heap := d.heap.upd d.root fun n => { n with endAt := d.position } }

/-- `into_root` (parser.rs:1764-1768): only sets the root's link to the document. -/
def Doc.intoRoot (d : Doc) : Doc :=
  { d with heap := d.heap.upd d.root fun n => { n with document := true } }

/-- The character loop of `Doc::parse` (parser.rs:1774-1776). -/
def Doc.run (d : Doc) (ctx : Str) : Str → Res Doc
  | [] => .ok d
  | c :: cs => do
    let d ← d.next c ctx
    d.run ctx cs

/-- `Doc::parse` (parser.rs:1771-1779). -/
def Doc.parse (content : Str) (opts : ParseOptions) : Res Doc := do
  let d ← (Doc.new opts).run content content
  let d ← d.eof content
  .ok d.intoRoot

/-- `BufRead::lines` on the decoded text: split at `\n`, drop one `\r` before it, no empty last line. -/
def rustLines (s : Str) : List Str := go [] s
where
  /-- `acc` is the current line, reversed. -/
  go : Str → Str → List Str
    | acc, [] => if acc.isEmpty then [] else [acc.reverse]
    | acc, '\n' :: cs =>
      (match acc with
        | '\r' :: acc' => acc'.reverse
        | _ => acc.reverse) :: go [] cs
    | acc, c :: cs => go (c :: acc) cs

/-- The line loop of `Doc::parse_file` (parser.rs:1797-1804): `content` accumulates the lines without
their terminators, which is what the errors are positioned in. -/
def Doc.runLines (d : Doc) (content : Str) : List Str → Res (Doc × Str)
  | [] => .ok (d, content)
  | l :: ls => do
    let content := content ++ l
    let d ← d.run content l
    let d ← d.next '\n' content
    d.runLines content ls

/-- `Doc::parse_file` (parser.rs:1782-1807) on the decoded text of the file; opening and decoding the
file is not modelled. -/
def Doc.parseFile (text : Str) (opts : ParseOptions) : Res Doc := do
  let (d, content) ← (Doc.new opts).runLines [] (rustLines text)
  let d ← d.eof content
  .ok d.intoRoot

/-- `DocHolder::get_element_by_id` (parser.rs:2236-2238, 2266-2268). -/
def Doc.getElementById (d : Doc) (id : Str) : Option NodeId := d.idTags.lookup id

/-- The document as a tree (what `get_root_node` lets a user traverse). -/
def Doc.tree? (d : Doc) : Option Tree := d.heap.toTree? d.heap.size d.root

end Rphtml
