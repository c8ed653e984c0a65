import Verif.Model.Parser

/-!
# The work of parsing

How many characters the parser touches: every character that is pushed, moved to another vector, copied,
lower-cased, hashed or compared counts one, and every call of `Doc::next` counts one more.  Comparisons of
names are charged in full although the code leaves them at the first difference, and the list of void
elements is charged in full although the code leaves it at the first hit.  Not counted: the growth of
vectors and hash maps, allocation, and dropping what is no longer used.

`Vec::append`, `split_off` and `clone` move or copy every element and are charged the number of elements.
-/

namespace Rphtml

/-- `is_equal_chars` (parser.rs:215-234) and `is_equal_chars_ignore_case` (parser.rs:236-266): the lengths
first, then at most every character. -/
def eqWork (a b : Str) : Nat := if a.length = b.length then 1 + a.length else 1

/-- `is_void_tag` (parser.rs:108-115). -/
def voidWork (name : Str) : Nat := (voidElements.map fun v => eqWork v name).sum

/-- `is_content_tag` (parser.rs:125-127). -/
def rawNameWork (name : Str) : Nat :=
  eqWork name styleTagName + eqWork name scriptTagName + eqWork name textareaTagName + eqWork name titleTagName

/-- `set_tag_meta` (parser.rs:2078-2094): `clean_chars_to_vec`, the lower-cased name, `is_void_tag`. -/
def metaWork (name : Str) : Nat := name.length + name.length + voidWork name

/-- `check_tag_type_do` (parser.rs:2173-2232): the lower-cased name, `is_content_tag`, then two more
comparisons and the characters to detect (2191-2213), or the lookup in `SPECIAL_TAG_MAP` and the copy of the
name (2214-2229). -/
def typeWork (name : Str) : Nat :=
  name.length + rawNameWork name +
    if isContentTag (lowerAll name) none then eqWork name scriptTagName + eqWork name styleTagName + 2 + name.length
    else name.length + name.length

/-- The `>` of `parse_tag_wait` (parser.rs:1162-1180). -/
def closeWork (m : TagMeta) : Nat := if m.isVoid then 0 else typeWork m.name

/-- `parse_tag_wait` (parser.rs:1133-1234). -/
def waitWork (m : TagMeta) (c : Char) : Nat := if c = '>' then closeWork m else 1

/-- `set_tag_attr_key` (parser.rs:2127-2142): moved, lower-cased, hashed. -/
def keyWork (key : Str) : Nat := key.length + key.length + key.length

/-- `set_tag_attr_value` (parser.rs:2155-2170): moved; `check_if_id` (parser.rs:317-326) compares the key with
`id` and copies the value, which is then hashed. -/
def valueWork (m : TagMeta) (value : Str) : Nat :=
  value.length + eqWork (((m.attrs.getLastD {}).key).getD []) ['i', 'd'] +
    if (({ m.attrs.getLastD {} with value := some value } : Attr).checkIfId).isSome then value.length + value.length
    else 0

/-- The length of the whitespace at the end. -/
def trailing (s : Str) : Nat := (s.reverse.takeWhile isWs).length

/-- The number of rounds of the backwards matching loop (parser.rs:1436-1463). -/
def matchWork (caseSensitive : Bool) : Str → Str → Nat
  | [], _ => 0
  | _ :: _, [] => 0
  | dc :: ds, p :: ps => if contentCharMatch caseSensitive dc p then 1 + matchWork caseSensitive ds ps else 1

/-- `parse_content_tag` (parser.rs:1407-1490): at a `>`, if enough characters are there, the trailing
whitespace (1421-1429) and the characters matched; if all matched, the end tag is split off twice (1470) and
the content once (1478). -/
def contentWork (d : Doc) (c : Char) : Nat :=
  let e := d.detect.getD []
  if c ≠ '>' then 1
  else if d.prevChars.length < e.length then 1
  else
    let revPrev := d.prevChars.reverse.dropWhile isWs
    trailing d.prevChars + matchWork d.opts.caseSensitiveTagname e.reverse revPrev +
      match contentMatch d.opts.caseSensitiveTagname e.reverse revPrev with
      | some rest => 2 * (d.prevChars.length - rest.length) + rest.length
      | none => 1

/-- The `>` of `parse_tagend` (parser.rs:1316-1395): the name is copied, trimmed and compared with the
innermost open tag; the end tag of svg / math is compared; the name is moved (or cleared). -/
def endWork (d : Doc) : Nat :=
  let name := d.prevChars
  name.length + name.length +
    (match d.chain.head?.bind fun t => (d.heap.cell t).tmeta with
      | some m => eqWork m.name (charsTrimEnd name)
      | none => 0) +
    (match d.inSpecial with
      | some (_, sp) => eqWork sp (charsTrimEnd name)
      | none => 0) +
    name.length

/-- `fix_unescaped_lt` (parser.rs:1939-2014): the content of a text is moved to a new vector, followed by
`&lt;` and the character; at a second `<` it is moved back by `parse_text`. -/
def ltWork (d : Doc) (c : Char) : Nat :=
  let w := if d.cur.nodeType = .text ∨ d.cur.nodeType = .spacesBetweenTag then (d.cur.content.getD []).length else 0
  w + 5 + if c = '<' then w + 4 else 0

/-- The first character behind `<!` (parser.rs:1634-1689): the name of the svg / math element is compared
with that of the innermost element, and the characters to detect are copied. -/
def exclWork (d : Doc) (c : Char) : Nat :=
  match d.detect with
  | some _ => 2
  | none =>
    if c = '[' then
      match d.inSpecial, d.chain.head?.bind fun t => (d.heap.cell t).tmeta with
      | some (_, sp), some m => eqWork sp m.name + detectCdata.length + 1
      | _, _ => 0
    else detectDoctype.length + 1

/-- One call of `self.handle` (parser.rs:1864-1865), by handler: `parse_wait` (966-1003), `parse_text`
(1008-1033), `parse_doctype_name` (1038-1046), `parse_tag_name` (1052-1088), `parse_tag_self_closing`
(1094-1130), `parse_tag_wait` (1133-1234), `parse_tag_attr_key` (1237-1276), `parse_tag_attr_value`
(1279-1306), `parse_tagend` (1311-1402), `parse_content_tag` (1407-1490), `parse_comment_or_cdata`
(1495-1520), `parse_unkown_tag` (1525-1574), `parse_exclamation_begin` (1579-1692).  The texts of errors are
charged by `errWork`. -/
def stepWork (d : Doc) (c : Char) : Nat :=
  let m := d.cur.tmeta.getD {}
  match d.handle with
  | .noop => 0
  | .wait =>
    if c = '<' then 0
    else if d.opts.autoFixUnexpectedEndtag && (d.cur.nodeType = .text || d.cur.nodeType = .spacesBetweenTag) then
      (d.cur.content.getD []).length + 1
    else 1
  | .text => if c = '<' then d.prevChars.length else 1
  | .doctypeName => if isWs c then metaWork d.prevChars else 0
  | .tagName =>
    if c = '>' then
      metaWork d.prevChars + if isVoidTag (lowerAll d.prevChars) then 0 else typeWork d.prevChars
    else if c = '/' ∨ isWs c then metaWork d.prevChars
    else 1
  | .tagSelfClosing => if c = '>' then 0 else waitWork m c
  | .tagWait => waitWork m c
  | .attrKey =>
    if c = '>' then keyWork d.prevChars + waitWork m c
    else if c = '=' ∨ c = '/' ∨ isWs c then keyWork d.prevChars
    else 1
  | .attrValue =>
    if d.markChar = ' ' ∧ c = '>' then valueWork m d.prevChars + waitWork m c
    else if (if d.markChar = ' ' then isWs c else c == d.markChar) then valueWork m d.prevChars
    else 1
  | .tagEnd => if c = '>' then endWork d else 1
  | .contentTag => contentWork d c
  | .commentOrCdata =>
    if c = '>' then
      2 + if d.prevChars[d.prevChars.length - 1]? = some d.markChar ∧ d.prevChars[d.prevChars.length - 2]? = some d.markChar
        then d.prevChars.length else 1
    else 1
  | .unkownTag =>
    if isLower c || isUpper c then 1
    else if c = '/' ∨ c = '!' then 0
    else if d.opts.autoFixUnescapedLt then ltWork d c
    else 0
  | .exclamationBegin => exclWork d c

/-- The text of an error (error.rs:28-58, built by `chars_to_string`, `to_string` or `format!`). -/
def ErrorKind.size : ErrorKind → Nat
  | .wrongTag s | .wrongEndTag s | .unmatchedClosedTag s | .unclosedTag s | .wrongTagIdentity s | .wrongRootTextNode s
  | .wrongCaseSensitive s | .wrongSelfClosing s | .commonError s => s.length
  | .childInSpecialTag s _ => s.length + 1
  | .unexpectedCharacter _ | .noSpaceBetweenAttr _ | .wrongHtmlDoctype _ => 1
  | .unrecognizedTag a b => a.length + b.length

/-- `create_parse_error` (parser.rs:103-106): the text of the error, and `CodeRegion::from_context_index`
(position.rs:13-45), which walks through the whole text. -/
def errWork (e : ParseError) (context : Str) : Nat := e.kind.size + context.length

/-- `fix_unclosed_tag` (parser.rs:1920-1937): one copied name for each open tag. -/
def unclosedWork (h : Heap) : List NodeId → Nat
  | [] => 0
  | t :: ts => 1 + (match (h.cell t).tmeta with
      | some m => m.name.length
      | none => 0) + unclosedWork h ts

/-- `eof` (parser.rs:2017-2072): the open tags are moved and get end tags; the last text is copied. -/
def eofWork (d : Doc) (context : Str) : Nat :=
  (if d.opts.autoFixUnclosedTag then unclosedWork d.heap d.chain else 0) +
    (if d.codeIn = .textNode then d.prevChars.length else 0) +
    match d.eof context with
    | .err e => errWork e context
    | _ => 0

/-- The character loop of `Doc::parse` and `eof` (parser.rs:1774-1777), up to the first error. -/
def runWork (d : Doc) (context : Str) : Str → Nat
  | [] => eofWork d context
  | c :: cs => 1 + stepWork d c +
    match d.next c context with
    | .ok d' => runWork d' context cs
    | .err e => errWork e context
    | .panic _ => 0

/-- `Doc::parse` (parser.rs:1771-1779). -/
def parseWork (content : Str) (opts : ParseOptions) : Nat := runWork (Doc.new opts) content content

end Rphtml
