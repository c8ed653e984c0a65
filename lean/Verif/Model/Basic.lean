/-!
# Characters, errors, options and source positions

Models the pure leaf modules of rphtml: the ASCII helpers of Rust's `char` the code calls,
`src/config.rs`, `src/error.rs`, `src/position.rs`, and the comparison helpers of `src/parser.rs`.

`Vec<char>`, `&[char]` and `String` are all modelled as `List Char` (a Rust `char` and a Lean `Char`
are both a Unicode scalar value).  `usize` is modelled as `Nat`: every position is bounded by the
number of characters of an in-memory string, so no addition overflows.  The one place where `usize`
subtraction can underflow (`clone_node_without_childs`) is modelled with an explicit panic.
-/

namespace Rphtml

/-- `Vec<char>` / `&[char]` / `String`. -/
abbrev Str := List Char

/-- A `RefNode = Rc<RefCell<Node>>` (parser.rs:410): the identity of a node in the heap, a number.  A
macro rather than an abbreviation so that arithmetic tactics see `Nat`. -/
macro:max "NodeId" : term => `(Nat)

/-! ## Rust's ASCII character helpers -/

/-- `char::is_ascii_whitespace`: space, `\t`, `\n`, form feed, `\r`. -/
def isWs (c : Char) : Bool :=
  c = ' ' || c = '\t' || c = '\n' || c = '\x0c' || c = '\r'

/-- The pattern `'A'..='Z'`. -/
def isUpper (c : Char) : Bool := 65 ≤ c.toNat && c.toNat ≤ 90

/-- The pattern `'a'..='z'`. -/
def isLower (c : Char) : Bool := 97 ≤ c.toNat && c.toNat ≤ 122

/-- `char::to_ascii_lowercase`. -/
def toLower (c : Char) : Char := if isUpper c then Char.ofNat (c.toNat + 32) else c

/-- `char::to_ascii_uppercase`. -/
def toUpper (c : Char) : Char := if isLower c then Char.ofNat (c.toNat - 32) else c

/-- `name.iter().map(|ch| ch.to_ascii_lowercase()).collect()` (parser.rs:130, 2080, 2132, 2184). -/
def lowerAll (s : Str) : Str := s.map toLower

/-! ## Options: src/config.rs -/

/-- `ParseOptions` (config.rs:1-9). -/
structure ParseOptions where
  caseSensitiveTagname : Bool := false
  allowAttrKeyStartsWithEqualSign : Bool := false
  allowSelfClosing : Bool := false
  autoFixUnclosedTag : Bool := false
  autoFixUnexpectedEndtag : Bool := false
  autoFixUnescapedLt : Bool := false
deriving DecidableEq, Repr, Inhabited

/-- `RenderOptions` (config.rs:11-22). -/
structure RenderOptions where
  minifySpaces : Bool := false
  lowercaseTagname : Bool := false
  removeEndtagSpace : Bool := false
  removeAttrQuote : Bool := false
  removeComment : Bool := false
  alwaysCloseVoid : Bool := false
  innerHtml : Bool := false
  decodeEntity : Bool := false
  encodeContent : Bool := false
deriving DecidableEq, Repr, Inhabited

/-! ## Errors: src/error.rs -/

/-- `ErrorKind` (error.rs:28-58); the kinds the parser can construct and those it never does. -/
inductive ErrorKind where
  | wrongTag (s : Str)
  | wrongEndTag (s : Str)
  | childInSpecialTag (s : Str) (c : Char)
  | unmatchedClosedTag (s : Str)
  | unexpectedCharacter (c : Char)
  | unclosedTag (s : Str)
  | noSpaceBetweenAttr (c : Char)
  | wrongHtmlDoctype (c : Char)
  | unrecognizedTag (got want : Str)
  | wrongTagIdentity (s : Str)
  | wrongRootTextNode (s : Str)
  | wrongCaseSensitive (s : Str)
  | wrongSelfClosing (s : Str)
  | commonError (s : Str)
deriving DecidableEq, Repr

/-! ## Source positions: src/position.rs -/

/-- `CodeRegion` (position.rs:6-10). -/
structure CodeRegion where
  index : Nat
  line : Nat
  col : Nat
deriving DecidableEq, Repr

namespace CodeRegion

/-- `set_new_line` (position.rs:48-51). -/
def setNewLine (r : CodeRegion) : CodeRegion := { r with line := r.line + 1, col := 0 }

/-- `move_one` (position.rs:53-55). -/
def moveOne (r : CodeRegion) : CodeRegion := { r with col := r.col + 1 }

/-- One iteration of the loop body of `from_context_index` (position.rs:20-43) for a character
inside the range `cur_index <= index`. -/
def stepChar (r : CodeRegion) (prev c : Char) : CodeRegion :=
  if c = '\r' then r.setNewLine
  else if c = '\n' then (if prev = '\r' then r else r.setNewLine)
  else r.moveOne

/-- The loop of `from_context_index` (position.rs:20-43), `cur` being `cur_index`. -/
def loop (index : Nat) : Nat → Char → CodeRegion → Str → CodeRegion
  | _, _, r, [] => r
  | cur, prev, r, c :: cs =>
    if cur ≤ index then loop index (cur + 1) c (r.stepChar prev c) cs
    else loop index (cur + 1) prev r cs

/-- `CodeRegion::from_context_index` (position.rs:13-45). -/
def fromContextIndex (context : Str) (index : Nat) : CodeRegion :=
  loop index 0 '\x00' ⟨index, 1, 0⟩ context

end CodeRegion

/-- `ParseError` (error.rs:6-9). -/
structure ParseError where
  region : CodeRegion
  kind : ErrorKind
deriving DecidableEq, Repr

/-! ## Results with explicit panics -/

/-- Every place in the modelled code that can panic, named after what it unwraps. -/
inductive Site where
  | chainLast            -- parser.rs:1877 `self.chain_nodes.last().unwrap()` in `add_new_node`
  | cdataChainLast       -- parser.rs:1653 `.last().unwrap()` in `parse_exclamation_begin`
  | cdataChainMeta       -- parser.rs:1657 `expect("Chain nodes must all be tag nodes")`
  | eofMeta              -- parser.rs:2028 `expect("tag node's meta must have")`
  | tagCodeInMeta        -- parser.rs:2114 `expect` in `is_tag_code_in`
  | tagWaitMeta          -- parser.rs:1169 `expect` in `parse_tag_wait`
  | selfClosingMeta      -- parser.rs:1114 `panic!("self-closing tag's meta is emtpy")`
  | checkTagMeta         -- parser.rs:2180, 2205 `expect("")` in `check_tag_type_do`
  | addAttrValueMeta     -- parser.rs:2149 `expect("The tag meta must not be empty")`
  | attrKeyUnderflow     -- parser.rs:2131 `meta.attrs.len() - 1`
  | setAttrKeyLast       -- parser.rs:395 `expect` in `set_attr_key`
  | setAttrValueLast     -- parser.rs:403 `expect` in `set_attr_value`
  | tagendMeta           -- parser.rs:1326 `expect("Tag node must have a meta of tag name")`
  | tagendPop            -- parser.rs:1348 `expect("End tag must have matched tag in chain nodes")`
  | detectMissing        -- parser.rs:1418 `expect("detect chars must set before set_code_in.")`
  | detectGet            -- parser.rs:1587 `next_chars.get(total_len).unwrap()`
  | exclUnreachable      -- parser.rs:1623 `unreachable!()`
  | textContent          -- parser.rs:596 `expect("Text node's content must not empty")`
  | tagMeta              -- parser.rs:666 `expect("tag's meta data must have.")`
  | endTagContent        -- parser.rs:711 `expect("End tag's tag name must not empty")`
  | spacesContent        -- parser.rs:745 `expect("Spaces between node must have whitespcaes")`
  | doctypeMeta          -- parser.rs:753 `expect("tag's meta data must have.")`
  | innerBoth            -- parser.rs:821 `panic!` inner_html together with inner_text
  | innerWrongNode       -- parser.rs:830 `panic!` in `throw_wrong_node`
  | innerManyTags        -- parser.rs:854 `panic!` several tag children of the abstract root
  | innerNoChild         -- parser.rs:865 `childs[childs.len() - 1]` on an empty `Vec`
  | cloneUnderflow       -- parser.rs:510-511 `usize` subtraction
  | notATree             -- not a panic site: following `childs` did not terminate within the heap size
deriving DecidableEq, Repr

/-- `GenResult<T>` (types.rs:5) plus panics. -/
inductive Res (α : Type) where
  | ok (a : α)
  | err (e : ParseError)
  | panic (s : Site)
deriving Repr, DecidableEq

namespace Res

/-- The `?` operator; panics propagate. -/
@[simp] def bind {α β : Type} (x : Res α) (f : α → Res β) : Res β :=
  match x with
  | ok a => f a
  | err e => err e
  | panic s => panic s

instance : Monad Res where
  pure := ok
  bind := bind

@[simp] theorem pure_eq {α : Type} (a : α) : (pure a : Res α) = ok a := rfl
@[simp] theorem bind_eq {α β : Type} (x : Res α) (f : α → Res β) : (x >>= f) = x.bind f := rfl

def isOk {α : Type} : Res α → Bool
  | ok _ => true
  | _ => false

def isErr {α : Type} : Res α → Bool
  | err _ => true
  | _ => false

def isPanic {α : Type} : Res α → Bool
  | panic _ => true
  | _ => false

def map {α β : Type} (f : α → β) : Res α → Res β
  | ok a => ok (f a)
  | err e => err e
  | panic s => panic s

end Res

/-- `create_parse_error` (parser.rs:103-106). -/
def createParseError {α : Type} (kind : ErrorKind) (position : Nat) (context : Str) : Res α :=
  .err { region := CodeRegion.fromContextIndex context position, kind := kind }

/-! ## Name comparison -/

/-- `NameCase` (parser.rs:329-332). -/
inductive NameCase where
  | upper
  | lower
deriving DecidableEq, Repr

/-- The comparison closure chosen in `is_equal_chars` (parser.rs:220-227). -/
def eqCharCase (case : Option NameCase) (a b : Char) : Bool :=
  match case with
  | some .lower => a = b || toLower a = b
  | some .upper => a = b || toUpper a = b
  | none => a = b

/-- The loop of `is_equal_chars` (parser.rs:228-233) over two slices of equal length. -/
def isEqualCharsLoop (case : Option NameCase) : Str → Str → Bool
  | a :: as, b :: bs => if eqCharCase case a b then isEqualCharsLoop case as bs else false
  | _, _ => true

/-- `is_equal_chars` (parser.rs:215-234). -/
def isEqualChars (target cmp : Str) (case : Option NameCase) : Bool :=
  if target.length ≠ cmp.length then false else isEqualCharsLoop case target cmp

/-- The loop of `is_equal_chars_ignore_case` (parser.rs:240-264); `same` is `is_total_same`. -/
def isEqualIgnoreCaseLoop : Str → Str → Bool → Bool × Bool
  | t :: ts, c :: cs, same =>
    if c = t then isEqualIgnoreCaseLoop ts cs same
    else if isLower c then
      if toUpper c ≠ t then (false, false) else isEqualIgnoreCaseLoop ts cs false
    else if isUpper c then
      if toLower c ≠ t then (false, false) else isEqualIgnoreCaseLoop ts cs false
    else (false, false)
  | _, _, same => (true, same)

/-- `is_equal_chars_ignore_case` (parser.rs:236-266). -/
def isEqualCharsIgnoreCase (target cmp : Str) : Bool × Bool :=
  if target.length ≠ cmp.length then (false, false) else isEqualIgnoreCaseLoop target cmp true

/-- `chars_trim_end` (parser.rs:203-212): the loop counts the trailing whitespace characters of the
reversed slice and cuts them off. -/
def charsTrimEnd (target : Str) : Str :=
  target.take (target.length - (target.reverse.takeWhile isWs).length)

/-! ## Tag name tables -/

/-- `HTML_TAG_NAME` … `TEXTAREA_TAG_NAME` (parser.rs:37-42). -/
def htmlTagName : Str := ['h', 't', 'm', 'l']
def preTagName : Str := ['p', 'r', 'e']
def scriptTagName : Str := ['s', 'c', 'r', 'i', 'p', 't']
def styleTagName : Str := ['s', 't', 'y', 'l', 'e']
def titleTagName : Str := ['t', 'i', 't', 'l', 'e']
def textareaTagName : Str := ['t', 'e', 'x', 't', 'a', 'r', 'e', 'a']

/-- `VOID_ELEMENTS` (parser.rs:64-79). -/
def voidElements : List Str := [
  ['i', 'm', 'g'],
  ['i', 'n', 'p', 'u', 't'],
  ['m', 'e', 't', 'a'],
  ['l', 'i', 'n', 'k'],
  ['b', 'r'],
  ['h', 'r'],
  ['c', 'o', 'l'],
  ['b', 'a', 's', 'e'],
  ['p', 'a', 'r', 'a', 'm'],
  ['s', 'o', 'u', 'r', 'c', 'e'],
  ['a', 'r', 'e', 'a'],
  ['e', 'm', 'b', 'e', 'd'],
  ['t', 'r', 'a', 'c', 'k'],
  ['w', 'b', 'r']]

/-- `is_void_tag` (parser.rs:108-115). -/
def isVoidTag (name : Str) : Bool := voidElements.any fun cur => isEqualChars cur name none

/-- `is_plain_text_tag` (parser.rs:117-119). -/
def isPlainTextTag (name : Str) (case : Option NameCase) : Bool :=
  isEqualChars name textareaTagName case || isEqualChars name titleTagName case

/-- `is_script_or_style` (parser.rs:121-123). -/
def isScriptOrStyle (name : Str) (case : Option NameCase) : Bool :=
  isEqualChars name styleTagName case || isEqualChars name scriptTagName case

/-- `is_content_tag` (parser.rs:125-127). -/
def isContentTag (name : Str) (case : Option NameCase) : Bool :=
  isScriptOrStyle name case || isPlainTextTag name case

/-- `SpecialTag` (parser.rs:949-952). -/
inductive SpecialTag where
  | mathML
  | svg
deriving DecidableEq, Repr

/-- `SPECIAL_TAG_MAP.get` (parser.rs:80-86). -/
def specialTag (lcName : Str) : Option SpecialTag :=
  if lcName = ['s', 'v', 'g'] then some .svg
  else if lcName = ['m', 'a', 't', 'h'] then some .mathML
  else none

/-- `DETECT_CHAR_MAP` (parser.rs:45-63), one constant per key. -/
def detectComment : Str := ['-', '-']
def detectDoctype : Str := ['D', 'O', 'C', 'T', 'Y', 'P', 'E']
def detectCdata : Str := ['[', 'C', 'D', 'A', 'T', 'A', '[']

end Rphtml
