import Verif.Proofs.TagMachine
import Verif.Proofs.Ctx

/-!
# The control invariant and the transition relation

`Ctl` says which parser states can occur between two characters.  `Step` lists, for such states, every
successful transition with its result written out.
-/

namespace Rphtml

/-- The characters a tag name may contain. -/
def NameChars (s : Str) : Prop := ∀ c ∈ s, isWs c = false ∧ c ≠ '/' ∧ c ≠ '>'

/-- An ASCII letter. -/
def isAlpha (c : Char) : Bool := isLower c || isUpper c

/-- The name read so far after `<`. -/
def TagNameOk (s : Str) : Prop := ∃ c cs, s = c :: cs ∧ isAlpha c = true ∧ NameChars s

/-- What `check_tag_type_do` needs to have established for a raw-text element. -/
def rawCode (name : Str) : CodeTypeIn :=
  if isEqualChars (lowerAll name) scriptTagName none then .htmlScript
  else if isEqualChars (lowerAll name) styleTagName none then .htmlStyle
  else .escapeableRawText

/-- Which tag states can occur between two characters. -/
def TagSt.Ok2 (t : TagSt) : Prop :=
  match t.handle with
  | .tagWait | .tagSelfClosing =>
    t.pc = [] ∧ (t.m.codeIn = .wait ∨ t.m.codeIn = .keyEnd ∨ t.m.codeIn = .waitValue) ∧
      (t.m.codeIn ≠ .wait → t.m.attrs ≠ [])
  | .attrKey => t.m.codeIn = .key ∧ t.m.attrs ≠ [] ∧ t.pc ≠ []
  | .attrValue => t.m.codeIn = .value ∧ t.m.attrs ≠ []
  | _ => False

/-- The condition on the parser registers that goes with each handler. -/
def HandleOk (d : Doc) : Prop :=
  match d.handle with
  | .noop => False
  | .wait => (d.codeIn = .unkown ∨ d.codeIn = .abstractRoot) ∧ d.prevChars = [] ∧ d.detect = none
  | .text => d.codeIn = .textNode ∧ d.detect = none ∧ d.cur.nodeType = .text ∧ d.prevChars ≠ []
  | .unkownTag => d.codeIn = .unkownTag ∧ d.prevChars = [] ∧ d.detect = none
  | .exclamationBegin => d.codeIn = .exclamationBegin ∧
      ((d.detect = none ∧ d.prevChars = []) ∨
       (∃ D, d.detect = some D ∧ (D = detectComment ∨ D = detectDoctype ∨ D = detectCdata) ∧
         d.prevChars ≠ [] ∧ d.prevChars.length < D.length ∧
         d.prevChars.map toUpper = D.take d.prevChars.length))
  | .commentOrCdata => d.detect = none ∧
      ((d.codeIn = .comment ∧ d.markChar = '-' ∧ d.cur.nodeType = .comment) ∨
       (d.codeIn = .xmlCdata ∧ d.markChar = ']' ∧ d.cur.nodeType = .xmlCdata))
  | .doctypeName => d.codeIn = .htmlDoctype ∧ d.detect = none ∧ d.cur.nodeType = .htmlDoctype ∧
      d.cur.tmeta = none ∧ d.prevChars.map toUpper = detectDoctype
  | .tagName => d.codeIn = .tag ∧ d.detect = none ∧ d.cur.nodeType = .tag ∧ d.cur.tmeta = none ∧
      d.chain.head? = some d.current ∧ TagNameOk d.prevChars
  | .tagWait | .tagSelfClosing | .attrKey | .attrValue => d.detect = none ∧
      ∃ m, d.cur.tmeta = some m ∧ (d.tagSt m).Ok2 ∧ m.selfClosed = false ∧
        m.isVoid = isVoidTag (lowerAll m.name) ∧
        ((d.codeIn = .tag ∧ d.cur.nodeType = .tag ∧ d.chain.head? = some d.current ∧ TagNameOk m.name) ∨
         (d.codeIn = .htmlDoctype ∧ d.cur.nodeType = .htmlDoctype ∧ m.name.map toUpper = detectDoctype))
  | .tagEnd => d.codeIn = .tagEnd ∧ d.detect = none ∧ d.cur.nodeType = .tagEnd ∧ '>' ∉ d.prevChars ∧
      (∀ p, d.cur.prev = some p → p < d.heap.size ∧ (d.heap.cell p).nodeType ≠ .spacesBetweenTag)
  | .contentTag => d.cur.nodeType = .tag ∧ d.chain.head? = some d.current ∧
      ∃ m, d.cur.tmeta = some m ∧ d.detect = some (['<', '/'] ++ m.name) ∧ d.codeIn = rawCode m.name ∧
        isContentTag (lowerAll m.name) none = true ∧ TagNameOk m.name ∧ m.selfClosed = false ∧ m.isVoid = false

namespace HandleOk

variable {d : Doc}

theorem wait (hh : d.handle = .wait) (h1 : d.codeIn = .unkown ∨ d.codeIn = .abstractRoot) (h2 : d.prevChars = [])
    (h3 : d.detect = none) : HandleOk d := by
  unfold HandleOk; simp only [hh]; exact ⟨h1, h2, h3⟩

theorem text (hh : d.handle = .text) (h1 : d.codeIn = .textNode) (h2 : d.detect = none) (h3 : d.cur.nodeType = .text)
    (h4 : d.prevChars ≠ []) : HandleOk d := by
  unfold HandleOk; simp only [hh]; exact ⟨h1, h2, h3, h4⟩

theorem unkownTag (hh : d.handle = .unkownTag) (h1 : d.codeIn = .unkownTag) (h2 : d.prevChars = [])
    (h3 : d.detect = none) : HandleOk d := by
  unfold HandleOk; simp only [hh]; exact ⟨h1, h2, h3⟩

theorem exclFirst (hh : d.handle = .exclamationBegin) (h1 : d.codeIn = .exclamationBegin) (h2 : d.detect = none)
    (h3 : d.prevChars = []) : HandleOk d := by
  unfold HandleOk; simp only [hh]; exact ⟨h1, Or.inl ⟨h2, h3⟩⟩

theorem exclMore (hh : d.handle = .exclamationBegin) (h1 : d.codeIn = .exclamationBegin) (D : Str)
    (h2 : d.detect = some D) (h3 : D = detectComment ∨ D = detectDoctype ∨ D = detectCdata)
    (h4 : d.prevChars ≠ []) (h5 : d.prevChars.length < D.length)
    (h6 : d.prevChars.map toUpper = D.take d.prevChars.length) : HandleOk d := by
  unfold HandleOk; simp only [hh]; exact ⟨h1, Or.inr ⟨D, h2, h3, h4, h5, h6⟩⟩

theorem comment (hh : d.handle = .commentOrCdata) (h1 : d.detect = none)
    (h2 : (d.codeIn = .comment ∧ d.markChar = '-' ∧ d.cur.nodeType = .comment) ∨
       (d.codeIn = .xmlCdata ∧ d.markChar = ']' ∧ d.cur.nodeType = .xmlCdata)) : HandleOk d := by
  unfold HandleOk; simp only [hh]; exact ⟨h1, h2⟩

theorem doctypeName (hh : d.handle = .doctypeName) (h1 : d.codeIn = .htmlDoctype) (h2 : d.detect = none)
    (h3 : d.cur.nodeType = .htmlDoctype) (h4 : d.cur.tmeta = none) (h5 : d.prevChars.map toUpper = detectDoctype) :
    HandleOk d := by
  unfold HandleOk; simp only [hh]; exact ⟨h1, h2, h3, h4, h5⟩

theorem tagName (hh : d.handle = .tagName) (h1 : d.codeIn = .tag) (h2 : d.detect = none)
    (h3 : d.cur.nodeType = .tag) (h4 : d.cur.tmeta = none) (h5 : d.chain.head? = some d.current)
    (h6 : TagNameOk d.prevChars) : HandleOk d := by
  unfold HandleOk; simp only [hh]; exact ⟨h1, h2, h3, h4, h5, h6⟩

theorem tagEnd (hh : d.handle = .tagEnd) (h1 : d.codeIn = .tagEnd) (h2 : d.detect = none)
    (h3 : d.cur.nodeType = .tagEnd) (h4 : '>' ∉ d.prevChars)
    (h5 : ∀ p, d.cur.prev = some p → p < d.heap.size ∧ (d.heap.cell p).nodeType ≠ .spacesBetweenTag) :
    HandleOk d := by
  unfold HandleOk; simp only [hh]; exact ⟨h1, h2, h3, h4, h5⟩

theorem content (hh : d.handle = .contentTag) (h1 : d.cur.nodeType = .tag) (h2 : d.chain.head? = some d.current)
    (m : TagMeta) (h3 : d.cur.tmeta = some m) (h4 : d.detect = some (['<', '/'] ++ m.name))
    (h5 : d.codeIn = rawCode m.name) (h6 : isContentTag (lowerAll m.name) none = true) (h7 : TagNameOk m.name)
    (h8 : m.selfClosed = false) (h9 : m.isVoid = false) : HandleOk d := by
  unfold HandleOk; simp only [hh]; exact ⟨h1, h2, m, h3, h4, h5, h6, h7, h8, h9⟩

end HandleOk

/-- The states that occur between two characters. -/
structure Ctl (d : Doc) : Prop where
  root0 : d.root = 0
  sizePos : 0 < d.heap.size
  curLt : d.current < d.heap.size
  rootTy : ∀ i, i < d.heap.size → ((d.heap.cell i).nodeType = .abstractRoot ↔ i = 0)
  rootMeta : (d.heap.cell 0).tmeta = none
  chainSorted : d.chain.Pairwise (· > ·)
  chainLast : d.chain ≠ [] → d.chain.getLast? = some 0
  chainLt : ∀ i ∈ d.chain, i < d.heap.size
  chainTag : ∀ i ∈ d.chain, i ≠ 0 → (d.heap.cell i).nodeType = .tag
  check : ∀ t, d.checkTextnode = some t → t < d.heap.size ∧ (d.heap.cell t).nodeType = .text
  curTy : d.cur.nodeType ≠ .spacesBetweenTag
  textDone : ∀ i, i < d.heap.size →
    (d.heap.cell i).nodeType = .text ∨ (d.heap.cell i).nodeType = .spacesBetweenTag →
    (d.heap.cell i).content ≠ none ∨ (d.handle = .text ∧ i = d.current)
  metaDone : ∀ i, i < d.heap.size → (d.heap.cell i).nodeType = .tag →
    (d.heap.cell i).tmeta ≠ none ∨ (d.handle = .tagName ∧ i = d.current)
  docDone : ∀ i, i < d.heap.size → (d.heap.cell i).nodeType = .htmlDoctype →
    (d.heap.cell i).tmeta ≠ none ∨ (d.handle = .doctypeName ∧ i = d.current)
  hs : HandleOk d

/-- Link a new node under `p` (`add_new_node` for anything but an end tag). -/
def Doc.addChild (d : Doc) (p : NodeId) (node : Cell) : Doc :=
  { d with
    heap := (d.heap.push { node with parent := some p, index := ((d.heap.cell p).childs.getD []).length,
                                     root := some d.root }).upd p
      fun c => { c with childs := some ((d.heap.cell p).childs.getD [] ++ [d.heap.size]) }
    current := d.heap.size
    chain := if node.nodeType = .tag then d.heap.size :: d.chain else d.chain }

/-- The end of a text (`parse_text` at `<`). -/
def Doc.endText (d : Doc) : Doc :=
  { d with
    heap := d.heap.upd d.current fun n => { n with content := some d.prevChars, endAt := d.position }
    prevChars := []
    checkTextnode := if d.repeatWhitespace then some d.current else none
    memPosition := d.position
    codeIn := .unkownTag, handle := .unkownTag }

/-- The match of `</name` backwards from the end of the raw text: what is left before it. -/
def rawEnd (d : Doc) (endTag : Str) : Option Nat :=
  (contentMatch d.opts.caseSensitiveTagname endTag.reverse (d.prevChars.reverse.dropWhile isWs)).map
    List.length

/-- The parser's decision about a `</name>`: the open tag it closes. -/
def endMatches (d : Doc) (t : NodeId) (m : TagMeta) : Prop :=
  d.chain.length > 1 ∧ d.chain.head? = some t ∧ (d.heap.cell t).tmeta = some m ∧
    (isEqualCharsIgnoreCase m.name (charsTrimEnd d.prevChars)).1 = true ∧
    (d.opts.caseSensitiveTagname = true → (isEqualCharsIgnoreCase m.name (charsTrimEnd d.prevChars)).2 = true)

/-- Retype the remembered text node. -/
def Heap.markSpaces (h : Heap) : Option NodeId → Heap
  | some t => h.upd t fun c => { c with nodeType := .spacesBetweenTag }
  | none => h

theorem setTextSpacesBetween_eq (d : Doc) :
    d.setTextSpacesBetween = { d with heap := d.heap.markSpaces d.checkTextnode, checkTextnode := none } := by
  unfold Doc.setTextSpacesBetween Heap.markSpaces
  cases h : d.checkTextnode with
  | none => simp only; rw [← h]
  | some t => rfl

/-- The text node that a matched end tag of `t` turns into a spaces node. -/
def Doc.markTarget (d : Doc) (t : NodeId) : Option NodeId := if onlyText d.heap t then none else d.checkTextnode

/-- The heap after the matched end tag of `t`. -/
def Doc.endHeap (d : Doc) (t : NodeId) (name : Str) : Heap :=
  ((d.heap.upd t fun n => { n with endTag := some d.current }).markSpaces (d.markTarget t)).upd d.current fun n =>
    { n with endAt := d.position + 1, parent := some t, content := some name }

/-- The heap after the end tag of a raw-text element whose content has length `n`. -/
def Doc.rawHeap (d : Doc) (n : Nat) : Heap :=
  (d.heap.push { Cell.new .tagEnd (d.position + 1) with
      content := some (d.prevChars.drop (n + 2)), parent := some d.current }).upd d.current
    fun x => { x with endTag := some d.heap.size, content := some (d.prevChars.take n) }

/-- Every successful transition of the parser on one character (before `position` is advanced). -/
inductive Step (d : Doc) (c : Char) : Doc → Prop where
  | lt (hh : d.handle = .wait) (hc : c = '<') :
      Step d c { d with memPosition := d.position, codeIn := .unkownTag, handle := .unkownTag }
  | textResume (hh : d.handle = .wait) (hc : c ≠ '<') (hf : d.opts.autoFixUnexpectedEndtag = true)
      (ht : d.cur.nodeType = .text) (w : Str) (hw : d.cur.content = some w) :
      Step d c { d with prevChars := w ++ [c], heap := d.heap.upd d.current fun n => { n with content := some [] },
                        repeatWhitespace := false, codeIn := .textNode, handle := .text }
  | textStart (hh : d.handle = .wait) (hc : c ≠ '<')
      (hf : d.opts.autoFixUnexpectedEndtag = true → d.cur.nodeType ≠ .text)
      (p : NodeId) (hp : d.chain.head? = some p) :
      Step d c { d.addChild p (Cell.new .text d.position) with
        prevChars := [c], repeatWhitespace := isWs c, codeIn := .textNode, handle := .text }
  | textMore (hh : d.handle = .text) (hc : c ≠ '<') :
      Step d c { d with prevChars := d.prevChars ++ [c], repeatWhitespace := d.repeatWhitespace && isWs c }
  | textEnd (hh : d.handle = .text) (hc : c = '<') : Step d c d.endText
  | tagOpen (hh : d.handle = .unkownTag) (hc : isAlpha c = true) (p : NodeId) (hp : d.chain.head? = some p) :
      Step d c { d.addChild p (Cell.new .tag d.memPosition) with
        heap := (d.addChild p (Cell.new .tag d.memPosition)).heap.markSpaces d.checkTextnode, checkTextnode := none
        prevChars := [c], codeIn := .tag, handle := .tagName }
  | endOpen (hh : d.handle = .unkownTag) (hc : c = '/') :
      Step d c { d with
        heap := d.heap.push { Cell.new .tagEnd d.memPosition with
          prev := if d.opts.autoFixUnclosedTag then some d.current else none }
        current := d.heap.size, codeIn := .tagEnd, handle := .tagEnd }
  | bang (hh : d.handle = .unkownTag) (hc : c = '!') :
      Step d c { d with codeIn := .exclamationBegin, handle := .exclamationBegin }
  | ltExtend (hh : d.handle = .unkownTag) (hf : d.opts.autoFixUnescapedLt = true)
      (hc : isAlpha c = false ∧ c ≠ '/' ∧ c ≠ '!')
      (ht : d.cur.nodeType = .text) (w : Str) (hw : d.cur.content = some w) (d1 : Doc)
      (h1 : d1 = { d with
        prevChars := w ++ (if c = '<' then ['&', 'l', 't', ';'] else ['&', 'l', 't', ';', c])
        heap := d.heap.upd d.current fun n => { n with content := some [] }
        repeatWhitespace := false, codeIn := .textNode, handle := .text }) :
      Step d c (if c = '<' then d1.endText else d1)
  | ltNew (hh : d.handle = .unkownTag) (hf : d.opts.autoFixUnescapedLt = true)
      (hc : isAlpha c = false ∧ c ≠ '/' ∧ c ≠ '!')
      (ht : d.cur.nodeType ≠ .text) (p : NodeId)
      (hp : p = (if d.cur.nodeType = .tag ∧ (∀ m, d.cur.tmeta = some m → (m.selfClosed || m.autoFix) = false)
        then d.current else d.chain.head?.getD d.root)) (d1 : Doc)
      (h1 : d1 = { d with
        prevChars := (if c = '<' then ['&', 'l', 't', ';'] else ['&', 'l', 't', ';', c])
        heap := (d.heap.push { Cell.new .text d.memPosition with
            index := ((d.heap.cell p).childs.getD []).length }).upd p
          fun n => { n with childs := some ((d.heap.cell p).childs.getD [] ++ [d.heap.size]) }
        current := d.heap.size
        repeatWhitespace := false, codeIn := .textNode, handle := .text }) :
      Step d c (if c = '<' then d1.endText else d1)
  | exclFirst (hh : d.handle = .exclamationBegin) (hd : d.detect = none) (D : Str)
      (hD : (c = '-' ∧ D = detectComment) ∨ ((c = 'D' ∨ c = 'd') ∧ D = detectDoctype) ∨
        (c = '[' ∧ D = detectCdata ∧ ∃ sp n t m, d.inSpecial = some (sp, n) ∧ d.chain.head? = some t ∧
          (d.heap.cell t).tmeta = some m ∧ n ≠ m.name)) :
      Step d c { d with detect := some D, prevChars := [c] }
  | exclMore (hh : d.handle = .exclamationBegin) (D : Str) (hd : d.detect = some D)
      (hl : d.prevChars.length + 1 < D.length) (hc : D[d.prevChars.length]? = some (toUpper c)) :
      Step d c { d with prevChars := d.prevChars ++ [c] }
  | commentOpen (hh : d.handle = .exclamationBegin) (hd : d.detect = some detectComment)
      (hl : d.prevChars.length + 1 = detectComment.length) (hc : c = '-') (p : NodeId)
      (hp : d.chain.head? = some p) :
      Step d c { d.addChild p (Cell.new .comment d.memPosition) with
        heap := (d.addChild p (Cell.new .comment d.memPosition)).heap.markSpaces d.checkTextnode, checkTextnode := none
        markChar := '-', prevChars := [], detect := none, codeIn := .comment, handle := .commentOrCdata }
  | cdataOpen (hh : d.handle = .exclamationBegin) (hd : d.detect = some detectCdata)
      (hl : d.prevChars.length + 1 = detectCdata.length) (hc : c = '[') (p : NodeId)
      (hp : d.chain.head? = some p) :
      Step d c { d.addChild p (Cell.new .xmlCdata d.memPosition) with
        heap := (d.addChild p (Cell.new .xmlCdata d.memPosition)).heap.markSpaces d.checkTextnode, checkTextnode := none
        markChar := ']', prevChars := [], detect := none, codeIn := .xmlCdata, handle := .commentOrCdata }
  | doctypeOpen (hh : d.handle = .exclamationBegin) (hd : d.detect = some detectDoctype)
      (hl : d.prevChars.length + 1 = detectDoctype.length) (hc : c = 'E' ∨ c = 'e') (p : NodeId)
      (hp : d.chain.head? = some p) :
      Step d c { d.addChild p (Cell.new .htmlDoctype d.memPosition) with
        heap := (d.addChild p (Cell.new .htmlDoctype d.memPosition)).heap.markSpaces d.checkTextnode, checkTextnode := none
        prevChars := d.prevChars ++ [c], detect := none, codeIn := .htmlDoctype, handle := .doctypeName }
  | commentMore (hh : d.handle = .commentOrCdata)
      (hc : ¬ (c = '>' ∧ ∃ b, b ≠ [] ∧ d.prevChars = b ++ [d.markChar, d.markChar])) :
      Step d c { d with prevChars := d.prevChars ++ [c] }
  | commentClose (hh : d.handle = .commentOrCdata) (hc : c = '>') (b : Str) (hb : b ≠ [])
      (hp : d.prevChars = b ++ [d.markChar, d.markChar]) :
      Step d c { d with
        heap := d.heap.upd d.current fun n => { n with content := some b, endAt := d.position + 1 }
        prevChars := [], markChar := '\x00', codeIn := .unkown, handle := .wait }
  | doctypeName (hh : d.handle = .doctypeName) (hc : isWs c = true) :
      Step d c (d.putTag { handle := .tagWait, m := { name := d.prevChars, isVoid := isVoidTag (lowerAll d.prevChars) }
                           pc := [], mark := d.markChar } none)
  | nameMore (hh : d.handle = .tagName) (hc : isWs c = false ∧ c ≠ '/' ∧ c ≠ '>') :
      Step d c { d with prevChars := d.prevChars ++ [c] }
  | nameEnd (hh : d.handle = .tagName) (hc : isWs c = true ∨ c = '/') :
      Step d c (d.putTag { handle := if c = '/' then .tagSelfClosing else .tagWait
                           m := { name := d.prevChars, isVoid := isVoidTag (lowerAll d.prevChars) }
                           pc := [], mark := d.markChar } none)
  | nameClose (hh : d.handle = .tagName) (hc : c = '>') (m : TagMeta)
      (hm : m = { name := d.prevChars, isVoid := isVoidTag (lowerAll d.prevChars) }) :
      Step d c ((d.putTag { handle := d.handle, m := m, pc := [], mark := d.markChar } none).closeTag m)
  | tagMore (hh : d.handle.inTag = true) (m : TagMeta) (hm : d.cur.tmeta = some m) (t : TagSt) (id : Option Str)
      (ht : tagChar (d.codeIn = .htmlDoctype) d.opts.allowAttrKeyStartsWithEqualSign (d.tagSt m) c = .cont t id) :
      Step d c (d.putTag t id)
  | tagClose (hh : d.handle.inTag = true) (m : TagMeta) (hm : d.cur.tmeta = some m) (m' : TagMeta) (pc : Str)
      (mark : Char) (id : Option Str)
      (ht : tagChar (d.codeIn = .htmlDoctype) d.opts.allowAttrKeyStartsWithEqualSign (d.tagSt m) c =
        .close m' pc mark id) :
      Step d c ((d.putTag { handle := d.handle, m := m', pc := pc, mark := mark } id).closeTag m')
  | tagSelf (hh : d.handle = .tagSelfClosing) (hc : c = '>') (m : TagMeta) (hm : d.cur.tmeta = some m)
      (ha : d.opts.allowSelfClosing = true ∨ d.codeIn = .htmlDoctype ∨ m.isVoid = true ∨ d.inSpecial ≠ none) :
      Step d c { d with
        heap := d.heap.upd d.current fun n => { n with tmeta := some { m with selfClosed := true } }
        chain := d.chain.tail, codeIn := .unkown, handle := .wait }
  | endMore (hh : d.handle = .tagEnd) (hc : c ≠ '>') : Step d c { d with prevChars := d.prevChars ++ [c] }
  | endMatch (hh : d.handle = .tagEnd) (hc : c = '>') (t : NodeId) (m : TagMeta) (hm : endMatches d t m) :
      Step d c { d with
        chain := d.chain.tail
        heap := d.endHeap t d.prevChars
        checkTextnode := if onlyText d.heap t then d.checkTextnode else none
        inSpecial := match d.inSpecial with
          | some (sp, name) => if name = charsTrimEnd d.prevChars then none else some (sp, name)
          | none => none
        prevChars := [], codeIn := .unkown, handle := .wait }
  | endStray (hh : d.handle = .tagEnd) (hc : c = '>') (hf : d.opts.autoFixUnexpectedEndtag = true)
      (hm : ∀ t m, ¬ (d.chain.length > 1 ∧ d.chain.head? = some t ∧ (d.heap.cell t).tmeta = some m ∧
        (isEqualCharsIgnoreCase m.name (charsTrimEnd d.prevChars)).1 = true)) :
      Step d c { d with current := d.cur.prev.getD d.current, prevChars := [], codeIn := .unkown, handle := .wait }
  | rawMore (hh : d.handle = .contentTag)
      (hc : c ≠ '>' ∨ ∃ e, d.detect = some e ∧ rawEnd d e = none) :
      Step d c { d with prevChars := d.prevChars ++ [c] }
  | rawClose (hh : d.handle = .contentTag) (hc : c = '>') (e : Str) (he : d.detect = some e) (n : Nat)
      (hn : rawEnd d e = some n) :
      Step d c { d with
        heap := d.rawHeap n
        prevChars := [], chain := d.chain.tail, detect := none, codeIn := .unkown, handle := .wait }

/-- When a handler reports an error. -/
inductive ErrOk (d : Doc) (c : Char) : Prop where
  | lt (hh : d.handle = .unkownTag) (hf : d.opts.autoFixUnescapedLt = false)
      (hc : isAlpha c = false ∧ c ≠ '/' ∧ c ≠ '!')
  | exclFirst (hh : d.handle = .exclamationBegin) (hd : d.detect = none) (h1 : c ≠ '-') (h2 : c ≠ 'D') (h3 : c ≠ 'd')
      (h4 : c = '[' → d.inSpecial = none ∨ ∃ sp n t m, d.inSpecial = some (sp, n) ∧ d.chain.head? = some t ∧
        (d.heap.cell t).tmeta = some m ∧ n = m.name)
  | exclMore (hh : d.handle = .exclamationBegin) (D : Str) (hd : d.detect = some D)
      (hc : D[d.prevChars.length]? ≠ some (toUpper c))
  | doctypeName (hh : d.handle = .doctypeName) (hc : isWs c = false)
  | tag (hh : d.handle.inTag = true) (m : TagMeta) (hm : d.cur.tmeta = some m) (k : ErrorKind)
      (ht : tagChar (d.codeIn = .htmlDoctype) d.opts.allowAttrKeyStartsWithEqualSign (d.tagSt m) c = .err k)
  | tagSelf (hh : d.handle = .tagSelfClosing) (hc : c = '>') (m : TagMeta) (hm : d.cur.tmeta = some m)
      (ha : d.opts.allowSelfClosing = false) (h1 : d.codeIn ≠ .htmlDoctype) (h2 : m.isVoid = false)
      (h3 : d.inSpecial = none)
  | endCase (hh : d.handle = .tagEnd) (hc : c = '>') (hf : d.opts.caseSensitiveTagname = true) (t : NodeId)
      (m : TagMeta) (hl : d.chain.length > 1) (ht : d.chain.head? = some t) (hm : (d.heap.cell t).tmeta = some m)
      (he : (isEqualCharsIgnoreCase m.name (charsTrimEnd d.prevChars)).1 = true)
      (hn : (isEqualCharsIgnoreCase m.name (charsTrimEnd d.prevChars)).2 = false)
  | endStray (hh : d.handle = .tagEnd) (hc : c = '>') (hf : d.opts.autoFixUnexpectedEndtag = false)
      (hm : ∀ t m, ¬ (d.chain.length > 1 ∧ d.chain.head? = some t ∧ (d.heap.cell t).tmeta = some m ∧
        (isEqualCharsIgnoreCase m.name (charsTrimEnd d.prevChars)).1 = true))

/-- A node is about to be linked below the innermost open element. -/
def NeedsParent (d : Doc) (c : Char) : Prop :=
  (d.handle = .wait ∧ c ≠ '<' ∧ ¬ (d.opts.autoFixUnexpectedEndtag = true ∧ d.cur.nodeType = .text)) ∨
    (d.handle = .unkownTag ∧ isAlpha c = true) ∨
    (d.handle = .exclamationBegin ∧ ∃ D, d.detect = some D ∧ D[d.prevChars.length]? = some (toUpper c) ∧
      d.prevChars.length + 1 = D.length)

/-- When a handler panics. -/
def PanicOk (d : Doc) (c : Char) (s : Site) : Prop :=
  (s = .chainLast ∧ d.chain = [] ∧ NeedsParent d c) ∨
    (s = .cdataChainLast ∧ d.chain = [] ∧ d.handle = .exclamationBegin ∧ d.detect = none ∧ d.inSpecial ≠ none ∧
      c = '[') ∨
    (s = .cdataChainMeta ∧ d.chain = [0] ∧ d.handle = .exclamationBegin ∧ d.detect = none ∧ d.inSpecial ≠ none ∧
      c = '[')

end Rphtml
