import Verif.Spec.Viable

/-!
# The errors of the parser, in terms of the text

`Refused o u c k i`: after the text `u`, the character `c` is an error of kind `k` at index `i`.
`Unfinished o s k i`: the end of the text `s` is an error of kind `k` at index `i`.
-/

namespace Rphtml.Spec

/-- The `svg` or `math` element that is remembered after a text, as its start tag spells it. -/
def foreignName (u : Str) (o : ParseOptions) : Option Str :=
  match (Doc.new o).run u u with
  | .ok d => d.inSpecial.map (·.2)
  | _ => none

/-- The text is read, and it ends in a start tag or doctype where an attribute may begin. -/
def beforeAttr (u : Str) (o : ParseOptions) : Bool :=
  match (Doc.new o).run u u with
  | .ok d => (d.handle = .tagWait ∨ d.handle = .tagSelfClosing) ∧ (d.cur.tmeta.getD {}).codeIn = .wait
  | _ => false

/-- The text is read, and it ends with the `/` of a start tag that a `>` would self-close: the name of the tag. -/
def afterSlash (u : Str) (o : ParseOptions) : Option Str :=
  match (Doc.new o).run u u with
  | .ok d => if d.handle = .tagSelfClosing ∧ d.codeIn = .tag then d.cur.tmeta.map (·.name) else none
  | _ => none

/-- Where the innermost open element begins. -/
def openAt (u : Str) (o : ParseOptions) : Option Nat :=
  match (Doc.new o).run u u with
  | .ok d => d.chain.dropLast.head?.map fun i => (d.heap.cell i).beginAt
  | _ => none

/-- What the text ends in, other than a text or a start tag, as it is named in the error; and where the node that was begun last
begins (in all but the first two cases, that is the unfinished construct itself). -/
def unfinishedAt (u : Str) (o : ParseOptions) : Option (Str × Nat) :=
  match (Doc.new o).run u u with
  | .ok d =>
    (match d.codeIn with
      | .unkownTag => some "UnkownTag"
      | .exclamationBegin => some "ExclamationBegin"
      | .tagEnd => some "TagEnd"
      | .comment => some "Comment"
      | .htmlDoctype => some "HTMLDOCTYPE"
      | .escapeableRawText => some "EscapeableRawText"
      | .htmlScript => some "HTMLScript"
      | .htmlStyle => some "HTMLStyle"
      | .xmlCdata => some "XMLCDATA"
      | .abstractRoot | .unkown | .tag | .textNode => none).map fun (x : String) => (x.toList, d.cur.beginAt)
  | _ => none

/-- The text ends inside the name of a start tag. -/
def inName (s : Str) (o : ParseOptions) : Prop :=
  ∃ u n, s = u ++ n ∧ afterLt u o = true ∧ notClosed u o = true ∧ tagNameText n

/-- What may follow `<!`. -/
def keywords : List Str := ["--".toList, "DOCTYPE".toList, "[CDATA[".toList]

/-- After the text `u`, which is read without complaint, the character `c` is an error of this kind at this index. -/
inductive Refused (o : ParseOptions) : Str → Char → ErrorKind → Nat → Prop where
  /-- `<` and then neither a letter, `/` nor `!`; reported at the `<`. -/
  | lt {u : Str} {c : Char} (h : afterLt u o = true) (ho : o.autoFixUnescapedLt = false) (h1 : c.isAlpha = false) (h2 : c ≠ '/')
      (h3 : c ≠ '!') : Refused o u c (.wrongTag [c]) (u.length - 1)
  /-- `<!` and then nothing known; reported at the `<`. -/
  | bang {t : Str} {c : Char} (h : afterLt t o = true) (h1 : ∀ D ∈ keywords, ¬ fold [c] <+: fold D) :
      Refused o (t ++ ['!']) c (.wrongTag []) (t.length - 1)
  /-- The beginning of a keyword after `<!`, and then not the rest of it; reported at the `<`. -/
  | keyword {t w D : Str} {c : Char} (h : afterLt t o = true) (hr : readable (t ++ '!' :: w) o = true) (hD : D ∈ keywords)
      (hw : w ≠ []) (hl : w.length < D.length) (hp : fold w <+: fold D) (hc : ¬ fold (w ++ [c]) <+: fold D) :
      Refused o (t ++ '!' :: w) c (.unrecognizedTag w D) (t.length - 1)
  /-- `<![` where no `svg` or `math` is remembered. -/
  | cdataOutside {t : Str} (h : afterLt t o = true) (hf : foreignName t o = none) :
      Refused o (t ++ ['!']) '[' (.commonError "wrong <![CDATA tag can only used in Svg or MathML".toList) (t.length + 1)
  /-- `<![` directly inside the remembered element. -/
  | cdataDirect {t n : Str} {ns : List Str} (h : afterLt t o = true) (hf : foreignName t o = some n) (hn : openNames t o = n :: ns) :
      Refused o (t ++ ['!']) '[' (.commonError "<![CDATA tag can in sub node".toList) (t.length + 1)
  /-- `<!doctype` and then no whitespace. -/
  | doctype {t w : Str} {c : Char} (h : afterLt t o = true) (hr : readable (t ++ '!' :: w) o = true) (hw : fold w = "doctype".toList)
      (hc : c ∉ ws) : Refused o (t ++ '!' :: w) c (.wrongHtmlDoctype c) (t ++ '!' :: w).length
  /-- `=` where an attribute name may begin. -/
  | equals {u : Str} (h : beforeAttr u o = true) (ho : o.allowAttrKeyStartsWithEqualSign = false) :
      Refused o u '=' (.wrongTag "'=' is not a valid attribute name".toList) u.length
  /-- `/>` in the start tag of an element that is not void, outside of `svg` and `math`. -/
  | selfClosing {u n : Str} (h : afterSlash u o = some n) (ho : o.allowSelfClosing = false) (hv : ¬ isVoid n)
      (hf : foreignName u o = none) : Refused o u '>' (.wrongSelfClosing n) u.length
  /-- An end tag that spells the name of the innermost open element in another case. -/
  | endCase {t w n : Str} {ns : List Str} (h : afterLt t o = true) (hw : '>' ∉ w) (ho : o.caseSensitiveTagname = true)
      (hn : openNames t o = n :: ns) (h1 : sameName (trimEnd w) n) (h2 : trimEnd w ≠ n) :
      Refused o (t ++ '/' :: w) '>' (.wrongCaseSensitive w) (t ++ '/' :: w).length
  /-- An end tag with another name. -/
  | endStray {t w : Str} (h : afterLt t o = true) (hw : '>' ∉ w) (ho : o.autoFixUnexpectedEndtag = false)
      (hn : ∀ n ns, openNames t o = n :: ns → ¬ sameName (trimEnd w) n) :
      Refused o (t ++ '/' :: w) '>' (.wrongEndTag w) (t ++ '/' :: w).length

/-- The end of the text `s`, which is read without complaint, is an error of this kind at this index. -/
inductive Unfinished (o : ParseOptions) (s : Str) : ErrorKind → Nat → Prop where
  /-- An element is open (and one is not inside the name of its start tag, where the parser panics). -/
  | element {n : Str} {ns : List Str} {i : Nat} (ho : o.autoFixUnclosedTag = false) (hn : openNames s o = n :: ns)
      (hi : openAt s o = some i) (h : ¬ inName s o) : Unfinished o s (.unclosedTag n) i
  /-- No element is open, or that does not matter; but the text ends in a construct that is not finished. -/
  | construct {x : Str} {i : Nat} (ho : o.autoFixUnclosedTag = true ∨ openNames s o = []) (h : unfinishedAt s o = some (x, i)) :
      Unfinished o s (.unclosedTag x) i

end Rphtml.Spec
