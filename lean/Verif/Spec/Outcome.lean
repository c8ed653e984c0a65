import Verif.Spec.Scan
import Verif.Spec.Errors

/-!
# The errors and panics of the parser, without the parser

`Rejects` and `Ends` are `Refused` and `Unfinished`, `Crashes` are the panics of `parse`, in terms of `Scan` and `Inside` only.
-/

namespace Rphtml.Spec

/-- The names of the open elements at the end of a text, innermost first. -/
def Names (o : ParseOptions) (s : Str) (ns : List Str) : Prop :=
  (∃ S, Scan o s S ∧ ns = S.names) ∨ ∃ S p, Inside o s S p ∧ ns = p.names S

/-- The element that is open since there were only `k` begins with the `<` at index `i`. -/
def OpenedAt (o : ParseOptions) (s : Str) (k i : Nat) : Prop :=
  ∃ t v S, s = t ++ v ∧ t.length = i + 1 ∧ Scan o t S ∧ S.spot = .lt ∧ S.rest.length = k ∧
    ∀ x y, v = x ++ y → x ≠ [] → ∀ T, Scan o (t ++ x) T → k < T.rest.length

/-- A `<` that is read as `&lt;` is followed by this: another `<`, or something that begins no markup, up to the next `<`. -/
def escaped (e : Str) : Prop := e = ['<'] ∨ ∃ c w, e = c :: w ∧ (c.isAlpha = false ∧ c ≠ '/' ∧ c ≠ '!') ∧ '<' ∉ c :: w

/-- Where the node that was begun last begins, after a sequence of constructs.  End tags count; but those that are dropped count
only without `auto_fix_unclosed_tag`. -/
inductive LastAt (o : ParseOptions) : Str → Nat → Prop
  /-- the document -/
  | nil : LastAt o [] 0
  | text {u w : Str} {S : Sit} (h : Scan o u S) (hs : S.spot = .between)
      (hl : ∀ p, S.last = .text p → o.autoFixUnexpectedEndtag = false) (hw : w ≠ []) (hlt : '<' ∉ w) :
      LastAt o (u ++ w) u.length
  | resume {u w : Str} {S : Sit} {p : Place} {i : Nat} (h : Scan o u S) (hs : S.spot = .between) (hl : S.last = .text p)
      (ho : o.autoFixUnexpectedEndtag = true) (hw : w ≠ []) (hlt : '<' ∉ w) (hi : LastAt o u i) : LastAt o (u ++ w) i
  | lt {u : Str} {S : Sit} {i : Nat} (h : Scan o u S) (hs : S.spot ≠ .lt) (hi : LastAt o u i) : LastAt o (u ++ ['<']) i
  /-- an escaped `<` behind a text belongs to it -/
  | escapeMore {u e : Str} {S : Sit} {p : Place} {i : Nat} (h : Scan o u S) (hs : S.spot = .lt) (he : escaped e)
      (hl : S.last = .text p) (hi : LastAt o u i) : LastAt o (u ++ e) i
  /-- otherwise a text begins with it -/
  | escapeNew {u e : Str} {S : Sit} (h : Scan o u S) (hs : S.spot = .lt) (he : escaped e) (hl : ∀ p, S.last ≠ .text p) :
      LastAt o (u ++ e) (u.length - 1)
  /-- a construct other than an end tag -/
  | node {u v : Str} {S T : Sit} (h : Scan o u S) (hs : S.spot = .lt) (hv : Scan o (u ++ v) T) (hT : T.spot = .between)
      (hm : ∀ x y, v = x ++ y → x ≠ [] → y ≠ [] → ∀ T', ¬ Scan o (u ++ x) T') (he : v.head? ≠ some '/') :
      LastAt o (u ++ v) (u.length - 1)
  | endTag {u e : Str} {S : Sit} (h : Scan o u S) (hs : S.spot = .lt) (hgt : '>' ∉ e)
      (he : ownEnd S e ∨ o.autoFixUnclosedTag = false) : LastAt o (u ++ ('/' :: e ++ ">".toList)) (u.length - 1)
  | dropped {u e : Str} {S : Sit} {i : Nat} (h : Scan o u S) (hs : S.spot = .lt) (hgt : '>' ∉ e) (he : ¬ ownEnd S e)
      (ho : o.autoFixUnclosedTag = true) (hi : LastAt o u i) : LastAt o (u ++ ('/' :: e ++ ">".toList)) i

/-- Behind the text `u` the character `c` is an error of this kind at this index. -/
inductive Rejects (o : ParseOptions) : Str → Char → ErrorKind → Nat → Prop where
  /-- `<` and then neither a letter, `/` nor `!`; reported at the `<` -/
  | lt {u : Str} {S : Sit} {c : Char} (h : Scan o u S) (hs : S.spot = .lt) (ho : o.autoFixUnescapedLt = false)
      (hc : c.isAlpha = false ∧ c ≠ '/' ∧ c ≠ '!') : Rejects o u c (.wrongTag [c]) (u.length - 1)
  /-- `<!` and then nothing known; reported at the `<` -/
  | bang {t : Str} {S : Sit} {c : Char} (h : Scan o t S) (hs : S.spot = .lt) (hc : ∀ D ∈ keywords, ¬ fold [c] <+: fold D) :
      Rejects o (t ++ ['!']) c (.wrongTag []) (t.length - 1)
  /-- the beginning of a keyword after `<!`, and then not the rest of it; reported at the `<` -/
  | keyword {t w D : Str} {S : Sit} {c : Char} (h : Scan o t S) (hs : S.spot = .lt) (hD : D ∈ keywords) (hw : w ≠ [])
      (hl : w.length < D.length) (hp : fold w <+: fold D) (hd : D = "[CDATA[".toList → S.over = false ∧ cdataHere S)
      (hc : ¬ fold (w ++ [c]) <+: fold D) : Rejects o (t ++ '!' :: w) c (.unrecognizedTag w D) (t.length - 1)
  /-- `<![` where no `svg` or `math` is remembered -/
  | cdataOutside {t : Str} {S : Sit} (h : Scan o t S) (hs : S.spot = .lt) (hf : S.foreign = none) :
      Rejects o (t ++ ['!']) '[' (.commonError "wrong <![CDATA tag can only used in Svg or MathML".toList) (t.length + 1)
  /-- `<![` directly inside the remembered element -/
  | cdataDirect {t : Str} {S : Sit} (h : Scan o t S) (hs : S.spot = .lt) (hr : S.rest ≠ []) (hf : S.foreign = some S.top.name) :
      Rejects o (t ++ ['!']) '[' (.commonError "<![CDATA tag can in sub node".toList) (t.length + 1)
  /-- `<!doctype` and then no whitespace -/
  | doctype {t w : Str} {S : Sit} {c : Char} (h : Scan o t S) (hs : S.spot = .lt) (ho : S.over = false)
      (hw : fold w = "doctype".toList) (hc : c ∉ ws) :
      Rejects o (t ++ '!' :: w) c (.wrongHtmlDoctype c) (t ++ '!' :: w).length
  /-- `=` in a start tag where it cannot stand: where an attribute name may begin -/
  | equals {u n t : Str} {S : Sit} (h : Inside o u S (.tag n t)) (ht : t ≠ [])
      (he : ¬ tagPart o.allowAttrKeyStartsWithEqualSign false (t ++ ['='])) :
      Rejects o u '=' (.wrongTag "'=' is not a valid attribute name".toList) u.length
  /-- the same in a doctype -/
  | equalsDoctype {u n t : Str} {S : Sit} (h : Inside o u S (.doctype n t)) (ht : t ≠ [])
      (he : ¬ tagPart o.allowAttrKeyStartsWithEqualSign true (t ++ ['='])) :
      Rejects o u '=' (.wrongTag "'=' is not a valid attribute name".toList) u.length
  /-- `/>` in the start tag of an element that is not void, outside of `svg` and `math` -/
  | selfClosing {u n t : Str} {S : Sit} {as : List Attr} (h : Inside o u S (.tag n t)) (ho : o.allowSelfClosing = false)
      (hv : ¬ isVoid n) (hf : S.foreign = none) (ht : TagRest o.allowAttrKeyStartsWithEqualSign false as true (t ++ ['>'])) :
      Rejects o u '>' (.wrongSelfClosing n) u.length
  /-- an end tag that spells the name of the innermost open element in another case -/
  | endCase {t e : Str} {S : Sit} (h : Scan o t S) (hs : S.spot = .lt) (hgt : '>' ∉ e) (ho : o.caseSensitiveTagname = true)
      (he : ownEnd S e) (hn : trimEnd e ≠ S.top.name) :
      Rejects o (t ++ '/' :: e) '>' (.wrongCaseSensitive e) (t ++ '/' :: e).length
  /-- an end tag with another name -/
  | endStray {t e : Str} {S : Sit} (h : Scan o t S) (hs : S.spot = .lt) (hgt : '>' ∉ e) (ho : o.autoFixUnexpectedEndtag = false)
      (he : ¬ ownEnd S e) : Rejects o (t ++ '/' :: e) '>' (.wrongEndTag e) (t ++ '/' :: e).length

/-- What an unfinished construct is called in an error; a start tag is not one of them. -/
def Part.called : Part → Option String
  | .bang _ => some "ExclamationBegin"
  | .comment _ => some "Comment"
  | .cdata _ => some "XMLCDATA"
  | .doctype _ _ => some "HTMLDOCTYPE"
  | .tag _ _ => none
  | .raw n _ => some (if fold n = "script".toList then "HTMLScript" else if fold n = "style".toList then "HTMLStyle" else "EscapeableRawText")
  | .endTag _ => some "TagEnd"

/-- The end of the text `s` is an error of this kind at this index. -/
inductive Ends (o : ParseOptions) : Str → ErrorKind → Nat → Prop where
  /-- an element is open (and one is not inside the name of its start tag, where the parser panics) -/
  | element {s n : Str} {ns : List Str} {i : Nat} (ho : o.autoFixUnclosedTag = false) (hn : Names o s (n :: ns))
      (hi : OpenedAt o s ns.length i) (h : ¬ EndsInName o s) : Ends o s (.unclosedTag n) i
  /-- a `<` at the end; reported at the node that was begun last -/
  | lt {s : Str} {S : Sit} {i : Nat} (h : Scan o s S) (hs : S.spot = .lt) (ho : o.autoFixUnclosedTag = true ∨ S.rest = [])
      (hi : LastAt o s i) : Ends o s (.unclosedTag "UnkownTag".toList) i
  /-- `<!` and the beginning of a keyword; reported at the node that was begun last -/
  | bang {t w : Str} {S : Sit} {i : Nat} (h : Inside o (t ++ '!' :: w) S (.bang w)) (ht : Scan o t S)
      (ho : o.autoFixUnclosedTag = true ∨ S.rest = []) (hi : LastAt o t i) :
      Ends o (t ++ '!' :: w) (.unclosedTag "ExclamationBegin".toList) i
  /-- another construct that is not finished; reported at its `<` -/
  | part {t v : Str} {S : Sit} {p : Part} {x : String} (h : Inside o (t ++ v) S p) (ht : Scan o t S)
      (hm : ∀ x y, v = x ++ y → x ≠ [] → ∀ T, ¬ Scan o (t ++ x) T) (hb : ∀ w, p ≠ .bang w) (hx : p.called = some x)
      (ho : o.autoFixUnclosedTag = true ∨ p.names S = []) :
      Ends o (t ++ v) (.unclosedTag x.toList) (t.length - 1)

/-- The text is an error of this kind at this index: at its first character that is rejected, or at its end. -/
def Errs (o : ParseOptions) (s : Str) (k : ErrorKind) (i : Nat) : Prop :=
  (∃ u c v, s = u ++ c :: v ∧ Rejects o u c k i) ∨ Ends o s k i

/-- The text is read and gives a document; or it ends inside the name of a start tag, and that is repaired (giving a document with an
element that has no name). -/
def Accepts (o : ParseOptions) (s : Str) : Prop := (∃ ps, Result o s ps) ∨ (o.autoFixUnclosedTag = true ∧ EndsInName o s)

/-- Parsing the text panics here. -/
inductive Crashes (o : ParseOptions) : Str → Site → Prop where
  /-- the text ends inside the name of a start tag -/
  | name {s : Str} (h : EndsInName o s) (ho : o.autoFixUnclosedTag = false) : Crashes o s .eofMeta
  /-- a node behind a self-closed doctype that has closed the document -/
  | node {u v : Str} {S : Sit} (h : Scan o u S) (hs : S.spot = .lt) (ho : S.over = true) (hv : opensNode v) :
      Crashes o (u ++ v) .chainLast
  /-- a text there -/
  | text {u v : Str} {S : Sit} {c : Char} (h : Scan o u S) (hs : S.spot = .between) (ho : S.over = true)
      (hl : ∀ p, S.last = .text p → o.autoFixUnexpectedEndtag = false) (hc : c ≠ '<') : Crashes o (u ++ c :: v) .chainLast
  /-- `<![` there, and an `svg` or `math` is still remembered -/
  | cdataOver {u v : Str} {S : Sit} (h : Scan o u S) (hs : S.spot = .lt) (ho : S.over = true) (hf : S.foreign ≠ none) :
      Crashes o (u ++ '!' :: '[' :: v) .cdataChainLast
  /-- `<![` where no element is open, and an `svg` or `math` is still remembered -/
  | cdataTop {u v : Str} {S : Sit} (h : Scan o u S) (hs : S.spot = .lt) (ho : S.over = false) (hr : S.rest = [])
      (hf : S.foreign ≠ none) : Crashes o (u ++ '!' :: '[' :: v) .cdataChainMeta

end Rphtml.Spec
