import Verif.Spec.Level
import Verif.Spec.Grammar

/-!
# What a text says, construct by construct, under any options

`Scan o u S` says that the text `u` is a sequence of finished constructs (and maybe a `<`), and what it has built: the open
elements with their children.  `Inside o u S p` says that the text ends inside the construct `p` after that.  Unlike
`spellsAll`, this covers the repairs (`auto_fix_…`).  The definitions do not mention the parser.
-/

namespace Rphtml.Spec

/-- Where a sequence of constructs ends. -/
inductive Spot where
  /-- behind a construct, or at the very beginning -/
  | between
  /-- in a text -/
  | inText
  /-- behind the `<` of the next construct -/
  | lt
deriving DecidableEq

/-- What a sequence of constructs has built. -/
structure Sit where
  /-- the innermost open element -/
  top : Frame := {}
  /-- the elements around it; the last one is the document -/
  rest : List Frame := []
  /-- the document has been closed by a self-closed doctype -/
  over : Bool := false
  /-- the `svg` or `math` element one is in -/
  foreign : Option Str := none
  /-- what a text would be added to -/
  last : Last := .other
  spot : Spot := .between

namespace Sit

/-- Another child of the innermost open element. -/
def add (S : Sit) (p : PNode) : Sit := { S with top := { S.top with kids := S.top.kids ++ [p] } }

/-- The construct is finished. -/
def done (S : Sit) (l : Last) : Sit := { S with last := l, spot := .between }

/-- The innermost open element is left. -/
def close (S : Sit) (e : Option Str) : Sit :=
  match S.rest with
  | [] => { S with over := true }
  | g :: gs => { S with top := { g with kids := g.kids ++ [.elem S.top.name S.top.attrs false none S.top.kids e] }, rest := gs }

/-- More of the text at a place. -/
def more (S : Sit) (p : Place) (w : Str) : Sit := { S with top := { S.top with kids := addTextAt p w S.top.kids }, last := .text p }

/-- Text where there may be a text already. -/
def text (S : Sit) (w : Str) : Sit :=
  match S.last with
  | .text p => S.more p w
  | .hole => { S with top := { S.top with kids := modLast (PNode.modKids fun ks => ks ++ [.text w]) S.top.kids }, last := .text .nested }
  | .other => { S.add (.text w) with last := .text .top }

/-- The names of the open elements, innermost first. -/
def names (S : Sit) : List Str := if S.rest = [] then [] else ((S.top :: S.rest).dropLast).map Frame.name

/-- The document, when every open element is closed by an end tag with its own name. -/
def closeUp (ks : List PNode) (f : Frame) : List Frame → List PNode
  | [] => ks
  | g :: gs => closeUp (g.kids ++ [.elem f.name f.attrs false none ks (some f.name)]) g gs

/-- The document. -/
def doc (S : Sit) : List PNode := closeUp S.top.kids S.top S.rest

end Sit

/-- A `<![CDATA[` may stand here: in the foreign element, but not directly. -/
def cdataHere (S : Sit) : Prop := ∃ f, S.foreign = some f ∧ S.rest ≠ [] ∧ f ≠ S.top.name

/-- The end tag with this text has the name of the innermost open element. -/
def ownEnd (S : Sit) (e : Str) : Prop := S.rest ≠ [] ∧ sameName (trimEnd e) S.top.name

/-- A sequence of constructs and what it builds. -/
inductive Scan (o : ParseOptions) : Str → Sit → Prop
  | nil : Scan o [] {}
  /-- a text -/
  | text {u w : Str} {S : Sit} (h : Scan o u S) (hs : S.spot = .between) (ho : S.over = false)
      (hl : ∀ p, S.last = .text p → o.autoFixUnexpectedEndtag = false) (hw : w ≠ []) (hlt : '<' ∉ w) :
      Scan o (u ++ w) { S.add (.text w) with last := .text .top, spot := .inText }
  /-- the rest of a text, behind an end tag that was dropped -/
  | resume {u w : Str} {S : Sit} {p : Place} (h : Scan o u S) (hs : S.spot = .between) (hl : S.last = .text p)
      (ho : o.autoFixUnexpectedEndtag = true) (hw : w ≠ []) (hlt : '<' ∉ w) :
      Scan o (u ++ w) { S.more p w with spot := .inText }
  /-- `<` -/
  | lt {u : Str} {S : Sit} (h : Scan o u S) (hs : S.spot ≠ .lt) : Scan o (u ++ ['<']) { S with spot := .lt }
  /-- a `<` that is read as `&lt;` because another `<` follows it -/
  | escape {u : Str} {S : Sit} (h : Scan o u S) (hs : S.spot = .lt) (ho : o.autoFixUnescapedLt = true) :
      Scan o (u ++ ['<']) { S.text "&lt;".toList with spot := .lt }
  /-- a `<` that is read as `&lt;` because it begins nothing, and the text behind it -/
  | escapeText {u w : Str} {S : Sit} {c : Char} (h : Scan o u S) (hs : S.spot = .lt) (ho : o.autoFixUnescapedLt = true)
      (hc : c.isAlpha = false ∧ c ≠ '/' ∧ c ≠ '!') (hlt : '<' ∉ c :: w) :
      Scan o (u ++ c :: w) { S.text ("&lt;".toList ++ c :: w) with spot := .inText }
  /-- `<!--w-->` -/
  | comment {u w : Str} {S : Sit} (h : Scan o u S) (hs : S.spot = .lt) (ho : S.over = false) (hw : w ≠ [])
      (hn : ¬ "-->".toList <:+: w.tail) : Scan o (u ++ ("!--".toList ++ w ++ "-->".toList)) ((S.add (.comment w)).done .other)
  /-- `<![CDATA[w]]>` -/
  | cdata {u k w : Str} {S : Sit} (h : Scan o u S) (hs : S.spot = .lt) (ho : S.over = false) (hk : fold k = "[cdata[".toList)
      (hd : cdataHere S) (hw : w ≠ []) (hn : ¬ "]]>".toList <:+: w.tail) :
      Scan o (u ++ ('!' :: k ++ w ++ "]]>".toList)) ((S.add (.cdata w)).done .other)
  /-- `<!DOCTYPE …>` -/
  | doctype {u n t : Str} {S : Sit} {c : Char} {as : List Attr} (h : Scan o u S) (hs : S.spot = .lt) (ho : S.over = false)
      (hn : fold n = "doctype".toList) (hc : c ∈ ws) (ht : TagRest o.allowAttrKeyStartsWithEqualSign true as false (c :: t)) :
      Scan o (u ++ ('!' :: n ++ c :: t)) ((S.add (.doctype n as false)).done .other)
  /-- `<!DOCTYPE …/>`, which closes the element it is in -/
  | doctypeSelf {u n t : Str} {S : Sit} {c : Char} {as : List Attr} (h : Scan o u S) (hs : S.spot = .lt) (ho : S.over = false)
      (hn : fold n = "doctype".toList) (hc : c ∈ ws) (ht : TagRest o.allowAttrKeyStartsWithEqualSign true as true (c :: t)) :
      Scan o (u ++ ('!' :: n ++ c :: t)) (((S.add (.doctype n as true)).close none).done .other)
  /-- `<name …/>` -/
  | selfClosed {u n t : Str} {S : Sit} {as : List Attr} (h : Scan o u S) (hs : S.spot = .lt) (ho : S.over = false) (hn : tagName n)
      (hv : nameOver t) (ht : TagRest o.allowAttrKeyStartsWithEqualSign false as true t)
      (ha : o.allowSelfClosing = true ∨ isVoid n ∨ S.foreign ≠ none) :
      Scan o (u ++ (n ++ t)) ((S.add (.elem n as true none [] none)).done .other)
  /-- `<name …>`, void -/
  | void {u n t : Str} {S : Sit} {as : List Attr} (h : Scan o u S) (hs : S.spot = .lt) (ho : S.over = false) (hn : tagName n)
      (hv : nameOver t) (ht : TagRest o.allowAttrKeyStartsWithEqualSign false as false t) (ha : isVoid n) :
      Scan o (u ++ (n ++ t)) ((S.add (.elem n as false none [] none)).done .hole)
  /-- `<name …>x</name>` where `x` is not markup -/
  | raw {u n t x e : Str} {S : Sit} {as : List Attr} (h : Scan o u S) (hs : S.spot = .lt) (ho : S.over = false) (hn : tagName n)
      (hv : nameOver t) (ht : TagRest o.allowAttrKeyStartsWithEqualSign false as false t) (hr : isRaw n)
      (he : closes o.caseSensitiveTagname n e)
      (hx : ∀ y k z, x = y ++ "</".toList ++ k ++ ">".toList ++ z → ¬ closes o.caseSensitiveTagname n k) :
      Scan o (u ++ (n ++ t ++ x ++ "</".toList ++ e ++ ">".toList)) ((S.add (.elem n as false (some x) [] (some e))).done .hole)
  /-- the start tag of any other element -/
  | start {u n t : Str} {S : Sit} {as : List Attr} (h : Scan o u S) (hs : S.spot = .lt) (ho : S.over = false) (hn : tagName n)
      (hv : nameOver t) (ht : TagRest o.allowAttrKeyStartsWithEqualSign false as false t) (h1 : ¬ isVoid n) (h2 : ¬ isRaw n) :
      Scan o (u ++ (n ++ t))
        { top := { name := n, attrs := as }, rest := S.top :: S.rest, over := S.over, foreign := enter S.foreign n }
  /-- its end tag -/
  | close {u e : Str} {S : Sit} (h : Scan o u S) (hs : S.spot = .lt) (hr : S.rest ≠ []) (hgt : '>' ∉ e)
      (he : closes o.caseSensitiveTagname S.top.name e) :
      Scan o (u ++ ('/' :: e ++ ">".toList)) { (S.close (some e)).done .other with foreign := leave S.foreign e }
  /-- an end tag that is dropped -/
  | stray {u e : Str} {S : Sit} (h : Scan o u S) (hs : S.spot = .lt) (hgt : '>' ∉ e) (he : ¬ ownEnd S e)
      (ho : o.autoFixUnexpectedEndtag = true) :
      Scan o (u ++ ('/' :: e ++ ">".toList)) (S.done (if o.autoFixUnclosedTag then S.last else .other))

/-- A construct that is not finished. -/
inductive Part where
  /-- `<!w`, where `w` is the beginning of a keyword -/
  | bang (w : Str)
  /-- `<!--w` -/
  | comment (w : Str)
  /-- `<![CDATA[w` -/
  | cdata (w : Str)
  /-- `<!DOCTYPE`, with or without the beginning `t` of its attributes -/
  | doctype (n t : Str)
  /-- `<n`, with or without the beginning `t` of its attributes -/
  | tag (n t : Str)
  /-- `<n …>w`, where `w` is not markup -/
  | raw (n w : Str)
  /-- `</e` -/
  | endTag (e : Str)

/-- The names of the open elements, innermost first, when the text goes on with this: an element counts from its name on. -/
def Part.names (S : Sit) : Part → List Str
  | .tag n _ | .raw n _ => n :: S.names
  | _ => S.names

/-- The beginning of the rest of a tag (see `TagRest`), with more to come. -/
def tagPart (allowEq inDoctype : Bool) (t : Str) : Prop :=
  ∃ v, v ≠ [] ∧ ∃ as sc, TagRest allowEq inDoctype as sc (t ++ v)

/-- The beginning of the rest of a start tag, and the attributes that are read in it: one whose name is not finished has an
empty name, one whose value is not finished has no value. -/
inductive TagHalf (allowEq : Bool) : List Attr → Str → Prop
  | gap {g : Str} : isGap g → TagHalf allowEq [] g
  /-- inside a name -/
  | name {g k : Str} : isGap g → attrName allowEq false k → TagHalf allowEq [{ key := some [] }] (g ++ k)
  /-- behind a `=` -/
  | equals {g k w h : Str} : isGap g → attrName allowEq false k → Spec.equals w → isGap h →
      TagHalf allowEq [{ key := some k }] (g ++ k ++ w ++ h)
  /-- inside a value without quotes -/
  | inPlain {g k w h v : Str} : isGap g → attrName allowEq false k → Spec.equals w → isGap h → plainValue v →
      TagHalf allowEq [{ key := some k }] (g ++ k ++ w ++ h ++ v)
  /-- inside a value with quotes -/
  | inQuoted {g k w h v : Str} {q : Char} : isGap g → attrName allowEq false k → Spec.equals w → isGap h → quotedValue q v →
      TagHalf allowEq [{ key := some k }] (g ++ k ++ w ++ h ++ [q] ++ v)
  | bare {g k t : Str} {as : List Attr} : isGap g → attrName allowEq false k → nameOver t → noValue t →
      TagHalf allowEq as t → TagHalf allowEq ({ key := some k } :: as) (g ++ k ++ t)
  | plain {g k w h v t : Str} {as : List Attr} : isGap g → attrName allowEq false k → Spec.equals w → isGap h →
      plainValue v → valueOver t → TagHalf allowEq as t →
      TagHalf allowEq ({ key := some k, value := some v } :: as) (g ++ k ++ w ++ h ++ v ++ t)
  | quoted {g k w h v t : Str} {q : Char} {as : List Attr} : isGap g → attrName allowEq false k → Spec.equals w →
      isGap h → quotedValue q v → TagHalf allowEq as t →
      TagHalf allowEq ({ key := some k, value := some v, quote := some q } :: as) (g ++ k ++ w ++ h ++ [q] ++ v ++ [q] ++ t)

/-- A sequence of constructs, and behind its last `<` a construct that is not finished. -/
inductive Inside (o : ParseOptions) : Str → Sit → Part → Prop
  | bang {u w D : Str} {S : Sit} (h : Scan o u S) (hs : S.spot = .lt) (hD : D ∈ ["--".toList, "doctype".toList, "[cdata[".toList])
      (hw : fold w <+: D) (hl : w.length < D.length) (hc : w ≠ [] → D = "[cdata[".toList → S.over = false ∧ cdataHere S) :
      Inside o (u ++ '!' :: w) S (.bang w)
  | comment {u w : Str} {S : Sit} (h : Scan o u S) (hs : S.spot = .lt) (ho : S.over = false) (hn : ¬ "-->".toList <:+: w.tail) :
      Inside o (u ++ ("!--".toList ++ w)) S (.comment w)
  | cdata {u k w : Str} {S : Sit} (h : Scan o u S) (hs : S.spot = .lt) (ho : S.over = false) (hk : fold k = "[cdata[".toList)
      (hd : cdataHere S) (hn : ¬ "]]>".toList <:+: w.tail) : Inside o (u ++ ('!' :: k ++ w)) S (.cdata w)
  | doctype {u n t : Str} {S : Sit} (h : Scan o u S) (hs : S.spot = .lt) (ho : S.over = false) (hn : fold n = "doctype".toList)
      (hc : ∀ c, t.head? = some c → c ∈ ws) (ht : tagPart o.allowAttrKeyStartsWithEqualSign true t) :
      Inside o (u ++ ('!' :: n ++ t)) S (.doctype n t)
  | tag {u n t : Str} {S : Sit} (h : Scan o u S) (hs : S.spot = .lt) (ho : S.over = false) (hn : tagName n)
      (hc : t ≠ [] → nameOver t) (ht : tagPart o.allowAttrKeyStartsWithEqualSign false t) : Inside o (u ++ (n ++ t)) S (.tag n t)
  | raw {u n t w : Str} {S : Sit} {as : List Attr} (h : Scan o u S) (hs : S.spot = .lt) (ho : S.over = false) (hn : tagName n)
      (hv : nameOver t) (ht : TagRest o.allowAttrKeyStartsWithEqualSign false as false t) (hr : isRaw n)
      (hx : ∀ y k z, w = y ++ "</".toList ++ k ++ ">".toList ++ z → ¬ closes o.caseSensitiveTagname n k) :
      Inside o (u ++ (n ++ t ++ w)) S (.raw n w)
  | endTag {u e : Str} {S : Sit} (h : Scan o u S) (hs : S.spot = .lt) (hgt : '>' ∉ e) : Inside o (u ++ '/' :: e) S (.endTag e)

/-- The text `s` is read, and gives the document `ps`: it is a sequence of constructs that does not end with a `<`, and no
element is open, or they are closed at the end; or it ends inside a start tag behind its name, and that is repaired, too. -/
def Result (o : ParseOptions) (s : Str) (ps : List PNode) : Prop :=
  (∃ S, Scan o s S ∧ S.spot ≠ .lt ∧ (S.rest = [] ∨ o.autoFixUnclosedTag = true) ∧ ps = S.doc) ∨
  (o.autoFixUnclosedTag = true ∧ ∃ S n t as, Inside o s S (.tag n t) ∧ t ≠ [] ∧ TagHalf o.allowAttrKeyStartsWithEqualSign as t ∧
    ps = (S.add (.elem n as false none [] (some n))).doc)

/-- The text ends inside the name of a start tag. -/
def EndsInName (o : ParseOptions) (s : Str) : Prop := ∃ S n, Inside o s S (.tag n [])

end Rphtml.Spec
