import Verif.Spec.Wf

/-!
# The grammar of the accepted texts

`spellsAll o none none ps s` says that the text `s` is a spelling of the document `ps` under the options `o`, when no repairs
are asked for.  The definitions speak about texts, names, attributes and nesting only; they do not mention the parser.
-/

namespace Rphtml.Spec

/-- A gap inside a tag: whitespace and `/`, possibly nothing. -/
def isGap (g : Str) : Prop := ∀ c ∈ g, c ∈ ws ∨ c = '/'

instance (g : Str) : Decidable (isGap g) := by unfold isGap; infer_instance

/-- A `=` after an attribute name.  A gap may stand before it, unless it begins with a `/`. -/
def equals (w : Str) : Prop := ∃ u, w = u ++ ['='] ∧ isGap u ∧ u.head? ≠ some '/'

/-- The name before this text is over. -/
def nameOver (t : Str) : Prop := ∃ c, t.head? = some c ∧ (c ∈ ws ∨ c = '/' ∨ c = '>')

/-- The value without quotes before this text is over. -/
def valueOver (t : Str) : Prop := ∃ c, t.head? = some c ∧ (c ∈ ws ∨ c = '>')

/-- A bare name before this text has no value: if a `=` follows after a gap, then the gap begins with a `/`. -/
def noValue (t : Str) : Prop := ∀ h u, isGap h → t = h ++ '=' :: u → t.head? = some '/'

/-- The rest of a tag, from the end of its name or of one of its attributes up to its `>`: the attributes that are still to
come, whether the tag closes itself, and the text. -/
inductive TagRest (allowEq inDoctype : Bool) : List Attr → Bool → Str → Prop
  /-- `>`; the tag closes itself if there is a `/` in the gap before it -/
  | close {g : Str} : isGap g → TagRest allowEq inDoctype [] (decide ('/' ∈ g)) (g ++ ['>'])
  /-- `name` -/
  | bare {g k t : Str} {as : List Attr} {sc : Bool} : isGap g → attrName allowEq inDoctype k → nameOver t → noValue t →
      TagRest allowEq inDoctype as sc t → TagRest allowEq inDoctype ({ key := some k } :: as) sc (g ++ k ++ t)
  /-- `name=` before the end of the tag -/
  | unfilled {g k w h : Str} : isGap g → attrName allowEq inDoctype k → equals w → isGap h →
      TagRest allowEq inDoctype [{ key := some k }] (decide ('/' ∈ h)) (g ++ k ++ w ++ h ++ ['>'])
  /-- `name=value` -/
  | plain {g k w h v t : Str} {as : List Attr} {sc : Bool} : isGap g → attrName allowEq inDoctype k → equals w → isGap h →
      plainValue v → valueOver t → TagRest allowEq inDoctype as sc t →
      TagRest allowEq inDoctype ({ key := some k, value := some v } :: as) sc (g ++ k ++ w ++ h ++ v ++ t)
  /-- `name="value"` -/
  | quoted {g k w h v t : Str} {q : Char} {as : List Attr} {sc : Bool} : isGap g → attrName allowEq inDoctype k → equals w →
      isGap h → quotedValue q v → TagRest allowEq inDoctype as sc t →
      TagRest allowEq inDoctype ({ key := some k, value := some v, quote := some q } :: as) sc
        (g ++ k ++ w ++ h ++ [q] ++ v ++ [q] ++ t)
  /-- `"value"` in a doctype -/
  | lone {g v t : Str} {q : Char} {as : List Attr} {sc : Bool} : inDoctype = true → isGap g → quotedValue q v →
      TagRest allowEq inDoctype as sc t →
      TagRest allowEq inDoctype ({ value := some v, quote := some q } :: as) sc (g ++ [q] ++ v ++ [q] ++ t)

/-- A doctype that closes itself, and with it the element it is in. -/
def closesParent : PNode → Bool
  | .doctype _ _ sc => sc
  | _ => false

mutual
/-- A text that spells a node inside the foreign element `ctx` and the element `parent`. -/
def spells (o : ParseOptions) (ctx parent : Option Str) : PNode → Str → Prop
  | .text w, s => s = w ∧ w ≠ [] ∧ '<' ∉ w
  | .comment w, s => s = "<!--".toList ++ w ++ "-->".toList ∧ w ≠ [] ∧ ¬ "-->".toList <:+: w.tail
  | .cdata w, s => (∃ k, fold k = "[cdata[".toList ∧ s = "<!".toList ++ k ++ w ++ "]]>".toList) ∧
      w ≠ [] ∧ ¬ "]]>".toList <:+: w.tail ∧ ctx ≠ none ∧ parent ≠ none ∧ ctx ≠ parent
  | .doctype n as sc, s => fold n = "doctype".toList ∧ ∃ c t, s = "<!".toList ++ n ++ c :: t ∧ c ∈ ws ∧
      TagRest o.allowAttrKeyStartsWithEqualSign true as sc (c :: t)
  | .elem n as sc ct ks e, s =>
    tagName n ∧ ∃ t w, s = "<".toList ++ n ++ t ++ w ∧ nameOver t ∧ TagRest o.allowAttrKeyStartsWithEqualSign false as sc t ∧
      (if sc = true then w = [] ∧ ct = none ∧ ks = [] ∧ e = none ∧ (o.allowSelfClosing = true ∨ isVoid n ∨ ctx ≠ none)
       else if isVoid n then w = [] ∧ ct = none ∧ ks = [] ∧ e = none
       else if isRaw n then
         ks = [] ∧ ∃ x e', w = x ++ "</".toList ++ e' ++ ">".toList ∧ ct = some x ∧ e = some e' ∧
           closes o.caseSensitiveTagname n e' ∧
           ∀ u k v, x = u ++ "</".toList ++ k ++ ">".toList ++ v → ¬ closes o.caseSensitiveTagname n k
       else
         ct = none ∧ ∃ x, spellsAll o (enter ctx n) (some n) ks x ∧
           ((∃ e', w = x ++ "</".toList ++ e' ++ ">".toList ∧ e = some e' ∧ closes o.caseSensitiveTagname n e' ∧
              ∀ p ∈ ks, closesParent p = false) ∨
            (w = x ∧ e = none ∧ ∃ p ∈ ks, closesParent p = true)))

/-- A text that spells a list of nodes: no two texts in a row, and nothing after a doctype that closes itself. -/
def spellsAll (o : ParseOptions) (ctx parent : Option Str) : List PNode → Str → Prop
  | [], s => s = []
  | p :: ps, s => (isText p = true → ∀ q, ps.head? = some q → isText q = false) ∧ (closesParent p = true → ps = []) ∧
      ∃ a b, s = a ++ b ∧ spells o ctx parent p a ∧ spellsAll o (ctxNode ctx p) parent ps b
end

end Rphtml.Spec
