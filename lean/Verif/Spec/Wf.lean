import Verif.Spec.Doc
import Verif.Spec.Text

/-!
# Well-formed documents

Which documents (plain values) can be written down as text and read back.  Nothing here mentions the parser: the
definitions only speak about names, attributes, contents and nesting.
-/

namespace Rphtml.Spec

/-- The void elements of the HTML standard plus `param`. -/
def voidNames : List String :=
  ["area", "base", "br", "col", "embed", "hr", "img", "input", "link", "meta", "param", "source",
   "track", "wbr"]

/-- An element without content. -/
def isVoid (name : Str) : Prop := String.ofList (fold name) ∈ voidNames

/-- An element whose content is not markup. -/
def isRaw (name : Str) : Prop := String.ofList (fold name) ∈ ["script", "style", "title", "textarea"]

/-- An element that starts foreign (XML-like) content. -/
def isForeign (name : Str) : Prop := String.ofList (fold name) ∈ ["svg", "math"]

instance (n : Str) : Decidable (isVoid n) := inferInstanceAs (Decidable (_ ∈ _))
instance (n : Str) : Decidable (isRaw n) := inferInstanceAs (Decidable (_ ∈ _))
instance (n : Str) : Decidable (isForeign n) := inferInstanceAs (Decidable (_ ∈ _))

/-- A tag name: a letter, then anything but whitespace, `/` and `>`. -/
def tagName : Str → Prop
  | [] => False
  | c :: cs => c.isAlpha = true ∧ ∀ x ∈ c :: cs, x ∉ ws ∧ x ≠ '/' ∧ x ≠ '>'

/-- An attribute name.  In a doctype it does not start with a quote; it starts with `=` only if that is allowed. -/
def attrName (allowEq inDoctype : Bool) : Str → Prop
  | [] => False
  | c :: cs => c ∉ ws ∧ c ≠ '>' ∧ c ≠ '/' ∧ (c = '=' → allowEq = true) ∧
      (inDoctype = true → c ≠ '"' ∧ c ≠ '\'') ∧ ∀ x ∈ cs, x ∉ ws ∧ x ≠ '=' ∧ x ≠ '>' ∧ x ≠ '/'

/-- An attribute value without quotes. -/
def plainValue : Str → Prop
  | [] => False
  | c :: cs => c ∉ ws ∧ c ≠ '"' ∧ c ≠ '\'' ∧ c ≠ '>' ∧ c ≠ '/' ∧ ∀ x ∈ cs, x ∉ ws ∧ x ≠ '>'

/-- An attribute value in quotes. -/
def quotedValue (q : Char) (v : Str) : Prop := (q = '"' ∨ q = '\'') ∧ q ∉ v

/-- An attribute: `name`, `name=value`, `name="value"`, and in a doctype also `"value"`. -/
def legalAttr (allowEq inDoctype : Bool) (a : Attr) : Prop :=
  a.needQuote = false ∧
  match a.key, a.value, a.quote with
  | some k, none, none => attrName allowEq inDoctype k
  | some k, some v, none => attrName allowEq inDoctype k ∧ plainValue v
  | some k, some v, some q => attrName allowEq inDoctype k ∧ quotedValue q v
  | none, some v, some q => inDoctype = true ∧ quotedValue q v
  | _, _, _ => False

/-- A bare attribute is not followed by one whose name starts with `=`. -/
def eqApart : List Attr → Prop
  | a :: b :: as => (a.value = none → (b.key.getD []).head? ≠ some '=') ∧ eqApart (b :: as)
  | _ => True

/-- The attributes of a tag. -/
def legalAttrs (allowEq inDoctype : Bool) (as : List Attr) : Prop :=
  (∀ a ∈ as, legalAttr allowEq inDoctype a) ∧ eqApart as

/-- The text of an end tag closes an element: up to trailing whitespace it is the name (up to case, unless names are
case-sensitive). -/
def closes (caseSensitive : Bool) (name e : Str) : Prop :=
  if caseSensitive then trimEnd e = name else sameName (trimEnd e) name

instance (b : Bool) (n e : Str) : Decidable (closes b n e) := by unfold closes; infer_instance

/-- The foreign element one is in, after the start tag of an element. -/
def enter (ctx : Option Str) (name : Str) : Option Str :=
  match ctx with
  | some n => some n
  | none => if isForeign name then some name else none

/-- The foreign element one is in, after an end tag. -/
def leave (ctx : Option Str) (e : Str) : Option Str := if ctx = some (trimEnd e) then none else ctx

mutual
/-- The foreign element that the document counts as being in after a node.  (The library recognises the end of a
foreign element by the spelling of its start tag.) -/
def ctxNode (ctx : Option Str) : PNode → Option Str
  | .elem n _ s _ ks e =>
    if s = true ∨ isVoid n ∨ isRaw n then ctx
    else
      match e with
      | some e => leave (ctxNodes (enter ctx n) ks) e
      | none => ctxNodes (enter ctx n) ks
  | _ => ctx

/-- The same after a list of nodes. -/
def ctxNodes (ctx : Option Str) : List PNode → Option Str
  | [] => ctx
  | p :: ps => ctxNodes (ctxNode ctx p) ps
end

/-- A text node. -/
def isText : PNode → Bool
  | .text _ => true
  | _ => false

mutual
/-- A well-formed node inside the foreign element `ctx` and the element `parent`. -/
def wfNode (o : ParseOptions) (ctx parent : Option Str) : PNode → Prop
  | .text w => w ≠ [] ∧ '<' ∉ w
  | .comment w => w ≠ [] ∧ ¬ ['-', '-', '>'] <:+: w.tail
  | .cdata w => w ≠ [] ∧ ¬ [']', ']', '>'] <:+: w.tail ∧ ctx ≠ none ∧ parent ≠ none ∧ ctx ≠ parent
  | .doctype n as s => fold n = ['d', 'o', 'c', 't', 'y', 'p', 'e'] ∧ as ≠ [] ∧ s = false ∧
      legalAttrs o.allowAttrKeyStartsWithEqualSign true as
  | .elem n as s ct ks e =>
    tagName n ∧ legalAttrs o.allowAttrKeyStartsWithEqualSign false as ∧
    (if s = true then ct = none ∧ ks = [] ∧ e = none ∧ (o.allowSelfClosing = true ∨ isVoid n ∨ ctx ≠ none)
     else if isVoid n then ct = none ∧ ks = [] ∧ e = none
     else if isRaw n then
       ks = [] ∧ ∃ w e', ct = some w ∧ e = some e' ∧ closes o.caseSensitiveTagname n e' ∧
         ∀ u k v, w = u ++ ['<', '/'] ++ k ++ ['>'] ++ v → ¬ closes o.caseSensitiveTagname n k
     else
       ct = none ∧ (∃ e', e = some e' ∧ closes o.caseSensitiveTagname n e') ∧ wfNodes o (enter ctx n) (some n) ks)

/-- A well-formed list of nodes: no two texts in a row. -/
def wfNodes (o : ParseOptions) (ctx parent : Option Str) : List PNode → Prop
  | [] => True
  | p :: ps => wfNode o ctx parent p ∧ (isText p = true → ∀ q, ps.head? = some q → isText q = false) ∧
      wfNodes o (ctxNode ctx p) parent ps
end

/-- A well-formed document. -/
def wfDoc (o : ParseOptions) (ps : List PNode) : Prop := wfNodes o none none ps

end Rphtml.Spec
