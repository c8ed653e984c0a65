import Verif.Spec.Open
import Verif.Spec.Input

/-!
# Where a text can stop the parser

Predicates on the part of the text that was read, and on what comes after it.
-/

namespace Rphtml.Spec

/-- The text is read, and it ends with a `<` that may open markup: the next character is handled by `parse_unkown_tag`. -/
def afterLt (u : Str) (o : ParseOptions) : Bool :=
  match (Doc.new o).run u u with
  | .ok d => d.handle = .unkownTag
  | _ => false

/-- The text is read, it ends between two pieces of markup, and another character than `<` would begin a new text (with
`auto_fix_unexpected_endtag`, a text before a dropped end tag is continued instead). -/
def beforeText (u : Str) (o : ParseOptions) : Bool :=
  match (Doc.new o).run u u with
  | .ok d => d.handle = .wait ∧ ¬ (o.autoFixUnexpectedEndtag = true ∧ d.cur.nodeType = .text)
  | _ => false

/-- The text is read, and `<![CDATA[` is not simply refused after it: an `svg` or `math` element is remembered. -/
def inForeign (u : Str) (o : ParseOptions) : Bool :=
  match (Doc.new o).run u u with
  | .ok d => d.inSpecial ≠ none
  | _ => false

/-- The beginning of the name of a start tag: a letter, and no whitespace, `/` or `>`. -/
def tagNameText (n : Str) : Prop := ∃ c r, n = c :: r ∧ c.isAlpha = true ∧ ∀ x ∈ n, x ∉ ws ∧ x ≠ '/' ∧ x ≠ '>'

/-- What follows a `<` makes a node: a letter, `!--`, or `!doctype` in any case. -/
def opensNode (v : Str) : Prop :=
  (∃ c r, v = c :: r ∧ c.isAlpha = true) ∨ (∃ r, v = '!' :: '-' :: '-' :: r) ∨
    ∃ kw r, v = '!' :: (kw ++ r) ∧ fold kw = "doctype".toList

end Rphtml.Spec
