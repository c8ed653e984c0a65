import Verif.Spec.Text

/-!
# Specification vocabulary for inputs

Patterns in the text of a document, independent of the parser.
-/

namespace Rphtml.Spec

/-- The input ends inside the name of a start tag: `<`, a letter, and no whitespace, `/` or `>` after it. -/
def endsInTagName (s : List Char) : Prop :=
  ∃ pre c name, s = pre ++ '<' :: c :: name ∧ c.isAlpha = true ∧ ∀ x ∈ c :: name, x ∉ ws ∧ x ≠ '/' ∧ x ≠ '>'

/-- The input contains `<!doctype` (in any case) and one of `/`, `"`, `'` comes before the next `>`. -/
def unusualDoctype (s : List Char) : Prop :=
  ∃ pre kw mid x post, s = pre ++ '<' :: '!' :: (kw ++ mid ++ x :: post) ∧ fold kw = "doctype".toList ∧
    '>' ∉ mid ∧ x ∈ ['/', '"', '\'']

/-- The input contains `<![`. -/
def hasMarkedSection (s : List Char) : Prop := ∃ pre post, s = pre ++ '<' :: '!' :: '[' :: post

end Rphtml.Spec
