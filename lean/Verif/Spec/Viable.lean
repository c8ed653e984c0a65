import Verif.Spec.Stops
import Verif.Spec.Wf

/-!
# Texts that cannot be completed
-/

namespace Rphtml.Spec

/-- The parser reads the text to its end without an error or a panic. -/
def readable (u : Str) (o : ParseOptions) : Bool :=
  match (Doc.new o).run u u with
  | .ok _ => true
  | _ => false

/-- An end tag read up to `k` can still close an element of this name: it already does, or `k` is the beginning of the name. -/
def maybeEnd (cs : Bool) (n k : Str) : Prop :=
  closes cs n k ∨ if cs then k <+: n else fold k <+: fold n

/-- The text ends in an end tag `</k` that has not reached its `>` and can no longer close the innermost open element, and end
tags that close nothing are not dropped. -/
def deadEndTag (u : Str) (o : ParseOptions) : Prop :=
  o.autoFixUnexpectedEndtag = false ∧ ∃ t k, u = t ++ '/' :: k ∧ afterLt t o = true ∧ '>' ∉ k ∧
    ∀ n ns, openNames t o = n :: ns → ¬ maybeEnd o.caseSensitiveTagname n k

/-- The document was closed (by a self-closed doctype at its top level), and then comes a `<!`, or a `<` that neither option
lets the parser get past. -/
def afterEnd (u : Str) (o : ParseOptions) : Prop :=
  ∃ t, afterLt t o = true ∧ notClosed t o = false ∧
    ((u = t ∧ o.autoFixUnescapedLt = false ∧ o.autoFixUnexpectedEndtag = false) ∨ ∃ r, u = t ++ '!' :: r)

end Rphtml.Spec
