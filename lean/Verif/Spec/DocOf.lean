import Verif.Spec.Doc
import Verif.Model.Parser
import Verif.Model.Render

/-!
# The document in a text
-/

namespace Rphtml.Spec

/-- What the library reads in a text, as a plain value; nothing if it does not accept the text. -/
def docOf (s : Str) (o : ParseOptions) : Option (List PNode) :=
  match Doc.parse s o with
  | .ok d => d.tree?.map Tree.doc
  | _ => none

/-- The text ends inside the start tag of an element. -/
def endsInStartTag (s : Str) (o : ParseOptions) : Bool :=
  match (Doc.new o).run s s with
  | .ok d => d.codeIn = .tag
  | _ => false

/-- The text does not end inside a start tag, or that is an error anyway.  (With `auto_fix_unclosed_tag` the library
accepts such texts and keeps a half-read element.) -/
def complete (s : Str) (o : ParseOptions) : Prop := o.autoFixUnclosedTag = true → endsInStartTag s o = false

instance (s : Str) (o : ParseOptions) : Decidable (complete s o) := by unfold complete; infer_instance

end Rphtml.Spec
