import Verif.Model.Render

/-! Helpers for the concrete examples that accompany the theorems (tests, not proofs). -/

namespace Rphtml.Spec

/-- A toy codec for the examples. -/
def toyLib : EntityLib where
  decodeAll := id
  decodeOne := fun e => if e = "gt".toList then some '>' else none
  inHtmlSet := fun c => c = '<' || c = '>'
  encodeNamed := fun c => if c = '<' then some "&lt;".toList else some "&gt;".toList

/-- The tree of a sample document (a bare root if it does not parse). -/
def treeOf (s : String) (o : ParseOptions := {}) : Tree :=
  match Doc.parse s.toList o with
  | .ok d => d.tree?.getD (.mk {} none none)
  | _ => .mk {} none none

/-- Parse and render a sample; `none` if parsing or rendering fails. -/
def roundtrip (s : String) (o : ParseOptions := {}) (r : RenderOptions := {}) : Option String :=
  match Doc.parse s.toList o with
  | .ok d =>
    match d.render toyLib r with
    | .ok out => some (String.ofList out)
    | .error _ => none
  | _ => none

/-- Does the sample parse to a document with this rendering? -/
def rendersTo (s out : String) (o : ParseOptions := {}) (r : RenderOptions := {}) : Bool :=
  match Doc.parse s.toList o with
  | .ok d =>
    match d.render toyLib r with
    | .ok x => x == out.toList
    | .error _ => false
  | _ => false

/-- The panic site of parsing a sample. -/
def panicOf (s : String) (o : ParseOptions := {}) : Option Site :=
  match Doc.parse s.toList o with
  | .panic p => some p
  | _ => none

/-- The error kind of parsing a sample. -/
def errorOf (s : String) (o : ParseOptions := {}) : Option ParseError :=
  match Doc.parse s.toList o with
  | .err e => some e
  | _ => none

/-- Output of `build` as an option. -/
def outOf (x : RRes Str) : Option Str :=
  match x with
  | .ok a => some a
  | .error _ => none

end Rphtml.Spec
