import Verif.Proofs.TextInv
import Verif.Props.Graph

/-! # C17 (first part), C18: text and spaces nodes -/

namespace Rphtml
open Spec

/-- **C17**, first half: every text and every spaces node has non-empty content without `<`, for all options. -/
theorem c17_text_content {s : Str} {o : ParseOptions} {d : Doc} (h : Doc.parse s o = .ok d) (x : NodeId)
    (hx : InDoc d.heap d.root x) (ht : (d.heap.cell x).nodeType = .text ∨ (d.heap.cell x).nodeType = .spacesBetweenTag) :
    ∃ w, (d.heap.cell x).content = some w ∧ w ≠ [] ∧ '<' ∉ w := by
  obtain ⟨hroot, h0, _, g, _, _⟩ := parse_graph h
  obtain ⟨d0, hr, he, hh, _, _, _⟩ := parse_ok h
  rw [hroot] at hx
  have hl := (g.inDoc_lt h0 hx).2
  rw [hh] at hl ht ⊢
  obtain ⟨w, h1, h2, h3, _⟩ := hr.finalText he x hl ht
  exact ⟨w, h1, h2, h3⟩

/-- **C18**: a spaces node consists of ASCII whitespace only, for all options. -/
theorem c18_spaces {s : Str} {o : ParseOptions} {d : Doc} (h : Doc.parse s o = .ok d) (x : NodeId)
    (hx : InDoc d.heap d.root x) (ht : (d.heap.cell x).nodeType = .spacesBetweenTag) :
    ∃ w, (d.heap.cell x).content = some w ∧ w ≠ [] ∧ ∀ c ∈ w, c ∈ ws := by
  obtain ⟨hroot, h0, _, g, _, _⟩ := parse_graph h
  obtain ⟨d0, hr, he, hh, _, _, _⟩ := parse_ok h
  rw [hroot] at hx
  have hl := (g.inDoc_lt h0 hx).2
  rw [hh] at hl ht ⊢
  obtain ⟨w, h1, h2, _, h4⟩ := hr.finalText he x hl (Or.inr ht)
  exact ⟨w, h1, h2, fun c hc => (isWs_mem c).1 (h4 ht c hc)⟩

/-- The types and contents of a sample, node by node. -/
def Spec.contents (s : String) (o : ParseOptions := {}) : Option (List (NodeType × Option String)) :=
  match Doc.parse s.toList o with
  | .ok d => some ((List.range d.heap.size).map fun i => ((d.heap.cell i).nodeType, (d.heap.cell i).content.map String.ofList))
  | _ => none

/-- Spaces between tags, text with spaces, and a lone `<` that the parser escapes. -/
example : contents "<p> </p> \n<br>a < b" { autoFixUnescapedLt := true } =
    some [(.abstractRoot, none), (.tag, none), (.text, some " "), (.tagEnd, some "p"),
      (.spacesBetweenTag, some " \n"), (.tag, none), (.text, some "a &lt; b")] := by decide +kernel

end Rphtml
