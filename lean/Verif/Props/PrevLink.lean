import Verif.Proofs.PrevLink
import Verif.Spec.Graph

/-!
# C67: the `prev` links of a parsed document

`Node::prev` looks like a link to the previous sibling, and in a copy made by `clone_node` it is one (C37). The parser
uses it for something else: with `auto_fix_unclosed_tag` the node of an end tag remembers the node that was current when
its `</` was read, so that a dropped end tag can put it back (`/repo/src/parser.rs`, `parse_unkown_tag` and `parse_tagend`).
-/

namespace Rphtml
open Spec

/-- **C67.** A `prev` link of a parsed document starts at an end tag, and is there only with `auto_fix_unclosed_tag`. It leads
to an earlier node which is part of the document. Every node made between the two is an end tag that was dropped or the end
tag of the node the link leads to. -/
theorem c67_prev {s : Str} {o : ParseOptions} {d : Doc} (h : Doc.parse s o = .ok d) {x p : NodeId} (hx : x < d.heap.size)
    (hp : (d.heap.cell x).prev = some p) :
    o.autoFixUnclosedTag = true ∧ (d.heap.cell x).nodeType = .tagEnd ∧ p < x ∧
      ((d.heap.cell p).nodeType = .tagEnd → ∃ t, t < d.heap.size ∧ (d.heap.cell t).endTag = some p) ∧
      ∀ q, p < q → q < x → (d.heap.cell q).nodeType = .tagEnd ∧ ∀ t, t < d.heap.size → (d.heap.cell t).endTag = some q → t = p := by
  obtain ⟨h1, h2, h3, h4⟩ := parse_prev h hx hp
  exact ⟨h1, h2, h3, ((parse_weak h).prev x p hx hp).2, fun q h5 h6 => h4 q h5 h6⟩

/-- **C67.** No child of a parsed node has a `prev` link. -/
theorem c67_child {s : Str} {o : ParseOptions} {d : Doc} (h : Doc.parse s o = .ok d) {p x : NodeId} {k : Nat} (hp : p < d.heap.size)
    (hc : childAt d.heap p k x) : (d.heap.cell x).prev = none := by
  obtain ⟨ids, h1, h2⟩ := hc
  have hg := (parse_graph h).2.2.2.1
  have hm : x ∈ d.heap.kids p := by unfold Heap.kids; rw [h1]; exact List.mem_of_getElem? h2
  have hx := (hg.range p x hp hm).2
  cases hv : (d.heap.cell x).prev with
  | none => rfl
  | some q => exact absurd (parse_prev h hx hv).2.1 (hg.kind p x hp hm).1

/-- **C67.** With `auto_fix_unclosed_tag` the end tags without a `prev` link are those of raw-text elements (whose text is kept
in the element) and those the parser added at the end of the text. -/
theorem c67_none {s : Str} {o : ParseOptions} {d : Doc} (h : Doc.parse s o = .ok d) (ha : o.autoFixUnclosedTag = true) {x : NodeId}
    (hx : x < d.heap.size) (hty : (d.heap.cell x).nodeType = .tagEnd) (hp : (d.heap.cell x).prev = none) :
    ∃ t, t < d.heap.size ∧ (d.heap.cell x).parent = some t ∧ (d.heap.cell t).nodeType = .tag ∧
      ((d.heap.cell t).content ≠ none ∨ ∃ m, (d.heap.cell t).tmeta = some m ∧ m.autoFix = true) :=
  parse_noPrev h ha hx hty hp

/-- The `prev` links of the parsed text. -/
def prevsOf (s : String) (o : ParseOptions) : Option (List (Option NodeId)) :=
  match Doc.parse s.toList o with
  | .ok d => some ((List.range d.heap.size).map fun i => (d.heap.cell i).prev)
  | _ => none

/-! Nodes of the first text: root, `<p>`, `a`, `<b>`, `</b>`, `</p>`. The second has a dropped `</i>`, the third a raw-text
element, the fourth an end tag added at the end. -/

example : prevsOf "<p>a<b></b></p>" { autoFixUnclosedTag := true } = some [none, none, none, none, some 3, some 4] := by decide +kernel

example : prevsOf "<p></i></p>" { autoFixUnclosedTag := true, autoFixUnexpectedEndtag := true } = some [none, none, some 1, some 1] := by
  decide +kernel

example : prevsOf "<p><script>a</script></p>" { autoFixUnclosedTag := true } = some [none, none, none, none, some 2] := by decide +kernel

example : prevsOf "<p><b></b>" { autoFixUnclosedTag := true } = some [none, none, none, some 2, none] := by decide +kernel

example : prevsOf "<p>a<b></b></p>" {} = some [none, none, none, none, none, none] := by decide +kernel

end Rphtml
