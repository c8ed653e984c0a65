import Verif.Proofs.Spaces
import Verif.Props.Text
import Verif.Spec.Samples

/-!
# C19: the fate of whitespace-only element content

`minify_spaces` drops exactly the texts of type `SpacesBetweenTag`.  The property asks that this only depends on the
element.  It does not: `c19_violated`.  `c19_exact_partial` says exactly what it depends on.
-/

namespace Rphtml
open Spec

/-- **C19** (the claim as far as it holds): without auto-fix options, a whitespace-only text keeps the type `Text` if and
only if it is the only content of an element with an end tag and that element is directly followed by another text or is
the last node of the document; otherwise it is `SpacesBetweenTag`.  Missing: the independence from what follows, which
is false (`c19_violated`), and the documents read with auto-fix options. -/
theorem c19_exact_partial {s : Str} {o : ParseOptions} {d : Doc} (h : Doc.parse s o = .ok d)
    (hf1 : o.autoFixUnescapedLt = false) (hf2 : o.autoFixUnexpectedEndtag = false) (hf3 : o.autoFixUnclosedTag = false)
    (x : NodeId) (hx : InDoc d.heap d.root x)
    (ht : (d.heap.cell x).nodeType = .text ∨ (d.heap.cell x).nodeType = .spacesBetweenTag)
    (w : Str) (hw : (d.heap.cell x).content = some w) (hws : ∀ c ∈ w, c ∈ ws) :
    (d.heap.cell x).nodeType = .text ↔ Spec.KeptSpace d.heap x := by
  obtain ⟨hroot, h0, _, g, he', _⟩ := parse_graph h
  obtain ⟨d0, hr, he, hh, _, _, _⟩ := parse_ok h
  rw [hroot] at hx
  have hl := (g.inDoc_lt h0 hx).2
  rw [hh] at hl ht hw g he' ⊢
  exact hr.finalSpaces he hf1 hf2 hf3 g he' x w hl ht hw fun c hc => (isWs_mem c).2 (hws c hc)

/-- Both sides of `c19_exact_partial` occur: the space in `a` is kept because a text follows, the one in `b` is not. -/
example : Spec.contents "<a> </a>x<b> </b><i></i>" =
    some [(.abstractRoot, none), (.tag, none), (.text, some " "), (.tagEnd, some "a"), (.text, some "x"),
      (.tag, none), (.spacesBetweenTag, some " "), (.tagEnd, some "b"), (.tag, none), (.tagEnd, some "i")] := by
  decide +kernel

/-- Parse and render with `minify_spaces`. -/
def Spec.minified (lib : EntityLib) (s : Str) : Option Str :=
  match Doc.parse s {} with
  | .ok d => (d.render lib { minifySpaces := true }).toOption
  | _ => none

/-- **C19** is violated: the space in the element `<a> </a>` is rendered when the document ends there, and dropped when
another element follows; the element itself is the same. -/
theorem c19_violated : ∃ lib e r a b,
    minified lib e = some a ∧ minified lib (e ++ r) = some b ∧ ' ' ∈ a ∧ ' ' ∉ b :=
  ⟨toyLib, ['<', 'a', '>', ' ', '<', '/', 'a', '>'], ['<', 'b', '>', '<', '/', 'b', '>'],
    ['<', 'a', '>', ' ', '<', '/', 'a', '>'], ['<', 'a', '>', '<', '/', 'a', '>', '<', 'b', '>', '<', '/', 'b', '>'],
    by decide +kernel, by decide +kernel, by decide, by decide⟩

end Rphtml
