import Verif.Proofs.Grammar

/-!
# C49: the grammar of the accepted texts

`Spec/Grammar.lean` says which texts spell a document: a grammar for tags with its gaps, names, values and quotes, and a
grammar for nested nodes.  It does not mention the parser.  The theorems say that the parser recognises this grammar.
-/

namespace Rphtml
open Spec

/-- **The parser reads `ps` from a text exactly if the text spells `ps`**, when no repairs are asked for. -/
theorem c49_grammar (s : Str) (o : ParseOptions) (ps : List PNode) (h0 : o.autoFixUnclosedTag = false)
    (h1 : o.autoFixUnescapedLt = false) (h2 : o.autoFixUnexpectedEndtag = false) :
    docOf s o = some ps ↔ spellsAll o none none ps s := by
  rw [docOf_iff (complete_of h0)]
  exact arun_spelled_iff h0 h1 h2

/-- **A text is accepted exactly if it spells some document.** -/
theorem c49_accepted (s : Str) (o : ParseOptions) (h0 : o.autoFixUnclosedTag = false)
    (h1 : o.autoFixUnescapedLt = false) (h2 : o.autoFixUnexpectedEndtag = false) :
    (∃ d, Doc.parse s o = .ok d) ↔ ∃ ps, spellsAll o none none ps s := by
  rw [parse_docOf (complete_of h0)]
  exact ⟨fun ⟨ps, h⟩ => ⟨ps, (c49_grammar s o ps h0 h1 h2).1 h⟩, fun ⟨ps, h⟩ => ⟨ps, (c49_grammar s o ps h0 h1 h2).2 h⟩⟩

/-- **Under every option set, a text that spells a document is accepted and read as this document**: repairs do not touch
what needs no repair. -/
theorem c49_spelled (s : Str) (o : ParseOptions) (ps : List PNode) (h : spellsAll o none none ps s) : docOf s o = some ps := by
  obtain ⟨b, h1, h2, h3⟩ := arun_spelled h
  rw [docOf_machine h1 h2, h3]

/-- **The grammar is unambiguous**: a text spells at most one document. -/
theorem c49_unambiguous (s : Str) (o : ParseOptions) (ps qs : List PNode) (hp : spellsAll o none none ps s)
    (hq : spellsAll o none none qs s) : ps = qs :=
  Option.some.inj ((c49_spelled s o ps hp).symm.trans (c49_spelled s o qs hq))

/-- Gaps, slashes, a value without quotes, a bare name before a slash, an end tag with a space and in another case. -/
example : spellsAll {} none none
    [.elem "p".toList [{ key := some "a".toList, value := some "x/".toList }, { key := some "b".toList },
      { key := some "c".toList, value := some "y z".toList, quote := some '"' }] false none
      [.text "t".toList, .elem "br".toList [] true none [] none] (some "P ".toList)]
    "<p a = x/ /b/c=/ \"y z\" >t<br/ /></P >".toList :=
  (c49_grammar _ {} _ rfl rfl rfl).1 (by decide +kernel)

/-- A doctype that closes itself, and with it the element it is in. -/
example : spellsAll {} none none
    [.elem "b".toList [] false none [.doctype "DocType".toList [{ key := some "html".toList }] true] none, .text "x".toList]
    "<b><!DocType html/>x".toList :=
  (c49_grammar _ {} _ rfl rfl rfl).1 (by decide +kernel)

/-- No document is spelled by these. -/
example : ¬ ∃ ps, spellsAll {} none none ps "<p a=1".toList := by
  rw [← c49_accepted _ {} rfl rfl rfl]
  rintro ⟨d, h⟩
  have : (match Doc.parse "<p a=1".toList {} with | .ok _ => true | _ => false) = false := by decide +kernel
  rw [h] at this
  cases this

end Rphtml
