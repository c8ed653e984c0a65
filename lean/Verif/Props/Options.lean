import Verif.Proofs.OptMono
import Verif.Props.Accepted

/-!
# C20: permissive options are conservative

Turning on an option that allows or repairs more does not change how an accepted document is read.
-/

namespace Rphtml
open Spec

/-- `o'` has the same or more of the permissive options turned on, and the same idea of tag names. -/
def morePermissive (o o' : ParseOptions) : Prop :=
  o'.caseSensitiveTagname = o.caseSensitiveTagname ∧
  (o.allowAttrKeyStartsWithEqualSign = true → o'.allowAttrKeyStartsWithEqualSign = true) ∧
  (o.allowSelfClosing = true → o'.allowSelfClosing = true) ∧
  (o.autoFixUnclosedTag = true → o'.autoFixUnclosedTag = true) ∧
  (o.autoFixUnexpectedEndtag = true → o'.autoFixUnexpectedEndtag = true) ∧
  (o.autoFixUnescapedLt = true → o'.autoFixUnescapedLt = true)

instance (o o' : ParseOptions) : Decidable (morePermissive o o') := by unfold morePermissive; infer_instance

/-- **C20**, except for adding `auto_fix_unclosed_tag` to `auto_fix_unexpected_endtag` (where it is false, see below): a document
that is accepted is accepted as the same document under more permissive options.  (Full claim: for all `morePermissive o o'`.) -/
theorem c20_conservative_partial {o o' : ParseOptions} (ho : morePermissive o o')
    (hu : o.autoFixUnexpectedEndtag = false ∨ o.autoFixUnclosedTag = o'.autoFixUnclosedTag)
    {s : Str} {ps : List PNode} (hc : complete s o) (h : docOf s o = some ps) : docOf s o' = some ps := by
  obtain ⟨h1, h2, h3, h4, h5, h6⟩ := ho
  obtain ⟨a, ha, hf, rfl⟩ := (docOf_iff hc).1 h
  obtain ⟨f1, f2⟩ := (final_iff o a).1 hf
  exact docOf_machine (run_mono ⟨h1, h2, h3, h5, h6⟩ hu ha f1) ((final_iff o' a).2 ⟨f1, f2.imp_right h4⟩)

/-- All the options but the case of names, on a document that is accepted without any of them. -/
theorem c20_default {o' : ParseOptions} {s : Str} {ps : List PNode} (h : docOf s { caseSensitiveTagname := o'.caseSensitiveTagname } = some ps) :
    docOf s o' = some ps :=
  c20_conservative_partial (o := { caseSensitiveTagname := o'.caseSensitiveTagname }) (o' := o') ⟨rfl, by simp, by simp, by simp, by simp, by simp⟩
    (.inl rfl) (complete_of rfl) h

example : docOf "<p a=b>x<br></p>".toList { autoFixUnclosedTag := true, autoFixUnexpectedEndtag := true, allowSelfClosing := true } =
    some [.elem ['p'] [{ key := some ['a'], value := some ['b'] }] false none [.text ['x'], .elem ['b', 'r'] [] false none [] none] (some ['p'])] :=
  c20_default (by decide +kernel)

/-- The exception: a stray end tag splits a text only if `auto_fix_unclosed_tag` is off. -/
example : morePermissive { autoFixUnexpectedEndtag := true } { autoFixUnexpectedEndtag := true, autoFixUnclosedTag := true } ∧
    docOf "a</b>c".toList { autoFixUnexpectedEndtag := true } = some [.text ['a'], .text ['c']] ∧
    docOf "a</b>c".toList { autoFixUnexpectedEndtag := true, autoFixUnclosedTag := true } = some [.text ['a', 'c']] := by decide +kernel

/-- `case_sensitive_tagname` is not such an option. -/
example : docOf "<a></A>".toList {} ≠ none ∧ docOf "<a></A>".toList { caseSensitiveTagname := true } = none := by decide +kernel

end Rphtml
