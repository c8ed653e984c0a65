import Verif.Spec.Samples

/-!
# Concrete violations found in the pinned code

Each example is a closed computation of the model (a test, not a proof of a general claim): an input on
which an intended property of rphtml does not hold.  They explain why some properties are proved with a
hypothesis or only in part; see DESIGN.md.
-/

namespace Rphtml.Findings
open Rphtml Spec

/-! ## Panics while parsing (C01) -/

example : panicOf "<div" = some .eofMeta := by decide +kernel
example : panicOf "<!DOCTYPE html/><a>" = some .chainLast := by decide +kernel
example : panicOf "<svg></SVG><![CDATA[a]]>" = some .cdataChainMeta := by decide +kernel
example : panicOf "<svg><!DOCTYPE a/><!DOCTYPE a/><![" = some .cdataChainLast := by decide +kernel

/-! ## A parsed document that cannot be rendered (C02) -/

example : (match Doc.parse "<div".toList { autoFixUnclosedTag := true } with
    | .ok d => (match d.render toyLib {} with
      | .error s => some s
      | .ok _ => none)
    | _ => none) = some .tagMeta := by decide +kernel

/-! ## Unbalanced documents accepted in strict mode (C13) -/

/-- A self-closed doctype pops the chain, so the open `div` is forgotten. -/
example : roundtrip "<div><!DOCTYPE a/>" = some "<div><!DOCTYPE a>" := by decide +kernel

/-! ## Round trip (C03, C04) -/

/-- An unquoted value loses a leading slash. -/
example : rendersTo "<a href=/foo></a>" "<a href=foo></a>" = true := by decide +kernel
/-- An attribute-less doctype does not survive a second parse. -/
example : rendersTo "<!DOCTYPE >" "<!DOCTYPE>" = true ∧ (errorOf "<!DOCTYPE>").isSome = true := by
  decide +kernel
/-- With `allow_attr_key_starts_with_equal_sign` rendering is not stable. -/
example : rendersTo "<a b/=x></a>" "<a b =x></a>" { allowAttrKeyStartsWithEqualSign := true } = true ∧
    rendersTo "<a b =x></a>" "<a b=x></a>" { allowAttrKeyStartsWithEqualSign := true } = true := by
  decide +kernel

/-! ## Terminators (C16) -/

/-- `<!---->` and `<![CDATA[]]>` are not recognised as complete. -/
example : (errorOf "<!---->").isSome = true := by decide +kernel
example : (errorOf "<svg><g><![CDATA[]]></g></svg>").isSome = true := by decide +kernel

/-! ## Whitespace content (C19) -/

example : rendersTo "<a> </a>" "<a> </a>" {} { minifySpaces := true } = true ∧
    rendersTo "<a> </a><b></b>" "<a></a><b></b>" {} { minifySpaces := true } = true := by decide +kernel

/-! ## auto_fix_unescaped_lt (C07, C14, C23) -/

example : rendersTo "<script>a</script><1" "<script>a&lt;1</script>" { autoFixUnescapedLt := true } = true := by
  decide +kernel
example : rendersTo "<p>a</p><1" "<p>a</p>&lt;1" { autoFixUnescapedLt := true } = true := by decide +kernel
/-- The text becomes a child of the void element. -/
example : ((treeOf "<br>< x" { autoFixUnescapedLt := true }).kids.map fun t => t.kids.length) = [1] := by
  decide +kernel

/-! ## Render options (C28, C29, C33, C34) -/

example : rendersTo "<p>a &gt; b</p>" "<p>a >b</p>" {} { minifySpaces := true, decodeEntity := true } = true := by
  decide +kernel
example : rendersTo "<pre><pre> </pre>a  b</pre>" "<pre><pre> </pre>a b</pre>" {} { minifySpaces := true }
    = true := by decide +kernel
example : rendersTo "<a b=\"c d\"></a>" "<a b=c d></a>" {} { removeAttrQuote := true } = true := by
  decide +kernel
example : rendersTo "<br>" "<br>" {} { alwaysCloseVoid := true } = true := by decide +kernel
example : rendersTo "<div>" "<div /></div>" { autoFixUnclosedTag := true } { alwaysCloseVoid := true } = true := by
  decide +kernel

/-! ## svg tracking (C44) -/

example : (errorOf "<svg><svg></svg><rect/></svg>").isSome = true := by decide +kernel
example : rendersTo "<svg></SVG><div/>" "<svg></SVG><div />" = true := by decide +kernel

/-! ## Rendering with `minify_spaces` is not idempotent on documents

The text ` ` is alone in `<a>` and followed by a text between tags, so it is kept.  Once the second text is gone it
is the last text before `<b>`, and the next pass drops it. -/

example : rendersTo "<a> </a> <b></b>" "<a> </a><b></b>" {} { minifySpaces := true } = true ∧
    rendersTo "<a> </a><b></b>" "<a></a><b></b>" {} { minifySpaces := true } = true := by decide +kernel

/-! ## Names left behind by `auto_fix_unclosed_tag` (C12) -/

/-- The characters of an unfinished attribute name are lost, and an attribute with an empty name stays. -/
example : rendersTo "<p Id" "<p ></p>" { autoFixUnclosedTag := true } = true := by decide +kernel

/-- A text that ends inside the start tag of a void element is repaired into a text that is not accepted (C63). -/
example : rendersTo "<br a=b " "<br a=b></br>" { autoFixUnclosedTag := true } = true ∧ (errorOf "<br a=b></br>").isSome = true := by
  decide +kernel

/-! ## Unclosed raw-text elements are not fixed (C21) -/

example : (errorOf "<script>abc" { autoFixUnclosedTag := true }).isSome = true := by decide +kernel

/-! ## Self-closed doctypes -/

/-- The `/` of a self-closed doctype is not rendered. -/
example : rendersTo "<!DOCTYPE a/>" "<!DOCTYPE a>" = true := by decide +kernel

/-- Whitespace after the slash does not matter. -/
example : rendersTo "<br / >" "<br />" = true := by decide +kernel

end Rphtml.Findings
