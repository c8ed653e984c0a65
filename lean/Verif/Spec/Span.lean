import Verif.Model.Node
import Verif.Spec.Wf

/-! # Where a node stands in the source (spec) -/

namespace Rphtml.Spec

/-- The characters `[b, e)` of `s`. -/
def slice (s : Str) (b e : Nat) : Str := (s.drop b).take (e - b)

/-- The source text that the span of a node stands for.  Start tags and doctypes have no usable end position; the end node of
a raw-text element has an empty span directly behind the end tag. -/
def nodeSpan (s : Str) (n : NodeD) : Prop :=
  match n.nodeType with
  | .abstractRoot => n.beginAt = 0 ∧ n.endAt = s.length
  | .text | .spacesBetweenTag => n.content = some (slice s n.beginAt n.endAt)
  | .comment => ∃ w, n.content = some w ∧ slice s n.beginAt n.endAt = "<!--".toList ++ w ++ "-->".toList
  | .xmlCdata => ∃ w k, n.content = some w ∧ fold k = "[cdata[".toList ∧
      slice s n.beginAt n.endAt = "<!".toList ++ k ++ w ++ "]]>".toList
  | .tag => ∃ m, n.tmeta = some m ∧ slice s n.beginAt (n.beginAt + 1 + m.name.length) = '<' :: m.name
  | .htmlDoctype => ∃ m, n.tmeta = some m ∧ fold m.name = "doctype".toList ∧
      slice s n.beginAt (n.beginAt + 2 + m.name.length) = '<' :: '!' :: m.name
  | .tagEnd => ∃ w, n.content = some w ∧ (slice s n.beginAt n.endAt = "</".toList ++ w ++ ">".toList ∨
      (n.beginAt = n.endAt ∧ slice s (n.endAt - (w.length + 3)) n.endAt = "</".toList ++ w ++ ">".toList))

/-- The text `w` that is read for the source text `s`: a `<` that begins no markup is read as `&lt;` (with `auto_fix_unescaped_lt`),
an end tag that was dropped is left out (with the other two repairs), everything else is copied. -/
inductive Mended (o : ParseOptions) : Str → Str → Prop
  | nil : Mended o [] []
  | char {c : Char} {s w : Str} (hc : c ≠ '<') (h : Mended o s w) : Mended o (c :: s) (c :: w)
  | lt {s w : Str} (ho : o.autoFixUnescapedLt = true) (hs : ∀ c, s.head? = some c → c.isAlpha = false ∧ c ≠ '/' ∧ c ≠ '!')
      (h : Mended o s w) : Mended o ('<' :: s) ("&lt;".toList ++ w)
  | dropped {e s w : Str} (h1 : o.autoFixUnexpectedEndtag = true) (h2 : o.autoFixUnclosedTag = true) (he : '>' ∉ e)
      (h : Mended o s w) : Mended o ("</".toList ++ e ++ ">".toList ++ s) w

/-- The source text that the span of a node stands for, with any options.  A text begins at the beginning or behind a `>`, and ends
at the end or before a `<`.  The last element may have no name, if the source ends inside of it; an end tag that was added stands at
the end of the source. -/
def mendedSpan (o : ParseOptions) (s : Str) (n : NodeD) : Prop :=
  match n.nodeType with
  | .text | .spacesBetweenTag => ∃ w, n.content = some w ∧ Mended o (slice s n.beginAt n.endAt) w ∧ n.endAt ≤ s.length ∧
      (n.beginAt = 0 ∨ s[n.beginAt - 1]? = some '>') ∧ (n.endAt = s.length ∨ s[n.endAt]? = some '<')
  | .tag => (∃ m, n.tmeta = some m ∧ slice s n.beginAt (n.beginAt + 1 + m.name.length) = '<' :: m.name) ∨
      (o.autoFixUnclosedTag = true ∧ n.tmeta = none ∧ ∃ x, slice s n.beginAt s.length = '<' :: x ∧ tagName x)
  | .tagEnd => nodeSpan s n ∨ (o.autoFixUnclosedTag = true ∧ n.beginAt = s.length ∧ n.endAt = s.length)
  | _ => nodeSpan s n

end Rphtml.Spec
