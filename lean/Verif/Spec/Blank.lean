import Verif.Model.Node

/-!
# Which whitespace-only text is not "spaces between tags", with any repairs (spec)
-/

namespace Rphtml.Spec

/-- The end tag of `t` is not in the source, it was added at the end. -/
def AddedEnd (h : Heap) (t : NodeId) : Prop := ∃ m, (h.cell t).tmeta = some m ∧ m.autoFix = true

/-- The root, or an element that is not closed in the source. -/
def OpenAtEnd (h : Heap) (q : NodeId) : Prop := q = 0 ∨ AddedEnd h q

/-- The next sibling of `x` is a text. -/
def TextNext (h : Heap) (x : NodeId) : Prop :=
  ∃ q l y r, q < h.size ∧ (h.cell q).childs = some (l ++ x :: y :: r) ∧
    ((h.cell y).nodeType = .text ∨ (h.cell y).nodeType = .spacesBetweenTag)

/-- `x` is the last node of something that is not closed in the source. -/
def LastOpen (h : Heap) (x : NodeId) : Prop :=
  ∃ q l, q < h.size ∧ OpenAtEnd h q ∧ (h.cell q).childs = some (l ++ [x])

/-- When the whitespace-only text `x` with content `w`, in a document read from `s`, is left alone:

* an end tag was dropped within the text, so that its span is longer than its content; or
* the next sibling is a text (an end tag was dropped between them); or
* it is the last node of something not closed in the source, but only dropped end tags follow it; or
* it is the only content of an element that is closed in the source, and that element is followed by a text or is the last node of
  something not closed in the source. -/
def KeptBlank (s : Str) (h : Heap) (x : NodeId) (w : Str) : Prop :=
  (h.cell x).endAt ≠ (h.cell x).beginAt + w.length ∨
  TextNext h x ∨
  (LastOpen h x ∧ (h.cell x).endAt < s.length) ∨
  ∃ t, t < h.size ∧ (h.cell t).childs = some [x] ∧ (h.cell t).endTag ≠ none ∧ ¬ AddedEnd h t ∧ (TextNext h t ∨ LastOpen h t)

end Rphtml.Spec
