import Verif.Spec.Recode
import Verif.Spec.Place

/-!
# The inside of an element
-/

namespace Rphtml.Spec

/-- The nodes at and below the root of a tree, each with what is below it. -/
inductive Within : Tree → Tree → Prop
  | self {t : Tree} : Within t t
  | kid {t c k : Tree} (h : Within c t) (hk : k ∈ c.kids) : Within k t

/-- The document inside a node, with the changes that the options make: what is before it does not count, so an element
of a `pre` is not preformatted. -/
def innerDoc (lib : EntityLib) (ro : RenderOptions) (c : Tree) : List PNode :=
  tidyTexts (changed ro (Tree.pnodes (recodeAts lib ro [c.data] c.kids)))

/-- What is written before that: the text of a raw-text element. -/
def innerRaw (lib : EntityLib) (ro : RenderOptions) (c : Tree) : Str :=
  if ro.encodeContent = true ∧ isPlainRaw (c.data.tmeta.getD {}).name then encoded lib (c.data.content.getD []) else c.data.content.getD []

/-- No svg and no math element. -/
def homely (ps : List PNode) : Prop := ∀ n as s ct ks e, Occurs (.elem n as s ct ks e) ps → ¬ isForeign n

end Rphtml.Spec
