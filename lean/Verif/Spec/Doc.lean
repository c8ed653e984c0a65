import Verif.Model.Node

/-!
# Documents as plain values

`PNode` is a document node as its author sees it: no positions, no indices, no links, and no difference
between a text and a whitespace text.  `Tree.pnode` forgets those details of a tree; `PNode.print` is the
source text of a node, written without any of the rendering code.
-/

namespace Rphtml

/-- A document node as a plain value. -/
inductive PNode where
  | text (w : Str)
  | comment (w : Str)
  | cdata (w : Str)
  | doctype (name : Str) (attrs : List Attr) (selfClosed : Bool)
  | elem (name : Str) (attrs : List Attr) (selfClosed : Bool) (content : Option Str) (kids : List PNode)
      (endName : Option Str)
deriving Repr

/-- Simultaneous induction over nodes and lists of nodes. -/
theorem PNode.induct {P : PNode → Prop} {Q : List PNode → Prop}
    (text : ∀ w, P (.text w)) (comment : ∀ w, P (.comment w)) (cdata : ∀ w, P (.cdata w))
    (doctype : ∀ n a s, P (.doctype n a s))
    (elem : ∀ n a s ct ks e, Q ks → P (.elem n a s ct ks e))
    (nil : Q []) (cons : ∀ p ps, P p → Q ps → Q (p :: ps)) : (∀ p, P p) ∧ (∀ ps, Q ps) := by
  have h : ∀ p, P p := fun p =>
    PNode.rec (motive_1 := P) (motive_2 := Q) text comment cdata doctype
      (fun n a s ct ks e hk => elem n a s ct ks e hk) nil (fun p ps hp hps => cons p ps hp hps) p
  refine ⟨h, fun ps => ?_⟩
  induction ps with
  | nil => exact nil
  | cons p ps ih => exact cons p ps (h p) ih

mutual
/-- Equality of nodes is decidable. -/
def PNode.decEq : (p q : PNode) → Decidable (p = q)
  | .text a, .text b | .comment a, .comment b | .cdata a, .cdata b =>
    if h : a = b then isTrue (by rw [h]) else isFalse (by intro e; injection e; contradiction)
  | .doctype n a s, .doctype n' a' s' =>
    if h : n = n' ∧ a = a' ∧ s = s' then isTrue (by rw [h.1, h.2.1, h.2.2])
    else isFalse (by intro e; injection e with h1 h2 h3; exact h ⟨h1, h2, h3⟩)
  | .elem n a s ct ks e, .elem n' a' s' ct' ks' e' =>
    if h : n = n' ∧ a = a' ∧ s = s' ∧ ct = ct' ∧ e = e' then
      match PNode.decEqs ks ks' with
      | isTrue hk => isTrue (by rw [h.1, h.2.1, h.2.2.1, h.2.2.2.1, h.2.2.2.2, hk])
      | isFalse hk => isFalse (by intro q; injection q; contradiction)
    else isFalse (by intro q; injection q with h1 h2 h3 h4 _ h6; exact h ⟨h1, h2, h3, h4, h6⟩)
  | .text _, .comment _ | .text _, .cdata _ | .text _, .doctype .. | .text _, .elem ..
  | .comment _, .text _ | .comment _, .cdata _ | .comment _, .doctype .. | .comment _, .elem ..
  | .cdata _, .text _ | .cdata _, .comment _ | .cdata _, .doctype .. | .cdata _, .elem ..
  | .doctype .., .text _ | .doctype .., .comment _ | .doctype .., .cdata _ | .doctype .., .elem ..
  | .elem .., .text _ | .elem .., .comment _ | .elem .., .cdata _ | .elem .., .doctype .. =>
    isFalse (by intro e; injection e)

/-- Equality of lists of nodes is decidable. -/
def PNode.decEqs : (ps qs : List PNode) → Decidable (ps = qs)
  | [], [] => isTrue rfl
  | [], _ :: _ | _ :: _, [] => isFalse (by intro e; injection e)
  | p :: ps, q :: qs =>
    match PNode.decEq p q, PNode.decEqs ps qs with
    | isTrue h1, isTrue h2 => isTrue (by rw [h1, h2])
    | isFalse h1, _ => isFalse (by intro e; injection e; contradiction)
    | _, isFalse h2 => isFalse (by intro e; injection e; contradiction)
end

instance : DecidableEq PNode := PNode.decEq

mutual
/-- What a tree says, without positions and links. -/
def Tree.pnode : Tree → PNode
  | .mk d e cs =>
    match d.nodeType with
    | .text | .spacesBetweenTag => .text (d.content.getD [])
    | .comment => .comment (d.content.getD [])
    | .xmlCdata => .cdata (d.content.getD [])
    | .htmlDoctype =>
      .doctype (d.tmeta.getD {}).name (d.tmeta.getD {}).attrs (d.tmeta.getD {}).selfClosed
    | _ =>
      .elem (d.tmeta.getD {}).name (d.tmeta.getD {}).attrs (d.tmeta.getD {}).selfClosed d.content
        (match cs with
          | none => []
          | some ts => Tree.pnodes ts)
        (e.bind NodeD.content)

/-- The same for a list of trees. -/
def Tree.pnodes : List Tree → List PNode
  | [] => []
  | t :: ts => t.pnode :: Tree.pnodes ts
end

mutual
/-- A node of the shape that its type demands: texts and comments are leaves with a content, doctypes are leaves
with a name, elements have a name, and an end tag if any that is one. -/
def Tree.shaped : Tree → Prop
  | .mk d e cs =>
    match d.nodeType with
    | .text | .spacesBetweenTag | .comment | .xmlCdata => d.content ≠ none ∧ e = none ∧ cs = none
    | .htmlDoctype => d.tmeta ≠ none ∧ e = none ∧ cs = none
    | .tag =>
      d.tmeta ≠ none ∧ (∀ x, e = some x → x.nodeType = .tagEnd ∧ x.content ≠ none) ∧
        (match cs with
          | none => True
          | some ts => Tree.shapeds ts)
    | _ => False

/-- The same for a list of trees. -/
def Tree.shapeds : List Tree → Prop
  | [] => True
  | t :: ts => t.shaped ∧ Tree.shapeds ts
end

/-- The contents of a document: the children of its root. -/
def Tree.doc (t : Tree) : List PNode := Tree.pnodes t.kids

namespace Spec

/-- The source text of an attribute. -/
def printAttr (a : Attr) : Str :=
  a.key.getD [] ++ (if a.key.isSome ∧ a.value.isSome then ['='] else []) ++
    (match a.value, a.quote with
      | none, _ => []
      | some v, none => v
      | some v, some q => [q] ++ v ++ [q])

/-- The source text of an attribute list. -/
def printAttrs (as : List Attr) : Str := as.flatMap fun a => [' '] ++ printAttr a

/-- The source text of a start tag. -/
def printOpen (name : Str) (attrs : List Attr) (selfClosed : Bool) : Str :=
  ['<'] ++ name ++ printAttrs attrs ++ (if selfClosed then [' ', '/'] else []) ++ ['>']

/-- The source text of an end tag. -/
def printEnd : Option Str → Str
  | some e => ['<', '/'] ++ e ++ ['>']
  | none => []

mutual
/-- The source text of a node. -/
def printNode : PNode → Str
  | .text w => w
  | .comment w => ['<', '!', '-', '-'] ++ w ++ ['-', '-', '>']
  | .cdata w => ['<', '!', '[', 'C', 'D', 'A', 'T', 'A', '['] ++ w ++ [']', ']', '>']
  | .doctype name attrs _ => ['<', '!'] ++ name ++ printAttrs attrs ++ ['>']
  | .elem name attrs selfClosed content kids endName =>
    printOpen name attrs selfClosed ++ content.getD [] ++ printNodes kids ++ printEnd endName

/-- The source text of a list of nodes. -/
def printNodes : List PNode → Str
  | [] => []
  | p :: ps => printNode p ++ printNodes ps
end

@[simp] theorem printNodes_append (a b : List PNode) : printNodes (a ++ b) = printNodes a ++ printNodes b := by
  induction a with
  | nil => rfl
  | cons p ps ih => simp [printNodes, ih]

end Spec
end Rphtml
