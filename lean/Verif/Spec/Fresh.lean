import Verif.Model.Parser

/-!
# What a step writes

Independent of `Model/Cost.lean`: the characters in the registers and nodes of the parser after a step that are not
kept from before it.  Nothing is said about how they got there.
-/

namespace Rphtml.Spec

/-- The characters of the new text that are not a common beginning with the old one. -/
def fresh : Str → Str → Nat
  | _, [] => 0
  | [], b => b.length
  | x :: a, y :: b => if x = y then fresh a b else b.length + 1

/-- The same for lists of texts, place by place. -/
def freshs : List Str → List Str → Nat
  | _, [] => 0
  | [], b :: bs => b.length + freshs [] bs
  | a :: as, b :: bs => fresh a b + freshs as bs

/-- The keys and values of the attributes. -/
def attrTexts (as : List Attr) : List Str := as.flatMap fun a => [a.key.getD [], a.value.getD []]

/-- The texts of a list of entries, the oldest first. -/
def entryTexts {α : Type} (l : List (Str × α)) : List Str := (l.map (·.1)).reverse

def metaFresh (m m' : TagMeta) : Nat :=
  fresh m.name m'.name + freshs (attrTexts m.attrs) (attrTexts m'.attrs) + freshs (entryTexts m.lcNameMap) (entryTexts m'.lcNameMap)

/-- What is new in a node. -/
def cellFresh (c c' : NodeD) : Nat :=
  fresh (c.content.getD []) (c'.content.getD []) + metaFresh (c.tmeta.getD {}) (c'.tmeta.getD {})

/-- `f 0 + … + f (n - 1)`. -/
def sumTo (f : Nat → Nat) : Nat → Nat
  | 0 => 0
  | n + 1 => sumTo f n + f n

/-- What is new in all nodes. -/
def heapFresh (h h' : Heap) : Nat :=
  sumTo (fun i => cellFresh (if i < h.size then (h.cell i).toNodeD else {}) (h'.cell i).toNodeD) h'.size

/-- What is new in the parser: the characters read, those to detect, the name of the svg / math element, the ids and the
nodes. -/
def docFresh (d d' : Doc) : Nat :=
  fresh d.prevChars d'.prevChars + fresh (d.detect.getD []) (d'.detect.getD [])
    + fresh ((d.inSpecial.map (·.2)).getD []) ((d'.inSpecial.map (·.2)).getD [])
    + freshs (entryTexts d.idTags) (entryTexts d'.idTags) + heapFresh d.heap d'.heap

/-- The characters in a node. -/
def cellSize (c : NodeD) : Nat := cellFresh {} c

/-- The characters in all nodes. -/
def heapSize (h : Heap) : Nat := sumTo (fun i => cellSize (h.cell i).toNodeD) h.size

end Rphtml.Spec
