import Verif.Model.Node

/-!
# Borrowing `RefCell`s

A `RefCell` counts its borrows while the program runs.  `borrow()` panics while the cell is borrowed mutably, `borrow_mut()`
while it is borrowed at all.
-/

namespace Rphtml.Spec

/-- The `RefCell`s of a document: the document (types `RefDoc`, parser.rs:1765), the nodes, the tag data of a node
(parser.rs:466), the table of ids (parser.rs:1715). -/
inductive RCell where
  | doc
  | node (i : NodeId)
  | tagMeta (i : NodeId)
  | idTags
deriving DecidableEq, Repr

/-- `borrow()` or `borrow_mut()`. -/
inductive Mode where
  | shared
  | excl
deriving DecidableEq, Repr

/-- A borrow begins, or it ends because its guard is dropped. -/
inductive Borrow where
  | take (m : Mode) (x : RCell)
  | give (m : Mode) (x : RCell)
deriving DecidableEq, Repr

/-- How many borrows of this kind are alive after these events. -/
def alive (t : List Borrow) (m : Mode) (x : RCell) : Int := t.count (.take m x) - t.count (.give m x)

/-- No borrow in `t` panics, and at the end none is alive. -/
def Fine (t : List Borrow) : Prop :=
  (∀ a x b, t = a ++ .take .shared x :: b → alive a .excl x = 0) ∧
  (∀ a x b, t = a ++ .take .excl x :: b → alive a .excl x = 0 ∧ alive a .shared x = 0) ∧
  ∀ m x, alive t m x = 0

/-- Borrowing a cell twice for reading is fine, borrowing it for writing meanwhile is not. -/
example : Fine [.take .shared .doc, .take .shared .doc, .give .shared .doc, .give .shared .doc] := by
  refine ⟨?_, ?_, ?_⟩
  · intro a x b h
    have : Borrow.take .excl x ∉ a ∧ Borrow.give .excl x ∉ a := by
      constructor <;> intro q <;> have := h ▸ List.mem_append_left _ q <;> simp at this
    simp [alive, List.count_eq_zero_of_not_mem this.1, List.count_eq_zero_of_not_mem this.2]
  · intro a x b h
    have := h ▸ List.mem_append_right a (List.mem_cons_self (a := Borrow.take .excl x) (l := b))
    simp at this
  · intro m x; cases m <;> cases x <;> simp [alive]

example : ¬ Fine [.take .shared .doc, .take .excl .doc, .give .excl .doc, .give .shared .doc] := by
  intro h
  have := (h.2.1 [.take .shared .doc] .doc _ rfl).2
  simp [alive] at this

end Rphtml.Spec
