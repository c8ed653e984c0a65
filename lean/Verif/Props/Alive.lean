import Verif.Proofs.Alive
import Verif.Spec.Samples

/-!
# C01: the weak link of a dropped end tag is alive

The only `Weak::upgrade().expect(..)` of the parser is at parser.rs:1383.
-/

namespace Rphtml
open Spec

/-- `x` has a strong reference in the tree below `r`: it is in a `childs` list or it is an `end_tag`. -/
def Spec.Kept (h : Heap) (r x : NodeId) : Prop :=
  InDoc h r x ∨ ∃ t, InDoc h r t ∧ (h.cell t).endTag = some x

/-- **C01**, the `expect` of parser.rs:1383: after any part `cs` of any input, when an end tag is being read, the node
behind its weak `prev` link is held by the tree.  So the `upgrade` of that link succeeds. -/
theorem c01_upgrade {o : ParseOptions} {ctx cs : Str} {d : Doc} {p : NodeId} (h : (Doc.new o).run ctx cs = .ok d)
    (hh : d.handle = .tagEnd) (hp : d.cur.prev = some p) : Spec.Kept d.heap d.root p := by
  have hr : Reach o ([] ++ cs) d := Reach.run cs [] _ d Reach.init h
  have hl := hr.links
  rw [hr.ctl.root0]
  have hon : d.opts.autoFixUnclosedTag = true := by
    cases ho : d.opts.autoFixUnclosedTag with
    | true => rfl
    | false => rw [hr.alive.off ho hh] at hp; cases hp
  obtain ⟨q, h1, h2, h3⟩ := hr.alive.pend hon hh
  rw [hp] at h1; cases h1
  by_cases hty : (d.heap.cell p).nodeType = .tagEnd
  · obtain ⟨t, ht, he⟩ := h3 hty
    refine Or.inr ⟨t, hl.owns.inDoc t ht ?_, he⟩
    rw [(hl.ends.down t p ht he).2.2.2.2.2]; simp
  · exact Or.inl (hl.owns.inDoc p h2 hty)

/-- The state after `<b></b></a`: an end tag is being read and its link points to the end tag of `<b>`. -/
def Spec.strayState : Option (Handler × Option NodeId × Option NodeId) :=
  match (Doc.new { autoFixUnclosedTag := true, autoFixUnexpectedEndtag := true }).run [] "<b></b></a".toList with
  | .ok d => some (d.handle, d.cur.prev, (d.heap.cell 1).endTag)
  | _ => none

example : strayState = some (.tagEnd, some 2, some 2) := by decide +kernel

end Rphtml
