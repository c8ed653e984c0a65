import Verif.Proofs.Position
import Verif.Props.Graph

/-! # C09: node positions -/

namespace Rphtml
open Spec

theorem parse_pos {s : Str} {o : ParseOptions} {d : Doc} (h : Doc.parse s o = .ok d) : PosFinal s.length d.heap := by
  obtain ⟨d0, hr, he, hh, _, _, _⟩ := parse_ok h
  rw [hh]; exact hr.posFinal he

/-- In a parsed document a node begins no later than what is below it. -/
theorem parse_below {s : Str} {o : ParseOptions} {d : Doc} (h : Doc.parse s o = .ok d) (a x : NodeId)
    (ha : InDoc d.heap d.root a) (hx : InDoc d.heap a x) : (d.heap.cell a).beginAt ≤ (d.heap.cell x).beginAt := by
  obtain ⟨hr, h0, ht0, g, ge, ho⟩ := parse_graph h
  have hp := parse_pos h
  rw [hr] at ha
  have hal := (g.inDoc_lt h0 ha).2
  obtain ⟨h1, h2⟩ := g.inDoc_lt hal hx
  rcases Nat.lt_or_ge a x with h3 | h3
  · rcases Nat.eq_zero_or_pos a with h4 | h4
    · rw [h4, hp.root]; exact Nat.zero_le _
    · rcases hp.incr a x h4 h3 h2 ((g.inDoc_iff h0 ht0 a).1 ha).2 with h5 | h5
      · exact Nat.le_of_lt h5
      · exact h5.2
  · have : a = x := by omega
    rw [this]; exact Nat.le_refl _

/-- **C09**: for every node and every end tag `begin_at ≤ end_at ≤` the number of characters; descendants and the end
tag begin at or after their ancestor; siblings begin in strictly increasing order; the root spans the whole input. -/
theorem c09_positions {s : Str} {o : ParseOptions} {d : Doc} (h : Doc.parse s o = .ok d) :
    (∀ x, (InDoc d.heap d.root x ∨ ∃ t, InDoc d.heap d.root t ∧ (d.heap.cell t).endTag = some x) →
      (d.heap.cell x).beginAt ≤ (d.heap.cell x).endAt ∧ (d.heap.cell x).endAt ≤ s.length) ∧
    (∀ a x, InDoc d.heap d.root a → InDoc d.heap a x → (d.heap.cell a).beginAt ≤ (d.heap.cell x).beginAt) ∧
    (∀ t e, InDoc d.heap d.root t → (d.heap.cell t).endTag = some e → (d.heap.cell t).beginAt ≤ (d.heap.cell e).beginAt) ∧
    (∀ p k l x y, InDoc d.heap d.root p → childAt d.heap p k x → childAt d.heap p l y → k < l →
      (d.heap.cell x).beginAt < (d.heap.cell y).beginAt) ∧
    (d.heap.cell d.root).beginAt = 0 ∧ (d.heap.cell d.root).endAt = s.length := by
  obtain ⟨hr, h0, ht0, g, ge, ho⟩ := parse_graph h
  have hp := parse_pos h
  refine ⟨?_, fun a x => parse_below h a x, ?_, ?_, ?_, ?_⟩
  · intro x hx
    apply hp.span
    rcases hx with hx | ⟨t, ht, he⟩
    · rw [hr] at hx; exact (g.inDoc_lt h0 hx).2
    · rw [hr] at ht; exact (ge.down t x (g.inDoc_lt h0 ht).2 he).2.1
  · intro t e ht he
    rw [hr] at ht
    have h1 := (g.inDoc_lt h0 ht).2
    obtain ⟨h2, h3, _, _, _, h6⟩ := ge.down t e h1 he
    have h4 : 0 < t := by
      rcases Nat.eq_zero_or_pos t with h | h
      · rw [h, ht0] at h6; cases h6
      · exact h
    rcases hp.incr t e h4 h2 h3 (by rw [h6]; simp) with h5 | h5
    · exact Nat.le_of_lt h5
    · exact h5.2
  · intro p k l x y hp' ⟨ids, hc, hk⟩ ⟨ids', hc', hl⟩ hkl
    rw [hc] at hc'; cases hc'
    rw [hr] at hp'
    have hpl := (g.inDoc_lt h0 hp').2
    have hs := g.sorted p hpl
    rw [kids_some hc] at hs
    obtain ⟨k1, rfl⟩ := List.getElem?_eq_some_iff.1 hk
    obtain ⟨l1, rfl⟩ := List.getElem?_eq_some_iff.1 hl
    have hxy := List.pairwise_iff_getElem.1 hs k l k1 l1 hkl
    have hx := g.range p ids[k] hpl (by rw [kids_some hc]; exact List.getElem_mem k1)
    have hy := g.range p ids[l] hpl (by rw [kids_some hc]; exact List.getElem_mem l1)
    have tx := g.kind p ids[k] hpl (by rw [kids_some hc]; exact List.getElem_mem k1)
    have ty := g.kind p ids[l] hpl (by rw [kids_some hc]; exact List.getElem_mem l1)
    rcases hp.incr ids[k] ids[l] (by omega) hxy hy.2 tx.1 with h5 | h5
    · exact h5
    · exact absurd h5.1 ty.1
  · rw [hr]; exact hp.root
  · rw [hr]; exact hp.rootEnd

/-- The spans of a sample, node by node. -/
def Spec.spans (s : String) (o : ParseOptions := {}) : Option (List (Nat × Nat)) :=
  match Doc.parse s.toList o with
  | .ok d => some ((List.range d.heap.size).map fun i => ((d.heap.cell i).beginAt, (d.heap.cell i).endAt))
  | _ => none

example : spans "<p>ab<br/><style>x</style></p>" =
    some [(0, 30), (0, 0), (3, 5), (5, 5), (10, 10), (26, 26), (26, 30)] := by decide +kernel

end Rphtml
