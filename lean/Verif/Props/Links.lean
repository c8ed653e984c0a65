import Verif.Props.Graph
import Verif.Proofs.Position

/-!
# C07: exactly which nodes have their parent and root links
-/

namespace Rphtml
open Spec

/-- The root link of a text tells whether its first character is a repaired `<`. -/
def BornInv (s : Str) (h : Heap) : Prop :=
  ∀ i, i < h.size → (h.cell i).nodeType = .text ∨ (h.cell i).nodeType = .spacesBetweenTag →
    ((h.cell i).root = none → s[(h.cell i).beginAt]? = some '<') ∧
      ((h.cell i).root ≠ none → ∃ c, c ≠ '<' ∧ s[(h.cell i).beginAt]? = some c)

theorem Step.grow_wait {d d' : Doc} {c : Char} (hs : Step d c d') (hh : d.handle = .wait) (hg : d.heap.size < d'.heap.size) : c ≠ '<' := by
  cases hs with
  | lt hh' hc => exact absurd hg (Nat.lt_irrefl _)
  | textResume hh' hc => exact hc
  | textStart hh' hc => exact hc
  | _ => simp_all [Handler.inTag]

theorem getElem?_snoc {s : Str} {c x : Char} {n : Nat} (h : s[n]? = some x) : (s ++ [c])[n]? = some x := by
  rw [List.getElem?_append_left (by rw [List.getElem?_eq_some_iff] at h; exact h.1)]; exact h

theorem BornInv.step {o : ParseOptions} {s : Str} {d d' : Doc} {c : Char} (hr : Reach o s d) (g : BornInv s d.heap)
    (hs : Step d c d') : BornInv (s ++ [c]) d'.heap := by
  have hd := hr.ctl
  have he := hs.eff hd
  have hk := he.keep hd
  intro i hi ht
  by_cases h1 : i < d.heap.size
  · have ht' : (d.heap.cell i).nodeType = .text ∨ (d.heap.cell i).nodeType = .spacesBetweenTag := by
      rcases (hk i h1).ty with q | q
      · rw [q] at ht; exact ht
      · exact .inl q.1
    rw [(hk i h1).root, (hk i h1).beginAt]
    refine ⟨fun q => getElem?_snoc ((g i h1 ht').1 q), fun q => ?_⟩
    obtain ⟨x, k1, k2⟩ := (g i h1 ht').2 q
    exact ⟨x, k1, getElem?_snoc k2⟩
  · have hgrow : d.heap.size < d'.heap.size := by omega
    have hsz : i = d.heap.size := by
      have := he.size_le
      omega
    subst hsz
    cases he with
    | data ct m e hea hheap => rw [hheap] at hgrow; simp at hgrow
    | endLink t m hm hty hheap => rw [hheap] at hgrow; simp at hgrow
    | child p ty b oo hp hty ho hbb hheap =>
      rw [hheap, grown_cell hd p hp _ oo ho] at ht ⊢
      rcases hbb with ⟨q1, q2, q3, _⟩ | ⟨_, _, q3⟩
      · refine ⟨fun q => by simp at q, fun _ => ⟨c, hs.grow_wait q1 hgrow, ?_⟩⟩
        show (s ++ [c])[b]? = some c
        rw [q2, hr.position]; simp
      · exfalso
        rcases ht with q | q
        · exact q3 q
        · have q : ty = .spacesBetweenTag := q
          rw [q] at hty; cases hty
    | ltChild p n hf hn hp hheap hchain hcur' hend =>
      have hplt : p < d.heap.size := by
        rcases hp with h | h | h
        · rw [h.1]; exact hd.curLt
        · exact hd.chain_head h
        · rw [h.2, hd.root0]; exact hd.sizePos
      have hcell : d'.heap.cell d.heap.size = n := by
        rw [hheap, Heap.upd_cell, Heap.push_cell]
        have : ¬ d.heap.size = p := by omega
        simp only [this, if_false, if_true]
      obtain ⟨ct, e, k, hn, _⟩ := hn
      rw [hcell, hn]
      refine ⟨fun _ => ?_, fun q => absurd rfl q⟩
      have hsrc := hr.srcAt
      unfold SrcAt at hsrc
      rw [hend.1] at hsrc
      obtain ⟨pre, e1, e2⟩ := hsrc
      refine getElem?_snoc ?_
      show s[d.memPosition]? = some '<'
      rw [e1, ← e2]; simp
    | endPush pv hpv hheap =>
      rw [hheap, Heap.push_cell, if_pos rfl] at ht
      rcases ht with q | q <;> cases q
    | rawEnd n hty hp hheap =>
      rw [hheap, rawHeap_cell hd n, if_pos rfl] at ht
      rcases ht with q | q <;> cases q

theorem Reach.born {o : ParseOptions} {s : Str} {d : Doc} (h : Reach o s d) : BornInv s d.heap := by
  induction h with
  | init =>
    intro i hi ht
    have : i = 0 := by have : i < 1 := hi; omega
    subst this
    rcases ht with q | q <;> cases q
  | step hr hs ih =>
    have := BornInv.step hr ih hs
    exact this

/-- **C07** for all options, exactly: the parent link of a child is the node that holds it and its root link is the document root,
unless the child is a text whose first character in the input is a `<` (which `auto_fix_unescaped_lt` has repaired); such a text has
neither link. -/
theorem c07_exact {s : Str} {o : ParseOptions} {d : Doc} (h : Doc.parse s o = .ok d) (p k x : Nat)
    (hp : InDoc d.heap d.root p) (hx : childAt d.heap p k x) :
    if ((d.heap.cell x).nodeType = .text ∨ (d.heap.cell x).nodeType = .spacesBetweenTag) ∧ s[(d.heap.cell x).beginAt]? = some '<'
    then o.autoFixUnescapedLt = true ∧ (d.heap.cell x).parent = none ∧ (d.heap.cell x).root = none
    else (d.heap.cell x).parent = some p ∧ (d.heap.cell x).root = some d.root := by
  have hl := (c07_links_partial h).1 p k x hp hx
  obtain ⟨hr0, h0, _, g, _, _⟩ := parse_graph h
  obtain ⟨d0, hr, he, hh, hroot, _, _⟩ := parse_ok h
  have hd := hr.ctl
  have hxlt : x < d.heap.size := by
    obtain ⟨ids, hc, hk⟩ := hx
    exact (g.range p x (g.inDoc_lt h0 (hr0 ▸ hp)).2 (by rw [kids_some hc]; exact List.mem_of_getElem? hk)).2
  have hb : (d.heap.cell x).nodeType = .text ∨ (d.heap.cell x).nodeType = .spacesBetweenTag →
      ((d.heap.cell x).root = none → s[(d.heap.cell x).beginAt]? = some '<') ∧
        ((d.heap.cell x).root ≠ none → ∃ c, c ≠ '<' ∧ s[(d.heap.cell x).beginAt]? = some c) := by
    intro ht
    rw [hh] at hxlt ht ⊢
    have hx0 : x < d0.heap.size := by
      rcases Nat.lt_or_ge x d0.heap.size with q | q
      · exact q
      · exfalso
        rw [finalHeap_size] at hxlt
        obtain ⟨_, t, m, _, _, _, hc⟩ := fixedHeap_new hd x q hxlt
        have h1' := hd.curLt
        have h2' := hd.sizePos
        rw [finalHeap_cell x (by omega) (fun _ => by omega), hc] at ht
        rcases ht with q | q <;> cases q
    have hc := eofCell hd he x hx0
    rw [hc.root, hc.beginAt]
    refine hr.born x hx0 ?_
    rcases hc.ty with q | q
    · rw [q] at ht; exact ht
    · exact .inl q.1
  split
  · rename_i hq
    rcases hl with q | q
    · obtain ⟨c, k1, k2⟩ := (hb hq.1).2 (by rw [q.2]; simp)
      rw [k2, Option.some.injEq] at hq
      exact absurd hq.2 k1
    · exact ⟨q.1, q.2.2⟩
  · rename_i hq
    rcases hl with q | q
    · exact q
    · exact absurd ⟨q.2.1, (hb q.2.1).1 q.2.2.2⟩ hq

/-- Where each node begins, and whether it has its links. -/
def Spec.born (s : String) (o : ParseOptions := {}) : Option (List (Nat × Bool × Bool)) :=
  match Doc.parse s.toList o with
  | .ok d => some ((List.range d.heap.size).map fun i =>
      ((d.heap.cell i).beginAt, (d.heap.cell i).parent.isSome, (d.heap.cell i).root.isSome))
  | _ => none

/-- Two texts of the second kind, one of the first, and tags. -/
example : born "<1<p>a<b></b>< </p>" { autoFixUnescapedLt := true } =
    some [(0, false, true), (0, false, false), (2, true, true), (5, true, true), (6, true, true), (9, true, false), (13, false, false), (15, true, false)] := by
  decide +kernel

end Rphtml
