import Verif.Proofs.Graph
import Verif.Spec.Graph

/-!
# The weak link that the parser follows

`parse_tagend` upgrades the weak `prev` link of the end tag it is about to drop (parser.rs:1383).  The arena of the
model never frees a node, so the model cannot show a dangling link.  This file proves that the target of the link is
still linked into the tree, so the strong reference that keeps it alive in the program exists.
-/

namespace Rphtml

/-- An end tag node that is the `end_tag` of some node. -/
def Linked (h : Heap) (x : NodeId) : Prop :=
  (h.cell x).nodeType = .tagEnd → ∃ t, t < h.size ∧ (h.cell t).endTag = some x

structure AliveInv (d : Doc) : Prop where
  cur : d.opts.autoFixUnclosedTag = true → d.handle ≠ .tagEnd → Linked d.heap d.current
  pend : d.opts.autoFixUnclosedTag = true → d.handle = .tagEnd →
    ∃ p, d.cur.prev = some p ∧ p < d.heap.size ∧ Linked d.heap p
  off : d.opts.autoFixUnclosedTag = false → d.handle = .tagEnd → d.cur.prev = none

theorem Eff.endKept {d d' : Doc} (hd : Ctl d) (hl : Links d) (h : Eff d d') (i e : NodeId) (hi : i < d.heap.size)
    (he : (d.heap.cell i).endTag = some e) : (d'.heap.cell i).endTag = some e := by
  have open_ : ∀ t, d.chain.head? = some t → i ≠ t := by
    intro t ht hit
    have := hl.chainOpen t (List.mem_of_mem_head? ht)
    rw [← hit, he] at this; cases this
  have hne : i ≠ d.heap.size := by omega
  cases h with
  | data ct m e' hea hheap hm hchain hct hend =>
    rw [hheap, Heap.upd_cell]
    split <;> exact he
  | child p ty b o hp hty ho hb hheap hchain hcur hend =>
    rw [hheap, markSpaces_cell, addChild_cell d p _ (hd.chain_head hp)]
    simp only [hne, if_false]
    by_cases hip : i = p
    · subst hip; simp only [if_true]; split <;> exact he
    · simp only [hip, if_false]; split <;> exact he
  | ltChild p n hf hn hp hheap hchain hcur hend =>
    rw [hheap, Heap.upd_cell]
    simp only [Heap.push_cell, hne, if_false]
    split <;> exact he
  | endPush pv hpv hheap hchain hcur hend =>
    rw [hheap]
    simp only [Heap.push_cell, hne, if_false]
    exact he
  | endLink t m hm hty hheap hchain hcur hend =>
    have hit := open_ t hm.2.1
    rw [hheap]
    rw [endHeap_cell hd t _ hm.2.1 hty]
    simp only [hit, if_false]
    split
    · exact he
    · split <;> exact he
  | rawEnd n hty hp hheap hchain hcur hend =>
    have hit := open_ _ hp
    rw [hheap]
    rw [rawHeap_cell hd]
    simp only [hit, if_false, hne]
    exact he

theorem Linked.eff {d d' : Doc} (hd : Ctl d) (hl : Links d) (h : Eff d d') {x : NodeId} (hx : x < d.heap.size)
    (hk : Linked d.heap x) : Linked d'.heap x := by
  intro hty
  have : (d.heap.cell x).nodeType = .tagEnd := by
    rcases (h.keep hd x hx).ty with h1 | h1
    · rw [← h1]; exact hty
    · rw [h1.2.1] at hty; cases hty
  obtain ⟨t, ht, he⟩ := hk this
  exact ⟨t, by have := h.size_le; omega, h.endKept hd hl t x ht he⟩

theorem AliveInv.eff {d d' : Doc} (hd : Ctl d) (hl : Links d) (hopt : d'.opts = d.opts) (h : Eff d d')
    (ih : AliveInv d) : AliveInv d' := by
  have hlink := fun x => Linked.eff (x := x) hd hl h
  have hkeep := h.keep hd
  have hsz := h.size_le
  cases h with
  | data ct m e hea hheap hm hchain hct hend =>
    have hprev : d'.current = d.current → d'.cur.prev = d.cur.prev := by
      intro hc
      unfold Doc.cur; rw [hc]; exact (hkeep d.current hd.curLt).prev
    rcases hend with ⟨hc, hiff⟩ | ⟨hc, hh, hh', _⟩
    · refine ⟨?_, ?_, ?_⟩
      · intro ho hn
        rw [hc]
        exact hlink _ hd.curLt (ih.cur (hopt ▸ ho) (fun h => hn (hiff.2 h)))
      · intro ho hn
        obtain ⟨p, h1, h2, h3⟩ := ih.pend (hopt ▸ ho) (hiff.1 hn)
        exact ⟨p, by rw [hprev hc]; exact h1, by omega, hlink p h2 h3⟩
      · intro ho hn
        rw [hprev hc]; exact ih.off (hopt ▸ ho) (hiff.1 hn)
    · refine ⟨?_, ?_, ?_⟩
      · intro ho _
        obtain ⟨p, h1, h2, h3⟩ := ih.pend (hopt ▸ ho) hh
        rw [hc, h1]
        exact hlink p h2 h3
      · intro _ hn; rw [hh'] at hn; cases hn
      · intro _ hn; rw [hh'] at hn; cases hn
  | child p ty b o hp hty ho hb hheap hchain hcur hend =>
    refine ⟨?_, fun _ hn => absurd hn hend.2, fun _ hn => absurd hn hend.2⟩
    intro _ _ hc
    exfalso
    rw [hcur, hheap, markSpaces_cell, addChild_cell d p _ (hd.chain_head hp)] at hc
    simp only [if_true] at hc
    split at hc
    · cases hc
    · cases ty <;> simp_all [NodeType.childKind, Cell.new]
  | ltChild p n hf hn hp hheap hchain hcur hend =>
    refine ⟨?_, fun _ hn => absurd hn hend.2, fun _ hn => absurd hn hend.2⟩
    intro _ _ hc
    exfalso
    obtain ⟨ct, e, k, rfl, _⟩ := hn
    rw [hcur, hheap, Heap.upd_cell] at hc
    simp only [Heap.push_cell, if_true] at hc
    split at hc <;> cases hc
  | endPush pv hpv hheap hchain hcur hend =>
    have hc : d'.cur.prev = pv := by
      unfold Doc.cur; rw [hcur, hheap, Heap.push_cell]; simp
    refine ⟨fun _ hn => absurd hend.2 hn, ?_, ?_⟩
    · intro ho _
      rw [hopt] at ho
      refine ⟨d.current, by rw [hc, hpv, ho]; rfl, by have := hd.curLt; omega, hlink _ hd.curLt (ih.cur ho ?_)⟩
      rw [hend.1]; simp
    · intro ho _
      rw [hopt] at ho
      rw [hc, hpv, ho]; rfl
  | endLink t m hm hty hheap hchain hcur hend =>
    refine ⟨?_, fun _ hn => ?_, fun _ hn => ?_⟩
    · intro _ _ _
      have ht : t < d.heap.size := hd.chainLt t (List.mem_of_mem_head? hm.2.1)
      refine ⟨t, by omega, ?_⟩
      rw [hcur, hheap]
      have hne : t ≠ d.current := by
        intro h
        unfold Doc.cur at hty
        rw [← h] at hty
        rcases chain_not_text hd (List.mem_of_mem_head? hm.2.1) with h | h <;> rw [h] at hty <;> cases hty
      rw [endHeap_cell hd t _ hm.2.1 hty]
      simp only [hne, if_false, if_true]
    · rw [hend.2] at hn; cases hn
    · rw [hend.2] at hn; cases hn
  | rawEnd n hty hp hheap hchain hcur hend =>
    refine ⟨?_, fun _ hn => ?_, fun _ hn => ?_⟩
    · intro _ _ hc
      rw [hcur] at hc
      rcases (hkeep d.current hd.curLt).ty with h1 | h1
      · rw [h1] at hc
        unfold Doc.cur at hty
        rw [hty] at hc; cases hc
      · rw [h1.2.1] at hc; cases hc
    · rw [hend.2] at hn; cases hn
    · rw [hend.2] at hn; cases hn

theorem Reach.alive {o : ParseOptions} {s : Str} {d : Doc} (h : Reach o s d) : AliveInv d := by
  induction h with
  | init =>
    refine ⟨fun _ _ h => ?_, fun _ h => ?_, fun _ h => ?_⟩ <;> cases h
  | step hr hs ih =>
    have := ih.eff hr.ctl hr.links hs.frame.2.1 (hs.eff hr.ctl)
    exact ⟨this.cur, this.pend, this.off⟩

/-- Everything but an unlinked end tag hangs off the root. -/
theorem Owns.inDoc {lt : Bool} {h : Heap} (g : Owns lt h) : ∀ x, x < h.size → (h.cell x).nodeType ≠ .tagEnd →
    Spec.InDoc h 0 x := by
  intro x
  induction x using Nat.strongRecOn with
  | ind x ih =>
    intro hx hty
    by_cases h0 : x = 0
    · rw [h0]; exact .root
    · obtain ⟨p, hp, hxp⟩ := g.owned x hx (by omega) hty
      have hcs : ∃ ids, (h.cell p).childs = some ids ∧ x ∈ ids := by
        unfold Heap.kids at hxp
        cases hc : (h.cell p).childs with
        | none => rw [hc] at hxp; cases hxp
        | some ids => rw [hc] at hxp; exact ⟨ids, rfl, hxp⟩
      obtain ⟨ids, hc, hm⟩ := hcs
      refine .child (ih p (g.range p x hp hxp).1 hp ?_) hc hm
      rcases g.inner p hp (by rw [hc]; simp) with h1 | h1 <;> rw [h1] <;> simp

end Rphtml
