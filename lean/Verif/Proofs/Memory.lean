import Verif.Proofs.Alive
import Verif.Proofs.Order
import Verif.Proofs.CloneValue
import Verif.Spec.Memory

/-!
# Reference counting on parsed and cloned nodes
-/

namespace Rphtml
open Spec

/-! ## No cycles: reference counting frees exactly what cannot be reached -/

/-- What can be reached is never freed. -/
theorem frees_keeps {h : Heap} {held A B : NodeId → Prop} (hf : Frees h held A B) {r x : NodeId} (hr : held r) (hx : Reaches h r x)
    (hA : ∀ y, Reaches h r y → A y) : B x := by
  have : ∀ y, Reaches h r y → B y := by
    induction hf with
    | start => exact hA
    | @free B z hB hz hu ih =>
      intro y hy
      refine ⟨ih y hy, ?_⟩
      rintro rfl
      cases hy with
      | self => exact hu.1 hr
      | step hb hc => exact hu.2 _ (ih _ hb) hc
  exact this x hx

theorem frees_sub {h : Heap} {held A B : NodeId → Prop} (hf : Frees h held A B) {x : NodeId} (hx : B x) : A x := by
  induction hf with
  | start => exact hx
  | free _ _ _ ih => exact ih hx.1

/-- Without cycles, what is left when nothing can be freed any more can be reached. -/
theorem settled_reach {h : Heap} {held A : NodeId → Prop} (rank : NodeId → Nat) (hrank : ∀ a b, A a → Holds h a b → rank a < rank b)
    (hs : Settled h held A) : ∀ n x, rank x = n → A x → ∃ r, held r ∧ Reaches h r x := by
  intro n
  induction n using Nat.strongRecOn with
  | ind n ih =>
    intro x hn hx
    refine Classical.byContradiction fun hno => hs x hx ⟨fun hh => hno ⟨x, hh, .self⟩, fun a ha hax => ?_⟩
    obtain ⟨r, h1, h2⟩ := ih (rank a) (by have := hrank a x ha hax; omega) a rfl ha
    exact hno ⟨r, h1, h2.step hax⟩

/-- The strong references of a heap go up some order and stay in the heap. -/
structure Acyclic (h : Heap) : Prop where
  range : ∀ a b, a < h.size → Holds h a b → b < h.size
  rank : ∃ rank : NodeId → Nat, ∀ a b, a < h.size → Holds h a b → rank a < rank b

theorem Acyclic.reach {h : Heap} (g : Acyclic h) {a b : NodeId} (ha : a < h.size) (hr : Reaches h a b) : b < h.size := by
  induction hr with
  | self => exact ha
  | step _ hc ih => exact g.range _ _ ih hc

theorem Acyclic.counted {h : Heap} (g : Acyclic h) {held A : NodeId → Prop} (hheld : ∀ r, held r → r < h.size)
    (hf : Frees h held (fun x => x < h.size) A) (hs : Settled h held A) (x : NodeId) :
    A x ↔ ∃ r, held r ∧ Reaches h r x := by
  obtain ⟨rank, hrank⟩ := g.rank
  constructor
  · intro hx
    exact settled_reach rank (fun a b ha => hrank a b (frees_sub hf ha)) hs _ x rfl hx
  · rintro ⟨r, h1, h2⟩
    exact frees_keeps hf h1 h2 (fun y hy => g.reach (hheld r h1) hy)

theorem Acyclic.irrefl {h : Heap} (g : Acyclic h) {a b c : NodeId} (ha : a < h.size) (hr : Reaches h a b) (hb : Holds h b c) : c ≠ a := by
  obtain ⟨rank, hrank⟩ := g.rank
  have hle : ∀ y, Reaches h a y → rank a ≤ rank y := by
    intro y hy
    induction hy with
    | self => exact Nat.le_refl _
    | step h1 h2 ih => have := hrank _ _ (g.reach ha h1) h2; omega
  have h1 := hle b hr
  have h2 := hrank _ _ (g.reach ha hr) hb
  rintro rfl
  omega

theorem holds_iff {h : Heap} {a b : NodeId} : Holds h a b ↔ b ∈ h.kids a ∨ (h.cell a).endTag = some b := by
  unfold Holds Heap.kids
  cases (h.cell a).childs with
  | none => simp
  | some ids => simp

/-- Ids grow along the strong references of a heap the parser works on. -/
theorem Owns.acyclic {lt : Bool} {h : Heap} (g : Owns lt h) (ge : Ends h) : Acyclic h := by
  have key : ∀ a b, a < h.size → Holds h a b → a < b ∧ b < h.size := by
    intro a b ha hb
    rcases holds_iff.1 hb with hb | hb
    · exact g.range a b ha hb
    · have := ge.down a b ha hb
      exact ⟨this.1, this.2.1⟩
  exact ⟨fun a b ha hb => (key a b ha hb).2, fun x => x, fun a b ha hb => (key a b ha hb).1⟩

/-! ## The weak links -/

/-- The node an effect allocates. -/
theorem Eff.fresh {d d' : Doc} (hd : Ctl d) (h : Eff d d') (i : NodeId) (h1 : d.heap.size ≤ i) (h2 : i < d'.heap.size) :
    ((d'.heap.cell i).prev = none ∨
      ((d'.heap.cell i).prev = some d.current ∧ d.opts.autoFixUnclosedTag = true ∧ d.handle = .unkownTag)) ∧
    ((d'.heap.cell i).root = none ∨ (d'.heap.cell i).root = some d.root) := by
  have hsz := h.size_le
  have hi : i = d.heap.size := by omega
  subst hi
  cases h with
  | data ct m e' hea hheap hm hchain hct hend => rw [hheap] at h2; simp at h2
  | child p ty b o hp hty ho hb hheap hchain hcur hend =>
    rw [hheap, markSpaces_cell, addChild_cell d p _ (hd.chain_head hp)]
    simp only [if_true]
    split <;> exact ⟨.inl rfl, .inr rfl⟩
  | ltChild p n hf hn hp hheap hchain hcur hend =>
    obtain ⟨ct, e, k, rfl, _⟩ := hn
    rw [hheap, Heap.upd_cell]
    simp only [Heap.push_cell, if_true]
    split <;> exact ⟨.inl rfl, .inl rfl⟩
  | endPush pv hpv hheap hchain hcur hend =>
    rw [hheap]
    simp only [Heap.push_cell, if_true]
    refine ⟨?_, .inl rfl⟩
    by_cases ho : d.opts.autoFixUnclosedTag = true
    · rw [if_pos ho] at hpv
      exact .inr ⟨hpv, ho, hend.1⟩
    · rw [if_neg ho] at hpv
      exact .inl hpv
  | endLink t m hm hty hheap hchain hcur hend =>
    rw [hheap] at h2
    unfold Doc.endHeap at h2
    rw [Heap.upd_size, markSpaces_size, Heap.upd_size] at h2
    omega
  | rawEnd n hty hp hheap hchain hcur hend =>
    rw [hheap, rawHeap_cell hd]
    simp only [if_true]
    exact ⟨.inl rfl, .inl rfl⟩

/-- Only an end tag gets a new parent. -/
theorem Eff.parentKept {d d' : Doc} (hd : Ctl d) (h : Eff d d') (i : NodeId) (hi : i < d.heap.size)
    (hty : (d.heap.cell i).nodeType ≠ .tagEnd) : (d'.heap.cell i).parent = (d.heap.cell i).parent := by
  have hk := h.keep hd i hi
  have hne : i ≠ d.heap.size := by omega
  by_cases hc : i = d.current
  · subst hc
    cases h with
    | data ct m e' hea hheap hm hchain hct hend => rw [hheap, Heap.upd_cell, if_pos rfl]
    | child p ty b o hp hty ho hb hheap hchain hcur hend =>
      rw [hheap, markSpaces_cell, addChild_cell d p _ (hd.chain_head hp)]
      simp only [hne, if_false]
      by_cases hip : d.current = p
      · subst hip; simp only [if_true]; split <;> rfl
      · simp only [hip, if_false]; split <;> rfl
    | ltChild p n hf hn hp hheap hchain hcur hend =>
      rw [hheap, Heap.upd_cell]
      simp only [Heap.push_cell, hne, if_false]
      split <;> rfl
    | endPush pv hpv hheap hchain hcur hend =>
      rw [hheap]
      simp only [Heap.push_cell, hne, if_false]
    | endLink t m hm hty' hheap hchain hcur hend => exact absurd hty' hty
    | rawEnd n hty hp hheap hchain hcur hend =>
      rw [hheap, rawHeap_cell hd]
      simp only [hne, if_false, if_true]
  · exact (hk.other hc).2.2.2

/-- Where the `prev` and `root` links point, and that the root has no parent. -/
structure WeakInv (h : Heap) : Prop where
  parent : (h.cell 0).parent = none
  prev : ∀ x p, x < h.size → (h.cell x).prev = some p → p < h.size ∧ Linked h p
  root : ∀ x r, x < h.size → (h.cell x).root = some r → r = 0

theorem Reach.weak {o : ParseOptions} {s : Str} {d : Doc} (h : Reach o s d) : WeakInv d.heap := by
  induction h with
  | init =>
    refine ⟨rfl, fun x p hx hp => ?_, fun x r hx hr => ?_⟩
    · have hx : x = 0 := Nat.lt_one_iff.1 hx
      subst hx; cases hp
    · have hx : x = 0 := Nat.lt_one_iff.1 hx
      subst hx
      cases hr; rfl
  | @step s c d d' hr hs ih =>
    have he := hs.eff hr.ctl
    have hd := hr.ctl
    have hsz := he.size_le
    show WeakInv d'.heap
    refine ⟨?_, fun x p hx hp => ?_, fun x r hx hr' => ?_⟩
    · rw [he.parentKept hd 0 hd.sizePos (by rw [(hd.rootTy 0 hd.sizePos).2 rfl]; simp)]; exact ih.parent
    · rcases Nat.lt_or_ge x d.heap.size with hl | hl
      · rw [(he.keep hd x hl).prev] at hp
        obtain ⟨h1, h2⟩ := ih.prev x p hl hp
        exact ⟨by omega, h2.eff hd hr.links he h1⟩
      · rcases (he.fresh hd x hl hx).1 with h1 | ⟨h1, h2, h3⟩
        · rw [h1] at hp; cases hp
        · rw [h1] at hp; cases hp
          have h4 := hr.alive.cur h2 (by rw [h3]; simp)
          exact ⟨by have := hd.curLt; omega, Linked.eff hd hr.links he hd.curLt h4⟩
    · rcases Nat.lt_or_ge x d.heap.size with hl | hl
      · rw [(he.keep hd x hl).root] at hr'
        exact ih.root x r hl hr'
      · rcases (he.fresh hd x hl hx).2 with h1 | h1
        · rw [h1] at hr'; cases hr'
        · rw [h1] at hr'; cases hr'
          exact hd.root0

theorem parse_weak {s : Str} {o : ParseOptions} {d : Doc} (h : Doc.parse s o = .ok d) : WeakInv d.heap := by
  obtain ⟨d0, hr, he, hh, hroot, _, _⟩ := parse_ok h
  have hd := hr.ctl
  have hw := hr.weak
  rw [hh]
  have hsz : d0.heap.size ≤ d0.finalHeap.size := by rw [finalHeap_size]; exact fixedHeap_size d0
  have hnew : ∀ x, d0.heap.size ≤ x → x < d0.finalHeap.size →
      (d0.finalHeap.cell x).prev = none ∧ (d0.finalHeap.cell x).root = none := by
    intro x h1 h2
    rw [finalHeap_size] at h2
    obtain ⟨_, i, m, _, _, _, hc⟩ := fixedHeap_new hd x h1 h2
    rw [finalHeap_cell x (by have := hd.sizePos; omega) (fun _ => by have := hd.curLt; omega), hc]
    exact ⟨rfl, rfl⟩
  refine ⟨?_, fun x p hx hp => ?_, fun x r hx hr' => ?_⟩
  · rw [(eofCell hd he 0 hd.sizePos).parent]; exact hw.parent
  · rcases Nat.lt_or_ge x d0.heap.size with hl | hl
    · rw [(eofCell hd he x hl).prev] at hp
      obtain ⟨h1, h2⟩ := hw.prev x p hl hp
      refine ⟨by omega, fun hty => ?_⟩
      have : (d0.heap.cell p).nodeType = .tagEnd := by
        rcases (eofCell hd he p h1).ty with h3 | h3
        · rw [← h3]; exact hty
        · rw [h3.2.1] at hty; cases hty
      obtain ⟨t, h3, h4⟩ := h2 this
      refine ⟨t, by omega, ?_⟩
      rcases (eofCell hd he t h3).endTag with h5 | ⟨h5, _, _⟩
      · rw [h5]; exact h4
      · have := hr.links.chainOpen t h5
        rw [h4] at this; cases this
    · rw [(hnew x hl hx).1] at hp; cases hp
  · rcases Nat.lt_or_ge x d0.heap.size with hl | hl
    · rw [(eofCell hd he x hl).root] at hr'
      exact hw.root x r hl hr'
    · rw [(hnew x hl hx).2] at hr'; cases hr'

/-! ## Copies -/

/-- The strong references of a copy lead to later nodes or to end tags, which have none. -/
theorem built_holds (h : Heap) :
    (∀ t a b i par prv, built h a b i par prv t → ∀ j, a ≤ j → j < b →
      (∀ x ∈ (h.cell j).childs.getD [], j < x ∧ x < b) ∧
      (∀ e, (h.cell j).endTag = some e → a ≤ e ∧ e < b ∧ (h.cell e).childs = none ∧ (h.cell e).endTag = none)) ∧
    (∀ ts a b me prv ids, builts h a b me prv ids ts → (∀ x ∈ ids, a ≤ x ∧ x < b) ∧ ∀ j, a ≤ j → j < b →
      (∀ x ∈ (h.cell j).childs.getD [], j < x ∧ x < b) ∧
      (∀ e, (h.cell j).endTag = some e → a ≤ e ∧ e < b ∧ (h.cell e).childs = none ∧ (h.cell e).endTag = none)) := by
  have hb := built_bounds h
  have hend : ∀ {a i e}, builtEnd h a i e → ∀ j, a ≤ j → j ≤ i →
      (j ≠ i → (h.cell j).childs = none) ∧
      ∀ e', (h.cell j).endTag = some e' → a ≤ e' ∧ e' < i ∧ (h.cell e').childs = none ∧ (h.cell e').endTag = none := by
    intro a i e g j h1 h2
    cases e with
    | none =>
      have := g.1
      have hj : j = i := by omega
      subst hj
      exact ⟨fun h => absurd rfl h, fun e' he => by rw [g.2] at he; cases he⟩
    | some x =>
      obtain ⟨g1, g2, _, g4, g5, _⟩ := g
      by_cases hj : j = i
      · subst hj
        refine ⟨fun h => absurd rfl h, fun e' he => ?_⟩
        rw [g2] at he; cases he
        exact ⟨Nat.le_refl _, by omega, g4, g5⟩
      · have hj : j = a := by omega
        subst hj
        exact ⟨fun _ => g4, fun e' he => by rw [g5] at he; cases he⟩
  refine Tree.induct
    (P := fun t => ∀ a b i par prv, built h a b i par prv t → ∀ j, a ≤ j → j < b →
      (∀ x ∈ (h.cell j).childs.getD [], j < x ∧ x < b) ∧
      (∀ e, (h.cell j).endTag = some e → a ≤ e ∧ e < b ∧ (h.cell e).childs = none ∧ (h.cell e).endTag = none))
    (Q := fun ts => ∀ a b me prv ids, builts h a b me prv ids ts → (∀ x ∈ ids, a ≤ x ∧ x < b) ∧ ∀ j, a ≤ j → j < b →
      (∀ x ∈ (h.cell j).childs.getD [], j < x ∧ x < b) ∧
      (∀ e, (h.cell j).endTag = some e → a ≤ e ∧ e < b ∧ (h.cell e).childs = none ∧ (h.cell e).endTag = none)) ?_ ?_ ?_ ?_
  · intro d e a b i par prv g j h1 h2
    have h0 := hb.1 _ _ _ _ _ _ g
    simp only [built] at g
    obtain ⟨_, _, _, g4, g5, g6⟩ := g
    obtain ⟨k1, k2⟩ := hend g4 j h1 (by omega)
    constructor
    · intro x hx
      have : (h.cell j).childs = none := by
        by_cases hj : j = i
        · rw [hj]; exact g5
        · exact k1 hj
      rw [this] at hx; cases hx
    · intro e' he
      obtain ⟨q1, q2, q3⟩ := k2 e' he
      exact ⟨q1, by omega, q3⟩
  · intro d e ts ih a b i par prv g j h1 h2
    have h0 := hb.1 _ _ _ _ _ _ g
    simp only [built] at g
    obtain ⟨_, _, _, g4, ids, g5, g6⟩ := g
    obtain ⟨k1, k2⟩ := ih _ _ _ _ _ g6
    by_cases hj : j ≤ i
    · obtain ⟨k3, k4⟩ := hend g4 j h1 hj
      constructor
      · intro x hx
        by_cases hji : j = i
        · rw [hji, g5] at hx
          have := k1 x hx
          omega
        · rw [k3 hji] at hx; cases hx
      · intro e' he
        obtain ⟨q1, q2, q3⟩ := k4 e' he
        exact ⟨q1, by omega, q3⟩
    · obtain ⟨k3, k4⟩ := k2 j (by omega) h2
      refine ⟨k3, fun e' he => ?_⟩
      obtain ⟨q1, q2⟩ := k4 e' he
      exact ⟨by omega, q2⟩
  · intro a b me prv ids g
    simp only [builts] at g
    refine ⟨fun x hx => ?_, fun j h1 h2 => by omega⟩
    rw [g.1] at hx; cases hx
  · intro t ts iht ihts a b me prv ids g
    simp only [builts] at g
    obtain ⟨m, x, xs, rfl, g1, g2⟩ := g
    have b1 := hb.1 _ _ _ _ _ _ g1
    have b2 := hb.2 _ _ _ _ _ _ g2
    obtain ⟨k1, k2⟩ := ihts _ _ _ _ _ g2
    have k3 := iht _ _ _ _ _ g1
    refine ⟨fun y hy => ?_, fun j h1 h2 => ?_⟩
    · rcases List.mem_cons.1 hy with rfl | hy
      · omega
      · have := k1 y hy; omega
    · rcases Nat.lt_or_ge j m with hj | hj
      · obtain ⟨q1, q2⟩ := k3 j h1 hj
        refine ⟨fun y hy => by have := q1 y hy; omega, fun e he => ?_⟩
        obtain ⟨r1, r2, r3⟩ := q2 e he
        exact ⟨r1, by omega, r3⟩
      · obtain ⟨q1, q2⟩ := k2 j hj h2
        refine ⟨q1, fun e he => ?_⟩
        obtain ⟨r1, r2, r3⟩ := q2 e he
        exact ⟨by omega, r2, r3⟩

/-- A heap without cycles, and a copy behind it. -/
theorem Acyclic.built {h h' : Heap} (g : Acyclic h) (hsame : ∀ j, j < h.size → h'.cell j = h.cell j) {i : NodeId} {par prv : Option NodeId}
    {t : Tree} (hb : built h' h.size h'.size i par prv t) : Acyclic h' := by
  obtain ⟨rank, hrank⟩ := g.rank
  have hb' := (built_holds h').1 _ _ _ _ _ _ hb
  have hnew : ∀ j x, h.size ≤ j → j < h'.size → Holds h' j x →
      (j < x ∧ x < h'.size) ∨ (x < h'.size ∧ (h'.cell x).childs = none ∧ (h'.cell x).endTag = none) := by
    intro j x h1 h2 hx
    obtain ⟨k1, k2⟩ := hb' j h1 h2
    rcases holds_iff.1 hx with hx | hx
    · exact .inl (k1 x hx)
    · exact .inr (k2 x hx).2
  have hold : ∀ j x, j < h.size → (Holds h' j x ↔ Holds h j x) := by
    intro j x hj; unfold Holds; rw [hsame j hj]
  have hbound := (built_bounds h').1 _ _ _ _ _ _ hb
  refine ⟨fun a b ha hab => ?_, fun x => if x < h.size then rank x else
      if (h'.cell x).childs = none ∧ (h'.cell x).endTag = none then h'.size else x, fun a b ha hab => ?_⟩
  · rcases Nat.lt_or_ge a h.size with hl | hl
    · have := g.range a b hl ((hold a b hl).1 hab); omega
    · rcases hnew a b hl ha hab with h1 | h1
      · exact h1.2
      · exact h1.1
  · rcases Nat.lt_or_ge a h.size with hl | hl
    · have h1 := (hold a b hl).1 hab
      have h2 := g.range a b hl h1
      simp only [hl, h2, if_true]
      exact hrank a b hl h1
    · have ha' : ¬ a < h.size := by omega
      have hne : ¬ ((h'.cell a).childs = none ∧ (h'.cell a).endTag = none) := by
        rintro ⟨h1, h2⟩
        rcases hab with ⟨ids, h3, _⟩ | h3
        · rw [h1] at h3; cases h3
        · rw [h2] at h3; cases h3
      rcases hnew a b hl ha hab with h1 | h1
      · have hb0 : ¬ b < h.size := by omega
        simp only [ha', hb0, hne, if_false]
        split <;> omega
      · have hb0 : ¬ b < h.size := by
          have := (hb' a hl ha)
          rcases holds_iff.1 hab with h2 | h2
          · have := this.1 b h2; omega
          · have := (this.2 b h2).1; omega
        simp only [ha', hb0, hne, if_false, h1.2, and_self, if_true]
        exact ha

/-- The strong references stay in the heap and all `root` links point to the same node. -/
structure RootInv (h : Heap) (r : NodeId) : Prop where
  range : ∀ a b, a < h.size → Holds h a b → b < h.size
  root : ∀ x q, x < h.size → (h.cell x).root = some q → q = r

theorem RootInv.upd {h : Heap} {r i : NodeId} (g : RootInv h r) (f : Cell → Cell) (h1 : (f (h.cell i)).root = (h.cell i).root)
    (h2 : (f (h.cell i)).endTag = (h.cell i).endTag)
    (h3 : ∀ ids, (f (h.cell i)).childs = some ids → (h.cell i).childs = some ids ∨ ∀ x ∈ ids, x < h.size) : RootInv (h.upd i f) r := by
  refine ⟨fun a b ha hb => ?_, fun x q hx hq => ?_⟩
  · rw [Heap.upd_size] at ha ⊢
    by_cases hai : a = i
    · subst hai
      rcases hb with ⟨ids, q1, q2⟩ | q1
      · rw [Heap.upd_cell, if_pos rfl] at q1
        rcases h3 ids q1 with q3 | q3
        · exact g.range a b ha (.inl ⟨ids, q3, q2⟩)
        · exact q3 b q2
      · rw [Heap.upd_cell, if_pos rfl, h2] at q1
        exact g.range a b ha (.inr q1)
    · refine g.range a b ha ?_
      unfold Holds at hb
      rwa [Heap.upd_cell, if_neg hai] at hb
  · rw [Heap.upd_size] at hx
    by_cases hxi : x = i
    · subst hxi
      rw [Heap.upd_cell, if_pos rfl, h1] at hq
      exact g.root x q hx hq
    · rw [Heap.upd_cell, if_neg hxi] at hq
      exact g.root x q hx hq

theorem cloneWith_root (reduce r : Nat) : ∀ (fuel : Nat) (h : Heap) (i : NodeId) (h' : Heap) (i' : NodeId), RootInv h r → i < h.size →
    Heap.cloneWith reduce fuel h i = some (h', i') → RootInv h' r ∧ h.size ≤ h'.size ∧ i' < h'.size := by
  intro fuel
  induction fuel with
  | zero => intro h i h' i' _ _ hc; unfold Heap.cloneWith at hc; cases hc
  | succ fuel ih =>
    intro h i h' i' g hi hc
    unfold Heap.cloneWith at hc
    simp only at hc
    split at hc
    · cases hc
    rename_i dat _
    split at hc
    · cases hc
    rename_i h1 e' hend
    have hg1 : RootInv h1 r ∧ h.size ≤ h1.size ∧ ∀ e, e' = some e → e < h1.size := by
      split at hend
      · cases hend; exact ⟨g, Nat.le_refl _, fun e he => by cases he⟩
      · rename_i e he
        split at hend
        · cases hend
        · rename_i h2 e2 hcl
          cases hend
          obtain ⟨q1, q2, q3⟩ := ih h e _ e2 g (g.range i e hi (.inr he)) hcl
          exact ⟨q1, q2, fun e he => by cases he; exact q3⟩
    obtain ⟨g1, hle, he1⟩ := hg1
    have hpush : RootInv (h1.push { toNodeD := dat, endTag := e', root := (h.cell i).root, document := (h.cell i).document }) r := by
      refine ⟨fun a b ha hb => ?_, fun x q hx hq => ?_⟩
      · rw [Heap.push_size] at ha ⊢
        unfold Holds at hb
        rw [Heap.push_cell] at hb
        split at hb
        · rcases hb with ⟨ids, q1, _⟩ | q1
          · cases q1
          · have := he1 b q1; omega
        · have := g1.range a b (by omega) hb; omega
      · rw [Heap.push_size] at hx
        rw [Heap.push_cell] at hq
        split at hq
        · exact g.root i q hi hq
        · exact g1.root x q (by omega) hq
    generalize hH : h1.push { toNodeD := dat, endTag := e', root := (h.cell i).root, document := (h.cell i).document } = H at hc hpush
    have hHs : H.size = h1.size + 1 := by rw [← hH]; rfl
    split at hc
    · cases hc; exact ⟨hpush, by omega, by omega⟩
    · rename_i ids hids
      have hrange : ∀ x ∈ ids, x < H.size := fun x hx => by have := g.range i x hi (.inl ⟨ids, hids, hx⟩); omega
      split at hc
      · cases hc
      · rename_i h2 done hfold
        have key : ∀ (ids : List NodeId) (H0 : Heap) (d0 : List NodeId), RootInv H0 r → (∀ x ∈ ids, x < H0.size) →
            (∀ x ∈ d0, x < H0.size) → ids.foldl (fun (acc : Option (Heap × List NodeId)) (node : NodeId) =>
              match acc with
              | none => none
              | some (h, done) =>
                match Heap.cloneWith reduce fuel h node with
                | none => none
                | some (h, cid) =>
                  some (h.upd cid fun n =>
                    { n with parent := some h1.size, prev := done.getLast?, index := (h.cell node).index }, done ++ [cid]))
                (some (H0, d0)) = some (h2, done) → RootInv h2 r ∧ H0.size ≤ h2.size ∧ ∀ x ∈ done, x < h2.size := by
          intro ids
          induction ids with
          | nil => intro H0 d0 q1 q2 q3 q4; simp only [List.foldl_nil, Option.some.injEq, Prod.mk.injEq] at q4; rw [← q4.1, ← q4.2]; exact ⟨q1, Nat.le_refl _, q3⟩
          | cons y ys ihy =>
            intro H0 d0 q1 q2 q3 q4
            rw [List.foldl_cons] at q4
            cases hcl : Heap.cloneWith reduce fuel H0 y with
            | none =>
              exfalso
              simp only [hcl] at q4
              have hnone : ∀ l : List NodeId, l.foldl (fun (acc : Option (Heap × List NodeId)) (node : NodeId) =>
                  match acc with
                  | none => none
                  | some (h, done) =>
                    match Heap.cloneWith reduce fuel h node with
                    | none => none
                    | some (h, cid) =>
                      some (h.upd cid fun n =>
                        { n with parent := some h1.size, prev := done.getLast?, index := (h.cell node).index }, done ++ [cid]))
                    none = none := by
                intro l
                induction l with
                | nil => rfl
                | cons _ _ ihl => rw [List.foldl_cons]; exact ihl
              rw [hnone] at q4; cases q4
            | some p =>
              obtain ⟨H1, cid⟩ := p
              simp only [hcl] at q4
              obtain ⟨r1, r2, r3⟩ := ih H0 y H1 cid q1 (q2 y (by simp)) hcl
              have r4 := ihy _ _ (r1.upd (i := cid) (fun n => { n with parent := some h1.size, prev := d0.getLast?, index := (H1.cell y).index })
                rfl rfl (fun ids hids => .inl hids))
                (fun x hx => by rw [Heap.upd_size]; have := q2 x (List.mem_cons_of_mem _ hx); omega)
                (fun x hx => by
                  rw [Heap.upd_size]
                  rcases List.mem_append.1 hx with hx | hx
                  · have := q3 x hx; omega
                  · rw [List.mem_singleton.1 hx]; exact r3) q4
              rw [Heap.upd_size] at r4
              exact ⟨r4.1, by omega, r4.2.2⟩
        obtain ⟨q1, q2, q3⟩ := key ids H [] hpush hrange (fun x hx => by cases hx) hfold
        cases hc
        refine ⟨q1.upd (i := h1.size) (fun n => { n with childs := some done }) rfl rfl (fun ids hids => .inr ?_), ?_, ?_⟩
        · cases hids; exact q3
        · rw [Heap.upd_size]; omega
        · rw [Heap.upd_size]; omega

end Rphtml
