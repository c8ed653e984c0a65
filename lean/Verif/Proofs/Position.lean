import Verif.Proofs.Final
import Verif.Proofs.Source

/-!
# Positions

`bound d` is the position before which every node read so far begins.
-/

namespace Rphtml

/-- The handlers that have read a `<` without having made a node for it yet. -/
def Handler.pending : Handler → Bool
  | .unkownTag | .exclamationBegin => true
  | _ => false

/-- Every node read so far begins before this position. -/
def Doc.bound (d : Doc) : Nat := if d.handle.pending then d.memPosition else d.position

/-- `memPosition` while a `<` is pending. -/
theorem Step.mem {d d' : Doc} {c : Char} (h : Step d c d') (hp : d'.handle.pending = true) :
    (d'.memPosition = d.position ∧ (d.handle = .wait → d'.heap.size = d.heap.size)) ∨
    (d.handle.pending = true ∧ d'.memPosition = d.memPosition ∧ d'.heap.size = d.heap.size) := by
  cases h with
  | lt hh hc => exact Or.inl ⟨rfl, fun _ => rfl⟩
  | textMore hh hc => simp only [hh] at hp; cases hp
  | textEnd hh hc => exact Or.inl ⟨rfl, fun _ => rfl⟩
  | bang hh hc => exact Or.inr ⟨by rw [hh]; rfl, rfl, rfl⟩
  | ltExtend hh hf hc ht w hw d1 h1 =>
    subst h1
    split at hp
    · rename_i h; rw [if_pos h]; exact Or.inl ⟨rfl, fun _ => rfl⟩
    · cases hp
  | ltNew hh hf hc ht p hp' d1 h1 =>
    subst h1
    split at hp
    · rename_i h; rw [if_pos h]; exact Or.inl ⟨rfl, fun h => by rw [hh] at h; cases h⟩
    · cases hp
  | exclFirst hh hdt D hD => exact Or.inr ⟨by rw [hh]; rfl, rfl, rfl⟩
  | exclMore hh D hdt hl hc => exact Or.inr ⟨by rw [hh]; rfl, rfl, rfl⟩
  | commentMore hh hc => simp only [hh] at hp; cases hp
  | nameMore hh hc => simp only [hh] at hp; cases hp
  | nameEnd hh hc =>
    exfalso
    have hp : Handler.pending (if c = '/' then .tagSelfClosing else .tagWait) = true := hp
    split at hp <;> cases hp
  | nameClose hh hc m hm =>
    rw [closeTag_handle] at hp
    split at hp <;> cases hp
  | tagMore hh m hm t id ht =>
    exfalso
    have hp : t.handle.pending = true := hp
    have : t.handle.inTag = true := by
      unfold tagChar tagWaitC at ht
      have hin : (d.tagSt m).handle.inTag = true := hh
      repeat' split at ht
      all_goals first
        | (cases ht; done)
        | skip
      all_goals
        simp only [TagOut.cont.injEq] at ht
        obtain ⟨rfl, _⟩ := ht
      all_goals first
        | rfl
        | exact hin
    cases hq : t.handle <;> rw [hq] at hp this <;> simp [Handler.pending, Handler.inTag] at hp this
  | tagClose hh m hm m' pc mark id ht =>
    rw [closeTag_handle] at hp
    split at hp <;> cases hp
  | endMore hh hc => simp only [hh] at hp; cases hp
  | rawMore hh hc => simp only [hh] at hp; cases hp
  | _ => cases hp

theorem Reach.mem_lt {o : ParseOptions} {s : Str} {d : Doc} (h : Reach o s d) (hp : d.handle.pending = true) :
    d.memPosition < d.position := by
  have hs := h.srcAt
  rw [h.position]
  unfold SrcAt at hs
  cases hh : d.handle <;> rw [hh] at hp <;> simp only [Handler.pending, Bool.false_eq_true] at hp <;>
    simp only [hh] at hs
  · have := hs.len; simp at this; omega
  · have := hs.len; simp at this; omega

/-- Where the nodes begin and end. -/
structure PosInv (d : Doc) : Prop where
  root : (d.heap.cell 0).beginAt = 0
  before : ∀ i, 0 < i → i < d.heap.size → (d.heap.cell i).nodeType ≠ .tagEnd → (d.heap.cell i).beginAt < d.bound
  incr : ∀ i j, 0 < i → i < j → j < d.heap.size → (d.heap.cell i).nodeType ≠ .tagEnd →
    (d.heap.cell i).beginAt < (d.heap.cell j).beginAt
  span : ∀ i, i < d.heap.size → (d.heap.cell i).beginAt ≤ (d.heap.cell i).endAt ∧ (d.heap.cell i).endAt ≤ d.position

theorem PosInv.new (o : ParseOptions) : PosInv (Doc.new o) := by
  refine ⟨rfl, ?_, ?_, ?_⟩
  · intro i h1 h2; have : i < 1 := h2; omega
  · intro i j h1 h2 h3; have : j < 1 := h3; omega
  · intro i h2
    have : i < 1 := h2
    have : i = 0 := by omega
    subst this
    exact ⟨Nat.le_refl _, Nat.le_refl _⟩

/-- One cell was added (or none), the others kept their beginnings. -/
theorem PosInv.grow {d d' : Doc} (hd : Ctl d) (g : PosInv d) (he : Eff d d') (hb : d.bound ≤ d'.bound)
    (hpos : d.position ≤ d'.position)
    (hnew : d.heap.size < d'.heap.size → d.bound ≤ (d'.heap.cell d.heap.size).beginAt ∧
      ((d'.heap.cell d.heap.size).nodeType ≠ .tagEnd → (d'.heap.cell d.heap.size).beginAt < d'.bound) ∧
      (d'.heap.cell d.heap.size).beginAt ≤ (d'.heap.cell d.heap.size).endAt ∧
      (d'.heap.cell d.heap.size).endAt ≤ d'.position)
    (hcur : (d.heap.cell d.current).beginAt ≤ (d'.heap.cell d.current).endAt ∧ (d'.heap.cell d.current).endAt ≤ d'.position) :
    PosInv d' := by
  have hk := he.keep hd
  have hsz := he.size_le
  have hty : ∀ i, i < d.heap.size → (d'.heap.cell i).nodeType ≠ .tagEnd → (d.heap.cell i).nodeType ≠ .tagEnd := by
    intro i hi h1 h2
    rcases (hk i hi).ty with h3 | h3
    · rw [h3] at h1; exact h1 h2
    · rw [h2] at h3; cases h3.1
  have hcase : ∀ i, i < d'.heap.size → i < d.heap.size ∨ (i = d.heap.size ∧ d.heap.size < d'.heap.size) := by
    intro i hi; omega
  refine ⟨?_, ?_, ?_, ?_⟩
  · rw [(hk 0 hd.sizePos).beginAt]; exact g.root
  · intro i h0 hi ht
    rcases hcase i hi with h1 | ⟨h1, h2⟩
    · rw [(hk i h1).beginAt]
      exact Nat.lt_of_lt_of_le (g.before i h0 h1 (hty i h1 ht)) hb
    · rw [h1] at ht ⊢; exact (hnew h2).2.1 ht
  · intro i j h0 hij hj ht
    rcases hcase j hj with h1 | ⟨h1, h2⟩
    · have hi : i < d.heap.size := by omega
      rw [(hk i hi).beginAt, (hk j h1).beginAt]
      exact g.incr i j h0 hij h1 (hty i hi ht)
    · have hi : i < d.heap.size := by omega
      rw [(hk i hi).beginAt, h1]
      exact Nat.lt_of_lt_of_le (g.before i h0 hi (hty i hi ht)) (hnew h2).1
  · intro i hi
    rcases hcase i hi with h1 | ⟨h1, h2⟩
    · by_cases hc : i = d.current
      · rw [hc, (hk d.current hd.curLt).beginAt]; exact hcur
      · rw [(hk i h1).beginAt, ((hk i h1).other hc).2.2.1]
        have := g.span i h1
        omega
    · rw [h1]; exact (hnew h2).2.2

theorem PosInv.step {o : ParseOptions} {s : Str} {d d' : Doc} {c : Char} (hr : Reach o s d) (g : PosInv d)
    (hs : Step d c d') : PosInv { d' with position := d'.position + 1 } := by
  have hd := hr.ctl
  have he := hs.eff hd
  have hfr := hs.frame.1
  have hmem := hr.mem_lt
  have hbd : d.bound ≤ d.position := by
    unfold Doc.bound; split
    · rename_i h; exact Nat.le_of_lt (hmem h)
    · exact Nat.le_refl _
  have hb : d.bound ≤ Doc.bound { d' with position := d'.position + 1 } := by
    unfold Doc.bound
    cases hp : d'.handle.pending with
    | false => simp only [Bool.false_eq_true, if_false]; unfold Doc.bound at hbd; omega
    | true =>
      simp only [if_true]
      rcases hs.mem hp with h | h
      · rw [h.1]; exact hbd
      · rw [if_pos h.1, h.2.1]; exact Nat.le_refl _
  have he' : Eff d { d' with position := d'.position + 1 } := by
    cases he with
    | data ct m e h0 h1 h2 h3 h4 h5 => exact Eff.data ct m e h0 h1 h2 h3 h4 h5
    | child p ty b o h1 h2 h3 h4 h5 h6 h7 h8 => exact Eff.child p ty b o h1 h2 h3 h4 h5 h6 h7 h8
    | ltChild p n h1 h2 h3 h4 h5 h6 h7 => exact Eff.ltChild p n h1 h2 h3 h4 h5 h6 h7
    | endPush pv h1 h2 h3 h4 h5 => exact Eff.endPush pv h1 h2 h3 h4 h5
    | endLink t m h1 h2 h3 h4 h5 h6 => exact Eff.endLink t m h1 h2 h3 h4 h5 h6
    | rawEnd n h1 h2 h3 h4 h5 h6 => exact Eff.rawEnd n h1 h2 h3 h4 h5 h6
  have hspan := g.span d.current hd.curLt
  have hcb : d.cur.nodeType ≠ .tagEnd → d.current ≠ 0 → d.cur.beginAt < d.bound := by
    intro h1 h2
    exact g.before d.current (by omega) hd.curLt h1
  -- the end of the current node
  have hcur : (d.heap.cell d.current).beginAt ≤ (d'.heap.cell d.current).endAt ∧
      (d'.heap.cell d.current).endAt ≤ d'.position + 1 := by
    have hne : d.current ≠ d.heap.size := by have := hd.curLt; omega
    have hkey : (d'.heap.cell d.current).endAt = (d.heap.cell d.current).endAt ∨
        (d'.heap.cell d.current).endAt = d.position ∨ (d'.heap.cell d.current).endAt = d.position + 1 := by
      cases he with
      | data ct m e hea hheap => rw [hheap, Heap.upd_cell_self]; exact hea
      | child p ty b o hp hty ho hb hheap =>
        left
        rw [hheap, markSpaces_cell, addChild_cell d p _ (hd.chain_head hp), if_neg hne]
        split <;> split <;> first | rfl | (rename_i e; rw [e])
      | ltChild p n hf hn hp hheap =>
        left
        rw [hheap, Heap.upd_cell, Heap.push_cell, if_neg hne]
        split <;> rfl
      | endPush pv hpv hheap => left; rw [hheap, Heap.push_cell, if_neg hne]
      | endLink t m hm hty hheap =>
        right; right
        rw [hheap, endHeap_cell hd t _ hm.2.1 hty, if_pos rfl]
      | rawEnd n hty hp hheap => left; rw [hheap, rawHeap_cell hd n, if_neg hne, if_pos rfl]
    omega
  refine g.grow hd he' hb (by show d.position ≤ d'.position + 1; omega) ?_ hcur
  intro hgrow
  have hgrow : d.heap.size < d'.heap.size := hgrow
  show d.bound ≤ (d'.heap.cell d.heap.size).beginAt ∧
      ((d'.heap.cell d.heap.size).nodeType ≠ .tagEnd → (d'.heap.cell d.heap.size).beginAt < _) ∧
      (d'.heap.cell d.heap.size).beginAt ≤ (d'.heap.cell d.heap.size).endAt ∧
      (d'.heap.cell d.heap.size).endAt ≤ d'.position + 1
  have hnp : d'.handle.pending = true → d'.memPosition = d.position ∧ d.handle ≠ .wait := by
    intro hp
    rcases hs.mem hp with h | h
    · exact ⟨h.1, fun hw => by have := h.2 hw; omega⟩
    · omega
  have hbn : d.position ≤ Doc.bound { d' with position := d'.position + 1 } := by
    unfold Doc.bound
    split
    · rename_i hp; exact Nat.le_of_eq (hnp hp).1.symm
    · show d.position ≤ d'.position + 1; omega
  have hmb : d.handle.pending = true → d.bound = d.memPosition ∧ d.memPosition < d.position := by
    intro hp; unfold Doc.bound; rw [if_pos hp]; exact ⟨rfl, hmem hp⟩
  cases he with
  | data ct m e hea hheap => rw [hheap] at hgrow; simp at hgrow
  | endLink t m hm hty hheap => rw [hheap] at hgrow; simp at hgrow
  | child p ty b oo hp hty ho hbb hheap =>
    rw [hheap, grown_cell hd p hp _ oo ho]
    show d.bound ≤ b ∧ (ty ≠ .tagEnd → b < Doc.bound { d' with position := d'.position + 1 }) ∧ b ≤ b ∧ b ≤ d'.position + 1
    rcases hbb with ⟨h1, h2, _, _⟩ | ⟨h1, h2, _⟩
    · refine ⟨by omega, fun _ => ?_, Nat.le_refl _, by omega⟩
      unfold Doc.bound
      split
      · rename_i h3; exact absurd h1 (hnp h3).2
      · show b < d'.position + 1; omega
    · have := hmb (by rcases h1 with h | h <;> rw [h] <;> rfl)
      refine ⟨by omega, fun _ => by omega, Nat.le_refl _, by omega⟩
  | ltChild p n hf hn hp hheap hchain hcur' hend =>
    have hplt : p < d.heap.size := by
      rcases hp with h | h | h
      · rw [h.1]; exact hd.curLt
      · exact hd.chain_head h
      · rw [h.2, hd.root0]; exact hd.sizePos
    have hcell : d'.heap.cell d.heap.size = n := by
      rw [hheap, Heap.upd_cell, Heap.push_cell]
      have : ¬ d.heap.size = p := by omega
      simp only [this, if_false, if_true]
    rw [hcell]
    obtain ⟨ct, e, k, hn, _, he2⟩ := hn
    have hm := hmb (by rw [hend.1]; rfl)
    rw [hn]
    show d.bound ≤ d.memPosition ∧ (NodeType.text ≠ .tagEnd → d.memPosition < Doc.bound { d' with position := d'.position + 1 }) ∧ d.memPosition ≤ e ∧ e ≤ d'.position + 1
    refine ⟨Nat.le_of_eq hm.1, fun _ => by omega, by omega, by omega⟩
  | endPush pv hpv hheap hchain hcur' hend =>
    have := hmb (by rw [hend.1]; rfl)
    rw [hheap, Heap.push_cell, if_pos rfl]
    refine ⟨by rw [this.1]; exact Nat.le_refl _, fun h => absurd rfl h, Nat.le_refl _, ?_⟩
    show d.memPosition ≤ _
    omega
  | rawEnd n hty hp hheap =>
    rw [hheap, rawHeap_cell hd n, if_pos rfl]
    refine ⟨?_, fun h => absurd rfl h, Nat.le_refl _, ?_⟩
    · show d.bound ≤ d.position + 1; omega
    · show d.position + 1 ≤ _; omega

theorem Reach.pos {o : ParseOptions} {s : Str} {d : Doc} (h : Reach o s d) : PosInv d := by
  induction h with
  | init => exact PosInv.new o
  | step hr hs ih => exact ih.step hr hs

/-- The positions of the finished document. -/
structure PosFinal (n : Nat) (h : Heap) : Prop where
  root : (h.cell 0).beginAt = 0
  rootEnd : (h.cell 0).endAt = n
  incr : ∀ i j, 0 < i → i < j → j < h.size → (h.cell i).nodeType ≠ .tagEnd → (h.cell i).beginAt < (h.cell j).beginAt ∨
    ((h.cell j).nodeType = .tagEnd ∧ (h.cell i).beginAt ≤ (h.cell j).beginAt)
  span : ∀ i, i < h.size → (h.cell i).beginAt ≤ (h.cell i).endAt ∧ (h.cell i).endAt ≤ n

theorem Reach.posFinal {o : ParseOptions} {s : Str} {d : Doc} (hr : Reach o s d) (he : EofOk d) :
    PosFinal s.length d.finalHeap := by
  have hd := hr.ctl
  have g := hr.pos
  have hp := hr.position
  have hnew : ∀ i, d.heap.size ≤ i → i < d.finalHeap.size → (d.finalHeap.cell i).nodeType = .tagEnd ∧
      (d.finalHeap.cell i).beginAt = d.position ∧ (d.finalHeap.cell i).endAt = d.position := by
    intro i h1 h2
    rw [finalHeap_size] at h2
    obtain ⟨_, t, m, _, _, _, hc⟩ := fixedHeap_new hd i h1 h2
    have h1' := hd.curLt
    have h2' := hd.sizePos
    rw [finalHeap_cell i (by omega) (fun _ => by omega), hc]
    exact ⟨rfl, rfl, rfl⟩
  have hty : ∀ i, i < d.heap.size → (d.finalHeap.cell i).nodeType ≠ .tagEnd → (d.heap.cell i).nodeType ≠ .tagEnd := by
    intro i hi h1 h2
    rcases (eofCell hd he i hi).ty with h3 | h3
    · rw [h3] at h1; exact h1 h2
    · rw [h2] at h3; cases h3.1
  refine ⟨?_, ?_, ?_, ?_⟩
  · rw [(eofCell hd he 0 hd.sizePos).beginAt]; exact g.root
  · rw [(eofCell hd he 0 hd.sizePos).endAt, if_pos (Or.inl rfl)]; exact hp
  · intro i j h0 hij hj ht
    have hi : i < d.heap.size := by
      rcases Nat.lt_or_ge i d.heap.size with h | h
      · exact h
      · exact absurd (hnew i h (by omega)).1 ht
    rw [(eofCell hd he i hi).beginAt]
    rcases Nat.lt_or_ge j d.heap.size with h | h
    · rw [(eofCell hd he j h).beginAt]
      exact Or.inl (g.incr i j h0 hij h (hty i hi ht))
    · right
      have := hnew j h hj
      refine ⟨this.1, ?_⟩
      have := g.span i hi
      omega
  · intro i hi
    rcases Nat.lt_or_ge i d.heap.size with h | h
    · rw [(eofCell hd he i h).beginAt, (eofCell hd he i h).endAt]
      have := g.span i h
      split
      · omega
      · omega
    · have := hnew i h hi; omega

end Rphtml
