import Verif.Proofs.MetaInv
import Verif.Proofs.Final

/-!
# Which tags are repaired

While characters are read no tag is marked as repaired.  At the end exactly the open tags are.
-/

namespace Rphtml

/-- No tag is repaired. -/
def NoFix (d : Doc) : Prop := ∀ i, i < d.heap.size → ∀ m, (d.heap.cell i).tmeta = some m → m.autoFix = false

theorem NoFix.new (o : ParseOptions) : NoFix (Doc.new o) := by
  intro i hi m hm
  have : i = 0 := by simp only [Doc.new] at hi; omega
  subst this; cases hm

theorem NoFix.keep {d d' : Doc} (hd : Ctl d) (g : NoFix d) (he : Eff d d') (hh : ¬ d.handle.tagPart) : NoFix d' := by
  intro i hi m hm
  have hsz := he.size_le
  have hn3 : d.handle.inTag = false := by
    cases h : d.handle.inTag with
    | false => rfl
    | true => exact absurd (Or.inr (Or.inr h)) hh
  rcases Nat.lt_or_ge i d.heap.size with h | h
  · rw [(he.keep hd i h).tmeta (fun h => hh (Or.inl h)) (fun h => hh (Or.inr (Or.inl h))) hn3] at hm
    exact g i h m hm
  · have : i = d.heap.size := by omega
    subst this
    rw [(he.newCell hd hi).2.1] at hm; cases hm

theorem NoFix.put {d d' : Doc} (g : NoFix d) (m : TagMeta) (hf : m.autoFix = false)
    (hheap : d'.heap = d.heap.upd d.current fun c => { c with tmeta := some m }) : NoFix d' := by
  intro i hi m' hm'
  rw [hheap] at hi hm'
  rw [Heap.upd_cell] at hm'
  split at hm'
  · simp only [Option.some.injEq] at hm'
    rw [← hm']; exact hf
  · exact g i hi m' hm'

theorem NoFix.step {d d' : Doc} {c : Char} (hd : Ctl d) (g : NoFix d) (h : Step d c d') : NoFix d' := by
  have he := h.eff hd
  have hn : ¬ d.handle.tagPart → NoFix d' := fun q => g.keep hd he q
  have hcur : ∀ m, d.cur.tmeta = some m → m.autoFix = false := fun m hm => g d.current hd.curLt m hm
  cases h with
  | doctypeName hh hc => exact g.put { name := d.prevChars, isVoid := isVoidTag (lowerAll d.prevChars) } rfl rfl
  | nameMore hh hc => exact g
  | nameEnd hh hc => exact g.put { name := d.prevChars, isVoid := isVoidTag (lowerAll d.prevChars) } rfl rfl
  | nameClose hh hc m hm => exact g.put m (by rw [hm]) (by rw [closeTag_heap]; rfl)
  | tagMore hh m hm t id ht =>
    obtain ⟨_, k2, _⟩ := tagChar_cont (hd.inTag hh hm).1 ht
    exact g.put t.m (by rw [k2.autoFix]; exact hcur m hm) rfl
  | tagClose hh m hm m' pc mark id ht =>
    obtain ⟨k2, _, _⟩ := tagChar_close (hd.inTag hh hm).1 ht
    exact g.put m' (by rw [k2.autoFix]; exact hcur m hm) (by rw [closeTag_heap]; rfl)
  | tagSelf hh hc m hm ha => exact g.put { m with selfClosed := true } (hcur m hm) rfl
  | _ => exact hn (by unfold Handler.tagPart; simp_all [Handler.inTag])

theorem Reach.noFix {o : ParseOptions} {s : Str} {d : Doc} (h : Reach o s d) : NoFix d := by
  induction h with
  | init => exact NoFix.new o
  | step hr hs ih =>
    have := ih.step hr.ctl hs
    exact this

/-- Exactly the tags that are open at the end are repaired. -/
theorem Reach.repaired {o : ParseOptions} {s : Str} {d : Doc} (hr : Reach o s d) (i : NodeId)
    (hi : i < d.finalHeap.size) :
    (∃ m, (d.finalHeap.cell i).tmeta = some m ∧ m.autoFix = true) ↔
      i ∈ d.chain ∧ i ≠ 0 ∧ i < d.heap.size ∧ (d.heap.cell i).tmeta ≠ none := by
  have hd := hr.ctl
  have hfin : (d.finalHeap.cell i).tmeta = (d.fixedHeap.cell i).tmeta := by
    unfold Doc.finalHeap
    rw [Heap.upd_cell]
    split
    · split
      · rw [Heap.upd_cell]; split <;> rfl
      · rfl
    · split
      · rw [Heap.upd_cell]; split <;> rfl
      · rfl
  rw [hfin]
  rw [finalHeap_size] at hi
  constructor
  · rintro ⟨m, hm, hf⟩
    rcases Nat.lt_or_ge i d.heap.size with h | h
    · rcases fixedHeap_cell hd i h with h1 | ⟨_, h2, h3, m', e, h4, _⟩
      · rw [h1] at hm
        rw [hr.noFix i h m hm] at hf; cases hf
      · exact ⟨h2, h3, h, by rw [h4]; simp⟩
    · obtain ⟨_, j, m', _, _, _, h1⟩ := fixedHeap_new hd i h hi
      rw [h1] at hm; cases hm
  · rintro ⟨h1, h2, h3, h4⟩
    have hl : d.chain.length > 1 := by
      have hlast := hd.chainLast
      cases hc : d.chain with
      | nil => rw [hc] at h1; cases h1
      | cons a as =>
        cases as with
        | nil =>
          rw [hc] at h1 hlast
          have := hlast (by simp)
          simp only [List.getLast?_singleton, Option.some.injEq, List.mem_singleton] at this h1
          omega
        | cons b bs => simp
    obtain ⟨m, hm⟩ := Option.ne_none_iff_exists'.1 h4
    have hmem : i ∈ d.chain.dropLast.reverse := by
      rw [List.mem_reverse]
      have hne : d.chain ≠ [] := by intro h; rw [h] at h1; cases h1
      have hsplit := List.dropLast_concat_getLast hne
      rw [← hsplit] at h1
      rcases List.mem_append.1 h1 with h | h
      · exact h
      · have h5 := hd.chainLast hne
        rw [List.getLast?_eq_some_getLast hne, Option.some.injEq] at h5
        simp only [List.mem_singleton] at h
        exact absurd (h.trans h5) h2
    obtain ⟨_, k2, _⟩ := fixHeap_cells d.position _ d.heap hd.open_tags.1
      (fun t ht => hd.chainLt t (hd.open_tags.2 t ht).1)
    obtain ⟨e, _, _, k3, _⟩ := k2 i m hmem hm
    refine ⟨{ m with autoFix := true }, ?_, rfl⟩
    unfold Doc.fixedHeap
    rw [if_pos hl, k3]

end Rphtml
