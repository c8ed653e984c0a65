import Verif.Proofs.NoFix
import Verif.Proofs.Span

/-!
# The flags of a tag

A tag is marked as void exactly by its name, and the end tag of a tag that is not repaired was read.
-/

namespace Rphtml

/-- Every tag is marked as void by its name. -/
def VoidInv (d : Doc) : Prop :=
  ∀ i, i < d.heap.size → ∀ m, (d.heap.cell i).tmeta = some m → m.isVoid = isVoidTag (lowerAll m.name)

theorem VoidInv.new (o : ParseOptions) : VoidInv (Doc.new o) := by
  intro i hi m hm
  have : i = 0 := by simp only [Doc.new] at hi; omega
  subst this; cases hm

theorem VoidInv.keep {d d' : Doc} (hd : Ctl d) (g : VoidInv d) (he : Eff d d') (hh : ¬ d.handle.tagPart) : VoidInv d' := by
  intro i hi m hm
  have hsz := he.size_le
  have hn3 : d.handle.inTag = false := by
    cases h : d.handle.inTag with
    | false => rfl
    | true => exact absurd (Or.inr (Or.inr h)) hh
  rcases Nat.lt_or_ge i d.heap.size with h | h
  · rw [(he.keep hd i h).tmeta (fun h => hh (Or.inl h)) (fun h => hh (Or.inr (Or.inl h))) hn3] at hm
    exact g i h m hm
  · have : i = d.heap.size := by omega
    subst this
    rw [(he.newCell hd hi).2.1] at hm; cases hm

theorem VoidInv.put {d d' : Doc} (g : VoidInv d) (m : TagMeta) (hf : m.isVoid = isVoidTag (lowerAll m.name))
    (hheap : d'.heap = d.heap.upd d.current fun c => { c with tmeta := some m }) : VoidInv d' := by
  intro i hi m' hm'
  rw [hheap] at hi hm'
  rw [Heap.upd_cell] at hm'
  split at hm'
  · simp only [Option.some.injEq] at hm'
    rw [← hm']; exact hf
  · exact g i hi m' hm'

theorem VoidInv.step {d d' : Doc} {c : Char} (hd : Ctl d) (g : VoidInv d) (h : Step d c d') : VoidInv d' := by
  have he := h.eff hd
  have hn : ¬ d.handle.tagPart → VoidInv d' := fun q => g.keep hd he q
  have hcur : ∀ m, d.cur.tmeta = some m → m.isVoid = isVoidTag (lowerAll m.name) := fun m hm => g d.current hd.curLt m hm
  cases h with
  | doctypeName hh hc => exact g.put { name := d.prevChars, isVoid := isVoidTag (lowerAll d.prevChars) } rfl rfl
  | nameMore hh hc => exact g
  | nameEnd hh hc => exact g.put { name := d.prevChars, isVoid := isVoidTag (lowerAll d.prevChars) } rfl rfl
  | nameClose hh hc m hm => exact g.put m (by rw [hm]) (by rw [closeTag_heap]; rfl)
  | tagMore hh m hm t id ht =>
    obtain ⟨_, k2, _⟩ := tagChar_cont (hd.inTag hh hm).1 ht
    exact g.put t.m (by rw [k2.isVoid, k2.name]; exact hcur m hm) rfl
  | tagClose hh m hm m' pc mark id ht =>
    obtain ⟨k2, _, _⟩ := tagChar_close (hd.inTag hh hm).1 ht
    exact g.put m' (by rw [k2.isVoid, k2.name]; exact hcur m hm) (by rw [closeTag_heap]; rfl)
  | tagSelf hh hc m hm ha => exact g.put { m with selfClosed := true } (hcur m hm) rfl
  | _ => exact hn (by unfold Handler.tagPart; simp_all [Handler.inTag])

theorem Reach.voids {o : ParseOptions} {s : Str} {d : Doc} (h : Reach o s d) : VoidInv d := by
  induction h with
  | init => exact VoidInv.new o
  | step hr hs ih =>
    have := ih.step hr.ctl hs
    exact this

/-- An end tag that was read stands in the text. -/
theorem Reach.endRead {o : ParseOptions} {s : Str} {d : Doc} (hr : Reach o s d) (he : EofOk d) {e : NodeId} (hl : e < d.heap.size)
    (hty : (d.heap.cell e).nodeType = .tagEnd) (hc : (d.heap.cell e).content ≠ none) : Spec.nodeSpan s (d.finalHeap.cell e).toNodeD := by
  have hd := hr.ctl
  have hcell := eofCell hd he e hl
  have h0 : e ≠ 0 := by
    rintro rfl
    rw [(hd.rootTy 0 hl).2 rfl] at hty; cases hty
  have h5 : ¬ (d.codeIn = .textNode ∧ e = d.current) := by
    rintro ⟨q1, q2⟩
    have := hd.cur_text q1
    unfold Doc.cur at this
    rw [← q2, hty] at this; cases this
  have hend : (d.finalHeap.cell e).endAt = (d.heap.cell e).endAt := by
    rw [hcell.endAt, if_neg]; rintro (h | h)
    · exact h0 h
    · exact h5 h
  have hcont : (d.finalHeap.cell e).content = (d.heap.cell e).content := by rw [hcell.content, if_neg h5]
  have hty' : (d.finalHeap.cell e).nodeType = .tagEnd := by
    rcases hcell.ty with h7 | h7
    · rw [h7]; exact hty
    · exact absurd ⟨h7.2.2.2.1, h7.2.2.1⟩ h5
  rcases hr.spans.done e hl with ⟨q1, q2⟩ | q
  · exfalso
    have hs := hd.hs
    unfold HandleOk at hs
    have hcur : d.cur.nodeType = .tagEnd := by unfold Doc.cur; rw [← q1]; exact hty
    cases hq : d.handle <;> rw [hq] at q2 <;> simp only [Handler.filling, Bool.false_eq_true] at q2 <;> simp only [hq] at hs
    all_goals rcases he.code with h7 | h7 | h7 | h7
    all_goals simp_all
  · have hg : Good { o with autoFixUnclosedTag := false } s (d.finalHeap.cell e) := by
      unfold Good at q ⊢
      simp only [hty, hty', hcont, hend, hcell.beginAt] at q ⊢
      exact q
    have := Good.span hg (by rw [hty']; simp) (fun _ q => absurd (by rw [← hcont]; exact q) hc)
    unfold Spec.mendedSpan at this
    simp only [hty'] at this
    rcases this with h | ⟨h, _⟩
    · exact h
    · cases h

end Rphtml
