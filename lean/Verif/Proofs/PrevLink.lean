import Verif.Proofs.Memory
import Verif.Props.Graph

/-!
# Where the `prev` links of a parsed document lead

The parser writes `prev` only into a node made for an end tag, and only with `auto_fix_unclosed_tag`
(`/repo/src/parser.rs`, `parse_unkown_tag`). `PrevInv` says which node it is.
-/

namespace Rphtml

/-- `q` is a node for an end tag, and no node but `p` has it as its end tag. -/
def Owned (h : Heap) (q p : NodeId) : Prop :=
  (h.cell q).nodeType = .tagEnd ∧ ∀ t, t < h.size → (h.cell t).endTag = some q → t = p

/-- An end tag link of the new heap was there before, or ends at the current node of the end tag handler, or at the new node. -/
theorem Eff.endNew {d d' : Doc} (hd : Ctl d) (h : Eff d d') (i e : NodeId) (hi : i < d'.heap.size) (he : (d'.heap.cell i).endTag = some e) :
    (i < d.heap.size ∧ (d.heap.cell i).endTag = some e) ∨ (d.handle = .tagEnd ∧ e = d.current) ∨ (e = d.heap.size ∧ i = d.current) := by
  cases h with
  | data ct m e' hea hheap hm hchain hct hend =>
    rw [hheap, Heap.upd_size] at hi
    rw [hheap, Heap.upd_cell] at he
    refine .inl ⟨hi, ?_⟩
    split at he <;> exact he
  | child p ty b o hp hty ho hb hheap hchain hcur hend =>
    rw [hheap] at hi
    rw [hheap, markSpaces_cell, addChild_cell d p _ (hd.chain_head hp)] at he
    have hsz : ((d.addChild p (Cell.new ty b)).heap.markSpaces o).size = d.heap.size + 1 := by
      rw [markSpaces_size]; simp [Doc.addChild]
    rw [hsz] at hi
    by_cases h1 : i = d.heap.size
    · simp only [h1, if_true] at he
      split at he <;> cases he
    · simp only [h1, if_false] at he
      refine .inl ⟨by omega, ?_⟩
      by_cases h2 : i = p
      · simp only [h2, if_true] at he ⊢
        split at he <;> exact he
      · simp only [h2, if_false] at he
        split at he <;> exact he
  | ltChild p n hf hn hp hheap hchain hcur hend =>
    obtain ⟨ct, e', k, rfl, _⟩ := hn
    rw [hheap, Heap.upd_size, Heap.push_size] at hi
    rw [hheap, Heap.upd_cell] at he
    simp only [Heap.push_cell] at he
    by_cases h1 : i = d.heap.size
    · simp only [h1, if_true] at he
      split at he <;> cases he
    · simp only [h1, if_false] at he
      refine .inl ⟨by omega, ?_⟩
      split at he <;> exact he
  | endPush pv hpv hheap hchain hcur hend =>
    rw [hheap, Heap.push_size] at hi
    rw [hheap, Heap.push_cell] at he
    by_cases h1 : i = d.heap.size
    · simp only [h1, if_true] at he; cases he
    · simp only [h1, if_false] at he
      exact .inl ⟨by omega, he⟩
  | endLink t m hm hty hheap hchain hcur hend =>
    rw [hheap] at hi
    unfold Doc.endHeap at hi
    rw [Heap.upd_size, markSpaces_size, Heap.upd_size] at hi
    rw [hheap, endHeap_cell hd t _ hm.2.1 hty] at he
    split at he
    · exact .inl ⟨hi, he⟩
    · split at he
      · cases he; exact .inr (.inl ⟨hend.1, rfl⟩)
      · split at he <;> exact .inl ⟨hi, he⟩
  | rawEnd n hty hp hheap hchain hcur hend =>
    have hsz : d'.heap.size = d.heap.size + 1 := by rw [hheap]; unfold Doc.rawHeap; rw [Heap.upd_size, Heap.push_size]
    rw [hheap, rawHeap_cell hd] at he
    split at he
    · cases he
    · rename_i h1
      split at he
      · rename_i h2; cases he; exact .inr (.inr ⟨rfl, h2⟩)
      · exact .inl ⟨by omega, he⟩

theorem Owned.eff {d d' : Doc} (hd : Ctl d) (h : Eff d d') {q p : NodeId} (hq : q < d.heap.size) (ho : Owned d.heap q p)
    (hne : d.handle = .tagEnd → q ≠ d.current) : Owned d'.heap q p := by
  refine ⟨?_, fun t ht hte => ?_⟩
  · rcases (h.keep hd q hq).ty with h1 | h1
    · rw [h1]; exact ho.1
    · rw [ho.1] at h1; cases h1.1
  · rcases h.endNew hd t q ht hte with h1 | h1 | h1
    · exact ho.2 t h1.1 h1.2
    · exact absurd h1.2 (hne h1.1)
    · omega

/-- The `prev` links and the nodes behind the current one. -/
structure PrevInv (d : Doc) : Prop where
  link : ∀ x p, x < d.heap.size → (d.heap.cell x).prev = some p → d.opts.autoFixUnclosedTag = true ∧
    (d.heap.cell x).nodeType = .tagEnd ∧ p < x ∧ ∀ q, p < q → q < x → Owned d.heap q p
  tail : ∀ q, d.current < q → q < d.heap.size → Owned d.heap q d.current

theorem Reach.prevs {o : ParseOptions} {s : Str} {d : Doc} (h : Reach o s d) : PrevInv d := by
  induction h with
  | init =>
    refine ⟨fun x p hx hp => ?_, fun q h1 h2 => ?_⟩
    · have hx : x = 0 := Nat.lt_one_iff.1 hx
      subst hx; cases hp
    · have hx : q = 0 := Nat.lt_one_iff.1 h2
      subst hx; exact absurd h1 (Nat.not_lt_zero _)
  | @step s c d d' hr hs ih =>
    have hd := hr.ctl
    have hl := hr.links
    have he := hs.eff hd
    have hsz := he.size_le
    have hcl := hd.curLt
    have hopt : d'.opts = d.opts := by rw [(hr.step hs).opts, hr.opts]
    have hty : ∀ x, x < d.heap.size → (d.heap.cell x).nodeType = .tagEnd → (d'.heap.cell x).nodeType = .tagEnd := by
      intro x hx h1
      rcases (he.keep hd x hx).ty with h2 | h2
      · rw [h2]; exact h1
      · rw [h1] at h2; cases h2.1
    have htail : ∀ q, d.current < q → q < d.heap.size → Owned d'.heap q d.current := fun q h1 h2 =>
      (ih.tail q h1 h2).eff hd he h2 (fun _ => by omega)
    suffices hg : PrevInv d' from ⟨hg.link, hg.tail⟩
    refine ⟨fun x p hx hp => ?_, fun q h1 h2 => ?_⟩
    · rcases Nat.lt_or_ge x d.heap.size with hx' | hx'
      · rw [(he.keep hd x hx').prev] at hp
        obtain ⟨k1, k2, k3, k4⟩ := ih.link x p hx' hp
        refine ⟨by rw [hopt]; exact k1, hty x hx' k2, k3, fun q h1 h2 => ?_⟩
        exact (k4 q h1 h2).eff hd he (by omega) (fun h3 => by have := hl.endNewest h3; omega)
      · have hxe : x = d.heap.size := by omega
        rcases (he.fresh hd x hx' hx).1 with h1 | ⟨h1, h2, h3⟩
        · rw [h1] at hp; cases hp
        · rw [h1] at hp; cases hp
          refine ⟨by rw [hopt]; exact h2, ?_, by omega, fun q h4 h5 => htail q h4 (by omega)⟩
          subst hxe
          cases he with
          | data ct m e' hea hheap hm hchain hct hend => rw [hheap] at hx; simp at hx
          | child p ty b o hp hty ho hb hheap hchain hcur hend =>
            rw [hheap, markSpaces_cell, addChild_cell d p _ (hd.chain_head hp)] at h1
            simp only [if_true] at h1
            split at h1 <;> cases h1
          | ltChild p n hf hn hp hheap hchain hcur hend =>
            obtain ⟨ct, e, k, rfl, _⟩ := hn
            rw [hheap, Heap.upd_cell] at h1
            simp only [Heap.push_cell, if_true] at h1
            split at h1 <;> cases h1
          | endPush pv hpv hheap hchain hcur hend => rw [hheap]; simp only [Heap.push_cell, if_true]; rfl
          | endLink t m hm hty' hheap hchain hcur hend => rw [h3] at hend; cases hend.1
          | rawEnd n hty' hp hheap hchain hcur hend => rw [h3] at hend; cases hend.1
    · have hsame : d'.current = d.current → q < d.heap.size → Owned d'.heap q d'.current := by
        intro h3 h4; rw [h3] at h1 ⊢; exact htail q h1 h4
      have he' := he
      cases he with
      | data ct m e' hea hheap hm hchain hct hend =>
        have hq : q < d.heap.size := by rw [hheap, Heap.upd_size] at h2; exact h2
        rcases hend with h3 | h3
        · exact hsame h3.1 hq
        · cases hpv : d.cur.prev with
          | none => exact hsame (by rw [h3.1, hpv]; rfl) hq
          | some p =>
            have hcp : d'.current = p := by rw [h3.1, hpv]; rfl
            rw [hcp] at h1 ⊢
            obtain ⟨_, k2, k3, k4⟩ := ih.link d.current p hcl hpv
            have hnew := hl.endNewest h3.2.1
            by_cases hqc : q = d.current
            · subst hqc
              refine ⟨hty _ hcl k2, fun t ht hte => ?_⟩
              rw [hheap, Heap.upd_size] at ht
              rw [hheap, Heap.upd_cell] at hte
              exfalso
              refine hl.endFresh h3.2.1 t ht ?_
              split at hte <;> exact hte
            · exact (k4 q h1 (by omega)).eff hd he' hq (fun _ => hqc)
      | child p ty b o hp hty ho hb hheap hchain hcur hend => omega
      | ltChild p n hf hn hp hheap hchain hcur hend => omega
      | endPush pv hpv hheap hchain hcur hend => omega
      | endLink t m hm hty' hheap hchain hcur hend =>
        have := hl.endNewest hend.1
        refine hsame hcur ?_
        rw [hheap] at h2
        unfold Doc.endHeap at h2
        rw [Heap.upd_size, markSpaces_size, Heap.upd_size] at h2
        exact h2
      | rawEnd n hty' hp hheap hchain hcur hend =>
        rcases Nat.lt_or_ge q d.heap.size with hq | hq
        · exact hsame hcur hq
        · have hq : q = d.heap.size := by omega
          subst hq
          refine ⟨by rw [hheap, rawHeap_cell hd, if_pos rfl]; rfl, fun t ht hte => ?_⟩
          rcases he'.endNew hd t _ ht hte with h3 | h3 | h3
          · have := (hl.ends.down t _ h3.1 h3.2).2.1; omega
          · rw [hend.1] at h3; cases h3.1
          · rw [hcur]; exact h3.2

/-- The `prev` links of a parsed document. -/
theorem parse_prev {s : Str} {o : ParseOptions} {d : Doc} (h : Doc.parse s o = .ok d) {x p : NodeId} (hx : x < d.heap.size)
    (hp : (d.heap.cell x).prev = some p) : o.autoFixUnclosedTag = true ∧ (d.heap.cell x).nodeType = .tagEnd ∧ p < x ∧
      ∀ q, p < q → q < x → Owned d.heap q p := by
  obtain ⟨d0, hr, he, hh, hroot, _, _⟩ := parse_ok h
  have hd := hr.ctl
  have hw := hr.prevs
  rw [hh] at hx hp ⊢
  have hty : ∀ x, x < d0.heap.size → (d0.heap.cell x).nodeType = .tagEnd → (d0.finalHeap.cell x).nodeType = .tagEnd := by
    intro x hx h1
    rcases (eofCell hd he x hx).ty with h2 | h2
    · rw [h2]; exact h1
    · rw [h1] at h2; cases h2.1
  have hnew : ∀ x, d0.heap.size ≤ x → x < d0.finalHeap.size →
      (d0.finalHeap.cell x).prev = none ∧ (d0.finalHeap.cell x).endTag = none := by
    intro x h1 h2
    rw [finalHeap_size] at h2
    obtain ⟨_, i, m, _, _, _, hc⟩ := fixedHeap_new hd x h1 h2
    rw [finalHeap_cell x (by have := hd.sizePos; omega) (fun _ => by have := hd.curLt; omega), hc]
    exact ⟨rfl, rfl⟩
  rcases Nat.lt_or_ge x d0.heap.size with hl | hl
  · rw [(eofCell hd he x hl).prev] at hp
    obtain ⟨k1, k2, k3, k4⟩ := hw.link x p hl hp
    refine ⟨by rw [← hr.opts]; exact k1, hty x hl k2, k3, fun q h1 h2 => ⟨hty q (by omega) (k4 q h1 h2).1, fun t ht hte => ?_⟩⟩
    rcases Nat.lt_or_ge t d0.heap.size with h5 | h5
    · rcases (eofCell hd he t h5).endTag with h6 | ⟨_, _, _, m, e, _, h6, h7⟩
      · rw [h6] at hte; exact (k4 q h1 h2).2 t h5 hte
      · rw [h6] at hte; cases hte; omega
    · rw [(hnew t h5 ht).2] at hte; cases hte
  · rw [(hnew x hl hx).1] at hp; cases hp

/-! ## The end tags without a `prev` link -/

/-- The text of a raw-text element stays. -/
theorem Eff.rawKept {d d' : Doc} (hd : Ctl d) (h : Eff d d') (i : NodeId) (hi : i < d.heap.size) (hty : (d.heap.cell i).nodeType = .tag)
    (hc : (d.heap.cell i).content ≠ none) : (d'.heap.cell i).content ≠ none := by
  have hk := h.keep hd i hi
  by_cases hcur : i = d.current
  · have hne : i ≠ d.heap.size := by omega
    subst hcur
    cases h with
    | data ct m e' hea hheap hm hchain hct hend =>
      rw [hheap, Heap.upd_cell, if_pos rfl]
      show ct ≠ none
      rw [hct (.inr hty)]; exact hc
    | child p ty b o hp hty ho hb hheap hchain hcur hend =>
      rw [hheap, markSpaces_cell, addChild_cell d p _ (hd.chain_head hp)]
      simp only [hne, if_false]
      by_cases hip : d.current = p
      · subst hip; simp only [if_true]; split <;> exact hc
      · simp only [hip, if_false]; split <;> exact hc
    | ltChild p n hf hn hp hheap hchain hcur hend =>
      rw [hheap, Heap.upd_cell]
      simp only [Heap.push_cell, hne, if_false]
      split <;> exact hc
    | endPush pv hpv hheap hchain hcur hend =>
      rw [hheap]
      simp only [Heap.push_cell, hne, if_false]
      exact hc
    | endLink t m hm hty' hheap hchain hcur hend =>
      have hty' : (d.heap.cell d.current).nodeType = .tagEnd := hty'
      rw [hty] at hty'; cases hty'
    | rawEnd n hty hp hheap hchain hcur hend =>
      rw [hheap, rawHeap_cell hd]
      simp only [hne, if_false, if_true]
      simp
  · rw [(hk.other hcur).1]; exact hc

/-- With `auto_fix_unclosed_tag`, an end tag without `prev` is that of a raw-text element. -/
theorem Reach.rawPrev {o : ParseOptions} {s : Str} {d : Doc} (h : Reach o s d) : d.opts.autoFixUnclosedTag = true →
    ∀ x, x < d.heap.size → (d.heap.cell x).nodeType = .tagEnd → (d.heap.cell x).prev = none →
      ∃ t, t < d.heap.size ∧ (d.heap.cell t).endTag = some x ∧ (d.heap.cell t).content ≠ none := by
  induction h with
  | init =>
    intro _ x hx hty _
    have hx : x = 0 := Nat.lt_one_iff.1 hx
    subst hx; cases hty
  | @step s c d d' hr hs ih =>
    have hd := hr.ctl
    have hl := hr.links
    have he := hs.eff hd
    have hsz := he.size_le
    have hcl := hd.curLt
    have hopt : d'.opts = d.opts := by rw [(hr.step hs).opts, hr.opts]
    show d'.opts.autoFixUnclosedTag = true → ∀ x, x < d'.heap.size → (d'.heap.cell x).nodeType = .tagEnd → (d'.heap.cell x).prev = none →
      ∃ t, t < d'.heap.size ∧ (d'.heap.cell t).endTag = some x ∧ (d'.heap.cell t).content ≠ none
    intro ha x hx hty hp
    rw [hopt] at ha
    rcases Nat.lt_or_ge x d.heap.size with hx' | hx'
    · rw [(he.keep hd x hx').prev] at hp
      have hty : (d.heap.cell x).nodeType = .tagEnd := by
        rcases (he.keep hd x hx').ty with h1 | h1
        · rw [← h1]; exact hty
        · rw [h1.2.1] at hty; cases hty
      obtain ⟨t, h1, h2, h3⟩ := ih ha x hx' hty hp
      exact ⟨t, by omega, he.endKept hd hl t x h1 h2, he.rawKept hd t h1 (hl.ends.down t x h1 h2).2.2.2.2.2 h3⟩
    · have hxe : x = d.heap.size := by omega
      subst hxe
      cases he with
      | data ct m e' hea hheap hm hchain hct hend => rw [hheap] at hx; simp at hx
      | child p ty b o hp' hty' ho hb hheap hchain hcur hend =>
        rw [hheap, markSpaces_cell, addChild_cell d p _ (hd.chain_head hp')] at hty
        simp only [if_true] at hty
        split at hty
        · cases hty
        · have hty : ty = .tagEnd := hty
          rw [hty] at hty'; cases hty'
      | ltChild p n hf hn hp hheap hchain hcur hend =>
        obtain ⟨ct, e, k, rfl, _⟩ := hn
        rw [hheap, Heap.upd_cell] at hty
        simp only [Heap.push_cell, if_true] at hty
        split at hty <;> cases hty
      | endPush pv hpv hheap hchain hcur hend =>
        rw [hheap] at hp
        simp only [Heap.push_cell, if_true] at hp
        rw [hpv, if_pos ha] at hp; cases hp
      | endLink t m hm hty' hheap hchain hcur hend =>
        rw [hheap] at hx
        unfold Doc.endHeap at hx
        rw [Heap.upd_size, markSpaces_size, Heap.upd_size] at hx
        omega
      | rawEnd n hty' hp hheap hchain hcur hend =>
        refine ⟨d.current, by omega, ?_, ?_⟩
        · rw [hheap, rawHeap_cell hd, if_neg (by omega), if_pos rfl]
        · rw [hheap, rawHeap_cell hd, if_neg (by omega), if_pos rfl]; simp

/-- The end tags of a parsed document that have no `prev` link: those of raw-text elements and those the parser added. -/
theorem parse_noPrev {s : Str} {o : ParseOptions} {d : Doc} (h : Doc.parse s o = .ok d) (ha : o.autoFixUnclosedTag = true) {x : NodeId}
    (hx : x < d.heap.size) (hty : (d.heap.cell x).nodeType = .tagEnd) (hp : (d.heap.cell x).prev = none) :
    ∃ t, t < d.heap.size ∧ (d.heap.cell x).parent = some t ∧ (d.heap.cell t).nodeType = .tag ∧
      ((d.heap.cell t).content ≠ none ∨ ∃ m, (d.heap.cell t).tmeta = some m ∧ m.autoFix = true) := by
  have hg := parse_graph h
  obtain ⟨d0, hr, he, hh, hroot, _, _⟩ := parse_ok h
  have hd := hr.ctl
  rw [hh] at hx hp hty hg ⊢
  have hge := hg.2.2.2.2.1
  have hsz : d0.heap.size ≤ d0.finalHeap.size := by rw [finalHeap_size]; exact fixedHeap_size d0
  rcases Nat.lt_or_ge x d0.heap.size with hl | hl
  · have hE := eofCell hd he x hl
    have hty0 : (d0.heap.cell x).nodeType = .tagEnd := by
      rcases hE.ty with h1 | h1
      · rw [← h1]; exact hty
      · rw [h1.2.1] at hty; cases hty
    rw [hE.prev] at hp
    obtain ⟨t, h1, h2, h3⟩ := hr.rawPrev (by rw [hr.opts]; exact ha) x hl hty0 hp
    have hT := eofCell hd he t h1
    have hend : (d0.finalHeap.cell t).endTag = some x := by
      rcases hT.endTag with h4 | ⟨h4, _⟩
      · rw [h4]; exact h2
      · rw [hr.links.chainOpen t h4] at h2; cases h2
    have hdn := hge.down t x (by omega) hend
    refine ⟨t, by omega, hdn.2.2.2.1, hdn.2.2.2.2.2, .inl ?_⟩
    rw [hT.content]
    split
    · simp
    · exact h3
  · have hx' := hx
    rw [finalHeap_size] at hx'
    have hcell := finalHeap_cell (d := d0) x (by have := hd.sizePos; omega) (fun _ => by have := hd.curLt; omega)
    unfold Doc.fixedHeap at hx' hcell
    split at hx'
    · rename_i hlen
      rw [if_pos hlen] at hcell
      obtain ⟨_, k2, k3⟩ := fixHeap_cells d0.position _ d0.heap hd.open_tags.1
        (fun t ht => hd.chainLt t (hd.open_tags.2 t ht).1)
      obtain ⟨i, m, a, b, c⟩ := k3 x hl hx'
      obtain ⟨e, _, _, k4, _⟩ := k2 i m a b
      have hil := hd.chainLt i (hd.open_tags.2 i a).1
      have hfix : (d0.fixedHeap.cell i).tmeta = some { m with autoFix := true } ∧ (d0.fixedHeap.cell i).endTag = some e := by
        unfold Doc.fixedHeap
        rw [if_pos hlen, k4]
        exact ⟨rfl, rfl⟩
      have hfin : (d0.finalHeap.cell i).tmeta = (d0.fixedHeap.cell i).tmeta ∧
          (d0.finalHeap.cell i).endTag = (d0.fixedHeap.cell i).endTag := by
        unfold Doc.finalHeap
        rw [Heap.upd_cell]
        split
        · split
          · rw [Heap.upd_cell]; split <;> exact ⟨rfl, rfl⟩
          · exact ⟨rfl, rfl⟩
        · split
          · rw [Heap.upd_cell]; split <;> exact ⟨rfl, rfl⟩
          · exact ⟨rfl, rfl⟩
      have hdn := hge.down i e (by omega) (hfin.2.trans hfix.2)
      refine ⟨i, by omega, by rw [hcell, c], hdn.2.2.2.2.2, .inr ⟨_, hfin.1.trans hfix.1, rfl⟩⟩
    · omega

end Rphtml
