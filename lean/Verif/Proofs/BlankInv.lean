import Verif.Proofs.Blank

/-! # The invariant of whitespace-only texts -/

namespace Rphtml
open Spec

/-- Where a remembered text can be. -/
def PendB (d : Doc) (x : NodeId) : Prop :=
  (d.handle = .text ∧ x = d.current ∧ d.repeatWhitespace = false) ∨
  ((∃ w, (d.heap.cell x).content = some w ∧ Whole (d.heap.cell x) w) ∧
    ((∃ p, d.chain.head? = some p ∧ (d.heap.kids p).getLast? = some x ∧
      (d.handle = .wait ∨ d.handle = .unkownTag ∨ d.handle = .exclamationBegin ∨ d.handle = .tagEnd)) ∨
    (∃ t q, Lone d.heap x t ∧ d.chain.head? = some q ∧ (d.heap.kids q).getLast? = some t ∧
      (d.handle = .wait ∨ d.handle = .unkownTag ∨ d.handle = .exclamationBegin ∨ d.handle = .tagEnd)) ∨
    (∃ t q l, Lone d.heap x t ∧ d.chain.head? = some q ∧ d.heap.kids q = l ++ [t, d.current] ∧ x ≠ d.current ∧ d.handle = .text) ∨
    (∃ p l, d.chain.head? = some p ∧ d.heap.kids p = l ++ [x, d.current] ∧ x ≠ d.current ∧ d.handle = .text)))

/-- The node that is current, or will be again when the end tag being read is dropped. -/
def CurOf (d : Doc) (k : NodeId) : Prop :=
  (d.handle ≠ .text ∧ d.handle ≠ .tagEnd ∧ k = d.current) ∨ (d.handle = .tagEnd ∧ d.cur.prev = some k)

/-- Nothing was remembered and linked after this node. -/
def FreshAt (d : Doc) (k : NodeId) : Prop :=
  ((d.heap.cell k).nodeType = .text → d.checkTextnode = none ∨ d.checkTextnode = some k) ∧
  ((d.heap.cell k).nodeType = .tag → d.checkTextnode = none ∧ d.heap.kids k = [])

/-- What is decided about a text. -/
def Decided (h : Heap) (x : NodeId) (w : Str) : Prop :=
  ((h.cell x).nodeType = .text ∧ (¬ Whole (h.cell x) w ∨ Stays h x)) ∨
  ((h.cell x).nodeType = .spacesBetweenTag ∧ Whole (h.cell x) w ∧ Goes h x)

/-- The state of all whitespace-only texts. -/
structure BlankInv (s : Str) (d : Doc) : Prop where
  nested : Nested d.heap d.chain
  fresh : ∀ k, CurOf d k → FreshAt d k
  reading : d.handle = .text →
    (d.repeatWhitespace = true → (∃ p, d.chain.head? = some p ∧ (d.heap.kids p).getLast? = some d.current) ∧
      s.length = d.cur.beginAt + d.prevChars.length) ∧
    (d.repeatWhitespace = false → AllWs d.prevChars → s.length ≠ d.cur.beginAt + d.prevChars.length)
  pend : ∀ x, d.checkTextnode = some x → PendB d x
  done : ∀ x w, x < d.heap.size → (d.heap.cell x).nodeType.isText → ¬ (d.handle = .text ∧ x = d.current) →
    (d.heap.cell x).content = some w → AllWs w → d.checkTextnode ≠ some x → Decided d.heap x w

theorem BlankInv.free {s : Str} {d : Doc} (g : BlankInv s d) :
    d.handle = .unkownTag → d.cur.nodeType = .tag → d.heap.kids d.current = [] := by
  intro h1 h2
  exact ((g.fresh d.current (Or.inl ⟨by rw [h1]; simp, by rw [h1]; simp, rfl⟩)).2 h2).2

theorem BlankInv.new (o : ParseOptions) : BlankInv [] (Doc.new o) := by
  refine ⟨trivial, ?_, ?_, ?_, ?_⟩
  · rintro k (⟨_, _, h⟩ | ⟨h, _⟩)
    · subst h; refine ⟨?_, ?_⟩ <;> intro h <;> cases h
    · cases h
  · intro h; cases h
  · intro x h; cases h
  · intro x w hx ht
    have : x = 0 := by have : (Doc.new o).heap.size = 1 := rfl; omega
    subst this
    rcases ht with h | h <;> cases h

/-- A decision stands. -/
theorem Decided.keep {d d' : Doc} (hd : Ctl d) (hl : Links d) (he : Eff d d') (hg : GrowH d.heap d'.heap) {x : NodeId} {w : Str}
    (hx : x < d.heap.size) (hc : d.checkTextnode ≠ some x)
    (hcur : x = d.current → (d'.heap.cell d.current).endAt = d.cur.endAt) (h : Decided d.heap x w) :
    Decided d'.heap x w := by
  have hk := he.keep hd x hx
  have hty : (d'.heap.cell x).nodeType = (d.heap.cell x).nodeType := by
    rcases hk.ty with h | h
    · exact h
    · exact absurd h.2.2 hc
  have hea : (d'.heap.cell x).endAt = (d.heap.cell x).endAt := by
    by_cases h1 : x = d.current
    · subst h1; exact hcur rfl
    · exact (hk.other h1).2.2.1
  have hw : Whole (d'.heap.cell x) w ↔ Whole (d.heap.cell x) w := by
    unfold Whole; rw [hea, hk.beginAt]
  unfold Decided
  rw [hty, hw]
  rcases h with ⟨h1, h2 | h2⟩ | ⟨h1, h2, h3⟩
  · exact Or.inl ⟨h1, Or.inl h2⟩
  · exact Or.inl ⟨h1, Or.inr (hg.stays hl.owns h2)⟩
  · exact Or.inr ⟨h1, h2, hg.goes hl.owns h3⟩

/-- The transitions outside texts. -/
theorem BlankInv.keep {s : Str} {d d' : Doc} {c : Char} (hd : Ctl d) (hl : Links d) (g : BlankInv s d) (he : Eff d d')
    (hh : d.handle ≠ .text) (hh' : d'.handle ≠ .text)
    (hcont : d.cur.nodeType.isText → (d'.heap.cell d.current).content = d.cur.content ∧ (d'.heap.cell d.current).endAt = d.cur.endAt)
    (hnew : d.heap.size < d'.heap.size → ¬ (d'.heap.cell d.heap.size).nodeType.isText)
    (hfresh : ∀ k, CurOf d' k → FreshAt d' k)
    (hchk : d'.checkTextnode = d.checkTextnode ∨ d'.checkTextnode = none)
    (hmark : ∀ x, d.checkTextnode = some x → (d'.checkTextnode = some x ∧ PendB d' x) ∨
      (d'.checkTextnode = none ∧ (d'.heap.cell x).nodeType = .spacesBetweenTag ∧ Goes d'.heap x)) :
    BlankInv (s ++ [c]) d' := by
  have hg := he.growH hd hl g.free
  have hsz := he.size_le
  refine ⟨he.nestedAll hd hl g.free g.nested, hfresh, fun h => absurd h hh', ?_, ?_⟩
  · intro x hx
    rcases hchk with h | h
    · rcases hmark x (by rw [← h]; exact hx) with h1 | h1
      · exact h1.2
      · rw [h1.1] at hx; cases hx
    · rw [h] at hx; cases hx
  · intro x w hx ht _ hw hws hnc
    by_cases h1 : x = d.heap.size
    · rw [h1] at ht hx; exact absurd ht (hnew hx)
    · have hx' : x < d.heap.size := by omega
      have hk := he.keep hd x hx'
      have hcon : (d.heap.cell x).nodeType.isText → (d.heap.cell x).content = some w ∧ (d'.heap.cell x).endAt = (d.heap.cell x).endAt := by
        intro h4
        by_cases h3 : x = d.current
        · subst h3
          have := hcont h4
          rw [hw] at this; exact ⟨this.1.symm, this.2⟩
        · rw [← (hk.other h3).1]; exact ⟨hw, (hk.other h3).2.2.1⟩
      by_cases h2 : d.checkTextnode = some x
      · rcases hmark x h2 with h3 | h3
        · exact absurd h3.1 hnc
        · obtain ⟨h4, h5⟩ := hcon (Or.inl (hd.check x h2).2)
          refine Or.inr ⟨h3.2.1, ?_, h3.2.2⟩
          unfold Whole
          rw [h5, hk.beginAt]
          rcases g.pend x h2 with h6 | ⟨⟨w', h6, h7⟩, _⟩
          · exact absurd h6.1 hh
          · rw [h4] at h6; cases h6; exact h7
      · have hty : (d'.heap.cell x).nodeType = (d.heap.cell x).nodeType := by
          rcases hk.ty with h | h
          · exact h
          · exact absurd h.2.2 h2
        rw [hty] at ht
        obtain ⟨h4, h5⟩ := hcon ht
        exact (g.done x w hx' ht (fun h => hh h.1) h4 hws h2).keep hd hl he hg hx' h2 fun h => by rw [← h]; rw [h5, h]; rfl

/-- The handlers in which a text is remembered between nodes. -/
def Handler.amid (h : Handler) : Prop := h = .wait ∨ h = .unkownTag ∨ h = .exclamationBegin ∨ h = .tagEnd

/-- Remembered between nodes. -/
theorem PendB.between {d : Doc} {x : NodeId} (h : PendB d x) (hh : d.handle ≠ .text) :
    d.handle.amid ∧ (∃ w, (d.heap.cell x).content = some w ∧ Whole (d.heap.cell x) w) ∧
    ((∃ p, d.chain.head? = some p ∧ (d.heap.kids p).getLast? = some x) ∨
     (∃ t q, Lone d.heap x t ∧ d.chain.head? = some q ∧ (d.heap.kids q).getLast? = some t)) := by
  rcases h with h | ⟨hw, ⟨p, a, b, e⟩ | ⟨t, q, a, b, c, e⟩ | ⟨t, q, l, _, _, _, _, e⟩ | ⟨p, l, _, _, _, e⟩⟩
  · exact absurd h.1 hh
  · exact ⟨e, hw, Or.inl ⟨p, a, b⟩⟩
  · exact ⟨e, hw, Or.inr ⟨t, q, a, b, c⟩⟩
  · exact absurd e hh
  · exact absurd e hh

theorem PendB.of {d : Doc} {x : NodeId} (hh : d.handle.amid)
    (hw : ∃ w, (d.heap.cell x).content = some w ∧ Whole (d.heap.cell x) w)
    (h : (∃ p, d.chain.head? = some p ∧ (d.heap.kids p).getLast? = some x) ∨
     (∃ t q, Lone d.heap x t ∧ d.chain.head? = some q ∧ (d.heap.kids q).getLast? = some t)) : PendB d x := by
  refine Or.inr ⟨hw, ?_⟩
  rcases h with ⟨p, a, b⟩ | ⟨t, q, a, b, c⟩
  · exact Or.inl ⟨p, a, b, hh⟩
  · exact Or.inr (Or.inl ⟨t, q, a, b, c, hh⟩)

/-- The remembered text keeps its place. -/
theorem PendB.same {d d' : Doc} (hd : Ctl d) (he : Eff d d') (hg : GrowH d.heap d'.heap)
    (hk : ∀ i, i < d.heap.size → d'.heap.kids i = d.heap.kids i) (hc : d'.chain = d.chain) {x : NodeId} (hx : x < d.heap.size)
    (hh : d.handle ≠ .text) (hb : d'.handle.amid)
    (hcont : x = d.current → (d'.heap.cell d.current).content = d.cur.content ∧ (d'.heap.cell d.current).endAt = d.cur.endAt)
    (h : PendB d x) : PendB d' x := by
  obtain ⟨_, ⟨w, h1, h2⟩, h3⟩ := h.between hh
  have hkc := he.keep hd x hx
  refine PendB.of hb ⟨w, ?_, ?_⟩ ?_
  · by_cases h4 : x = d.current
    · have := (hcont h4).1
      rw [h4, this, ← h1, h4]; rfl
    · rw [(hkc.other h4).1]; exact h1
  · unfold Whole
    have : (d'.heap.cell x).endAt = (d.heap.cell x).endAt := by
      by_cases h4 : x = d.current
      · have := (hcont h4).2
        rw [h4, this]; rfl
      · exact (hkc.other h4).2.2.1
    rw [this, hkc.beginAt]; exact h2
  · rcases h3 with ⟨p, a, b⟩ | ⟨t, q, a, b, c⟩
    · exact Or.inl ⟨p, by rw [hc]; exact a, by rw [hk p (hd.chain_head a)]; exact b⟩
    · exact Or.inr ⟨t, q, hg.lone a, by rw [hc]; exact b, by rw [hk q (hd.chain_head b)]; exact c⟩

/-- Transitions that change nothing about texts or links. -/
theorem BlankInv.data {s : Str} {d d' : Doc} {c : Char} (hd : Ctl d) (hl : Links d) (g : BlankInv s d) (he : Eff d d')
    (hh : d.handle ≠ .text) (hh' : d'.handle ≠ .text)
    (hcont : d.cur.nodeType.isText → (d'.heap.cell d.current).content = d.cur.content ∧ (d'.heap.cell d.current).endAt = d.cur.endAt)
    (hsz : d'.heap.size = d.heap.size) (hk : ∀ i, i < d.heap.size → d'.heap.kids i = d.heap.kids i)
    (hty : ∀ i, i < d.heap.size → (d'.heap.cell i).nodeType = (d.heap.cell i).nodeType)
    (hcur : ∀ k, CurOf d' k → k < d.heap.size ∧ (CurOf d k ∨ ((d.heap.cell k).nodeType ≠ .text ∧ (d.heap.cell k).nodeType ≠ .tag)))
    (hc : d'.checkTextnode = d.checkTextnode)
    (h2 : d.handle.amid → d'.chain = d.chain ∧ d'.handle.amid) : BlankInv (s ++ [c]) d' := by
  refine g.keep hd hl he hh hh' hcont (fun h => by omega) ?_ (Or.inl hc) fun x hx => Or.inl ⟨by rw [hc]; exact hx, ?_⟩
  · intro k hk'
    obtain ⟨h3, h4⟩ := hcur k hk'
    unfold FreshAt
    rw [hty k h3, hc, hk k h3]
    rcases h4 with h4 | h4
    · exact g.fresh k h4
    · exact ⟨fun h => absurd h h4.1, fun h => absurd h h4.2⟩
  · have hp := g.pend x hx
    have hb := (hp.between hh).1
    exact hp.same hd he (he.growH hd hl g.free) hk (h2 hb).1 (hd.check x hx).1 hh (h2 hb).2
      fun h => hcont (by unfold Doc.cur; rw [← h]; exact Or.inl (hd.check x hx).2)

/-- A node other than a text is linked below the innermost open tag. -/
theorem BlankInv.open {s : Str} {d d' : Doc} {c : Char} (hd : Ctl d) (hl : Links d) (g : BlankInv s d) (he : Eff d d')
    (hh : d.handle ≠ .text) (hh' : d'.handle ≠ .text) (hh2 : d'.handle ≠ .tagEnd) {p : NodeId}
    (hp : d.chain.head? = some p) {n : Cell} (hn : ¬ n.nodeType.isText) (hcu : d'.current = d.heap.size)
    (hheap : d'.heap = (d.addChild p n).heap.markSpaces d.checkTextnode) (hc : d'.checkTextnode = none) :
    BlankInv (s ++ [c]) d' := by
  have hnew : ¬ (d'.heap.cell d.heap.size).nodeType.isText := by
    rw [hheap, grown_cell hd p hp _ _ (Or.inl rfl)]; exact hn
  have hpl := hd.chain_head hp
  have hg := he.growH hd hl g.free
  have hk : d'.heap.kids p = d.heap.kids p ++ [d.heap.size] := by
    unfold Heap.kids
    rw [hheap, markSpaces_cell, addChild_cell d p _ hpl]
    have h1 : ¬ p = d.heap.size := by omega
    simp only [h1, if_false, if_true]
    split <;> rfl
  have hsize : d.heap.size < d'.heap.size := by rw [hheap]; simp [addChild_size]
  refine g.keep hd hl he hh hh' ?_ (fun _ => hnew) ?_ (Or.inr hc) ?_
  · intro _
    rw [hheap, markSpaces_cell, addChild_cell d p _ hpl]
    have h1 : ¬ d.current = d.heap.size := by have := hd.curLt; omega
    simp only [h1, if_false]
    unfold Doc.cur
    by_cases h2 : d.current = p
    · simp only [h2, if_true]; split <;> exact ⟨rfl, rfl⟩
    · simp only [h2, if_false]; split <;> exact ⟨rfl, rfl⟩
  · rintro k (⟨_, _, h⟩ | ⟨h, _⟩)
    · rw [hcu] at h; subst h
      refine ⟨fun h => absurd (Or.inl h) hnew, fun _ => ⟨hc, ?_⟩⟩
      unfold Heap.kids
      rw [(he.newCell hd hsize).2.2.1]; rfl
    · exact absurd h hh2
  · intro x hx
    refine Or.inr ⟨hc, ?_, ?_⟩
    · rw [hheap, markSpaces_cell, if_pos hx]
    · obtain ⟨_, _, ⟨q, a, b⟩ | ⟨t, q, a, b, e⟩⟩ := (g.pend x hx).between hh
      · rw [hp] at a; cases a
        obtain ⟨l, hl'⟩ := List.getLast?_eq_some_iff.1 b
        exact Or.inl ⟨p, l, d.heap.size, [], by omega, by rw [hk, hl']; simp, hnew⟩
      · rw [hp] at b; cases b
        obtain ⟨l, hl'⟩ := List.getLast?_eq_some_iff.1 e
        exact Or.inr (Or.inr (Or.inl ⟨t, hg.lone a, p, l, d.heap.size, [], by omega, by rw [hk, hl']; simp, hnew⟩))

/-- Nothing is remembered elsewhere. -/
theorem BlankInv.idle {s : Str} {d : Doc} (g : BlankInv s d) (hh : d.handle ≠ .text) (h2 : ¬ d.handle.amid) :
    d.checkTextnode = none := by
  cases hc : d.checkTextnode with
  | none => rfl
  | some x => exact absurd ((g.pend x hc).between hh).1 h2

/-- The end of a text. -/
theorem BlankInv.endText {s : Str} {d : Doc} (g : BlankInv s d) (c : Char) (hh : d.handle = .text) (hty : d.cur.nodeType = .text)
    (hchk : ∀ x, d.checkTextnode = some x → (d.heap.cell x).nodeType = .text) (hpos : d.position = s.length)
    (hlt : ∀ p, d.chain.head? = some p → p < d.heap.size) :
    BlankInv (s ++ [c]) d.endText := by
  have hcell : ∀ i, d.endText.heap.cell i = if i = d.current then
      { d.heap.cell i with content := some d.prevChars, endAt := d.position } else d.heap.cell i := fun i => rfl
  have hs : SameH d.heap d.endText.heap := by
    refine ⟨rfl, ?_, ?_, ?_⟩ <;> intro i <;> rw [hcell] <;> split <;> rfl
  have hwh : Whole (d.endText.heap.cell d.current) d.prevChars ↔ s.length = d.cur.beginAt + d.prevChars.length := by
    unfold Whole; rw [hcell, if_pos rfl, ← hpos]; rfl
  refine ⟨hs.nested g.nested, ?_, (by intro h; cases h), ?_, ?_⟩
  · rintro k (⟨_, _, h⟩ | ⟨h, _⟩)
    · have h : k = d.current := h
      subst h
      refine ⟨fun _ => ?_, fun h => ?_⟩
      · cases h2 : d.repeatWhitespace <;> simp [Doc.endText, h2]
      · rw [hs.ty] at h
        have hty : (d.heap.cell d.current).nodeType = .text := hty
        rw [hty] at h; cases h
    · cases h
  · intro x hx
    have hx : (if d.repeatWhitespace then some d.current else none) = some x := hx
    split at hx
    · rename_i hrep
      cases hx
      obtain ⟨⟨p, h1, h2⟩, h3⟩ := (g.reading hh).1 hrep
      refine PendB.of (Or.inr (Or.inl rfl)) ⟨d.prevChars, ?_, hwh.2 h3⟩ (Or.inl ⟨p, h1, ?_⟩)
      · rw [hcell, if_pos rfl]
      · rw [hs.kids]; exact h2
    · cases hx
  · intro x w hx ht _ hw hws hnc
    have hnc : (if d.repeatWhitespace then some d.current else none) ≠ some x := hnc
    by_cases h1 : x = d.current
    · subst h1
      rw [hcell, if_pos rfl] at hw
      simp only [Option.some.injEq] at hw
      subst hw
      cases h2 : d.repeatWhitespace with
      | true => rw [h2] at hnc; exact absurd rfl hnc
      | false =>
        refine Or.inl ⟨by rw [hs.ty]; exact hty, Or.inl fun h3 => ?_⟩
        exact (g.reading hh).2 h2 hws (hwh.1 h3)
    · have hcx : d.endText.heap.cell x = d.heap.cell x := by rw [hcell, if_neg h1]
      rw [hcx] at ht hw
      have hdec : Decided d.heap x w → Decided d.endText.heap x w := by
        unfold Decided
        rw [hcx]
        rintro (⟨h1, h2 | h2⟩ | ⟨h1, h2, h3⟩)
        · exact Or.inl ⟨h1, Or.inl h2⟩
        · exact Or.inl ⟨h1, Or.inr (hs.stays h2)⟩
        · exact Or.inr ⟨h1, h2, hs.goes h3⟩
      by_cases h2 : d.checkTextnode = some x
      · left
        refine ⟨by rw [hcx]; exact hchk x h2, Or.inr ?_⟩
        rcases g.pend x h2 with h | ⟨_, ⟨p, _, _, e⟩ | ⟨t, q, _, _, _, e⟩ | ⟨t, q, l, a, b, e, _, _⟩ | ⟨p, l, a, b, _, _⟩⟩
        · exact absurd h.2.1 h1
        · rw [hh] at e; rcases e with e | e | e | e <;> cases e
        · rw [hh] at e; rcases e with e | e | e | e <;> cases e
        · exact Or.inr ⟨t, hs.lone a, q, l, d.current, [], hlt q b, by rw [hs.kids]; exact e, by rw [hs.ty]; exact Or.inl hty⟩
        · exact Or.inl ⟨p, l, d.current, [], hlt p a, by rw [hs.kids]; exact b, by rw [hs.ty]; exact Or.inl hty⟩
      · exact hdec (g.done x w hx ht (fun h => h1 h.2) hw hws h2)

/-- A whitespace text is not longer than its source. -/
theorem mended_blank {o : ParseOptions} {x w : Str} (h : Mended o x w) (hw : AllWs w) : w.length ≤ x.length := by
  induction h with
  | nil => exact Nat.le_refl _
  | char hc h ih =>
    have := ih fun c hc => hw c (List.mem_cons_of_mem _ hc)
    simp only [List.length_cons]; omega
  | lt ho hs h ih =>
    have := hw '&' (by simp)
    cases this
  | dropped h1 h2 he h ih =>
    have := ih hw
    simp only [List.length_append]; omega

end Rphtml
