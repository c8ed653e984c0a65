import Verif.Proofs.Final

/-!
# Creation order is document order

`Spine h x`: `x` is on the rightmost path of the tree.  The open tags always are, and nodes are only ever
linked below a node of the rightmost path.
-/

namespace Rphtml

/-- `x` is reached from the root by always following the last child. -/
inductive Spine (h : Heap) : NodeId → Prop where
  | root : Spine h 0
  | step {q x : NodeId} (hq : Spine h q) (hx : (h.kids q).getLast? = some x) : Spine h x

/-- `z` is `a` or lies below it. -/
inductive Below (h : Heap) (a : NodeId) : NodeId → Prop where
  | self : Below h a a
  | step {q z : NodeId} (hq : Below h a q) (hz : z ∈ h.kids q) : Below h a z

theorem Spine.lt {lt : Bool} {h : Heap} (g : Owns lt h) (h0 : 0 < h.size) {x : NodeId} (hx : Spine h x) :
    x < h.size := by
  induction hx with
  | root => exact h0
  | step hq hx ih => exact (g.range _ _ ih (List.mem_of_getLast? hx)).2

theorem Below.lt {lt : Bool} {h : Heap} (g : Owns lt h) {a z : NodeId} (ha : a < h.size) (hz : Below h a z) :
    a ≤ z ∧ z < h.size := by
  induction hz with
  | self => exact ⟨Nat.le_refl _, ha⟩
  | step hq hz ih => have := g.range _ _ ih.2 hz; omega

/-- The spine up to `x` only depends on the children of smaller nodes. -/
theorem Spine.mono {lt : Bool} {h h' : Heap} (g : Owns lt h) (h0 : 0 < h.size) {x : NodeId} (hx : Spine h x)
    (hk : ∀ q, q < x → h'.kids q = h.kids q) : Spine h' x := by
  induction hx with
  | root => exact Spine.root
  | step hq hx ih =>
    have hlt := (g.range _ _ (hq.lt g h0) (List.mem_of_getLast? hx)).1
    refine Spine.step (ih fun q hq' => hk q (by omega)) ?_
    rw [hk _ hlt]; exact hx

/-- All children of `q` come before the last one. -/
theorem Owns.le_last {lt : Bool} {h : Heap} (g : Owns lt h) {q x b : NodeId} (hq : q < h.size)
    (hx : (h.kids q).getLast? = some x) (hb : b ∈ h.kids q) : b ≤ x := by
  have hs := g.sorted q hq
  obtain ⟨l, hl⟩ := List.getLast?_eq_some_iff.1 hx
  rw [hl] at hs hb
  rcases List.mem_append.1 hb with h1 | h1
  · exact Nat.le_of_lt ((List.pairwise_append.1 hs).2.2 b h1 x (by simp))
  · simp only [List.mem_singleton] at h1; omega

/-- A node on the spine does not lie below a node with a younger sibling. -/
theorem Spine.not_below {lt : Bool} {h : Heap} (g : Owns lt h) (h0 : 0 < h.size) {p : NodeId} (hp : Spine h p)
    {q a b : NodeId} (hq : q < h.size) (ha : a ∈ h.kids q) (hb : b ∈ h.kids q) (hab : a < b) : ¬ Below h a p := by
  induction hp with
  | root =>
    intro hbl
    have := (hbl.lt g (g.range q a hq ha).2).1
    have := (g.range q a hq ha).1
    omega
  | step hs hx ih =>
    intro hbl
    have hqs := hs.lt g h0
    cases hbl with
    | self =>
      have hmem := List.mem_of_getLast? hx
      have := g.owner _ _ _ hqs hq hmem ha
      subst this
      have := g.le_last hq hx hb
      omega
    | step hbl' hz =>
      have ha' := (g.range q a hq ha).2
      have := g.owner _ _ _ hqs (hbl'.lt g ha').2 (List.mem_of_getLast? hx) hz
      subst this
      exact ih hbl'

/-- Everything below an older sibling is older than a younger sibling. -/
def Ordered (h : Heap) : Prop :=
  ∀ q a b z, q < h.size → a ∈ h.kids q → b ∈ h.kids q → a < b → Below h a z → z < b

/-- The children did not change. -/
theorem Below.congr {h h' : Heap} {a z : NodeId} (hk : ∀ q, h'.kids q = h.kids q) (hz : Below h' a z) : Below h a z := by
  induction hz with
  | self => exact Below.self
  | step _ hz ih => exact Below.step ih (by rw [← hk]; exact hz)

theorem Spine.congr {h h' : Heap} {x : NodeId} (hk : ∀ q, h'.kids q = h.kids q) (hx : Spine h x) : Spine h' x := by
  induction hx with
  | root => exact Spine.root
  | step _ hx ih => exact Spine.step ih (by rw [hk]; exact hx)

theorem Ordered.keep {lt : Bool} {h h' : Heap} (g : Owns lt h) (ho : Ordered h)
    (hk : ∀ q, q < h.size → h'.kids q = h.kids q)
    (hn : ∀ q, h.size ≤ q → h'.kids q = []) : Ordered h' := by
  intro q a b z hq ha hb hab hz
  have hq' : q < h.size := by
    rcases Nat.lt_or_ge q h.size with h1 | h1
    · exact h1
    · rw [hn q h1] at ha; cases ha
  rw [hk q hq'] at ha hb
  have ha' := (g.range q a hq' ha).2
  have hz' : Below h a z := by
    clear hab hb
    induction hz with
    | self => exact Below.self
    | step _ hz ih =>
      refine Below.step ih ?_
      rwa [hk _ (ih.lt g ha').2] at hz
  exact ho q a b z hq' ha hb hab hz'

/-- A child was added below a node of the spine. -/
theorem Ordered.addKid {lt : Bool} {h h' : Heap} (g : Owns lt h) (h0 : 0 < h.size) (ho : Ordered h)
    (p : NodeId) (hp : Spine h p)
    (hk : ∀ q, q < h.size → h'.kids q = if q = p then h.kids p ++ [h.size] else h.kids q)
    (hn : ∀ q, h.size ≤ q → h'.kids q = []) : Ordered h' := by
  have hpl := hp.lt g h0
  have hbel : ∀ a z, a < h.size → Below h' a z → Below h a z ∨ (z = h.size ∧ Below h a p) := by
    intro a z ha hz
    induction hz with
    | self => exact Or.inl Below.self
    | step hq hz ih =>
      rename_i q z
      rcases ih with h1 | h1
      · have hql := (h1.lt g ha).2
        rw [hk q hql] at hz
        split at hz
        · rename_i e
          rcases List.mem_append.1 hz with h2 | h2
          · left; exact Below.step h1 (by rw [e]; exact h2)
          · right; simp only [List.mem_singleton] at h2; exact ⟨h2, by rw [← e]; exact h1⟩
        · exact Or.inl (Below.step h1 hz)
      · rw [h1.1, hn h.size (Nat.le_refl _)] at hz; cases hz
  intro q a b z hq ha hb hab hz
  have hq' : q < h.size := by
    rcases Nat.lt_or_ge q h.size with h1 | h1
    · exact h1
    · rw [hn q h1] at ha; cases ha
  rw [hk q hq'] at ha hb
  have key : ∀ x, x ∈ (if q = p then h.kids p ++ [h.size] else h.kids q) →
      (x ∈ h.kids q ∧ x < h.size) ∨ (q = p ∧ x = h.size) := by
    intro x hx
    split at hx
    · rename_i e
      rcases List.mem_append.1 hx with h2 | h2
      · left; rw [e]; exact ⟨h2, (g.range p x hpl h2).2⟩
      · right; simp only [List.mem_singleton] at h2; exact ⟨e, h2⟩
    · exact Or.inl ⟨hx, (g.range q x hq' hx).2⟩
  rcases key b hb with ⟨hb1, hb2⟩ | ⟨hb1, hb2⟩
  · rcases key a ha with ⟨ha1, ha2⟩ | ⟨ha1, ha2⟩
    · rcases hbel a z ha2 hz with h1 | h1
      · exact ho q a b z hq' ha1 hb1 hab h1
      · exact absurd h1.2 (hp.not_below g h0 hq' ha1 hb1 hab)
    · omega
  · rcases key a ha with ⟨ha1, ha2⟩ | ⟨ha1, ha2⟩
    · rcases hbel a z ha2 hz with h1 | h1
      · have := (h1.lt g ha2).2; omega
      · exfalso
        -- `p = q`, so `p` would lie below its own child
        have h2 := (h1.2.lt g ha2).1
        have h3 := (g.range q a hq' ha1).1
        omega
    · omega

/-- The order invariant of the parser. -/
structure OrderInv (d : Doc) : Prop where
  ordered : Ordered d.heap
  unalloc : ∀ i, d.heap.size ≤ i → d.heap.kids i = []
  chain : ∀ x ∈ d.chain, Spine d.heap x
  cur : d.cur.nodeType = .tag → Spine d.heap d.current ∧ ∀ x ∈ d.chain, x ≤ d.current
  back : d.handle = .tagEnd → ∀ p, d.cur.prev = some p → (d.heap.cell p).nodeType = .tag →
    Spine d.heap p ∧ ∀ x ∈ d.chain, x ≤ p

theorem OrderInv.new (o : ParseOptions) : OrderInv (Doc.new o) := by
  have hk : ∀ p, (Doc.new o).heap.kids p = [] := by
    intro p
    unfold Heap.kids Doc.new
    by_cases h : p = 0
    · subst h; rfl
    · simp only [if_neg h]; rfl
  refine ⟨?_, fun i _ => hk i, ?_, ?_, ?_⟩
  · intro q a b z _ ha; rw [hk] at ha; cases ha
  · intro x hx
    have : x = 0 := by simpa [Doc.new] using hx
    subst this; exact Spine.root
  · intro h; cases h
  · intro h; cases h

theorem Ctl.le_head {d : Doc} (hd : Ctl d) {p x : NodeId} (hp : d.chain.head? = some p) (hx : x ∈ d.chain) : x ≤ p := by
  have hs := hd.chainSorted
  cases hc : d.chain with
  | nil => rw [hc] at hx; cases hx
  | cons a as =>
    rw [hc] at hs hp hx
    simp only [List.head?_cons, Option.some.injEq] at hp
    subst hp
    rcases List.mem_cons.1 hx with h | h
    · omega
    · exact Nat.le_of_lt ((List.pairwise_cons.1 hs).1 x h)

theorem OrderInv.eff {d d' : Doc} (hd : Ctl d) (hl : Links d) (g : OrderInv d) (h : Eff d d') : OrderInv d' := by
  have h0 := hd.sizePos
  have hkeep := h.keep hd
  have ho := hl.owns
  cases h with
  | data ct m e hea hheap hm hchain hct hend =>
    have hcell : ∀ i, d'.heap.cell i =
        if i = d.current then { d.heap.cell i with content := ct, tmeta := m, endAt := e } else d.heap.cell i := by
      intro i; rw [hheap]; rfl
    have hk : ∀ q, d'.heap.kids q = d.heap.kids q := by
      intro q; unfold Heap.kids; rw [hcell]; split <;> rfl
    have hsz : d'.heap.size = d.heap.size := by rw [hheap]; rfl
    have hty : ∀ q, (d'.heap.cell q).nodeType = (d.heap.cell q).nodeType := by
      intro q; rw [hcell]; split <;> rfl
    have hpv : ∀ q, (d'.heap.cell q).prev = (d.heap.cell q).prev := by
      intro q; rw [hcell]; split <;> rfl
    have hsub : ∀ x ∈ d'.chain, x ∈ d.chain := by
      intro x hx
      rcases hchain with h | h
      · rw [h] at hx; exact hx
      · rw [h.1] at hx; exact List.mem_of_mem_tail hx
    refine ⟨g.ordered.keep ho (fun q _ => hk q) (fun q hq => by rw [hk]; exact g.unalloc q hq), ?_, ?_, ?_, ?_⟩
    · intro i hi; rw [hsz] at hi; rw [hk]; exact g.unalloc i hi
    · intro x hx; exact (g.chain x (hsub x hx)).congr hk
    · intro ht
      unfold Doc.cur at ht
      rw [hty] at ht
      rcases hend with ⟨h1, h2⟩ | ⟨h1, h2, h3, h4⟩
      · rw [h1] at ht ⊢
        exact ⟨(g.cur ht).1.congr hk, fun x hx => (g.cur ht).2 x (hsub x hx)⟩
      · rw [h1] at ht ⊢
        cases hp : d.cur.prev with
        | none =>
          rw [hp] at ht
          simp only [Option.getD_none] at ht ⊢
          exact ⟨(g.cur ht).1.congr hk, fun x hx => (g.cur ht).2 x (hsub x hx)⟩
        | some p =>
          rw [hp] at ht
          simp only [Option.getD_some] at ht ⊢
          have := g.back h2 p hp ht
          exact ⟨this.1.congr hk, fun x hx => this.2 x (hsub x hx)⟩
    · intro hh p hp ht
      rcases hend with ⟨h1, h2⟩ | ⟨h1, h2, h3, h4⟩
      · unfold Doc.cur at hp
        rw [h1, hpv] at hp
        rw [hty] at ht
        have := g.back (h2.1 hh) p hp ht
        exact ⟨this.1.congr hk, fun x hx => this.2 x (hsub x hx)⟩
      · rw [h3] at hh; cases hh
  | child p ty b o hp hty hoo hb hheap hchain hcur hend =>
    have hpl := hd.chain_head hp
    have hsz' : d'.heap.size = d.heap.size + 1 := by rw [hheap]; simp [addChild_size]
    have hnew : d'.heap.cell d.heap.size =
        { Cell.new ty b with parent := some p, index := ((d.heap.cell p).childs.getD []).length, root := some d.root } := by
      rw [hheap]; exact grown_cell hd p hp _ o hoo
    have hk : ∀ q, q ≠ d.heap.size → d'.heap.kids q = if q = p then d.heap.kids p ++ [d.heap.size] else d.heap.kids q := by
      intro q hq
      unfold Heap.kids
      rw [hheap, markSpaces_cell, addChild_cell d p _ hpl]
      simp only [hq, if_false]
      by_cases h2 : q = p
      · subst h2; simp only [if_true]; split <;> rfl
      · simp only [h2, if_false]; split <;> rfl
    have hk0 : d'.heap.kids d.heap.size = [] := by unfold Heap.kids; rw [hnew]; rfl
    have hkn : ∀ q, d.heap.size ≤ q → d'.heap.kids q = [] := by
      intro q hq
      by_cases h1 : q = d.heap.size
      · rw [h1]; exact hk0
      · rw [hk q h1, if_neg (by omega)]; exact g.unalloc q hq
    have hps := g.chain p (List.mem_of_mem_head? hp)
    have hch : ∀ x ∈ d.chain, Spine d'.heap x := by
      intro x hx
      refine (g.chain x hx).mono ho h0 fun q hq => ?_
      have := hd.le_head hp hx
      rw [hk q (by omega), if_neg (by omega)]
    have hns : Spine d'.heap d.heap.size := by
      refine Spine.step (hch p (List.mem_of_mem_head? hp)) ?_
      rw [hk p (by omega), if_pos rfl]; simp
    refine ⟨g.ordered.addKid ho h0 p hps (fun q hq => hk q (by omega)) hkn, ?_, ?_, ?_, ?_⟩
    · intro i hi; exact hkn i (by omega)
    · intro x hx
      rw [hchain] at hx
      split at hx
      · rcases List.mem_cons.1 hx with h | h
        · rw [h]; exact hns
        · exact hch x h
      · exact hch x hx
    · intro _
      rw [hcur]
      refine ⟨hns, fun x hx => ?_⟩
      rw [hchain] at hx
      split at hx
      · rcases List.mem_cons.1 hx with h | h
        · omega
        · exact Nat.le_of_lt (hd.chainLt x h)
      · exact Nat.le_of_lt (hd.chainLt x hx)
    · intro hh; exact absurd hh hend.2
  | ltChild p n hf hn hp hheap hchain hcur hend =>
    have hps : Spine d.heap p ∧ ∀ x ∈ d.chain, x ≤ p := by
      rcases hp with h | h | h
      · rw [h.1]; exact g.cur h.2.1
      · exact ⟨g.chain p (List.mem_of_mem_head? h), fun x hx => hd.le_head h hx⟩
      · rw [h.2, hd.root0, h.1]; exact ⟨Spine.root, fun x hx => by cases hx⟩
    have hpl := hps.1.lt ho h0
    obtain ⟨ct, e, k, hn, hk'⟩ := hn
    have hsz' : d'.heap.size = d.heap.size + 1 := by rw [hheap]; rfl
    have hnew : d'.heap.cell d.heap.size = n := by
      rw [hheap, Heap.upd_cell, Heap.push_cell]
      have : ¬ d.heap.size = p := by omega
      simp only [this, if_false, if_true]
    have hk : ∀ q, q ≠ d.heap.size → d'.heap.kids q = if q = p then d.heap.kids p ++ [d.heap.size] else d.heap.kids q := by
      intro q hq
      unfold Heap.kids
      rw [hheap, Heap.upd_cell, Heap.push_cell]
      simp only [hq, if_false]
      split <;> rfl
    have hkn : ∀ q, d.heap.size ≤ q → d'.heap.kids q = [] := by
      intro q hq
      by_cases h1 : q = d.heap.size
      · rw [h1]; unfold Heap.kids; rw [hnew, hn]; rfl
      · rw [hk q h1, if_neg (by omega)]; exact g.unalloc q hq
    have hch : ∀ x ∈ d.chain, Spine d'.heap x := by
      intro x hx
      refine (g.chain x hx).mono ho h0 fun q hq => ?_
      have := hps.2 x hx
      rw [hk q (by have := hd.chainLt x hx; omega), if_neg (by omega)]
    refine ⟨g.ordered.addKid ho h0 p hps.1 (fun q hq => hk q (by omega)) hkn, ?_, ?_, ?_, ?_⟩
    · intro i hi; exact hkn i (by omega)
    · intro x hx; rw [hchain] at hx; exact hch x hx
    · intro ht
      unfold Doc.cur at ht
      rw [hcur, hnew, hn] at ht; cases ht
    · intro hh; exact absurd hh hend.2
  | endPush pv hpv hheap hchain hcur hend =>
    have hnew : d'.heap.cell d.heap.size = { Cell.new .tagEnd d.memPosition with prev := pv } := by
      rw [hheap, Heap.push_cell]; simp
    have hold : ∀ i, i ≠ d.heap.size → d'.heap.cell i = d.heap.cell i := by
      intro i hi
      rw [hheap, Heap.push_cell, if_neg hi]
    have hk : ∀ q, d'.heap.kids q = d.heap.kids q := by
      intro q
      by_cases h1 : q = d.heap.size
      · rw [h1, g.unalloc _ (Nat.le_refl _)]; unfold Heap.kids; rw [hnew]; rfl
      · unfold Heap.kids; rw [hold q h1]
    refine ⟨g.ordered.keep ho (fun q _ => hk q) (fun q hq => by rw [hk]; exact g.unalloc q hq), ?_, ?_, ?_, ?_⟩
    · intro i hi
      have : d'.heap.size = d.heap.size + 1 := by rw [hheap]; rfl
      rw [hk]; exact g.unalloc i (by omega)
    · intro x hx; rw [hchain] at hx; exact (g.chain x hx).congr hk
    · intro ht; unfold Doc.cur at ht; rw [hcur, hnew] at ht; cases ht
    · intro _ p hp ht
      unfold Doc.cur at hp
      rw [hcur, hnew] at hp
      simp only at hp
      rw [hpv] at hp
      split at hp
      · cases hp
        rw [hold d.current (by have := hd.curLt; omega)] at ht
        have := g.cur ht
        rw [hchain]
        exact ⟨this.1.congr hk, this.2⟩
      · cases hp
  | endLink t m hm hty hheap hchain hcur hend =>
    have hcell := endHeap_cell hd t d.prevChars hm.2.1 hty
    rw [← hheap] at hcell
    have hk : ∀ q, d'.heap.kids q = d.heap.kids q := by
      intro q
      unfold Heap.kids
      rw [hcell]
      split
      · rfl
      · split
        · rfl
        · split <;> rfl
    refine ⟨g.ordered.keep ho (fun q _ => hk q) (fun q hq => by rw [hk]; exact g.unalloc q hq), ?_, ?_, ?_, ?_⟩
    · intro i hi
      have : d'.heap.size = d.heap.size := by rw [hheap]; simp
      rw [hk]; exact g.unalloc i (by omega)
    · intro x hx; rw [hchain] at hx; exact (g.chain x (List.mem_of_mem_tail hx)).congr hk
    · intro ht; unfold Doc.cur at ht; rw [hcur, hcell, if_pos rfl] at ht
      unfold Doc.cur at hty
      simp only at ht
      rw [hty] at ht; cases ht
    · intro hh; rw [hend.2] at hh; cases hh
  | rawEnd n hty hp hheap hchain hcur hend =>
    have hcell := rawHeap_cell hd n
    rw [← hheap] at hcell
    have hk : ∀ q, d'.heap.kids q = d.heap.kids q := by
      intro q
      unfold Heap.kids
      rw [hcell]
      split
      · rename_i h; rw [h]; have := g.unalloc _ (Nat.le_refl d.heap.size)
        unfold Heap.kids at this; rw [this]; rfl
      · split <;> rfl
    refine ⟨g.ordered.keep ho (fun q _ => hk q) (fun q hq => by rw [hk]; exact g.unalloc q hq), ?_, ?_, ?_, ?_⟩
    · intro i hi
      have : d'.heap.size = d.heap.size + 1 := by rw [hheap]; rfl
      rw [hk]; exact g.unalloc i (by omega)
    · intro x hx; rw [hchain] at hx; exact (g.chain x (List.mem_of_mem_tail hx)).congr hk
    · intro _
      rw [hcur]
      have := g.cur hty
      refine ⟨this.1.congr hk, fun x hx => ?_⟩
      rw [hchain] at hx; exact this.2 x (List.mem_of_mem_tail hx)
    · intro hh; rw [hend.2] at hh; cases hh

theorem Reach.order {o : ParseOptions} {s : Str} {d : Doc} (h : Reach o s d) : OrderInv d := by
  induction h with
  | init => exact OrderInv.new o
  | step hr hs ih =>
    have := ih.eff hr.ctl hr.links (hs.eff hr.ctl)
    exact ⟨this.ordered, this.unalloc, this.chain, this.cur, this.back⟩

theorem finalHeap_kids {o : ParseOptions} {s : Str} {d : Doc} (hr : Reach o s d) (he : EofOk d) (q : NodeId)
    (hq : q < d.finalHeap.size) : d.finalHeap.kids q = if q < d.heap.size then d.heap.kids q else [] := by
  have hd := hr.ctl
  split
  · rename_i h
    unfold Heap.kids; rw [(eofCell hd he q h).childs]
  · rename_i h
    rw [finalHeap_size] at hq
    obtain ⟨_, i, m, _, _, _, hc⟩ := fixedHeap_new hd q (by omega) hq
    have h1 := hd.curLt
    have h2 := hd.sizePos
    unfold Heap.kids
    rw [finalHeap_cell q (by omega) (fun _ => by omega), hc]; rfl

theorem Reach.finalOrdered {o : ParseOptions} {s : Str} {d : Doc} (hr : Reach o s d) (he : EofOk d) :
    Ordered d.finalHeap := by
  have g := hr.order
  have ho := hr.links.owns
  intro q a b z hq ha hb hab hz
  have hfo := hr.finalLinks.1
  have hk := finalHeap_kids hr he
  rw [hk q hq] at ha hb
  split at ha
  · rename_i hql
    rw [if_pos hql] at hb
    have ha' := (ho.range q a hql ha).2
    refine g.ordered q a b z hql ha hb hab ?_
    clear hab hb
    induction hz with
    | self => exact Below.self
    | step hq' hz ih =>
      have hlt := (ih.lt ho ha').2
      refine Below.step ih ?_
      rw [hk _ (by rw [finalHeap_size]; exact Nat.lt_of_lt_of_le hlt (fixedHeap_size d)), if_pos hlt] at hz
      exact hz
  · cases ha

end Rphtml
