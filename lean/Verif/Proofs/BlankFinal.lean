import Verif.Proofs.BlankStep

/-! # The whitespace-only texts of a finished document -/

namespace Rphtml
open Spec

theorem textNext_iff {h : Heap} {x : NodeId} : TextNext h x ↔ ByText h x := by
  constructor
  · rintro ⟨q, l, y, r, h1, h2, h3⟩; exact ⟨q, l, y, r, h1, kids_of_childs h2, h3⟩
  · rintro ⟨q, l, y, r, h1, h2, h3⟩; exact ⟨q, l, y, r, h1, childs_of_kids h2 (by simp), h3⟩

theorem lastOpen_iff {h : Heap} {x : NodeId} : LastOpen h x ↔ ∃ q, q < h.size ∧ OpenAtEnd h q ∧ (h.kids q).getLast? = some x := by
  constructor
  · rintro ⟨q, l, h1, h2, h3⟩; exact ⟨q, h1, h2, by rw [kids_of_childs h3]; simp⟩
  · rintro ⟨q, h1, h2, h3⟩
    obtain ⟨l, hl⟩ := List.getLast?_eq_some_iff.1 h3
    exact ⟨q, l, h1, h2, childs_of_kids hl (by simp)⟩

/-- A node has one next sibling. -/
theorem next_unique {lt : Bool} {h : Heap} (g : Owns lt h) {x y z q p : NodeId} {l r l' r' : List NodeId} (hq : q < h.size)
    (hp : p < h.size) (h1 : h.kids q = l ++ x :: y :: r) (h2 : h.kids p = l' ++ x :: z :: r') : y = z := by
  have := g.owner q p x hq hp (by rw [h1]; simp) (by rw [h2]; simp)
  subst this
  have i1 := g.index q l.length x hq (by rw [h1]; simp)
  have i2 := g.index q l'.length x hq (by rw [h2]; simp)
  have hlen : l.length = l'.length := by rw [← i1, i2]
  have e1 : (h.kids q)[l.length + 1]? = some y := by rw [h1]; simp
  have e2 : (h.kids q)[l'.length + 1]? = some z := by rw [h2]; simp
  rw [hlen, e2] at e1
  cases e1; rfl

/-- A last child has no next sibling. -/
theorem next_not_last {lt : Bool} {h : Heap} (g : Owns lt h) {x y q p : NodeId} {l r : List NodeId} (hq : q < h.size)
    (hp : p < h.size) (h1 : h.kids q = l ++ x :: y :: r) (h2 : (h.kids p).getLast? = some x) : False := by
  have := g.owner q p x hq hp (by rw [h1]; simp) (List.mem_of_getLast? h2)
  subst this
  have h3 := g.le_last hq h2 (b := y) (by rw [h1]; simp)
  have hs := g.sorted q hq
  rw [h1] at hs
  have := (List.pairwise_cons.1 (List.pairwise_append.1 hs).2.1).1 y (by simp)
  omega

/-- The whitespace-only texts of the finished document. -/
theorem Reach.finalBlank {o : ParseOptions} {s : Str} {d : Doc} (hr : Reach o s d) (he : EofOk d) {lt : Bool}
    (hown : Owns lt d.finalHeap) (x : NodeId) (w : Str) (hx : x < d.finalHeap.size) (ht : (d.finalHeap.cell x).nodeType.isText)
    (hw : (d.finalHeap.cell x).content = some w) (hws : AllWs w) :
    (d.finalHeap.cell x).nodeType = .text ↔ KeptBlank s d.finalHeap x w := by
  have hd := hr.ctl
  have hl := hr.links
  have g := hr.blank
  have hsz : d.heap.size ≤ d.finalHeap.size := by rw [finalHeap_size]; exact fixedHeap_size d
  have hcell := eofCell hd he
  have htx : ∀ i, i < d.heap.size → ((d.finalHeap.cell i).nodeType.isText ↔ (d.heap.cell i).nodeType.isText) := by
    intro i hi
    rcases (hcell i hi).ty with h | h
    · rw [h]
    · rw [h.1, h.2.1]; exact ⟨fun _ => Or.inl rfl, fun _ => Or.inr rfl⟩
  have hkid : ∀ i, i < d.heap.size → d.finalHeap.kids i = d.heap.kids i := by
    intro i hi; unfold Heap.kids; rw [(hcell i hi).childs]
  have hgrow : GrowH d.heap d.finalHeap := by
    refine ⟨hsz, fun i hi => Or.inl (hkid i hi), fun i hi _ => (hcell i hi).childs, fun i hi h => ?_, htx⟩
    rcases (hcell i hi).endTag with h1 | ⟨_, _, _, m, e, _, h1, _⟩
    · rw [h1]; exact h
    · rw [h1]; simp
  have hx' : x < d.heap.size := by
    rcases Nat.lt_or_ge x d.heap.size with h | h
    · exact h
    · exfalso
      rw [finalHeap_size] at hx
      obtain ⟨_, i, m, _, _, _, h1⟩ := fixedHeap_new hd x h hx
      have hne : ¬ x = 0 := by have := hd.sizePos; omega
      have hnc : ¬ x = d.current := by have := hd.curLt; omega
      have : (d.finalHeap.cell x).nodeType = .tagEnd := by
        unfold Doc.finalHeap
        rw [Heap.upd_cell, if_neg hne]
        split
        · rw [Heap.upd_cell, if_neg hnc, h1]; rfl
        · rw [h1]; rfl
      rw [this] at ht
      rcases ht with h | h <;> cases h
  have hclosed : ∀ p, p < d.heap.size → (d.heap.cell p).endTag ≠ none → ¬ OpenAtEnd d.finalHeap p := by
    intro p hp h1 h2
    rcases h2 with h2 | h2
    · subst h2
      cases he : (d.heap.cell 0).endTag with
      | none => exact h1 he
      | some e =>
        have := (hl.ends.down 0 e hd.sizePos he).2.2.2.2.2
        rw [(hd.rootTy 0 hd.sizePos).2 rfl] at this; cases this
    · have := (hr.repaired p (by omega)).1 h2
      exact h1 (hl.chainOpen p this.1)
  have hopen : ∀ p, d.chain.head? = some p → d.handle ≠ .tagName → OpenAtEnd d.finalHeap p := by
    intro p hp hn
    by_cases h0 : p = 0
    · exact Or.inl h0
    · right
      have hpl := hd.chain_head hp
      have hmem := List.mem_of_mem_head? hp
      refine (hr.repaired p (by omega)).2 ⟨hmem, h0, hpl, ?_⟩
      rcases hd.metaDone p hpl (hd.chainTag p hmem h0) with h | h
      · exact h
      · exact absurd h.1 hn
  have hlone : ∀ t, Lone d.heap x t → (TextNext d.finalHeap t ∨ LastOpen d.finalHeap t) → KeptBlank s d.finalHeap x w := by
    intro t h1 h2
    have h3 := hgrow.lone h1
    exact Or.inr (Or.inr (Or.inr ⟨t, h3.1, h3.2.1, h3.2.2, fun h => hclosed t h1.1 h1.2.2 (Or.inr h), h2⟩))
  by_cases hcur : d.handle = .text ∧ x = d.current
  · -- the text read last
    obtain ⟨hh, hxc⟩ := hcur
    have hs := hd.hs
    unfold HandleOk at hs
    simp only [hh] at hs
    have hcon := (hcell x hx').content
    rw [if_pos ⟨hs.1, hxc⟩, hw] at hcon
    cases hcon
    have hend : (d.finalHeap.cell x).endAt = s.length := by
      rw [(hcell x hx').endAt, if_pos (Or.inr ⟨hs.1, hxc⟩)]; exact hr.position
    have hbeg : (d.finalHeap.cell x).beginAt = d.cur.beginAt := by rw [(hcell x hx').beginAt, hxc]; rfl
    have hne : ¬ x = 0 := by rw [hxc]; exact hd.text_ne_zero hs.2.2.1
    have hty : (d.finalHeap.cell x).nodeType = if d.repeatWhitespace then .spacesBetweenTag else .text := by
      have hf : (d.fixedHeap.cell d.current).nodeType = .text := by
        rcases fixedHeap_cell hd d.current hd.curLt with h | ⟨_, _, _, m, e, _, _, _, h, _⟩
        · rw [h]; exact hs.2.2.1
        · rw [h]; exact hs.2.2.1
      unfold Doc.finalHeap
      rw [Heap.upd_cell, if_neg hne, if_pos hs.1, Heap.upd_cell, if_pos hxc, hxc]
      simp only [Doc.lastText, hf]
    obtain ⟨r1, r2⟩ := g.reading hh
    cases hrep : d.repeatWhitespace with
    | false =>
      rw [hty, hrep]
      refine ⟨fun _ => Or.inl ?_, fun _ => rfl⟩
      rw [hend, hbeg]; exact r2 hrep hws
    | true =>
      rw [hty, hrep]
      refine ⟨fun h => (by cases h), ?_⟩
      obtain ⟨⟨p, hp, hlast⟩, hlen⟩ := r1 hrep
      have hpl := hd.chain_head hp
      have hlast' : (d.finalHeap.kids p).getLast? = some x := by rw [hkid p hpl, hxc]; exact hlast
      rintro (h | h | ⟨_, h⟩ | ⟨t, h1, h2, h3, h4, _⟩)
      · rw [hend, hbeg] at h; exact absurd hlen h
      · obtain ⟨q, l, y, r, k1, k2, _⟩ := textNext_iff.1 h
        exact (next_not_last hown k1 (by omega) k2 hlast').elim
      · rw [hend] at h; exact absurd h (Nat.lt_irrefl _)
      · exfalso
        have := hown.owner p t x (by omega) h1 (List.mem_of_getLast? hlast') (by rw [kids_of_childs h2]; simp)
        subst this
        rcases hopen p hp (by rw [hh]; simp) with h5 | h5
        · subst h5
          rcases (hcell 0 hd.sizePos).endTag with h6 | h6
          · rw [h6] at h3
            exact hclosed 0 hd.sizePos h3 (Or.inl rfl)
          · exact h6.2.1 rfl
        · exact h4 h5
  · have hnt : ¬ (d.codeIn = .textNode ∧ x = d.current) := by
      intro h
      exact hcur ⟨hd.codeIn_text h.1, h.2⟩
    have hty : (d.finalHeap.cell x).nodeType = (d.heap.cell x).nodeType := by
      rcases (hcell x hx').ty with h | h
      · exact h
      · exact absurd ⟨h.2.2.2.1, h.2.2.1⟩ hnt
    have hne : ¬ x = 0 := by
      intro h
      have h1 := (htx x hx').1 ht
      rw [h, (hd.rootTy 0 hd.sizePos).2 rfl] at h1
      rcases h1 with h1 | h1 <;> cases h1
    have hend : (d.finalHeap.cell x).endAt = (d.heap.cell x).endAt := by
      rw [(hcell x hx').endAt, if_neg]
      rintro (h | h)
      · exact hne h
      · exact hnt h
    have hbeg := (hcell x hx').beginAt
    have hcon := (hcell x hx').content
    rw [if_neg hnt, hw] at hcon
    rw [hty] at ht
    by_cases hch : d.checkTextnode = some x
    · rw [hty, (hd.check x hch).2]
      refine ⟨fun _ => ?_, fun _ => rfl⟩
      have hstate : ¬ (d.handle = .unkownTag ∨ d.handle = .exclamationBegin ∨ d.handle = .tagEnd) := by
        have hs := hd.hs
        unfold HandleOk at hs
        have hco := he.code
        rintro (h | h | h) <;> simp only [h] at hs <;> rw [hs.1] at hco <;>
          rcases hco with h | h | h | ⟨h, _⟩ <;> cases h
      rcases g.pend x hch with h | ⟨_, ⟨p, a, b, e⟩ | ⟨t, q, a, b, e, e'⟩ | ⟨t, q, l, a, b, e, _, e'⟩ | ⟨p, l, a, b, _, e⟩⟩
      · exact absurd ⟨h.1, h.2.1⟩ hcur
      · have hh : d.handle = .wait := by
          rcases e with h | h
          · exact h
          · exact absurd h hstate
        refine Or.inr (Or.inr (Or.inl ⟨lastOpen_iff.2 ⟨p, ?_, hopen p a (by rw [hh]; simp), ?_⟩, ?_⟩))
        · have := hd.chain_head a; omega
        · rw [hkid p (hd.chain_head a)]; exact b
        · rw [hend]
          rcases hr.spans.done x hx' with h | h
          · rw [hh] at h; cases h.2
          · unfold Good at h
            rw [(hd.check x hch).2] at h
            simp only at h
            obtain ⟨_, _, _, _, _, _, _, pre, post, k1, k2⟩ := h
            rw [← k2, k1]; simp
      · have hh : d.handle = .wait := by
          rcases e' with h | h
          · exact h
          · exact absurd h hstate
        refine hlone t a (Or.inr (lastOpen_iff.2 ⟨q, ?_, hopen q b (by rw [hh]; simp), ?_⟩))
        · have := hd.chain_head b; omega
        · rw [hkid q (hd.chain_head b)]; exact e
      · have hs := hd.hs
        unfold HandleOk at hs
        simp only [e'] at hs
        refine hlone t a (Or.inl (textNext_iff.2 ⟨q, l, d.current, [], ?_, ?_, ?_⟩))
        · have := hd.chain_head b; omega
        · rw [hkid q (hd.chain_head b)]; exact e
        · exact (htx d.current hd.curLt).2 (Or.inl hs.2.2.1)
      · have hs := hd.hs
        unfold HandleOk at hs
        simp only [e] at hs
        refine Or.inr (Or.inl (textNext_iff.2 ⟨p, l, d.current, [], ?_, ?_, ?_⟩))
        · have := hd.chain_head a; omega
        · rw [hkid p (hd.chain_head a)]; exact b
        · exact (htx d.current hd.curLt).2 (Or.inl hs.2.2.1)
    · rw [hty]
      rcases g.done x w hx' ht hcur hcon.symm hws hch with ⟨h1, h2⟩ | ⟨h1, h2, h3⟩
      · rw [h1]
        refine ⟨fun _ => ?_, fun _ => rfl⟩
        rcases h2 with h2 | h2 | ⟨t, h2, h3⟩
        · left; rw [hend, hbeg]; exact h2
        · exact Or.inr (Or.inl (textNext_iff.2 (hgrow.byText hl.owns h2)))
        · exact hlone t h2 (Or.inl (textNext_iff.2 (hgrow.byText hl.owns h3)))
      · rw [h1]
        refine ⟨fun h => (by cases h), fun hk => ?_⟩
        exfalso
        rw [KeptBlank, textNext_iff, lastOpen_iff] at hk
        rcases hk with hk | hk
        · rw [hend, hbeg] at hk; exact hk h2
        have hkt : ∀ t, t < d.finalHeap.size → (d.finalHeap.cell t).childs = some [x] → ∀ q, q < d.finalHeap.size →
            x ∈ d.finalHeap.kids q → q = t := by
          intro t h4 h5 q h6 h7
          exact hown.owner q t x h6 h4 h7 (by rw [kids_of_childs h5]; simp)
        rcases h3 with h3 | ⟨p, l, k1, k2, k3, k4⟩ | ⟨t, k1, k2⟩ | ⟨t, q, k1, k2, k3, k4⟩
        · obtain ⟨p, l, y, r, a1, a2, a3⟩ := hgrow.byOther hl.owns h3
          rcases hk with ⟨q, l', y', r', b1, b2, b3⟩ | ⟨⟨q, b1, _, b3⟩, _⟩ | ⟨t, b1, b2, _⟩
          · have := next_unique hown a1 b1 a2 b2
            subst this; exact a3 b3
          · exact next_not_last hown a1 b1 a2 b3
          · have := hkt t b1 b2 p a1 (by rw [a2]; simp)
            subst this
            rw [kids_of_childs b2] at a2
            have := congrArg List.length a2
            simp only [List.length_append, List.length_cons, List.length_nil] at this
            omega
        · have hp' : p < d.finalHeap.size := by omega
          have hkp : d.finalHeap.kids p = l ++ [x] := by rw [hkid p k1]; exact k2
          have hlast : (d.finalHeap.kids p).getLast? = some x := by rw [hkp]; simp
          rcases hk with ⟨q, l', y', r', b1, b2, b3⟩ | ⟨⟨q, b1, b2, b3⟩, _⟩ | ⟨t, b1, b2, _⟩
          · exact next_not_last hown b1 hp' b2 hlast
          · have := hown.owner p q x hp' b1 (List.mem_of_getLast? hlast) (List.mem_of_getLast? b3)
            subst this
            exact hclosed p k1 k4 b2
          · have := hkt t b1 b2 p hp' (by rw [hkp]; simp)
            subst this
            rw [kids_of_childs b2] at hkp
            have := congrArg List.length hkp
            cases l with
            | nil => exact k3 rfl
            | cons a as => simp at this
        all_goals
          have k1' := hgrow.lone k1
          have hxt : x ∈ d.finalHeap.kids t := by rw [kids_of_childs k1'.2.1]; simp
          rcases hk with ⟨q', l', y', r', b1, b2, b3⟩ | ⟨⟨q', b1, b2, b3⟩, _⟩ | ⟨t', b1, b2, _, _, b3⟩
        · have := hkt t k1'.1 k1'.2.1 q' b1 (by rw [b2]; simp)
          subst this
          rw [kids_of_childs k1'.2.1] at b2
          have := congrArg List.length b2
          simp only [List.length_append, List.length_cons, List.length_nil] at this
          omega
        · have := hkt t k1'.1 k1'.2.1 q' b1 (List.mem_of_getLast? b3)
          subst this
          exact hclosed q' k1.1 k1.2.2 b2
        · have := hkt t' b1 b2 t k1'.1 hxt
          subst this
          obtain ⟨p, l, y, r, a1, a2, a3⟩ := hgrow.byOther hl.owns k2
          rcases b3 with b3 | b3
          · obtain ⟨q, l', y', r', c1, c2, c3⟩ := textNext_iff.1 b3
            have := next_unique hown a1 c1 a2 c2
            subst this; exact a3 c3
          · obtain ⟨q, c1, _, c3⟩ := lastOpen_iff.1 b3
            exact next_not_last hown a1 c1 a2 c3
        · have := hkt t k1'.1 k1'.2.1 q' b1 (by rw [b2]; simp)
          subst this
          rw [kids_of_childs k1'.2.1] at b2
          have := congrArg List.length b2
          simp only [List.length_append, List.length_cons, List.length_nil] at this
          omega
        · have := hkt t k1'.1 k1'.2.1 q' b1 (List.mem_of_getLast? b3)
          subst this
          exact hclosed q' k1.1 k1.2.2 b2
        · have := hkt t' b1 b2 t k1'.1 hxt
          subst this
          have hlast : (d.finalHeap.kids q).getLast? = some t := by rw [hkid q k2]; exact k3
          rcases b3 with b3 | b3
          · obtain ⟨q', l', y', r', c1, c2, c3⟩ := textNext_iff.1 b3
            exact next_not_last hown c1 (by omega) c2 hlast
          · obtain ⟨q', c1, c2, c3⟩ := lastOpen_iff.1 b3
            have := hown.owner q q' t (by omega) c1 (List.mem_of_getLast? hlast) (List.mem_of_getLast? c3)
            subst this
            exact hclosed q k2 k4 c2

theorem Nested.at {h : Heap} : ∀ {a : List NodeId} {t q : NodeId} {b : List NodeId}, Nested h (a ++ t :: q :: b) →
    (h.kids q).getLast? = some t
  | [], _, _, _, g => g.1
  | [_], _, _, _, g => Nested.at (a := []) g.2
  | _ :: x :: as, _, _, _, g => Nested.at (a := x :: as) g.2

/-- A repaired element is the last node of the root or of another repaired element, and has an end tag. -/
theorem Reach.repairedLast {o : ParseOptions} {s : Str} {d : Doc} (hr : Reach o s d) (he : EofOk d) (t : NodeId)
    (ht : t < d.finalHeap.size) (h : AddedEnd d.finalHeap t) :
    o.autoFixUnclosedTag = true ∧ LastOpen d.finalHeap t ∧ (d.finalHeap.cell t).endTag ≠ none := by
  have hd := hr.ctl
  obtain ⟨h1, h2, h3, h4⟩ := (hr.repaired t ht).1 h
  have hsz : d.heap.size ≤ d.finalHeap.size := by rw [finalHeap_size]; exact fixedHeap_size d
  obtain ⟨a, b, hab⟩ := List.append_of_mem h1
  have hlast := hd.chainLast (by rw [hab]; simp)
  cases b with
  | nil =>
    rw [hab] at hlast
    simp only [List.getLast?_append, List.getLast?_singleton, Option.some_or, Option.some.injEq] at hlast
    exact absurd hlast h2
  | cons q b =>
    have hk : (d.heap.kids q).getLast? = some t := by
      have := hr.blank.nested
      rw [hab] at this
      exact this.at
    have hqm : q ∈ d.chain := by rw [hab]; simp
    have hq := hd.chainLt q hqm
    have hcell := eofCell hd he
    refine ⟨?_, lastOpen_iff.2 ⟨q, by omega, ?_, ?_⟩, ?_⟩
    · rcases he.closed with h5 | h5
      · rw [hab] at h5; simp at h5; omega
      · rw [hr.opts] at h5; exact h5
    · by_cases h0 : q = 0
      · exact Or.inl h0
      · right
        refine (hr.repaired q (by omega)).2 ⟨hqm, h0, hq, ?_⟩
        rcases hd.metaDone q hq (hd.chainTag q hqm h0) with h5 | ⟨h5, h6⟩
        · exact h5
        · exfalso
          have hs := hd.hs
          unfold HandleOk at hs
          simp only [h5] at hs
          have hh := hs.2.2.2.2.1
          have hso := hd.chainSorted
          rw [hab] at hh hso
          cases a with
          | nil =>
            simp only [List.nil_append, List.head?_cons, Option.some.injEq] at hh
            have := (List.pairwise_cons.1 hso).1 q (by simp)
            omega
          | cons z as =>
            simp only [List.cons_append, List.head?_cons, Option.some.injEq] at hh
            have := (List.pairwise_cons.1 hso).1 q (by simp)
            omega
    · have : d.finalHeap.kids q = d.heap.kids q := by unfold Heap.kids; rw [(hcell q hq).childs]
      rw [this]; exact hk
    · rcases fixedHeap_cell hd t h3 with h5 | ⟨_, _, _, m, e, _, _, _, h5, _⟩
      · exfalso
        obtain ⟨m, k1, k2⟩ := h
        have hfin : (d.finalHeap.cell t).tmeta = (d.fixedHeap.cell t).tmeta := by
          unfold Doc.finalHeap
          rw [Heap.upd_cell, if_neg h2]
          split
          · rw [Heap.upd_cell]; split <;> rfl
          · rfl
        rw [hfin, h5] at k1
        rw [hr.noFix t h3 m k1] at k2; cases k2
      · have hfin : (d.finalHeap.cell t).endTag = (d.fixedHeap.cell t).endTag := by
          unfold Doc.finalHeap
          rw [Heap.upd_cell, if_neg h2]
          split
          · rw [Heap.upd_cell]; split <;> rfl
          · rfl
        rw [hfin, h5]; simp

end Rphtml
