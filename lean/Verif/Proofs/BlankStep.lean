import Verif.Proofs.BlankInv

/-! # Every transition keeps the invariant of whitespace-only texts -/

namespace Rphtml
open Spec

theorem curOf_same {d d' : Doc} (hd : Ctl d) (hcu : d'.current = d.current) (hh : d.handle ≠ .text) (h1 : d.handle ≠ .tagEnd)
    (h2 : d'.handle ≠ .tagEnd) (k : NodeId) (h : CurOf d' k) :
    k < d.heap.size ∧ (CurOf d k ∨ ((d.heap.cell k).nodeType ≠ .text ∧ (d.heap.cell k).nodeType ≠ .tag)) := by
  rcases h with ⟨_, _, h⟩ | ⟨h, _⟩
  · rw [hcu] at h; subst h
    exact ⟨hd.curLt, Or.inl (Or.inl ⟨hh, h1, rfl⟩)⟩
  · exact absurd h h2

/-- A transition that rewrites the metadata of a tag. -/
theorem BlankInv.put {s : Str} {d d' : Doc} {c : Char} (hd : Ctl d) (hl : Links d) (g : BlankInv s d) (he : Eff d d')
    (hb : ¬ d.handle.amid) (hh : d.handle ≠ .text) (hh' : d'.handle ≠ .text) (h2 : d'.handle ≠ .tagEnd)
    (hcu : d'.current = d.current) (m : Option TagMeta)
    (hheap : d'.heap = d.heap.upd d.current fun c => { c with tmeta := m }) (hc : d'.checkTextnode = d.checkTextnode) :
    BlankInv (s ++ [c]) d' := by
  have hcell : ∀ i, d'.heap.cell i = if i = d.current then { d.heap.cell i with tmeta := m } else d.heap.cell i :=
    fun i => by rw [hheap]; rfl
  refine g.data hd hl he hh hh' ?_ (by rw [hheap]; rfl) ?_ ?_
    (curOf_same hd hcu hh (fun h => hb (Or.inr (Or.inr (Or.inr h)))) h2) hc (fun h => absurd h hb)
  · intro _; rw [hcell, if_pos rfl]; exact ⟨rfl, rfl⟩
  · intro i _; unfold Heap.kids; rw [hcell]; split <;> rfl
  · intro i _; rw [hcell]; split <;> rfl

/-- A transition that leaves the nodes alone. -/
theorem BlankInv.calm {s : Str} {d d' : Doc} {c : Char} (hd : Ctl d) (hl : Links d) (g : BlankInv s d) (he : Eff d d')
    (hh : d.handle ≠ .text) (hh' : d'.handle ≠ .text) (h1 : d.handle = .tagEnd ↔ d'.handle = .tagEnd)
    (hcu : d'.current = d.current) (hheap : d'.heap = d.heap) (hc : d'.checkTextnode = d.checkTextnode)
    (h2 : d.handle.amid → d'.chain = d.chain ∧ d'.handle.amid) : BlankInv (s ++ [c]) d' := by
  refine g.data hd hl he hh hh' (fun _ => by rw [hheap]; exact ⟨rfl, rfl⟩) (by rw [hheap]) (fun _ _ => by rw [hheap])
    (fun _ _ => by rw [hheap]) ?_ hc h2
  rintro k (⟨_, h3, h⟩ | ⟨h, h3⟩)
  · rw [hcu] at h; subst h
    exact ⟨hd.curLt, Or.inl (Or.inl ⟨hh, fun h => h3 (h1.1 h), rfl⟩)⟩
  · have h4 : d.cur.prev = some k := by unfold Doc.cur at h3 ⊢; rw [← hcu, ← hheap]; exact h3
    have hs := hd.hs
    unfold HandleOk at hs
    simp only [h1.2 h] at hs
    exact ⟨(hs.2.2.2.2 k h4).1, Or.inl (Or.inr ⟨h1.2 h, h4⟩)⟩

theorem inTag_amid {h : Handler} (hh : h.inTag = true) : ¬ h.amid := inTag_idle hh

theorem inTag_ne_end {h : Handler} (hh : h.inTag = true) : h ≠ .tagEnd := by rintro rfl; cases hh

theorem closeTag_ne_end (d : Doc) (m : TagMeta) : (d.closeTag m).handle ≠ .tagEnd := by
  rw [closeTag_handle]; split <;> simp

/-- A text is resumed behind a `<` or a dropped end tag. -/
theorem BlankInv.resume {s s' : Str} {d d' : Doc} (hd : Ctl d) (hl : Links d) (g : BlankInv s d) (he : Eff d d')
    (hh : d.handle = .wait ∨ d.handle = .unkownTag) (ht : d.cur.nodeType = .text) (hh' : d'.handle = .text)
    (hcu : d'.current = d.current) (hc : d'.checkTextnode = d.checkTextnode) (hrep : d'.repeatWhitespace = false)
    (hsz : d'.heap.size = d.heap.size)
    (hread : AllWs d'.prevChars → s'.length ≠ d.cur.beginAt + d'.prevChars.length) : BlankInv s' d' := by
  have hg := he.growH hd hl g.free
  have hne : d.handle ≠ .text ∧ d.handle ≠ .tagEnd := by rcases hh with h | h <;> rw [h] <;> simp
  have hfr := g.fresh d.current (Or.inl ⟨hne.1, hne.2, rfl⟩)
  refine ⟨he.nestedAll hd hl g.free g.nested, ?_, ?_, ?_, ?_⟩
  · rintro k (⟨h, _⟩ | ⟨h, _⟩)
    · exact absurd hh' h
    · rw [hh'] at h; cases h
  · intro _
    refine ⟨(fun h => by rw [hrep] at h; cases h), fun _ hw => ?_⟩
    have := hread hw
    unfold Doc.cur at this ⊢
    rw [hcu, (he.keep hd d.current hd.curLt).beginAt]; exact this
  · intro x hx
    rw [hc] at hx
    refine Or.inl ⟨hh', ?_, hrep⟩
    rcases hfr.1 ht with h | h
    · rw [h] at hx; cases hx
    · rw [h] at hx; cases hx; exact hcu.symm
  · intro x w hx hty hn hw hws hnc
    rw [hsz] at hx
    have hxc : x ≠ d.current := fun h => hn ⟨hh', by rw [hcu]; exact h⟩
    rw [hc] at hnc
    have hk := he.keep hd x hx
    have hty' : (d'.heap.cell x).nodeType = (d.heap.cell x).nodeType := by
      rcases hk.ty with h | h
      · exact h
      · exact absurd h.2.2 hnc
    rw [hty'] at hty
    rw [(hk.other hxc).1] at hw
    exact (g.done x w hx hty (fun h => hne.1 h.1) hw hws hnc).keep hd hl he hg hx hnc fun h => absurd h hxc

/-- A text begins. -/
theorem BlankInv.begin {s s' : Str} {d d' : Doc} (hd : Ctl d) (hl : Links d) (g : BlankInv s d) (he : Eff d d')
    (hh : d.handle = .wait ∨ d.handle = .unkownTag) (hh' : d'.handle = .text)
    (hcu : d'.current = d.heap.size) (hc : d'.checkTextnode = d.checkTextnode) (hch : d'.chain = d.chain)
    (hadd : ∀ p, d.chain.head? = some p → d.checkTextnode = none ∨ d'.heap.kids p = d.heap.kids p ++ [d.heap.size])
    (hread : (d'.repeatWhitespace = true → (∃ p, d'.chain.head? = some p ∧ (d'.heap.kids p).getLast? = some d'.current) ∧
      s'.length = d'.cur.beginAt + d'.prevChars.length) ∧
    (d'.repeatWhitespace = false → AllWs d'.prevChars → s'.length ≠ d'.cur.beginAt + d'.prevChars.length))
    (hcont : (d'.heap.cell d.current).content = d.cur.content ∧ (d'.heap.cell d.current).endAt = d.cur.endAt) : BlankInv s' d' := by
  have hg := he.growH hd hl g.free
  have hne : d.handle ≠ .text ∧ d.handle ≠ .tagEnd := by rcases hh with h | h <;> rw [h] <;> simp
  have hother : ∀ x, x < d.heap.size → (d'.heap.cell x).content = (d.heap.cell x).content ∧
      (d'.heap.cell x).endAt = (d.heap.cell x).endAt := by
    intro x hx
    by_cases h : x = d.current
    · rw [h]; exact hcont
    · have := (he.keep hd x hx).other h
      exact ⟨this.1, this.2.2.1⟩
  refine ⟨he.nestedAll hd hl g.free g.nested, ?_, fun _ => hread, ?_, ?_⟩
  · rintro k (⟨h, _⟩ | ⟨h, _⟩)
    · exact absurd hh' h
    · rw [hh'] at h; cases h
  · intro x hx
    rw [hc] at hx
    have hxl := (hd.check x hx).1
    have hxc : x ≠ d'.current := by rw [hcu]; omega
    obtain ⟨_, ⟨w, h1, h2⟩, h3⟩ := (g.pend x hx).between hne.1
    refine Or.inr ⟨⟨w, by rw [(hother x hxl).1]; exact h1, ?_⟩, ?_⟩
    · unfold Whole; rw [(hother x hxl).2, (he.keep hd x hxl).beginAt]; exact h2
    · have hk : ∀ p, d.chain.head? = some p → d'.heap.kids p = d.heap.kids p ++ [d.heap.size] := by
        intro p hp
        rcases hadd p hp with h | h
        · rw [hx] at h; cases h
        · exact h
      rcases h3 with ⟨p, a, b⟩ | ⟨t, q, a, b, e⟩
      · obtain ⟨l, hl'⟩ := List.getLast?_eq_some_iff.1 b
        exact Or.inr (Or.inr (Or.inr ⟨p, l, by rw [hch]; exact a, by rw [hk p a, hl', hcu]; simp, hxc, hh'⟩))
      · obtain ⟨l, hl'⟩ := List.getLast?_eq_some_iff.1 e
        exact Or.inr (Or.inr (Or.inl ⟨t, q, l, hg.lone a, by rw [hch]; exact b, by rw [hk q b, hl', hcu]; simp, hxc, hh'⟩))
  · intro x w hx hty hn hw hws hnc
    have hsz := he.size_le
    have hxc : x ≠ d.heap.size := fun h => hn ⟨hh', by rw [hcu]; exact h⟩
    have hx' : x < d.heap.size := by omega
    rw [hc] at hnc
    have hk := he.keep hd x hx'
    have hty' : (d'.heap.cell x).nodeType = (d.heap.cell x).nodeType := by
      rcases hk.ty with h | h
      · exact h
      · exact absurd h.2.2 hnc
    rw [hty'] at hty
    rw [(hother x hx').1] at hw
    exact (g.done x w hx' hty (fun h => hne.1 h.1) hw hws hnc).keep hd hl he hg hx' hnc fun _ => hcont.2

theorem BlankInv.step {o : ParseOptions} {s : Str} {d d' : Doc} {c : Char} (hr : Reach o s d) (g : BlankInv s d)
    (h : Step d c d') : BlankInv (s ++ [c]) d' := by
  have hd := hr.ctl
  have hl := hr.links
  have he := h.eff hd
  have hs := hd.hs
  have hpos : d.position = s.length := hr.position
  have hfresh := g.fresh
  have hlt : ∀ p, d.chain.head? = some p → p < d.heap.size := fun p hp => hd.chain_head hp
  cases h with
  | lt hh hc =>
    exact g.calm hd hl he (by simp [hh]) (by simp) (by simp [hh]) rfl rfl rfl fun _ => ⟨rfl, Or.inr (Or.inl rfl)⟩
  | textResume hh hc hf ht w hw =>
    refine g.resume hd hl he (Or.inl hh) ht rfl rfl rfl rfl rfl ?_
    show AllWs (w ++ [c]) → (s ++ [c]).length ≠ d.cur.beginAt + (w ++ [c]).length
    intro hws
    have hgood := hr.spans.cur hd (by rw [hh]; rfl)
    unfold Good at hgood
    simp only [ht] at hgood
    obtain ⟨w', x, k1, _, k3, k4, _, pre, post, k5, k6⟩ := hgood
    rw [hw] at k1; cases k1
    have hlen := mended_blank k4 fun a ha => hws a (List.mem_append_left _ ha)
    have : s.length = pre.length + 1 + post.length := by rw [k5]; simp; omega
    simp only [List.length_append, List.length_cons, List.length_nil]
    omega
  | textStart hh hc hf p hp =>
    have hpl := hlt p hp
    have hk : (d.addChild p (Cell.new .text d.position)).heap.kids p = d.heap.kids p ++ [d.heap.size] := by
      unfold Heap.kids
      rw [addChild_cell d p _ hpl]
      have h1 : ¬ p = d.heap.size := by omega
      simp only [h1, if_false, if_true]; rfl
    have hnew : ((d.addChild p (Cell.new .text d.position)).heap.cell d.heap.size).beginAt = d.position := by
      rw [addChild_cell d p _ hpl]
      simp only [if_true]; rfl
    refine g.begin hd hl he (Or.inl hh) rfl rfl rfl rfl ?_ ⟨?_, ?_⟩ ?_
    · intro q hq
      rw [hp] at hq; cases hq
      exact Or.inr hk
    · intro _
      refine ⟨⟨p, hp, ?_⟩, ?_⟩
      · show ((d.addChild p (Cell.new .text d.position)).heap.kids p).getLast? = some d.heap.size
        rw [hk]; simp
      · show _ = ((d.addChild p (Cell.new .text d.position)).heap.cell d.heap.size).beginAt + [c].length
        rw [hnew, hpos]; simp
    · intro h h'
      have h : isWs c = false := h
      rw [h' c (by simp)] at h; cases h
    · obtain ⟨_, h2, _⟩ := addChild_ty d p (Cell.new .text d.position) hpl d.current hd.curLt
      refine ⟨h2, ?_⟩
      show ((d.addChild p (Cell.new .text d.position)).heap.cell d.current).endAt = _
      rw [addChild_cell d p _ hpl]
      have h1 : ¬ d.current = d.heap.size := by have := hd.curLt; omega
      simp only [h1, if_false]
      unfold Doc.cur
      split
      · rename_i h; rw [h]
      · rfl
  | textMore hh hc =>
    refine ⟨g.nested, ?_, fun _ => ⟨?_, ?_⟩, ?_, g.done⟩
    · rintro k (⟨h, _⟩ | ⟨h, _⟩)
      · exact absurd hh h
      · have h : d.handle = .tagEnd := h
        rw [hh] at h; cases h
    · intro h
      have h : (d.repeatWhitespace && isWs c) = true := h
      rw [Bool.and_eq_true] at h
      obtain ⟨h1, h2⟩ := (g.reading hh).1 h.1
      refine ⟨h1, ?_⟩
      show (s ++ [c]).length = d.cur.beginAt + (d.prevChars ++ [c]).length
      simp only [List.length_append, List.length_cons, List.length_nil]; omega
    · intro h h'
      have h : (d.repeatWhitespace && isWs c) = false := h
      have h'' : AllWs (d.prevChars ++ [c]) := h'
      rw [h'' c (by simp), Bool.and_true] at h
      have := (g.reading hh).2 h fun x hx => h'' x (List.mem_append_left _ hx)
      show (s ++ [c]).length ≠ d.cur.beginAt + (d.prevChars ++ [c]).length
      simp only [List.length_append, List.length_cons, List.length_nil]; omega
    · intro x hx
      rcases g.pend x hx with ⟨h1, h2, h3⟩ | h
      · refine Or.inl ⟨h1, h2, ?_⟩
        show (d.repeatWhitespace && isWs c) = false
        rw [h3]; rfl
      · exact Or.inr h
  | textEnd hh hc =>
    unfold HandleOk at hs
    simp only [hh] at hs
    exact g.endText c hh hs.2.2.1 (fun x hx => (hd.check x hx).2) hpos hlt
  | tagOpen hh hc p hp =>
    exact g.open hd hl he (by simp [hh]) (by simp) (by simp) hp (n := Cell.new .tag d.memPosition) (by rintro (h | h) <;> cases h) rfl rfl rfl
  | endOpen hh hc =>
    have hcell : ∀ i, i < d.heap.size → ((d.heap.push { Cell.new .tagEnd d.memPosition with prev := if d.opts.autoFixUnclosedTag then some d.current else none }).cell i) = d.heap.cell i := by
      intro i hi; rw [Heap.push_cell, if_neg (by omega)]
    have hkid : ∀ i, i < d.heap.size → ((d.heap.push { Cell.new .tagEnd d.memPosition with prev := if d.opts.autoFixUnclosedTag then some d.current else none }).kids i) = d.heap.kids i := by
      intro i hi; unfold Heap.kids; rw [hcell i hi]
    have hcc := hcell _ hd.curLt
    refine g.keep hd hl he (by simp [hh]) (by simp) ?_ ?_ ?_ (Or.inl rfl) ?_
    · intro _
      show (Heap.cell (d.heap.push _) d.current).content = _ ∧ (Heap.cell (d.heap.push _) d.current).endAt = _
      rw [hcc]; exact ⟨rfl, rfl⟩
    · intro _
      show ¬ ((d.heap.push _).cell d.heap.size).nodeType.isText
      rw [Heap.push_cell, if_pos rfl]
      rintro (h | h) <;> cases h
    · rintro k (⟨_, h, _⟩ | ⟨_, h⟩)
      · exact absurd rfl h
      · have h : ((d.heap.push _).cell d.heap.size).prev = some k := h
        rw [Heap.push_cell, if_pos rfl] at h
        have h : (if d.opts.autoFixUnclosedTag then some d.current else none) = some k := h
        split at h
        · cases h
          have := hfresh d.current (Or.inl ⟨by rw [hh]; simp, by rw [hh]; simp, rfl⟩)
          unfold FreshAt at this ⊢
          show (((d.heap.push _).cell d.current).nodeType = _ → _) ∧ (((d.heap.push _).cell d.current).nodeType = _ → _ ∧ (d.heap.push _).kids d.current = _)
          rw [hcc, hkid _ hd.curLt]; exact this
        · cases h
    · intro x hx
      have hxl := (hd.check x hx).1
      refine Or.inl ⟨hx, (g.pend x hx).same hd he (he.growH hd hl g.free) (fun i hi => hkid i hi) rfl hxl (by simp [hh])
        (Or.inr (Or.inr (Or.inr rfl))) fun _ => ?_⟩
      show (Heap.cell (d.heap.push _) d.current).content = _ ∧ (Heap.cell (d.heap.push _) d.current).endAt = _
      rw [hcc]; exact ⟨rfl, rfl⟩
  | bang hh hc =>
    exact g.calm hd hl he (by simp [hh]) (by simp) (by simp [hh]) rfl rfl rfl fun _ => ⟨rfl, Or.inr (Or.inr (Or.inl rfl))⟩
  | ltExtend hh hf hc ht w hw d1 h1 =>
    have he1 : Eff d d1 := by
      subst h1
      exact Eff.data (some []) d.cur.tmeta d.cur.endAt (Or.inl rfl) (updCur_eq d (fun n => { n with content := some [] }) rfl)
        (fun _ _ _ => rfl) (Or.inl rfl) (by rw [ht]; simp) (Or.inl ⟨rfl, by simp [hh]⟩)
    have hheap1 : d1.heap = d.heap.upd d.current fun n => { n with content := some [] } := by subst h1; rfl
    have hcur1 : d1.current = d.current := by subst h1; rfl
    have hamp : ¬ AllWs d1.prevChars := by
      intro h
      have := h '&' (by subst h1; simp only; split <;> simp)
      cases this
    have key : ∀ s', BlankInv s' d1 := fun s' => by
      subst h1
      exact g.resume hd hl he1 (Or.inr hh) ht rfl rfl rfl rfl rfl fun h => absurd h hamp
    split
    · refine (key s).endText c (by subst h1; rfl) ?_ ?_ (by subst h1; exact hpos) ?_
      · unfold Doc.cur
        rw [hheap1, hcur1, Heap.upd_cell_self]; exact ht
      · intro x hx
        have hx' : d.checkTextnode = some x := by subst h1; exact hx
        have : (d1.heap.cell x).nodeType = (d.heap.cell x).nodeType := by
          rw [hheap1, Heap.upd_cell]; split <;> rfl
        rw [this]; exact (hd.check x hx').2
      · subst h1; exact hlt
    · exact key _
  | ltNew hh hf hc ht p hp d1 h1 =>
    have hp' : (p = d.current ∧ d.cur.nodeType = .tag ∧ (∀ m, d.cur.tmeta = some m → (m.selfClosed || m.autoFix) = false)) ∨
        d.chain.head? = some p ∨ (d.chain = [] ∧ p = d.root) := by
      rw [hp]
      split
      · rename_i h; exact Or.inl ⟨rfl, h⟩
      · right
        cases hch : d.chain with
        | nil => exact Or.inr ⟨rfl, rfl⟩
        | cons a as => exact Or.inl rfl
    have hpl : p < d.heap.size := by
      rcases hp' with h | h | h
      · rw [h.1]; exact hd.curLt
      · exact hlt p h
      · rw [h.2, hd.root0]; exact hd.sizePos
    have he1 : Eff d d1 := by
      subst h1
      exact Eff.ltChild p { Cell.new .text d.memPosition with index := ((d.heap.cell p).childs.getD []).length } hf
        ⟨none, d.memPosition, _, rfl, rfl, Or.inl rfl⟩ hp' rfl rfl rfl ⟨hh, by simp⟩
    have hamp : ¬ AllWs d1.prevChars := by
      intro h
      have := h '&' (by subst h1; simp only; split <;> simp)
      cases this
    have hheap1 : d1.heap = (d.heap.push { Cell.new .text d.memPosition with index := ((d.heap.cell p).childs.getD []).length }).upd p fun n => { n with childs := some ((d.heap.cell p).childs.getD [] ++ [d.heap.size]) } := by
      subst h1; rfl
    have hcur1 : d1.current = d.heap.size := by subst h1; rfl
    have hcells : ∀ i, i < d.heap.size → (d1.heap.cell i).content = (d.heap.cell i).content ∧
        (d1.heap.cell i).endAt = (d.heap.cell i).endAt ∧ (d1.heap.cell i).nodeType = (d.heap.cell i).nodeType := by
      intro i hi
      have h2 : ¬ i = d.heap.size := by omega
      rw [hheap1, Heap.upd_cell, Heap.push_cell]
      simp only [h2, if_false]
      split <;> exact ⟨rfl, rfl, rfl⟩
    have hk : d1.heap.kids p = d.heap.kids p ++ [d.heap.size] := by
      have h2 : ¬ p = d.heap.size := by omega
      unfold Heap.kids
      rw [hheap1, Heap.upd_cell, Heap.push_cell]
      simp only [h2, if_false, if_true]
      rfl
    have hrep : d1.repeatWhitespace = false := by subst h1; rfl
    have key : ∀ s', BlankInv s' d1 := fun s' => by
      refine g.begin hd hl he1 (Or.inr hh) (by subst h1; rfl) (by subst h1; rfl) (by subst h1; rfl) (by subst h1; rfl) ?_
        ⟨(fun h => by rw [hrep] at h; cases h), fun _ h => absurd h hamp⟩ ?_
      · intro q hq
        rcases hp' with h | h | h
        · left
          exact ((hfresh d.current (Or.inl ⟨by rw [hh]; simp, by rw [hh]; simp, rfl⟩)).2 h.2.1).1
        · rw [h] at hq; cases hq; exact Or.inr hk
        · rw [h.1] at hq; cases hq
      · have := hcells d.current hd.curLt
        exact ⟨this.1, this.2.1⟩
    split
    · refine (key s).endText c (by subst h1; rfl) ?_ ?_ (by subst h1; exact hpos) ?_
      · have h2 : ¬ d.heap.size = p := by omega
        unfold Doc.cur
        rw [hheap1, hcur1, Heap.upd_cell, Heap.push_cell]
        simp only [h2, if_false, if_true]
        rfl
      · intro x hx
        have hx' : d.checkTextnode = some x := by subst h1; exact hx
        rw [(hcells x (hd.check x hx').1).2.2]; exact (hd.check x hx').2
      · intro q hq
        have hq' : d.chain.head? = some q := by subst h1; exact hq
        have h2 := hlt q hq'
        have h3 := he1.size_le.1
        exact Nat.lt_of_lt_of_le h2 h3
    · exact key _
  | exclFirst hh hdt D hD =>
    exact g.calm hd hl he (by simp [hh]) (by simp [hh]) Iff.rfl rfl rfl rfl fun h => ⟨rfl, h⟩
  | exclMore hh D hdt hl' hc =>
    exact g.calm hd hl he (by simp [hh]) (by simp [hh]) Iff.rfl rfl rfl rfl fun h => ⟨rfl, h⟩
  | commentOpen hh hdt hl' hc p hp =>
    exact g.open hd hl he (by simp [hh]) (by simp) (by simp) hp (n := Cell.new .comment d.memPosition) (by rintro (h | h) <;> cases h) rfl rfl rfl
  | cdataOpen hh hdt hl' hc p hp =>
    exact g.open hd hl he (by simp [hh]) (by simp) (by simp) hp (n := Cell.new .xmlCdata d.memPosition) (by rintro (h | h) <;> cases h) rfl rfl rfl
  | doctypeOpen hh hdt hl' hc p hp =>
    exact g.open hd hl he (by simp [hh]) (by simp) (by simp) hp (n := Cell.new .htmlDoctype d.memPosition) (by rintro (h | h) <;> cases h) rfl rfl rfl
  | commentMore hh hc =>
    exact g.calm hd hl he (by simp [hh]) (by simp [hh]) Iff.rfl rfl rfl rfl fun h => ⟨rfl, h⟩
  | commentClose hh hc b hb hp =>
    unfold HandleOk at hs
    simp only [hh] at hs
    have hnt : ¬ d.cur.nodeType.isText := by
      rcases hs.2 with h | h <;> rw [h.2.2] <;> rintro (h | h) <;> cases h
    refine g.data hd hl he (by simp [hh]) (by simp) (fun h => absurd h hnt) rfl (fun i _ => ?_) (fun i _ => ?_)
      (curOf_same hd rfl (by simp [hh]) (by simp [hh]) (by simp)) rfl (by simp [Handler.amid, hh])
    · unfold Heap.kids; rw [Heap.upd_cell]; split <;> rfl
    · rw [Heap.upd_cell]; split <;> rfl
  | doctypeName hh hc =>
    exact g.put hd hl he (by simp [Handler.amid, hh]) (by simp [hh]) (by simp [Doc.putTag]) (by simp [Doc.putTag]) rfl _ rfl rfl
  | nameMore hh hc =>
    exact g.calm hd hl he (by simp [hh]) (by simp [hh]) Iff.rfl rfl rfl rfl fun h => ⟨rfl, h⟩
  | nameEnd hh hc =>
    refine g.put hd hl he (by simp [Handler.amid, hh]) (by simp [hh]) ?_ ?_ rfl _ rfl rfl <;>
    · simp only [Doc.putTag]; split <;> simp
  | nameClose hh hc m hm =>
    exact g.put hd hl he (by simp [Handler.amid, hh]) (by simp [hh]) (closeTag_ne_text _ _) (closeTag_ne_end _ _)
      (closeTag_current _ _) _ (by rw [closeTag_heap]; rfl) (closeTag_check _ _)
  | tagMore hh m hm t id ht =>
    obtain ⟨_, _, k3⟩ := tagChar_cont (hd.inTag hh hm).1 ht
    exact g.put hd hl he (inTag_amid hh) (inTag_ne_text hh) (inTag_ne_text k3) (inTag_ne_end k3) rfl _ rfl rfl
  | tagClose hh m hm m' pc mark id ht =>
    exact g.put hd hl he (inTag_amid hh) (inTag_ne_text hh) (closeTag_ne_text _ _) (closeTag_ne_end _ _)
      (closeTag_current _ _) _ (by rw [closeTag_heap]; rfl) (closeTag_check _ _)
  | tagSelf hh hc m hm ha =>
    exact g.put hd hl he (by simp [Handler.amid, hh]) (by simp [hh]) (by simp) (by simp) rfl _ rfl rfl
  | endMore hh hc =>
    exact g.calm hd hl he (by simp [hh]) (by simp [hh]) Iff.rfl rfl rfl rfl fun h => ⟨rfl, h⟩
  | endMatch hh hc t m hm =>
    unfold HandleOk at hs
    simp only [hh] at hs
    have hg := he.growH hd hl g.free
    have hcell := endHeap_cell hd t d.prevChars hm.2.1 hs.2.2.1
    have htl := hlt t hm.2.1
    have hne : d.current ≠ t := by
      intro h
      have h1 := hs.2.2.1
      unfold Doc.cur at h1
      rw [h] at h1
      rcases chain_not_text hd (List.mem_of_mem_head? hm.2.1) with h2 | h2 <;> rw [h2] at h1 <;> cases h1
    have hcc : ∀ i, ((d.endHeap t d.prevChars).cell i).childs = (d.heap.cell i).childs := by
      intro i; rw [hcell]; split <;> (try rfl); split <;> (try rfl); split <;> rfl
    have hk : ∀ i, (d.endHeap t d.prevChars).kids i = d.heap.kids i := by
      intro i; unfold Heap.kids; rw [hcc]
    have hte : ((d.endHeap t d.prevChars).cell t).endTag ≠ none := by
      rw [hcell, if_neg (Ne.symm hne), if_pos rfl]; simp
    refine g.keep hd hl he (by simp [hh]) (by simp) ?_ ?_ ?_ ?_ ?_
    · rw [hs.2.2.1]; rintro (h | h) <;> cases h
    · intro h
      have h : d.heap.size < (d.endHeap t d.prevChars).size := h
      rw [endHeap_size] at h; exact absurd h (Nat.lt_irrefl _)
    · rintro k (⟨_, _, h⟩ | ⟨h, _⟩)
      · have h : k = d.current := h
        subst h
        have h2 : ((d.endHeap t d.prevChars).cell d.current).nodeType = .tagEnd := by
          rw [hcell, if_pos rfl]; exact hs.2.2.1
        refine ⟨fun h => ?_, fun h => ?_⟩
        · have h : ((d.endHeap t d.prevChars).cell d.current).nodeType = .text := h
          rw [h2] at h; cases h
        · have h : ((d.endHeap t d.prevChars).cell d.current).nodeType = .tag := h
          rw [h2] at h; cases h
      · cases h
    · show (if onlyText d.heap t then d.checkTextnode else none) = _ ∨ _ = _
      split
      · exact Or.inl rfl
      · exact Or.inr rfl
    · intro x hx
      have hxt := hd.check x hx
      have hxc : x ≠ d.current := by
        intro h
        have h1 := hs.2.2.1
        unfold Doc.cur at h1
        rw [← h, hxt.2] at h1; cases h1
      have hkx := he.keep hd x hxt.1
      obtain ⟨_, ⟨w, w1, w2⟩, hplace⟩ := (g.pend x hx).between (by simp [hh])
      by_cases ho : onlyText d.heap t = true
      · left
        refine ⟨by show (if onlyText d.heap t then d.checkTextnode else none) = _; rw [if_pos ho]; exact hx, ?_⟩
        refine PendB.of (Or.inl rfl) ⟨w, by rw [(hkx.other hxc).1]; exact w1, ?_⟩ (Or.inr ?_)
        · unfold Whole; rw [(hkx.other hxc).2.2.1, hkx.beginAt]; exact w2
        unfold onlyText at ho
        split at ho
        · rename_i y hy
          simp only [decide_eq_true_eq] at ho
          have hky : d.heap.kids t = [y] := by unfold Heap.kids; rw [hy]; rfl
          rcases hplace with ⟨q, a, b⟩ | ⟨u, q, a, b, e⟩
          · rw [hm.2.1] at a; cases a
            rw [hky] at b
            simp only [List.getLast?_singleton, Option.some.injEq] at b
            subst b
            have hn := g.nested
            have hcl := hm.1
            have hht := hm.2.1
            cases hch : d.chain with
            | nil => rw [hch] at hcl; simp at hcl
            | cons a as =>
              cases as with
              | nil => rw [hch] at hcl; simp at hcl
              | cons q r =>
                rw [hch] at hn hht
                simp only [List.head?_cons, Option.some.injEq] at hht
                subst hht
                refine ⟨a, q, ⟨?_, ?_, hte⟩, ?_, ?_⟩
                · show a < (d.endHeap a d.prevChars).size
                  rw [endHeap_size]; exact htl
                · show ((d.endHeap a d.prevChars).cell a).childs = _
                  rw [hcc]; exact hy
                · rfl
                · show ((d.endHeap a d.prevChars).kids q).getLast? = some a
                  rw [hk]; exact hn.1
          · rw [hm.2.1] at b; cases b
            rw [hky] at e
            simp only [List.getLast?_singleton, Option.some.injEq] at e
            subst e
            exfalso
            have := hl.owns.inner y a.1 (by rw [a.2.1]; simp)
            rw [ho] at this
            rcases this with h | h <;> cases h
        · cases ho
      · right
        refine ⟨by show (if onlyText d.heap t then d.checkTextnode else none) = _; rw [if_neg ho], ?_, ?_⟩
        · show ((d.endHeap t d.prevChars).cell x).nodeType = _
          rw [(endHeap_cell_eq hd t d.prevChars hm.2.1 hs.2.2.1 x).1]
          unfold Doc.markTarget
          rw [if_neg ho, if_pos hx]
        · show Goes (d.endHeap t d.prevChars) x
          rcases hplace with ⟨q, a, b⟩ | ⟨u, q, a, b, e⟩
          · rw [hm.2.1] at a; cases a
            right; left
            obtain ⟨l, hl'⟩ := List.getLast?_eq_some_iff.1 b
            refine ⟨t, l, by rw [endHeap_size]; exact htl, by rw [hk]; exact hl', ?_, hte⟩
            intro h
            apply ho
            unfold onlyText
            subst h
            unfold Heap.kids at hl'
            cases hch : (d.heap.cell t).childs with
            | none => rw [hch] at hl'; cases hl'
            | some l =>
              rw [hch] at hl'
              simp only [Option.getD_some, List.nil_append] at hl'
              subst hl'
              simp only [hxt.2, decide_true]
          · rw [hm.2.1] at b; cases b
            right; right; right
            exact ⟨u, t, hg.lone a, by rw [endHeap_size]; exact htl, by rw [hk]; exact e, hte⟩
  | endStray hh hc hf hm =>
    unfold HandleOk at hs
    simp only [hh] at hs
    have hty : (d.heap.cell d.current).nodeType = .tagEnd := hs.2.2.1
    refine g.data hd hl he (by simp [hh]) (by simp) (fun _ => ⟨rfl, rfl⟩) rfl (fun _ _ => rfl) (fun _ _ => rfl) ?_ rfl
      fun _ => ⟨rfl, Or.inl rfl⟩
    rintro k (⟨_, _, h⟩ | ⟨h, _⟩)
    · have h : k = d.cur.prev.getD d.current := h
      cases hp : d.cur.prev with
      | none =>
        rw [hp] at h
        simp only [Option.getD_none] at h
        subst h
        exact ⟨hd.curLt, Or.inr (by rw [hty]; simp)⟩
      | some p =>
        rw [hp] at h
        simp only [Option.getD_some] at h
        subst h
        exact ⟨(hs.2.2.2.2 k hp).1, Or.inl (Or.inr ⟨hh, hp⟩)⟩
    · cases h
  | rawMore hh hc =>
    exact g.calm hd hl he (by simp [hh]) (by simp [hh]) Iff.rfl rfl rfl rfl fun h => ⟨rfl, h⟩
  | rawClose hh hc e he' n hn =>
    unfold HandleOk at hs
    simp only [hh] at hs
    have hcell := rawHeap_cell hd n
    have hidle := g.idle (by simp [hh]) (by simp [Handler.amid, hh])
    refine g.keep hd hl he (by simp [hh]) (by simp) ?_ ?_ ?_ (Or.inl rfl) ?_
    · rw [hs.1]; rintro (h | h) <;> cases h
    · intro _
      show ¬ ((d.rawHeap n).cell d.heap.size).nodeType.isText
      rw [hcell, if_pos rfl]
      rintro (h | h) <;> cases h
    · rintro k (⟨_, _, h⟩ | ⟨h, _⟩)
      · have h : k = d.current := h
        subst h
        have h1 : ¬ d.current = d.heap.size := by have := hd.curLt; omega
        have := hfresh d.current (Or.inl ⟨by rw [hh]; simp, by rw [hh]; simp, rfl⟩)
        have h2 : ((d.rawHeap n).cell d.current).nodeType = (d.heap.cell d.current).nodeType ∧
            (d.rawHeap n).kids d.current = d.heap.kids d.current := by
          unfold Heap.kids
          rw [hcell, if_neg h1]
          split <;> exact ⟨rfl, rfl⟩
        unfold FreshAt at this ⊢
        show (((d.rawHeap n).cell d.current).nodeType = _ → _) ∧ (((d.rawHeap n).cell d.current).nodeType = _ → _ ∧ (d.rawHeap n).kids d.current = _)
        rw [h2.1, h2.2]; exact this
      · cases h
    · intro x hx
      rw [hidle] at hx; cases hx

theorem Reach.blank {o : ParseOptions} {s : Str} {d : Doc} (h : Reach o s d) : BlankInv s d := by
  induction h with
  | init => exact BlankInv.new o
  | step hr hs ih =>
    have := ih.step hr hs
    exact ⟨this.nested, this.fresh, this.reading, this.pend, this.done⟩

end Rphtml
