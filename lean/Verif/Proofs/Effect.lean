import Verif.Proofs.Reach

/-!
# What a transition does to the node graph

`Eff` groups the transitions of `Step` by their effect on the links between nodes.
-/

namespace Rphtml

/-- The node types that are linked as children. -/
def NodeType.childKind : NodeType → Bool
  | .text | .tag | .comment | .xmlCdata | .htmlDoctype => true
  | _ => false

/-- The effect of one transition on the heap, the open tags and the current node. -/
inductive Eff (d d' : Doc) : Prop where
  /-- only the contents of the current node change; possibly the innermost open tag is left -/
  | data (ct : Option Str) (m : Option TagMeta) (e : Nat)
      (hea : e = d.cur.endAt ∨ e = d.position ∨ e = d.position + 1)
      (hheap : d'.heap = d.heap.upd d.current fun n => { n with content := ct, tmeta := m, endAt := e })
      (hm : d.handle ≠ .tagName → d.handle ≠ .doctypeName → d.handle.inTag = false → m = d.cur.tmeta)
      (hchain : d'.chain = d.chain ∨ (d'.chain = d.chain.tail ∧
        ((d.chain.head? = some d.current ∧ d.cur.nodeType = .tag) ∨
         (d.handle = .tagSelfClosing ∧ d.codeIn = .htmlDoctype))))
      (hct : d.cur.nodeType = .tagEnd ∨ d.cur.nodeType = .tag → ct = d.cur.content)
      (hend : (d'.current = d.current ∧ (d'.handle = .tagEnd ↔ d.handle = .tagEnd)) ∨
        (d'.current = d.cur.prev.getD d.current ∧ d.handle = .tagEnd ∧ d'.handle = .wait ∧
          d.opts.autoFixUnexpectedEndtag = true))
  /-- a node is linked below the innermost open tag -/
  | child (p : NodeId) (ty : NodeType) (b : Nat) (o : Option NodeId) (hp : d.chain.head? = some p)
      (hty : ty.childKind = true) (ho : o = d.checkTextnode ∨ o = none)
      (hb : (d.handle = .wait ∧ b = d.position ∧ ty = .text ∧ o = none) ∨
        ((d.handle = .unkownTag ∨ d.handle = .exclamationBegin) ∧ b = d.memPosition ∧ ty ≠ .text))
      (hheap : d'.heap = (d.addChild p (Cell.new ty b)).heap.markSpaces o)
      (hchain : d'.chain = if ty = .tag then d.heap.size :: d.chain else d.chain)
      (hcur : d'.current = d.heap.size) (hend : d.handle ≠ .tagEnd ∧ d'.handle ≠ .tagEnd)
  /-- `auto_fix_unescaped_lt` adds a text node -/
  | ltChild (p : NodeId) (n : Cell) (hf : d.opts.autoFixUnescapedLt = true)
      (hn : ∃ ct e k, n = { Cell.new .text d.memPosition with content := ct, endAt := e, index := k } ∧
        k = ((d.heap.cell p).childs.getD []).length ∧ (e = d.memPosition ∨ e = d.position))
      (hp : (p = d.current ∧ d.cur.nodeType = .tag ∧ (∀ m, d.cur.tmeta = some m → (m.selfClosed || m.autoFix) = false)) ∨
        d.chain.head? = some p ∨ (d.chain = [] ∧ p = d.root))
      (hheap : d'.heap = (d.heap.push n).upd p
        fun c => { c with childs := some ((d.heap.cell p).childs.getD [] ++ [d.heap.size]) })
      (hchain : d'.chain = d.chain) (hcur : d'.current = d.heap.size)
      (hend : d.handle = .unkownTag ∧ d'.handle ≠ .tagEnd)
  /-- a node for an end tag is allocated, not yet linked -/
  | endPush (pv : Option NodeId) (hpv : pv = if d.opts.autoFixUnclosedTag then some d.current else none)
      (hheap : d'.heap = d.heap.push { Cell.new .tagEnd d.memPosition with prev := pv })
      (hchain : d'.chain = d.chain) (hcur : d'.current = d.heap.size)
      (hend : d.handle = .unkownTag ∧ d'.handle = .tagEnd)
  /-- an end tag is linked to the innermost open tag -/
  | endLink (t : NodeId) (m : TagMeta) (hm : endMatches d t m) (hty : d.cur.nodeType = .tagEnd)
      (hheap : d'.heap = d.endHeap t d.prevChars) (hchain : d'.chain = d.chain.tail)
      (hcur : d'.current = d.current) (hend : d.handle = .tagEnd ∧ d'.handle = .wait)
  /-- the end tag of a raw-text element -/
  | rawEnd (n : Nat) (hty : d.cur.nodeType = .tag) (hp : d.chain.head? = some d.current)
      (hheap : d'.heap = d.rawHeap n) (hchain : d'.chain = d.chain.tail)
      (hcur : d'.current = d.current) (hend : d.handle = .contentTag ∧ d'.handle = .wait)

theorem Eff.nothing {d d' : Doc} (hheap : d'.heap = d.heap) (hchain : d'.chain = d.chain) (hcur : d'.current = d.current)
    (hend : d'.handle = .tagEnd ↔ d.handle = .tagEnd) : Eff d d' := by
  refine Eff.data d.cur.content d.cur.tmeta d.cur.endAt (Or.inl rfl) ?_ (fun _ _ _ => rfl) (Or.inl hchain) (fun _ => rfl) (Or.inl ⟨hcur, hend⟩)
  rw [hheap]
  exact (Heap.upd_self rfl).symm

theorem updCur_eq (d : Doc) (f : Cell → Cell) {ct : Option Str} {m : Option TagMeta} {e : Nat}
    (h : f d.cur = { d.cur with content := ct, tmeta := m, endAt := e }) :
    d.heap.upd d.current f = d.heap.upd d.current fun n => { n with content := ct, tmeta := m, endAt := e } :=
  Heap.upd_congr h

theorem upd_push_comm (h : Heap) (n : Cell) (p : NodeId) (hp : p < h.size) (f g : Cell → Cell) :
    (((h.push n).upd p f).upd h.size g) = (h.push (g n)).upd p f := by
  unfold Heap.upd Heap.push
  simp only
  congr 1
  funext j
  by_cases h1 : j = h.size
  · have h2 : j ≠ p := by omega
    have h3 : h.size ≠ p := by omega
    simp [h1, h3]
  · simp [h1]

theorem Step.eff {d d' : Doc} {c : Char} (hd : Ctl d) (h : Step d c d') : Eff d d' := by
  have hs := hd.hs
  cases h with
  | lt hh hc => exact Eff.nothing rfl rfl rfl (by simp [hh])
  | textResume hh hc hf ht w hw =>
    exact Eff.data (some []) d.cur.tmeta d.cur.endAt (Or.inl rfl) (updCur_eq d (fun n => { n with content := some [] }) rfl)
      (fun _ _ _ => rfl) (Or.inl rfl) (by rw [ht]; simp) (Or.inl ⟨rfl, by simp [hh]⟩)
  | textStart hh hc hf p hp =>
    exact Eff.child p .text d.position none hp rfl (Or.inr rfl) (Or.inl ⟨hh, rfl, rfl, rfl⟩) rfl rfl rfl (by simp [hh])
  | textMore hh hc => exact Eff.nothing rfl rfl rfl Iff.rfl
  | textEnd hh hc =>
    unfold HandleOk at hs
    simp only [hh] at hs
    exact Eff.data (some d.prevChars) d.cur.tmeta d.position (Or.inr (Or.inl rfl))
      (updCur_eq d (fun n => { n with content := some d.prevChars, endAt := d.position }) rfl) (fun _ _ _ => rfl)
      (Or.inl rfl) (by rw [hs.2.2.1]; simp) (Or.inl ⟨rfl, by simp [hh, Doc.endText]⟩)
  | tagOpen hh hc p hp =>
    exact Eff.child p .tag d.memPosition d.checkTextnode hp rfl (Or.inl rfl) (Or.inr ⟨by simp [hh], rfl, by simp⟩) rfl rfl rfl (by simp [hh])
  | endOpen hh hc => exact Eff.endPush _ rfl rfl rfl rfl ⟨hh, rfl⟩
  | bang hh hc => exact Eff.nothing rfl rfl rfl (by simp [hh])
  | ltExtend hh hf hc ht w hw d1 h1 =>
    subst h1
    split
    · refine Eff.data (some (w ++ ['&', 'l', 't', ';'])) d.cur.tmeta
        d.position (Or.inr (Or.inl rfl)) ?_ (fun _ _ _ => rfl) (Or.inl rfl) (by rw [ht]; simp) (Or.inl ⟨rfl, by simp [hh, Doc.endText]⟩)
      refine Eq.trans (Heap.upd_upd d.heap d.current (fun n => { n with content := some [] })
        (fun n => { n with content := some (w ++ ['&', 'l', 't', ';']), endAt := d.position })) ?_
      exact updCur_eq d (fun n => { n with content := some (w ++ ['&', 'l', 't', ';']), endAt := d.position }) rfl
    · exact Eff.data (some []) d.cur.tmeta d.cur.endAt (Or.inl rfl) (updCur_eq d (fun n => { n with content := some [] }) rfl)
        (fun _ _ _ => rfl) (Or.inl rfl) (by rw [ht]; simp) (Or.inl ⟨rfl, by simp [hh]⟩)
  | ltNew hh hf hc ht p hp d1 h1 =>
    have hp' : (p = d.current ∧ d.cur.nodeType = .tag ∧ (∀ m, d.cur.tmeta = some m → (m.selfClosed || m.autoFix) = false)) ∨
        d.chain.head? = some p ∨ (d.chain = [] ∧ p = d.root) := by
      split at hp
      · rename_i h; exact Or.inl ⟨hp, h⟩
      · cases hc : d.chain with
        | nil => rw [hc] at hp; exact Or.inr (Or.inr ⟨rfl, hp⟩)
        | cons a as => rw [hc] at hp; exact Or.inr (Or.inl (by rw [hp]; rfl))
    have hplt : p < d.heap.size := by
      rcases hp' with h | h | h
      · rw [h.1]; exact hd.curLt
      · exact hd.chain_head h
      · rw [h.2, hd.root0]; exact hd.sizePos
    subst h1
    split
    · refine Eff.ltChild p { Cell.new .text d.memPosition with
          content := some ['&', 'l', 't', ';'], endAt := d.position
          index := ((d.heap.cell p).childs.getD []).length } hf ⟨_, _, _, rfl, rfl, Or.inr rfl⟩ hp' ?_ rfl rfl
          (by simp [hh, Doc.endText])
      exact upd_push_comm d.heap { Cell.new .text d.memPosition with index := ((d.heap.cell p).childs.getD []).length }
        p hplt (fun n => { n with childs := some ((d.heap.cell p).childs.getD [] ++ [d.heap.size]) })
        (fun n => { n with content := some ['&', 'l', 't', ';'], endAt := d.position })
    · exact Eff.ltChild p _ hf ⟨none, d.memPosition, _, rfl, rfl, Or.inl rfl⟩ hp' rfl rfl rfl (by simp [hh])
  | exclFirst hh hdt D hD => exact Eff.nothing rfl rfl rfl Iff.rfl
  | exclMore hh D hdt hl hc => exact Eff.nothing rfl rfl rfl Iff.rfl
  | commentOpen hh hdt hl hc p hp =>
    exact Eff.child p .comment d.memPosition d.checkTextnode hp rfl (Or.inl rfl) (Or.inr ⟨by simp [hh], rfl, by simp⟩) rfl rfl rfl (by simp [hh])
  | cdataOpen hh hdt hl hc p hp =>
    exact Eff.child p .xmlCdata d.memPosition d.checkTextnode hp rfl (Or.inl rfl) (Or.inr ⟨by simp [hh], rfl, by simp⟩) rfl rfl rfl (by simp [hh])
  | doctypeOpen hh hdt hl hc p hp =>
    exact Eff.child p .htmlDoctype d.memPosition d.checkTextnode hp rfl (Or.inl rfl) (Or.inr ⟨by simp [hh], rfl, by simp⟩) rfl rfl rfl (by simp [hh])
  | commentMore hh hc => exact Eff.nothing rfl rfl rfl Iff.rfl
  | commentClose hh hc b hb hp =>
    unfold HandleOk at hs
    simp only [hh] at hs
    exact Eff.data (some b) d.cur.tmeta (d.position + 1) (Or.inr (Or.inr rfl))
      (updCur_eq d (fun n => { n with content := some b, endAt := d.position + 1 }) rfl) (fun _ _ _ => rfl) (Or.inl rfl)
      (by rcases hs.2 with h | h <;> rw [h.2.2] <;> simp) (Or.inl ⟨rfl, by simp [hh]⟩)
  | doctypeName hh hc =>
    exact Eff.data d.cur.content (some _) d.cur.endAt (Or.inl rfl) (updCur_eq d (fun n => { n with tmeta := some _ }) rfl)
      (fun _ h _ => absurd hh h) (Or.inl rfl)
      (fun _ => rfl) (Or.inl ⟨rfl, by simp [hh, Doc.putTag]⟩)
  | nameMore hh hc => exact Eff.nothing rfl rfl rfl Iff.rfl
  | nameEnd hh hc =>
    exact Eff.data d.cur.content (some _) d.cur.endAt (Or.inl rfl) (updCur_eq d (fun n => { n with tmeta := some _ }) rfl)
      (fun h _ _ => absurd hh h) (Or.inl rfl)
      (fun _ => rfl) (Or.inl ⟨rfl, by simp only [hh, Doc.putTag]; split <;> simp⟩)
  | nameClose hh hc m hm =>
    unfold HandleOk at hs
    simp only [hh] at hs
    refine Eff.data d.cur.content (some m) d.cur.endAt (Or.inl rfl) ?_ (fun h _ _ => absurd hh h) ?_ ?_ ?_
    · rw [closeTag_heap]; exact updCur_eq d (fun n => { n with tmeta := some _ }) rfl
    · rw [closeTag_chain]
      split
      · exact Or.inr ⟨rfl, Or.inl ⟨hs.2.2.2.2.1, hs.2.2.1⟩⟩
      · exact Or.inl rfl
    · exact fun _ => rfl
    · rw [closeTag_handle, hh]
      left; refine ⟨closeTag_current _ _, ?_⟩; split <;> simp
  | tagMore hh m hm t id ht =>
    obtain ⟨_, _, k3⟩ := tagChar_cont (hd.inTag hh hm).1 ht
    refine Eff.data d.cur.content (some t.m) d.cur.endAt (Or.inl rfl) (updCur_eq d (fun n => { n with tmeta := some _ }) rfl)
      (fun _ _ h => by rw [hh] at h; cases h) (Or.inl rfl) (fun _ => rfl) (Or.inl ⟨rfl, ?_⟩)
    constructor
    · intro h
      have : t.handle = .tagEnd := h
      rw [this] at k3; cases k3
    · intro h; rw [h] at hh; cases hh
  | tagClose hh m hm m' pc mark id ht =>
    obtain ⟨hok, _, hv, hor⟩ := hd.inTag hh hm
    obtain ⟨k1, _, _⟩ := tagChar_close hok ht
    refine Eff.data d.cur.content (some m') d.cur.endAt (Or.inl rfl) ?_ (fun _ _ h => by rw [hh] at h; cases h) ?_ ?_ ?_
    · rw [closeTag_heap]; exact updCur_eq d (fun n => { n with tmeta := some _ }) rfl
    · rw [closeTag_chain]
      split
      · rename_i hvo
        right
        refine ⟨rfl, ?_⟩
        rcases hor with h | h
        · exact Or.inl ⟨h.2.2.1, h.2.1⟩
        · have : m.isVoid = true := by rw [← hvo]; exact k1.isVoid.symm
          rw [hv, (doctype_plain h.2.2).1] at this
          cases this
      · exact Or.inl rfl
    · exact fun _ => rfl
    · rw [closeTag_handle]
      left; refine ⟨closeTag_current _ _, ?_⟩
      have : d.handle ≠ .tagEnd := by intro h; rw [h] at hh; cases hh
      split <;> simp [this]
  | tagSelf hh hc m hm ha =>
    have hin : d.handle.inTag = true := by rw [hh]; rfl
    obtain ⟨hok, _, hv, hor⟩ := hd.inTag hin hm
    refine Eff.data d.cur.content (some _) d.cur.endAt (Or.inl rfl) (updCur_eq d (fun n => { n with tmeta := some _ }) rfl) (fun _ _ h => by rw [hin] at h; cases h)
      (Or.inr ⟨rfl, ?_⟩) (fun _ => rfl) (Or.inl ⟨rfl, by simp [hh]⟩)
    rcases hor with h | h
    · exact Or.inl ⟨h.2.2.1, h.2.1⟩
    · exact Or.inr ⟨hh, h.1⟩
  | endMore hh hc => exact Eff.nothing rfl rfl rfl Iff.rfl
  | endMatch hh hc t m hm =>
    unfold HandleOk at hs
    simp only [hh] at hs
    exact Eff.endLink t m hm hs.2.2.1 rfl rfl rfl ⟨hh, rfl⟩
  | endStray hh hc hf hm =>
    refine Eff.data d.cur.content d.cur.tmeta d.cur.endAt (Or.inl rfl) ?_ (fun _ _ _ => rfl) (Or.inl rfl) (fun _ => rfl)
      (Or.inr ⟨rfl, hh, rfl, hf⟩)
    exact (Heap.upd_self rfl).symm
  | rawMore hh hc => exact Eff.nothing rfl rfl rfl Iff.rfl
  | rawClose hh hc e he n hn =>
    unfold HandleOk at hs
    simp only [hh] at hs
    exact Eff.rawEnd n hs.1 hs.2.1 rfl rfl rfl ⟨hh, rfl⟩

/-! ## What stays the same in every cell -/

/-- The cells below the old size keep their data, except for the current one and for retyped texts. -/
structure KeepCell (d : Doc) (i : NodeId) (a b : Cell) : Prop where
  beginAt : b.beginAt = a.beginAt
  index : b.index = a.index
  root : b.root = a.root
  prev : b.prev = a.prev
  document : b.document = a.document
  ty : b.nodeType = a.nodeType ∨ (a.nodeType = .text ∧ b.nodeType = .spacesBetweenTag ∧ d.checkTextnode = some i)
  other : i ≠ d.current → b.content = a.content ∧ b.tmeta = a.tmeta ∧ b.endAt = a.endAt ∧ b.parent = a.parent
  tmeta : d.handle ≠ .tagName → d.handle ≠ .doctypeName → d.handle.inTag = false → b.tmeta = a.tmeta

theorem KeepCell.refl (d : Doc) (i : NodeId) (a : Cell) : KeepCell d i a a :=
  ⟨rfl, rfl, rfl, rfl, rfl, Or.inl rfl, fun _ => ⟨rfl, rfl, rfl, rfl⟩, fun _ _ _ => rfl⟩

theorem Eff.keep {d d' : Doc} (hd : Ctl d) (h : Eff d d') (i : NodeId) (hi : i < d.heap.size) :
    KeepCell d i (d.heap.cell i) (d'.heap.cell i) := by
  cases h with
  | data ct m e hea hheap hm hchain hct hend =>
    rw [hheap, Heap.upd_cell]
    split
    · rename_i h
      exact ⟨rfl, rfl, rfl, rfl, rfl, Or.inl rfl, fun h' => absurd h h', fun h1 h2 h3 => by rw [h]; exact hm h1 h2 h3⟩
    · exact KeepCell.refl _ _ _
  | child p ty b o hp hty ho hb hheap hchain hcur hend =>
    rw [hheap, markSpaces_cell, addChild_cell d p _ (hd.chain_head hp)]
    have h1 : ¬ i = d.heap.size := by omega
    simp only [h1, if_false]
    have h3 : o = some i → d.checkTextnode = some i := by
      intro h; rcases ho with ho | ho
      · rw [← ho]; exact h
      · rw [ho] at h; cases h
    by_cases h2 : i = p
    · subst h2
      simp only [if_true]
      split
      · rename_i h
        exact ⟨rfl, rfl, rfl, rfl, rfl, Or.inr ⟨(hd.check i (h3 h)).2, rfl, h3 h⟩, fun _ => ⟨rfl, rfl, rfl, rfl⟩, fun _ _ _ => rfl⟩
      · exact ⟨rfl, rfl, rfl, rfl, rfl, Or.inl rfl, fun _ => ⟨rfl, rfl, rfl, rfl⟩, fun _ _ _ => rfl⟩
    · simp only [h2, if_false]
      split
      · rename_i h
        exact ⟨rfl, rfl, rfl, rfl, rfl, Or.inr ⟨(hd.check i (h3 h)).2, rfl, h3 h⟩, fun _ => ⟨rfl, rfl, rfl, rfl⟩, fun _ _ _ => rfl⟩
      · exact KeepCell.refl _ _ _
  | ltChild p n hf hn hp hheap hchain hcur hend =>
    rw [hheap, Heap.upd_cell, Heap.push_cell]
    have h1 : ¬ i = d.heap.size := by omega
    simp only [h1, if_false]
    split
    · exact ⟨rfl, rfl, rfl, rfl, rfl, Or.inl rfl, fun _ => ⟨rfl, rfl, rfl, rfl⟩, fun _ _ _ => rfl⟩
    · exact KeepCell.refl _ _ _
  | endPush pv hpv hheap hchain hcur hend =>
    rw [hheap, Heap.push_cell]
    have h1 : ¬ i = d.heap.size := by omega
    rw [if_neg h1]
    exact KeepCell.refl _ _ _
  | endLink t m hm hty hheap hchain hcur hend =>
    rw [hheap, endHeap_cell hd t _ hm.2.1 hty]
    have h3 : d.markTarget t = some i → d.checkTextnode = some i := by
      unfold Doc.markTarget; split <;> simp
    split
    · rename_i h
      exact ⟨rfl, rfl, rfl, rfl, rfl, Or.inl rfl, fun h' => absurd h h', fun h1 h2 h3 => rfl⟩
    · split
      · exact ⟨rfl, rfl, rfl, rfl, rfl, Or.inl rfl, fun _ => ⟨rfl, rfl, rfl, rfl⟩, fun _ _ _ => rfl⟩
      · split
        · rename_i h
          exact ⟨rfl, rfl, rfl, rfl, rfl, Or.inr ⟨(hd.check i (h3 h)).2, rfl, h3 h⟩, fun _ => ⟨rfl, rfl, rfl, rfl⟩, fun _ _ _ => rfl⟩
        · exact KeepCell.refl _ _ _
  | rawEnd n hty hp hheap hchain hcur hend =>
    rw [hheap, rawHeap_cell hd]
    have h1 : ¬ i = d.heap.size := by omega
    rw [if_neg h1]
    split
    · rename_i h
      exact ⟨rfl, rfl, rfl, rfl, rfl, Or.inl rfl, fun h' => absurd h h', fun h1 h2 h3 => rfl⟩
    · exact KeepCell.refl _ _ _

theorem Eff.size_le {d d' : Doc} (h : Eff d d') : d.heap.size ≤ d'.heap.size ∧ d'.heap.size ≤ d.heap.size + 1 := by
  cases h with
  | data ct m e hea hheap => rw [hheap]; simp
  | child p ty b o hp hty ho hb hheap => rw [hheap]; simp [addChild_size]
  | ltChild p n hf hn hp hheap => rw [hheap]; simp
  | endPush pv hpv hheap => rw [hheap]; simp
  | endLink t m hm hty hheap => rw [hheap]; simp
  | rawEnd n hty hp hheap => rw [hheap]; simp

/-- The cell allocated by a transition, if any. -/
theorem Eff.newCell {d d' : Doc} (hd : Ctl d) (h : Eff d d') (hi : d.heap.size < d'.heap.size) :
    ((d'.heap.cell d.heap.size).nodeType.childKind = true ∨ (d'.heap.cell d.heap.size).nodeType = .tagEnd) ∧
    (d'.heap.cell d.heap.size).tmeta = none ∧ (d'.heap.cell d.heap.size).childs = none ∧
    (d'.heap.cell d.heap.size).endTag = none := by
  cases h with
  | data ct m e hea hheap => rw [hheap] at hi; simp at hi
  | child p ty b o hp hty ho hb hheap =>
    rw [hheap, grown_cell hd p hp _ o ho]
    exact ⟨Or.inl hty, rfl, rfl, rfl⟩
  | ltChild p n hf hn hp hheap =>
    have hplt : p < d.heap.size := by
      rcases hp with h | h | h
      · rw [h.1]; exact hd.curLt
      · exact hd.chain_head h
      · rw [h.2, hd.root0]; exact hd.sizePos
    obtain ⟨ct, e, k, hn, _⟩ := hn
    rw [hheap, Heap.upd_cell, Heap.push_cell, hn]
    have : ¬ d.heap.size = p := by omega
    simp only [this, if_false, if_true]
    exact ⟨Or.inl rfl, rfl, rfl, rfl⟩
  | endPush pv hpv hheap =>
    rw [hheap, Heap.push_cell]; simp only [if_true]
    exact ⟨Or.inr rfl, rfl, rfl, rfl⟩
  | endLink t m hm hty hheap => rw [hheap] at hi; simp at hi
  | rawEnd n hty hp hheap =>
    rw [hheap, rawHeap_cell hd]; simp only [if_true]
    exact ⟨Or.inr rfl, rfl, rfl, rfl⟩

end Rphtml
