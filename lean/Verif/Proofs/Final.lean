import Verif.Proofs.Graph

/-!
# The end of the input

What `eof` and `into_root` do to the last reachable state, as one explicit heap (`finalHeap`), and the link
invariant of every successfully parsed document.
-/

namespace Rphtml

/-- `fix_unclosed_tag` as a function on heaps. -/
def fixHeap (pos : Nat) : Heap → List NodeId → Heap
  | h, [] => h
  | h, t :: ts =>
    match (h.cell t).tmeta with
    | none => fixHeap pos h ts
    | some m =>
      fixHeap pos ((h.push { Cell.new .tagEnd pos with content := some m.name, parent := some t }).upd t fun n =>
        { n with tmeta := some { m with autoFix := true }, endTag := some h.size }) ts

theorem fixUnclosedTag_eq : ∀ (ts : List NodeId) (d : Doc),
    d.fixUnclosedTag ts = { d with heap := fixHeap d.position d.heap ts }
  | [], d => rfl
  | t :: ts, d => by
    unfold Doc.fixUnclosedTag fixHeap
    cases (d.heap.cell t).tmeta with
    | none => exact fixUnclosedTag_eq ts d
    | some m => simp only; rw [fixUnclosedTag_eq ts]

/-- The heap in the middle of `eof`. -/
def Doc.fixedHeap (d : Doc) : Heap :=
  if d.chain.length > 1 then fixHeap d.position d.heap d.chain.dropLast.reverse else d.heap

/-- The cell of the text read last, at the end of the input. -/
def Doc.lastText (d : Doc) (n : Cell) : Cell :=
  { n with content := some d.prevChars,
           nodeType := if d.repeatWhitespace then .spacesBetweenTag else n.nodeType, endAt := d.position }

/-- The heap after `eof` and `into_root`. -/
def Doc.finalHeap (d : Doc) : Heap :=
  (if d.codeIn = .textNode then d.fixedHeap.upd d.current d.lastText else d.fixedHeap).upd 0
    fun n => { n with endAt := d.position, document := true }

/-- The states from which `eof` succeeds. -/
structure EofOk (d : Doc) : Prop where
  closed : d.chain.length ≤ 1 ∨ d.opts.autoFixUnclosedTag = true
  code : d.codeIn = .textNode ∨ d.codeIn = .unkown ∨ d.codeIn = .abstractRoot ∨
    (d.codeIn = .tag ∧ d.opts.autoFixUnclosedTag = true)

theorem eofState_ok {d d' : Doc} {ctx : Str} (h : d.eofState ctx = .ok d') :
    d' = (if d.codeIn = .textNode then d.modCur d.lastText else d) ∧
    (d.codeIn = .textNode ∨ d.codeIn = .unkown ∨ d.codeIn = .abstractRoot ∨
      (d.codeIn = .tag ∧ d.opts.autoFixUnclosedTag = true)) := by
  unfold Doc.eofState at h
  split at h
  · rename_i hc; simp only [Res.ok.injEq] at h; subst h; simp only [hc, if_true]; exact ⟨rfl, Or.inl trivial⟩
  · rename_i hc; simp only [Res.ok.injEq] at h; subst h; simp [hc]
  · rename_i hc; simp only [Res.ok.injEq] at h; subst h; simp [hc]
  · rename_i hc
    split at h
    · simp [createParseError] at h
    · rename_i ha; simp only [Res.ok.injEq] at h; subst h; simpa [hc] using ha
  · simp [createParseError] at h

theorem eof_ok {d d' : Doc} {ctx : Str} (hr : d.root = 0) (h : d.eof ctx = .ok d') :
    EofOk d ∧ d'.intoRoot.heap = d.finalHeap ∧ d'.intoRoot.root = 0 ∧ d'.intoRoot.idTags = d.idTags ∧
      d'.intoRoot.opts = d.opts := by
  unfold Doc.eof at h
  simp only [Res.bind_eq] at h
  cases h1 : d.eofChain ctx with
  | err e => rw [h1] at h; simp at h
  | panic e => rw [h1] at h; simp at h
  | ok d1 =>
    rw [h1] at h
    simp only [Res.bind] at h
    cases h2 : d1.eofState ctx with
    | err e => rw [h2] at h; simp at h
    | panic e => rw [h2] at h; simp at h
    | ok d2 =>
      rw [h2] at h
      simp only [Res.ok.injEq] at h
      subst h
      obtain ⟨he, hcode⟩ := eofState_ok h2
      have hchain : (d.chain.length ≤ 1 ∨ d.opts.autoFixUnclosedTag = true) ∧ d1.heap = d.fixedHeap ∧
          d1.current = d.current ∧ d1.codeIn = d.codeIn ∧ d1.position = d.position ∧ d1.prevChars = d.prevChars ∧
          d1.repeatWhitespace = d.repeatWhitespace ∧ d1.root = d.root ∧ d1.idTags = d.idTags ∧ d1.opts = d.opts := by
        unfold Doc.eofChain at h1
        unfold Doc.fixedHeap
        split at h1
        · rename_i hl
          rw [if_pos hl]
          split at h1
          · split at h1
            · rename_i hn
              cases hc : d.chain with
              | nil => rw [hc] at hl; simp at hl
              | cons a as => rw [hc] at hn; simp at hn
            · split at h1 <;> simp [createParseError] at h1
          · rename_i ha
            simp only [Res.ok.injEq] at h1
            rw [fixUnclosedTag_eq] at h1
            subst h1
            exact ⟨Or.inr (by simpa using ha), rfl, rfl, rfl, rfl, rfl, rfl, rfl, rfl, rfl⟩
        · rename_i hl
          rw [if_neg hl]
          simp only [Res.ok.injEq] at h1
          subst h1
          exact ⟨Or.inl (by omega), rfl, rfl, rfl, rfl, rfl, rfl, rfl, rfl, rfl⟩
      obtain ⟨k0, k1, k2, k3, k4, k5, k6, k7, k8, k9⟩ := hchain
      rw [k3, k9] at hcode
      refine ⟨⟨k0, hcode⟩, ?_⟩
      have hlt : d1.lastText = d.lastText := by
        funext n; unfold Doc.lastText; rw [k4, k5, k6]
      rw [k3, hlt] at he
      unfold Doc.intoRoot Doc.finalHeap
      simp only
      subst he
      split
      · simp only [Doc.modCur]
        rw [Heap.upd_upd, k1, k2, k4, k7, hr, k8, k9]
        exact ⟨rfl, rfl, rfl, rfl⟩
      · rw [Heap.upd_upd, k1, k4, k7, hr, k8, k9]
        exact ⟨rfl, rfl, rfl, rfl⟩

/-- A successful parse comes from the state after the last character. -/
theorem parse_run {s : Str} {o : ParseOptions} {d : Doc} (h : Doc.parse s o = .ok d) :
    ∃ d0, (Doc.new o).run s s = .ok d0 ∧ Reach o s d0 ∧ EofOk d0 ∧ d.heap = d0.finalHeap ∧ d.root = 0 ∧ d.idTags = d0.idTags ∧ d.opts = o := by
  unfold Doc.parse at h
  simp only [Res.bind_eq] at h
  cases h1 : (Doc.new o).run s s with
  | err e => rw [h1] at h; simp at h
  | panic e => rw [h1] at h; simp at h
  | ok d0 =>
    rw [h1] at h
    simp only [Res.bind] at h
    have hr : Reach o s d0 := by
      have := Reach.run s [] (Doc.new o) d0 Reach.init h1
      simpa using this
    cases h2 : d0.eof s with
    | err e => rw [h2] at h; simp at h
    | panic e => rw [h2] at h; simp at h
    | ok d1 =>
      rw [h2] at h
      simp only [Res.ok.injEq] at h
      subst h
      obtain ⟨a, b, c, e, f⟩ := eof_ok hr.ctl.root0 h2
      exact ⟨d0, rfl, hr, a, b, c, e, by rw [f, hr.opts]⟩

/-- A successful parse comes from a reachable state. -/
theorem parse_ok {s : Str} {o : ParseOptions} {d : Doc} (h : Doc.parse s o = .ok d) :
    ∃ d0, Reach o s d0 ∧ EofOk d0 ∧ d.heap = d0.finalHeap ∧ d.root = 0 ∧ d.idTags = d0.idTags ∧ d.opts = o := by
  obtain ⟨d0, _, h⟩ := parse_run h
  exact ⟨d0, h⟩

/-! ## The links of the final heap -/

theorem fixHeap_links {lt : Bool} (pos : Nat) : ∀ (ts : List NodeId) (h : Heap), Owns lt h → Ends h → ts.Nodup →
    (∀ t ∈ ts, t < h.size ∧ (h.cell t).nodeType = .tag ∧ (h.cell t).endTag = none) →
    Owns lt (fixHeap pos h ts) ∧ Ends (fixHeap pos h ts)
  | [], h, g, e, _, _ => ⟨g, e⟩
  | t :: ts, h, g, e, hnd, hts => by
    unfold fixHeap
    have hnd' := (List.nodup_cons.1 hnd)
    cases hm : (h.cell t).tmeta with
    | none => exact fixHeap_links pos ts h g e hnd'.2 (fun x hx => hts x (List.mem_cons_of_mem _ hx))
    | some m =>
      simp only
      obtain ⟨t1, t2, t3⟩ := hts t (by simp)
      generalize hh : ((h.push { Cell.new .tagEnd pos with content := some m.name, parent := some t }).upd t fun n =>
        { n with tmeta := some { m with autoFix := true }, endTag := some h.size }) = h'
      have hsz : h'.size = h.size + 1 := by rw [← hh]; rfl
      have hct : h'.cell t = { h.cell t with tmeta := some { m with autoFix := true }, endTag := some h.size } := by
        rw [← hh, Heap.upd_cell, if_pos rfl, Heap.push_cell, if_neg (by omega)]
      have hnew : h'.cell h.size = { Cell.new .tagEnd pos with content := some m.name, parent := some t } := by
        rw [← hh, Heap.upd_cell, if_neg (by omega), Heap.push_cell, if_pos rfl]
      have hold : ∀ i, i < h.size → i ≠ t → h'.cell i = h.cell i := by
        intro i hi hit
        rw [← hh, Heap.upd_cell, if_neg hit, Heap.push_cell, if_neg (by omega)]
      refine fixHeap_links pos ts h' ?_ ?_ hnd'.2 ?_
      · refine g.addEnd hsz (fun i hi => ?_) (by rw [hnew]; exact ⟨rfl, rfl⟩)
        by_cases h1 : i = t
        · rw [h1, hct]; exact ⟨rfl, rfl, rfl, TyLe.refl _, fun _ => rfl⟩
        · rw [hold i hi h1]; exact ⟨rfl, rfl, rfl, TyLe.refl _, fun _ => rfl⟩
      · refine e.link t h.size (by omega) t1 (by omega) t1 ?_ ?_ ?_ ?_ ?_
        · intro i hi h1 h2; rw [hold i hi h1]; exact ⟨rfl, TyLe.refl _, fun _ => ⟨rfl, rfl⟩⟩
        · intro s hs hc
          have := (e.down s _ hs hc).2.1
          omega
        · rw [hct]; exact ⟨t2, t2, rfl⟩
        · rw [hnew]; exact ⟨rfl, rfl, by simp, rfl⟩
        · intro i h1 h2
          have : i = h.size := by omega
          rw [this, hnew]; rfl
      · intro x hx
        obtain ⟨x1, x2, x3⟩ := hts x (List.mem_cons_of_mem _ hx)
        have : x ≠ t := fun h => hnd'.1 (h ▸ hx)
        rw [hold x x1 this]
        exact ⟨by omega, x2, x3⟩

theorem fixHeap_size (pos : Nat) : ∀ (ts : List NodeId) (h : Heap), h.size ≤ (fixHeap pos h ts).size
  | [], h => Nat.le_refl _
  | t :: ts, h => by
    unfold fixHeap
    split
    · exact fixHeap_size pos ts h
    · refine Nat.le_trans ?_ (fixHeap_size pos ts _)
      simp

/-- The cells after `fix_unclosed_tag`. -/
theorem fixHeap_cells (pos : Nat) : ∀ (ts : List NodeId) (h : Heap), ts.Nodup → (∀ t ∈ ts, t < h.size) →
    (∀ i, i < h.size → (i ∉ ts ∨ (h.cell i).tmeta = none) → (fixHeap pos h ts).cell i = h.cell i) ∧
    (∀ i m, i ∈ ts → (h.cell i).tmeta = some m → ∃ e, h.size ≤ e ∧ e < (fixHeap pos h ts).size ∧
      (fixHeap pos h ts).cell i = { h.cell i with tmeta := some { m with autoFix := true }, endTag := some e } ∧
      (fixHeap pos h ts).cell e = { Cell.new .tagEnd pos with content := some m.name, parent := some i }) ∧
    (∀ e, h.size ≤ e → e < (fixHeap pos h ts).size → ∃ i m, i ∈ ts ∧ (h.cell i).tmeta = some m ∧
      (fixHeap pos h ts).cell e = { Cell.new .tagEnd pos with content := some m.name, parent := some i })
  | [], h, _, _ => by
    refine ⟨fun _ _ _ => rfl, fun i m hi => by (cases hi), fun e h1 h2 => ?_⟩
    unfold fixHeap at h2; omega
  | t :: ts, h, hnd, hts => by
    have hnd' := List.nodup_cons.1 hnd
    have hts' : ∀ x ∈ ts, x < h.size := fun x hx => hts x (List.mem_cons_of_mem _ hx)
    have t1 := hts t (by simp)
    unfold fixHeap
    cases hm : (h.cell t).tmeta with
    | none =>
      simp only
      obtain ⟨k1, k2, k3⟩ := fixHeap_cells pos ts h hnd'.2 hts'
      refine ⟨?_, ?_, ?_⟩
      · intro i hi hor
        refine k1 i hi ?_
        rcases hor with h1 | h1
        · exact Or.inl fun h2 => h1 (List.mem_cons_of_mem _ h2)
        · exact Or.inr h1
      · intro i m hi hmi
        rcases List.mem_cons.1 hi with h1 | h1
        · rw [h1, hm] at hmi; cases hmi
        · exact k2 i m h1 hmi
      · intro e h1 h2
        obtain ⟨i, m, a, b⟩ := k3 e h1 h2
        exact ⟨i, m, List.mem_cons_of_mem _ a, b⟩
    | some m =>
      simp only
      generalize hh : ((h.push { Cell.new .tagEnd pos with content := some m.name, parent := some t }).upd t fun n =>
        { n with tmeta := some { m with autoFix := true }, endTag := some h.size }) = h'
      have hsz : h'.size = h.size + 1 := by rw [← hh]; rfl
      have hct : h'.cell t = { h.cell t with tmeta := some { m with autoFix := true }, endTag := some h.size } := by
        rw [← hh, Heap.upd_cell, if_pos rfl, Heap.push_cell, if_neg (by omega)]
      have hnew : h'.cell h.size = { Cell.new .tagEnd pos with content := some m.name, parent := some t } := by
        rw [← hh, Heap.upd_cell, if_neg (by omega), Heap.push_cell, if_pos rfl]
      have hold : ∀ i, i < h.size → i ≠ t → h'.cell i = h.cell i := by
        intro i hi hit
        rw [← hh, Heap.upd_cell, if_neg hit, Heap.push_cell, if_neg (by omega)]
      obtain ⟨k1, k2, k3⟩ := fixHeap_cells pos ts h' hnd'.2 (fun x hx => by have := hts' x hx; omega)
      have hs2 := fixHeap_size pos ts h'
      have hne : h.size ∉ ts := fun hx => by have := hts' _ hx; omega
      refine ⟨?_, ?_, ?_⟩
      · intro i hi hor
        have hit : i ≠ t := by
          rintro rfl
          rcases hor with h1 | h1
          · exact h1 (by simp)
          · rw [hm] at h1; cases h1
        rw [k1 i (by omega), hold i hi hit]
        rcases hor with h1 | h1
        · exact Or.inl fun h2 => h1 (List.mem_cons_of_mem _ h2)
        · right; rw [hold i hi hit]; exact h1
      · intro i m' hi hmi
        rcases List.mem_cons.1 hi with h1 | h1
        · subst h1
          rw [hm] at hmi; cases hmi
          refine ⟨h.size, Nat.le_refl _, by omega, ?_, ?_⟩
          · rw [k1 i (by omega) (Or.inl hnd'.1), hct]
          · rw [k1 h.size (by omega) (Or.inl hne), hnew]
        · have hit : i ≠ t := fun h => hnd'.1 (h ▸ h1)
          have hi' := hts' i h1
          obtain ⟨e, a, b, c, f⟩ := k2 i m' h1 (by rw [hold i hi' hit]; exact hmi)
          rw [hold i hi' hit] at c
          exact ⟨e, by omega, b, c, f⟩
      · intro e h1 h2
        by_cases h3 : e = h.size
        · subst h3
          exact ⟨t, m, by simp, hm, by rw [k1 h.size (by omega) (Or.inl hne), hnew]⟩
        · obtain ⟨i, m', a, b, c⟩ := k3 e (by omega) h2
          have hit : i ≠ t := fun h => hnd'.1 (h ▸ a)
          rw [hold i (hts' i a) hit] at b
          exact ⟨i, m', List.mem_cons_of_mem _ a, b, c⟩

theorem Ctl.open_tags {d : Doc} (hd : Ctl d) : d.chain.dropLast.reverse.Nodup ∧
    ∀ t ∈ d.chain.dropLast.reverse, t ∈ d.chain ∧ t ≠ 0 := by
  have hnd : d.chain.Nodup := hd.chainSorted.imp (fun h => by omega)
  have hsub := List.dropLast_sublist d.chain
  refine ⟨List.pairwise_reverse.2 ((hnd.sublist hsub).imp Ne.symm), ?_⟩
  intro t ht
  rw [List.mem_reverse] at ht
  refine ⟨hsub.subset ht, ?_⟩
  rintro rfl
  have hne : d.chain ≠ [] := by intro h; rw [h] at ht; cases ht
  have hl := hd.chainLast hne
  have hcat : d.chain.dropLast ++ [0] = d.chain := by
    have := List.dropLast_concat_getLast hne
    rw [List.getLast?_eq_some_getLast hne, Option.some.injEq] at hl
    rwa [hl] at this
  rw [← hcat] at hnd
  have := (List.nodup_append.1 hnd).2.2 0 ht 0 (by simp)
  exact this rfl

theorem Ctl.codeIn_text {d : Doc} (hd : Ctl d) (h : d.codeIn = .textNode) : d.handle = .text := by
  have hs := hd.hs
  unfold HandleOk at hs
  rw [h] at hs
  split at hs
  all_goals (try assumption)
  all_goals exfalso
  all_goals (try simp at hs)
  case h_14 =>
    obtain ⟨_, _, m, _, _, h, _⟩ := hs
    rcases rawCode_cases m.name with h1 | h1 | h1 <;> rw [h1] at h <;> cases h

theorem Reach.fixedLinks {o : ParseOptions} {s : Str} {d : Doc} (hr : Reach o s d) :
    Owns o.autoFixUnescapedLt d.fixedHeap ∧ Ends d.fixedHeap := by
  have hd := hr.ctl
  have g := hr.links
  have ho := hr.opts
  unfold Doc.fixedHeap
  split
  · refine fixHeap_links _ _ _ (ho ▸ g.owns) g.ends hd.open_tags.1 ?_
    intro t ht
    obtain ⟨h1, h2⟩ := hd.open_tags.2 t ht
    exact ⟨hd.chainLt t h1, hd.chainTag t h1 h2, g.chainOpen t h1⟩
  · exact ⟨ho ▸ g.owns, g.ends⟩

/-- The cells of the finished document that existed before the end of the input. -/
structure EofCell (d : Doc) (i : NodeId) (a b : Cell) : Prop where
  beginAt : b.beginAt = a.beginAt
  index : b.index = a.index
  root : b.root = a.root
  prev : b.prev = a.prev
  parent : b.parent = a.parent
  childs : b.childs = a.childs
  ty : b.nodeType = a.nodeType ∨ (a.nodeType = .text ∧ b.nodeType = .spacesBetweenTag ∧
    i = d.current ∧ d.codeIn = .textNode ∧ d.repeatWhitespace = true)
  content : b.content = if d.codeIn = .textNode ∧ i = d.current then some d.prevChars else a.content
  tmeta : b.tmeta = a.tmeta ∨ (i ∈ d.chain ∧ i ≠ 0 ∧ d.opts.autoFixUnclosedTag = true ∧
    ∃ m, a.tmeta = some m ∧ b.tmeta = some { m with autoFix := true })
  endTag : b.endTag = a.endTag ∨ (i ∈ d.chain ∧ i ≠ 0 ∧ d.opts.autoFixUnclosedTag = true ∧
    ∃ m e, a.tmeta = some m ∧ b.endTag = some e ∧ d.heap.size ≤ e)
  endAt : b.endAt = if i = 0 ∨ (d.codeIn = .textNode ∧ i = d.current) then d.position else a.endAt

theorem Ctl.text_ne_zero {d : Doc} (hd : Ctl d) (h : d.cur.nodeType = .text) : d.current ≠ 0 := by
  intro h0
  have := (hd.rootTy 0 hd.sizePos).2 rfl
  unfold Doc.cur at h
  rw [h0, this] at h; cases h

theorem Ctl.cur_text {d : Doc} (hd : Ctl d) (h : d.codeIn = .textNode) : d.cur.nodeType = .text := by
  have hs := hd.hs
  unfold HandleOk at hs
  simp only [hd.codeIn_text h] at hs
  exact hs.2.2.1

theorem fixedHeap_cell {d : Doc} (hd : Ctl d) (i : NodeId) (hi : i < d.heap.size) :
    d.fixedHeap.cell i = d.heap.cell i ∨ (d.chain.length > 1 ∧ i ∈ d.chain ∧ i ≠ 0 ∧ ∃ m e, (d.heap.cell i).tmeta = some m ∧
      d.heap.size ≤ e ∧ e < d.fixedHeap.size ∧
      d.fixedHeap.cell i = { d.heap.cell i with tmeta := some { m with autoFix := true }, endTag := some e } ∧
      d.fixedHeap.cell e = { Cell.new .tagEnd d.position with content := some m.name, parent := some i }) := by
  unfold Doc.fixedHeap
  split
  · rename_i hl
    obtain ⟨k1, k2, _⟩ := fixHeap_cells d.position _ d.heap hd.open_tags.1
      (fun t ht => hd.chainLt t (hd.open_tags.2 t ht).1)
    by_cases h1 : i ∈ d.chain.dropLast.reverse
    · cases hm : (d.heap.cell i).tmeta with
      | none => left; exact k1 i hi (Or.inr hm)
      | some m =>
        right
        obtain ⟨e, a, b, c, f⟩ := k2 i m h1 hm
        exact ⟨hl, (hd.open_tags.2 i h1).1, (hd.open_tags.2 i h1).2, m, e, rfl, a, b, c, f⟩
    · left; exact k1 i hi (Or.inl h1)
  · exact Or.inl rfl

theorem fixedHeap_new {d : Doc} (hd : Ctl d) (e : NodeId) (h1 : d.heap.size ≤ e) (h2 : e < d.fixedHeap.size) :
    d.chain.length > 1 ∧ ∃ i m, i ∈ d.chain ∧ i ≠ 0 ∧ (d.heap.cell i).tmeta = some m ∧
      d.fixedHeap.cell e = { Cell.new .tagEnd d.position with content := some m.name, parent := some i } := by
  unfold Doc.fixedHeap at h2 ⊢
  split at h2
  · rename_i hl
    rw [if_pos hl]
    obtain ⟨_, _, k3⟩ := fixHeap_cells d.position _ d.heap hd.open_tags.1
      (fun t ht => hd.chainLt t (hd.open_tags.2 t ht).1)
    obtain ⟨i, m, a, b, c⟩ := k3 e h1 h2
    exact ⟨hl, i, m, (hd.open_tags.2 i a).1, (hd.open_tags.2 i a).2, b, c⟩
  · omega

theorem fixedHeap_size (d : Doc) : d.heap.size ≤ d.fixedHeap.size := by
  unfold Doc.fixedHeap
  split
  · exact fixHeap_size _ _ _
  · exact Nat.le_refl _

@[simp] theorem finalHeap_size (d : Doc) : d.finalHeap.size = d.fixedHeap.size := by
  unfold Doc.finalHeap
  split <;> simp

theorem finalHeap_cell {d : Doc} (i : NodeId) (h : i ≠ 0) (hc : d.codeIn = .textNode → i ≠ d.current) :
    d.finalHeap.cell i = d.fixedHeap.cell i := by
  unfold Doc.finalHeap
  rw [Heap.upd_cell, if_neg h]
  split
  · rename_i h1; rw [Heap.upd_cell, if_neg (hc h1)]
  · rfl

theorem eofCell {d : Doc} (hd : Ctl d) (he : EofOk d) (i : NodeId) (hi : i < d.heap.size) :
    EofCell d i (d.heap.cell i) (d.finalHeap.cell i) := by
  have hf : EofCell d i (d.heap.cell i)
      { d.fixedHeap.cell i with
        content := if d.codeIn = .textNode ∧ i = d.current then some d.prevChars else (d.heap.cell i).content
        endAt := if i = 0 ∨ (d.codeIn = .textNode ∧ i = d.current) then d.position else (d.heap.cell i).endAt
        nodeType := if d.codeIn = .textNode ∧ i = d.current ∧ d.repeatWhitespace = true then .spacesBetweenTag
          else (d.heap.cell i).nodeType } := by
    have hty : (if d.codeIn = .textNode ∧ i = d.current ∧ d.repeatWhitespace = true then NodeType.spacesBetweenTag
          else (d.heap.cell i).nodeType) = (d.heap.cell i).nodeType ∨
        ((d.heap.cell i).nodeType = .text ∧
          (if d.codeIn = .textNode ∧ i = d.current ∧ d.repeatWhitespace = true then NodeType.spacesBetweenTag
          else (d.heap.cell i).nodeType) = .spacesBetweenTag ∧
          i = d.current ∧ d.codeIn = .textNode ∧ d.repeatWhitespace = true) := by
      split
      · rename_i h
        right
        refine ⟨?_, rfl, h.2.1, h.1, h.2.2⟩
        rw [h.2.1]; exact hd.cur_text h.1
      · exact Or.inl rfl
    rcases fixedHeap_cell hd i hi with h | ⟨hl, h1, h2, m, e, h3, h4, h5, h6, h7⟩
    · rw [h]
      exact ⟨rfl, rfl, rfl, rfl, rfl, rfl, hty, rfl, Or.inl rfl, Or.inl rfl, rfl⟩
    · have ha : d.opts.autoFixUnclosedTag = true := by
        rcases he.closed with h | h
        · omega
        · exact h
      rw [h6]
      exact ⟨rfl, rfl, rfl, rfl, rfl, rfl, hty, rfl, Or.inr ⟨h1, h2, ha, m, h3, rfl⟩,
        Or.inr ⟨h1, h2, ha, m, e, h3, rfl, h4⟩, rfl⟩
  have hfix : (d.fixedHeap.cell i).nodeType = (d.heap.cell i).nodeType ∧
      (d.fixedHeap.cell i).content = (d.heap.cell i).content ∧ (d.fixedHeap.cell i).endAt = (d.heap.cell i).endAt := by
    rcases fixedHeap_cell hd i hi with h | ⟨hl, h1, h2, m, e, h3, h4, h5, h6, h7⟩
    · rw [h]; exact ⟨rfl, rfl, rfl⟩
    · rw [h6]; exact ⟨rfl, rfl, rfl⟩
  have hcur0 : d.codeIn = .textNode → d.current ≠ 0 := fun h => hd.text_ne_zero (hd.cur_text h)
  by_cases h0 : i = 0
  · have hcell : d.finalHeap.cell i = { d.fixedHeap.cell i with endAt := d.position, document := true } := by
      unfold Doc.finalHeap
      rw [Heap.upd_cell, if_pos h0]
      split
      · rename_i h1; rw [Heap.upd_cell, if_neg (by rw [h0]; exact (hcur0 h1).symm)]
      · rfl
    rw [hcell]
    have hnc : ¬ (d.codeIn = .textNode ∧ i = d.current) := by
      rintro ⟨h1, h2⟩; exact hcur0 h1 (by rw [← h2, h0])
    refine ⟨hf.beginAt, hf.index, hf.root, hf.prev, hf.parent, hf.childs, Or.inl hfix.1, ?_, hf.tmeta, hf.endTag, ?_⟩
    · rw [if_neg hnc]; exact hfix.2.1
    · rw [if_pos (Or.inl h0)]
  · by_cases h1 : d.codeIn = .textNode ∧ i = d.current
    · have hcell : d.finalHeap.cell i = d.lastText (d.fixedHeap.cell i) := by
        unfold Doc.finalHeap
        rw [Heap.upd_cell, if_neg h0, if_pos h1.1, Heap.upd_cell, if_pos h1.2]
      rw [hcell]
      unfold Doc.lastText
      refine ⟨hf.beginAt, hf.index, hf.root, hf.prev, hf.parent, hf.childs, ?_, ?_, hf.tmeta, hf.endTag, ?_⟩
      · simp only [hfix.1]
        cases hw : d.repeatWhitespace with
        | true =>
          right
          exact ⟨by rw [h1.2]; exact hd.cur_text h1.1, by simp, h1.2, h1.1, rfl⟩
        | false => left; simp
      · rw [if_pos h1]
      · rw [if_pos (Or.inr h1)]
    · have hcell : d.finalHeap.cell i = d.fixedHeap.cell i :=
        finalHeap_cell i h0 (fun a b => h1 ⟨a, b⟩)
      rw [hcell]
      refine ⟨hf.beginAt, hf.index, hf.root, hf.prev, hf.parent, hf.childs, Or.inl hfix.1, ?_, hf.tmeta, hf.endTag, ?_⟩
      · rw [if_neg h1]; exact hfix.2.1
      · rw [if_neg (fun h => h.elim h0 h1)]; exact hfix.2.2

/-- The links of the finished document. -/
theorem Reach.finalLinks {o : ParseOptions} {s : Str} {d : Doc} (hr : Reach o s d) :
    Owns o.autoFixUnescapedLt d.finalHeap ∧ Ends d.finalHeap := by
  obtain ⟨g, e⟩ := hr.fixedLinks
  have hd := hr.ctl
  have hcl : d.current < d.fixedHeap.size := Nat.lt_of_lt_of_le hd.curLt (fixedHeap_size d)
  have hsame : ∀ i, (d.finalHeap.cell i).childs = (d.fixedHeap.cell i).childs ∧
      (d.finalHeap.cell i).index = (d.fixedHeap.cell i).index ∧ (d.finalHeap.cell i).root = (d.fixedHeap.cell i).root ∧
      (d.finalHeap.cell i).parent = (d.fixedHeap.cell i).parent ∧
      (d.finalHeap.cell i).endTag = (d.fixedHeap.cell i).endTag ∧
      ((d.fixedHeap.cell i).content ≠ none → (d.finalHeap.cell i).content ≠ none) ∧
      TyLe (d.fixedHeap.cell i).nodeType (d.finalHeap.cell i).nodeType := by
    intro i
    have key : ∀ h : Heap, (h.upd 0 fun n => { n with endAt := d.position, document := true }).cell i =
        if i = 0 then { h.cell i with endAt := d.position, document := true } else h.cell i := fun h => rfl
    unfold Doc.finalHeap
    by_cases hc : d.codeIn = .textNode
    · rw [if_pos hc, key]
      have htx : (d.fixedHeap.cell d.current).nodeType = .text := by
        rcases fixedHeap_cell hd d.current hd.curLt with h | ⟨hl, h1, h2, m, e, h3, h4, h5, h6, h7⟩
        · rw [h]; exact hd.cur_text hc
        · rw [h6]; exact hd.cur_text hc
      rw [Heap.upd_cell]
      by_cases h1 : i = d.current
      · rw [if_pos h1]
        have h0 : ¬ i = 0 := by rw [h1]; exact hd.text_ne_zero (hd.cur_text hc)
        rw [if_neg h0, h1]
        refine ⟨rfl, rfl, rfl, rfl, rfl, by simp [Doc.lastText], ?_⟩
        simp only [Doc.lastText]
        split
        · exact Or.inr ⟨htx, rfl⟩
        · exact Or.inl rfl
      · rw [if_neg h1]; split <;> exact ⟨rfl, rfl, rfl, rfl, rfl, id, Or.inl rfl⟩
    · rw [if_neg hc, key]; split <;> exact ⟨rfl, rfl, rfl, rfl, rfl, id, Or.inl rfl⟩
  refine ⟨g.keep (finalHeap_size d) fun i _ => ?_, e.keep (by simp) (fun i _ => ?_) (fun i h1 h2 => ?_)⟩
  · obtain ⟨a1, a2, a3, a4, a5, a6, a7⟩ := hsame i
    exact ⟨a1, a2, a3, a7, fun _ => a4⟩
  · obtain ⟨a1, a2, a3, a4, a5, a6, a7⟩ := hsame i
    exact ⟨a5, a7, fun _ => ⟨a4, a6⟩⟩
  · rw [finalHeap_size] at h2; omega

end Rphtml
