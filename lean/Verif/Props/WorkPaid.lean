import Verif.Proofs.Fresh
import Verif.Proofs.Final

/-!
# C64, the measure: nothing is written for free

`stepWork` is written by hand beside the model.  Here it is compared with what the model does: in every step, the characters
that are new anywhere in the parser are at most the work of the step.
-/

namespace Rphtml
open Spec

/-- C64, the measure: whatever the parser has read, the next character writes no more than it is charged for. -/
theorem c64_written {o : ParseOptions} {u ctx ctx' : Str} {c : Char} {d d' : Doc} (h : (Doc.new o).run ctx u = .ok d)
    (hn : d.next c ctx' = .ok d') : docFresh d d' ≤ stepWork d c := by
  have hr : Reach o u d := by simpa using Reach.run u [] (Doc.new o) d Reach.init h
  obtain ⟨d1, hs, rfl, _⟩ := hr.next_step hn
  have e : docFresh d { d1 with position := d1.position + 1 } = docFresh d d1 := rfl
  rw [e]
  exact step_fresh hr.ctl hs

theorem heapSize_eq (h : Heap) : heapSize h = heapFresh { size := 0, cell := h.cell } h := by
  unfold heapSize heapFresh cellSize
  simp

theorem heapSize_keep {h : Heap} {i : Nat} {f : Cell → Cell} (hf : ∀ c, (f c).content = c.content ∧ (f c).tmeta = c.tmeta) :
    heapSize (h.upd i f) = heapSize h := by
  rw [heapSize_eq, heapSize_eq]
  exact heapFresh_keep (h0 := { size := 0, cell := h.cell }) hf

theorem heapSize_content {h : Heap} {i : Nat} {f : Cell → Cell} {w : Str} (hf : ∀ c, (f c).content = some w ∧ (f c).tmeta = c.tmeta) :
    heapSize (h.upd i f) ≤ heapSize h + w.length := by
  have := heapFresh_ge h (h.upd i f)
  have h1 := heapFresh_content (h0 := h) (h := h) (i := i) hf
  rw [heapFresh_self] at h1
  omega

theorem heapSize_push (h : Heap) (c : Cell) : heapSize (h.push c) ≤ heapSize h + cellSize c.toNodeD := by
  have := heapFresh_ge h (h.push c)
  have := heapFresh_push (h := h) c
  omega

theorem unclosedWork_append (h : Heap) : ∀ a b, unclosedWork h (a ++ b) = unclosedWork h a + unclosedWork h b
  | [], b => by simp [unclosedWork]
  | t :: a, b => by
    have := unclosedWork_append h a b
    simp only [List.cons_append, unclosedWork]
    omega

theorem unclosedWork_reverse (h : Heap) : ∀ a, unclosedWork h a.reverse = unclosedWork h a
  | [] => rfl
  | t :: a => by
    have := unclosedWork_reverse h a
    rw [List.reverse_cons, unclosedWork_append, this]
    simp only [unclosedWork]
    omega

theorem unclosedWork_same {h h' : Heap} : ∀ ts : List NodeId, (∀ t ∈ ts, nameLen (h'.cell t) = nameLen (h.cell t)) →
    unclosedWork h' ts = unclosedWork h ts
  | [], _ => rfl
  | t :: ts, hts => by
    have h1 := unclosedWork_same ts fun x hx => hts x (by simp [hx])
    have h2 := hts t (by simp)
    have e : ∀ g : Heap, unclosedWork g (t :: ts) = 1 + nameLen (g.cell t) + unclosedWork g ts := fun _ => rfl
    rw [e, e, h1, h2]

/-- The end tags added at the end of the text. -/
theorem fixHeap_held (pos : Nat) : ∀ (ts : List NodeId) (h : Heap), (∀ t ∈ ts, t < h.size) →
    heapSize (fixHeap pos h ts) ≤ heapSize h + unclosedWork h ts
  | [], h, _ => by simp [fixHeap, unclosedWork]
  | t :: ts, h, ht => by
    have hx : t < h.size := ht t (by simp)
    unfold fixHeap
    cases hm : (h.cell t).tmeta with
    | none =>
      have := fixHeap_held pos ts h fun x hx => ht x (by simp [hx])
      simp only [unclosedWork, hm]
      omega
    | some m =>
      generalize hg : (h.push { Cell.new .tagEnd pos with content := some m.name, parent := some t }).upd t (fun n =>
        { n with tmeta := some { m with autoFix := true }, endTag := some h.size }) = g
      have hcell : ∀ x, x < h.size → (g.cell x).content = (h.cell x).content ∧ nameLen (g.cell x) = nameLen (h.cell x) := by
        intro x hx
        rw [← hg, Heap.upd_cell, Heap.push_cell, if_neg (show x ≠ h.size by omega)]
        split
        · rename_i e; subst e; exact ⟨rfl, by rw [nameLen_some hm]; rfl⟩
        · exact ⟨rfl, rfl⟩
      have ih := fixHeap_held pos ts g fun x hx => by
        have := ht x (by simp [hx])
        rw [← hg]; simp; omega
      rw [unclosedWork_same (h := h) ts fun x hx => (hcell x (ht x (by simp [hx]))).2] at ih
      have h1 : heapSize g ≤ heapSize h + m.name.length := by
        have h2 := heapSize_push h { Cell.new .tagEnd pos with content := some m.name, parent := some t }
        have h3 : cellSize { (Cell.new .tagEnd pos).toNodeD with content := some m.name } = m.name.length := by
          simp [cellSize, cellFresh, Cell.new, metaFresh, fresh_nil, freshs_self]
        have h4 := Nat.le_trans h2 (Nat.le_of_eq (congrArg (heapSize h + ·) h3))
        refine Nat.le_trans (Nat.le_of_eq ?_) h4
        rw [← hg]
        unfold heapSize
        rw [Heap.upd_size]
        congr 1
        funext x
        by_cases e : x = t
        · subst e
          rw [Heap.upd_cell, if_pos rfl]
          have e2 : ((h.push { Cell.new .tagEnd pos with content := some m.name, parent := some x }).cell x).tmeta = some m := by
            rw [Heap.push_cell, if_neg (show x ≠ h.size by omega)]; exact hm
          simp only [cellSize, cellFresh, metaFresh, e2, Option.getD_some]
        · rw [Heap.upd_cell, if_neg e]
      have e : unclosedWork h (t :: ts) = 1 + m.name.length + unclosedWork h ts := by
        simp only [unclosedWork, hm]
      rw [e]
      refine Nat.le_trans (m := heapSize (fixHeap pos g ts)) (Nat.le_of_eq ?_) (by omega)
      rw [← hg]

theorem runHeld {o : ParseOptions} {ctx : Str} : ∀ (cs s : Str) (d d' : Doc), Reach o s d → d.run ctx cs = .ok d' →
    heapSize d'.heap + cs.length + eofWork d' ctx ≤ heapSize d.heap + runWork d ctx cs
  | [], s, d, d', hr, h => by
    cases h
    simp [runWork]
  | c :: cs, s, d, d', hr, h => by
    simp only [Doc.run, Res.bind_eq] at h
    cases hn : d.next c ctx with
    | err e => rw [hn] at h; cases h
    | panic e => rw [hn] at h; cases h
    | ok d2 =>
      rw [hn] at h
      obtain ⟨d1, hs, he, hr'⟩ := hr.next_step hn
      have ih := runHeld cs _ d2 d' hr' h
      have h1 := step_fresh hr.ctl hs
      have h2 := heapFresh_ge d.heap d1.heap
      have h3 : heapFresh d.heap d1.heap ≤ docFresh d d1 := by unfold docFresh; omega
      have h4 : d2.heap = d1.heap := by rw [he]
      rw [h4] at ih
      simp only [runWork, hn, List.length_cons]
      omega

theorem finalHeap_held {d : Doc} {ctx : Str} (hd : Ctl d) (he : EofOk d) : heapSize d.finalHeap ≤ heapSize d.heap + eofWork d ctx := by
  unfold Doc.finalHeap
  rw [heapSize_keep (f := fun n => { n with endAt := d.position, document := true }) fun _ => ⟨rfl, rfl⟩]
  have h6 : heapSize d.fixedHeap ≤ heapSize d.heap + if d.opts.autoFixUnclosedTag then unclosedWork d.heap d.chain else 0 := by
    have hl := hd.chainLt
    unfold Doc.fixedHeap
    split
    · rename_i hc
      have ha : d.opts.autoFixUnclosedTag = true := by
        rcases he.closed with hx | hx
        · omega
        · exact hx
      have h8 := fixHeap_held d.position d.chain.dropLast.reverse d.heap fun t ht =>
        hl t (List.dropLast_subset _ (List.mem_reverse.1 ht))
      rw [unclosedWork_reverse] at h8
      have h9 := unclosedWork_append d.heap d.chain.dropLast [d.chain.getLast (by intro e; rw [e] at hc; cases hc)]
      rw [List.dropLast_concat_getLast] at h9
      rw [if_pos ha]
      omega
    · omega
  have h7 : heapSize (if d.codeIn = .textNode then d.fixedHeap.upd d.current d.lastText else d.fixedHeap) ≤
      heapSize d.fixedHeap + if d.codeIn = .textNode then d.prevChars.length else 0 := by
    split
    · exact heapSize_content fun _ => ⟨rfl, rfl⟩
    · omega
  unfold eofWork
  omega

/-- C64, the measure: nor does `eof` add more to the nodes than it is charged for. -/
theorem c64_end {o : ParseOptions} {u ctx ctx' : Str} {d d' : Doc} (h : (Doc.new o).run ctx u = .ok d) (he : d.eof ctx' = .ok d') :
    heapSize d'.heap ≤ heapSize d.heap + eofWork d ctx' := by
  have hr : Reach o u d := by simpa using Reach.run u [] (Doc.new o) d Reach.init h
  obtain ⟨k1, k2, _⟩ := eof_ok hr.ctl.root0 he
  have k3 := finalHeap_held (ctx := ctx') hr.ctl k1
  rw [← k2] at k3
  have k4 : heapSize d'.intoRoot.heap = heapSize d'.heap := heapSize_keep (f := fun n => { n with document := true }) fun _ => ⟨rfl, rfl⟩
  omega

/-- C64, the measure: reading every character and filling the nodes of the document is paid for. -/
theorem c64_held {s : Str} {o : ParseOptions} {d : Doc} (h : Doc.parse s o = .ok d) : s.length + heapSize d.heap ≤ parseWork s o := by
  obtain ⟨d0, h1, hr, he, h2, _⟩ := parse_run h
  have h3 := runHeld s [] (Doc.new o) d0 Reach.init h1
  have h4 : heapSize (Doc.new o).heap = 0 := by
    simp [heapSize, Doc.new, sumTo, cellSize, cellFresh, Cell.new, metaFresh, fresh_self, freshs_self]
  have h5 : heapSize d.heap ≤ heapSize d0.heap + eofWork d0 s := by
    rw [h2]
    exact finalHeap_held hr.ctl he
  unfold parseWork
  omega

/-- The nine characters in the nodes are a name, a key and its lower-cased copy, a value, a text and the name of an
end tag. -/
example : parseWork "<p id='x'>ab</p>".toList {} = 66 ∧ (match Doc.parse "<p id='x'>ab</p>".toList {} with | .ok d => heapSize d.heap | _ => 0) = 9 := by
  decide +kernel

/-- At the end of this text its two open tags get end tags and its last text is copied: five characters. -/
example : (match (Doc.new { autoFixUnclosedTag := true }).run [] "<p><ul>ab".toList with
    | .ok d => (match d.eof [] with | .ok d' => some (heapSize d.heap, heapSize d'.heap, eofWork d []) | _ => none)
    | _ => none) = some (3, 8, 8) := by decide +kernel

/-- The quote that ends an id: its three characters are moved to the attribute and copied to the table of ids. -/
example : (match (Doc.new {}).run [] "<p id='abc".toList with
    | .ok d => (match d.next '\'' [] with | .ok d' => some (docFresh d d', stepWork d '\'') | _ => none)
    | _ => none) = some (6, 12) := by decide +kernel

end Rphtml
