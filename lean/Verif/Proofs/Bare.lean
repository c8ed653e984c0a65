import Verif.Proofs.CtlStep
import Verif.Proofs.Final

/-!
# Doctypes and the root have no content
-/

namespace Rphtml

/-- A doctype and the root have no content. -/
def Cell.bare (c : Cell) : Prop := c.nodeType = .htmlDoctype ∨ c.nodeType = .abstractRoot → c.content = none

theorem Cell.bare_of {c : Cell} (h1 : c.nodeType ≠ .htmlDoctype) (h2 : c.nodeType ≠ .abstractRoot) : c.bare :=
  fun h => h.elim (fun h => absurd h h1) (fun h => absurd h h2)

/-- That for all cells. -/
def Heap.bare (h : Heap) : Prop := ∀ i, (h.cell i).bare

theorem Heap.bare.upd {h : Heap} (hc : h.bare) (i : NodeId) (f : Cell → Cell) (hf : (f (h.cell i)).bare) : (h.upd i f).bare := by
  intro j
  rw [Heap.upd_cell]
  split
  · rename_i e; subst e; exact hf
  · exact hc j

theorem Heap.bare.push {h : Heap} (hc : h.bare) (x : Cell) (hx : x.bare) : (h.push x).bare := by
  intro j
  rw [Heap.push_cell]
  split
  · exact hx
  · exact hc j

theorem Heap.bare.mark {h : Heap} (hc : h.bare) (o : Option NodeId) : (h.markSpaces o).bare := by
  intro j
  rw [markSpaces_cell]
  split
  · exact Cell.bare_of (by simp) (by simp)
  · exact hc j

theorem Heap.bare.child {d : Doc} (hc : d.heap.bare) (p : NodeId) (x : Cell) (hx : x.bare) : (d.addChild p x).heap.bare := by
  unfold Doc.addChild
  dsimp only
  have h1 := hc.push { x with index := ((d.heap.cell p).childs.getD []).length, parent := some p, root := some d.root } hx
  exact h1.upd _ _ (h1 p)

theorem Heap.bare.step {d d' : Doc} {c : Char} (hd : Ctl d) (h : d.heap.bare) (hs : Step d c d') : d'.heap.bare := by
  have hcur : d.cur.bare := h d.current
  have hput : ∀ t id, (d.putTag t id).heap.bare := by
    intro t id
    unfold Doc.putTag
    dsimp only
    exact h.upd _ _ hcur
  have hok := hd.hs
  unfold HandleOk at hok
  have htext : d.cur.nodeType = .text → ∀ x : Cell, x.nodeType = d.cur.nodeType → x.bare := by
    intro ht x hx
    exact Cell.bare_of (by rw [hx, ht]; simp) (by rw [hx, ht]; simp)
  have hnew : ∀ ty b, (Cell.new ty b).bare := fun ty b _ => rfl
  cases hs with
  | lt hh hc => exact h
  | textResume hh hc hf ht w hw =>
    dsimp only
    exact h.upd _ _ (htext ht _ rfl)
  | textStart hh hc hf p hp' => exact h.child _ _ (hnew _ _)
  | textMore hh hc => exact h
  | textEnd hh hc =>
    simp only [hh] at hok
    unfold Doc.endText
    dsimp only
    refine h.upd _ _ (Cell.bare_of ?_ ?_)
    · show d.cur.nodeType ≠ _
      rw [hok.2.2.1]; simp
    · show d.cur.nodeType ≠ _
      rw [hok.2.2.1]; simp
  | tagOpen hh hc p hp' => exact (h.child _ _ (hnew _ _)).mark _
  | endOpen hh hc =>
    dsimp only
    exact h.push _ (Cell.bare_of (by simp [Cell.new]) (by simp [Cell.new]))
  | bang hh hc => exact h
  | ltExtend hh hf hc ht w hw d1 h1 =>
    have h2 : d1.heap.bare := by
      subst h1
      dsimp only
      exact h.upd _ _ (htext ht _ rfl)
    have h3 : (d1.heap.cell d1.current).nodeType = .text := by
      subst h1
      dsimp only
      rw [Heap.upd_cell, if_pos rfl]
      exact ht
    split
    · unfold Doc.endText
      dsimp only
      refine h2.upd _ _ (Cell.bare_of ?_ ?_)
      · show (d1.heap.cell d1.current).nodeType ≠ _
        rw [h3]; simp
      · show (d1.heap.cell d1.current).nodeType ≠ _
        rw [h3]; simp
    · exact h2
  | ltNew hh hf hc ht p hp' d1 h1 =>
    have h2 : d1.heap.bare := by
      subst h1
      dsimp only
      have h4 := h.push { Cell.new .text d.memPosition with index := ((d.heap.cell p).childs.getD []).length } fun _ => rfl
      exact h4.upd _ _ (h4 p)
    have h3 : (d1.heap.cell d1.current).nodeType = .text := by
      subst h1
      dsimp only
      rw [Heap.upd_cell]
      split
      · rename_i e
        simp only [Heap.push_cell, ← e, if_true]
        rfl
      · rw [Heap.push_cell, if_pos rfl]
        rfl
    split
    · unfold Doc.endText
      dsimp only
      refine h2.upd _ _ (Cell.bare_of ?_ ?_)
      · show (d1.heap.cell d1.current).nodeType ≠ _
        rw [h3]; simp
      · show (d1.heap.cell d1.current).nodeType ≠ _
        rw [h3]; simp
    · exact h2
  | exclFirst hh hdet D hD => exact h
  | exclMore hh D hdet hl hc => exact h
  | commentOpen hh hdet hl hc p hp' => exact (h.child _ _ (hnew _ _)).mark _
  | cdataOpen hh hdet hl hc p hp' => exact (h.child _ _ (hnew _ _)).mark _
  | doctypeOpen hh hdet hl hc p hp' => exact (h.child _ _ (hnew _ _)).mark _
  | commentMore hh hc => exact h
  | commentClose hh hc b hb hp' =>
    simp only [hh] at hok
    dsimp only
    refine h.upd _ _ (Cell.bare_of ?_ ?_)
    · show d.cur.nodeType ≠ _
      rcases hok.2 with ⟨_, _, k⟩ | ⟨_, _, k⟩ <;> rw [k] <;> simp
    · show d.cur.nodeType ≠ _
      rcases hok.2 with ⟨_, _, k⟩ | ⟨_, _, k⟩ <;> rw [k] <;> simp
  | doctypeName hh hc => exact hput _ _
  | nameMore hh hc => exact h
  | nameEnd hh hc => exact hput _ _
  | nameClose hh hc m hm => rw [closeTag_heap]; exact hput _ _
  | tagMore hh m hm t id ht => exact hput _ _
  | tagClose hh m hm m' pc mark id ht => rw [closeTag_heap]; exact hput _ _
  | tagSelf hh hc m hm ha =>
    dsimp only
    exact h.upd _ _ hcur
  | endMore hh hc => exact h
  | endMatch hh hc t m hm =>
    simp only [hh] at hok
    dsimp only
    unfold Doc.endHeap
    refine Heap.bare.upd (Heap.bare.mark (h.upd _ _ (h t)) _) _ _ ?_
    refine Cell.bare_of ?_ ?_
    all_goals
      show (((d.heap.upd t fun n => { n with endTag := some d.current }).markSpaces (d.markTarget t)).cell d.current).nodeType ≠ _
      rw [markSpaces_cell]
      split
      · simp
      · rw [Heap.upd_cell]
        split
        · rename_i e
          show d.cur.nodeType ≠ _
          rw [hok.2.2.1]; simp
        · show d.cur.nodeType ≠ _
          rw [hok.2.2.1]; simp
  | endStray hh hc hf hm => exact h
  | rawMore hh hc => exact h
  | rawClose hh hc e he n' hn =>
    simp only [hh] at hok
    dsimp only
    unfold Doc.rawHeap
    refine Heap.bare.upd (h.push _ (Cell.bare_of ?_ ?_)) _ _ ?_
    · simp [Cell.new]
    · simp [Cell.new]
    · refine Cell.bare_of ?_ ?_
      all_goals
        dsimp only
        rw [Heap.push_cell]
        split
        · simp [Cell.new]
        · show d.cur.nodeType ≠ _
          rw [hok.1]; simp

theorem Reach.bare {o : ParseOptions} {s : Str} {d : Doc} (h : Reach o s d) : d.heap.bare := by
  induction h with
  | init =>
    intro i _
    simp only [Doc.new]
    split <;> rfl
  | step hr hs ih =>
    have := ih.step hr.ctl hs
    exact this

theorem Heap.bare.fix (pos : Nat) : ∀ (ts : List NodeId) (h : Heap), h.bare → (fixHeap pos h ts).bare
  | [], h, hb => hb
  | t :: ts, h, hb => by
    unfold fixHeap
    split
    · exact Heap.bare.fix pos ts h hb
    · have h1 := hb.push { Cell.new .tagEnd pos with content := some (by assumption : TagMeta).name, parent := some t }
        (Cell.bare_of (by simp [Cell.new]) (by simp [Cell.new]))
      exact Heap.bare.fix pos ts _ (h1.upd _ _ (h1 t))

/-- In an accepted document, too. -/
theorem Reach.finalBare {o : ParseOptions} {s : Str} {d : Doc} (hr : Reach o s d) : d.finalHeap.bare := by
  have h1 : d.fixedHeap.bare := by
    unfold Doc.fixedHeap
    split
    · exact hr.bare.fix _ _ _
    · exact hr.bare
  unfold Doc.finalHeap
  have h2 : (if d.codeIn = .textNode then d.fixedHeap.upd d.current d.lastText else d.fixedHeap).bare := by
    split
    · rename_i hc
      have h3 := hr.ctl.cur_text hc
      have h4 : (d.fixedHeap.cell d.current).nodeType = .text := by
        rcases fixedHeap_cell hr.ctl d.current hr.ctl.curLt with h | ⟨_, _, _, m, e, _, _, _, h, _⟩
        · rw [h]; exact h3
        · rw [h]; exact h3
      refine h1.upd _ _ (Cell.bare_of ?_ ?_)
      all_goals
        unfold Doc.lastText
        dsimp only
        split
        · simp
        · rw [h4]; simp
    · exact h1
  exact h2.upd _ _ (h2 0)

end Rphtml
