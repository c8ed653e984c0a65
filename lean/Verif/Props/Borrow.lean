import Verif.Model.Borrow
import Verif.Proofs.Reach
import Verif.Props.Clone

/-!
# C55: no `RefCell` is borrowed twice
-/

namespace Rphtml
open Spec

/-- The borrows that are alive after `t`, if those in `H` are alive before it, the last one first; `none` if one panics or if
they do not end in the opposite order. -/
def track : List (Mode × RCell) → List Borrow → Option (List (Mode × RCell))
  | H, [] => some H
  | H, .take .shared x :: t => if (Mode.excl, x) ∈ H then none else track ((.shared, x) :: H) t
  | H, .take .excl x :: t => if (Mode.excl, x) ∈ H ∨ (Mode.shared, x) ∈ H then none else track ((.excl, x) :: H) t
  | [], .give _ _ :: _ => none
  | y :: H, .give m x :: t => if y = (m, x) then track H t else none

/-- Nothing in `t` panics while `H` is alive, and all borrows of `t` end. -/
def Safe (H : List (Mode × RCell)) (t : List Borrow) : Prop := track H t = some H

theorem track_append (a b : List Borrow) : ∀ H, track H (a ++ b) = (track H a).bind fun H => track H b := by
  induction a with
  | nil => intro H; simp [track]
  | cons e a ih =>
    intro H
    cases e with
    | take m x =>
      cases m <;> simp only [List.cons_append, track] <;> split <;> simp [ih]
    | give m x =>
      cases H with
      | nil => simp [track]
      | cons y H => simp only [List.cons_append, track]; split <;> simp [ih]

namespace Safe
variable {H : List (Mode × RCell)} {t u : List Borrow} {x : RCell}

theorem nil : Safe H [] := rfl

theorem app (h : Safe H t) (k : Safe H u) : Safe H (t ++ u) := by
  unfold Safe at *; rw [track_append, h]; exact k

theorem read (hx : (Mode.excl, x) ∉ H) (h : Safe ((.shared, x) :: H) t) : Safe H (rd x t) := by
  unfold Safe at *
  rw [rd, track, if_neg hx, track_append, h]
  simp [track]

theorem write (hx : (Mode.excl, x) ∉ H ∧ (Mode.shared, x) ∉ H) (h : Safe ((.excl, x) :: H) t) : Safe H (wr x t) := by
  unfold Safe at *
  rw [wr, track, if_neg (by simp [hx.1, hx.2]), track_append, h]
  simp [track]

theorem ite {p : Prop} [Decidable p] (h : p → Safe H t) (k : ¬ p → Safe H u) : Safe H (if p then t else u) := by
  split
  · exact h ‹_›
  · exact k ‹_›

theorem ifMeta {d : Doc} {i : NodeId} (h : Safe H t) : Safe H (d.ifMeta i t) := by
  unfold Doc.ifMeta; split
  · exact h
  · exact nil

theorem after {r : Res Doc} {f : Doc → List Borrow} (h : ∀ d, r = .ok d → Safe H (f d)) : Safe H (r.after f) := by
  cases r with
  | ok d => exact h d rfl
  | err => exact nil
  | panic => exact nil

end Safe

/-- How many borrows are alive. -/
theorem track_alive : ∀ (t : List Borrow) (H H' : List (Mode × RCell)), track H t = some H' → ∀ m x,
    (H'.count (m, x) : Int) = H.count (m, x) + alive t m x
  | [], H, H', h, m, x => by simp [track] at h; subst h; simp [alive]
  | .take n y :: t, H, H', h, m, x => by
    have : track ((n, y) :: H) t = some H' := by
      cases n <;> simp only [track] at h <;> split at h <;> simp_all
    have := track_alive t _ _ this m x
    rw [this]
    unfold alive
    simp only [List.count_cons]
    by_cases e : n = m ∧ y = x
    · obtain ⟨rfl, rfl⟩ := e; simp; omega
    · have e1 : ((n, y) == (m, x)) = false := by simpa using fun h => by simpa [h] using e
      have e2 : (Borrow.take n y == Borrow.take m x) = false := by simpa using fun h => by simpa [h] using e
      simp [e1, e2]
  | .give n y :: t, [], H', h, m, x => by simp [track] at h
  | .give n y :: t, z :: H, H', h, m, x => by
    simp only [track] at h
    split at h
    · rename_i hz
      subst hz
      have := track_alive t _ _ h m x
      rw [this]
      unfold alive
      simp only [List.count_cons]
      by_cases e : n = m ∧ y = x
      · obtain ⟨rfl, rfl⟩ := e; simp; omega
      · have e1 : ((n, y) == (m, x)) = false := by simpa using fun h => by simpa [h] using e
        have e2 : (Borrow.give n y == Borrow.give m x) = false := by simpa using fun h => by simpa [h] using e
        simp [e1, e2]
    · cases h

theorem Safe.fine {t : List Borrow} (h : Safe [] t) : Fine t := by
  have key : ∀ a b, t = a ++ b → ∃ H, track [] a = some H ∧ track H b = some [] := by
    intro a b e
    unfold Safe at h
    rw [e, track_append] at h
    cases k : track [] a with
    | none => rw [k] at h; cases h
    | some H => rw [k] at h; exact ⟨H, rfl, h⟩
  refine ⟨?_, ?_, ?_⟩
  · intro a x b e
    obtain ⟨H, h1, h2⟩ := key _ _ e
    have := track_alive a _ _ h1 .excl x
    rw [track] at h2
    split at h2
    · cases h2
    · rw [List.count_eq_zero_of_not_mem ‹_›] at this; simpa using this.symm
  · intro a x b e
    obtain ⟨H, h1, h2⟩ := key _ _ e
    have k1 := track_alive a _ _ h1 .excl x
    have k2 := track_alive a _ _ h1 .shared x
    rw [track] at h2
    split at h2
    · cases h2
    · rename_i hn
      simp only [not_or] at hn
      rw [List.count_eq_zero_of_not_mem hn.1] at k1
      rw [List.count_eq_zero_of_not_mem hn.2] at k2
      exact ⟨by simpa using k1.symm, by simpa using k2.symm⟩
  · intro m x
    have := track_alive t _ _ h m x
    simpa using this.symm

/-! ### Reading -/

section
variable {d : Doc} {c : Char}

theorem safe_look : Safe [] (rd d.curCell (d.ifMeta d.current (rd (.tagMeta d.current)))) :=
  .read (by simp) (.ifMeta (.read (by simp) .nil))

theorem safe_setTagCodeIn : Safe [] d.setTagCodeInB :=
  .write (by simp) (.ifMeta (.write (by simp [Doc.curCell]) .nil))

theorem safe_addTagAttrKey : Safe [] d.addTagAttrKeyB :=
  .write (by simp) (.ifMeta (.app (.write (by simp [Doc.curCell]) .nil) (.write (by simp [Doc.curCell]) .nil)))

theorem safe_setTagAttrKey : Safe [] d.setTagAttrKeyB := safe_setTagCodeIn

theorem safe_addTagAttrValue : Safe [] d.addTagAttrValueB := safe_addTagAttrKey

theorem safe_setTagAttrValue {q : Option Char} : Safe [] (d.setTagAttrValueB q) := by
  refine .write (by simp) (.ifMeta (.write (by simp [Doc.curCell]) ?_))
  split
  · exact .write (by simp [Doc.curCell]) .nil
  · exact .nil

theorem safe_wr {x : RCell} : Safe [] (wr x) := .write (by simp) .nil

theorem safe_spaces : Safe [] d.setTextSpacesBetweenB := by
  unfold Doc.setTextSpacesBetweenB; split
  · exact safe_wr
  · exact .nil

theorem safe_checkTagTypeDo : Safe [] d.checkTagTypeDoB := by
  refine .app safe_look ?_
  split
  · exact .nil
  · exact .ite (fun _ => safe_look) fun _ => .ite (fun _ => safe_look) fun _ => .nil

theorem safe_addNewNode {node : Cell} (h : Ctl d) : Safe [] (d.addNewNodeB node) := by
  refine .app (.read (by simp) .nil) (.ite (fun _ => ?_) fun _ => .nil)
  split
  · exact .nil
  · rename_i p hp
    have := h.chainLt p (List.mem_of_mem_head? hp)
    have hne : p ≠ d.heap.size := by omega
    have w : Safe [(Mode.excl, RCell.node p)] (wr (.node d.heap.size)) := .write (by simp [hne.symm]) .nil
    exact .app safe_wr (.write (by simp) (.app w w))

theorem safe_parseTagWait : Safe [] (parseTagWaitB d c) := by
  unfold parseTagWaitB
  repeat' first
    | exact .nil
    | exact safe_setTagCodeIn
    | exact safe_look
    | exact safe_checkTagTypeDo
    | exact safe_addTagAttrKey
    | exact safe_addTagAttrValue
    | refine Safe.ite (fun _ => ?_) fun _ => ?_
    | refine Safe.app ?_ ?_
    | refine Safe.after fun _ _ => ?_
    | split

theorem safe_fixUnescapedLt (h : Ctl d) : Safe [] (fixUnescapedLtB d c) := by
  have below : ∀ p, p < d.heap.size → Safe [] (wr (.node p) (wr (.node d.heap.size)) ++
      if c = '<' then wr (.node d.heap.size) ++ wr (.node d.heap.size) else []) := by
    intro p hp
    have hne : d.heap.size ≠ p := by omega
    exact .app (.write (by simp) (.write (by simp [hne]) .nil)) (.ite (fun _ => .app safe_wr safe_wr) fun _ => .nil)
  have top : (match d.chain.head? with | some p => p | none => d.root) < d.heap.size := by
    split
    · rename_i p hp; exact h.chainLt p (List.mem_of_mem_head? hp)
    · rw [h.root0]; exact h.sizePos
  have text : Safe [] (parseTextB d c) := .ite (fun _ => .app safe_wr safe_wr) fun _ => .nil
  refine .app (.read (by simp) .nil) ?_
  split
  · exact .app safe_wr text
  · exact .app (.app safe_wr safe_wr) text
  · refine .app safe_look (below _ ?_)
    show (if (!(match d.cur.tmeta with | some m => m.selfClosed || m.autoFix | none => false)) = true then _ else _) < _
    by_cases q : (!(match d.cur.tmeta with | some m => m.selfClosed || m.autoFix | none => false)) = true
    · rw [if_pos q]; exact h.curLt
    · rw [if_neg q]; exact top
  · exact below _ top

theorem safe_runHandle (h : Ctl d) : Safe [] (runHandleB d c) := by
  unfold runHandleB
  split
  · exact .nil
  · -- parse_wait
    refine .ite (fun _ => .nil) fun _ => .ite (fun _ => .app (.read (by simp) .nil) ?_) fun _ => safe_addNewNode h
    exact .ite (fun _ => safe_wr) fun _ => safe_addNewNode h
  · exact .ite (fun _ => .app safe_wr safe_wr) fun _ => .nil
  · exact .ite (fun _ => .app safe_wr safe_setTagCodeIn) fun _ => .nil
  · refine .ite (fun _ => .app safe_wr (.ite (fun _ => .nil) fun _ => safe_checkTagTypeDo)) fun _ => ?_
    exact .ite (fun _ => safe_wr) fun _ => .ite (fun _ => .app safe_wr safe_setTagCodeIn) fun _ => .nil
  · -- parse_tag_self_closing
    refine .ite (fun _ => .write (by simp) ?_) fun _ => .ite (fun _ => .nil) fun _ => safe_parseTagWait
    have r : Safe [(Mode.excl, d.curCell)] (rd (.tagMeta d.current)) := .read (by simp [Doc.curCell]) .nil
    have w : Safe [(Mode.excl, d.curCell)] (wr (.tagMeta d.current)) := .write (by simp [Doc.curCell]) .nil
    split
    · exact .nil
    · exact .ite (fun _ => .app r (.ite (fun _ => r) fun _ => w)) fun _ => w
  · exact safe_parseTagWait
  · refine .ite (fun _ => .app safe_setTagAttrKey (.after fun _ _ => .app safe_setTagCodeIn ?_)) fun _ => .nil
    exact .ite (fun _ => safe_parseTagWait) fun _ => .nil
  · refine .ite (fun _ => .app safe_setTagAttrValue (.after fun _ _ => .app safe_setTagCodeIn safe_parseTagWait)) fun _ => ?_
    exact .ite (fun _ => .app safe_setTagAttrValue (.after fun _ _ => safe_setTagCodeIn)) fun _ => .nil
  · -- parse_tagend
    have stray : Safe [] (if !d.opts.autoFixUnexpectedEndtag then [] else rd d.curCell) :=
      .ite (fun _ => .nil) fun _ => .read (by simp) .nil
    refine .ite (fun _ => .ite (fun _ => ?_) fun _ => stray) fun _ => .nil
    split
    · exact stray
    · rename_i t _
      refine .app (.read (by simp) (.ifMeta (.read (by simp) .nil))) ?_
      split
      · exact .nil
      · refine .ite (fun _ => .ite (fun _ => .nil) fun _ => ?_) fun _ => stray
        refine .app (.app (.app (.app safe_wr (.read (by simp) ?_)) (.ite (fun _ => safe_spaces) fun _ => .nil)) safe_wr) safe_wr
        split
        · exact .read (by simp) .nil
        · exact .nil
  · refine .ite (fun _ => .nil) fun _ => ?_
    split
    · exact .nil
    · split
      · exact safe_wr
      · exact .nil
  · exact .ite (fun _ => .app safe_wr safe_wr) fun _ => .nil
  · refine .ite (fun _ => .app (safe_addNewNode h) (.after fun _ _ => safe_spaces)) fun _ => ?_
    refine .ite (fun _ => .app (safe_addNewNode h) (.ite (fun _ => .nil) fun _ => .after fun _ _ => safe_wr)) fun _ => ?_
    exact .ite (fun _ => .nil) fun _ => .ite (fun _ => .nil) fun _ => safe_fixUnescapedLt h
  · unfold parseExclamationBeginB
    have new : ∀ t, Safe [] (d.addNewNodeB (Cell.new t d.memPosition) ++
        (d.addNewNode (Cell.new t d.memPosition)).after fun d => d.setTextSpacesBetweenB) :=
      fun t => .app (safe_addNewNode h) (.after fun _ _ => safe_spaces)
    split
    · exact .ite (fun _ => .ite (fun _ => new _) fun _ => .ite (fun _ => new _) fun _ => .ite (fun _ => new _) fun _ => .nil)
        fun _ => .nil
    · refine .ite (fun _ => ?_) fun _ => .nil
      split
      · exact .nil
      · exact .read (by simp) (.ifMeta (.read (by simp) .nil))

theorem safe_eof {ctx : Str} : Safe [] (d.eofB ctx) := by
  refine .app (.ite (fun _ => .ite (fun _ => ?_) fun _ => ?_) fun _ => .nil) (.after fun d1 _ => .app ?_ (.after fun _ _ => safe_wr))
  · split
    · exact .nil
    · exact .read (by simp) (.ifMeta (.read (by simp) .nil))
  · unfold Doc.fixUnclosedTagB
    generalize d.chain.dropLast.reverse = l
    induction l with
    | nil => exact .nil
    | cons t l ih =>
      rw [List.flatMap_cons]
      exact .app (.app (.write (by simp) (.ifMeta (.app (.write (by simp) .nil) (.read (by simp) .nil)))) (.ifMeta safe_wr)) ih
  · split
    · exact safe_wr
    · exact .nil
    · exact .nil
    · exact .ite (fun _ => .read (by simp) .nil) fun _ => .nil
    · exact .read (by simp) .nil

end

theorem safe_run {o : ParseOptions} {ctx : Str} : ∀ (cs s : Str) (d : Doc), Reach o s d → Safe [] (d.runB ctx cs)
  | [], _, _, _ => .nil
  | c :: cs, s, d, h => by
    exact .app (safe_runHandle h.ctl) (.after fun d' hd => safe_run cs (s ++ [c]) d' (h.next hd))

/-- **C55** for `parse`: whatever the text and the options, no borrow of a `RefCell` panics while it is parsed, and at the end (or
when an error is returned) nothing is borrowed any more. -/
theorem c55_parse (s : Str) (o : ParseOptions) : Fine (Doc.parseB s o) :=
  Safe.fine (.app (.app safe_wr (safe_run s [] _ .init)) (.after fun _ _ => .app safe_eof (.after fun _ _ => .write (by simp) (.write (by simp) .nil))))

/-! ### Cloning -/

/-- Copying only adds cells. -/
theorem cloneWith_ext (r : Nat) : ∀ (fuel : Nat) (h h' : Heap) (i cid : NodeId), Heap.cloneWith r fuel h i = some (h', cid) →
    Ext h h' ∧ h.size ≤ cid
  | 0, _, _, _, _, e => by simp [Heap.cloneWith] at e
  | fuel + 1, h, h', i, cid, e => by
    cases hd : cloneData r (h.cell i).toNodeD with
    | none => unfold Heap.cloneWith at e; simp [hd] at e
    | some dat =>
      have hend : ∀ h1 e', cloneEnd r fuel h (h.cell i).endTag = some (h1, e') → Ext h h1 := by
        intro h1 e' k
        cases hq : (h.cell i).endTag with
        | none => rw [hq] at k; simp [cloneEnd] at k; rw [← k.1]; exact Ext.refl h
        | some t =>
          rw [hq] at k
          simp only [cloneEnd, Option.map_eq_some_iff, Prod.mk.injEq] at k
          obtain ⟨⟨a, b⟩, k1, k2, _⟩ := k
          rw [← k2]; exact (cloneWith_ext r fuel h a t b k1).1
      cases hq : cloneEnd r fuel h (h.cell i).endTag with
      | none =>
        unfold Heap.cloneWith at e
        cases ht : (h.cell i).endTag with
        | none => rw [ht] at hq; simp [cloneEnd] at hq
        | some t =>
          rw [ht] at hq
          simp only [cloneEnd, Option.map_eq_none_iff] at hq
          simp [hd, ht, hq] at e
      | some x =>
        obtain ⟨h1, e'⟩ := x
        have hx := hend _ _ hq
        rw [clone_eq hd hq] at e
        cases hc : (h.cell i).childs with
        | none =>
          rw [hc] at e
          simp only [Option.some.injEq, Prod.mk.injEq] at e
          rw [← e.1, ← e.2]
          exact ⟨hx.trans (Ext.push _ _), hx.1⟩
        | some ids =>
          rw [hc] at e
          simp only [Option.map_eq_some_iff, Prod.mk.injEq] at e
          obtain ⟨⟨h2, done⟩, k1, k2, k3⟩ := e
          rw [← k2, ← k3]
          have : ∀ (ids : List NodeId) (ha : Heap) (done : List NodeId), Ext h ha → ∀ dn,
              ids.foldl (cloneStep r fuel h1.size) (some (ha, done)) = some (h2, dn) → Ext h h2 := by
            intro ids
            induction ids with
            | nil => intro ha done hx dn k; simp at k; rw [← k.1]; exact hx
            | cons n ids ih =>
              intro ha done hx dn k
              rw [List.foldl_cons] at k
              cases hw : Heap.cloneWith r fuel ha n with
              | none =>
                have : ∀ ids : List NodeId, ids.foldl (cloneStep r fuel h1.size) none = none := by
                  intro ids; induction ids with
                  | nil => rfl
                  | cons n ids ih => exact ih
                simp only [cloneStep, hw, this] at k
                cases k
              | some y =>
                obtain ⟨hb, c⟩ := y
                obtain ⟨w1, w2⟩ := cloneWith_ext r fuel ha hb n c hw
                simp only [cloneStep, hw] at k
                exact ih _ _ ((hx.trans w1).upd (Nat.le_trans hx.1 w2) _) dn k
          have hf := this ids _ [] (hx.trans (Ext.push _ _)) done k1
          exact ⟨hf.upd hx.1 _, hx.1⟩

/-- Only old nodes are borrowed, for reading. -/
def Readers (n : Nat) (H : List (Mode × RCell)) : Prop := ∀ y ∈ H, ∃ j, j < n ∧ y = (.shared, .node j)

theorem safe_clone {h0 : Heap} (g : Linked h0) (r : Nat) : ∀ (fuel : Nat) (h : Heap) (i : NodeId) (H : List (Mode × RCell)),
    Ext h0 h → i < h0.size → Readers h0.size H → Safe H (h.cloneWithB r fuel i)
  | 0, _, _, _, _, _, _ => .nil
  | fuel + 1, h, i, H, hx, hi, hH => by
    have hcell : h.cell i = h0.cell i := hx.2 i hi
    have hr : ∀ x, (Mode.excl, x) ∉ H := by
      intro x q; obtain ⟨j, _, e⟩ := hH _ q; cases e
    have hnew : ∀ c, h0.size ≤ c → (Mode.excl, RCell.node c) ∉ H ∧ (Mode.shared, RCell.node c) ∉ H := by
      intro c hc
      refine ⟨hr _, fun q => ?_⟩
      obtain ⟨j, hj, e⟩ := hH _ q
      cases e; omega
    have hold : ∀ x, x < h0.size → Readers h0.size ((.shared, .node x) :: H) := by
      intro x hx y hy
      rcases List.mem_cons.1 hy with rfl | hy
      · exact ⟨x, hx, rfl⟩
      · exact hH y hy
    unfold Heap.cloneWithB
    simp only
    split
    · exact .nil
    · refine .app (.ite (fun _ => .read (hr _) .nil) fun _ => .nil) (.app ?_ ?_)
      · split
        · exact .nil
        · rename_i e he
          have := (g.ends i e hi (by rw [← hcell]; exact he)).1
          exact .read (hr _) (safe_clone g r fuel h e _ hx this (hold e this))
      · split
        · exact .nil
        · rename_i h1 e' he
          have hx1 : Ext h0 h1 := by
            split at he
            · simp only [Option.some.injEq, Prod.mk.injEq] at he; rw [← he.1]; exact hx
            · simp only [Option.map_eq_some_iff, Prod.mk.injEq] at he
              obtain ⟨⟨a, b⟩, k1, k2, _⟩ := he
              rw [← k2]; exact hx.trans (cloneWith_ext r fuel h a _ b k1).1
          split
          · exact .nil
          · rename_i ids hids
            have hk : ∀ x ∈ ids, x < h0.size := fun x q => g.childs i ids x hi (by rw [← hcell]; exact hids) q
            refine .app ?_ (.ite (fun _ => .write (hnew _ hx1.1) .nil) fun _ => .nil)
            clear hids he
            generalize hs : (fun (acc : List Borrow × Option (Heap × List NodeId)) (node : NodeId) => _) = step
            have key : ∀ (ids : List NodeId) (t : List Borrow) (ha : Option (Heap × List NodeId)), (∀ x ∈ ids, x < h0.size) →
                Safe H t → (∀ y, ha = some y → Ext h0 y.1) → Safe H (ids.foldl step (t, ha)).1 := by
              intro ids
              induction ids with
              | nil => intro t ha _ ht _; exact ht
              | cons n ids ih =>
                intro t ha hn ht hy
                rw [List.foldl_cons]
                have hn0 := hn n (by simp)
                cases ha with
                | none =>
                  have : step (t, none) n = (t, none) := by rw [← hs]
                  rw [this]
                  exact ih t none (fun x q => hn x (by simp [q])) ht (by simp)
                | some y =>
                  obtain ⟨hb, done⟩ := y
                  have hxb : Ext h0 hb := hy _ rfl
                  have t1 : Safe H (t ++ rd (.node n) (hb.cloneWithB r fuel n)) :=
                    .app ht (.read (hr _) (safe_clone g r fuel hb n _ hxb hn0 (hold n hn0)))
                  cases hw : Heap.cloneWith r fuel hb n with
                  | none =>
                    have : step (t, some (hb, done)) n = (t ++ rd (.node n) (hb.cloneWithB r fuel n), none) := by
                      rw [← hs]; simp [hw]
                    rw [this]
                    exact ih _ none (fun x q => hn x (by simp [q])) t1 (by simp)
                  | some z =>
                    obtain ⟨hc, cid⟩ := z
                    obtain ⟨w1, w2⟩ := cloneWith_ext r fuel hb hc n cid hw
                    have hcid : h0.size ≤ cid := Nat.le_trans hxb.1 w2
                    have w : Safe H (wr (.node cid)) := .write (hnew _ hcid) .nil
                    have w' : Safe H (rd (.node n) (wr (.node cid))) := by
                      refine .read (hr _) (.write ?_ .nil)
                      have := hnew _ hcid
                      have hne : cid ≠ n := by omega
                      simp [this.1, this.2, hne]
                    have : ∃ y, step (t, some (hb, done)) n = (t ++ rd (.node n) (hb.cloneWithB r fuel n) ++ wr (.node cid) ++
                        wr (.node cid) ++ rd (.node n) (wr (.node cid)), some y) ∧ Ext h0 y.1 := by
                      rw [← hs]; simp only [hw]
                      exact ⟨_, rfl, (hxb.trans w1).upd hcid _⟩
                    obtain ⟨y, h1, h2⟩ := this
                    rw [h1]
                    refine ih _ (some y) (fun x q => hn x (by simp [q])) (.app (.app (.app t1 w) w) w') ?_
                    intro y' q; cases q; exact h2
            exact key ids [] _ hk .nil (fun y q => by cases q; exact hx1.trans (Ext.push _ _))

/-- **C55** for `clone_node`: in a heap whose links point into it (as in every parsed document) a node can be cloned, however deep
it is, without a borrow that panics. -/
theorem c55_clone {h : Heap} (g : Linked h) (fuel : Nat) {i : NodeId} (hi : i < h.size) : Fine (h.cloneNodeB fuel i) := by
  refine Safe.fine (.read (by simp) (safe_clone g _ fuel h i _ (Ext.refl h) hi ?_))
  intro y hy
  simp only [List.mem_singleton] at hy
  exact ⟨i, hi, hy⟩

theorem c55_clone_parsed {s : Str} {o : ParseOptions} {d : Doc} (h : Doc.parse s o = .ok d) (fuel : Nat) {i : NodeId}
    (hi : i < d.heap.size) : Fine (d.heap.cloneNodeB fuel i) :=
  c55_clone (parse_linked h) fuel hi

/-! ### Rendering -/

/-- Nothing is borrowed for writing. -/
def noWriter (H : List (Mode × RCell)) : Prop := ∀ x, (Mode.excl, x) ∉ H

theorem noWriter.cons {H : List (Mode × RCell)} (h : noWriter H) (x : RCell) : noWriter ((.shared, x) :: H) := by
  intro y; simpa using h y

theorem Safe.flat {H : List (Mode × RCell)} {α : Type} {f : α → List Borrow} : ∀ {l : List α}, (∀ x ∈ l, Safe H (f x)) → Safe H (l.flatMap f)
  | [], _ => .nil
  | x :: l, h => by
    rw [List.flatMap_cons]
    exact .app (h x (by simp)) (Safe.flat fun y hy => h y (by simp [hy]))

theorem safe_buildNode {h : Heap} {H : List (Mode × RCell)} (hH : noWriter H) (i : NodeId) : Safe H (h.buildNodeB i) :=
  .ite (fun _ => .read (hH _) .nil) fun _ => .nil

theorem safe_buildTree {h : Heap} : ∀ (fuel : Nat) (i : NodeId) (H : List (Mode × RCell)), noWriter H → Safe H (h.buildTreeB fuel i)
  | 0, _, _, _ => .nil
  | fuel + 1, i, H, hH => by
    refine .app (.app (safe_buildNode hH i) (.flat fun x _ => .read (hH _) (safe_buildTree fuel x _ (hH.cons _)))) ?_
    split
    · exact .read (hH _) (safe_buildNode (hH.cons _) _)
    · exact .nil

/-- **C55** for rendering: any document, also one that was changed by hand, is rendered without a borrow that panics; so is looking
up an element. -/
theorem c55_render (d : Doc) (fuel : Nat) (inner : Bool) : Fine (d.renderB fuel inner) ∧ Fine Doc.getElementByIdB := by
  have h0 : noWriter [] := by intro x; simp
  refine ⟨Safe.fine (.read (h0 _) (.read (h0.cons _ _) ?_)), Safe.fine (.read (h0 _) (.read (h0.cons _ _) .nil))⟩
  have hH := (h0.cons .doc).cons (.node d.root)
  refine .ite (fun _ => .app (.flat fun x _ => .read (hH _) .nil) ?_) fun _ => safe_buildTree _ _ _ hH
  split
  · exact .read (hH _) (safe_buildTree _ _ _ (hH.cons _))
  · cases (d.heap.cell d.root).childs.getD [] |>.getLast? with
    | none => exact .nil
    | some x => exact .read (hH _) .nil

/-- The borrows of a small document: an attribute with an id is stored while its node and the tag data are borrowed. -/
example : Doc.parseB "<p id=a>".toList {} ≠ [] ∧ [Borrow.take .excl (.node 1), .take .excl (.tagMeta 1), .take .excl .idTags] <:+:
    Doc.parseB "<p id=a>".toList {} := by decide +kernel

end Rphtml
