import Verif.Props.RenderOpts
import Verif.Spec.Clone
import Verif.Spec.Graph

/-!
# Cloning

`built h a b i par prv t`: the cells `a … b-1` of `h` hold exactly the tree `t`, laid out as `clone_node` does, with
root `i`.
-/

namespace Rphtml
open Spec

/-- The cell of the end tag, at `a`. -/
def builtEnd (h : Heap) (a i : NodeId) : Option NodeD → Prop
  | none => i = a ∧ (h.cell i).endTag = none
  | some x => i = a + 1 ∧ (h.cell i).endTag = some a ∧ (h.cell a).toNodeD = x ∧ (h.cell a).childs = none ∧
      (h.cell a).endTag = none ∧ (h.cell a).parent = none ∧ (h.cell a).prev = none

mutual
def built (h : Heap) (a b i : NodeId) (par prv : Option NodeId) : Tree → Prop
  | .mk d e none => (h.cell i).toNodeD = d ∧ (h.cell i).parent = par ∧ (h.cell i).prev = prv ∧ builtEnd h a i e ∧
      (h.cell i).childs = none ∧ b = i + 1
  | .mk d e (some ts) => (h.cell i).toNodeD = d ∧ (h.cell i).parent = par ∧ (h.cell i).prev = prv ∧ builtEnd h a i e ∧
      ∃ ids, (h.cell i).childs = some ids ∧ builts h (i + 1) b i none ids ts

def builts (h : Heap) (a b me : NodeId) (prv : Option NodeId) (ids : List NodeId) : List Tree → Prop
  | [] => ids = [] ∧ b = a
  | t :: ts => ∃ m x xs, ids = x :: xs ∧ built h a m x (some me) prv t ∧ builts h m b me (some x) xs ts
end

theorem built_bounds (h : Heap) :
    (∀ t a b i par prv, built h a b i par prv t → a ≤ i ∧ i < b) ∧
    (∀ ts a b me prv ids, builts h a b me prv ids ts → a ≤ b) := by
  have hi : ∀ {a i e}, builtEnd h a i e → a ≤ i := by
    intro a i e h
    cases e with
    | none => exact Nat.le_of_eq h.1.symm
    | some x => have := h.1; omega
  refine Tree.induct (P := fun t => ∀ a b i par prv, built h a b i par prv t → a ≤ i ∧ i < b)
    (Q := fun ts => ∀ a b me prv ids, builts h a b me prv ids ts → a ≤ b) ?_ ?_ ?_ ?_
  · intro d e a b i par prv g
    simp only [built] at g
    have := hi g.2.2.2.1
    omega
  · intro d e ts ih a b i par prv g
    simp only [built] at g
    obtain ⟨_, _, _, g1, ids, _, g2⟩ := g
    have := hi g1
    have := ih _ _ _ _ _ g2
    omega
  · intro a b me prv ids g
    simp only [builts] at g; omega
  · intro t ts iht ihts a b me prv ids g
    simp only [builts] at g
    obtain ⟨m, x, xs, _, g1, g2⟩ := g
    have := iht _ _ _ _ _ g1
    have := ihts _ _ _ _ _ g2
    omega

theorem builtEnd_congr {h h' : Heap} {a i : NodeId} {e : Option NodeD} (g : builtEnd h a i e)
    (hc : ∀ j, a ≤ j → j ≤ i → (h'.cell j) = h.cell j) : builtEnd h' a i e := by
  cases e with
  | none => have := g.1; exact ⟨this, by rw [hc i (by omega) (by omega)]; exact g.2⟩
  | some x =>
    obtain ⟨g1, g2, g3, g4⟩ := g
    refine ⟨g1, ?_, ?_, ?_⟩
    · rw [hc i (by omega) (by omega)]; exact g2
    · rw [hc a (by omega) (by omega)]; exact g3
    · rw [hc a (by omega) (by omega)]; exact g4

theorem built_congr (h h' : Heap) :
    (∀ t a b i par prv, built h a b i par prv t → (∀ j, a ≤ j → j < b → h'.cell j = h.cell j) → built h' a b i par prv t) ∧
    (∀ ts a b me prv ids, builts h a b me prv ids ts → (∀ j, a ≤ j → j < b → h'.cell j = h.cell j) → builts h' a b me prv ids ts) := by
  have hb := built_bounds h
  refine Tree.induct
    (P := fun t => ∀ a b i par prv, built h a b i par prv t → (∀ j, a ≤ j → j < b → h'.cell j = h.cell j) → built h' a b i par prv t)
    (Q := fun ts => ∀ a b me prv ids, builts h a b me prv ids ts → (∀ j, a ≤ j → j < b → h'.cell j = h.cell j) → builts h' a b me prv ids ts)
    ?_ ?_ ?_ ?_
  · intro d e a b i par prv g hc
    have h1 := hb.1 _ _ _ _ _ _ g
    simp only [built] at g ⊢
    rw [hc i h1.1 h1.2]
    exact ⟨g.1, g.2.1, g.2.2.1, builtEnd_congr g.2.2.2.1 (fun j h2 h3 => hc j h2 (by omega)), g.2.2.2.2⟩
  · intro d e ts ih a b i par prv g hc
    have h1 := hb.1 _ _ _ _ _ _ g
    simp only [built] at g ⊢
    rw [hc i h1.1 h1.2]
    obtain ⟨g1, g2, g3, g4, ids, g5, g6⟩ := g
    exact ⟨g1, g2, g3, builtEnd_congr g4 (fun j h2 h3 => hc j h2 (by omega)), ids, g5,
      ih _ _ _ _ _ g6 (fun j h2 h3 => hc j (by omega) h3)⟩
  · intro a b me prv ids g hc
    simp only [builts] at g ⊢; exact g
  · intro t ts iht ihts a b me prv ids g hc
    simp only [builts] at g ⊢
    obtain ⟨m, x, xs, e, g1, g2⟩ := g
    have k1 := hb.1 _ _ _ _ _ _ g1
    have k2 := hb.2 _ _ _ _ _ _ g2
    exact ⟨m, x, xs, e, iht _ _ _ _ _ g1 (fun j h2 h3 => hc j h2 (by omega)), ihts _ _ _ _ _ g2 (fun j h2 h3 => hc j (by omega) h3)⟩

/-- Give the copied root its place among the siblings. -/
theorem built_place {h : Heap} {a b i : NodeId} {r : Nat} {t : Tree} {par prv : Option NodeId} {k0 : Nat}
    (g : built h a b i par prv (rebase r k0 t)) (p q : Option NodeId) (k : Nat) :
    built (h.upd i fun n => { n with parent := p, prev := q, index := k }) a b i p q (rebase r k t) := by
  have hother : ∀ j, j ≠ i → (h.upd i fun n => { n with parent := p, prev := q, index := k }).cell j = h.cell j := by
    intro j hj; rw [Heap.upd_cell, if_neg hj]
  have hself : (h.upd i fun n => { n with parent := p, prev := q, index := k }).cell i =
      { h.cell i with parent := p, prev := q, index := k } := by rw [Heap.upd_cell, if_pos rfl]
  have hend : ∀ e, builtEnd h a i e → builtEnd (h.upd i fun n => { n with parent := p, prev := q, index := k }) a i e := by
    intro e ge
    cases e with
    | none => exact ⟨ge.1, by rw [hself]; exact ge.2⟩
    | some x =>
      obtain ⟨g1, g2, g3⟩ := ge
      have : a ≠ i := by omega
      exact ⟨g1, by rw [hself]; exact g2, by rw [hother a this]; exact g3⟩
  cases t with
  | mk d e c =>
    cases c with
    | none =>
      simp only [rebase, built] at g ⊢
      obtain ⟨g1, g2, g3, g4, g5, g6⟩ := g
      refine ⟨?_, by rw [hself], by rw [hself], hend _ g4, by rw [hself]; exact g5, g6⟩
      rw [hself]
      show { (h.cell i).toNodeD with index := k } = _
      rw [g1]; rfl
    | some ts =>
      simp only [rebase, built] at g ⊢
      obtain ⟨g1, g2, g3, g4, ids, g5, g6⟩ := g
      refine ⟨?_, by rw [hself], by rw [hself], hend _ g4, ids, by rw [hself]; exact g5, ?_⟩
      · rw [hself]
        show { (h.cell i).toNodeD with index := k } = _
        rw [g1]; rfl
      · exact (built_congr h _).2 _ _ _ _ _ _ g6 (fun j h1 _ => hother j (by omega))

/-- Adding one more sibling. -/
theorem builts_snoc {h : Heap} {m b me x : NodeId} {t : Tree} : ∀ {ts : List Tree} {a : NodeId} {prv : Option NodeId} {ids : List NodeId},
    builts h a m me prv ids ts → built h m b x (some me) (if ids = [] then prv else ids.getLast?) t →
    builts h a b me prv (ids ++ [x]) (ts ++ [t])
  | [], a, prv, ids, g, gx => by
    simp only [builts] at g
    obtain ⟨rfl, rfl⟩ := g
    simp only [List.nil_append, builts]
    exact ⟨b, x, [], rfl, by simpa using gx, rfl, rfl⟩
  | u :: ts, a, prv, ids, g, gx => by
    simp only [builts] at g
    obtain ⟨k, y, ys, rfl, g1, g2⟩ := g
    simp only [List.cons_append, builts]
    refine ⟨k, y, ys ++ [x], rfl, g1, builts_snoc g2 ?_⟩
    cases ys with
    | nil => simpa using gx
    | cons z zs => simpa [List.getLast?_cons_cons] using gx

/-- `h'` has all cells of `h`, unchanged. -/
def Ext (h h' : Heap) : Prop := h.size ≤ h'.size ∧ ∀ j, j < h.size → h'.cell j = h.cell j

theorem Ext.refl (h : Heap) : Ext h h := ⟨Nat.le_refl _, fun _ _ => rfl⟩

theorem Ext.trans {h h' h'' : Heap} (a : Ext h h') (b : Ext h' h'') : Ext h h'' :=
  ⟨Nat.le_trans a.1 b.1, fun j hj => by rw [b.2 j (Nat.lt_of_lt_of_le hj a.1), a.2 j hj]⟩

theorem Ext.push (h : Heap) (c : Cell) : Ext h (h.push c) :=
  ⟨by simp, fun j hj => by rw [Heap.push_cell, if_neg (by omega)]⟩

theorem Ext.upd {h h' : Heap} (a : Ext h h') {i : NodeId} (hi : h.size ≤ i) (f : Cell → Cell) : Ext h (h'.upd i f) :=
  ⟨by simpa using a.1, fun j hj => by rw [Heap.upd_cell, if_neg (by omega)]; exact a.2 j hj⟩

/-- One round of the loop in `clone_node_with`. -/
def cloneStep (r fuel : Nat) (me : NodeId) (acc : Option (Heap × List NodeId)) (node : NodeId) : Option (Heap × List NodeId) :=
  match acc with
  | none => none
  | some (h, done) =>
    match Heap.cloneWith r fuel h node with
    | none => none
    | some (h, cid) =>
      let h := h.upd cid fun n =>
        { n with parent := some me, prev := done.getLast?, index := (h.cell node).index }
      some (h, done ++ [cid])

/-- The copy of the end tag in `clone_node_without_childs`. -/
def cloneEnd (r fuel : Nat) (h : Heap) : Option NodeId → Option (Heap × Option NodeId)
  | none => some (h, none)
  | some e => (Heap.cloneWith r fuel h e).map fun x => (x.1, some x.2)

theorem clone_eq {r fuel : Nat} {h h1 : Heap} {i : NodeId} {dat : NodeD} {e' : Option NodeId}
    (hd : cloneData r (h.cell i).toNodeD = some dat) (he : cloneEnd r fuel h (h.cell i).endTag = some (h1, e')) :
    Heap.cloneWith r (fuel + 1) h i =
      match (h.cell i).childs with
      | none => some (h1.push { toNodeD := dat, endTag := e', root := (h.cell i).root, document := (h.cell i).document }, h1.size)
      | some ids => (ids.foldl (cloneStep r fuel h1.size)
          (some (h1.push { toNodeD := dat, endTag := e', root := (h.cell i).root, document := (h.cell i).document }, []))).map
            fun x => (x.1.upd h1.size fun n => { n with childs := some x.2 }, h1.size) := by
  unfold Heap.cloneWith
  simp only [hd]
  cases hq : (h.cell i).endTag with
  | none =>
    rw [hq] at he
    simp only [cloneEnd, Option.some.injEq, Prod.mk.injEq] at he
    obtain ⟨rfl, rfl⟩ := he
    simp only
    cases (h.cell i).childs with
    | none => rfl
    | some ids =>
      simp only
      show (match ids.foldl (cloneStep r fuel h.size) _ with
            | none => none
            | some (h', done) => some (h'.upd h.size fun n => { n with childs := some done }, h.size)) = _
      cases ids.foldl (cloneStep r fuel h.size) _ <;> rfl
  | some e =>
    rw [hq] at he
    simp only [cloneEnd] at he
    cases hw : Heap.cloneWith r fuel h e with
    | none => rw [hw] at he; cases he
    | some x =>
      rw [hw] at he
      simp only [Option.map_some, Option.some.injEq, Prod.mk.injEq] at he
      obtain ⟨x1, x2⟩ := x
      obtain ⟨rfl, rfl⟩ := he
      simp only [hw]
      cases (h.cell i).childs with
      | none => rfl
      | some ids =>
        simp only
        show (match ids.foldl (cloneStep r fuel x1.size) _ with
            | none => none
            | some (h', done) => some (h'.upd x1.size fun n => { n with childs := some done }, x1.size)) = _
        cases ids.foldl (cloneStep r fuel x1.size) _ <;> rfl

theorem clone_leaf {r fuel : Nat} {h : Heap} {i : NodeId} (hc : (h.cell i).childs = none) (he : (h.cell i).endTag = none)
    (hp : startsAt r (h.cell i).toNodeD) : Heap.cloneWith r (fuel + 1) h i =
      some (h.push { toNodeD := shift r 0 (h.cell i).toNodeD, root := (h.cell i).root, document := (h.cell i).document }, h.size) := by
  unfold Heap.cloneWith
  have : cloneData r (h.cell i).toNodeD = some (shift r 0 (h.cell i).toNodeD) := by
    unfold cloneData; rw [if_pos ⟨hp.1, hp.2⟩]; rfl
  simp only [this, he, hc]

theorem rebases_append (r : Nat) (ts : List Tree) (t : Tree) : rebases r (ts ++ [t]) = rebases r ts ++ [rebase r t.data.index t] := by
  induction ts with
  | nil => simp [rebases]
  | cons u ts ih => simp [rebases, ih]

theorem toTree_data {h : Heap} {fuel : Nat} {i : NodeId} {t : Tree} (hf : h.toTree? fuel i = some t) : t.data = (h.cell i).toNodeD := by
  cases fuel with
  | zero => simp [Heap.toTree?] at hf
  | succ fuel =>
    unfold Heap.toTree? at hf
    simp only at hf
    split at hf
    · simp only [Option.some.injEq] at hf; rw [← hf]; rfl
    · split at hf
      · simp only [Option.some.injEq] at hf; rw [← hf]; rfl
      · cases hf

/-- The copy made by `clone_node_with`. -/
theorem clone_built {h0 : Heap} (g : Linked h0) (r : Nat) : ∀ (fuel : Nat) (i : NodeId) (t : Tree) (h : Heap),
    Ext h0 h → i < h0.size → h0.toTree? fuel i = some t → allNodes (startsAt r) t →
    ∃ h' i', Heap.cloneWith r (fuel + 1) h i = some (h', i') ∧ Ext h h' ∧ built h' h.size h'.size i' none none (rebase r 0 t) := by
  intro fuel
  induction fuel with
  | zero => intro i t h _ _ ht; simp [Heap.toTree?] at ht
  | succ fuel ih =>
    intro i t h hx hi ht hall
    have hcell : h.cell i = h0.cell i := hx.2 i hi
    -- the data of the root
    have hdat : startsAt r (h0.cell i).toNodeD := by
      have := toTree_data ht
      cases t with
      | mk d e c =>
        have this : d = (h0.cell i).toNodeD := this
        rw [← this]
        cases c <;> simp only [allNodes] at hall <;> exact hall.1
    have hclone : cloneData r (h0.cell i).toNodeD = some (shift r 0 (h0.cell i).toNodeD) := by
      unfold cloneData; rw [if_pos ⟨hdat.1, hdat.2⟩]; rfl
    -- the end tag
    have hend : ∃ h1 e', cloneEnd r (fuel + 1) h (h0.cell i).endTag = some (h1, e') ∧ Ext h h1 ∧
        ∀ (c : Cell) h2, c.endTag = e' → Ext (h1.push c) h2 → h2.cell h1.size = c →
          builtEnd h2 h.size h1.size (((h0.cell i).endTag.map fun e => (h0.cell e).toNodeD).map (shift r 0)) := by
      cases he : (h0.cell i).endTag with
      | none =>
        refine ⟨h, none, rfl, Ext.refl h, ?_⟩
        intro c h2 hc _ h3
        exact ⟨rfl, by rw [h3]; exact hc⟩
      | some e =>
        obtain ⟨k1, k2, k3⟩ := g.ends i e hi he
        have hce : h.cell e = h0.cell e := hx.2 e k1
        have hpe : startsAt r (h0.cell e).toNodeD := by
          unfold Heap.toTree? at ht
          simp only [he] at ht
          split at ht
          · simp only [Option.some.injEq] at ht
            rw [← ht] at hall
            simp only [allNodes] at hall
            exact hall.2 _ rfl
          · split at ht
            · simp only [Option.some.injEq] at ht
              rw [← ht] at hall
              simp only [allNodes] at hall
              exact hall.2.1 _ rfl
            · cases ht
        have hl := clone_leaf (r := r) (fuel := fuel) (h := h) (i := e) (by rw [hce]; exact k2) (by rw [hce]; exact k3)
          (by rw [hce]; exact hpe)
        refine ⟨_, some h.size, by simp only [cloneEnd, hl, Option.map_some]; rfl, Ext.push h _, ?_⟩
        intro c h2 hc hx2 h3
        refine ⟨by simp, by rw [h3]; exact hc, ?_⟩
        have h4 : h2.cell h.size = { toNodeD := shift r 0 (h.cell e).toNodeD, root := (h.cell e).root, document := (h.cell e).document } := by
          rw [hx2.2 _ (by simp; omega), Heap.push_cell, if_neg (by simp), Heap.push_cell, if_pos rfl]
        rw [h4, hce]
        exact ⟨rfl, rfl, rfl, rfl, rfl⟩
    obtain ⟨h1, e', he1, hx1, hbe⟩ := hend
    rw [clone_eq (by rw [hcell]; exact hclone) (by rw [hcell]; exact he1), hcell]
    unfold Heap.toTree? at ht
    simp only at ht
    cases hch : (h0.cell i).childs with
    | none =>
      simp only [hch, Option.some.injEq] at ht
      subst ht
      refine ⟨_, _, rfl, hx1.trans (Ext.push h1 _), ?_⟩
      simp only [rebase, built]
      have hme : (h1.push { toNodeD := shift r 0 (h0.cell i).toNodeD, endTag := e', root := (h0.cell i).root, document := (h0.cell i).document }).cell h1.size =
          { toNodeD := shift r 0 (h0.cell i).toNodeD, endTag := e', root := (h0.cell i).root, document := (h0.cell i).document } := by
        rw [Heap.push_cell, if_pos rfl]
      refine ⟨by rw [hme], by rw [hme], by rw [hme], hbe _ _ rfl (Ext.refl _) hme, by rw [hme], by simp⟩
    | some ids =>
      simp only [hch] at ht
      cases hts : optAll (h0.toTree? fuel) ids with
      | none => rw [hts] at ht; cases ht
      | some ts =>
        rw [hts] at ht
        simp only [Option.some.injEq] at ht
        subst ht
        simp only [allNodes] at hall
        -- the loop over the children
        have hloop : ∀ (ids : List NodeId) (ts : List Tree) (h2 : Heap) (done : List NodeId) (dts : List Tree),
            (∀ x ∈ ids, x < h0.size) → optAll (h0.toTree? fuel) ids = some ts → allForest (startsAt r) ts →
            Ext h0 h2 → h1.size < h2.size →
            builts h2 (h1.size + 1) h2.size h1.size none done (rebases r dts) →
            ∃ h3 done', ids.foldl (cloneStep r (fuel + 1) h1.size) (some (h2, done)) = some (h3, done') ∧ Ext h2 h3 ∧
              builts h3 (h1.size + 1) h3.size h1.size none done' (rebases r (dts ++ ts)) := by
          intro ids
          induction ids with
          | nil =>
            intro ts h2 done dts _ hts _ _ _ hb
            simp only [optAll, Option.some.injEq] at hts
            subst hts
            exact ⟨h2, done, rfl, Ext.refl h2, by simpa using hb⟩
          | cons x ids ihl =>
            intro ts h2 done dts hlt hts hal hx2 hlt2 hb
            simp only [optAll] at hts
            cases hu : h0.toTree? fuel x with
            | none => rw [hu] at hts; cases hts
            | some u =>
              cases hus : optAll (h0.toTree? fuel) ids with
              | none => rw [hu, hus] at hts; cases hts
              | some us =>
                rw [hu, hus] at hts
                simp only [Option.some.injEq] at hts
                subst hts
                simp only [allForest] at hal
                have hxl := hlt x (by simp)
                obtain ⟨h3, x', c1, c2, c3⟩ := ih x u h2 hx2 hxl hu hal.1
                have hbb := (built_bounds h3).1 _ _ _ _ _ _ c3
                have hidx : (h3.cell x).index = u.data.index := by
                  rw [c2.2 x (Nat.lt_of_lt_of_le hxl hx2.1), hx2.2 x hxl, toTree_data hu]
                have hstep : cloneStep r (fuel + 1) h1.size (some (h2, done)) x =
                    some (h3.upd x' fun n => { n with parent := some h1.size, prev := done.getLast?, index := u.data.index }, done ++ [x']) := by
                  simp only [cloneStep, c1, hidx]
                have hx3 : Ext h2 (h3.upd x' fun n => { n with parent := some h1.size, prev := done.getLast?, index := u.data.index }) :=
                  c2.upd hbb.1 _
                have hplaced := built_place c3 (some h1.size) done.getLast? u.data.index
                have hdone := (built_congr h2 (h3.upd x' fun n => { n with parent := some h1.size, prev := done.getLast?, index := u.data.index })).2
                  _ _ _ _ _ _ hb (fun j _ h5 => hx3.2 j h5)
                have hsn := builts_snoc hdone (b := h3.size) (x := x') (t := rebase r u.data.index u) (by
                  have : (if done = [] then none else done.getLast?) = done.getLast? := by
                    cases done with
                    | nil => rfl
                    | cons a l => simp
                  rw [this]; exact hplaced)
                rw [← rebases_append] at hsn
                obtain ⟨h4, done', d1, d2, d3⟩ := ihl us _ (done ++ [x']) (dts ++ [u]) (fun y hy => hlt y (by simp [hy])) hus hal.2
                  (hx2.trans hx3) (Nat.lt_of_lt_of_le hlt2 hx3.1) (by simpa using hsn)
                refine ⟨h4, done', ?_, hx3.trans d2, by simpa using d3⟩
                rw [List.foldl_cons, hstep]; exact d1
        have hxp : Ext h1 (h1.push { toNodeD := shift r 0 (h0.cell i).toNodeD, endTag := e', root := (h0.cell i).root, document := (h0.cell i).document }) :=
          Ext.push h1 _
        obtain ⟨h3, done, f1, f2, f3⟩ := hloop ids ts _ [] [] (fun x hx' => g.childs i ids x hi hch hx') hts hall.2.2
          ((hx.trans hx1).trans hxp) (by simp) (by simp [rebases, builts])
        refine ⟨h3.upd h1.size fun n => { n with childs := some done }, h1.size, ?_, (hx1.trans (hxp.trans f2)).upd hx1.1 _, ?_⟩
        · simp only [f1, Option.map_some]
        · have hme0 : h3.cell h1.size = { toNodeD := shift r 0 (h0.cell i).toNodeD, endTag := e', root := (h0.cell i).root, document := (h0.cell i).document } := by
            rw [f2.2 _ (by simp), Heap.push_cell, if_pos rfl]
          have hme : (h3.upd h1.size fun n => { n with childs := some done }).cell h1.size =
              { toNodeD := shift r 0 (h0.cell i).toNodeD, endTag := e', root := (h0.cell i).root, document := (h0.cell i).document, childs := some done } := by
            rw [Heap.upd_cell, if_pos rfl, hme0]
          have hb3 := hbe _ h3 rfl f2 hme0
          simp only [rebase, built]
          refine ⟨by rw [hme], by rw [hme], by rw [hme], ?_, done, by rw [hme], ?_⟩
          · -- the end tag cells are not touched
            cases hz : ((h0.cell i).endTag.map fun e => (h0.cell e).toNodeD).map (shift r 0) with
            | none => rw [hz] at hb3; exact ⟨hb3.1, by rw [hme]; have := hb3.2; rw [hme0] at this; exact this⟩
            | some z =>
              rw [hz] at hb3
              obtain ⟨z1, z2, z3⟩ := hb3
              refine ⟨z1, by rw [hme]; rw [hme0] at z2; exact z2, ?_⟩
              rw [Heap.upd_cell, if_neg (by omega)]; exact z3
          · simp only [List.nil_append] at f3
            exact (built_congr h3 _).2 _ _ _ _ _ _ f3 (fun j h5 _ => by rw [Heap.upd_cell, if_neg (by omega)])

end Rphtml
