import Verif.Model.Stack
import Verif.Spec.Stack
import Verif.Props.Borrow
import Verif.Props.Size
import Verif.Props.Memory
import Verif.Props.Stops
import Verif.Proofs.Minified

/-!
# C68: the stack that rendering, cloning and dropping need
-/

namespace Rphtml
open Spec

theorem Chain.pos {R : NodeId → NodeId → Prop} {a : NodeId} {n : Nat} (h : Chain R a n) : 1 ≤ n := by cases h <;> omega

theorem Chain.shorter {R : NodeId → NodeId → Prop} {a : NodeId} {n : Nat} (h : Chain R a n) : ∀ m, 1 ≤ m → m ≤ n → Chain R a m := by
  induction h with
  | one a => intro m h1 h2; have : m = 1 := by omega
             subst this; exact .one a
  | more hr _ ih =>
    intro m h1 h2
    match m with
    | 0 => omega
    | 1 => exact .one _
    | m + 2 => exact .more hr (ih (m + 1) (by omega) (by omega))

theorem Chain.imp {R R' : NodeId → NodeId → Prop} (hi : ∀ a b, R a b → R' a b) {a : NodeId} {n : Nat} (h : Chain R a n) : Chain R' a n := by
  induction h with
  | one a => exact .one a
  | more hr _ ih => exact .more (hi _ _ hr) ih

theorem chain_zero {R : NodeId → NodeId → Prop} {a : NodeId} : ¬ Chain R a 0 := fun h => by have := Chain.pos h; omega

theorem chain_succ {R : NodeId → NodeId → Prop} {a : NodeId} {n : Nat} : Chain R a (n + 2) ↔ ∃ b, R a b ∧ Chain R b (n + 1) := by
  constructor
  · intro h; cases h with
    | more hr hc => exact ⟨_, hr, hc⟩
  · rintro ⟨b, hr, hc⟩; exact .more hr hc

/-! ## Trees -/

mutual
/-- The number of nodes on the longest way down. -/
def Tree.height : Tree → Nat
  | .mk _ _ none => 1
  | .mk _ _ (some ts) => 1 + Tree.heights ts
/-- The same for a list of trees. -/
def Tree.heights : List Tree → Nat
  | [] => 0
  | t :: ts => max t.height (Tree.heights ts)
end

theorem le_heights {n : Nat} : ∀ ts : List Tree, n + 1 ≤ Tree.heights ts ↔ ∃ t ∈ ts, n + 1 ≤ t.height
  | [] => by simp [Tree.heights]
  | t :: ts => by
    have := le_heights (n := n) ts
    rw [Tree.heights]
    simp only [List.mem_cons, exists_eq_or_imp, ← this]
    omega

theorem optAll_back {α β : Type} {f : α → Option β} : ∀ {l : List α} {bs : List β}, optAll f l = some bs → ∀ b ∈ bs, ∃ a ∈ l, f a = some b
  | [], _, h, b, hb => by simp only [optAll, Option.some.injEq] at h; subst h; cases hb
  | x :: l, bs, h, b, hb => by
    obtain ⟨c, cs, rfl, h1, h2⟩ := optAll_cons h
    rcases List.mem_cons.1 hb with rfl | hb
    · exact ⟨x, by simp, h1⟩
    · obtain ⟨a, h3, h4⟩ := optAll_back h2 b hb
      exact ⟨a, List.mem_cons_of_mem _ h3, h4⟩

/-- The height of a tree in the heap is the length of the longest chain of children. -/
theorem tree_chain {h : Heap} : ∀ (fuel : Nat) {i : NodeId} {t : Tree}, h.toTree? fuel i = some t → ∀ n, Chain (Child h) i (n + 1) ↔ n + 1 ≤ t.height
  | 0, i, t, ht, _ => by simp [Heap.toTree?] at ht
  | fuel + 1, i, t, ht, n => by
    unfold Heap.toTree? at ht
    simp only at ht
    have hpos : 1 ≤ t.height := by
      cases t with
      | mk d e cs => cases cs <;> simp [Tree.height]
    match n with
    | 0 => exact ⟨fun _ => hpos, fun _ => .one i⟩
    | n + 1 =>
      rw [chain_succ]
      split at ht
      · rename_i hc
        simp only [Option.some.injEq] at ht
        subst ht
        simp only [Tree.height]
        constructor
        · rintro ⟨b, ⟨ids, h1, _⟩, _⟩; rw [hc] at h1; cases h1
        · intro h; omega
      · rename_i ids hc
        split at ht
        · rename_i ts hts
          simp only [Option.some.injEq] at ht
          subst ht
          simp only [Tree.height]
          have hl := le_heights (n := n) ts
          constructor
          · rintro ⟨b, ⟨ids', h1, h2⟩, h3⟩
            rw [hc] at h1; cases h1
            obtain ⟨t, h4, h5⟩ := optAll_mem hts b h2
            have := (tree_chain fuel h5 n).1 h3
            have := hl.2 ⟨t, h4, this⟩
            omega
          · intro h
            obtain ⟨t, h4, h5⟩ := hl.1 (by omega)
            obtain ⟨b, h6, h7⟩ := optAll_back hts t h4
            exact ⟨b, ⟨ids, hc, h6⟩, (tree_chain fuel h7 n).2 h5⟩
        · cases ht

/-! ## Rendering -/

theorem build_fits (lib : EntityLib) (o : RenderOptions) :
    (∀ t n st, Tree.height t ≤ n → buildTreeIn lib o n t st = some (buildTree lib o t st)) ∧
    (∀ ts n st, Tree.heights ts ≤ n → forestIn (buildTreeIn lib o n) ts st = some (buildForest lib o ts st)) := by
  refine Tree.induct
    (P := fun t => ∀ n st, Tree.height t ≤ n → buildTreeIn lib o n t st = some (buildTree lib o t st))
    (Q := fun ts => ∀ n st, Tree.heights ts ≤ n → forestIn (buildTreeIn lib o n) ts st = some (buildForest lib o ts st)) ?_ ?_ ?_ ?_
  · intro d e n st hn
    match n with
    | 0 => simp [Tree.height] at hn
    | n + 1 =>
      unfold buildTreeIn buildTree
      cases h1 : buildNode lib o d st with
      | error p => rfl
      | ok x =>
        simp only
        cases h2 : buildEnd lib o e x.1 with
        | error p => simp [bind, Except.bind, h2]
        | ok y => simp [bind, Except.bind, h2]
  · intro d e ts ih n st hn
    match n with
    | 0 => simp [Tree.height] at hn
    | n + 1 =>
      have hn : Tree.heights ts ≤ n := by simp only [Tree.height] at hn; omega
      unfold buildTreeIn buildTree
      cases h1 : buildNode lib o d st with
      | error p => rfl
      | ok x =>
        obtain ⟨st1, out1⟩ := x
        simp only [bind, Except.bind]
        rw [ih n _ hn, ih n _ hn]
        by_cases hr : st1.root = true
        · simp only [hr, if_true]
          cases buildForest lib o ts { st1 with root := false } with
          | error p => rfl
          | ok y =>
            simp only
            cases buildEnd lib o e st1 with
            | error p => rfl
            | ok z => rfl
        · simp only [hr, Bool.false_eq_true, if_false]
          cases buildForest lib o ts st1 with
          | error p => rfl
          | ok y =>
            simp only
            cases buildEnd lib o e y.1 with
            | error p => rfl
            | ok z => rfl
  · intro n st _; rfl
  · intro t ts h1 h2 n st hn
    simp only [Tree.heights] at hn
    simp only [forestIn, buildForest, bind, Except.bind]
    rw [h1 n st (by omega)]
    cases buildTree lib o t st with
    | error p => rfl
    | ok x =>
      simp only
      rw [h2 n x.1 (by omega)]
      cases buildForest lib o ts x.1 with
      | error p => rfl
      | ok y => rfl

theorem build_over (lib : EntityLib) (o : RenderOptions) :
    (∀ t n st x, n < Tree.height t → buildTree lib o t st = .ok x → buildTreeIn lib o n t st = none) ∧
    (∀ ts n st x, n < Tree.heights ts → buildForest lib o ts st = .ok x → forestIn (buildTreeIn lib o n) ts st = none) := by
  refine Tree.induct
    (P := fun t => ∀ n st x, n < Tree.height t → buildTree lib o t st = .ok x → buildTreeIn lib o n t st = none)
    (Q := fun ts => ∀ n st x, n < Tree.heights ts → buildForest lib o ts st = .ok x → forestIn (buildTreeIn lib o n) ts st = none) ?_ ?_ ?_ ?_
  · intro d e n st x hn _
    simp only [Tree.height] at hn
    have : n = 0 := by omega
    subst this; rfl
  · intro d e ts ih n st x hn hb
    match n with
    | 0 => rfl
    | n + 1 =>
      have hn : n < Tree.heights ts := by simp only [Tree.height] at hn; omega
      unfold buildTree at hb
      unfold buildTreeIn
      cases h1 : buildNode lib o d st with
      | error p => rw [h1] at hb; simp [bind, Except.bind] at hb
      | ok y =>
        obtain ⟨st1, out1⟩ := y
        rw [h1] at hb
        simp only [bind, Except.bind] at hb ⊢
        by_cases hr : st1.root = true
        · simp only [hr, if_true] at hb ⊢
          cases h2 : buildForest lib o ts { st1 with root := false } with
          | error p => rw [h2] at hb; simp at hb
          | ok z => rw [ih n _ z hn h2]
        · simp only [hr] at hb ⊢
          cases h2 : buildForest lib o ts st1 with
          | error p => rw [h2] at hb; simp at hb
          | ok z => simp only [Bool.false_eq_true, if_false]; rw [ih n _ z hn h2]
  · intro n st x hn; simp [Tree.heights] at hn
  · intro t ts h1 h2 n st x hn hb
    simp only [buildForest, bind, Except.bind] at hb
    simp only [forestIn]
    cases h3 : buildTree lib o t st with
    | error p => rw [h3] at hb; simp at hb
    | ok y =>
      rw [h3] at hb
      simp only at hb
      cases h4 : buildForest lib o ts y.1 with
      | error p => rw [h4] at hb; simp at hb
      | ok z =>
        by_cases hh : n < t.height
        · rw [h1 n st y hh h3]
        · rw [(build_fits lib o).1 t n st (by omega), h3]
          simp only
          have : n < Tree.heights ts := by simp only [Tree.heights] at hn; omega
          rw [h2 n y.1 z this h4]

theorem target_self {t : Tree} : buildTarget t .none = .ok (some t) := by unfold buildTarget; rw [if_neg]; simp

/-- **C68.** Rendering a document overflows a stack with room for `n` nested calls exactly if there are `n + 1` nodes, from the
root down, each a child of the one before; otherwise it gives what it gives without a limit. -/
theorem c68_render {d : Doc} {lib : EntityLib} {o : RenderOptions} {r : Str} (ho : o.innerHtml = false) (hr : d.render lib o = .ok r) (n : Nat) :
    (Chain (Child d.heap) d.root (n + 1) → d.renderIn n lib o = none) ∧
    (¬ Chain (Child d.heap) d.root (n + 1) → d.renderIn n lib o = some (.ok r)) := by
  unfold Doc.render at hr
  unfold Doc.renderIn
  cases ht : d.tree? with
  | none => rw [ht] at hr; cases hr
  | some t =>
    rw [ht] at hr
    simp only at hr ⊢
    have hc := tree_chain d.heap.size (h := d.heap) ht n
    have hi : innerTypeOf o false = .ok .none := by unfold innerTypeOf; simp [ho]
    unfold build at hr
    unfold buildIn
    rw [hi] at hr ⊢
    simp only [target_self] at hr ⊢
    cases hb : buildTree lib o t { innerType := .none, root := true } with
    | error p => rw [hb] at hr; cases hr
    | ok x =>
      rw [hb] at hr
      rw [hc]
      constructor
      · intro h; rw [(build_over lib o).1 t n _ x (by omega) hb]; rfl
      · intro h; rw [(build_fits lib o).1 t n _ (by omega), hb]; exact congrArg some hr

/-! ## Dropping -/

theorem not_chain_drop {h : Heap} : ∀ (n : Nat) (i : NodeId), h.dropIn n i = true ↔ ¬ Chain (Holds h) i (n + 1)
  | 0, i => by simp only [Heap.dropIn]; exact ⟨fun h => (by cases h), fun h => absurd (Spec.Chain.one i) h⟩
  | n + 1, i => by
    have ih := not_chain_drop (h := h) n
    rw [chain_succ]
    unfold Heap.dropIn
    rw [Bool.and_eq_true, List.all_eq_true]
    constructor
    · rintro ⟨h1, h2⟩ ⟨b, hb, hc⟩
      rcases hb with ⟨ids, h3, h4⟩ | h3
      · exact (ih b).1 (h2 b (by rw [h3]; exact h4)) hc
      · rw [h3] at h1; exact (ih b).1 h1 hc
    · intro hno
      refine ⟨?_, fun b hb => (ih b).2 fun hc => hno ⟨b, ?_, hc⟩⟩
      · cases he : (h.cell i).endTag with
        | none => rfl
        | some e => exact (ih e).2 fun hc => hno ⟨e, .inr he, hc⟩
      · cases hq : (h.cell i).childs with
        | none => rw [hq] at hb; cases hb
        | some ids => rw [hq] at hb; exact .inl ⟨ids, hq, hb⟩

/-- **C68.** Dropping a node overflows a stack with room for `n` nested drops exactly if there are `n + 1` nodes from it on, each
held by the one before. -/
theorem c68_drop (h : Heap) (n : Nat) (i : NodeId) : h.dropIn n i = false ↔ Chain (Holds h) i (n + 1) := by
  have := not_chain_drop (h := h) n i
  cases hd : h.dropIn n i with
  | true => rw [hd] at this; simp [this.1 rfl]
  | false => rw [hd] at this; simp only [Bool.false_eq_true, false_iff, Classical.not_not] at this; simp [this]

/-! ## Cloning -/

theorem clone_some {r n : Nat} {h : Heap} {i : NodeId} {x : Heap × NodeId} (hx : Heap.cloneWith r (n + 1) h i = some x) :
    ∃ dat h1 e', cloneData r (h.cell i).toNodeD = some dat ∧ cloneEnd r n h (h.cell i).endTag = some (h1, e') := by
  cases hd : cloneData r (h.cell i).toNodeD with
  | none => unfold Heap.cloneWith at hx; simp [hd] at hx
  | some dat =>
    cases hq : cloneEnd r n h (h.cell i).endTag with
    | none =>
      unfold Heap.cloneWith at hx
      cases ht : (h.cell i).endTag with
      | none => rw [ht] at hq; simp [cloneEnd] at hq
      | some t =>
        rw [ht] at hq
        simp only [cloneEnd, Option.map_eq_none_iff] at hq
        simp [hd, ht, hq] at hx
    | some y => exact ⟨dat, y.1, y.2, rfl, rfl⟩

theorem cloneStep_none (r n : Nat) (me : NodeId) : ∀ ids : List NodeId, ids.foldl (cloneStep r n me) none = none
  | [] => rfl
  | _ :: ids => by rw [List.foldl_cons]; exact cloneStep_none r n me ids

/-- A copy made in a stack is the copy; there is one if the stack is large enough. -/
theorem clone_fits {h0 : Heap} (hrange : ∀ a b, a < h0.size → Holds h0 a b → b < h0.size) (r : Nat) :
    ∀ (n m : Nat) (h : Heap) (i : NodeId) (x : Heap × NodeId), Ext h0 h → i < h0.size → ¬ Chain (Holds h0) i (n + 1) →
      Heap.cloneWith r m h i = some x → Heap.cloneWith r n h i = some x
  | 0, _, _, i, _, _, _, hno, _ => absurd (.one i) hno
  | _ + 1, 0, _, _, _, _, _, _, hx => by simp [Heap.cloneWith] at hx
  | n + 1, m + 1, h, i, x, he, hi, hno, hx => by
    have ih := clone_fits hrange r n m
    have hcell := he.2 i hi
    have hnb : ∀ b, Holds h0 i b → ¬ Chain (Holds h0) b (n + 1) := fun b hb hc => hno (chain_succ.2 ⟨b, hb, hc⟩)
    obtain ⟨dat, h1, e', k1, k2⟩ := clone_some hx
    rw [clone_eq k1 k2] at hx
    have hext : Ext h h1 := by
      cases hq : (h.cell i).endTag with
      | none => rw [hq] at k2; simp [cloneEnd] at k2; rw [← k2.1]; exact Ext.refl h
      | some t =>
        rw [hq] at k2
        simp only [cloneEnd, Option.map_eq_some_iff, Prod.mk.injEq] at k2
        obtain ⟨⟨a, b⟩, q1, q2, _⟩ := k2
        rw [← q2]; exact (cloneWith_ext r m h a t b q1).1
    have k2' : cloneEnd r n h (h.cell i).endTag = some (h1, e') := by
      cases hq : (h.cell i).endTag with
      | none => rw [hq] at k2; exact k2
      | some t =>
        rw [hq] at k2
        simp only [cloneEnd, Option.map_eq_some_iff, Prod.mk.injEq] at k2 ⊢
        obtain ⟨y, q1, q2⟩ := k2
        have hh : Holds h0 i t := .inr (by rw [← hcell]; exact hq)
        exact ⟨y, ih h t y he (hrange i t hi hh) (hnb t hh) q1, q2⟩
    rw [clone_eq k1 k2']
    cases hc : (h.cell i).childs with
    | none => rw [hc] at hx; exact hx
    | some ids =>
      rw [hc] at hx
      simp only [Option.map_eq_some_iff] at hx ⊢
      obtain ⟨y, q1, q2⟩ := hx
      refine ⟨y, ?_, q2⟩
      have hk : ∀ b ∈ ids, Holds h0 i b := fun b hb => .inl ⟨ids, by rw [← hcell]; exact hc, hb⟩
      have hE : Ext h0 (h1.push { toNodeD := dat, endTag := e', root := (h.cell i).root, document := (h.cell i).document }) :=
        (he.trans hext).trans (Ext.push _ _)
      generalize h1.push { toNodeD := dat, endTag := e', root := (h.cell i).root, document := (h.cell i).document } = H at q1 hE ⊢
      generalize h1.size = me at q1 ⊢
      generalize ([] : List NodeId) = done at q1 ⊢
      clear hc
      induction ids generalizing H done with
      | nil => exact q1
      | cons b ids ihl =>
        rw [List.foldl_cons] at q1 ⊢
        simp only [cloneStep] at q1 ⊢
        cases hcl : Heap.cloneWith r m H b with
        | none => rw [hcl] at q1; simp only at q1; rw [cloneStep_none] at q1; cases q1
        | some z =>
          obtain ⟨H1, cid⟩ := z
          rw [hcl] at q1
          have hb := hk b (by simp)
          rw [ih H b _ hE (hrange i b hi hb) (hnb b hb) hcl]
          simp only at q1 ⊢
          obtain ⟨w1, w2⟩ := cloneWith_ext r m H H1 b cid hcl
          exact ihl (fun b hb => hk b (List.mem_cons_of_mem _ hb)) _ ((hE.trans w1).upd (by have := hE.1; omega) _) _ q1

/-- There is no copy if the stack is too small. -/
theorem clone_over {h0 : Heap} (hrange : ∀ a b, a < h0.size → Holds h0 a b → b < h0.size) (r : Nat) :
    ∀ (n : Nat) (h : Heap) (i : NodeId), Ext h0 h → i < h0.size → Chain (Holds h0) i (n + 1) → Heap.cloneWith r n h i = none
  | 0, _, _, _, _, _ => rfl
  | n + 1, h, i, he, hi, hc => by
    obtain ⟨b, hb, hcb⟩ := chain_succ.1 hc
    have ih := clone_over hrange r n
    have hbl := hrange i b hi hb
    have hcell := he.2 i hi
    cases hx : Heap.cloneWith r (n + 1) h i with
    | none => rfl
    | some x =>
      exfalso
      obtain ⟨dat, h1, e', k1, k2⟩ := clone_some hx
      rw [clone_eq k1 k2] at hx
      have hext : Ext h h1 := by
        cases hq : (h.cell i).endTag with
        | none => rw [hq] at k2; simp [cloneEnd] at k2; rw [← k2.1]; exact Ext.refl h
        | some t =>
          rw [hq] at k2
          simp only [cloneEnd, Option.map_eq_some_iff, Prod.mk.injEq] at k2
          obtain ⟨⟨a, b⟩, q1, q2, _⟩ := k2
          rw [← q2]; exact (cloneWith_ext r n h a t b q1).1
      rcases hb with ⟨ids, h3, h4⟩ | h3
      · rw [hcell, h3] at hx
        simp only [Option.map_eq_some_iff] at hx
        obtain ⟨y, q1, _⟩ := hx
        have hE : Ext h0 (h1.push { toNodeD := dat, endTag := e', root := (h0.cell i).root, document := (h0.cell i).document }) :=
          (he.trans hext).trans (Ext.push _ _)
        generalize h1.push { toNodeD := dat, endTag := e', root := (h0.cell i).root, document := (h0.cell i).document } = H at q1 hE
        generalize h1.size = me at q1
        generalize ([] : List NodeId) = done at q1
        clear h3
        induction ids generalizing H done with
        | nil => cases h4
        | cons a ids ihl =>
          rw [List.foldl_cons] at q1
          simp only [cloneStep] at q1
          cases hcl : Heap.cloneWith r n H a with
          | none => rw [hcl] at q1; simp only at q1; rw [cloneStep_none] at q1; cases q1
          | some z =>
            obtain ⟨H1, cid⟩ := z
            rw [hcl] at q1
            rcases List.mem_cons.1 h4 with rfl | h4
            · rw [ih H b hE hbl hcb] at hcl; cases hcl
            · obtain ⟨w1, w2⟩ := cloneWith_ext r n H H1 a cid hcl
              exact ihl h4 _ ((hE.trans w1).upd (by have := hE.1; omega) _) _ q1
      · rw [hcell, h3] at k2
        simp only [cloneEnd, ih h b he hbl hcb] at k2
        cases k2

/-- **C68.** Cloning a node of a parsed document overflows a stack with room for `n` nested calls exactly if there are `n + 1`
nodes from it on, each held by the one before; otherwise it makes the copy it makes without a limit (C37, C38). -/
theorem c68_clone {s : Str} {o : ParseOptions} {d : Doc} (h : Doc.parse s o = .ok d) (i : NodeId)
    (hi : InDoc d.heap d.root i ∨ ∃ t, InDoc d.heap d.root t ∧ (d.heap.cell t).endTag = some i) (n : Nat) :
    (Chain (Holds d.heap) i (n + 1) → d.heap.cloneNode n i = none) ∧
    (¬ Chain (Holds d.heap) i (n + 1) → ∃ x, d.heap.cloneNode n i = some x ∧ d.heap.cloneNode (d.heap.size + 1) i = some x) := by
  have hg := parse_graph h
  have hr := (hg.2.2.2.1.acyclic hg.2.2.2.2.1).range
  have hil := (parse_subtree h i hi).1
  obtain ⟨t, h', i', _, k2, _⟩ := c38_clone_total h i hi
  exact ⟨fun hc => clone_over hr _ n _ i (Ext.refl _) hil hc,
    fun hc => ⟨_, clone_fits hr _ n _ _ i _ (Ext.refl _) hil hc k2, k2⟩⟩

/-! ## How long the chains are -/

theorem depth_le : ∀ (ps : List PNode) p, p ∈ ps → depth p ≤ depths ps
  | [], p, hp => by cases hp
  | q :: ps, p, hp => by
    simp only [depths]
    rcases List.mem_cons.1 hp with rfl | hp
    · omega
    · have := depth_le ps p hp; omega

theorem mem_pnodes {t : Tree} : ∀ {ts : List Tree}, t ∈ ts → t.pnode ∈ Tree.pnodes ts
  | [], h => by cases h
  | u :: ts, h => by
    simp only [Tree.pnodes]
    rcases List.mem_cons.1 h with rfl | h
    · simp
    · exact List.mem_cons_of_mem _ (mem_pnodes h)

/-- Only elements have children, so a chain is no longer than the document is deep. -/
theorem chain_depth {h : Heap} (hin : ∀ p, p < h.size → (h.cell p).childs ≠ none → (h.cell p).nodeType = .tag ∨ (h.cell p).nodeType = .abstractRoot)
    (hrange : ∀ a b, a < h.size → Child h a b → b < h.size) {i : NodeId} {n : Nat} (hc : Chain (Child h) i n) :
    ∀ (fuel : Nat) (t : Tree), i < h.size → h.toTree? fuel i = some t → n ≤ depth t.pnode := by
  have hd1 : ∀ p : PNode, 1 ≤ depth p := fun p => by cases p <;> simp [depth]
  induction hc with
  | one a => intro _ t _ _; exact hd1 _
  | @more a b n hr hcb ih =>
    intro fuel t ha ht
    obtain ⟨ids, h1, h2⟩ := id hr
    match fuel with
    | 0 => simp [Heap.toTree?] at ht
    | fuel + 1 =>
      unfold Heap.toTree? at ht
      simp only [h1] at ht
      split at ht
      · rename_i ts hts
        simp only [Option.some.injEq] at ht
        subst ht
        obtain ⟨tb, h4, h5⟩ := optAll_mem hts b h2
        have h6 := ih fuel tb (hrange a b ha hr) h5
        have h7 := depth_le _ _ (mem_pnodes h4)
        rcases hin a ha (by rw [h1]; simp) with h8 | h8 <;>
        · have h8 : (h.cell a).toNodeD.nodeType = _ := h8
          simp only [Tree.pnode, h8, depth]
          omega
      · cases ht

theorem depth_height : (∀ t : Tree, depth t.pnode ≤ t.height) ∧ (∀ ts : List Tree, depths (Tree.pnodes ts) ≤ Tree.heights ts) := by
  refine Tree.induct (P := fun t => depth t.pnode ≤ t.height) (Q := fun ts => depths (Tree.pnodes ts) ≤ Tree.heights ts) ?_ ?_ ?_ ?_
  · intro d e
    simp only [Tree.pnode, Tree.height]
    split <;> simp [depth, depths]
  · intro d e ts ih
    simp only [Tree.pnode, Tree.height]
    split <;> simp only [depth] <;> omega
  · simp [Tree.pnodes, Tree.heights, depths]
  · intro t ts h1 h2
    simp only [Tree.pnodes, Tree.heights, depths]
    omega

/-- A document that is `n` deep has a chain of `n + 1` nodes from its root. -/
theorem doc_chain {s : Str} {o : ParseOptions} {d : Doc} {ps : List PNode} (h : Doc.parse s o = .ok d) (hd : docOf s o = some ps) :
    (∀ n, Chain (Child d.heap) d.root (n + 1) ↔ n ≤ depths ps) := by
  obtain ⟨h1, h2, h3, ho, _⟩ := parse_graph h
  unfold docOf at hd
  rw [h] at hd
  simp only [Option.map_eq_some_iff] at hd
  obtain ⟨t, ht, rfl⟩ := hd
  have hdata : t.data.nodeType = .abstractRoot := by rw [toTree_data ht, h1]; exact h3
  have hp : depth t.pnode = 1 + depths t.doc := by
    cases t with
    | mk dd e cs =>
      have hdata : dd.nodeType = .abstractRoot := hdata
      have hdata' := hdata
      clear hdata
      cases cs <;> simp [Tree.pnode, hdata', depth, Tree.doc, Tree.kids, Tree.pnodes]
  have hh := (depth_height.1 t)
  intro n
  constructor
  · intro hc
    have := chain_depth ho.inner (fun a b ha hab => (ho.range a b ha (by
      obtain ⟨ids, q1, q2⟩ := hab; unfold Heap.kids; rw [q1]; exact q2)).2) hc _ t (by rw [h1]; exact h2) ht
    omega
  · intro hn
    exact (tree_chain _ ht n).2 (by omega)

theorem ends_leaf {lt : Bool} {h : Heap} (ho : Owns lt h) (he : Ends h) {t e x : NodeId} (ht : t < h.size) (h1 : (h.cell t).endTag = some e)
    (hx : Holds h e x) : False := by
  obtain ⟨_, k1, k2, _⟩ := he.down t e ht h1
  rcases hx with ⟨ids, h2, _⟩ | h2
  · rcases ho.inner e k1 (by rw [h2]; simp) with h3 | h3 <;> rw [k2] at h3 <;> cases h3
  · have := (he.down e x k1 h2).2.2.2.2.2
    rw [k2] at this; cases this

/-- An end tag can only be the last node of a chain. -/
theorem holds_chain {lt : Bool} {h : Heap} (ho : Owns lt h) (he : Ends h) : ∀ (n : Nat) (i : NodeId), i < h.size → Chain (Holds h) i (n + 2) →
    Chain (Child h) i (n + 1)
  | 0, i, _, _ => .one i
  | n + 1, i, hi, hc => by
    obtain ⟨b, hb, hcb⟩ := chain_succ.1 hc
    rcases hb with hb | hb
    · have hbl : b < h.size := by
        obtain ⟨ids, q1, q2⟩ := hb
        exact (ho.range i b hi (by unfold Heap.kids; rw [q1]; exact q2)).2
      exact .more hb (holds_chain ho he n b hbl hcb)
    · obtain ⟨c, hc', _⟩ := chain_succ.1 hcb
      exact (ends_leaf ho he hi hb hc').elim

/-- **C68.** How much is enough for rendering: room for a third of the characters of the text, and one more call. -/
theorem c68_enough {s : Str} {o : ParseOptions} {d : Doc} {lib : EntityLib} {ro : RenderOptions} {r : Str} (h : Doc.parse s o = .ok d)
    (ho : ro.innerHtml = false) (hr : d.render lib ro = .ok r) {n : Nat} (hlen : s.length + 2 < 3 * n) :
    d.renderIn n lib ro = some (.ok r) := by
  have hn : ¬ EndsInName o s := by
    intro hn
    rcases c02_exact h lib ro ho with ⟨_, _, q⟩ | ⟨q, _⟩
    · rw [q] at hr; cases hr
    · exact q (endsInName_stop hn)
  refine (c68_render ho hr n).2 fun hc => ?_
  obtain ⟨ps, hp⟩ := result_of h hn
  have hp := (c53_doc hn ps).2 hp
  have := (doc_chain h hp n).1 hc
  have := c58_depth hn hp
  omega

/-- **C68.** How much is enough for cloning the root and for dropping the document: one more. -/
theorem c68_enough_clone {s : Str} {o : ParseOptions} {d : Doc} (h : Doc.parse s o = .ok d) (hn : ¬ EndsInName o s) {n : Nat}
    (hlen : s.length + 2 < 3 * n) : d.heap.cloneNode (n + 1) d.root ≠ none ∧ d.heap.dropIn (n + 1) d.root = true := by
  obtain ⟨ps, hp⟩ := result_of h hn
  have hp := (c53_doc hn ps).2 hp
  have hd := c58_depth hn hp
  obtain ⟨h1, h2, _, h4, h5, _⟩ := parse_graph h
  have hno : ¬ Chain (Holds d.heap) d.root (n + 1 + 1) := by
    intro hc
    have := (doc_chain h hp n).1 (holds_chain h4 h5 n d.root (by rw [h1]; exact h2) hc)
    omega
  constructor
  · obtain ⟨x, hx, _⟩ := (c68_clone h d.root (.inl .root) (n + 1)).2 hno
    rw [hx]; simp
  · exact (not_chain_drop (n + 1) d.root).2 hno

theorem nest_wf (n : Nat) : wfDoc {} (nest [] n) := by
  suffices ∀ n parent, wfNodes {} none parent (nest [] n) from this n none
  intro n
  induction n with
  | zero => intro p; simp [nest, wfNodes]
  | succ n ih =>
    intro p
    have hv : ¬ isVoid ['a'] := by decide
    have hr : ¬ isRaw ['a'] := by decide
    have he : enter none ['a'] = none := by decide
    simp only [nest, wfNodes, wfNode, isText, Bool.false_eq_true, false_implies, true_and, and_true, if_false, hv, hr, he]
    exact ⟨by decide, ⟨by simp, by simp [eqApart]⟩, ⟨['a'], rfl, by decide⟩, ih _⟩

theorem nest_length : ∀ n, (printNodes (nest [] n)).length = 7 * n
  | 0 => rfl
  | n + 1 => by
    simp only [nest, printNodes, printNode, List.length_append, nest_length n]
    have h1 : (printOpen ['a'] [] false).length = 3 := by decide
    have h2 : (printEnd (some ['a'])).length = 4 := by decide
    rw [h1, h2]; simp; omega

theorem deep_over {s : Str} {o : ParseOptions} {ps : List PNode} {n : Nat} (hp : docOf s o = some ps) (hd : depths ps = n)
    (hs : ¬ ∃ u n, s = u ++ n ∧ afterLt u o = true ∧ notClosed u o = true ∧ tagNameText n) :
    ∃ d, Doc.parse s o = .ok d ∧ (∀ lib ro, ro.innerHtml = false → d.renderIn n lib ro = none) ∧
      d.heap.cloneNode n d.root = none ∧ d.heap.dropIn n d.root = false := by
  cases hx : Doc.parse s o with
  | err e => unfold docOf at hp; rw [hx] at hp; cases hp
  | panic e => unfold docOf at hp; rw [hx] at hp; cases hp
  | ok d =>
    have hc := (doc_chain hx hp n).2 (by omega)
    have hc' : Chain (Holds d.heap) d.root (n + 1) := Chain.imp (fun _ _ h => .inl h) hc
    refine ⟨d, rfl, fun lib ro hro => ?_, (c68_clone hx d.root (.inl .root) n).1 hc', (c68_drop _ _ _).2 hc'⟩
    rcases c02_exact hx lib ro hro with ⟨q, _⟩ | ⟨_, out, q⟩
    · exact absurd q hs
    · exact (c68_render hro q n).1 hc

/-- **C68.** No stack is enough: for every `n` there is a text of `7n` characters, well-formed html, that is parsed without
any repair, and neither rendering it nor cloning it nor even dropping it fits into a stack with room for `n` nested calls. -/
theorem c68_never (n : Nat) : ∃ s d, s.length = 7 * n ∧ Doc.parse s {} = .ok d ∧
    (∀ lib ro, ro.innerHtml = false → d.renderIn n lib ro = none) ∧
    d.heap.cloneNode n d.root = none ∧ d.heap.dropIn n d.root = false := by
  obtain ⟨b, h1, h2, h3⟩ := arun_wfDoc (nest_wf n)
  obtain ⟨d, t', k1, k2, k3, _⟩ := machine_parse h1 h2
  have hp : docOf (printNodes (nest [] n)) {} = some (nest [] n) := by
    unfold docOf; rw [k1]; simp only [k2, Option.map_some, k3, h3]
  obtain ⟨d, q1, q2⟩ := deep_over (n := n) hp (by rw [nest_depths]; simp [depths]) (by
    intro hx
    rcases c02_exact k1 ⟨fun _ => [], fun _ => none, fun _ => false, fun _ => none⟩ {} rfl with ⟨_, q, _⟩ | ⟨q, _⟩
    · cases q
    · exact q hx)
  exact ⟨_, d, nest_length n, q1, q2⟩

/-- The outcome of rendering with room for `n` calls. -/
def stackTag : Option (RRes Str) → String
  | none => "overflow"
  | some (.ok r) => String.ofList r
  | some (.error _) => "panic"

/-- The document `<a><a>b</a></a>` needs four nested calls. -/
example : (match Doc.parse "<a><a>b</a></a>".toList {} with
    | .ok d => some ((d.renderIn 3 toyLib {}) |> stackTag, (d.renderIn 4 toyLib {}) |> stackTag, (d.heap.cloneNode 3 d.root).isSome,
        (d.heap.cloneNode 4 d.root).isSome, d.heap.dropIn 3 d.root, d.heap.dropIn 4 d.root)
    | _ => none) = some ("overflow", "<a><a>b</a></a>", false, true, false, true) := by decide +kernel

/-- An end tag is a call of its own for cloning and dropping. -/
example : (match Doc.parse "<a></a>".toList {} with
    | .ok d => some (stackTag (d.renderIn 2 toyLib {}), (d.heap.cloneNode 2 d.root).isSome, d.heap.dropIn 2 d.root, d.heap.dropIn 3 d.root)
    | _ => none) = some ("<a></a>", false, false, true) := by decide +kernel

end Rphtml
