import Verif.Proofs.Recode
import Verif.Props.RenderText

/-!
# Rendering parts of a document with the entity options
-/

namespace Rphtml
open Spec

theorem recode_end (lib : EntityLib) (ro : RenderOptions) (pre : Bool) {n : NodeD} (h : n.nodeType = .tagEnd) : recode lib ro pre n = n := by
  simp [recode, h]

/-- Rendering a tree with the entity options is rendering the changed tree without them. -/
theorem tree_recode (lib : EntityLib) (ro : RenderOptions) :
    (∀ t : Tree, endsTyped t → ∀ (before : List NodeD) (st : RenderStatus), st.isInPre = openPre before →
      buildTree lib ro t st = buildTree lib (plainRo ro) (recodeAt lib ro before t) st ∧
      (st.root = false → ∀ x, buildTree lib ro t st = .ok x → x.1.isInPre = openPre (before ++ linear t) ∧ x.1.root = false)) ∧
    (∀ ts : List Tree, endsTypedF ts → ∀ (before : List NodeD) (st : RenderStatus), st.isInPre = openPre before → st.root = false →
      buildForest lib ro ts st = buildForest lib (plainRo ro) (recodeAts lib ro before ts) st ∧
      ∀ x, buildForest lib ro ts st = .ok x → x.1.isInPre = openPre (before ++ linears ts) ∧ x.1.root = false) := by
  have hnode : ∀ (n : NodeD) (before : List NodeD) (st : RenderStatus), st.isInPre = openPre before →
      buildNode lib ro n st = buildNode lib (plainRo ro) (recode lib ro (openPre before) n) st ∧
      ∀ x, buildNode lib ro n st = .ok x → x.1.isInPre = openPre (before ++ [n]) ∧ x.1.root = st.root := by
    intro n before st hp
    refine ⟨by rw [buildNode_recode lib ro n st, hp], ?_⟩
    intro x hx
    have h1 := buildNode_pre (st' := x.1) (out := x.2) hx
    exact ⟨by rw [h1, openPre_snoc, hp], (buildNode_root (st' := x.1) (out := x.2) hx).1⟩
  have hend : ∀ (e : Option NodeD) (st : RenderStatus), (∀ x, e = some x → x.nodeType = .tagEnd) →
      buildEnd lib ro e st = buildEnd lib (plainRo ro) e st ∧
      ∀ before, st.isInPre = openPre before → ∀ x, buildEnd lib ro e st = .ok x → x.1.isInPre = openPre (before ++ e.toList) ∧ x.1.root = st.root := by
    intro e st he
    cases e with
    | none =>
      refine ⟨rfl, ?_⟩
      intro before hp x hx
      cases hx
      simp [hp]
    | some y =>
      refine ⟨?_, ?_⟩
      · have := buildNode_recode lib ro y st
        rw [recode_end lib ro _ (he y rfl)] at this
        exact this
      · intro before hp x hx
        exact (hnode y before st hp).2 x hx
  apply Tree.induct
  · intro d e h before st hp
    simp only [endsTyped] at h
    obtain ⟨h1, h2⟩ := hnode d before st hp
    simp only [recodeAt, buildTree, h1]
    cases hx : buildNode lib (plainRo ro) (recode lib ro (openPre before) d) st with
    | error s => exact ⟨rfl, by intro _ x hx; cases hx⟩
    | ok x =>
      obtain ⟨k1, k2⟩ := h2 x (h1.trans hx)
      obtain ⟨e1, e2⟩ := hend e x.1 h
      simp only [Except.bind_ok', e1]
      refine ⟨trivial, ?_⟩
      intro hr y hy
      cases hz : buildEnd lib (plainRo ro) e x.1 with
      | error s => rw [hz] at hy; cases hy
      | ok z =>
        rw [hz] at hy
        simp only [Except.bind_ok', Except.ok.injEq] at hy
        obtain ⟨m1, m2⟩ := e2 _ k1 z (e1.trans hz)
        rw [← hy]
        refine ⟨by simpa [linear] using m1, by rw [show _ = z.1.root from rfl, m2, k2, hr]⟩
  · intro d e ts ih h before st hp
    simp only [endsTyped] at h
    obtain ⟨h1, h2⟩ := hnode d before st hp
    simp only [recodeAt, buildTree, h1]
    cases hx : buildNode lib (plainRo ro) (recode lib ro (openPre before) d) st with
    | error s => exact ⟨rfl, by intro _ x hx; cases hx⟩
    | ok x =>
      obtain ⟨k1, k2⟩ := h2 x (h1.trans hx)
      simp only [Except.bind_ok']
      cases hr : x.1.root with
      | true =>
        obtain ⟨f1, f2⟩ := ih h.2 (before ++ [d]) { x.1 with root := false } k1 rfl
        simp only [if_true, f1, (hend e _ h.1).1]
        refine ⟨trivial, ?_⟩
        intro q; rw [q, hr] at k2; cases k2
      | false =>
        obtain ⟨f1, f2⟩ := ih h.2 (before ++ [d]) x.1 k1 hr
        simp only [Bool.false_eq_true, if_false, f1, (hend e _ h.1).1]
        refine ⟨trivial, ?_⟩
        intro q y hy
        cases hv : buildForest lib (plainRo ro) (recodeAts lib ro (before ++ [d]) ts) x.1 with
        | error s => rw [hv] at hy; cases hy
        | ok v =>
          rw [hv] at hy
          simp only [Except.bind_ok'] at hy
          obtain ⟨g1, g2⟩ := f2 v (f1.trans hv)
          obtain ⟨e1, e2⟩ := hend e v.1 h.1
          cases hz : buildEnd lib (plainRo ro) e v.1 with
          | error s => rw [hz] at hy; cases hy
          | ok z =>
            rw [hz] at hy
            simp only [Except.bind_ok', Except.ok.injEq] at hy
            obtain ⟨m1, m2⟩ := e2 _ g1 z (e1.trans hz)
            rw [← hy]
            refine ⟨by simpa [linear] using m1, by rw [show _ = z.1.root from rfl, m2, g2]⟩
  · intro _ before st hp hr
    refine ⟨rfl, ?_⟩
    intro x hx
    cases hx
    exact ⟨by simpa [linears] using hp, hr⟩
  · intro t ts h1 h2 h before st hp hr
    simp only [endsTypedF] at h
    obtain ⟨a1, a2⟩ := h1 h.1 before st hp
    simp only [recodeAts, buildForest, a1]
    cases hx : buildTree lib (plainRo ro) (recodeAt lib ro before t) st with
    | error s => exact ⟨rfl, by intro x hx; cases hx⟩
    | ok x =>
      obtain ⟨k1, k2⟩ := a2 hr x (a1.trans hx)
      obtain ⟨b1, b2⟩ := h2 h.2 (before ++ linear t) x.1 k1 k2
      simp only [Except.bind_ok', b1]
      refine ⟨trivial, ?_⟩
      intro y hy
      cases hz : buildForest lib (plainRo ro) (recodeAts lib ro (before ++ linear t) ts) x.1 with
      | error s => rw [hz] at hy; cases hy
      | ok z =>
        rw [hz] at hy
        simp only [Except.bind_ok', Except.ok.injEq] at hy
        obtain ⟨m1, m2⟩ := b2 z (b1.trans hz)
        rw [← hy]
        exact ⟨by simpa [linears] using m1, m2⟩

/-- The data of a changed tree. -/
theorem recode_type (lib : EntityLib) (ro : RenderOptions) (pre : Bool) (n : NodeD) : (recode lib ro pre n).nodeType = n.nodeType := by
  obtain ⟨ix, ty, b, e, ct, tm⟩ := n
  cases ty <;> simp only [recode]
  all_goals split <;> rfl

theorem recodeAt_data (lib : EntityLib) (ro : RenderOptions) (before : List NodeD) (t : Tree) :
    (recodeAt lib ro before t).data = recode lib ro (openPre before) t.data := by
  obtain ⟨d, e, cs⟩ := t
  cases cs <;> rfl

/-- Rendering a node other than the root. -/
theorem build_recode_node (lib : EntityLib) (ro : RenderOptions) (it : Bool) {t : Tree} (he : endsTyped t) (ht : t.data.nodeType ≠ .abstractRoot) :
    build lib t ro it = build lib (recodeAt lib ro [] t) (plainRo ro) it := by
  unfold build
  have h1 : innerTypeOf (plainRo ro) it = innerTypeOf ro it := rfl
  rw [h1]
  cases hi : innerTypeOf ro it with
  | error s => rfl
  | ok ty =>
    have hk : (recodeAt lib ro [] t).data.nodeType = t.data.nodeType := by rw [recodeAt_data, recode_type]
    have h2 := ((tree_recode lib ro).1 t he [] { innerType := ty, root := true } rfl).1
    simp only [buildTarget, hk, if_neg ht]
    have h3 : (match (Except.ok (some t) : RRes (Option Tree)) with
        | .error s => .error s
        | .ok none => .ok []
        | .ok (some t) => (buildTree lib ro t { innerType := ty, root := true }).map (·.2)) =
        (buildTree lib ro t { innerType := ty, root := true }).map (·.2) := rfl
    cases ty <;> cases hty : t.data.nodeType <;> simp_all

theorem printable_recode (lib : EntityLib) (ro : RenderOptions) :
    (∀ t : Tree, allNodes printable t → ∀ before, allNodes printable (recodeAt lib ro before t)) ∧
    (∀ ts : List Tree, allForest printable ts → ∀ before, allForest printable (recodeAts lib ro before ts)) := by
  have hn : ∀ pre (n : NodeD), printable n → printable (recode lib ro pre n) := by
    intro pre n h
    obtain ⟨ix, ty, b, e, ct, tm⟩ := n
    cases ty <;> simp only [recode]
    case text => simpa [printable] using h
    case tag => split <;> exact h
    case spacesBetweenTag => 
      split
      · simp [printable]
      · exact h
    all_goals exact h
  apply Tree.induct
  · intro d e h before
    simp only [allNodes, recodeAt] at h ⊢
    exact ⟨hn _ _ h.1, h.2⟩
  · intro d e ts ih h before
    simp only [allNodes, recodeAt] at h ⊢
    exact ⟨hn _ _ h.1, h.2.1, ih h.2.2 _⟩
  · intro _ before; trivial
  · intro t ts h1 h2 h before
    simp only [allForest, recodeAts] at h ⊢
    exact ⟨h1 h.1 _, h2 h.2 _⟩

theorem endsTyped_recode (lib : EntityLib) (ro : RenderOptions) :
    (∀ t : Tree, endsTyped t → ∀ before, endsTyped (recodeAt lib ro before t)) ∧
    (∀ ts : List Tree, endsTypedF ts → ∀ before, endsTypedF (recodeAts lib ro before ts)) := by
  apply Tree.induct
  · intro d e h before; simpa only [recodeAt, endsTyped] using h
  · intro d e ts ih h before
    simp only [recodeAt, endsTyped] at h ⊢
    exact ⟨h.1, ih h.2 _⟩
  · intro _ before; trivial
  · intro t ts h1 h2 h before
    simp only [recodeAts, endsTypedF] at h ⊢
    exact ⟨h1 h.1 _, h2 h.2 _⟩

end Rphtml
