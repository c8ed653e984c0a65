import Verif.Proofs.Loose
import Verif.Props.PreExact
import Verif.Props.RenderComment
import Verif.Props.Stable
import Verif.Spec.Samples

/-!
# C48: documents rendered with options are read back
-/

namespace Rphtml
open Spec

/-! ## minify_spaces -/

theorem buildNode_pre {lib : EntityLib} {o : RenderOptions} {n : NodeD} {st st' : RenderStatus} {out : Str}
    (h : buildNode lib o n st = .ok (st', out)) :
    st'.isInPre = if startsPre n then true else if endsPre n then false else st.isInPre := by
  obtain ⟨ix, ty, b, e, ct, tm⟩ := n
  cases ty
  case tag =>
    cases tm with
    | none => simp [buildNode] at h
    | some m =>
      simp only [buildNode, Except.ok.injEq, Prod.mk.injEq] at h
      rw [← h.1]
      simp only [startsPre, endsPre, isPre_iff']
      by_cases q : isPre m.name <;> simp [q]
  case tagEnd =>
    cases ct with
    | none => simp [buildNode] at h
    | some w =>
      simp only [buildNode, Except.ok.injEq, Prod.mk.injEq] at h
      rw [← h.1]
      simp only [startsPre, endsPre, isPre_iff', charsTrimEnd_eq]
      by_cases q : isPre (trimEnd w) <;> cases hp : st.isInPre <;> simp [q, hp]
  all_goals
    have : st' = st := by
      simp only [buildNode] at h
      repeat' split at h
      all_goals first
        | (cases h; done)
        | (cases h; rfl)
    rw [this]
    simp [startsPre, endsPre]

theorem buildLine_minify (lib : EntityLib) {o : RenderOptions} (hm : o.minifySpaces = true) (hd : o.decodeEntity = false) :
    ∀ (ns before : List NodeD) (st : RenderStatus), st.isInPre = openPre before →
      buildLine lib o ns st = buildLine lib { o with minifySpaces := false } (squeezed before ns) st
  | [], _, _, _ => rfl
  | n :: ns, before, st, hp => by
    have hb := buildNode_squeeze lib hm hd n st
    rw [hp] at hb
    simp only [buildLine, squeezed, hb]
    cases hx : buildNode lib { o with minifySpaces := false } (if openPre before = true then n else squeeze n) st with
    | error s => rfl
    | ok x =>
      simp only [Except.bind_ok']
      have h1 := buildNode_pre (st' := x.1) (out := x.2) (hb.trans hx)
      rw [buildLine_minify lib hm hd ns (before ++ [n]) x.1 (by rw [h1, openPre_snoc, hp])]

theorem squeezed_append : ∀ (a b before : List NodeD), squeezed before (a ++ b) = squeezed before a ++ squeezed (before ++ a) b
  | [], b, before => by simp [squeezed]
  | n :: a, b, before => by
    simp only [List.cons_append, squeezed, squeezed_append a b, List.append_assoc, List.nil_append]

theorem shaped_end {d : NodeD} {e : Option NodeD} {cs : Option (List Tree)} (h : (Tree.mk d e cs).shaped) {x : NodeD} (hx : e = some x) :
    x.nodeType = .tagEnd ∧ x.content ≠ none := by
  subst hx
  unfold Tree.shaped at h
  cases ht : d.nodeType <;> simp only [ht] at h
  all_goals first | exact h.2.1 x rfl | (obtain ⟨_, h, _⟩ := h; cases h)

theorem shaped_kids {d : NodeD} {e : Option NodeD} {ts : List Tree} (h : (Tree.mk d e (some ts)).shaped) : Tree.shapeds ts := by
  unfold Tree.shaped at h
  cases ht : d.nodeType <;> simp only [ht] at h
  all_goals first | exact h.2.2 | (obtain ⟨_, _, h⟩ := h; cases h)

theorem linear_squeeze :
    (∀ t : Tree, t.shaped → ∀ before, linear (squeezeAt before t) = squeezed before (linear t)) ∧
    (∀ ts : List Tree, Tree.shapeds ts → ∀ before, linears (squeezeAts before ts) = squeezed before (linears ts)) := by
  have hend : ∀ (d : NodeD) (e : Option NodeD) cs, (Tree.mk d e cs).shaped → ∀ before, squeezed before e.toList = e.toList := by
    intro d e cs h before
    cases e with
    | none => rfl
    | some x =>
      have hx := (shaped_end h rfl).1
      simp [squeezed, squeeze, hx]
  apply Tree.induct
  · intro d e h before
    simp only [squeezeAt, linear, squeezed, hend d e none h]
  · intro d e ts ih h before
    have hk := shaped_kids h
    simp only [squeezeAt, linear, squeezed, squeezed_append, hend d e _ h, ih hk]
  · intro _ before; rfl
  · intro t ts h1 h2 h before
    simp only [squeezeAts, linears, squeezed_append, h1 h.1, h2 h.2]

/-- A tree with an abstract root. -/
def rootTree (n : NodeD) (ts : List Tree) : Tree := .mk n none (some ts)

theorem build_rootTree (lib : EntityLib) {o : RenderOptions} (hi : o.innerHtml = false) {n : NodeD} (hn : n.nodeType = .abstractRoot)
    (ts : List Tree) : build lib (rootTree n ts) o false =
      (buildLine lib o (linears ts) { innerType := .none, root := false }).map Prod.snd := by
  have hb : ∀ (o : RenderOptions) (st : RenderStatus), buildNode lib o n st = .ok (st, []) := by
    intro o st; unfold buildNode; simp only [hn]
  unfold build innerTypeOf buildTarget rootTree
  simp only [hi, Bool.false_eq_true, if_false, reduceCtorEq, or_self, buildTree, hb, Except.bind_ok', if_true, buildEnd]
  rw [← (buildTree_line lib o).2 ts _ rfl]
  simp only [Except.map]
  cases buildForest lib o ts { innerType := InnerType.none, root := false } with
  | error s => rfl
  | ok x => simp [Bind.bind, Except.bind]

theorem build_minify (lib : EntityLib) {o : RenderOptions} (hm : o.minifySpaces = true) (hd : o.decodeEntity = false)
    (hi : o.innerHtml = false) {n : NodeD} (hn : n.nodeType = .abstractRoot) {ts : List Tree} (hs : Tree.shapeds ts) :
    build lib (rootTree n ts) o false = build lib (rootTree n (squeezeAts [] ts)) { o with minifySpaces := false } false := by
  rw [build_rootTree lib hi hn, build_rootTree lib (o := { o with minifySpaces := false }) hi hn, linear_squeeze.2 ts hs,
    buildLine_minify lib hm hd (linears ts) [] _ rfl]

/-- What `lowerSafe` demands of a node. -/
def LowerOk (o : ParseOptions) : PNode → Prop
  | .elem n _ _ _ _ e => (isForeign n ∨ (o.caseSensitiveTagname = true ∧ isRaw n) → fold n = n) ∧
      ∀ e', e = some e' → isForeign (trimEnd e') → fold (trimEnd e') = trimEnd e'
  | _ => True

theorem lowerSafe_all {o : ParseOptions} {ps : List PNode} (h : lowerSafe o ps) : allsIn (LowerOk o) ps := by
  refine allIn_of_occurs.2 ps ?_
  intro q hq
  cases q with
  | elem n as s ct ks e => exact h n as s ct ks e hq
  | _ => trivial

theorem collapse_mem {c : Char} {w : Str} (h : c ∈ collapse w) : c ∈ w := by
  unfold collapse at h
  rw [List.mem_map] at h
  obtain ⟨x, hx, rfl⟩ := h
  exact (List.of_mem_zip (List.mem_filter.1 hx).1).1

/-- Collapsing keeps the shape, legality and names of a document. -/
theorem squeeze_doc {o : ParseOptions} :
    (∀ t : Tree, t.shaped → ∀ before, (squeezeAt before t).shaped ∧
      (∀ ctx, ctxNode ctx (squeezeAt before t).pnode = ctxNode ctx t.pnode) ∧
      (∀ ctx par, looseNode false o ctx par t.pnode → looseNode false o ctx par (squeezeAt before t).pnode) ∧
      (optionalNode t.pnode → optionalNode (squeezeAt before t).pnode) ∧
      (allIn (LowerOk o) t.pnode → allIn (LowerOk o) (squeezeAt before t).pnode)) ∧
    (∀ ts : List Tree, Tree.shapeds ts → ∀ before, Tree.shapeds (squeezeAts before ts) ∧
      (∀ ctx, ctxNodes ctx (Tree.pnodes (squeezeAts before ts)) = ctxNodes ctx (Tree.pnodes ts)) ∧
      (∀ ctx par, looseNodes false o ctx par (Tree.pnodes ts) → looseNodes false o ctx par (Tree.pnodes (squeezeAts before ts))) ∧
      (optionalNodes (Tree.pnodes ts) → optionalNodes (Tree.pnodes (squeezeAts before ts))) ∧
      (allsIn (LowerOk o) (Tree.pnodes ts) → allsIn (LowerOk o) (Tree.pnodes (squeezeAts before ts)))) := by
  have hleaf : ∀ (d : NodeD) (e : Option NodeD), (Tree.mk d e none).shaped →
      (Tree.mk (squeeze d) e none).shaped ∧
      ((Tree.mk (squeeze d) e none).pnode = (Tree.mk d e none).pnode ∨
        ∃ w v, (Tree.mk d e none).pnode = .text w ∧ (Tree.mk (squeeze d) e none).pnode = .text v ∧ ∀ c ∈ v, c ∈ w) := by
    intro d e h
    obtain ⟨ix, ty, b, en, ct, tm⟩ := d
    cases ty
    case text =>
      unfold Tree.shaped at h
      simp only at h
      cases ct with
      | none => exact absurd rfl h.1
      | some w =>
        refine ⟨by unfold Tree.shaped squeeze; simp [h.2.1], .inr ⟨w, collapse w, ?_, ?_, fun c => collapse_mem⟩⟩ <;>
          simp [Tree.pnode, squeeze]
    case spacesBetweenTag =>
      unfold Tree.shaped at h
      simp only at h
      cases ct with
      | none => exact absurd rfl h.1
      | some w =>
        refine ⟨by unfold Tree.shaped squeeze; simp [h.2.1], .inr ⟨w, [], ?_, ?_, by simp⟩⟩ <;>
          simp [Tree.pnode, squeeze]
    all_goals exact ⟨h, .inl rfl⟩
  apply Tree.induct
  · intro d e h before
    simp only [squeezeAt]
    split
    · exact ⟨h, fun _ => rfl, fun _ _ k => k, id, id⟩
    · obtain ⟨h1, h2⟩ := hleaf d e h
      refine ⟨h1, ?_⟩
      rcases h2 with h2 | ⟨w, v, h2, h3, h4⟩
      · rw [h2]
        exact ⟨fun _ => rfl, fun _ _ k => k, id, id⟩
      · rw [h2, h3]
        simp only [ctxNode, looseNode, optionalNode, allIn, LowerOk]
        exact ⟨fun _ => trivial, fun _ _ k => ⟨by simp, fun q => k.2 (h4 _ q)⟩, id, id⟩
  · intro d e ts ih h before
    have hty : d.nodeType = .tag := by
      unfold Tree.shaped at h
      cases ht : d.nodeType <;> simp only [ht] at h
      all_goals first | rfl | (obtain ⟨_, _, h⟩ := h; cases h)
    have hsq : (if openPre before = true then d else squeeze d) = d := by
      unfold squeeze; simp [hty]
    obtain ⟨k1, k2, k3, k4, k5⟩ := ih (shaped_kids h) (before ++ [d])
    simp only [squeezeAt, hsq]
    have hp : ∀ us, (Tree.mk d e (some us)).pnode = .elem (d.tmeta.getD {}).name (d.tmeta.getD {}).attrs (d.tmeta.getD {}).selfClosed
        d.content (Tree.pnodes us) (e.bind NodeD.content) := by
      intro us; simp only [Tree.pnode, hty]
    rw [hp, hp]
    refine ⟨?_, ?_, ?_, ?_, ?_⟩
    · unfold Tree.shaped at h ⊢
      simp only [hty] at h ⊢
      exact ⟨h.1, h.2.1, k1⟩
    · intro ctx; simp only [ctxNode, k2]
    · intro ctx par q
      simp only [looseNode] at q ⊢
      refine ⟨q.1, q.2.1, q.2.2.imp ?_ (k3 _ _)⟩
      intro hz
      cases ts with
      | nil => rfl
      | cons t ts => simp [Tree.pnodes] at hz
    · intro q; simp only [optionalNode] at q ⊢; exact ⟨q.1, k4 q.2⟩
    · intro q; simp only [allIn] at q ⊢; exact ⟨q.1, k5 q.2⟩
  · intro _ before
    exact ⟨trivial, fun _ => rfl, fun _ _ k => k, id, id⟩
  · intro t ts h1 h2 h before
    obtain ⟨a1, a2, a3, a4, a5⟩ := h1 h.1 before
    obtain ⟨b1, b2, b3, b4, b5⟩ := h2 h.2 (before ++ linear t)
    simp only [squeezeAts, Tree.pnodes, ctxNodes, looseNodes, optionalNodes, allsIn]
    refine ⟨⟨a1, b1⟩, fun ctx => by rw [a2, b2], ?_, fun q => ⟨a4 q.1, b4 q.2⟩, fun q => ⟨a5 q.1, b5 q.2⟩⟩
    intro ctx par q
    rw [a2]
    exact ⟨a3 _ _ q.1, b3 _ _ q.2⟩

/-! ## remove_attr_quote -/

theorem loose_unquote {o : ParseOptions} :
    (∀ p, optionalNode p → ∀ ctx par, looseNode false o ctx par p → looseNode false o ctx par (unquoteNode p)) ∧
    (∀ ps, optionalNodes ps → ∀ ctx par, looseNodes false o ctx par ps → looseNodes false o ctx par (unquoteNodes ps)) := by
  apply PNode.induct
  · intro w _ ctx par h; simpa only [unquoteNode] using h
  · intro w _ ctx par h; simpa only [unquoteNode] using h
  · intro w _ ctx par h; simpa only [unquoteNode] using h
  · intro n as s hq ctx par h
    simp only [optionalNode] at hq
    simp only [unquoteNode, looseNode] at h ⊢
    exact ⟨h.1, by simpa using h.2.1, h.2.2.1, legal_unquote h.2.2.2 hq⟩
  · intro n as s ct ks e ih hq ctx par h
    simp only [optionalNode] at hq
    simp only [unquoteNode, looseNode] at h ⊢
    exact ⟨h.1, legal_unquote h.2.1 hq.1, h.2.2.imp (by rintro rfl; rfl) (ih hq.2 _ _)⟩
  · intro _ ctx par _; simp only [unquoteNodes, looseNodes]
  · intro p ps h1 h2 hq ctx par h
    simp only [optionalNodes] at hq
    simp only [unquoteNodes, looseNodes] at h ⊢
    exact ⟨h1 hq.1 _ _ h.1, by rw [ctx_unquote.1]; exact h2 hq.2 _ _ h.2⟩

theorem lowerOk_unquote {o : ParseOptions} :
    (∀ p, allIn (LowerOk o) p → allIn (LowerOk o) (unquoteNode p)) ∧
    (∀ ps, allsIn (LowerOk o) ps → allsIn (LowerOk o) (unquoteNodes ps)) := by
  apply PNode.induct
  · intro w h; simpa only [unquoteNode] using h
  · intro w h; simpa only [unquoteNode] using h
  · intro w h; simpa only [unquoteNode] using h
  · intro n as s h; simp only [unquoteNode, allIn, LowerOk]
  · intro n as s ct ks e ih h
    simp only [unquoteNode, allIn] at h ⊢
    exact ⟨h.1, ih h.2⟩
  · intro h; exact h
  · intro p ps h1 h2 h
    simp only [unquoteNodes, allsIn] at h ⊢
    exact ⟨h1 h.1, h2 h.2⟩

/-! ## Names -/

/-- Renaming does not change how an element is read. -/
structure RenameOk (o : ParseOptions) (f g : Str → Str) (n : Str) (e : Option Str) : Prop where
  tag : tagName n → tagName (f n)
  void : isVoid (f n) ↔ isVoid n
  raw : isRaw (f n) ↔ isRaw n
  fgn : isForeign (f n) ↔ isForeign n
  same : isForeign n → f n = n
  close : ∀ e', e = some e' → closes o.caseSensitiveTagname n e' → closes o.caseSensitiveTagname (f n) (g e')
  body : isRaw n → ∀ k, ¬ closes o.caseSensitiveTagname n k → ¬ closes o.caseSensitiveTagname (f n) k
  leave : ∀ e', e = some e' → ∀ m, isForeign m → (trimEnd (g e') = m ↔ trimEnd e' = m)

/-- The foreign element one is in is one. -/
def FgnCtx (ctx : Option Str) : Prop := ∀ m, ctx = some m → isForeign m

theorem FgnCtx.enter {ctx : Option Str} (h : FgnCtx ctx) (n : Str) : FgnCtx (enter ctx n) := by
  intro m hm
  unfold Spec.enter at hm
  cases ctx with
  | some k => exact h m hm
  | none =>
    simp only at hm
    split at hm
    · rename_i q; cases hm; exact q
    · cases hm

theorem FgnCtx.leave {ctx : Option Str} (h : FgnCtx ctx) (e : Str) : FgnCtx (leave ctx e) := by
  intro m hm
  unfold Spec.leave at hm
  split at hm
  · cases hm
  · exact h m hm

theorem FgnCtx.nodes : (∀ p ctx, FgnCtx ctx → FgnCtx (ctxNode ctx p)) ∧ (∀ ps ctx, FgnCtx ctx → FgnCtx (ctxNodes ctx ps)) := by
  apply PNode.induct
  · intro w ctx h; simpa only [ctxNode] using h
  · intro w ctx h; simpa only [ctxNode] using h
  · intro w ctx h; simpa only [ctxNode] using h
  · intro n as s ctx h; simpa only [ctxNode] using h
  · intro n as s ct ks e ih ctx h
    simp only [ctxNode]
    split
    · exact h
    · cases e with
      | none => exact ih _ (h.enter n)
      | some e => exact (ih _ (h.enter n)).leave e
  · intro ctx h; simpa only [ctxNodes] using h
  · intro p ps h1 h2 ctx h
    simp only [ctxNodes]
    exact h2 _ (h1 _ h)

theorem enter_rename {o : ParseOptions} {f g : Str → Str} {n : Str} {e : Option Str} (h : RenameOk o f g n e) (ctx : Option Str) :
    enter ctx (f n) = enter ctx n := by
  unfold enter
  cases ctx with
  | some k => rfl
  | none =>
    simp only [h.fgn]
    split
    · rename_i q; rw [h.same q]
    · rfl

theorem loose_rename {o : ParseOptions} {f g : Str → Str} :
    (∀ p, allIn (fun q => ∀ n as s ct ks e, q = .elem n as s ct ks e → RenameOk o f g n e) p → ∀ ctx, FgnCtx ctx →
      ctxNode ctx (renameNode f g p) = ctxNode ctx p ∧
      ∀ par par', (par' = par ∨ ∃ k, par = some k ∧ par' = some (f k) ∧ (isForeign (f k) ↔ isForeign k) ∧ (isForeign k → f k = k)) →
        looseNode false o ctx par p → looseNode false o ctx par' (renameNode f g p)) ∧
    (∀ ps, allsIn (fun q => ∀ n as s ct ks e, q = .elem n as s ct ks e → RenameOk o f g n e) ps → ∀ ctx, FgnCtx ctx →
      ctxNodes ctx (renameNodes f g ps) = ctxNodes ctx ps ∧
      ∀ par par', (par' = par ∨ ∃ k, par = some k ∧ par' = some (f k) ∧ (isForeign (f k) ↔ isForeign k) ∧ (isForeign k → f k = k)) →
        looseNodes false o ctx par ps → looseNodes false o ctx par' (renameNodes f g ps)) := by
  apply PNode.induct
  · intro w _ ctx _; simp only [renameNode, looseNode]; exact ⟨trivial, fun _ _ _ k => k⟩
  · intro w _ ctx _; simp only [renameNode, looseNode]; exact ⟨trivial, fun _ _ _ k => k⟩
  · intro w _ ctx hc
    simp only [renameNode, looseNode]
    refine ⟨trivial, ?_⟩
    rintro par par' (rfl | ⟨k, rfl, rfl, h1, h2⟩) h
    · exact h
    · refine ⟨h.1, h.2.1, h.2.2.1, by simp, ?_⟩
      intro q
      have hk := h1.1 (hc _ q)
      rw [h2 hk] at q
      exact h.2.2.2.2 q
  · intro n as s _ ctx _; simp only [renameNode, looseNode]; exact ⟨trivial, fun _ _ _ k => k⟩
  · intro n as s ct ks e ih h ctx hc
    simp only [allIn] at h
    have hr := h.1 n as s ct ks e rfl
    have he := enter_rename hr ctx
    obtain ⟨k1, k2⟩ := ih h.2 (enter ctx n) (hc.enter n)
    simp only [renameNode]
    refine ⟨?_, ?_⟩
    · simp only [ctxNode, hr.void, hr.raw, he, k1]
      split
      · rfl
      · cases e with
        | none => rfl
        | some e =>
          simp only [Option.map_some]
          unfold leave
          have hm : ∀ m, ctxNodes (enter ctx n) ks = some m → (some m = some (trimEnd (g e)) ↔ some m = some (trimEnd e)) := by
            intro m hm
            have := hr.leave e rfl m (FgnCtx.nodes.2 ks _ (hc.enter n) m hm)
            simp only [Option.some.injEq]
            constructor
            · intro q; exact (this.1 q.symm).symm
            · intro q; exact (this.2 q.symm).symm
          cases hx : ctxNodes (enter ctx n) ks with
          | none => simp
          | some m => simp only [hm m hx]
    · intro par par' _ hl
      simp only [looseNode] at hl ⊢
      refine ⟨hr.tag hl.1, hl.2.1, ?_⟩
      have h3 := hl.2.2
      unfold ElemShape at h3 ⊢
      simp only [hr.void, hr.raw, he]
      split
      · rename_i q
        rw [if_pos q] at h3
        obtain ⟨x1, rfl, rfl, x2⟩ := h3
        exact ⟨x1, rfl, rfl, x2⟩
      · rename_i q
        rw [if_neg q] at h3
        split
        · rename_i q
          rw [if_pos q] at h3
          obtain ⟨x1, rfl, rfl⟩ := h3
          exact ⟨x1, rfl, rfl⟩
        · rename_i q
          rw [if_neg q] at h3
          split
          · rename_i q
            rw [if_pos q] at h3
            obtain ⟨rfl, w, e', rfl, rfl, x1, x2⟩ := h3
            exact ⟨rfl, w, g e', rfl, rfl, hr.close e' rfl x1, fun u k v hw => hr.body q k (x2 u k v hw)⟩
          · rename_i q
            rw [if_neg q] at h3
            obtain ⟨x1, ⟨e', rfl, x2⟩, x3⟩ := h3
            exact ⟨x1, ⟨g e', rfl, hr.close e' rfl x2⟩, k2 _ _ (.inr ⟨n, rfl, rfl, hr.fgn, hr.same⟩) x3⟩
  · intro _ ctx _; simp only [renameNodes, looseNodes]; exact ⟨trivial, fun _ _ _ k => k⟩
  · intro p ps h1 h2 h ctx hc
    simp only [allsIn] at h
    obtain ⟨a1, a2⟩ := h1 h.1 ctx hc
    obtain ⟨b1, b2⟩ := h2 h.2 (ctxNode ctx p) (FgnCtx.nodes.1 p ctx hc)
    simp only [renameNodes, ctxNodes, looseNodes, a1, b1]
    exact ⟨trivial, fun par par' hp k => ⟨a2 par par' hp k.1, b2 par par' hp k.2⟩⟩

theorem trim_ok (o : ParseOptions) (n : Str) (e : Option Str) : RenameOk o id trimEnd n e where
  tag := id
  void := Iff.rfl
  raw := Iff.rfl
  fgn := Iff.rfl
  same := fun _ => rfl
  close := by
    intro e' _ h
    unfold closes at h ⊢
    rw [trimEnd_idem]
    exact h
  body := fun _ _ h => h
  leave := by intro e' _ m _; rw [trimEnd_idem]

theorem isForeign_fold (n : Str) : isForeign (fold n) ↔ isForeign n := by unfold isForeign; rw [fold_idem]

theorem tagName_fold {n : Str} (h : tagName n) : tagName (fold n) := by
  rw [← lowerAll_eq_fold]
  cases n with
  | nil => exact h
  | cons c cs =>
    obtain ⟨h1, h2⟩ := h
    refine ⟨?_, ?_⟩
    · show (toLower c).isAlpha = true
      simp only [Char.isAlpha, Char.isUpper, Char.isLower, Bool.or_eq_true, decide_eq_true_eq, Bool.and_eq_true] at h1 ⊢
      have h3 : ∀ x : Char, (x.val ≥ 65 ∧ x.val ≤ 90 ∨ x.val ≥ 97 ∧ x.val ≤ 122) ↔
          (65 ≤ x.toNat ∧ x.toNat ≤ 90 ∨ 97 ≤ x.toNat ∧ x.toNat ≤ 122) := by
        intro x
        simp only [ge_iff_le, UInt32.le_iff_toNat_le]
        exact Iff.rfl
      have h4 := (h3 c).1 h1
      refine (h3 _).2 ?_
      rw [toNat_toLower]
      split <;> omega
    · intro x hx
      obtain ⟨y, hy, rfl⟩ := List.mem_map.1 (show x ∈ (c :: cs).map toLower from hx)
      obtain ⟨k1, k2, k3⟩ := h2 y hy
      have hne : ∀ z : Char, (z.toNat = 47 ∨ z.toNat = 62) → y ≠ z → toLower y ≠ z := by
        intro z hz hyz hq
        have h5 := congrArg Char.toNat hq
        rw [toNat_toLower] at h5
        split at h5
        · omega
        · exact hyz (Char.toNat_inj.1 h5)
      refine ⟨?_, hne '/' (.inl rfl) k2, hne '>' (.inr rfl) k3⟩
      rw [← isWs_mem, isWs_toLower, isWs_mem]
      exact k1

theorem lower_ok {o : ParseOptions} {n : Str} {as : List Attr} {s : Bool} {ct : Option Str} {ks : List PNode} {e : Option Str}
    (h : LowerOk o (.elem n as s ct ks e)) : RenameOk o fold fold n e where
  tag := tagName_fold
  void := by unfold isVoid; rw [fold_idem]
  raw := by unfold isRaw; rw [fold_idem]
  fgn := isForeign_fold n
  same := fun q => h.1 (.inl q)
  close := by
    intro e' _ q
    unfold closes at q ⊢
    rw [trimEnd_fold]
    split
    · rename_i hc; rw [if_pos hc] at q; rw [q]
    · rename_i hc; rw [if_neg hc] at q
      unfold sameName at q ⊢
      rw [fold_idem, fold_idem]; exact q
  body := by
    intro hr k q q2
    apply q
    unfold closes at q2 ⊢
    split
    · rename_i hc; rw [if_pos hc, h.1 (.inr ⟨hc, hr⟩)] at q2; exact q2
    · rename_i hc; rw [if_neg hc] at q2
      unfold sameName at q2 ⊢
      rw [fold_idem] at q2; exact q2
  leave := by
    intro e' he m hm
    rw [trimEnd_fold]
    constructor
    · intro q
      have : isForeign (trimEnd e') := by rw [← isForeign_fold, q]; exact hm
      rw [h.2 e' he this] at q
      exact q
    · intro q
      subst q
      exact h.2 e' he hm

theorem allsIn_imp {P Q : PNode → Prop} (h : ∀ p, P p → Q p) :
    (∀ p, allIn P p → allIn Q p) ∧ (∀ ps, allsIn P ps → allsIn Q ps) := by
  apply PNode.induct
  · intro w k; simp only [allIn] at k ⊢; exact h _ k
  · intro w k; simp only [allIn] at k ⊢; exact h _ k
  · intro w k; simp only [allIn] at k ⊢; exact h _ k
  · intro n a s k; simp only [allIn] at k ⊢; exact h _ k
  · intro n a s ct ks e ih k; simp only [allIn] at k ⊢; exact ⟨h _ k.1, ih k.2⟩
  · intro k; simp only [allsIn]
  · intro p ps h1 h2 k; simp only [allsIn] at k ⊢; exact ⟨h1 k.1, h2 k.2⟩

theorem allsIn_true {P : PNode → Prop} (h : ∀ p, P p) : (∀ p, allIn P p) ∧ (∀ ps, allsIn P ps) := by
  apply PNode.induct
  · intro w; simp only [allIn]; exact h _
  · intro w; simp only [allIn]; exact h _
  · intro w; simp only [allIn]; exact h _
  · intro n a s; simp only [allIn]; exact h _
  · intro n a s ct ks e ih; simp only [allIn]; exact ⟨h _, ih⟩
  · simp only [allsIn]
  · intro p ps h1 h2; simp only [allsIn]; exact ⟨h1, h2⟩

/-- Renaming on tree nodes. -/
def renameD (f g : Str → Str) (n : NodeD) : NodeD :=
  match n.nodeType with
  | .tag => { n with tmeta := n.tmeta.map fun m => { m with name := f m.name } }
  | .tagEnd => { n with content := n.content.map g }
  | _ => n

theorem lowerNames_eq : lowerNames = renameD fold fold := rfl

theorem trimEndNames_eq : trimEndNames = renameD id trimEnd := by
  funext n
  obtain ⟨ix, ty, b, e, ct, tm⟩ := n
  cases ty <;> try rfl
  cases tm <;> rfl

theorem pnode_rename (f g : Str → Str) :
    (∀ t : Tree, t.shaped → (mapTree (renameD f g) t).pnode = renameNode f g t.pnode ∧ (mapTree (renameD f g) t).shaped) ∧
    (∀ ts : List Tree, Tree.shapeds ts →
      Tree.pnodes (mapForest (renameD f g) ts) = renameNodes f g (Tree.pnodes ts) ∧ Tree.shapeds (mapForest (renameD f g) ts)) := by
  have hend : ∀ e : Option NodeD, (∀ x, e = some x → x.nodeType = .tagEnd ∧ x.content ≠ none) →
      (e.map (renameD f g)).bind NodeD.content = (e.bind NodeD.content).map g ∧
      ∀ x, e.map (renameD f g) = some x → x.nodeType = .tagEnd ∧ x.content ≠ none := by
    intro e h
    cases e with
    | none => exact ⟨rfl, by intro x hx; cases hx⟩
    | some y =>
      obtain ⟨h1, h2⟩ := h y rfl
      have : renameD f g y = { y with content := y.content.map g } := by unfold renameD; rw [h1]
      simp only [Option.map_some, this, Option.bind_some, Option.some.injEq]
      refine ⟨trivial, ?_⟩
      rintro x rfl
      exact ⟨h1, by simpa using h2⟩
  apply Tree.induct
  · intro d e h
    obtain ⟨ix, ty, b, en, ct, tm⟩ := d
    simp only [mapTree]
    simp only [Tree.shaped] at h
    cases ty <;> simp only at h
    case tag =>
      cases tm with
      | none => exact absurd rfl h.1
      | some m =>
        obtain ⟨k1, k2⟩ := hend e h.2.1
        simp only [renameD, Tree.pnode, Tree.shaped, renameNode, k1, Option.map_some, Option.getD_some, renameNodes]
        exact ⟨trivial, by simp, k2, trivial⟩
    all_goals
      simp only [renameD, Tree.pnode, Tree.shaped, renameNode]
      exact ⟨trivial, h.1, by rw [h.2.1]; rfl, trivial⟩
  · intro d e ts ih h
    obtain ⟨ix, ty, b, en, ct, tm⟩ := d
    simp only [mapTree]
    simp only [Tree.shaped] at h
    cases ty <;> simp only [reduceCtorEq, and_false] at h
    case tag =>
      cases tm with
      | none => exact absurd rfl h.1
      | some m =>
        obtain ⟨k1, k2⟩ := ih h.2.2
        obtain ⟨k3, k4⟩ := hend e h.2.1
        simp only [renameD, Tree.pnode, Tree.shaped, renameNode, k3, Option.map_some, Option.getD_some, k1]
        exact ⟨trivial, by simp, k4, k2⟩
  · exact fun _ => ⟨rfl, trivial⟩
  · intro t ts h1 h2 h
    obtain ⟨k1, k2⟩ := h1 h.1
    obtain ⟨k3, k4⟩ := h2 h.2
    exact ⟨by simp only [mapForest, Tree.pnodes, renameNodes, k1, k3], k2, k4⟩

/-! ## remove_comment -/

theorem prune_doc :
    (∀ t : Tree, t.shaped → (pruneTree isComment t).pnode = withoutNode isNote t.pnode ∧ (pruneTree isComment t).shaped ∧
      leafOnly isComment t ∧ isNote t.pnode = isComment t.data) ∧
    (∀ ts : List Tree, Tree.shapeds ts → Tree.pnodes (pruneForest isComment ts) = withoutNodes isNote (Tree.pnodes ts) ∧
      Tree.shapeds (pruneForest isComment ts) ∧ leafOnlyForest isComment ts) := by
  apply Tree.induct
  · intro d e h
    have he : ∀ x, e = some x → isComment x = false := by
      intro x hx; simp [isComment, (shaped_end h hx).1]
    simp only [pruneTree, leafOnly]
    refine ⟨?_, h, ⟨?_, he⟩, ?_⟩
    · obtain ⟨ix, ty, b, en, ct, tm⟩ := d
      cases ty <;> simp only [Tree.pnode, withoutNode, withoutNodes]
    · intro hc
      unfold Tree.shaped at h
      simp only [isComment, decide_eq_true_eq] at hc
      simp only [hc] at h
      exact h.2.1
    · obtain ⟨ix, ty, b, en, ct, tm⟩ := d
      cases ty <;> simp [Tree.pnode, isNote, isComment, Tree.data]
  · intro d e ts ih h
    have he : ∀ x, e = some x → isComment x = false := by
      intro x hx; simp [isComment, (shaped_end h hx).1]
    obtain ⟨k1, k2, k3⟩ := ih (shaped_kids h)
    have hty : d.nodeType = .tag := by
      unfold Tree.shaped at h
      cases ht : d.nodeType <;> simp only [ht] at h
      all_goals first | rfl | (obtain ⟨_, _, h⟩ := h; cases h)
    simp only [pruneTree, leafOnly]
    refine ⟨?_, ?_, ⟨?_, he, k3⟩, ?_⟩
    · simp only [Tree.pnode, hty, withoutNode, k1]
    · unfold Tree.shaped at h ⊢
      simp only [hty] at h ⊢
      exact ⟨h.1, h.2.1, k2⟩
    · intro hc; simp [isComment, hty] at hc
    · simp [Tree.pnode, isNote, isComment, Tree.data, hty]
  · exact fun _ => ⟨rfl, trivial, trivial⟩
  · intro t ts h1 h2 h
    obtain ⟨a1, a2, a3, a4⟩ := h1 h.1
    obtain ⟨b1, b2, b3⟩ := h2 h.2
    simp only [pruneForest, Tree.pnodes, withoutNodes, a4]
    cases isComment t.data with
    | true => exact ⟨b1, b2, a3, b3⟩
    | false =>
      simp only [Bool.false_eq_true, if_false, Tree.pnodes, a1, b1]
      exact ⟨trivial, ⟨a2, b2⟩, a3, b3⟩

/-! ## All options together -/

theorem step_minify (lib : EntityLib) (ro : RenderOptions) (hd : ro.decodeEntity = false) (hi : ro.innerHtml = false) {n : NodeD}
    (hn : n.nodeType = .abstractRoot) {ts : List Tree} (hs : Tree.shapeds ts) (o : ParseOptions) :
    ∃ ts', build lib (rootTree n ts) ro false = build lib (rootTree n ts') { ro with minifySpaces := false } false ∧
      Tree.shapeds ts' ∧ Tree.pnodes ts' = (if ro.minifySpaces then Tree.pnodes (squeezeAts [] ts) else Tree.pnodes ts) ∧
      (looseNodes false o none none (Tree.pnodes ts) → looseNodes false o none none (Tree.pnodes ts')) ∧
      (optionalNodes (Tree.pnodes ts) → optionalNodes (Tree.pnodes ts')) ∧
      (allsIn (LowerOk o) (Tree.pnodes ts) → allsIn (LowerOk o) (Tree.pnodes ts')) := by
  cases hm : ro.minifySpaces with
  | false =>
    refine ⟨ts, ?_, hs, rfl, id, id, id⟩
    rw [show { ro with minifySpaces := false } = ro by rw [← hm]]
  | true =>
    obtain ⟨k1, _, k3, k4, k5⟩ := (squeeze_doc (o := o)).2 ts hs []
    exact ⟨squeezeAts [] ts, build_minify lib hm hd hi hn hs, k1, rfl, k3 none none, k4, k5⟩

theorem step_quote (lib : EntityLib) (ro : RenderOptions) {n : NodeD} (hn : n.nodeType = .abstractRoot) {ts : List Tree}
    (hs : Tree.shapeds ts) (o : ParseOptions) :
    ∃ ts', build lib (rootTree n ts) ro false = build lib (rootTree n ts') { ro with removeAttrQuote := false } false ∧
      Tree.shapeds ts' ∧ Tree.pnodes ts' = (if ro.removeAttrQuote then unquoteNodes (Tree.pnodes ts) else Tree.pnodes ts) ∧
      ((ro.removeAttrQuote = true → optionalNodes (Tree.pnodes ts)) → looseNodes false o none none (Tree.pnodes ts) →
        looseNodes false o none none (Tree.pnodes ts')) ∧
      (allsIn (LowerOk o) (Tree.pnodes ts) → allsIn (LowerOk o) (Tree.pnodes ts')) := by
  cases hm : ro.removeAttrQuote with
  | false =>
    refine ⟨ts, ?_, hs, rfl, fun _ => id, id⟩
    rw [show { ro with removeAttrQuote := false } = ro by rw [← hm]]
  | true =>
    obtain ⟨k1, k2⟩ := pnode_dropQuotes.2 ts hs
    refine ⟨mapForest dropQuotes ts, ?_, k2, k1, ?_, ?_⟩
    · rw [c33_unquoted lib ro _ false hm]
      have : dropQuotes n = n := by unfold dropQuotes; simp [hn]
      simp only [rootTree, mapTree, this, Option.map_none]
    · intro q h
      rw [k1]
      exact loose_unquote.2 _ (q rfl) _ _ h
    · intro h; rw [k1]; exact lowerOk_unquote.2 _ h

theorem step_lower (lib : EntityLib) (ro : RenderOptions) {n : NodeD} (hn : n.nodeType = .abstractRoot) {ts : List Tree}
    (hs : Tree.shapeds ts) (o : ParseOptions) :
    ∃ ts', build lib (rootTree n ts) ro false = build lib (rootTree n ts') { ro with lowercaseTagname := false } false ∧
      Tree.shapeds ts' ∧ Tree.pnodes ts' = (if ro.lowercaseTagname then renameNodes fold fold (Tree.pnodes ts) else Tree.pnodes ts) ∧
      ((ro.lowercaseTagname = true → allsIn (LowerOk o) (Tree.pnodes ts)) → looseNodes false o none none (Tree.pnodes ts) →
        looseNodes false o none none (Tree.pnodes ts')) := by
  cases hm : ro.lowercaseTagname with
  | false =>
    refine ⟨ts, ?_, hs, rfl, fun _ => id⟩
    rw [show { ro with lowercaseTagname := false } = ro by rw [← hm]]
  | true =>
    obtain ⟨k1, k2⟩ := (pnode_rename fold fold).2 ts hs
    refine ⟨mapForest (renameD fold fold) ts, ?_, k2, k1, ?_⟩
    · have := c31_lowercase lib ro (rootTree n ts) false
      rw [show { ro with lowercaseTagname := true } = ro by rw [← hm]] at this
      rw [this]
      have hx : renameD fold fold n = n := by unfold renameD; simp [hn]
      simp only [rootTree, mapTree, Option.map_none, lowerNames_eq, hx]
    · intro q h
      rw [k1]
      refine ((loose_rename (o := o)).2 _ ((allsIn_imp ?_).2 _ (q rfl)) none (by intro m hm; cases hm)).2 none none (.inl rfl) h
      intro p hp n as s ct ks e he
      subst he
      exact lower_ok hp

theorem step_trim (lib : EntityLib) (ro : RenderOptions) {n : NodeD} (hn : n.nodeType = .abstractRoot) {ts : List Tree}
    (hs : Tree.shapeds ts) (o : ParseOptions) :
    ∃ ts', build lib (rootTree n ts) ro false = build lib (rootTree n ts') { ro with removeEndtagSpace := false } false ∧
      Tree.shapeds ts' ∧ Tree.pnodes ts' = (if ro.removeEndtagSpace then renameNodes id trimEnd (Tree.pnodes ts) else Tree.pnodes ts) ∧
      (looseNodes false o none none (Tree.pnodes ts) → looseNodes false o none none (Tree.pnodes ts')) := by
  cases hm : ro.removeEndtagSpace with
  | false =>
    refine ⟨ts, ?_, hs, rfl, id⟩
    rw [show { ro with removeEndtagSpace := false } = ro by rw [← hm]]
  | true =>
    obtain ⟨k1, k2⟩ := (pnode_rename id trimEnd).2 ts hs
    refine ⟨mapForest (renameD id trimEnd) ts, ?_, k2, k1, ?_⟩
    · have := c32_remove_endtag_space lib ro (rootTree n ts) false
      rw [show { ro with removeEndtagSpace := true } = ro by rw [← hm]] at this
      rw [this]
      have hx : renameD id trimEnd n = n := by unfold renameD; simp [hn]
      simp only [rootTree, mapTree, Option.map_none, trimEndNames_eq, hx]
    · intro h
      rw [k1]
      refine ((loose_rename (o := o)).2 _ ((allsIn_true ?_).2 _) none (by intro m hm; cases hm)).2 none none (.inl rfl) h
      intro p n as s ct ks e _
      exact trim_ok o n e

theorem step_comment (lib : EntityLib) (ro : RenderOptions) {n : NodeD} (hn : n.nodeType = .abstractRoot) {ts : List Tree}
    (hs : Tree.shapeds ts) (o : ParseOptions) :
    ∃ ts', (∀ out, build lib (rootTree n ts') { ro with removeComment := false } false = .ok out →
        build lib (rootTree n ts) ro false = .ok out) ∧
      Tree.shapeds ts' ∧ Tree.pnodes ts' = (if ro.removeComment then withoutNodes isNote (Tree.pnodes ts) else Tree.pnodes ts) ∧
      (looseNodes false o none none (Tree.pnodes ts) → looseNodes false o none none (Tree.pnodes ts')) := by
  cases hm : ro.removeComment with
  | false =>
    refine ⟨ts, ?_, hs, rfl, id⟩
    rw [show { ro with removeComment := false } = ro by rw [← hm]]
    exact fun _ h => h
  | true =>
    obtain ⟨k1, k2, k3⟩ := prune_doc.2 ts hs
    refine ⟨pruneForest isComment ts, ?_, k2, k1, ?_⟩
    · intro out h
      have := (c30_remove_comment lib ro (rootTree n ts) false out
        (by simp only [rootTree, leafOnly]; exact ⟨by simp [isComment, hn], by simp, k3⟩)
        (by simp [rootTree, Tree.data, hn])).2 h
      rwa [show { ro with removeComment := true } = ro by rw [← hm]] at this
    · intro h
      rw [k1]
      refine ((loose_without (b := false) (b' := false) (o := o) (q := isNote) ?_ ?_).2 _ none none h).1
      · intro p hp
        cases p with
        | comment w => exact ⟨w, .inr rfl⟩
        | _ => simp [isNote] at hp
      · intro w _ _ q; cases q

/-- **C48**: for every well-formed document tree and every combination of `minify_spaces`, `remove_attr_quote`,
`lowercase_tagname`, `remove_endtag_space` and `remove_comment`: rendering succeeds, and parsing the rendering yields the
document with exactly these changes (`Spec.rendered`).  Quotes may only be dropped where no attribute needs them (C33), and
names only be lower-cased where their spelling does not matter (`Spec.lowerSafe`). -/
theorem c48_reread (o : ParseOptions) (lib : EntityLib) (ro : RenderOptions) (t : Tree) (hroot : t.data.nodeType = .abstractRoot)
    (hend : t.endTag = none) (hshape : Tree.shapeds t.kids) (hwf : wfDoc o t.doc)
    (hq : ro.removeAttrQuote = true → optionalNodes t.doc) (hl : ro.lowercaseTagname = true → lowerSafe o t.doc)
    (h1 : ro.innerHtml = false) (h2 : ro.alwaysCloseVoid = false) (h3 : ro.decodeEntity = false) (h4 : ro.encodeContent = false) :
    ∃ r, build lib t ro false = .ok r ∧ docOf r o = some (rendered ro t) := by
  obtain ⟨n, e, cs⟩ := t
  simp only [Tree.data] at hroot
  simp only [Tree.endTag] at hend
  subst hend
  have hcs : ∃ ts, Tree.kids (.mk n none cs) = ts ∧ build lib (.mk n none cs) ro false = build lib (rootTree n ts) ro false := by
    cases cs with
    | some ts => exact ⟨ts, rfl, rfl⟩
    | none =>
      refine ⟨[], rfl, ?_⟩
      rw [build_rootTree lib h1 hroot]
      have hb : ∀ (st : RenderStatus), buildNode lib ro n st = .ok (st, []) := by
        intro st; unfold buildNode; simp only [hroot]
      unfold build innerTypeOf buildTarget
      simp only [h1, Bool.false_eq_true, if_false, reduceCtorEq, or_self, buildTree, hb, Except.bind_ok', buildEnd, linears, buildLine,
        List.append_nil]
      rfl
  obtain ⟨ts, hts, hbuild⟩ := hcs
  have hdoc : Tree.doc (.mk n none cs) = Tree.pnodes ts := by unfold Tree.doc; rw [hts]
  rw [hts] at hshape
  rw [hdoc] at hwf hq hl
  have hloose := loose_of_wf.2 _ _ _ hwf
  obtain ⟨t1, a1, a2, a3, a4, a5, a6⟩ := step_minify lib ro h3 h1 hroot hshape o
  obtain ⟨t2, b1, b2, b3, b4, b5⟩ := step_quote lib { ro with minifySpaces := false } hroot a2 o
  obtain ⟨t3, c1, c2, c3, c4⟩ := step_lower lib { ro with minifySpaces := false, removeAttrQuote := false } hroot b2 o
  obtain ⟨t4, d1, d2, d3, d4⟩ := step_trim lib { ro with minifySpaces := false, removeAttrQuote := false, lowercaseTagname := false } hroot c2 o
  obtain ⟨t5, e1, e2, e3, e4⟩ := step_comment lib { ro with minifySpaces := false, removeAttrQuote := false, lowercaseTagname := false, removeEndtagSpace := false } hroot d2 o
  have hfin : build lib (rootTree n t5) {} false = .ok (printNodes (Tree.pnodes t5)) := by
    have := build_doc lib (t := rootTree n t5) hroot rfl e2
    exact this
  have hro : { ro with minifySpaces := false, removeAttrQuote := false, lowercaseTagname := false, removeEndtagSpace := false, removeComment := false } = ({} : RenderOptions) := by
    cases ro; simp_all
  have hlo : looseNodes false o none none (Tree.pnodes t5) :=
    e4 (d4 (c4 (fun q => b5 (a6 (lowerSafe_all (hl q)))) (b4 (fun q => a5 (hq q)) (a4 hloose))))
  refine ⟨printNodes (Tree.pnodes t5), ?_, ?_⟩
  · rw [hbuild, a1, b1, c1, d1]
    apply e1
    simp only at hro ⊢
    rw [hro]
    exact hfin
  · rw [loose_reread hlo]
    simp only at b3 c3 d3 e3
    unfold rendered
    rw [hdoc, hts, e3, d3, c3, b3, a3]

/-- **C48** for parsed documents: what was accepted can be rendered with these options and is accepted again, as the document
with exactly these changes.  The conditions on the parse options and on doctypes are those of C04; the default options meet
them. -/
theorem c48_parsed {o : ParseOptions} (lib : EntityLib) (ro : RenderOptions) {s : Str} {d : Doc} {ps : List PNode}
    (hc : complete s o) (hp : Doc.parse s o = .ok d) (h : docOf s o = some ps)
    (p1 : o.autoFixUnescapedLt = false) (p2 : o.autoFixUnexpectedEndtag = false ∨ o.autoFixUnclosedTag = true)
    (p3 : o.allowAttrKeyStartsWithEqualSign = false)
    (hd : ∀ n as sc, Occurs (.doctype n as sc) ps → as ≠ [] ∧ sc = false)
    (hq : ro.removeAttrQuote = true → optionalNodes ps) (hl : ro.lowercaseTagname = true → lowerSafe o ps)
    (h1 : ro.innerHtml = false) (h2 : ro.alwaysCloseVoid = false) (h3 : ro.decodeEntity = false) (h4 : ro.encodeContent = false) :
    ∃ t r, d.tree? = some t ∧ t.doc = ps ∧ d.render lib ro = .ok r ∧ docOf r o = some (rendered ro t) := by
  obtain ⟨a, k1, k2, t, k3, k4, k5, k6, k7⟩ := parse_machine_complete hp hc
  have hwf := c04_wellformed hc h p1 p2 p3 hd
  rw [docOf_machine k1 k2] at h
  simp only [Option.some.injEq] at h
  rw [h] at k4
  subst k4
  obtain ⟨r, q1, q2⟩ := c48_reread o lib ro t k5 k6 k7 hwf hq hl h1 h2 h3 h4
  refine ⟨t, r, k3, rfl, ?_, q2⟩
  unfold Doc.render
  rw [k3]
  exact q1

theorem allsIn_occurs {P : PNode → Prop} {ps : List PNode} (h : allsIn P ps) : ∀ q, Occurs q ps → P q := by
  have hm : ∀ ks, allsIn P ks → ∀ k ∈ ks, allIn P k := by
    intro ks
    induction ks with
    | nil => intro _ k hk; cases hk
    | cons p ps ih =>
      intro h k hk
      simp only [allsIn] at h
      rcases List.mem_cons.1 hk with rfl | hk
      · exact h.1
      · exact ih h.2 k hk
  have ha : ∀ anc ks, At anc ks ps → allsIn P ks := by
    intro anc ks hk
    induction hk with
    | root => exact h
    | child _ hp ih =>
      have := hm _ (ih h) _ hp
      simp only [allIn] at this
      exact this.2
  rintro q ⟨ks, ⟨anc, hk⟩, hq⟩
  have := hm _ (ha anc ks hk) q hq
  cases q with
  | elem => simp only [allIn] at this; exact this.1
  | _ => simpa only [allIn] using this

/-- A document to which every one of the five options does something: texts on both sides of a comment are joined, the text in
`pre` is kept as it is, and a text of which nothing is left is no node any more. -/
def Spec.rereadSample : String := "<DIV a='b'> x <!--n-->  y<PRE> p  q </PRE\n> \n</DIV >"

/-- The five options. -/
def Spec.rereadOptions : RenderOptions := { minifySpaces := true, removeAttrQuote := true, lowercaseTagname := true, removeEndtagSpace := true, removeComment := true }

example : roundtrip rereadSample {} rereadOptions = some "<div a=b> x  y<pre> p  q </pre></div>" := by decide +kernel

example : rendered rereadOptions (treeOf rereadSample) = [.elem "div".toList [{ key := some "a".toList, value := some "b".toList }]
    false none [.text " x  y".toList, .elem "pre".toList [] false none [.text " p  q ".toList] (some "pre".toList)]
    (some "div".toList)] := by decide +kernel

/-- The sample meets the hypotheses of `c48_parsed`, so its conclusion holds for it. -/
example (lib : EntityLib) : ∃ d t r, Doc.parse rereadSample.toList {} = .ok d ∧ d.tree? = some t ∧
    d.render lib rereadOptions = .ok r ∧ docOf r {} = some (rendered rereadOptions t) := by
  have hps : docOf rereadSample.toList {} = some [.elem "DIV".toList [{ key := some "a".toList, value := some "b".toList, quote := some '\'' }]
      false none [.text " x ".toList, .comment "n".toList, .text "  y".toList,
        .elem "PRE".toList [] false none [.text " p  q ".toList] (some "PRE\n".toList), .text " \n".toList] (some "DIV ".toList)] := by
    decide +kernel
  obtain ⟨d, hd⟩ := (parse_docOf (o := {}) (complete_of rfl)).2 ⟨_, hps⟩
  have key := c48_parsed lib rereadOptions (complete_of rfl) hd hps rfl (.inl rfl) rfl
    (by
      intro n as sc h
      refine allsIn_occurs (P := fun p => ∀ n as sc, p = .doctype n as sc → as ≠ [] ∧ sc = false) ?_ _ h n as sc rfl
      simp [allsIn, allIn])
    (by
      intro _
      simp [optionalNodes, optionalNode, quotesOptional]
      decide +kernel)
    (by
      intro _ n as s ct ks e
      refine allsIn_occurs (P := LowerOk {}) ?_ _
      simp only [allsIn, allIn, LowerOk, and_true, true_and]
      refine ⟨⟨?_, ?_⟩, ?_, ?_⟩
      all_goals first | decide +kernel | (intro e' he; cases he; decide +kernel))
    rfl rfl rfl rfl
  obtain ⟨t, r, k1, _, k2, k3⟩ := key
  exact ⟨d, t, r, hd, k1, k2, k3⟩

/-- The condition on names is needed.  Lower-casing makes `</SVG>` close the foreign content and `<div/>` illegal … -/
example : roundtrip "<svg></SVG><div/>" {} { lowercaseTagname := true } = some "<svg></svg><div />" ∧
    roundtrip "<svg></svg><div />" = none := by decide +kernel
/-- … it makes an `SVG` inside an `svg` a second outermost one, in which CDATA is not recognised … -/
example : roundtrip "<svg><SVG><![CDATA[x]]></SVG></svg>" {} { lowercaseTagname := true } = some "<svg><svg><![CDATA[x]]></svg></svg>" ∧
    roundtrip "<svg><svg><![CDATA[x]]></svg></svg>" = none := by decide +kernel
/-- … and with case-sensitive names it makes raw text end too early. -/
example : roundtrip "<SCRIPT></script></SCRIPT>" { caseSensitiveTagname := true } { lowercaseTagname := true } =
      some "<script></script></script>" ∧
    roundtrip "<script></script></script>" { caseSensitiveTagname := true } = none := by decide +kernel

end Rphtml
