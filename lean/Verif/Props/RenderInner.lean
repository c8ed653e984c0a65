import Verif.Props.RenderOpts

/-! # C35, C36, C45: inner html, inner text, render panics -/

namespace Rphtml
open Spec

/-! ## C45 -/

theorem buildNode_printable (lib : EntityLib) (o : RenderOptions) (n : NodeD) (st : RenderStatus)
    (h : printable n) : ∃ r, buildNode lib o n st = .ok r := by
  unfold printable at h
  unfold buildNode
  cases ht : n.nodeType <;> simp only [ht] at h ⊢
  case text => cases hc : n.content with
    | none => exact absurd hc h
    | some c => exact ⟨_, rfl⟩
  case spacesBetweenTag =>
    split
    · exact ⟨_, rfl⟩
    · cases hc : n.content with
      | none => exact absurd hc h
      | some c => exact ⟨_, rfl⟩
  case tagEnd => cases hc : n.content with
    | none => exact absurd hc h
    | some c => exact ⟨_, rfl⟩
  case tag => cases hc : n.tmeta with
    | none => exact absurd hc h
    | some c => exact ⟨_, rfl⟩
  case htmlDoctype => cases hc : n.tmeta with
    | none => exact absurd hc h
    | some c => exact ⟨_, rfl⟩
  case comment =>
    split
    · split <;> exact ⟨_, rfl⟩
    · exact ⟨_, rfl⟩
  case xmlCdata => exact ⟨_, rfl⟩
  case abstractRoot => exact ⟨_, rfl⟩

/-- Printable trees never panic in `build_tree`. -/
theorem buildTree_printable (lib : EntityLib) (o : RenderOptions) :
    (∀ t, allNodes printable t → ∀ st, ∃ r, buildTree lib o t st = .ok r) ∧
    (∀ ts, allForest printable ts → ∀ st, ∃ r, buildForest lib o ts st = .ok r) := by
  have he : ∀ e st, (∀ x, e = some x → printable x) → ∃ r, buildEnd lib o e st = .ok r := by
    intro e st h
    cases e with
    | none => exact ⟨_, rfl⟩
    | some e => exact buildNode_printable lib o e st (h e rfl)
  apply Tree.induct
  · intro d e h st
    simp only [allNodes] at h
    obtain ⟨r1, h1⟩ := buildNode_printable lib o d st h.1
    obtain ⟨r2, h2⟩ := he e r1.1 h.2
    exact ⟨_, by simp only [buildTree, h1, h2, Except.bind_ok']; rfl⟩
  · intro d e ts ih h st
    simp only [allNodes] at h
    obtain ⟨r1, h1⟩ := buildNode_printable lib o d st h.1
    by_cases hr : r1.1.root = true
    · obtain ⟨r2, h2⟩ := ih h.2.2 { r1.1 with root := false }
      obtain ⟨r3, h3⟩ := he e r1.1 h.2.1
      exact ⟨_, by simp only [buildTree, h1, hr, if_true, h2, h3, Except.bind_ok']; rfl⟩
    · obtain ⟨r2, h2⟩ := ih h.2.2 r1.1
      obtain ⟨r3, h3⟩ := he e r2.1 h.2.1
      exact ⟨_, by simp only [buildTree, h1, hr, h2, h3, Except.bind_ok']; rfl⟩
  · intro _ st; exact ⟨_, rfl⟩
  · intro t ts h1 h2 h st
    simp only [allForest] at h
    obtain ⟨r1, e1⟩ := h1 h.1 st
    obtain ⟨r2, e2⟩ := h2 h.2 r1.1
    exact ⟨_, by simp only [buildForest, e1, e2, Except.bind_ok']; rfl⟩

theorem allForest_mem {p : NodeD → Prop} : ∀ (ts : List Tree) r, r ∈ ts → allForest p ts → allNodes p r := by
  intro ts
  induction ts with
  | nil => intro r h; simp at h
  | cons t ts ih =>
    intro r h h2
    simp only [allForest] at h2
    rcases List.mem_cons.1 h with rfl | h
    · exact h2.1
    · exact ih r h h2.2

/-- The number of children that are tags. -/
def Spec.tagChildren (ts : List Tree) : Nat := (ts.filter fun t => t.data.nodeType = .tag).length

/-- The documented misuses of `inner_html` / inner text. -/
def Spec.misuse (t : Tree) (innerHtml innerText : Bool) : Prop :=
  (innerText = true ∧ innerHtml = true) ∨
  ((innerText = true ∨ innerHtml = true) ∧
    ((t.data.nodeType = .abstractRoot ∧ ∃ ts, t.childs = some ts ∧ tagChildren ts ≠ 1) ∨
     (t.data.nodeType ≠ .abstractRoot ∧ t.data.nodeType ≠ .tag ∧
       (innerHtml = true ∨ (t.data.nodeType ≠ .comment ∧ t.data.nodeType ≠ .xmlCdata)))))

private theorem findOnlyTag_count (ts : List Tree) :
    (∀ a, (∃ c, findOnlyTag ts (some a) = .ok (some c)) ↔ tagChildren ts = 0) ∧
    (∀ a, findOnlyTag ts (some a) ≠ .ok none) ∧
    ((∃ c, findOnlyTag ts none = .ok (some c)) ↔ tagChildren ts = 1) := by
  induction ts with
  | nil => simp [findOnlyTag, tagChildren]
  | cons t ts ih =>
    obtain ⟨h1, h2, h3⟩ := ih
    by_cases ht : t.data.nodeType = .tag
    · have hc : tagChildren (t :: ts) = tagChildren ts + 1 := by simp [tagChildren, ht]
      refine ⟨?_, ?_, ?_⟩
      · intro a; simp [findOnlyTag, ht, hc]
      · intro a; simp [findOnlyTag, ht]
      · simp only [findOnlyTag, ht, if_true, hc]
        rw [h1]; omega
    · have hc : tagChildren (t :: ts) = tagChildren ts := by simp [tagChildren, ht]
      simp only [findOnlyTag, ht, if_false, hc]
      exact ⟨h1, h2, h3⟩

/-- **C45**: rendering a printable tree panics exactly in the documented misuse cases. -/
theorem c45_panic_iff (lib : EntityLib) (o : RenderOptions) (t : Tree) (it : Bool)
    (hp : allNodes printable t) :
    (∃ s, build lib t o it = .error s) ↔ misuse t o.innerHtml it := by
  have hb := (buildTree_printable lib o).1
  have hmatch : ∀ ty, innerTypeOf o it = .ok ty →
      ((∃ s, build lib t o it = .error s) ↔ ∃ s, buildTarget t ty = .error s) := by
    intro ty hty
    unfold build
    simp only [hty]
    cases hc : buildTarget t ty with
    | error s => simp
    | ok c =>
      cases c with
      | none => simp
      | some c =>
        have hpc : allNodes printable c := by
          rcases buildTarget_cases hc with rfl | ⟨-, -, ts, h2, h3⟩
          · exact hp
          · cases t with
            | mk d e cs =>
              simp only [Tree.childs] at h2
              subst h2
              simp only [allNodes] at hp
              exact allForest_mem _ _ h3 hp.2.2
        obtain ⟨r, hr⟩ := hb c hpc { innerType := ty, root := true }
        simp [hr, Except.map]
  have hroot : ∀ ty, (ty = .html ∨ ty = .text) → t.data.nodeType = .abstractRoot →
      ((∃ s, buildTarget t ty = .error s) ↔ ∃ ts, t.childs = some ts ∧ tagChildren ts ≠ 1) := by
    intro ty hty hr
    unfold buildTarget
    simp only [hty, if_true, hr]
    cases hc : t.childs with
    | none => simp
    | some cs =>
      simp only [Option.some.injEq, exists_eq_left']
      have hcount := (findOnlyTag_count cs).2.2
      cases hf : findOnlyTag cs none with
      | error s =>
        rw [hf] at hcount
        simp only [reduceCtorEq, exists_false, false_iff] at hcount
        exact ⟨fun _ => hcount, fun _ => ⟨s, rfl⟩⟩
      | ok r =>
        cases r with
        | none =>
          rw [hf] at hcount
          simp only [Except.ok.injEq, reduceCtorEq, exists_false, false_iff] at hcount
          refine ⟨fun _ => hcount, fun _ => ?_⟩
          simp only
          split <;> exact ⟨_, rfl⟩
        | some c =>
          have := hcount.1 ⟨c, hf⟩
          simp [this]
  unfold misuse
  cases it <;> cases hi : o.innerHtml
  · rw [hmatch .none (by simp [innerTypeOf, hi])]
    simp [buildTarget]
  · rw [hmatch .html (by simp [innerTypeOf, hi])]
    by_cases hr : t.data.nodeType = .abstractRoot
    · rw [hroot .html (Or.inl rfl) hr]
      simp [hr]
    · unfold buildTarget
      simp only [hr]
      by_cases ht : t.data.nodeType = .tag <;> simp [ht, hr]
  · rw [hmatch .text (by simp [innerTypeOf, hi])]
    by_cases hr : t.data.nodeType = .abstractRoot
    · rw [hroot .text (Or.inr rfl) hr]
      simp [hr]
    · unfold buildTarget
      simp only [hr]
      by_cases ht : t.data.nodeType = .tag
      · simp [ht]
      · by_cases h2 : t.data.nodeType = .comment
        · simp [h2]
        · by_cases h3 : t.data.nodeType = .xmlCdata
          · simp [h3]
          · simp [ht, h2, h3, hr]
  · simp [build, innerTypeOf, hi]

/-- Non-vacuity: a printable tree with and without misuse. -/
example : outOf (build toyLib (treeOf "<p>a</p><i></i>") {} true) = none
    ∧ outOf (build toyLib (treeOf "<p>a</p> ") {} true) = some ['a'] := by decide +kernel

/-! ## C35 -/

/-- Rename the inner type of a result. -/
def asHtml (r : RenderStatus × Str) : RenderStatus × Str := ({ r.1 with innerType := .html }, r.2)

private theorem node_none_html (lib : EntityLib) (o : RenderOptions) (n : NodeD) (p : Bool) :
    buildNode lib o n { innerType := .html, isInPre := p, root := false } =
      (buildNode lib o n { innerType := .none, isInPre := p, root := false }).map asHtml := by
  unfold buildNode
  cases n.nodeType <;> simp only [RenderStatus.needTag]
  case text => cases n.content <;> rfl
  case tag => cases n.tmeta <;> simp [Except.map, asHtml]
  case tagEnd =>
    cases n.content with
    | none => rfl
    | some c =>
      simp only [Except.map, asHtml]
      split <;> simp
  case spacesBetweenTag =>
    split
    · rfl
    · cases n.content <;> rfl
  case htmlDoctype => cases n.tmeta <;> rfl
  case comment => cases o.removeComment <;> simp [Except.map, asHtml]
  case xmlCdata => rfl
  case abstractRoot => rfl

private theorem node_root_false (lib : EntityLib) (o : RenderOptions) (n : NodeD) (ty : InnerType) (p : Bool)
    (st' : RenderStatus) (out : Str)
    (h : buildNode lib o n { innerType := ty, isInPre := p, root := false } = .ok (st', out)) :
    ∃ p', st' = { innerType := ty, isInPre := p', root := false } := by
  unfold buildNode at h
  cases ht : n.nodeType <;> simp only [ht] at h
  case text => cases hc : n.content <;> simp [hc] at h; exact ⟨p, h.1.symm⟩
  case tag => cases hc : n.tmeta <;> simp [hc] at h; exact ⟨_, h.1.symm⟩
  case tagEnd =>
    cases hc : n.content <;> simp [hc] at h
    split at h <;> exact ⟨_, h.1.symm⟩
  case spacesBetweenTag =>
    split at h
    · simp at h; exact ⟨p, h.1.symm⟩
    · cases hc : n.content <;> simp [hc] at h; exact ⟨p, h.1.symm⟩
  case htmlDoctype => cases hc : n.tmeta <;> simp [hc] at h; exact ⟨p, h.1.symm⟩
  case comment =>
    split at h
    · split at h <;> (simp at h; exact ⟨p, h.1.symm⟩)
    · simp at h; exact ⟨p, h.1.symm⟩
  case xmlCdata => simp at h; exact ⟨p, h.1.symm⟩
  case abstractRoot => simp at h; exact ⟨p, h.1.symm⟩

private theorem end_none_html (lib : EntityLib) (o : RenderOptions) (e : Option NodeD) (p : Bool) :
    buildEnd lib o e { innerType := .html, isInPre := p, root := false } =
      (buildEnd lib o e { innerType := .none, isInPre := p, root := false }).map asHtml := by
  cases e with
  | none => rfl
  | some e => exact node_none_html lib o e p

/-- Below the rendered node the status keeps its inner type and stays non-root. -/
private theorem tree_root_false (lib : EntityLib) (o : RenderOptions) (ty : InnerType) :
    (∀ t p st' out, buildTree lib o t { innerType := ty, isInPre := p, root := false } = .ok (st', out) →
      ∃ p', st' = { innerType := ty, isInPre := p', root := false }) ∧
    (∀ ts p st' out, buildForest lib o ts { innerType := ty, isInPre := p, root := false } = .ok (st', out) →
      ∃ p', st' = { innerType := ty, isInPre := p', root := false }) := by
  have hend : ∀ e p st' out, buildEnd lib o e { innerType := ty, isInPre := p, root := false } = .ok (st', out) →
      ∃ p', st' = { innerType := ty, isInPre := p', root := false } := by
    intro e p st' out h
    cases e with
    | none => simp only [buildEnd, Except.ok.injEq, Prod.mk.injEq] at h; exact ⟨p, h.1.symm⟩
    | some e => exact node_root_false lib o e ty p st' out h
  apply Tree.induct
  · intro d e p st' out h
    simp only [buildTree] at h
    cases h1 : buildNode lib o d { innerType := ty, isInPre := p, root := false } with
    | error s => rw [h1] at h; simp [bind, Except.bind] at h
    | ok r =>
      obtain ⟨p1, hp1⟩ := node_root_false lib o d ty p r.1 r.2 h1
      rw [h1] at h
      simp only [Except.bind_ok'] at h
      rw [hp1] at h
      cases h2 : buildEnd lib o e { innerType := ty, isInPre := p1, root := false } with
      | error s => rw [h2] at h; simp [bind, Except.bind] at h
      | ok r2 =>
        rw [h2] at h
        simp only [Except.bind_ok', Except.ok.injEq, Prod.mk.injEq] at h
        obtain ⟨p2, hp2⟩ := hend e p1 r2.1 r2.2 h2
        exact ⟨p2, by rw [← h.1, hp2]⟩
  · intro d e ts ih p st' out h
    simp only [buildTree] at h
    cases h1 : buildNode lib o d { innerType := ty, isInPre := p, root := false } with
    | error s => rw [h1] at h; simp [bind, Except.bind] at h
    | ok r =>
      obtain ⟨p1, hp1⟩ := node_root_false lib o d ty p r.1 r.2 h1
      rw [h1] at h
      simp only [Except.bind_ok'] at h
      rw [hp1] at h
      simp only [Bool.false_eq_true, if_false] at h
      cases h3 : buildForest lib o ts { innerType := ty, isInPre := p1, root := false } with
      | error s => rw [h3] at h; simp [bind, Except.bind] at h
      | ok r3 =>
        obtain ⟨p3, hp3⟩ := ih p1 r3.1 r3.2 h3
        rw [h3] at h
        simp only [Except.bind_ok'] at h
        rw [hp3] at h
        cases h2 : buildEnd lib o e { innerType := ty, isInPre := p3, root := false } with
        | error s => rw [h2] at h; simp [bind, Except.bind] at h
        | ok r2 =>
          rw [h2] at h
          simp only [Except.bind_ok', Except.ok.injEq, Prod.mk.injEq] at h
          obtain ⟨p2, hp2⟩ := hend e p3 r2.1 r2.2 h2
          exact ⟨p2, by rw [← h.1, hp2]⟩
  · intro p st' out h
    simp only [buildForest, Except.ok.injEq, Prod.mk.injEq] at h; exact ⟨p, h.1.symm⟩
  · intro t ts h1 h2 p st' out h
    simp only [buildForest] at h
    cases e1 : buildTree lib o t { innerType := ty, isInPre := p, root := false } with
    | error s => rw [e1] at h; simp [bind, Except.bind] at h
    | ok r =>
      obtain ⟨p1, hp1⟩ := h1 p r.1 r.2 e1
      rw [e1] at h
      simp only [Except.bind_ok'] at h
      rw [hp1] at h
      cases e2 : buildForest lib o ts { innerType := ty, isInPre := p1, root := false } with
      | error s => rw [e2] at h; simp [bind, Except.bind] at h
      | ok r2 =>
        rw [e2] at h
        simp only [Except.bind_ok', Except.ok.injEq, Prod.mk.injEq] at h
        obtain ⟨p2, hp2⟩ := h2 p1 r2.1 r2.2 e2
        exact ⟨p2, by rw [← h.1, hp2]⟩

/-- Below the rendered node, `inner_html` and outer rendering agree. -/
theorem inner_none_html (lib : EntityLib) (o : RenderOptions) :
    (∀ t p, buildTree lib o t { innerType := .html, isInPre := p, root := false } =
      (buildTree lib o t { innerType := .none, isInPre := p, root := false }).map asHtml) ∧
    (∀ ts p, buildForest lib o ts { innerType := .html, isInPre := p, root := false } =
      (buildForest lib o ts { innerType := .none, isInPre := p, root := false }).map asHtml) := by
  apply Tree.induct
  · intro d e p
    simp only [buildTree, node_none_html]
    cases h1 : buildNode lib o d { innerType := .none, isInPre := p, root := false } with
    | error s => rfl
    | ok r =>
      obtain ⟨p1, hp1⟩ := node_root_false lib o d .none p r.1 r.2 h1
      obtain ⟨st, out⟩ := r
      simp only at hp1
      subst hp1
      simp only [Except.map, asHtml, Except.bind_ok', end_none_html]
      cases buildEnd lib o e { innerType := .none, isInPre := p1, root := false } <;> rfl
  · intro d e ts ih p
    simp only [buildTree, node_none_html]
    cases h1 : buildNode lib o d { innerType := .none, isInPre := p, root := false } with
    | error s => rfl
    | ok r =>
      obtain ⟨p1, hp1⟩ := node_root_false lib o d .none p r.1 r.2 h1
      obtain ⟨st, out⟩ := r
      simp only at hp1
      subst hp1
      simp only [Except.map, asHtml, Except.bind_ok', Bool.false_eq_true, if_false, ih]
      cases h2 : buildForest lib o ts { innerType := .none, isInPre := p1, root := false } with
      | error s => rfl
      | ok r2 =>
        obtain ⟨p2, hp2⟩ := (tree_root_false lib o .none).2 ts p1 r2.1 r2.2 h2
        obtain ⟨st2, out2⟩ := r2
        simp only at hp2
        subst hp2
        simp only [Except.bind_ok', end_none_html]
        cases buildEnd lib o e { innerType := .none, isInPre := p2, root := false } <;> rfl
  · intro p; rfl
  · intro t ts h1 h2 p
    simp only [buildForest, h1]
    cases e1 : buildTree lib o t { innerType := .none, isInPre := p, root := false } with
    | error s => rfl
    | ok r =>
      obtain ⟨p1, hp1⟩ := (tree_root_false lib o .none).1 t p r.1 r.2 e1
      obtain ⟨st, out⟩ := r
      simp only at hp1
      subst hp1
      simp only [Except.map, asHtml, Except.bind_ok', h2]
      cases buildForest lib o ts { innerType := .none, isInPre := p1, root := false } <;> rfl

/-- The output of an end tag does not depend on the `pre` status. -/
private theorem end_pre (lib : EntityLib) (o : RenderOptions) (x : NodeD) (hx : x.nodeType = .tagEnd)
    (ty : InnerType) (p p' r : Bool) :
    (buildNode lib o x { innerType := ty, isInPre := p, root := r }).map (·.2) =
    (buildNode lib o x { innerType := ty, isInPre := p', root := r }).map (·.2) := by
  unfold buildNode
  simp only [hx]
  cases x.content <;> rfl

/-- The node data of a bare start tag: no content, no children, no end tag. -/
def Spec.startOnly (d : NodeD) : Tree := .mk { d with content := none } none none

/-- A bare end tag. -/
def Spec.endOnly (x : NodeD) : Tree := .mk x none none

/-- `inner_html` itself is not looked at below `build`. -/
private theorem tree_flag (lib : EntityLib) (o : RenderOptions) (b : Bool) :
    (∀ t st, buildTree lib { o with innerHtml := b } t st = buildTree lib o t st) ∧
    (∀ ts st, buildForest lib { o with innerHtml := b } ts st = buildForest lib o ts st) := by
  have hn : ∀ n st, buildNode lib { o with innerHtml := b } n st = buildNode lib o n st := fun _ _ => rfl
  have he : ∀ e st, buildEnd lib { o with innerHtml := b } e st = buildEnd lib o e st := by
    intro e st; cases e <;> rfl
  apply Tree.induct
  · intro d e st; simp only [buildTree, hn, he]
  · intro d e ts ih st; simp only [buildTree, hn, he, ih]
  · intro st; rfl
  · intro t ts h1 h2 st; simp only [buildForest, h1, h2]

private theorem build_outer (lib : EntityLib) (o : RenderOptions) (t : Tree) :
    build lib t { o with innerHtml := false } false =
      (buildTree lib o t { innerType := .none, root := true }).map (·.2) := by
  simp only [build, innerTypeOf, buildTarget, Bool.false_eq_true, if_false, reduceCtorEq, or_self,
    (tree_flag lib o false).1]

theorem build_inner (lib : EntityLib) (o : RenderOptions) (t : Tree) (h : t.data.nodeType = .tag) :
    build lib t { o with innerHtml := true } false =
      (buildTree lib o t { innerType := .html, root := true }).map (·.2) := by
  simp [build, innerTypeOf, buildTarget, h, (tree_flag lib o true).1]

theorem start_node (lib : EntityLib) (o : RenderOptions) (d : NodeD) (hd : d.nodeType = .tag)
    (m : TagMeta) (hm : d.tmeta = some m) : ∃ pre open_ body,
    buildNode lib o d { innerType := .none, root := true } =
      .ok ({ innerType := .none, isInPre := pre, root := true }, open_ ++ body) ∧
    buildNode lib o { d with content := none } { innerType := .none, root := true } =
      .ok ({ innerType := .none, isInPre := pre, root := true }, open_) ∧
    buildNode lib o d { innerType := .html, root := true } =
      .ok ({ innerType := .html, isInPre := pre, root := true }, body) := by
  refine ⟨isEqualChars m.name preTagName (some .lower),
    ['<'] ++ (if !o.lowercaseTagname then m.name else lowerAll m.name)
      ++ (if !m.attrs.isEmpty then m.attrsToString o.removeAttrQuote else [])
      ++ (if m.selfClosed || (m.autoFix && o.alwaysCloseVoid) then [' ', '/'] else []) ++ ['>'],
    (match d.content with
      | some content =>
        if o.encodeContent && isPlainTextTag m.name (some .lower) then writeContentEncode lib content
        else content
      | none => []), ?_, ?_, ?_⟩
  · simp only [buildNode, hd, hm, RenderStatus.needTag, if_true, Bool.false_or, decide_true]
    cases d.content <;> rfl
  · simp only [buildNode, hd, hm, RenderStatus.needTag, if_true, Bool.false_or, decide_true, List.append_nil]
  · simp only [buildNode, hd, hm, RenderStatus.needTag, if_true, reduceCtorEq, decide_false,
      Bool.false_eq_true, if_false, List.nil_append, Bool.false_or]
    cases d.content <;> rfl

private theorem end_node (lib : EntityLib) (o : RenderOptions) (x : NodeD) (hx : x.nodeType = .tagEnd)
    (c : Str) (hc : x.content = some c) : ∃ z, ∀ p,
    (∃ st, buildNode lib o x { innerType := .none, isInPre := p, root := true } = .ok (st, z)) ∧
    (∃ st, buildNode lib o x { innerType := .html, isInPre := p, root := true } = .ok (st, [])) := by
  refine ⟨['<', '/'] ++ (if o.lowercaseTagname then
      lowerAll (if o.removeEndtagSpace then charsTrimEnd c else c)
      else (if o.removeEndtagSpace then charsTrimEnd c else c)) ++ ['>'],
    fun p => ?_⟩
  constructor
  · simp only [buildNode, hx, hc, RenderStatus.needTag, if_true, decide_true]
    exact ⟨_, rfl⟩
  · simp only [buildNode, hx, hc, RenderStatus.needTag, if_true, reduceCtorEq, decide_false,
      Bool.false_eq_true, if_false]
    exact ⟨_, rfl⟩

/-- **C35**: the outer rendering of a tag is its start tag, its `inner_html` rendering and its end tag,
for every combination of the other options. -/
theorem c35_inner_html (lib : EntityLib) (o : RenderOptions) (d : NodeD) (e : Option NodeD)
    (cs : Option (List Tree)) (out : Str) (hd : d.nodeType = .tag)
    (he : ∀ x, e = some x → x.nodeType = .tagEnd) :
    build lib (.mk d e cs) { o with innerHtml := false } false = .ok out ↔
      ∃ s i z, build lib (startOnly d) { o with innerHtml := false } false = .ok s ∧
        build lib (.mk d e cs) { o with innerHtml := true } false = .ok i ∧
        (match e with
          | none => z = []
          | some x => build lib (endOnly x) { o with innerHtml := false } false = .ok z) ∧
        out = s ++ i ++ z := by
  rw [build_inner _ _ (.mk d e cs) hd]
  simp only [build_outer, startOnly, endOnly]
  cases hm : d.tmeta with
  | none =>
    have hn : ∀ st, buildNode lib o d st = .error .tagMeta := by
      intro st; simp only [buildNode, hd, hm]
    have ht : ∀ st, buildTree lib o (.mk d e cs) st = .error .tagMeta := by
      intro st
      rw [buildTree, hn]; rfl
    rw [ht, ht]
    simp [Except.map]
  | some m =>
    obtain ⟨pre, open_, body, h1, h2, h3⟩ := start_node lib o d hd m hm
    have hs : (buildTree lib o (.mk { d with content := none } none none)
        { innerType := .none, root := true }).map (·.2) = .ok open_ := by
      simp [buildTree, h2, Except.bind_ok', buildEnd, Except.map]
    have hkids : ∃ ko : RRes Str,
        (∀ e, buildTree lib o (.mk d e cs) { innerType := .none, root := true } = (do
          let k ← ko
          let (st, z) ← buildEnd lib o e { innerType := .none, isInPre := pre, root := true }
          .ok (st, open_ ++ body ++ k ++ z))) ∧
        (∀ e, buildTree lib o (.mk d e cs) { innerType := .html, root := true } = (do
          let k ← ko
          let (st, z) ← buildEnd lib o e { innerType := .html, isInPre := pre, root := true }
          .ok (st, body ++ k ++ z))) := by
      cases cs with
      | none =>
        refine ⟨.ok [], fun e => ?_, fun e => ?_⟩
        · simp only [buildTree, h1, Except.bind_ok', List.append_nil]
        · simp only [buildTree, h3, Except.bind_ok', List.append_nil]
      | some ts =>
        have hh := (inner_none_html lib o).2 ts pre
        refine ⟨(buildForest lib o ts { innerType := .none, isInPre := pre, root := false }).map (·.2),
          fun e => ?_, fun e => ?_⟩
        · simp only [buildTree, h1, Except.bind_ok', if_true]
          cases buildForest lib o ts { innerType := .none, isInPre := pre, root := false } <;> rfl
        · simp only [buildTree, h3, Except.bind_ok', if_true, hh]
          cases buildForest lib o ts { innerType := .none, isInPre := pre, root := false } <;> rfl
    obtain ⟨ko, hk1, hk2⟩ := hkids
    rw [hm] at hs
    rw [hk1, hk2, hs]
    cases ko with
    | error x => simp [bind, Except.bind, Except.map]
    | ok k =>
      simp only [Except.bind_ok']
      cases e with
      | none => simp [buildEnd, Except.bind_ok', Except.map, eq_comm]
      | some x =>
        have hx := he x rfl
        cases hc : x.content with
        | none => simp [buildEnd, buildNode, hx, hc, bind, Except.bind, Except.map]
        | some c =>
          obtain ⟨z, hz⟩ := end_node lib o x hx c hc
          obtain ⟨st1, e1⟩ := (hz pre).1
          obtain ⟨st2, e2⟩ := (hz pre).2
          obtain ⟨st3, e3⟩ := (hz false).1
          simp [buildEnd, e1, e2, e3, buildTree, Except.bind_ok', Except.map, eq_comm]

/-- A non-trivial instance: nested tags, attributes, text, a comment and an end tag with a space. -/
example : outOf (build toyLib ((treeOf "<div a=1>x<b>y</b><!--c--> </DIV >").kids.headD (.mk {} none none))
    { innerHtml := true } false) = some "x<b>y</b><!--c--> ".toList := by decide +kernel

end Rphtml
