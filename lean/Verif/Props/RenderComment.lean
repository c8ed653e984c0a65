import Verif.Props.RenderOpts

/-! # C30: remove_comment prunes exactly the comments -/

namespace Rphtml
open Spec

/-- Is the node a comment? -/
def Spec.isComment (n : NodeD) : Bool := n.nodeType = .comment

theorem buildNode_rc (lib : EntityLib) (o : RenderOptions) (n : NodeD) (st : RenderStatus)
    (h : isComment n = false) :
    buildNode lib { o with removeComment := true } n st =
    buildNode lib { o with removeComment := false } n st := by
  unfold buildNode
  cases ht : n.nodeType <;> simp_all [isComment]
  all_goals rfl

theorem buildTree_comment (lib : EntityLib) (o : RenderOptions) (t : Tree) (st : RenderStatus)
    (h : isComment t.data = true) (hl : leafOnly isComment t) :
    buildTree lib { o with removeComment := true } t st = .ok (st, []) := by
  cases t with
  | mk d e cs =>
    simp only [Tree.data] at h
    have hn : buildNode lib { o with removeComment := true } d st = .ok (st, []) := by
      unfold buildNode
      simp only [isComment, decide_eq_true_eq] at h
      simp [h]
    cases cs with
    | none =>
      simp only [leafOnly] at hl
      rw [hl.1 h]
      simp [buildTree, hn, buildEnd, bind, Except.bind]
    | some ts =>
      simp only [leafOnly] at hl
      obtain ⟨rfl, rfl⟩ := hl.1 h
      simp [buildTree, hn, buildEnd, buildForest, bind, Except.bind]

private theorem prune_key (lib : EntityLib) (o : RenderOptions) :
    (∀ t, leafOnly isComment t → isComment t.data = false → ∀ st,
      buildTree lib { o with removeComment := true } t st =
      buildTree lib { o with removeComment := false } (pruneTree isComment t) st) ∧
    (∀ ts, leafOnlyForest isComment ts → ∀ st,
      buildForest lib { o with removeComment := true } ts st =
      buildForest lib { o with removeComment := false } (pruneForest isComment ts) st) := by
  have he : ∀ e st, (∀ x, e = some x → isComment x = false) →
      buildEnd lib { o with removeComment := true } e st =
      buildEnd lib { o with removeComment := false } e st := by
    intro e st h
    cases e with
    | none => rfl
    | some e => exact buildNode_rc lib o e st (h e rfl)
  apply Tree.induct
  · intro d e hl hc st
    simp only [leafOnly] at hl
    simp only [Tree.data] at hc
    simp only [buildTree, pruneTree, buildNode_rc lib o d st hc, he e _ hl.2]
  · intro d e ts ih hl hc st
    simp only [leafOnly] at hl
    simp only [Tree.data] at hc
    simp only [buildTree, pruneTree, buildNode_rc lib o d st hc, he e _ hl.2.1, ih hl.2.2]
  · intro _ st; rfl
  · intro t ts h1 h2 hl st
    simp only [leafOnlyForest] at hl
    by_cases hc : isComment t.data = true
    · simp only [buildForest, pruneForest, hc, if_true, buildTree_comment lib o t st hc hl.1, h2 hl.2,
        Except.bind_ok']
      cases buildForest lib { o with removeComment := false } (pruneForest isComment ts) st with
      | error s => rfl
      | ok x => simp [bind, Except.bind]
    · have hc' : isComment t.data = false := by simpa using hc
      simp only [buildForest, pruneForest, hc', h1 hl.1 hc', h2 hl.2]
      rfl

theorem pruneTree_data (p : NodeD → Bool) (t : Tree) : (pruneTree p t).data = t.data := by
  cases t with
  | mk d e cs => cases cs <;> rfl

theorem pruneTree_childs (p : NodeD → Bool) (t : Tree) :
    (pruneTree p t).childs = t.childs.map (pruneForest p) := by
  cases t with
  | mk d e cs => cases cs <;> rfl

private theorem findOnlyTag_prune (ts : List Tree) : ∀ acc,
    findOnlyTag (pruneForest isComment ts) (acc.map (pruneTree isComment)) =
      (findOnlyTag ts acc).map (Option.map (pruneTree isComment)) := by
  induction ts with
  | nil => intro acc; rfl
  | cons t ts ih =>
    intro acc
    simp only [pruneForest, findOnlyTag]
    by_cases hc : isComment t.data = true
    · have : t.data.nodeType ≠ .tag := by
        simp only [isComment, decide_eq_true_eq] at hc; simp [hc]
      simp only [hc, if_true, this, if_false]
      exact ih acc
    · simp only [hc]
      simp only [Bool.false_eq_true, if_false, findOnlyTag, pruneTree_data]
      split
      · cases acc with
        | none => exact ih (some t)
        | some a => rfl
      · exact ih acc

private theorem leafOnly_mem (ts : List Tree) : ∀ r, r ∈ ts → leafOnlyForest isComment ts →
    leafOnly isComment r := by
  induction ts with
  | nil => intro r h; simp at h
  | cons t ts ih =>
    intro r h h2
    simp only [leafOnlyForest] at h2
    rcases List.mem_cons.1 h with rfl | h
    · exact h2.1
    · exact ih r h h2.2

/-- **C30**: rendering with `remove_comment` produces `out` iff rendering the tree without its comment
nodes produces `out`, for every combination of the other options and for outer, inner and text
rendering.  (Comments of parsed documents are leaves; the rendered node itself is not a comment.) -/
theorem c30_remove_comment (lib : EntityLib) (o : RenderOptions) (t : Tree) (it : Bool) (out : Str)
    (hl : leafOnly isComment t) (hc : t.data.nodeType ≠ .comment) :
    build lib t { o with removeComment := true } it = .ok out ↔
      build lib (pruneTree isComment t) { o with removeComment := false } it = .ok out := by
  have hc' : isComment t.data = false := by simp [isComment, hc]
  have hb := (prune_key lib o).1
  unfold build
  have h1 : innerTypeOf { o with removeComment := true } it =
      innerTypeOf { o with removeComment := false } it := rfl
  rw [h1]
  cases innerTypeOf { o with removeComment := false } it with
  | error s => exact Iff.rfl
  | ok ty =>
    simp only
    have ht : (∃ s s', buildTarget t ty = .error s ∧ buildTarget (pruneTree isComment t) ty = .error s') ∨
        (∃ r, buildTarget t ty = .ok r ∧
          buildTarget (pruneTree isComment t) ty = .ok (r.map (pruneTree isComment))) := by
      unfold buildTarget
      simp only [pruneTree_data, pruneTree_childs]
      split
      · split
        · cases t.childs with
          | none => exact Or.inr ⟨none, rfl, rfl⟩
          | some cs =>
            simp only [Option.map_some]
            have := findOnlyTag_prune cs none
            simp only [Option.map_none] at this
            rw [this]
            cases findOnlyTag cs none with
            | error s => exact Or.inl ⟨s, s, rfl, rfl⟩
            | ok r =>
              cases r with
              | none =>
                left
                simp only [Except.map, Option.map_none]
                split <;> split <;> exact ⟨_, _, rfl, rfl⟩
              | some c => exact Or.inr ⟨some c, rfl, rfl⟩
        · split
          · split
            · exact Or.inl ⟨_, _, rfl, rfl⟩
            · exact Or.inr ⟨_, rfl, rfl⟩
          · split
            · exact Or.inl ⟨_, _, rfl, rfl⟩
            · exact Or.inr ⟨_, rfl, rfl⟩
      · exact Or.inr ⟨_, rfl, rfl⟩
    rcases ht with ⟨s, s', h2, h3⟩ | ⟨r, h2, h3⟩
    · rw [h2, h3]; simp
    · rw [h2, h3]
      cases r with
      | none => exact Iff.rfl
      | some c =>
        simp only [Option.map_some]
        rcases buildTarget_cases h2 with rfl | ⟨-, h4, ts, h5, h6⟩
        · rw [hb c hl hc']
        · have hcc : isComment c.data = false := by simp [isComment, h4]
          cases t with
          | mk d e cs =>
            simp only [Tree.childs] at h5
            subst h5
            simp only [leafOnly] at hl
            rw [hb c (leafOnly_mem _ _ h6 hl.2.2) hcc]

/-- Non-vacuity: a document with comments on two levels. -/
example : outOf (build toyLib (treeOf "<!--x--><p>a<!--y-->b</p>") { removeComment := true } false) =
    some "<p>ab</p>".toList := by decide +kernel

/-- **C30** for a comment that is rendered itself: nothing is left, and the option decides nothing else. -/
theorem c30_root (lib : EntityLib) (o : RenderOptions) (t : Tree) (it : Bool) (out : Str)
    (hl : leafOnly isComment t) (hc : t.data.nodeType = .comment) :
    build lib t { o with removeComment := true } it = .ok out ↔
      out = [] ∧ ∃ out', build lib t { o with removeComment := false } it = .ok out' := by
  have hb := fun st => buildTree_comment lib o t st (by simp [isComment, hc]) hl
  have hb' : ∀ st, ∃ x, buildTree lib { o with removeComment := false } t st = .ok x := by
    intro st
    cases t with
    | mk d e cs =>
      simp only [Tree.data] at hc
      have hn : ∃ x, buildNode lib { o with removeComment := false } d st = .ok x := by
        unfold buildNode; simp only [hc]; repeat' split
        all_goals exact ⟨_, rfl⟩
      obtain ⟨x, hn⟩ := hn
      cases cs with
      | none =>
        simp only [leafOnly] at hl
        rw [hl.1 (by simp [isComment, hc])]
        simp [buildTree, hn, buildEnd, bind, Except.bind]
      | some ts =>
        simp only [leafOnly] at hl
        obtain ⟨rfl, rfl⟩ := hl.1 (by simp [isComment, hc])
        simp [buildTree, hn, buildEnd, buildForest, bind, Except.bind]
  unfold build
  have h1 : innerTypeOf { o with removeComment := true } it = innerTypeOf { o with removeComment := false } it := rfl
  rw [h1]
  cases innerTypeOf { o with removeComment := false } it with
  | error s => simp
  | ok ty =>
    have ht : (∃ s, buildTarget t ty = .error s) ∨ buildTarget t ty = .ok (some t) := by
      unfold buildTarget; simp only [hc]; repeat' split
      all_goals first | exact .inl ⟨_, rfl⟩ | exact .inr rfl | simp_all
    rcases ht with ⟨s, h⟩ | h
    · simp [h]
    · obtain ⟨x, hx⟩ := hb' { innerType := ty, root := true }
      simp only [h, hb, hx, Except.map]
      constructor
      · intro h; cases h; exact ⟨rfl, _, rfl⟩
      · rintro ⟨rfl, _⟩; rfl

/-- Non-vacuity: a comment alone. -/
example : ∃ t : Tree, leafOnly isComment t ∧ t.data.nodeType = .comment ∧
    outOf (build toyLib t { removeComment := true } true) = some [] ∧ outOf (build toyLib t {} true) = some ['a'] :=
  ⟨.mk { nodeType := .comment, content := some ['a'] } none none, by simp [leafOnly], rfl, by decide +kernel, by decide +kernel⟩

end Rphtml
