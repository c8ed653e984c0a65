import Verif.Model.Render
import Verif.Proofs.TextLemmas
import Verif.Spec.Tree
import Verif.Spec.Samples

/-! # C30, C31, C32, C34: render options as tree transformations -/

namespace Rphtml
open Spec

theorem Except.bind_ok' {α β ε : Type} (a : α) (f : α → Except ε β) : (Except.ok a >>= f) = f a := rfl

/-- If two node renderers agree up to a node transformation, so do the tree renderers. -/
theorem buildTree_map (lib : EntityLib) (o o' : RenderOptions) (f : NodeD → NodeD)
    (hf : ∀ n st, buildNode lib o n st = buildNode lib o' (f n) st) :
    (∀ t st, buildTree lib o t st = buildTree lib o' (mapTree f t) st) ∧
    (∀ ts st, buildForest lib o ts st = buildForest lib o' (mapForest f ts) st) := by
  have he : ∀ e st, buildEnd lib o e st = buildEnd lib o' (e.map f) st := by
    intro e st; cases e with
    | none => rfl
    | some e => exact hf e st
  apply Tree.induct
  · intro d e st
    simp only [buildTree, mapTree, hf, he]
  · intro d e ts ih st
    simp only [buildTree, mapTree, hf, he, ih]
  · intro st; rfl
  · intro t ts h1 h2 st
    simp only [buildForest, mapForest, h1, h2]

theorem mapTree_data (f : NodeD → NodeD) (t : Tree) : (mapTree f t).data = f t.data := by
  cases t with
  | mk d e cs => cases cs <;> rfl

theorem mapTree_childs (f : NodeD → NodeD) (t : Tree) :
    (mapTree f t).childs = t.childs.map (mapForest f) := by
  cases t with
  | mk d e cs => cases cs <;> rfl

theorem mapForest_isEmpty (f : NodeD → NodeD) (ts : List Tree) :
    (mapForest f ts).isEmpty = ts.isEmpty := by cases ts <;> rfl

theorem findOnlyTag_map (f : NodeD → NodeD) (hf : ∀ n, (f n).nodeType = n.nodeType) (ts : List Tree) :
    ∀ acc, findOnlyTag (mapForest f ts) (acc.map (mapTree f)) =
      (findOnlyTag ts acc).map (Option.map (mapTree f)) := by
  induction ts with
  | nil => intro acc; rfl
  | cons t ts ih =>
    intro acc
    simp only [mapForest, findOnlyTag, mapTree_data, hf]
    split
    · cases acc with
      | none => exact ih (some t)
      | some a => rfl
    · exact ih acc

theorem findOnlyTag_mem (ts : List Tree) : ∀ acc r, findOnlyTag ts acc = .ok (some r) →
    acc = some r ∨ (r ∈ ts ∧ r.data.nodeType = .tag) := by
  induction ts with
  | nil => intro acc r h; simp only [findOnlyTag, Except.ok.injEq] at h; exact Or.inl h
  | cons t ts ih =>
    intro acc r h
    simp only [findOnlyTag] at h
    split at h
    · rename_i ht
      cases acc with
      | some a => simp at h
      | none =>
        rcases ih _ _ h with h | h
        · cases h; right; exact ⟨by simp, ht⟩
        · right; exact ⟨by simp [h.1], h.2⟩
    · rcases ih _ _ h with h | h
      · exact Or.inl h
      · right; exact ⟨by simp [h.1], h.2⟩

/-- The rendered node is the node itself or a tag among its children. -/
theorem buildTarget_cases {t : Tree} {ty : InnerType} {c : Tree} (h : buildTarget t ty = .ok (some c)) :
    c = t ∨ (t.data.nodeType = .abstractRoot ∧ c.data.nodeType = .tag ∧ ∃ ts, t.childs = some ts ∧ c ∈ ts) := by
  unfold buildTarget at h
  split at h
  · split at h
    · rename_i hr
      split at h
      · rename_i cs hcs
        split at h
        · simp at h
        · rename_i child hc
          simp only [Except.ok.injEq, Option.some.injEq] at h
          subst h
          rcases findOnlyTag_mem _ _ _ hc with h1 | h1
          · simp at h1
          · exact Or.inr ⟨hr, h1.2, cs, hcs, h1.1⟩
        · split at h <;> simp at h
      · simp at h
    · split at h
      · split at h
        · simp at h
        · simp only [Except.ok.injEq, Option.some.injEq] at h; exact Or.inl h.symm
      · split at h
        · simp at h
        · simp only [Except.ok.injEq, Option.some.injEq] at h; exact Or.inl h.symm
  · simp only [Except.ok.injEq, Option.some.injEq] at h; exact Or.inl h.symm

theorem buildTarget_map (f : NodeD → NodeD) (ht : ∀ n, (f n).nodeType = n.nodeType) (t : Tree)
    (ty : InnerType) :
    buildTarget (mapTree f t) ty = (buildTarget t ty).map (Option.map (mapTree f)) := by
  unfold buildTarget
  simp only [mapTree_data, ht, mapTree_childs]
  split
  · split
    · cases hc : t.childs with
      | none => rfl
      | some cs =>
        simp only [Option.map_some]
        have := findOnlyTag_map f ht cs none
        simp only [Option.map_none] at this
        rw [this]
        cases hr : findOnlyTag cs none with
        | error s => rfl
        | ok r =>
          cases r with
          | none =>
            simp only [Except.map, Option.map_none, mapForest_isEmpty]
            split <;> rfl
          | some c => rfl
    · split
      · split <;> rfl
      · split <;> rfl
  · rfl

/-- Options that agree on a node up to a type-preserving transformation agree on `build`. -/
theorem build_map (lib : EntityLib) (o o' : RenderOptions) (f : NodeD → NodeD)
    (hi : o'.innerHtml = o.innerHtml) (ht : ∀ n, (f n).nodeType = n.nodeType)
    (hf : ∀ n st, buildNode lib o n st = buildNode lib o' (f n) st) (t : Tree) (it : Bool) :
    build lib t o it = build lib (mapTree f t) o' it := by
  have hb := (buildTree_map lib o o' f hf).1
  unfold build
  have h1 : innerTypeOf o' it = innerTypeOf o it := by unfold innerTypeOf; rw [hi]
  rw [h1]
  cases innerTypeOf o it with
  | error s => rfl
  | ok ty =>
    simp only [buildTarget_map f ht]
    cases buildTarget t ty with
    | error s => rfl
    | ok r =>
      cases r with
      | none => rfl
      | some c => simp only [Except.map, Option.map_some, hb]

/-- Options that agree on the nodes of a tree agree on `build`. -/
theorem build_congr (lib : EntityLib) (o o' : RenderOptions) (p : NodeD → Prop)
    (hi : o'.innerHtml = o.innerHtml)
    (hf : ∀ n st, p n → buildNode lib o n st = buildNode lib o' n st) (t : Tree) (it : Bool)
    (h : allNodes p t) : build lib t o it = build lib t o' it := by
  have he : ∀ e st, (∀ x, e = some x → p x) → buildEnd lib o e st = buildEnd lib o' e st := by
    intro e st h
    cases e with
    | none => rfl
    | some e => exact hf e st (h e rfl)
  have key := Tree.induct
    (P := fun t => allNodes p t → ∀ st, buildTree lib o t st = buildTree lib o' t st)
    (Q := fun ts => allForest p ts → ∀ st, buildForest lib o ts st = buildForest lib o' ts st)
    (by
      intro d e h st
      simp only [allNodes] at h
      simp only [buildTree, hf d st h.1]
      congr 1; funext x
      simp only [Except.bind_ok', he e x.1 h.2])
    (by
      intro d e ts ih h st
      simp only [allNodes] at h
      simp only [buildTree, hf d st h.1]
      congr 1; funext x
      simp only [ih h.2.2, he e _ h.2.1])
    (by intro _ st; rfl)
    (by
      intro t ts h1 h2 h st
      simp only [allForest] at h
      simp only [buildForest, h1 h.1, h2 h.2])
  have hall : ∀ (ts : List Tree) r, r ∈ ts → allForest p ts → allNodes p r := by
    intro ts
    induction ts with
    | nil => intro r h; simp at h
    | cons t ts ih =>
      intro r h h2
      simp only [allForest] at h2
      rcases List.mem_cons.1 h with rfl | h
      · exact h2.1
      · exact ih r h h2.2
  unfold build
  have h1 : innerTypeOf o' it = innerTypeOf o it := by unfold innerTypeOf; rw [hi]
  rw [h1]
  cases innerTypeOf o it with
  | error s => rfl
  | ok ty =>
    simp only
    cases hb : buildTarget t ty with
    | error s => rfl
    | ok r =>
      cases r with
      | none => rfl
      | some c =>
        have hc : allNodes p c := by
          rcases buildTarget_cases hb with rfl | ⟨-, -, ts, h2, h3⟩
          · exact h
          · cases t with
            | mk d e cs =>
              simp only [Tree.childs] at h2
              subst h2
              simp only [allNodes] at h
              exact hall _ _ h3 h.2.2
        simp only [key.1 c hc]

/-! ## C31 -/

theorem fold_idem (s : Str) : fold (fold s) = fold s := by
  rw [← lowerAll_eq_fold, ← lowerAll_eq_fold, lowerAll_idem]

theorem isEqualChars_lower_fold (s b : Str) (hb : ∀ c ∈ b, toLower c = c) :
    isEqualChars (fold s) b (some .lower) = isEqualChars s b (some .lower) := by
  rw [Bool.eq_iff_iff, isEqualChars_lower _ _ hb, isEqualChars_lower _ _ hb, lowerAll_eq_fold,
    lowerAll_eq_fold, fold_idem]

theorem isWs_toLower (c : Char) : isWs (toLower c) = isWs c := by
  rw [Bool.eq_iff_iff, isWs_iff, isWs_iff, toNat_toLower]; split <;> omega

theorem trimEnd_fold (s : Str) : trimEnd (fold s) = fold (trimEnd s) := by
  rw [← lowerAll_eq_fold, ← lowerAll_eq_fold]
  unfold trimEnd lowerAll
  rw [← List.map_reverse, List.dropWhile_map, ← List.map_reverse]
  congr 2
  have : (fun c => decide (c ∈ ws)) = isWs := by funext c; rw [isWs_eq]
  rw [this]
  congr 1
  funext c; exact isWs_toLower c

/-- **C31**: `lowercase_tagname` renders as if all tag names had been lowercased beforehand, with every
other option unchanged, for outer, inner and text rendering. -/
theorem c31_lowercase (lib : EntityLib) (o : RenderOptions) (t : Tree) (it : Bool) :
    build lib t { o with lowercaseTagname := true } it =
      build lib (mapTree lowerNames t) { o with lowercaseTagname := false } it := by
  apply build_map
  · rfl
  · intro n; unfold lowerNames; split <;> simp_all
  · intro n st
    unfold buildNode lowerNames
    cases hn : n.nodeType <;> simp only [hn]
    case text => rfl
    case tag =>
      cases n.tmeta with
      | none => rfl
      | some m =>
        have h1 : isPlainTextTag (fold m.name) (some .lower) = isPlainTextTag m.name (some .lower) := by
          unfold isPlainTextTag
          rw [isEqualChars_lower_fold _ _ (by decide), isEqualChars_lower_fold _ _ (by decide)]
        have h2 : isEqualChars (fold m.name) preTagName (some .lower) =
            isEqualChars m.name preTagName (some .lower) := isEqualChars_lower_fold _ _ (by decide)
        simp [h1, h2, lowerAll_eq_fold, TagMeta.attrsToString]
    case tagEnd =>
      cases n.content with
      | none => rfl
      | some s =>
        have h2 : isEqualChars (fold (trimEnd s)) preTagName (some .lower) =
            isEqualChars (trimEnd s) preTagName (some .lower) := isEqualChars_lower_fold _ _ (by decide)
        simp only [Option.map_some, charsTrimEnd_eq, trimEnd_fold, lowerAll_eq_fold, h2]
        cases o.removeEndtagSpace <;> simp

/-- Non-vacuity: names do change. -/
example : outOf (build toyLib (treeOf "<DIV A='b'>T</DIV>") { lowercaseTagname := true } false) =
    some "<div A='b'>T</div>".toList := by decide +kernel

/-! ## C32 -/

theorem trimEnd_idem (s : Str) : trimEnd (trimEnd s) = trimEnd s := by
  unfold trimEnd
  rw [List.reverse_reverse]
  congr 1
  generalize s.reverse = r
  induction r with
  | nil => rfl
  | cons c cs ih =>
    by_cases h : c ∈ ws
    · simp [List.dropWhile_cons, h, ih]
    · simp [List.dropWhile_cons, h]

/-- **C32**: `remove_endtag_space` renders as if all end tag names had been right-trimmed beforehand. -/
theorem c32_remove_endtag_space (lib : EntityLib) (o : RenderOptions) (t : Tree) (it : Bool) :
    build lib t { o with removeEndtagSpace := true } it =
      build lib (mapTree trimEndNames t) { o with removeEndtagSpace := false } it := by
  apply build_map
  · rfl
  · intro n; unfold trimEndNames; split <;> simp_all
  · intro n st
    unfold buildNode trimEndNames
    cases hn : n.nodeType <;> simp only [hn]
    case text => rfl
    case tagEnd =>
      cases n.content with
      | none => rfl
      | some s =>
        simp only [Option.map_some, charsTrimEnd_eq, trimEnd_idem]
        simp

/-- Non-vacuity: an end tag with trailing spaces. -/
example : outOf (build toyLib (treeOf "<p>T</p  >") { removeEndtagSpace := true } false) =
    some "<p>T</p>".toList := by decide +kernel

/-! ## C34 -/

/-- **C34**, what the code does: `always_close_void` has no effect on a tree without auto-fixed tags
(in particular it does not close void elements).  The claim itself is refuted in `Findings`. -/
theorem c34_partial (lib : EntityLib) (o : RenderOptions) (t : Tree) (it : Bool)
    (h : allNodes (fun n => ∀ m, n.tmeta = some m → m.autoFix = false) t) :
    build lib t { o with alwaysCloseVoid := true } it =
      build lib t { o with alwaysCloseVoid := false } it := by
  have hn : ∀ n st, (∀ m, n.tmeta = some m → m.autoFix = false) →
      buildNode lib { o with alwaysCloseVoid := true } n st =
      buildNode lib { o with alwaysCloseVoid := false } n st := by
    intro n st h
    unfold buildNode
    cases ht : n.nodeType <;> simp only
    case text => rfl
    case tag =>
      cases hm : n.tmeta with
      | none => rfl
      | some m => simp [h m hm]
  refine build_congr lib _ _ (fun n => ∀ m, n.tmeta = some m → m.autoFix = false) ?_ hn t it h
  rfl

/-- **C34**, exactly, for every tree: `always_close_void` renders as if every tag that was repaired at the end of the input
(`auto_fix_unclosed_tag`) had been self-closed; void elements play no part in it. -/
theorem c34_exact (lib : EntityLib) (o : RenderOptions) (t : Tree) (it : Bool) :
    build lib t { o with alwaysCloseVoid := true } it =
      build lib (mapTree closeFixed t) { o with alwaysCloseVoid := false } it := by
  apply build_map
  · rfl
  · intro n; unfold closeFixed; split <;> simp_all
  · intro n st
    unfold buildNode closeFixed
    cases hn : n.nodeType <;> simp only [hn]
    case text => rfl
    case tag =>
      cases n.tmeta with
      | none => rfl
      | some m => simp [TagMeta.attrsToString]

/-- An unclosed element and a void one: only the former is closed. -/
example : outOf (build toyLib (treeOf "<p><br>" { autoFixUnclosedTag := true }) { alwaysCloseVoid := true } false) =
    some "<p /><br></p>".toList := by decide +kernel

/-- Non-vacuity: a tree without auto-fixed tags, whose void element is not closed by the option. -/
example : outOf (build toyLib (treeOf "<p><br></p>") { alwaysCloseVoid := true } false) =
    some "<p><br></p>".toList := by decide +kernel

end Rphtml
