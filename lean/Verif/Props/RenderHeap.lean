import Verif.Model.RenderHeap
import Verif.Props.Stack

/-!
# C71: rendering nodes in the heap
-/

namespace Rphtml
open Spec

/-- What was in `result` stays there. -/
def after (result : Str) (r : Option (RRes (RenderStatus × Str))) : Option (RRes (RenderStatus × Str)) :=
  match r with
  | none => none
  | some (.error p) => some (.error p)
  | some (.ok (st, out)) => some (.ok (st, result ++ out))

theorem forestAt_eq {h : Heap} {lib : EntityLib} {o : RenderOptions} {m n : Nat}
    (ih : ∀ i t st result, h.toTree? m i = some t → h.buildTreeAt lib o n i st result = after result (buildTreeIn lib o n t st)) :
    ∀ (ids : List NodeId) (ts : List Tree) (st : RenderStatus) (result : Str), optAll (h.toTree? m) ids = some ts →
      forestAt (h.buildTreeAt lib o n) ids st result = after result (forestIn (buildTreeIn lib o n) ts st)
  | [], ts, st, result, hts => by
    simp only [optAll, Option.some.injEq] at hts
    subst hts
    simp [forestAt, forestIn, after]
  | i :: ids, ts, st, result, hts => by
    obtain ⟨t, ts, rfl, h1, h2⟩ := optAll_cons hts
    unfold forestAt forestIn
    rw [ih i t st result h1]
    cases buildTreeIn lib o n t st with
    | none => rfl
    | some x =>
      cases x with
      | error p => rfl
      | ok y =>
        simp only [after]
        rw [forestAt_eq ih ids ts y.1 (result ++ y.2) h2]
        cases forestIn (buildTreeIn lib o n) ts y.1 with
        | none => rfl
        | some x =>
          cases x with
          | error p => rfl
          | ok z => simp [after]

/-- **C71**, `build_tree`: on a node that denotes a tree it does to the status what it does on the tree, and appends what is
printed for the tree, with the same room on the stack. -/
theorem c71_tree (h : Heap) (lib : EntityLib) (o : RenderOptions) : ∀ (n m : Nat) (i : NodeId) (t : Tree) (st : RenderStatus) (result : Str),
    h.toTree? m i = some t → h.buildTreeAt lib o n i st result = match buildTreeIn lib o n t st with
      | none => none
      | some (.error p) => some (.error p)
      | some (.ok (st, out)) => some (.ok (st, result ++ out))
  | 0, _, _, _, _, _, _ => rfl
  | n + 1, 0, i, t, st, result, ht => by cases ht
  | n + 1, m + 1, i, t, st, result, ht => by
    change _ = after result _
    have ih := c71_tree h lib o n m
    have ihf := forestAt_eq (h := h) (lib := lib) (o := o) (m := m) (n := n) (fun i t st r q => ih i t st r q)
    unfold Heap.toTree? at ht
    simp only at ht
    unfold Heap.buildTreeAt
    -- the end tag
    have hend : ∀ (st : RenderStatus) (a b : Str), (match (h.cell i).endTag with
        | none => some (.ok (st, result ++ a ++ b))
        | some e => match buildNode lib o (h.cell e).toNodeD st with
          | .error p => some (.error p)
          | .ok (st, out) => some (.ok (st, result ++ a ++ b ++ out)) : Option (RRes (RenderStatus × Str))) =
        after result (match buildEnd lib o ((h.cell i).endTag.map fun e => (h.cell e).toNodeD) st with
          | .error p => some (.error p)
          | .ok (st, out3) => some (.ok (st, a ++ b ++ out3))) := by
      intro st a b
      cases (h.cell i).endTag with
      | none => simp [buildEnd, after]
      | some e =>
        simp only [Option.map_some, buildEnd]
        cases buildNode lib o (h.cell e).toNodeD st with
        | error p => rfl
        | ok x => simp [after]
    split at ht
    · rename_i hc
      simp only [Option.some.injEq] at ht
      subst ht
      unfold buildTreeIn
      cases buildNode lib o (h.cell i).toNodeD st with
      | error p => rfl
      | ok x =>
        simp only [hc]
        cases (h.cell i).endTag with
        | none => simp [buildEnd, after]
        | some e =>
          simp only [Option.map_some, buildEnd]
          cases buildNode lib o (h.cell e).toNodeD x.1 with
          | error p => rfl
          | ok y => simp [after]
    · rename_i ids hc
      split at ht
      · rename_i ts hts
        simp only [Option.some.injEq] at ht
        subst ht
        unfold buildTreeIn
        cases buildNode lib o (h.cell i).toNodeD st with
        | error p => rfl
        | ok x =>
          obtain ⟨st1, out1⟩ := x
          simp only [hc]
          rw [ihf ids ts _ _ hts, ihf ids ts _ _ hts]
          by_cases hr : st1.root = true
          · simp only [hr, if_true]
            cases forestIn (buildTreeIn lib o n) ts { st1 with root := false } with
            | none => rfl
            | some y =>
              cases y with
              | error p => rfl
              | ok z => exact hend st1 out1 z.2
          · simp only [hr, Bool.false_eq_true, if_false]
            cases forestIn (buildTreeIn lib o n) ts st1 with
            | none => rfl
            | some y =>
              cases y with
              | error p => rfl
              | ok z => exact hend z.1 out1 z.2
      · cases ht

/-! ## `build` -/

theorem findOnlyTag_at {h : Heap} {m : Nat} : ∀ (ids : List NodeId) (ts : List Tree) (acc : Option NodeId) (acc' : Option Tree),
    optAll (h.toTree? m) ids = some ts → (match acc, acc' with
      | none, none => True
      | some i, some t => h.toTree? m i = some t
      | _, _ => False) →
    match h.findOnlyTagAt ids acc, findOnlyTag ts acc' with
    | .error p, .error q => p = q
    | .ok none, .ok none => True
    | .ok (some i), .ok (some t) => h.toTree? m i = some t
    | _, _ => False
  | [], ts, acc, acc', hts, ha => by
    simp only [optAll, Option.some.injEq] at hts
    subst hts
    unfold Heap.findOnlyTagAt findOnlyTag
    cases acc <;> cases acc' <;> simp_all
  | i :: ids, ts, acc, acc', hts, ha => by
    obtain ⟨t, ts, rfl, h1, h2⟩ := optAll_cons hts
    unfold Heap.findOnlyTagAt findOnlyTag
    rw [toTree_node h1]
    by_cases hty : (h.cell i).toNodeD.nodeType = .tag
    · rw [if_pos hty, if_pos hty]
      cases acc with
      | none =>
        cases acc' with
        | none => exact findOnlyTag_at ids ts (some i) (some t) h2 h1
        | some u => exact ha.elim
      | some j =>
        cases acc' with
        | none => exact ha.elim
        | some u => rfl
    · rw [if_neg hty, if_neg hty]
      exact findOnlyTag_at ids ts acc acc' h2 ha

theorem optAll_empty {α β : Type} {f : α → Option β} : ∀ {l : List α} {bs : List β}, optAll f l = some bs → l.isEmpty = bs.isEmpty
  | [], _, h => by simp only [optAll, Option.some.injEq] at h; subst h; rfl
  | _ :: _, _, h => by obtain ⟨_, _, rfl, _, _⟩ := optAll_cons h; rfl

theorem buildTarget_at {h : Heap} {m : Nat} {i : NodeId} {t : Tree} (ht : h.toTree? m i = some t) (ty : InnerType) :
    match h.buildTargetAt i ty, buildTarget t ty with
    | .error p, .error q => p = q
    | .ok none, .ok none => True
    | .ok (some j), .ok (some u) => ∃ m', h.toTree? m' j = some u
    | _, _ => False := by
  have hd := toTree_node ht
  unfold Heap.buildTargetAt buildTarget
  rw [hd]
  by_cases h1 : ty = .html ∨ ty = .text
  · rw [if_pos h1, if_pos h1]
    by_cases h2 : (h.cell i).toNodeD.nodeType = .abstractRoot
    · rw [if_pos h2, if_pos h2]
      cases m with
      | zero => cases ht
      | succ m =>
        unfold Heap.toTree? at ht
        simp only at ht
        split at ht
        · rename_i hc
          simp only [Option.some.injEq] at ht
          subst ht
          simp [hc, Tree.childs]
        · rename_i ids hc
          split at ht
          · rename_i ts hts
            simp only [Option.some.injEq] at ht
            subst ht
            simp only [hc, Tree.childs]
            have := findOnlyTag_at ids ts none none hts trivial
            have he := optAll_empty hts
            cases h3 : h.findOnlyTagAt ids none with
            | error p =>
              rw [h3] at this
              cases h4 : findOnlyTag ts none with
              | error q => rw [h4] at this; exact this
              | ok u => rw [h4] at this; cases u <;> exact this.elim
            | ok u =>
              rw [h3] at this
              cases h4 : findOnlyTag ts none with
              | error q => rw [h4] at this; cases u <;> exact this.elim
              | ok v =>
                rw [h4] at this
                cases u with
                | none =>
                  cases v with
                  | none => simp only [he]; cases ts.isEmpty <;> simp
                  | some v => exact this.elim
                | some u =>
                  cases v with
                  | none => exact this.elim
                  | some v => exact ⟨_, this⟩
          · cases ht
    · rw [if_neg h2, if_neg h2]
      by_cases h3 : ty = .html
      · rw [if_pos h3, if_pos h3]
        by_cases h4 : (h.cell i).toNodeD.nodeType ≠ .tag
        · rw [if_pos h4, if_pos h4]
        · rw [if_neg h4, if_neg h4]; exact ⟨_, ht⟩
      · rw [if_neg h3, if_neg h3]
        by_cases h4 : (h.cell i).toNodeD.nodeType = .tag ∨ (h.cell i).toNodeD.nodeType = .comment ∨ (h.cell i).toNodeD.nodeType = .xmlCdata
        · rw [if_neg (fun q => q h4), if_neg (fun q => q h4)]; exact ⟨_, ht⟩
        · rw [if_pos h4, if_pos h4]
  · rw [if_neg h1, if_neg h1]; exact ⟨_, ht⟩

/-- **C71**, `build`: rendering a node that denotes a tree, with any options, any inner text and any room on the stack, is
rendering the tree. -/
theorem c71_build {h : Heap} {m : Nat} {i : NodeId} {t : Tree} (ht : h.toTree? m i = some t) (n : Nat) (lib : EntityLib)
    (o : RenderOptions) (it : Bool) : h.buildAt n lib i o it = buildIn n lib t o it := by
  unfold Heap.buildAt buildIn
  cases innerTypeOf o it with
  | error p => rfl
  | ok ty =>
    simp only
    have := buildTarget_at ht ty
    cases h1 : h.buildTargetAt i ty with
    | error p =>
      rw [h1] at this
      cases h2 : buildTarget t ty with
      | error q => rw [h2] at this; simp only at this ⊢; rw [this]
      | ok u => rw [h2] at this; cases u <;> exact this.elim
    | ok u =>
      rw [h1] at this
      cases h2 : buildTarget t ty with
      | error q => rw [h2] at this; cases u <;> exact this.elim
      | ok v =>
        rw [h2] at this
        cases u with
        | none =>
          cases v with
          | none => rfl
          | some v => exact this.elim
        | some u =>
          cases v with
          | none => exact this.elim
          | some v =>
            obtain ⟨m', hm⟩ := this
            simp only
            rw [c71_tree h lib o n m' u v _ _ hm]
            cases buildTreeIn lib o n v { innerType := ty, root := true } with
            | none => rfl
            | some x =>
              cases x with
              | error p => rfl
              | ok y => simp [Except.map]

theorem tree_height {h : Heap} : ∀ (m : Nat) {i : NodeId} {t : Tree}, h.toTree? m i = some t → t.height ≤ m
  | 0, _, _, ht => by cases ht
  | m + 1, i, t, ht => by
    unfold Heap.toTree? at ht
    simp only at ht
    split at ht
    · simp only [Option.some.injEq] at ht
      subst ht
      simp [Tree.height]
    · split at ht
      · rename_i ts hts
        simp only [Option.some.injEq] at ht
        subst ht
        simp only [Tree.height]
        suffices Tree.heights ts ≤ m by omega
        rcases Nat.lt_or_ge m (Tree.heights ts) with hl | hl
        · obtain ⟨u, h1, h2⟩ := (le_heights (n := m) ts).1 hl
          obtain ⟨a, _, h3⟩ := optAll_back hts u h1
          have := tree_height m h3
          omega
        · exact hl
      · cases ht

theorem target_height {t u : Tree} {ty : InnerType} (h : buildTarget t ty = .ok (some u)) : u.height ≤ t.height := by
  have self : ∀ {x : Option Tree}, (Except.ok (some t) : RRes (Option Tree)) = .ok x → x = some u → u.height ≤ t.height := by
    intro x h1 h2; cases h1; cases h2; exact Nat.le_refl _
  unfold buildTarget at h
  split at h
  · split at h
    · cases t with
      | mk d e cs =>
        cases cs with
        | none => cases h
        | some ts =>
          simp only [Tree.childs] at h
          split at h
          · cases h
          · rename_i c hc
            cases h
            rcases findOnlyTag_mem ts none u hc with q | q
            · cases q
            · have q := q.1
              simp only [Tree.height]
              have hp : 1 ≤ u.height := by cases u with | mk d e cs => cases cs <;> simp [Tree.height]
              have := (le_heights (n := u.height - 1) ts).2 ⟨u, q, by omega⟩
              omega
          · split at h <;> cases h
    · split at h
      · split at h
        · cases h
        · exact self h rfl
      · split at h
        · cases h
        · exact self h rfl
  · exact self h rfl

theorem buildIn_fits {t : Tree} {n : Nat} (hn : t.height ≤ n) (lib : EntityLib) (o : RenderOptions) (it : Bool) :
    buildIn n lib t o it = some (build lib t o it) := by
  unfold buildIn build
  cases innerTypeOf o it with
  | error p => rfl
  | ok ty =>
    simp only
    cases h : buildTarget t ty with
    | error p => rfl
    | ok x =>
      cases x with
      | none => rfl
      | some u =>
        simp only
        rw [(build_fits lib o).1 u n _ (Nat.le_trans (target_height h) hn)]
        rfl

/-! ## Only trees can be rendered -/

theorem forestAt_ok {f : NodeId → RenderStatus → Str → Option (RRes (RenderStatus × Str))} :
    ∀ (ids : List NodeId) (st : RenderStatus) (result : Str) x, forestAt f ids st result = some (.ok x) →
      ∀ i ∈ ids, ∃ st result y, f i st result = some (.ok y)
  | [], _, _, _, _, i, hi => by cases hi
  | j :: ids, st, result, x, h, i, hi => by
    unfold forestAt at h
    split at h
    · cases h
    · cases h
    · rename_i st' result' hj
      rcases List.mem_cons.1 hi with rfl | hi
      · exact ⟨st, result, _, hj⟩
      · exact forestAt_ok ids st' result' x h i hi

theorem optAll_of {α β : Type} {f : α → Option β} {l : List α} (h : ∀ a ∈ l, ∃ b, f a = some b) : ∃ bs, optAll f l = some bs := by
  obtain ⟨bs, h1, _⟩ := optAll_some (f := f) (P := fun _ => True) (l := l) fun a ha => by
    obtain ⟨b, hb⟩ := h a ha
    exact ⟨b, hb, trivial⟩
  exact ⟨bs, h1⟩

theorem buildTreeAt_ok {h : Heap} {lib : EntityLib} {o : RenderOptions} : ∀ (n : Nat) (i : NodeId) (st : RenderStatus) (result : Str) x,
    h.buildTreeAt lib o n i st result = some (.ok x) → ∃ t, h.toTree? n i = some t
  | 0, _, _, _, _, hb => by cases hb
  | n + 1, i, st, result, x, hb => by
    unfold Heap.toTree?
    unfold Heap.buildTreeAt at hb
    cases hc : (h.cell i).childs with
    | none => simp only [hc]; exact ⟨_, rfl⟩
    | some ids =>
      simp only [hc]
      have hk : ∃ ts, optAll (h.toTree? n) ids = some ts := by
        apply optAll_of
        cases h1 : buildNode lib o (h.cell i).toNodeD st with
        | error p => rw [h1] at hb; cases hb
        | ok y =>
          obtain ⟨st1, out⟩ := y
          rw [h1] at hb
          simp only [hc] at hb
          intro a ha
          by_cases hr : st1.root = true
          · simp only [hr, if_true] at hb
            cases h2 : forestAt (h.buildTreeAt lib o n) ids { st1 with root := false } (result ++ out) with
            | none => rw [h2] at hb; cases hb
            | some z =>
              cases z with
              | error p => rw [h2] at hb; cases hb
              | ok z =>
                obtain ⟨st2, r2, y2, h3⟩ := forestAt_ok ids _ _ z h2 a ha
                exact buildTreeAt_ok n a st2 r2 y2 h3
          · simp only [hr, Bool.false_eq_true, if_false] at hb
            cases h2 : forestAt (h.buildTreeAt lib o n) ids st1 (result ++ out) with
            | none => rw [h2] at hb; cases hb
            | some z =>
              cases z with
              | error p => rw [h2] at hb; cases hb
              | ok z =>
                obtain ⟨st2, r2, y2, h3⟩ := forestAt_ok ids _ _ z h2 a ha
                exact buildTreeAt_ok n a st2 r2 y2 h3
      obtain ⟨ts, hts⟩ := hk
      rw [hts]
      exact ⟨_, rfl⟩

/-- **C71**: in any heap, rendering a node gives a text if and only if the node denotes a tree that the stack has room for
and rendering that tree gives this text. -/
theorem c71_exact (h : Heap) (n : Nat) (lib : EntityLib) (i : NodeId) (o : RenderOptions) (ho : o.innerHtml = false) (r : Str) :
    h.buildAt n lib i o false = some (.ok r) ↔ ∃ t, h.toTree? n i = some t ∧ build lib t o false = .ok r := by
  constructor
  · intro hb
    have ht : ∃ t, h.toTree? n i = some t := by
      unfold Heap.buildAt at hb
      simp only [innerTypeOf, ho, Bool.false_eq_true, if_false, Heap.buildTargetAt, reduceCtorEq, or_self] at hb
      split at hb
      · cases hb
      · cases hb
      · rename_i h1; exact buildTreeAt_ok n i _ _ _ h1
    obtain ⟨t, ht⟩ := ht
    refine ⟨t, ht, ?_⟩
    rw [c71_build ht, buildIn_fits (tree_height n ht)] at hb
    exact Option.some.inj hb
  · rintro ⟨t, ht, hb⟩
    rw [c71_build ht, buildIn_fits (tree_height n ht), hb]

/-- **C71**: a node with a chain of children of every length, such as a node below itself, is never rendered, however
large the stack is. -/
theorem c71_cycle {h : Heap} {i : NodeId} (hc : ∀ k, Chain (Child h) i (k + 1)) (n : Nat) (lib : EntityLib) (o : RenderOptions)
    (ho : o.innerHtml = false) (r : Str) : h.buildAt n lib i o false ≠ some (.ok r) := by
  intro hb
  obtain ⟨t, ht, _⟩ := (c71_exact h n lib i o ho r).1 hb
  have := (tree_chain n ht t.height).1 (hc _)
  omega

/-! ## Parsed documents -/

/-- **C71**: every node of a parsed document is rendered as the tree it denotes, with all options; for the root that is what
`render` and `render_text` of the model say. -/
theorem c71_parsed {s : Str} {o : ParseOptions} {d : Doc} (h : Doc.parse s o = .ok d) (lib : EntityLib) (ro : RenderOptions) :
    (∀ x, InDoc d.heap d.root x → ∃ t, d.heap.toTree? d.heap.size x = some t ∧
      ∀ n it, d.heap.size ≤ n → d.heap.buildAt n lib x ro it = some (build lib t ro it)) ∧
    (∀ n, d.heap.size ≤ n → d.heap.buildAt n lib d.root ro false = some (d.render lib ro) ∧
      d.heap.buildAt n lib d.root ro true = some (d.renderText lib ro)) ∧
    (∀ n, d.heap.buildAt n lib d.root ro false = d.renderIn n lib ro) := by
  obtain ⟨g0, g1, g2, g3, g4, _⟩ := parse_graph h
  have htree : ∀ x, InDoc d.heap d.root x → ∃ t, d.heap.toTree? d.heap.size x = some t := by
    intro x hx
    rw [g0] at hx
    have hl := (g3.inDoc_lt g1 hx).2
    have hty : (d.heap.cell x).nodeType ≠ .tagEnd := by
      cases hx with
      | root => rw [g2]; simp
      | child hp hc hm => exact (g3.kind _ _ (g3.inDoc_lt g1 hp).2 (by rw [kids_some hc]; exact hm)).1
    obtain ⟨t, h1, _⟩ := toTree_spec g3 (fun _ => True) (fun _ _ _ => trivial) (fun _ _ _ _ => trivial) d.heap.size x hl hty (by omega)
    exact ⟨t, h1⟩
  have hall : ∀ x, InDoc d.heap d.root x → ∃ t, d.heap.toTree? d.heap.size x = some t ∧
      ∀ n it, d.heap.size ≤ n → d.heap.buildAt n lib x ro it = some (build lib t ro it) := by
    intro x hx
    obtain ⟨t, ht⟩ := htree x hx
    exact ⟨t, ht, fun n it hn => by rw [c71_build ht, buildIn_fits (Nat.le_trans (tree_height _ ht) hn)]⟩
  obtain ⟨t, ht, hb⟩ := hall d.root .root
  have hd : d.tree? = some t := ht
  refine ⟨hall, fun n hn => ?_, fun n => ?_⟩
  · unfold Doc.render Doc.renderText
    rw [hd]
    exact ⟨hb n false hn, hb n true hn⟩
  · unfold Doc.renderIn
    rw [hd]
    exact c71_build ht n lib ro false

/-- A document, one of its elements, the inner text of it, and the same with too little room; then a node below itself. -/
example : (match Doc.parse "<p>a<b>c</b> </p>".toList {} with
    | .ok d => some (stackTag (d.heap.buildAt 9 toyLib d.root {} false), stackTag (d.heap.buildAt 9 toyLib 3 {} false),
        stackTag (d.heap.buildAt 9 toyLib 1 {} true), stackTag (d.heap.buildAt 3 toyLib 0 {} false))
    | _ => none) = some ("<p>a<b>c</b> </p>", "<b>c</b>", "ac ", "overflow") := by decide +kernel

example : Chain (Child (Heap.mk 1 fun _ => { Cell.new .abstractRoot 0 with childs := some [0] })) 0 3 :=
  .more (b := 0) ⟨[0], rfl, by simp⟩ (.more (b := 0) ⟨[0], rfl, by simp⟩ (.one 0))

example : ∀ n lib r, (Heap.mk 1 fun _ => { Cell.new .abstractRoot 0 with childs := some [0] }).buildAt n lib 0 {} false ≠ some (.ok r) := by
  intro n lib r
  refine c71_cycle (fun k => ?_) n lib {} rfl r
  induction k with
  | zero => exact .one 0
  | succ k ih => exact .more (b := 0) ⟨[0], rfl, by simp⟩ ih

end Rphtml
