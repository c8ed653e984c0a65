import Verif.Proofs.RecodeTree
import Verif.Spec.Inner
import Verif.Props.Recode

/-!
# Rendering the inside of an element
-/

namespace Rphtml
open Spec

/-- Without the entity options, being inside a `pre` changes nothing. -/
theorem line_pre (lib : EntityLib) {ro : RenderOptions} (h1 : ro.minifySpaces = false) :
    ∀ (ns : List NodeD) (st : RenderStatus) (b : Bool),
      (buildLine lib ro ns { st with isInPre := b }).map Prod.snd = (buildLine lib ro ns st).map Prod.snd
  | [], _, _ => rfl
  | n :: ns, st, b => by
    have hb : ∃ (b' : Bool), buildNode lib ro n { st with isInPre := b } =
        (buildNode lib ro n st).map fun x => ({ x.1 with isInPre := b' }, x.2) := by
      obtain ⟨ix, ty, bg, e, ct, tm⟩ := n
      cases ty
      case text =>
        refine ⟨b, ?_⟩
        cases ct with
        | none => rfl
        | some w => simp [buildNode, buildText, h1, Except.map]
      case tag =>
        cases tm with
        | none => exact ⟨b, rfl⟩
        | some m => exact ⟨_, rfl⟩
      case tagEnd =>
        cases ct with
        | none => exact ⟨b, rfl⟩
        | some w =>
          refine ⟨if b && isEqualChars (charsTrimEnd w) preTagName (some .lower) then false else b, ?_⟩
          simp only [buildNode, RenderStatus.needTag, Except.map]
          generalize isEqualChars (charsTrimEnd w) preTagName (some .lower) = q
          obtain ⟨ty, p, r⟩ := st
          cases b <;> cases p <;> cases q <;> rfl
      case spacesBetweenTag =>
        refine ⟨b, ?_⟩
        simp only [buildNode, h1, Bool.and_false, Bool.false_eq_true, if_false]
        cases ct <;> rfl
      case htmlDoctype => refine ⟨b, ?_⟩; cases tm <;> rfl
      case comment =>
        refine ⟨b, ?_⟩
        simp only [buildNode]
        repeat' split
        all_goals first | rfl | simp_all [Except.map]
      case xmlCdata =>
        refine ⟨b, ?_⟩
        simp only [buildNode]
        repeat' split
        all_goals first | rfl | simp_all [Except.map]
      case abstractRoot => exact ⟨b, rfl⟩
    obtain ⟨b', hb⟩ := hb
    simp only [buildLine, hb]
    cases hx : buildNode lib ro n st with
    | error s => rfl
    | ok x =>
      simp only [Except.map, Except.bind_ok']
      have := line_pre lib h1 ns x.1 b'
      simp only [Except.map] at this
      cases h2 : buildLine lib ro ns { x.1 with isInPre := b' } <;> cases h3 : buildLine lib ro ns x.1 <;> rw [h2, h3] at this <;>
        simp_all [bind, Except.bind]

/-- The inner html of an element. -/
theorem inner_split (lib : EntityLib) {ro : RenderOptions} (hi : ro.innerHtml = true) (hm : ro.minifySpaces = false)
    (hc : ro.encodeContent = false) {d : NodeD} {e : Option NodeD} {cs : Option (List Tree)} (hd : d.nodeType = .tag)
    (hs : (Tree.mk d e cs).shaped) :
    build lib (.mk d e cs) ro false =
      (buildLine lib ro (linears (Tree.kids (.mk d e cs))) { innerType := .none, root := false }).map fun x => d.content.getD [] ++ x.2 := by
  have hro : ro = { ro with innerHtml := true } := by cases ro; simp_all
  rw [hro, build_inner lib ro (.mk d e cs) hd, ← hro]
  have hmeta : d.tmeta ≠ none := by
    unfold Tree.shaped at hs; simp only [hd] at hs; exact hs.1
  obtain ⟨m, hmm⟩ := Option.ne_none_iff_exists'.1 hmeta
  have h3 : ∃ pre, buildNode lib ro d { innerType := .html, root := true } =
      .ok ({ innerType := .html, isInPre := pre, root := true }, d.content.getD []) := by
    refine ⟨isEqualChars m.name preTagName (some .lower), ?_⟩
    simp only [buildNode, hd, hmm, hc, RenderStatus.needTag, if_true, reduceCtorEq, decide_false, Bool.false_eq_true, if_false,
      List.nil_append, Bool.false_or, Bool.false_and]
    cases d.content <;> rfl
  obtain ⟨pre, h3⟩ := h3
  have hend : ∃ st, buildEnd lib ro e { innerType := .html, isInPre := pre, root := true } = .ok (st, []) := by
    cases e with
    | none => exact ⟨_, rfl⟩
    | some x =>
      obtain ⟨g1, g2⟩ := shaped_end hs rfl
      obtain ⟨c, g3⟩ := Option.ne_none_iff_exists'.1 g2
      simp only [buildEnd, buildNode, g1, g3, RenderStatus.needTag, if_true, reduceCtorEq, decide_false, Bool.false_eq_true, if_false]
      exact ⟨_, rfl⟩
  obtain ⟨st, hend⟩ := hend
  cases cs with
  | none => simp [buildTree, h3, hend, Except.bind_ok', Tree.kids, linears, buildLine, Except.map]
  | some ts =>
    have hh := (inner_none_html lib ro).2 ts pre
    have hl := line_pre lib hm (linears ts) { innerType := .none, root := false } pre
    rw [(buildTree_line lib ro).2 ts { innerType := .none, isInPre := pre, root := false } rfl] at hh
    simp only [buildTree, h3, Except.bind_ok', if_true, hh, Tree.kids, Option.getD_some]
    simp only at hl
    cases h4 : buildLine lib ro (linears ts) { innerType := .none, isInPre := pre, root := false } with
    | error s =>
      cases h5 : buildLine lib ro (linears ts) { innerType := .none, root := false } with
      | error s' =>
        rw [h4, h5] at hl
        simp only [Except.map, Except.error.injEq] at hl
        rw [hl]
        rfl
      | ok x => rw [h4, h5] at hl; simp [Except.map] at hl
    | ok y =>
      cases h5 : buildLine lib ro (linears ts) { innerType := .none, root := false } with
      | error s' => rw [h4, h5] at hl; simp [Except.map] at hl
      | ok x =>
        rw [h4, h5] at hl
        simp only [Except.map, Except.ok.injEq] at hl
        simp only [Except.map, Except.bind_ok', asHtml, hend, List.append_nil, hl]

theorem shapeds_mem : ∀ {ts : List Tree}, Tree.shapeds ts → ∀ t ∈ ts, t.shaped
  | [], _, t, h => by cases h
  | _ :: _, h, t, hm => by
    simp only [Tree.shapeds] at h
    rcases List.mem_cons.1 hm with rfl | hm
    · exact h.1
    · exact shapeds_mem h.2 t hm

theorem shaped_sub {c : Tree} (h : c.shaped) : Tree.shapeds c.kids := by
  obtain ⟨d, e, cs⟩ := c
  cases cs with
  | none => trivial
  | some ts => exact shaped_kids h

theorem pnodes_mem : ∀ {ts : List Tree} {t : Tree}, t ∈ ts → t.pnode ∈ Tree.pnodes ts
  | [], t, h => by cases h
  | _ :: _, t, h => by
    simp only [Tree.pnodes]
    rcases List.mem_cons.1 h with rfl | h
    · exact List.mem_cons_self
    · exact List.mem_cons_of_mem _ (pnodes_mem h)

/-- The insides of the nodes of a document are its lists of siblings. -/
theorem part_place {t c : Tree} (hs : Tree.shapeds t.kids) (h : Within c t) :
    (c = t ∨ c.shaped) ∧ Tree.shapeds c.kids ∧ (c.data.nodeType = .tag ∨ c = t → Siblings (Tree.pnodes c.kids) t.doc) := by
  induction h with
  | self => exact ⟨.inl rfl, hs, fun _ => ⟨[], .root⟩⟩
  | @kid t c k hb hk ih =>
    obtain ⟨i1, i2, i3⟩ := ih hs
    have hks := shapeds_mem i2 k hk
    refine ⟨.inr hks, shaped_sub hks, ?_⟩
    intro hq
    have hcs : Siblings (Tree.pnodes c.kids) t.doc := by
      apply i3
      rcases i1 with i1 | i1
      · exact .inr i1
      · left
        obtain ⟨d, e, cs⟩ := c
        cases cs with
        | none => cases hk
        | some ts =>
          unfold Tree.shaped at i1
          simp only [Tree.data]
          cases hd : d.nodeType <;> simp only [hd] at i1
          all_goals first | rfl | (obtain ⟨_, _, q⟩ := i1; cases q)
    rcases hq with hq | hq
    · obtain ⟨anc, ha⟩ := hcs
      have hm := pnodes_mem hk
      obtain ⟨d, e, cs⟩ := k
      simp only [Tree.data] at hq
      have hp : ∃ n as s ct en, (Tree.mk d e cs).pnode = .elem n as s ct (Tree.pnodes (Tree.kids (.mk d e cs))) en := by
        cases cs <;> simp only [Tree.pnode, hq, Tree.kids] <;> exact ⟨_, _, _, _, _, rfl⟩
      obtain ⟨n, as, s, ct, en, hp⟩ := hp
      rw [hp] at hm
      exact ⟨_, .child ha hm⟩
    · rw [hq]; exact ⟨[], .root⟩

theorem occurs_trans {p : PNode} {ks ps : List PNode} (hs : Siblings ks ps) (h : Occurs p ks) : Occurs p ps := by
  obtain ⟨qs, ⟨anc, ha⟩, hm⟩ := h
  obtain ⟨anc', hs⟩ := hs
  refine ⟨qs, ?_, hm⟩
  clear hm
  induction ha with
  | root => exact ⟨_, hs⟩
  | child h hp ih =>
    obtain ⟨a, ih⟩ := ih hs
    exact ⟨_, .child ih hp⟩

theorem optional_mem : ∀ {ps : List PNode}, optionalNodes ps → ∀ p ∈ ps, optionalNode p
  | [], _, p, h => by cases h
  | _ :: _, h, p, hm => by
    simp only [optionalNodes] at h
    rcases List.mem_cons.1 hm with rfl | hm
    · exact h.1
    · exact optional_mem h.2 p hm

theorem optional_at {anc : List Str} {ks ps : List PNode} (h : Spec.At anc ks ps) (ho : optionalNodes ps) : optionalNodes ks := by
  induction h with
  | root => exact ho
  | child h hp ih =>
    have := optional_mem (ih ho) _ hp
    simp only [optionalNode] at this
    exact this.2

/-- An element without a foreign name. -/
def Homely (p : PNode) : Prop := ∀ n as s ct ks e, p = .elem n as s ct ks e → ¬ isForeign n

theorem homely_ctx : (∀ p, allIn Homely p → ctxNode none p = none) ∧ (∀ ps, allsIn Homely ps → ctxNodes none ps = none) := by
  apply PNode.induct
  · intro w _; rfl
  · intro w _; rfl
  · intro w _; rfl
  · intro n as s _; rfl
  · intro n as s ct ks e ih h
    simp only [allIn] at h
    have hn : ¬ isForeign n := h.1 n as s ct ks e rfl
    simp only [ctxNode, enter, if_neg hn, ih h.2]
    split
    · rfl
    · cases e <;> simp [leave]
  · intro _; rfl
  · intro p ps h1 h2 h
    simp only [ctxNodes, h1 h.1, h2 h.2]

/-- A list of children of a document without svg and math is a document. -/
theorem homely_parent {o : ParseOptions} (q q' : Option Str) :
    (∀ p, allIn Homely p → wfNode o none q p → wfNode o none q' p) ∧ (∀ ps, allsIn Homely ps → wfNodes o none q ps → wfNodes o none q' ps) := by
  apply PNode.induct
  · intro w _ h; exact h
  · intro w _ h; exact h
  · intro w _ h; exact absurd rfl h.2.2.1
  · intro n as s _ h; exact h
  · intro n as s ct ks e _ _ h; exact h
  · intro _ _; trivial
  · intro p ps h1 h2 h hw
    simp only [wfNodes, homely_ctx.1 p h.1] at hw ⊢
    exact ⟨h1 h.1 hw.1, hw.2.1, h2 h.2 hw.2.2⟩

theorem wf_mem {o : ParseOptions} {q : Option Str} : ∀ {ps : List PNode}, allsIn Homely ps → wfNodes o none q ps → ∀ p ∈ ps, wfNode o none q p
  | [], _, _, p, h => by cases h
  | a :: _, hh, h, p, hm => by
    simp only [wfNodes, homely_ctx.1 a hh.1] at h
    rcases List.mem_cons.1 hm with rfl | hm
    · exact h.1
    · exact wf_mem hh.2 h.2.2 p hm

theorem homely_place {o : ParseOptions} {anc : List Str} {ks ps : List PNode} (h : Spec.At anc ks ps) (hh : homely ps) (hw : wfDoc o ps) :
    wfDoc o ks := by
  have hall : ∀ {ks}, Siblings ks ps → allsIn Homely ks := by
    intro ks hk
    refine allIn_of_occurs.2 _ ?_
    intro p hp n as s ct ks' e he
    subst he
    exact hh n as s ct ks' e (occurs_trans hk hp)
  induction h with
  | root => exact hw
  | @child anc ks ps n as s ct ks' e h hp ih =>
    have hk := ih hh hw hall
    have he := wf_mem (hall ⟨_, h⟩) hk _ hp
    have hc : Siblings ks' ps := ⟨_, .child h hp⟩
    have hn : ¬ isForeign n := hh n as s ct ks' e ⟨_, ⟨_, h⟩, hp⟩
    simp only [wfNode, enter, if_neg hn] at he
    obtain ⟨_, _, he⟩ := he
    split at he
    · rw [he.2.1]; trivial
    · split at he
      · rw [he.2.1]; trivial
      · split at he
        · rw [he.1]; trivial
        · exact (homely_parent _ _).2 _ (hall hc) he.2.2

end Rphtml
