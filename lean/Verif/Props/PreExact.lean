import Verif.Spec.Linear
import Verif.Props.Pre

/-!
# C29: exactly which texts minify_spaces leaves alone
-/

namespace Rphtml
open Spec

theorem startsPre_not_endsPre {n : NodeD} (h : startsPre n = true) : endsPre n = false := by
  unfold startsPre at h
  unfold endsPre
  simp only [Bool.decide_and, Bool.and_eq_true, decide_eq_true_eq] at h
  simp [h.1]

theorem openPre_nil : openPre [] = false := rfl

theorem openPre_snoc (before : List NodeD) (n : NodeD) :
    openPre (before ++ [n]) = if startsPre n then true else if endsPre n then false else openPre before := by
  unfold openPre
  simp only [List.reverse_append, List.reverse_cons, List.reverse_nil, List.nil_append, List.cons_append, List.find?_cons]
  cases h1 : startsPre n with
  | true => simp [h1]
  | false =>
    cases h2 : endsPre n with
    | true => simp [h1]
    | false => simp

theorem Spec.openPre_iff (before : List NodeD) : openPre before = true ↔ afterPre before := by
  suffices h : ∀ l : List NodeD, openPre l.reverse = true ↔ afterPre l.reverse by
    have := h before.reverse
    rwa [List.reverse_reverse] at this
  intro l
  induction l with
  | nil =>
    simp only [List.reverse_nil, openPre_nil, Bool.false_eq_true, false_iff]
    rintro ⟨a, n, b, h, _⟩
    simp at h
  | cons n l ih =>
    rw [List.reverse_cons, openPre_snoc]
    cases h1 : startsPre n with
    | true =>
      simp only [if_true, true_iff]
      exact ⟨l.reverse, n, [], rfl, h1, by simp⟩
    | false =>
      simp only [Bool.false_eq_true, if_false]
      have key : afterPre (l.reverse ++ [n]) ↔ endsPre n = false ∧ afterPre l.reverse := by
        constructor
        · rintro ⟨a, m, b, h, h2, h3⟩
          rcases List.eq_nil_or_concat b with rfl | ⟨b', z, rfl⟩
          · obtain ⟨_, h5⟩ := List.append_inj' h rfl
            cases h5
            rw [h1] at h2; cases h2
          · have h4 : l.reverse ++ [n] = (a ++ m :: b') ++ [z] := by rw [h]; simp
            obtain ⟨h5, h6⟩ := List.append_inj' h4 rfl
            cases h6
            exact ⟨h3 n (by simp), a, m, b', h5, h2, fun x hx => h3 x (by simp [hx])⟩
        · rintro ⟨h2, a, m, b, h3, h4, h5⟩
          refine ⟨a, m, b ++ [n], by rw [h3]; simp, h4, ?_⟩
          intro x hx
          rcases List.mem_append.1 hx with hx | hx
          · exact h5 x hx
          · rw [List.mem_singleton.1 hx]; exact h2
      rw [key]
      cases h2 : endsPre n with
      | true => simp
      | false => simp [ih]

/-- Rendering a sequence of nodes. -/
def buildLine (lib : EntityLib) (o : RenderOptions) : List NodeD → RenderStatus → RRes (RenderStatus × Str)
  | [], st => .ok (st, [])
  | n :: ns, st => do
    let (st, out1) ← buildNode lib o n st
    let (st, out2) ← buildLine lib o ns st
    .ok (st, out1 ++ out2)

theorem buildLine_append (lib : EntityLib) (o : RenderOptions) : ∀ (a b : List NodeD) (st : RenderStatus),
    buildLine lib o (a ++ b) st = (do
      let (st, out1) ← buildLine lib o a st
      let (st, out2) ← buildLine lib o b st
      .ok (st, out1 ++ out2))
  | [], b, st => by
    simp only [List.nil_append, buildLine, Except.bind_ok']
    cases buildLine lib o b st with
    | error s => rfl
    | ok x => rfl
  | n :: a, b, st => by
    simp only [List.cons_append, buildLine]
    cases buildNode lib o n st with
    | error s => rfl
    | ok x =>
      simp only [Except.bind_ok', buildLine_append lib o a b]
      cases buildLine lib o a x.1 with
      | error s => rfl
      | ok y =>
        simp only [Except.bind_ok']
        cases buildLine lib o b y.1 with
        | error s => rfl
        | ok z => simp only [Except.bind_ok', List.append_assoc]

theorem buildNode_root {lib : EntityLib} {o : RenderOptions} {n : NodeD} {st st' : RenderStatus} {out : Str}
    (h : buildNode lib o n st = .ok (st', out)) : st'.root = st.root ∧ st'.innerType = st.innerType := by
  obtain ⟨ix, ty, b, e, ct, tm⟩ := n
  cases ty <;> simp only [buildNode] at h
  all_goals
    repeat' split at h
    all_goals first
      | (cases h; done)
      | (cases h; exact ⟨rfl, rfl⟩)
      | (simp only [Except.ok.injEq, Prod.mk.injEq] at h; rw [← h.1]; first | exact ⟨rfl, rfl⟩ | (split <;> exact ⟨rfl, rfl⟩))

theorem buildLine_root {lib : EntityLib} {o : RenderOptions} : ∀ {ns : List NodeD} {st st' : RenderStatus} {out : Str},
    buildLine lib o ns st = .ok (st', out) → st'.root = st.root ∧ st'.innerType = st.innerType
  | [], st, st', out, h => by
    simp only [buildLine, Except.ok.injEq, Prod.mk.injEq] at h
    rw [← h.1]; exact ⟨rfl, rfl⟩
  | n :: ns, st, st', out, h => by
    simp only [buildLine] at h
    cases hb : buildNode lib o n st with
    | error s => rw [hb] at h; cases h
    | ok x =>
      rw [hb] at h
      simp only [Except.bind_ok'] at h
      cases hb2 : buildLine lib o ns x.1 with
      | error s => rw [hb2] at h; cases h
      | ok y =>
        rw [hb2] at h
        simp only [Except.bind_ok', Except.ok.injEq, Prod.mk.injEq] at h
        have h1 := buildNode_root (st' := x.1) (out := x.2) hb
        have h2 := buildLine_root (st' := y.1) (out := y.2) hb2
        rw [← h.1, h2.1, h2.2]
        exact h1

/-- Below the root, a tree is rendered node by node in document order. -/
theorem buildTree_line (lib : EntityLib) (o : RenderOptions) :
    (∀ t : Tree, ∀ st : RenderStatus, st.root = false → buildTree lib o t st = buildLine lib o (linear t) st) ∧
    (∀ ts : List Tree, ∀ st : RenderStatus, st.root = false → buildForest lib o ts st = buildLine lib o (linears ts) st) := by
  have hend : ∀ (e : Option NodeD) (st : RenderStatus), buildEnd lib o e st = buildLine lib o e.toList st := by
    intro e st
    cases e with
    | none => rfl
    | some x =>
      simp only [buildEnd, Option.toList_some, buildLine]
      cases buildNode lib o x st with
      | error s => rfl
      | ok y => simp only [Except.bind_ok', List.append_nil]
  apply Tree.induct
  · intro d e st _
    simp only [buildTree, linear, buildLine]
    cases buildNode lib o d st with
    | error s => rfl
    | ok x => simp only [Except.bind_ok', hend, List.append_nil]
  · intro d e ts ih st hr
    simp only [buildTree, linear, buildLine]
    cases hb : buildNode lib o d st with
    | error s => rfl
    | ok x =>
      have hr' : x.1.root = false := by rw [(buildNode_root (st' := x.1) (out := x.2) hb).1]; exact hr
      simp only [Except.bind_ok', hr', Bool.false_eq_true, if_false, ih _ hr', buildLine_append, hend]
      cases buildLine lib o (linears ts) x.1 with
      | error s => rfl
      | ok y =>
        simp only [Except.bind_ok']
        cases buildLine lib o e.toList y.1 with
        | error s => rfl
        | ok z => simp only [Except.bind_ok', List.append_assoc]
  · intro st _; rfl
  · intro t ts h1 h2 st hr
    simp only [buildForest, linears, buildLine_append, h1 st hr]
    cases hb : buildLine lib o (linear t) st with
    | error s => rfl
    | ok x =>
      have hr' : x.1.root = false := by rw [(buildLine_root (st' := x.1) (out := x.2) hb).1]; exact hr
      simp only [Except.bind_ok', h2 _ hr']

theorem linear_printable : (∀ t : Tree, t.shaped → ∀ n ∈ linear t, printable n) ∧
    (∀ ts : List Tree, Tree.shapeds ts → ∀ n ∈ linears ts, printable n) := by
  have hnode : ∀ d e cs, (Tree.mk d e cs).shaped → printable d ∧ ∀ x ∈ e.toList, printable x := by
    intro d e cs hs
    unfold Tree.shaped at hs
    unfold printable
    cases ht : d.nodeType <;> simp only [ht] at hs ⊢ <;> try (obtain ⟨h1, rfl, _⟩ := hs; simp [h1]; done)
    obtain ⟨h1, h2, _⟩ := hs
    refine ⟨h1, ?_⟩
    intro x hx
    obtain ⟨h3, h4⟩ := h2 x (by simpa using hx)
    simp only [h3]; exact h4
  have hkids : ∀ d e ts, (Tree.mk d e (some ts)).shaped → Tree.shapeds ts := by
    intro d e ts hs
    unfold Tree.shaped at hs
    cases ht : d.nodeType <;> simp only [ht] at hs
    all_goals first | exact hs.2.2 | (obtain ⟨_, _, h⟩ := hs; cases h)
  apply Tree.induct
  · intro d e hs n hn
    simp only [linear, List.mem_cons] at hn
    rcases hn with rfl | hn
    · exact (hnode _ _ _ hs).1
    · exact (hnode _ _ _ hs).2 n hn
  · intro d e ts ih hs n hn
    simp only [linear, List.mem_cons, List.mem_append] at hn
    rcases hn with rfl | hn | hn
    · exact (hnode _ _ _ hs).1
    · exact ih (hkids _ _ _ hs) n hn
    · exact (hnode _ _ _ hs).2 n hn
  · intro _ n hn; cases hn
  · intro t ts h1 h2 hs n hn
    simp only [linears, List.mem_append] at hn
    rcases hn with hn | hn
    · exact h1 hs.1 n hn
    · exact h2 hs.2 n hn

/-- What a node below the root is rendered as, without minify_spaces. -/
def nodeText (lib : EntityLib) (o : RenderOptions) (n : NodeD) : Str :=
  match buildNode lib { o with minifySpaces := false } n {} with
  | .ok x => x.2
  | .error _ => []

theorem buildNode_text (lib : EntityLib) (o : RenderOptions) {n : NodeD} (hn : printable n) (st : RenderStatus)
    (h1 : st.root = false) (h2 : st.innerType = .none) :
    ∃ st', buildNode lib { o with minifySpaces := false } n st = .ok (st', nodeText lib o n) ∧
      st'.isInPre = if startsPre n then true else if endsPre n then false else st.isInPre := by
  obtain ⟨ity, inp, rt⟩ := st
  simp only at h1 h2
  subst h1 h2
  obtain ⟨ix, ty, b, e, ct, tm⟩ := n
  cases ty with
  | text =>
    cases ct with
    | none => exact absurd rfl hn
    | some w =>
      exact ⟨⟨.none, inp, false⟩, by simp only [nodeText, buildNode, buildText, Bool.and_false, Bool.false_eq_true, if_false],
        by simp [startsPre, endsPre]⟩
  | spacesBetweenTag =>
    cases ct with
    | none => exact absurd rfl hn
    | some w =>
      exact ⟨⟨.none, inp, false⟩, by simp only [nodeText, buildNode, Bool.and_false, Bool.false_eq_true, if_false],
        by simp [startsPre, endsPre]⟩
  | tag =>
    cases tm with
    | none => exact absurd rfl hn
    | some m =>
      refine ⟨_, by simp only [nodeText, buildNode, RenderStatus.needTag]; rfl, ?_⟩
      · simp only [startsPre, endsPre, isPre_iff']
        by_cases h : isPre m.name <;> simp [h]
  | tagEnd =>
    cases ct with
    | none => exact absurd rfl hn
    | some w =>
      refine ⟨_, by simp only [nodeText, buildNode, RenderStatus.needTag]; rfl, ?_⟩
      · simp only [startsPre, endsPre, isPre_iff', charsTrimEnd_eq]
        by_cases h : isPre (trimEnd w) <;> cases inp <;> simp [h]
  | htmlDoctype =>
    cases tm with
    | none => exact absurd rfl hn
    | some m =>
      exact ⟨_, by simp only [nodeText, buildNode]; rfl, by simp [startsPre, endsPre]⟩
  | comment =>
    cases hc : o.removeComment with
    | true => exact ⟨_, by simp only [nodeText, buildNode, hc]; rfl, by simp [startsPre, endsPre]⟩
    | false => exact ⟨_, by simp only [nodeText, buildNode, hc]; rfl, by simp [startsPre, endsPre]⟩
  | xmlCdata => exact ⟨_, by simp only [nodeText, buildNode]; rfl, by simp [startsPre, endsPre]⟩
  | abstractRoot => exact ⟨_, by simp only [nodeText, buildNode]; rfl, by simp [startsPre, endsPre]⟩

theorem squeeze_printable {n : NodeD} (h : printable n) : printable (squeeze n) ∧ startsPre (squeeze n) = startsPre n ∧
    endsPre (squeeze n) = endsPre n := by
  obtain ⟨ix, ty, b, e, ct, tm⟩ := n
  cases ty
  case text =>
    refine ⟨?_, by simp [startsPre, squeeze], by simp [endsPre, squeeze]⟩
    simp only [printable, squeeze, ne_eq, Option.map_eq_none_iff] at h ⊢
    exact h
  case spacesBetweenTag =>
    exact ⟨by simp [printable, squeeze], by simp [startsPre, squeeze], by simp [endsPre, squeeze]⟩
  all_goals exact ⟨h, rfl, rfl⟩

theorem buildLine_plain (lib : EntityLib) (o : RenderOptions) : ∀ (ns : List NodeD) (st : RenderStatus),
    (∀ n ∈ ns, printable n) → st.root = false → st.innerType = .none →
    ∃ st', buildLine lib { o with minifySpaces := false } ns st = .ok (st', ns.flatMap (nodeText lib o))
  | [], st, _, _, _ => ⟨st, rfl⟩
  | n :: ns, st, hf, h1, h2 => by
    obtain ⟨st1, k1, _⟩ := buildNode_text lib o (hf n (by simp)) st h1 h2
    obtain ⟨r1, r2⟩ := buildNode_root k1
    obtain ⟨st2, k2⟩ := buildLine_plain lib o ns st1 (fun x hx => hf x (by simp [hx])) (by rw [r1, h1]) (by rw [r2, h2])
    exact ⟨st2, by simp only [buildLine, k1, Except.bind_ok', k2, List.flatMap_cons]⟩

theorem buildLine_squeezed (lib : EntityLib) (o : RenderOptions) (hm : o.minifySpaces = true) (hd : o.decodeEntity = false) :
    ∀ (ns before : List NodeD) (st : RenderStatus), (∀ n ∈ ns, printable n) → st.root = false → st.innerType = .none →
    st.isInPre = openPre before →
    ∃ st', buildLine lib o ns st = .ok (st', (squeezed before ns).flatMap (nodeText lib o))
  | [], before, st, _, _, _, _ => ⟨st, rfl⟩
  | n :: ns, before, st, hf, h1, h2, hp => by
    have hn := hf n (by simp)
    have hn' : printable (if openPre before then n else squeeze n) := by
      split
      · exact hn
      · exact (squeeze_printable hn).1
    obtain ⟨st1, k1, k3⟩ := buildNode_text lib o hn' st h1 h2
    obtain ⟨r1, r2⟩ := buildNode_root k1
    have k4 : st1.isInPre = openPre (before ++ [n]) := by
      rw [k3, openPre_snoc, hp]
      cases openPre before with
      | true => rfl
      | false => simp only [Bool.false_eq_true, if_false, (squeeze_printable hn).2.1, (squeeze_printable hn).2.2]
    obtain ⟨st2, k2⟩ := buildLine_squeezed lib o hm hd ns (before ++ [n]) st1 (fun x hx => hf x (by simp [hx])) (by rw [r1, h1])
      (by rw [r2, h2]) k4
    refine ⟨st2, ?_⟩
    have hb := buildNode_squeeze lib hm hd n st
    rw [hp] at hb
    simp only [buildLine, squeezed, hb, k1, Except.bind_ok', k2, List.flatMap_cons]

/-- **C29**, exactly, for every tree: with `minify_spaces` (and any other options but `decode_entity` and `inner_html`) each
text is collapsed and each whitespace-only node is dropped, unless it comes after a `pre` start tag with no `pre` end tag in
between (`openPre`, which is `afterPre`); nothing else changes.  `f` is what a node is rendered as without the option.
So the claim fails exactly where this differs from being below a `pre` element. -/
theorem c29_exact (lib : EntityLib) (o : RenderOptions) (hm : o.minifySpaces = true) (hd : o.decodeEntity = false)
    (hi : o.innerHtml = false) : ∃ f : NodeD → Str,
    (∀ n w, n.nodeType = .text ∨ n.nodeType = .spacesBetweenTag → n.content = some w → f n = w) ∧
    ∀ t : Tree, t.data.nodeType = .abstractRoot → t.endTag = none → Tree.shapeds t.kids →
      build lib t { o with minifySpaces := false } false = .ok ((linears t.kids).flatMap f) ∧
      build lib t o false = .ok ((squeezed [] (linears t.kids)).flatMap f) := by
  refine ⟨nodeText lib o, ?_, ?_⟩
  · intro n w hty hc
    rcases hty with hty | hty <;> simp [nodeText, buildNode, buildText, hty, hc, hd]
  · intro t hroot hend hshape
    obtain ⟨n, e, cs⟩ := t
    simp only [Tree.data] at hroot
    simp only [Tree.endTag] at hend
    subst hend
    have hb : ∀ (o : RenderOptions) (st : RenderStatus), buildNode lib o n st = .ok (st, []) := by
      intro o st; unfold buildNode; simp only [hroot]
    unfold build innerTypeOf buildTarget
    simp only [hi, Bool.false_eq_true, if_false, reduceCtorEq, or_self]
    cases cs with
    | none =>
      simp only [buildTree, hb, Except.bind_ok', buildEnd, Tree.kids, Option.getD_none, linears, squeezed]
      exact ⟨rfl, rfl⟩
    | some ts =>
      have hf : ∀ n ∈ linears ts, printable n := linear_printable.2 ts hshape
      obtain ⟨st1, k1⟩ := buildLine_plain lib o (linears ts) { innerType := .none, root := false } hf rfl rfl
      obtain ⟨st2, k2⟩ := buildLine_squeezed lib o hm hd (linears ts) [] { innerType := .none, root := false } hf rfl rfl rfl
      have l1 := (buildTree_line lib { o with minifySpaces := false }).2 ts { innerType := .none, root := false } rfl
      have l2 := (buildTree_line lib o).2 ts { innerType := .none, root := false } rfl
      rw [k1] at l1
      rw [k2] at l2
      simp only [hi] at l1
      simp only [buildTree, hb, Except.bind_ok', buildEnd, if_true, l1, l2, Tree.kids, Option.getD_some,
        List.nil_append, List.append_nil]
      exact ⟨rfl, rfl⟩

/-- After a nested `pre` has ended, the rest of the outer one is collapsed, and a self-closed `pre` protects what follows. -/
example : rendersTo "<pre>a  b<pre> </pre>c  d</pre>" "<pre>a  b<pre> </pre>c d</pre>" {} { minifySpaces := true } = true ∧
    rendersTo "<pre/>a  b" "<pre />a  b" { allowSelfClosing := true } { minifySpaces := true } = true := by decide +kernel

end Rphtml
