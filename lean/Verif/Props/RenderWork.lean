import Verif.Proofs.Bare
import Verif.Proofs.RenderCost
import Verif.Props.Tags

/-!
# C65: rendering and cloning take linear time
-/

namespace Rphtml
open Spec

/-- What is known of every node of a parsed document: texts are not empty, only tags and doctypes have names, and
doctypes and the root have no content. -/
structure Filled (n : NodeD) : Prop where
  text : n.nodeType = .text ∨ n.nodeType = .spacesBetweenTag → n.content.getD [] ≠ []
  named : n.tmeta ≠ none → n.nodeType = .tag ∨ n.nodeType = .htmlDoctype
  bare : n.nodeType = .htmlDoctype ∨ n.nodeType = .abstractRoot → n.content = none

theorem parse_filled {s : Str} {o : ParseOptions} {d : Doc} (h : Doc.parse s o = .ok d) : ∃ t, d.tree? = some t ∧ allNodes Filled t := by
  obtain ⟨hroot, h0, ht0, g, ge, _⟩ := parse_graph h
  obtain ⟨d0, hr, he, hh, _, _, _⟩ := parse_ok h
  have hall : ∀ x, x < d.heap.size → Filled (d.heap.cell x).toNodeD := by
    intro x hx
    rw [hh] at hx ⊢
    refine ⟨?_, ?_, hr.finalBare x⟩
    · intro ht
      obtain ⟨w, h1, h2, _⟩ := hr.finalText he x hx ht
      rw [h1]
      exact h2
    · intro hm
      cases hm' : (d0.finalHeap.cell x).tmeta with
      | none => exact absurd hm' hm
      | some m =>
        obtain ⟨k1, k2, m0, k3, _⟩ := final_tmeta hr.ctl hr.tags he hx hm'
        have := hr.tags.kind x k1 (by rw [k3]; simp)
        rw [k2]
        exact this
  unfold Doc.tree?
  rw [hroot]
  refine toTree_spec g Filled (fun x hx _ => hall x hx) (fun x e hx hxe => hall e (ge.down x e hx hxe).2.1) _ 0 h0 ?_ (by omega)
  rw [ht0]; simp

theorem allNodes_linear {P : NodeD → Prop} : (∀ t : Tree, allNodes P t → ∀ n ∈ linear t, P n) ∧
    (∀ ts : List Tree, allForest P ts → ∀ n ∈ linears ts, P n) := by
  apply Tree.induct
  · intro d e h n hn
    simp only [allNodes] at h
    simp only [linear, List.mem_cons] at hn
    rcases hn with rfl | hn
    · exact h.1
    · exact h.2 n (by simpa using hn)
  · intro d e ts ih h n hn
    simp only [allNodes] at h
    simp only [linear, List.mem_cons, List.mem_append] at hn
    rcases hn with rfl | hn | hn
    · exact h.1
    · exact ih h.2.2 n hn
    · exact h.2.1 n (by simpa using hn)
  · intro _ n hn; cases hn
  · intro t ts h1 h2 h n hn
    simp only [linears, List.mem_append] at hn
    rcases hn with hn | hn
    · exact h1 h.1 n hn
    · exact h2 h.2 n hn

theorem shaped_linear : (∀ t : Tree, t.shaped → ∀ n ∈ linear t, n.nodeType ≠ .abstractRoot) ∧
    (∀ ts : List Tree, Tree.shapeds ts → ∀ n ∈ linears ts, n.nodeType ≠ .abstractRoot) := by
  have hnode : ∀ d e cs, (Tree.mk d e cs).shaped → d.nodeType ≠ .abstractRoot ∧ (∀ x ∈ e.toList, x.nodeType ≠ .abstractRoot) ∧
      ∀ ts, cs = some ts → Tree.shapeds ts := by
    intro d e cs hs
    unfold Tree.shaped at hs
    cases ht : d.nodeType <;> simp only [ht] at hs <;> try (obtain ⟨_, rfl, rfl⟩ := hs; simp)
    obtain ⟨_, h2, h3⟩ := hs
    refine ⟨by simp, ?_, ?_⟩
    · intro x hx
      rw [(h2 x (by simpa using hx)).1]
      simp
    · rintro ts rfl
      exact h3
  apply Tree.induct
  · intro d e hs n hn
    simp only [linear, List.mem_cons] at hn
    rcases hn with rfl | hn
    · exact (hnode _ _ _ hs).1
    · exact (hnode _ _ _ hs).2.1 n hn
  · intro d e ts ih hs n hn
    simp only [linear, List.mem_cons, List.mem_append] at hn
    rcases hn with rfl | hn | hn
    · exact (hnode _ _ _ hs).1
    · exact ih ((hnode _ _ _ hs).2.2 _ rfl) n hn
    · exact (hnode _ _ _ hs).2.1 n hn
  · intro _ n hn; cases hn
  · intro t ts h1 h2 hs n hn
    simp only [linears, List.mem_append] at hn
    rcases hn with hn | hn
    · exact h1 hs.1 n hn
    · exact h2 hs.2 n hn

theorem plain_pos {n : NodeD} (h1 : printable n) (h2 : Filled n) (h3 : n.nodeType ≠ .abstractRoot) : 1 ≤ plainLen n := by
  obtain ⟨ix, ty, b, e, ct, tm⟩ := n
  cases ty <;> simp only [plainLen, printable] at h1 h3 ⊢
  · exact absurd rfl h3
  · cases tm with
    | none => exact absurd rfl h1
    | some m => simp only; omega
  · omega
  · have := List.length_pos_iff.2 (h2.text (.inl rfl))
    exact this
  · have := List.length_pos_iff.2 (h2.text (.inr rfl))
    exact this
  · cases tm with
    | none => exact absurd rfl h1
    | some m => simp only; omega
  · omega
  · omega

/-- The document of a text: how many nodes and how many characters it has. -/
theorem doc_size {s : Str} {o : ParseOptions} {d : Doc} {t : Tree} (hp : Doc.parse s o = .ok d) (hn : ¬ EndsInName o s)
    (ht : d.tree? = some t) : (∀ n ∈ linear t, Filled n ∧ printable n) ∧ total (fun _ => 1) (linear t) ≤ total plainLen (linear t) + 1 ∧
      total plainLen (linear t) ≤ (if o.autoFixUnescapedLt then 4 else if o.autoFixUnclosedTag then 3 else 2) * s.length := by
  obtain ⟨t', k1, k2⟩ := parse_filled hp
  rw [ht] at k1; cases k1
  have hf := allNodes_linear.1 t k2
  obtain ⟨ps, hres⟩ := result_of hp hn
  obtain ⟨d', t', e1, e2, e3, e4, e5, e6⟩ := result_parse hres
  rw [hp] at e1; cases e1
  rw [ht] at e2; cases e2
  have hrd := c53_render (lib := smallLib) hp hres
  have hlen := c58_output hp hrd
  obtain ⟨r, e, cs⟩ := t
  simp only [Tree.data] at e4
  simp only [Tree.endTag] at e5
  subst e5
  have hl : linear (.mk r none cs) = r :: linears (cs.getD []) := by rw [linear_eq]; simp
  have hk : (Tree.mk r none cs).kids = cs.getD [] := by cases cs <;> rfl
  rw [hk] at e6
  rw [hl] at hf ⊢
  have h0 : plainLen r = 0 := by unfold plainLen; rw [e4]
  rw [total_cons, total_cons, h0]
  refine ⟨fun n hx => ⟨hf n hx, ?_⟩, ?_, ?_⟩
  · rcases List.mem_cons.1 hx with rfl | hx
    · unfold printable; rw [e4]; trivial
    · exact linear_printable.2 _ e6 n hx
  · have hcount : ∀ ns : List NodeD, (∀ n ∈ ns, 1 ≤ plainLen n) → total (fun _ => 1) ns ≤ total plainLen ns := by
      intro ns
      induction ns with
      | nil => intro _; simp [total]
      | cons n ns ih =>
        intro hns
        have := hns n (by simp)
        have := ih fun x hx => hns x (by simp [hx])
        rw [total_cons, total_cons]
        omega
    have := hcount (linears (cs.getD [])) fun n hx =>
      plain_pos (linear_printable.2 _ e6 n hx) (hf n (by simp [hx])) (shaped_linear.2 _ e6 n hx)
    omega
  · refine Nat.le_trans ?_ hlen
    unfold Doc.render at hrd
    rw [ht] at hrd
    simp only [build, innerTypeOf, buildTarget, Bool.false_eq_true, if_false, reduceCtorEq, or_self] at hrd
    have hb : buildNode smallLib {} r { innerType := .none, root := true } = .ok ({ innerType := .none, root := true }, []) := by
      unfold buildNode; rw [e4]
    cases cs with
    | none => simp [linears, total]
    | some ts =>
      simp only [buildTree, hb, Except.bind_ok', if_true] at hrd
      rw [(buildTree_line smallLib {}).2 ts _ rfl] at hrd
      cases hx : buildLine smallLib {} (linears ts) { innerType := .none, isInPre := false, root := false } with
      | error q => rw [hx] at hrd; cases hrd
      | ok x =>
        have h1 := line_plain _ _ _ rfl hx
        rw [hx] at hrd
        simp only [Except.bind_ok', buildEnd] at hrd
        have e7 := Except.ok.inj hrd
        rw [← e7]
        simp only [Option.getD_some]
        simpa using h1

/-! ## Rendering -/

/-- C65: any node of a parsed document is rendered in time linear in the text, with any options, inner html and text
included.  (The constants: no entity has more than `K` characters, and decoding lengthens no text.) -/
theorem c65_render {s : Str} {o : ParseOptions} {d : Doc} {t c : Tree} {lib : EntityLib} {K : Nat} (hk : shortCodec lib K) (h1 : 1 ≤ K)
    (ro : RenderOptions) (it : Bool) (hp : Doc.parse s o = .ok d) (hn : ¬ EndsInName o s) (ht : d.tree? = some t) (hw : Spec.Within c t) :
    buildWork lib c ro it ≤ (K + 29) * ((if o.autoFixUnescapedLt then 4 else if o.autoFixUnclosedTag then 3 else 2) * s.length + 1) := by
  obtain ⟨_, k2, k3⟩ := doc_size hp hn ht
  have hsum : ∀ ns : List NodeD, total (fun n => 24 + (K + 4) * plainLen n) ns = 24 * total (fun _ => 1) ns + (K + 4) * total plainLen ns := by
    intro ns
    induction ns with
    | nil => simp [total]
    | cons n ns ih => rw [total_cons, total_cons, total_cons, ih, Nat.mul_add, Nat.mul_add]; omega
  have htw : ∀ (u : Tree) (st : RenderStatus), Spec.Within u t → treeWork lib ro u st ≤ 24 * (total plainLen (linear t) + 1) + (K + 4) * total plainLen (linear t) := by
    intro u st hu
    refine Nat.le_trans ((treeWork_le (f := fun n => 24 + (K + 4) * plainLen n) fun n st => ?_).1 u st) ?_
    · have := nodeWork_le hk h1 ro n st
      omega
    · refine Nat.le_trans (total_within _ hu) ?_
      rw [hsum]
      have := Nat.mul_le_mul_left 24 k2
      omega
  have hkids : c.kids.length ≤ total plainLen (linear t) := by
    have a1 := total_within (fun _ => 1) hw
    have a2 := kids_length (fun _ => 1) (fun _ => Nat.le_refl _) c.kids
    obtain ⟨dd, e, cs⟩ := c
    rw [linear_eq, total_cons, total_append] at a1
    have hkk : (Tree.mk dd e cs).kids = cs.getD [] := by cases cs <;> rfl
    rw [hkk] at a2 ⊢
    omega
  have hb : buildWork lib c ro it ≤ (K + 29) * (total plainLen (linear t) + 1) := by
    have e1 : (K + 29) * (total plainLen (linear t) + 1) =
        (K + 4) * total plainLen (linear t) + 25 * total plainLen (linear t) + (K + 29) := by
      rw [Nat.mul_add, show K + 29 = (K + 4) + 25 from rfl, Nat.add_mul]; omega
    rw [e1]
    unfold buildWork
    cases innerTypeOf ro it with
    | error q => simp
    | ok ty =>
      simp only
      have hif : (if ty = .none then 0 else c.kids.length) ≤ total plainLen (linear t) := by
        split <;> omega
      cases hbt : buildTarget c ty with
      | error q => simp only; omega
      | ok u =>
        cases u with
        | none => simp only; omega
        | some u =>
          have := htw u { innerType := ty, root := true } (by
            rcases buildTarget_cases hbt with rfl | ⟨_, _, ts, g1, g2⟩
            · exact hw
            · refine .kid hw ?_
              obtain ⟨dd, e, cs⟩ := c
              simp only [Tree.childs] at g1
              subst g1
              exact g2)
          simp only
          omega
  exact Nat.le_trans hb (Nat.mul_le_mul_left _ (by omega))

/-- The measure is not too small: everything that is written is paid for. -/
theorem node_written {lib : EntityLib} {o : RenderOptions} {n : NodeD} {st : RenderStatus} {x : RenderStatus × Str}
    (h : buildNode lib o n st = .ok x) : x.2.length ≤ nodeWork lib o n st := by
  have hat : ∀ m : TagMeta, (m.attrsToString o.removeAttrQuote).length ≤ attrsWork o.removeAttrQuote m := by
    intro m; unfold attrsWork; omega
  obtain ⟨ix, ty, b, e, ct, tm⟩ := n
  cases ty <;> simp only [buildNode, nodeWork] at h ⊢
  · cases h; simp
  · cases tm with
    | none => cases h
    | some m =>
      have := hat m
      simp only [Except.ok.injEq] at h
      rw [← h]
      simp only [List.length_append, List.length_cons, List.length_nil]
      split
      · omega
      · simp only [List.length_nil]; omega
  · split at h
    · split at h <;> (simp only [Except.ok.injEq] at h; rw [← h])
      · simp only [List.length_append]
        split <;> simp
        omega
      · simp
    · simp only [Except.ok.injEq] at h
      rw [← h]
      simp
  · cases ct with
    | none => cases h
    | some w =>
      simp only [Except.ok.injEq] at h
      rw [← h]
      simp [textWork]
  · split at h
    · cases h; simp
    · cases ct with
      | none => cases h
      | some w =>
        rename_i hs
        simp only [Except.ok.injEq] at h
        rw [← h, if_neg hs]
        exact Nat.le_refl _
  · cases tm with
    | none => cases h
    | some m =>
      have := hat m
      have e1 : (if (!o.lowercaseTagname) = true then m.name else lowerAll m.name).length = m.name.length := by
        split <;> simp [lowerAll]
      have e2 : (if (!m.attrs.isEmpty) = true then m.attrsToString o.removeAttrQuote else []).length ≤
          (if (!m.attrs.isEmpty) = true then attrsWork o.removeAttrQuote m else 0) := by
        split
        · exact this
        · simp
      have e3 : (if (m.selfClosed || m.autoFix && o.alwaysCloseVoid) = true then [' ', '/'] else []).length ≤
          (if (m.selfClosed || (m.autoFix && o.alwaysCloseVoid)) = true then 2 else 0) := by
        split <;> simp
      simp only [Except.ok.injEq] at h
      rw [← h]
      have hbody : ∀ w : Str, (if (o.encodeContent && isPlainTextTag m.name (some .lower)) = true then writeContentEncode lib w else w).length ≤
          (if (o.encodeContent && isPlainTextTag m.name (some .lower)) = true then encodeWork lib w else w.length) := by
        intro w
        split
        · unfold encodeWork; omega
        · omega
      have hopen : (if st.needTag = true then ['<'] ++ (if (!o.lowercaseTagname) = true then m.name else lowerAll m.name) ++
          (if (!m.attrs.isEmpty) = true then m.attrsToString o.removeAttrQuote else []) ++
          (if (m.selfClosed || m.autoFix && o.alwaysCloseVoid) = true then [' ', '/'] else []) ++ ['>'] else []).length ≤
          (if st.needTag = true then 1 + m.name.length + (if (!m.attrs.isEmpty) = true then attrsWork o.removeAttrQuote m else 0) +
            (if (m.selfClosed || (m.autoFix && o.alwaysCloseVoid)) = true then 2 else 0) + 1 else 0) := by
        split
        · simp only [List.length_append, List.length_cons, List.length_nil]
          omega
        · simp
      simp only [List.length_append] at hopen ⊢
      cases ct with
      | none => simp only [List.length_nil]; omega
      | some w =>
        have := hbody w
        simp only
        omega
  · cases ct with
    | none => cases h
    | some w =>
      simp only [Except.ok.injEq] at h
      rw [← h]
      simp only [Option.getD_some]
      have := trim_length w
      generalize hv : (if o.removeEndtagSpace = true then charsTrimEnd w else w) = v
      have hvl : v.length ≤ w.length := by
        rw [← hv]
        split <;> omega
      have e1 : (if o.lowercaseTagname = true then lowerAll v else v).length = v.length := by
        split <;> simp [lowerAll]
      split
      · have e2 : w.length ≤ (if o.lowercaseTagname = true then w.length + w.length else w.length) := by
          split <;> omega
        simp only [List.length_append, List.length_cons, List.length_nil]
        rw [e1]
        omega
      · simp
  · cases h; simp; omega

/-- C65, the measure: everything that rendering writes is paid for. -/
theorem c65_written {lib : EntityLib} {o : RenderOptions} :
    (∀ (t : Tree) (st : RenderStatus) (x : RenderStatus × Str), buildTree lib o t st = .ok x →
      x.2.length + (linear t).length ≤ treeWork lib o t st) ∧
    (∀ (ts : List Tree) (st : RenderStatus) (x : RenderStatus × Str), buildForest lib o ts st = .ok x →
      x.2.length + (linears ts).length ≤ forestWork lib o ts st) := by
  have hend : ∀ (e : Option NodeD) (st : RenderStatus) (x : RenderStatus × Str), buildEnd lib o e st = .ok x →
      x.2.length + e.toList.length ≤ endTagWork lib o e st := by
    intro e st x h
    cases e with
    | none => cases h; simp [endTagWork]
    | some n =>
      have := node_written (show buildNode lib o n st = .ok x from h)
      simp only [endTagWork, Option.toList_some, List.length_cons, List.length_nil]
      omega
  have bind_ok : ∀ {α β : Type} {a : RRes α} {f : α → RRes β} {z : β}, (a >>= f) = .ok z → ∃ w, a = .ok w ∧ f w = .ok z := by
    intro α β a f z h
    cases a with
    | error s => cases h
    | ok w => exact ⟨w, rfl, h⟩
  apply Tree.induct
  · intro d e st x h
    simp only [buildTree] at h
    obtain ⟨x1, a1, h⟩ := bind_ok h
    simp only [Except.bind_ok'] at h
    obtain ⟨x2, a2, h⟩ := bind_ok h
    cases h
    have b1 := node_written a1
    have b2 := hend _ _ _ a2
    simp only [treeWork, a1, linear, List.length_append, List.length_cons, List.length_nil]
    omega
  · intro d e ts ih st x h
    simp only [buildTree] at h
    obtain ⟨⟨⟨ity, pre, rt⟩, out⟩, a1, h⟩ := bind_ok h
    have b1 := node_written a1
    cases rt with
    | true =>
      simp only [if_true] at h
      obtain ⟨x2, a2, h⟩ := bind_ok h
      obtain ⟨y2, a4, h⟩ := bind_ok h
      cases a4
      obtain ⟨x3, a3, h⟩ := bind_ok h
      cases h
      have b2 := ih _ _ a2
      have b3 := hend _ _ _ a3
      have hr : treeWork lib o (.mk d e (some ts)) st = 1 + nodeWork lib o d st + (forestWork lib o ts ⟨ity, pre, false⟩ + endTagWork lib o e ⟨ity, pre, true⟩) := by
        simp only [treeWork, a1, a2, if_true]
      rw [hr]
      simp only [linear, List.length_append, List.length_cons]
      simp only at b1 b2 b3
      omega
    | false =>
      simp only [Bool.false_eq_true, if_false] at h
      obtain ⟨x2, a2, h⟩ := bind_ok h
      obtain ⟨x3, a3, h⟩ := bind_ok h
      cases h
      have b2 := ih _ _ a2
      have b3 := hend _ _ _ a3
      have hr : treeWork lib o (.mk d e (some ts)) st = 1 + nodeWork lib o d st + (forestWork lib o ts ⟨ity, pre, false⟩ + endTagWork lib o e x2.1) := by
        simp only [treeWork, a1, a2, Bool.false_eq_true, if_false]
      rw [hr]
      simp only [linear, List.length_append, List.length_cons]
      simp only at b1 b2 b3
      omega
  · intro st x h
    cases h; simp [forestWork, linears]
  · intro t ts h1 h2 st x h
    simp only [buildForest] at h
    obtain ⟨x1, a1, h⟩ := bind_ok h
    obtain ⟨x2, a2, h⟩ := bind_ok h
    cases h
    have b1 := h1 _ _ a1
    have b2 := h2 _ _ a2
    simp only [forestWork, a1, linears, List.length_append]
    omega

/-! ## Cloning -/

theorem attr_size (a : Attr) : a.size ≤ (a.build false).length := by
  obtain ⟨k, v, q, nq⟩ := a
  cases k <;> cases v <;> cases q <;> cases nq <;> (simp [Attr.build, Attr.size]; try omega)

theorem attrs_size (as : List Attr) : (as.map Attr.size).sum + as.length ≤ (as.flatMap fun a => ' ' :: a.build false).length := by
  induction as with
  | nil => simp
  | cons a as ih =>
    have := attr_size a
    simp only [List.map_cons, List.sum_cons, List.flatMap_cons, List.length_append, List.length_cons]
    omega

theorem keys_size (as : List Attr) : (as.map fun a => (a.key.getD []).length).sum ≤ (as.map Attr.size).sum := by
  induction as with
  | nil => simp
  | cons a as ih =>
    simp only [List.map_cons, List.sum_cons, Attr.size]
    omega

theorem clone_plain {n : NodeD} (h : Filled n) (hp : printable n) : cloneNodeWork n ≤ 2 * plainLen n := by
  obtain ⟨h1, h2, h3⟩ := h
  obtain ⟨ix, ty, b, e, ct, tm⟩ := n
  have hm : ∀ m : TagMeta, (m.attrs.map Attr.size).sum + (m.attrs.map fun a => (a.key.getD []).length).sum ≤ 2 * (m.attrsToString false).length := by
    intro m
    have a1 := attrs_size m.attrs
    have a2 := keys_size m.attrs
    have e1 : (m.attrsToString false).length = (m.attrs.flatMap fun a => ' ' :: a.build false).length := by
      unfold TagMeta.attrsToString
      rfl
    omega
  cases tm with
  | none =>
    cases ty <;> simp only [cloneNodeWork, plainLen, printable] at h3 hp ⊢
    all_goals first
      | omega
      | exact absurd rfl hp
      | (have := h3 (by simp); subst this; simp)
  | some m =>
    have := hm m
    rcases h2 (by simp) with h | h
    · simp only at h
      subst h
      simp only [cloneNodeWork, plainLen]
      omega
    · simp only at h
      subst h
      have := h3 (.inl rfl)
      simp only at this
      subst this
      simp only [cloneNodeWork, plainLen, Option.getD_none, List.length_nil]
      omega

/-- C65: cloning a node of a parsed document takes time linear in the text. -/
theorem c65_clone {s : Str} {o : ParseOptions} {d : Doc} {t c : Tree} (hp : Doc.parse s o = .ok d) (hn : ¬ EndsInName o s)
    (ht : d.tree? = some t) (hw : Spec.Within c t) :
    cloneWork c ≤ 3 * ((if o.autoFixUnescapedLt then 4 else if o.autoFixUnclosedTag then 3 else 2) * s.length) + 1 := by
  obtain ⟨k1, k2, k3⟩ := doc_size hp hn ht
  rw [cloneWork_eq.1]
  refine Nat.le_trans (total_within _ hw) ?_
  have hsum : ∀ ns : List NodeD, (∀ n ∈ ns, cloneNodeWork n ≤ 2 * plainLen n) →
      total (fun n => 1 + cloneNodeWork n) ns ≤ total (fun _ => 1) ns + 2 * total plainLen ns := by
    intro ns
    induction ns with
    | nil => intro _; simp [total]
    | cons n ns ih =>
      intro hns
      have := hns n (by simp)
      have := ih fun x hx => hns x (by simp [hx])
      rw [total_cons, total_cons, total_cons]
      omega
  have := hsum (linear t) fun n hx => clone_plain (k1 n hx).1 (k1 n hx).2
  omega

/-! ## Samples -/

private def sample : String := "<P class='a b'>x &amp; y<title>a<b</title></P >"

private theorem sample_name : ¬ EndsInName {} sample.toList := by
  intro h
  obtain ⟨u, n, h1, _, _, c, r, rfl, h2, h3⟩ := endsInName_stop h
  have e : (u ++ c :: r).getLast? = some '>' := by rw [← h1]; decide +kernel
  rw [List.getLast?_append, List.getLast?_eq_some_getLast (l := c :: r) (by simp), Option.some_or, ← List.getLast?_eq_some_getLast] at e
  exact (h3 '>' (List.mem_of_getLast? e)).2.2 rfl

/-- The work of rendering a document of 47 characters, and of cloning it. -/
example : sample.length = 47 ∧ buildWork smallLib (treeOf sample) {} false = 90 ∧
    buildWork smallLib (treeOf sample) { minifySpaces := true, decodeEntity := true, encodeContent := true } false = 110 ∧
    cloneWork (treeOf sample) = 44 := by decide +kernel

/-- The hypotheses of `c65_render` and `c65_clone` hold of it, for the whole document and for its element. -/
example : ∃ d k, Doc.parse sample.toList {} = .ok d ∧ Within k (treeOf sample) ∧ k.kids.length = 2 ∧
    buildWork smallLib k {} false ≤ 34 * 95 ∧ cloneWork k ≤ 283 := by
  cases hp : Doc.parse sample.toList {} with
  | ok d =>
    obtain ⟨t, ht, _⟩ := parse_filled hp
    have he : treeOf sample = t := by simp [treeOf, hp, ht]
    have hl : 0 < (treeOf sample).kids.length := by decide +kernel
    have hk : (((treeOf sample).kids[0]'hl).kids).length = 2 := by
      have : (((treeOf sample).kids.head?.map Tree.kids).getD []).length = 2 := by decide +kernel
      rwa [List.head?_eq_getElem?, List.getElem?_eq_getElem hl] at this
    have hw : Within ((treeOf sample).kids[0]) (treeOf sample) := .kid .self (List.getElem_mem hl)
    refine ⟨d, _, rfl, hw, hk, ?_, ?_⟩
    · exact c65_render smallLib_short (by decide) {} false hp sample_name ht (he ▸ hw)
    · exact c65_clone hp sample_name ht (he ▸ hw)
  | err e =>
    have : (match Doc.parse sample.toList {} with | .ok _ => true | _ => false) = true := by decide +kernel
    rw [hp] at this; cases this
  | panic x =>
    have : (match Doc.parse sample.toList {} with | .ok _ => true | _ => false) = true := by decide +kernel
    rw [hp] at this; cases this

end Rphtml
