import Verif.Model.RenderCost
import Verif.Proofs.Cost
import Verif.Props.SizeOpts
import Verif.Props.PreExact

/-!
# The work of rendering is paid for by the characters of the nodes
-/

namespace Rphtml
open Spec

/-- How many characters a node takes with default options. -/
def plainLen (n : NodeD) : Nat :=
  match n.nodeType with
  | .text | .spacesBetweenTag => (n.content.getD []).length
  | .tag => match n.tmeta with
    | none => 0
    | some m => 2 + m.name.length + (m.attrsToString false).length + (n.content.getD []).length
  | .tagEnd => 3 + (n.content.getD []).length
  | .htmlDoctype => match n.tmeta with
    | none => 0
    | some m => 3 + m.name.length + (m.attrsToString false).length
  | .comment => 7 + (n.content.getD []).length
  | .xmlCdata => 12 + (n.content.getD []).length
  | .abstractRoot => 0

theorem attrs_if (m : TagMeta) (b : Bool) : (if (!m.attrs.isEmpty) = true then m.attrsToString b else []) = m.attrsToString b := by
  unfold TagMeta.attrsToString
  cases m.attrs <;> simp

theorem plain_node {lib : EntityLib} {n : NodeD} {st : RenderStatus} {x : RenderStatus × Str} (h0 : st.innerType = .none)
    (h : buildNode lib {} n st = .ok x) : plainLen n ≤ x.2.length := by
  have hneed : st.needTag = true := by
    unfold RenderStatus.needTag
    rw [h0]
    simp
  obtain ⟨ix, ty, b, e, ct, tm⟩ := n
  cases ty <;> simp only [buildNode, plainLen] at h ⊢
  · simp
  · cases tm with
    | none => cases h
    | some m =>
      simp only [attrs_if, Except.ok.injEq] at h
      rw [← h]
      simp; omega
  · simp [h0] at h
    rw [← h]
    simp; omega
  · cases ct with
    | none => cases h
    | some w =>
      simp only [Except.ok.injEq] at h
      rw [← h]
      simp [buildText]
  · cases ct with
    | none => simp at h
    | some w =>
      simp at h
      rw [← h]
      simp
  · cases tm with
    | none => cases h
    | some m =>
      simp only [attrs_if, hneed, if_true, Except.ok.injEq] at h
      rw [← h]
      cases ct <;> simp <;> omega
  · cases ct with
    | none => cases h
    | some w =>
      simp only [hneed, if_true, Except.ok.injEq] at h
      rw [← h]
      simp; omega
  · simp only [Except.ok.injEq] at h
    rw [← h]
    simp; omega

/-! ## One node -/

theorem attrWork_sum (b : Bool) (as : List Attr) :
    (as.map (attrWork b)).sum ≤ 3 * (as.flatMap fun a => ' ' :: a.build b).length := by
  induction as with
  | nil => simp
  | cons a as ih =>
    simp only [List.map_cons, List.sum_cons, List.flatMap_cons, List.length_append, List.length_cons, attrWork]
    omega

theorem attrsWork_le (b : Bool) (m : TagMeta) : attrsWork b m ≤ 4 * (m.attrsToString false).length := by
  have h1 := attrWork_sum b m.attrs
  have h2 := attrs_length b m
  unfold attrsWork
  have h3 : (m.attrsToString b).length = (m.attrs.flatMap fun a => ' ' :: a.build b).length := by
    unfold TagMeta.attrsToString
    rfl
  omega

theorem decodeLoopWork_le : ∀ (w : Str) (e : Option Str), decodeLoopWork e w ≤ 2 * w.length + held e
  | [], e => by simp [decodeLoopWork]
  | c :: cs, none => by
    have h1 := decodeLoopWork_le cs none
    have h2 := decodeLoopWork_le cs (some [])
    simp only [decodeLoopWork, List.length_cons, held, List.length_nil] at h1 h2 ⊢
    split <;> omega
  | c :: cs, some e => by
    have h1 := decodeLoopWork_le cs none
    have h2 := decodeLoopWork_le cs (some (e ++ [c]))
    simp only [decodeLoopWork, List.length_cons, held, List.length_append, List.length_nil] at h1 h2 ⊢
    split <;> omega

theorem textWork_le {lib : EntityLib} {K : Nat} (hk : shortCodec lib K) (o : RenderOptions) (b : Bool) (w : Str) :
    textWork lib o b w ≤ 3 * w.length := by
  have h1 := decodeLoopWork_le w none
  have h2 := minifyDecode_length lib w false none
  have h3 := minifyLoop_length w false
  have h4 := hk.1 w
  simp only [held] at h1 h2
  unfold textWork buildText
  repeat' split
  all_goals omega

theorem nodeWork_le {lib : EntityLib} {K : Nat} (hk : shortCodec lib K) (h1 : 1 ≤ K) (o : RenderOptions) (n : NodeD) (st : RenderStatus) :
    nodeWork lib o n st ≤ 23 + (K + 4) * plainLen n := by
  have h5 : 5 * plainLen n ≤ (K + 4) * plainLen n := Nat.mul_le_mul_right _ (by omega)
  obtain ⟨ix, ty, b, e, ct, tm⟩ := n
  cases ty <;> simp only [nodeWork] at h5 ⊢
  · omega
  · cases tm with
    | none => simp
    | some m =>
      have := attrsWork_le o.removeAttrQuote m
      simp only [plainLen] at h5 ⊢
      split <;> omega
  · simp only [plainLen] at h5 ⊢
    split <;> omega
  · have := textWork_le hk o st.isInPre (ct.getD [])
    simp only [plainLen] at h5 ⊢
    omega
  · simp only [plainLen] at h5 ⊢
    split <;> omega
  · cases tm with
    | none => simp
    | some m =>
      have a1 := attrsWork_le o.removeAttrQuote m
      have a2 := eqWork_right m.name preTagName
      have a3 := eqWork_right m.name titleTagName
      have a4 := eqWork_right m.name textareaTagName
      have b2 : preTagName.length = 3 := rfl
      have b3 : titleTagName.length = 5 := rfl
      have b4 : textareaTagName.length = 8 := rfl
      have hb : ∀ w : Str, (if (o.encodeContent && isPlainTextTag m.name (some .lower)) = true then encodeWork lib w else w.length) ≤ (K + 1) * w.length := by
        intro w
        have := encode_length hk h1 w
        have h6 := Nat.add_mul K 1 w.length
        split
        · unfold encodeWork; omega
        · omega
      simp only [plainLen, Nat.mul_add] at h5 ⊢
      have c1 : 5 * m.name.length ≤ (K + 4) * m.name.length := Nat.mul_le_mul_right _ (by omega)
      have c2 : 5 * (m.attrsToString false).length ≤ (K + 4) * (m.attrsToString false).length := Nat.mul_le_mul_right _ (by omega)
      have ho : (if st.needTag = true then 1 + m.name.length + (if (!m.attrs.isEmpty) = true then attrsWork o.removeAttrQuote m else 0)
            + (if (m.selfClosed || (m.autoFix && o.alwaysCloseVoid)) = true then 2 else 0) + 1 else 0) ≤
          4 + m.name.length + 4 * (m.attrsToString false).length := by
        repeat' split
        all_goals omega
      have hp : (if st.isInPre = true then 0 else eqWork m.name preTagName) ≤ 4 := by
        split <;> omega
      cases ct with
      | none =>
        simp only [Option.getD_none, List.length_nil] at h5 ⊢
        omega
      | some w =>
        have c3 := hb w
        have c4 : (K + 1) * w.length ≤ (K + 4) * w.length := Nat.mul_le_mul_right _ (by omega)
        have c5 : (if o.encodeContent = true then eqWork m.name titleTagName + eqWork m.name textareaTagName else 0) ≤ 15 := by
          split <;> omega
        simp only [Option.getD_some] at h5 ⊢
        omega
  · have a1 := trailing_le (ct.getD [])
    have a2 := eqWork_right (charsTrimEnd (ct.getD [])) preTagName
    have b2 : preTagName.length = 3 := rfl
    simp only [plainLen] at h5 ⊢
    repeat' split
    all_goals omega
  · simp only [plainLen] at h5 ⊢
    omega

/-! ## Trees -/

/-- The sum of a cost over the nodes of a tree. -/
def total (f : NodeD → Nat) (ns : List NodeD) : Nat := (ns.map f).sum

theorem total_append (f : NodeD → Nat) (a b : List NodeD) : total f (a ++ b) = total f a + total f b := by
  simp [total, List.sum_append]

theorem total_cons (f : NodeD → Nat) (n : NodeD) (a : List NodeD) : total f (n :: a) = f n + total f a := by simp [total]

theorem linear_eq (d : NodeD) (e : Option NodeD) (cs : Option (List Tree)) :
    linear (.mk d e cs) = d :: (linears (cs.getD []) ++ e.toList) := by
  cases cs <;> simp [linear, linears]

/-- The work of a tree is at most the sum of what its nodes may take. -/
theorem treeWork_le {lib : EntityLib} {o : RenderOptions} {f : NodeD → Nat} (hf : ∀ n st, 1 + nodeWork lib o n st ≤ f n) :
    (∀ (t : Tree) (st : RenderStatus), treeWork lib o t st ≤ total f (linear t)) ∧
    (∀ (ts : List Tree) (st : RenderStatus), forestWork lib o ts st ≤ total f (linears ts)) := by
  have hend : ∀ (e : Option NodeD) (st : RenderStatus), endTagWork lib o e st ≤ total f e.toList := by
    intro e st
    cases e with
    | none => simp [endTagWork, total]
    | some n => simpa [endTagWork, total] using hf n st
  apply Tree.induct
  · intro d e st
    have h1 := hf d st
    rw [linear_eq, total_cons, total_append]
    simp only [treeWork]
    cases buildNode lib o d st with
    | error s => simp only; omega
    | ok x =>
      have := hend e x.1
      simp only; omega
  · intro d e ts ih st
    have h1 := hf d st
    rw [linear_eq, total_cons, total_append]
    simp only [treeWork, Option.getD_some]
    cases buildNode lib o d st with
    | error s => simp only; omega
    | ok x =>
      have h2 := ih ⟨x.1.innerType, x.1.isInPre, false⟩
      simp only
      cases buildForest lib o ts { x.1 with root := false } with
      | error s => simp only; omega
      | ok y =>
        have := hend e (if x.1.root = true then x.1 else y.1)
        simp only; omega
  · intro st; simp [forestWork]
  · intro t ts h1 h2 st
    have h1 := h1 st
    simp only [forestWork, linears, total_append]
    cases buildTree lib o t st with
    | error s => simp only; omega
    | ok x =>
      have := h2 x.1
      simp only; omega

theorem cloneWork_eq : (∀ t : Tree, cloneWork t = total (fun n => 1 + cloneNodeWork n) (linear t)) ∧
    (∀ ts : List Tree, cloneForestWork ts = total (fun n => 1 + cloneNodeWork n) (linears ts)) := by
  apply Tree.induct
  · intro d e
    rw [linear_eq, total_cons, total_append]
    cases e <;> simp [cloneWork, total, linears]
  · intro d e ts ih
    rw [linear_eq, total_cons, total_append]
    cases e <;> simp [cloneWork, total, ih] <;> omega
  · simp [cloneForestWork, linears, total]
  · intro t ts h1 h2
    simp only [cloneForestWork, linears, total_append, h1, h2]

theorem total_mem (f : NodeD → Nat) {t : Tree} : ∀ {ts : List Tree}, t ∈ ts → total f (linear t) ≤ total f (linears ts)
  | [], h => by cases h
  | u :: us, h => by
    rw [linears, total_append]
    rcases List.mem_cons.1 h with rfl | h
    · omega
    · have := total_mem f h
      omega

/-- A part of a tree has no more than the whole. -/
theorem total_within (f : NodeD → Nat) {c t : Tree} (h : Within c t) : total f (linear c) ≤ total f (linear t) := by
  induction h with
  | self => exact Nat.le_refl _
  | @kid t c k h hk ih =>
    refine Nat.le_trans (total_mem f hk) (Nat.le_trans ?_ ih)
    obtain ⟨d, e, cs⟩ := c
    rw [linear_eq, total_cons, total_append]
    simp only [Tree.kids]
    omega

theorem kids_length (f : NodeD → Nat) (hf : ∀ n, 1 ≤ f n) : ∀ ts : List Tree, ts.length ≤ total f (linears ts)
  | [] => by simp
  | t :: ts => by
    have := kids_length f hf ts
    obtain ⟨d, e, cs⟩ := t
    rw [linears, total_append, linear_eq, total_cons]
    have := hf d
    simp only [List.length_cons]
    omega

theorem line_plain {lib : EntityLib} : ∀ (ns : List NodeD) (st : RenderStatus) (x : RenderStatus × Str), st.innerType = .none →
    buildLine lib {} ns st = .ok x → total plainLen ns ≤ x.2.length
  | [], st, x, h0, h => by simp [total]
  | n :: ns, st, x, h0, h => by
    simp only [buildLine] at h
    cases hb : buildNode lib {} n st with
    | error s => rw [hb] at h; cases h
    | ok y =>
      rw [hb] at h
      simp only [Except.bind_ok'] at h
      cases hb2 : buildLine lib {} ns y.1 with
      | error s => rw [hb2] at h; cases h
      | ok z =>
        rw [hb2] at h
        simp only [Except.bind_ok', Except.ok.injEq] at h
        have h1 := plain_node h0 hb
        have h2 := line_plain ns y.1 z (by rw [(buildNode_root (st' := y.1) (out := y.2) hb).2, h0]) hb2
        rw [← h, total_cons]
        simp only [List.length_append]
        omega

end Rphtml
