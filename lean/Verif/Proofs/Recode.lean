import Verif.Spec.Recode
import Verif.Props.DecodeMin
import Verif.Props.Idem
import Verif.Props.Names

/-!
# Rendering with the entity options, as a change of the tree
-/

namespace Rphtml
open Spec

theorem cutSemi_free : ∀ {cs e r : Str}, cutSemi cs = some (e, r) → ';' ∉ e
  | [], _, _, hq => by cases hq
  | x :: cs, e, r, hq => by
    unfold cutSemi at hq
    split at hq
    · cases hq; simp
    · rename_i hx
      cases hk : cutSemi cs with
      | none => rw [hk] at hq; cases hq
      | some y =>
        rw [hk] at hq
        simp only [Option.map_some, Option.some.injEq, Prod.mk.injEq] at hq
        obtain ⟨q1, q2⟩ := hq
        subst q1
        have := cutSemi_free (e := y.1) (r := y.2) hk
        simp only [List.mem_cons, not_or]
        exact ⟨fun q => hx q.symm, this⟩

theorem pieces_cut : ∀ (n : Nat) (s : Str), s.length ≤ n → Cut s (pieces s)
  | _, [], _ => by rw [pieces]; exact .nil
  | 0, c :: cs, h => by simp at h
  | n + 1, c :: cs, h => by
    simp only [List.length_cons, Nat.add_le_add_iff_right] at h
    rw [pieces]
    by_cases hc : c = '&'
    · subst hc
      rw [if_pos rfl]
      split
      · rename_i hq
        refine .rest ?_
        intro hm
        obtain ⟨a, b, rfl⟩ := List.append_of_mem hm
        clear h hm
        induction a with
        | nil => simp [cutSemi] at hq
        | cons x a ih =>
          simp only [List.cons_append, cutSemi] at hq
          split at hq
          · cases hq
          · exact ih (by simpa using hq)
      · rename_i e r hq
        have h1 := cutSemi_length hq
        have h2 := cutSemi_eq hq
        have h3 : Cut ('&' :: (e ++ ';' :: r)) (.ref e :: pieces r) := by
          refine .ref ?_ (pieces_cut n r (by omega))
          clear h h1 h2
          exact cutSemi_free hq
        rw [← h2] at h3
        exact h3
    · rw [if_neg hc]
      exact .char hc (pieces_cut n cs h)

theorem squeezeDecoded_eq (lib : EntityLib) (w : Str) : minifyDecodeLoop lib false none w = squeezeDecoded lib.decodeOne w :=
  (c28_exact lib (pieces_cut w.length w (Nat.le_refl _))).2.1

theorem buildText_out (lib : EntityLib) (ro : RenderOptions) (pre : Bool) (w : Str) : buildText lib ro pre w = textOut lib ro pre w := by
  unfold buildText textOut
  rw [squeezeDecoded_eq, show minifyLoop false w = collapse w from minified_eq w]
  cases pre <;> cases ro.minifySpaces <;> simp

theorem encoded_eq (lib : EntityLib) (w : Str) : writeContentEncode lib w = encoded lib w := by
  unfold writeContentEncode encoded
  congr 1
  funext c
  split
  · cases lib.encodeNamed c <;> rfl
  · rfl

theorem isPlainRaw_iff (n : Str) : isPlainTextTag n (some .lower) = decide (isPlainRaw n) := by
  rw [Bool.eq_iff_iff, decide_eq_true_iff]
  simp only [isPlainTextTag, Bool.or_eq_true, isPlainRaw]
  rw [isEqualChars_lower _ _ (by decide), isEqualChars_lower _ _ (by decide), lowerAll_eq_fold]
  unfold sameName
  constructor <;> rintro (h | h)
  · exact .inr (by rw [h]; decide)
  · exact .inl (by rw [h]; decide)
  · exact .inr (by rw [h]; decide)
  · exact .inl (by rw [h]; decide)

/-- The options that are left. -/
abbrev plainRo (ro : RenderOptions) : RenderOptions := { ro with minifySpaces := false, decodeEntity := false, encodeContent := false }

theorem buildNode_recode (lib : EntityLib) (ro : RenderOptions) (n : NodeD) (st : RenderStatus) :
    buildNode lib ro n st = buildNode lib (plainRo ro) (recode lib ro st.isInPre n) st := by
  obtain ⟨ix, ty, b, e, ct, tm⟩ := n
  cases ty with
  | text =>
    cases ct with
    | none => simp [buildNode, recode]
    | some w =>
      simp only [buildNode, recode, Option.map_some, buildText_out]
      simp [textOut]
  | spacesBetweenTag =>
    cases hp : st.isInPre <;> cases hm : ro.minifySpaces <;> simp [buildNode, recode, hp, hm]
  | tag =>
    cases tm with
    | none =>
      simp only [recode]
      split <;> simp [buildNode]
    | some m =>
      simp only [recode, Option.getD_some]
      split
      · rename_i h
        have h2 : isPlainTextTag m.name (some .lower) = true := by rw [isPlainRaw_iff]; simpa using h.2
        cases ct <;> simp [buildNode, h.1, h2, encoded_eq]
      · rename_i h
        have h2 : (ro.encodeContent && isPlainTextTag m.name (some .lower)) = false := by
          rw [isPlainRaw_iff]
          simpa using h
        simp only [buildNode, h2]
        simp
  | _ => simp [buildNode, recode]

/-- The change of a sequence of nodes. -/
def recoded (lib : EntityLib) (ro : RenderOptions) (before : List NodeD) : List NodeD → List NodeD
  | [] => []
  | n :: ns => recode lib ro (openPre before) n :: recoded lib ro (before ++ [n]) ns

theorem recoded_append (lib : EntityLib) (ro : RenderOptions) : ∀ (a b before : List NodeD),
    recoded lib ro before (a ++ b) = recoded lib ro before a ++ recoded lib ro (before ++ a) b
  | [], b, before => by simp [recoded]
  | n :: a, b, before => by
    simp only [List.cons_append, recoded, recoded_append lib ro a b, List.append_assoc, List.nil_append]

theorem buildLine_recode (lib : EntityLib) (ro : RenderOptions) :
    ∀ (ns before : List NodeD) (st : RenderStatus), st.isInPre = openPre before →
      buildLine lib ro ns st = buildLine lib (plainRo ro) (recoded lib ro before ns) st
  | [], _, _, _ => rfl
  | n :: ns, before, st, hp => by
    have hb := buildNode_recode lib ro n st
    rw [hp] at hb
    simp only [buildLine, recoded, hb]
    cases hx : buildNode lib (plainRo ro) (recode lib ro (openPre before) n) st with
    | error s => rfl
    | ok x =>
      simp only [Except.bind_ok']
      have h1 := buildNode_pre (st' := x.1) (out := x.2) (hb.trans hx)
      rw [buildLine_recode lib ro ns (before ++ [n]) x.1 (by rw [h1, openPre_snoc, hp])]

theorem linear_recode (lib : EntityLib) (ro : RenderOptions) :
    (∀ t : Tree, t.shaped → ∀ before, linear (recodeAt lib ro before t) = recoded lib ro before (linear t)) ∧
    (∀ ts : List Tree, Tree.shapeds ts → ∀ before, linears (recodeAts lib ro before ts) = recoded lib ro before (linears ts)) := by
  have hend : ∀ (d : NodeD) (e : Option NodeD) cs, (Tree.mk d e cs).shaped → ∀ before, recoded lib ro before e.toList = e.toList := by
    intro d e cs h before
    cases e with
    | none => rfl
    | some x =>
      have hx := (shaped_end h rfl).1
      simp [recoded, recode, hx]
  apply Tree.induct
  · intro d e h before
    simp only [recodeAt, linear, recoded, hend d e none h]
  · intro d e ts ih h before
    have hk := shaped_kids h
    simp only [recodeAt, linear, recoded, recoded_append, hend d e _ h, ih hk]
  · intro _ before; rfl
  · intro t ts h1 h2 h before
    simp only [recodeAts, linears, recoded_append, h1 h.1, h2 h.2]

theorem build_recode (lib : EntityLib) {ro : RenderOptions} (hi : ro.innerHtml = false) {n : NodeD} (hn : n.nodeType = .abstractRoot)
    {ts : List Tree} (hs : Tree.shapeds ts) :
    build lib (rootTree n ts) ro false = build lib (rootTree n (recodeAts lib ro [] ts)) (plainRo ro) false := by
  rw [build_rootTree lib hi hn, build_rootTree lib (o := plainRo ro) hi hn, (linear_recode lib ro).2 ts hs,
    buildLine_recode lib ro (linears ts) [] _ rfl]

theorem recode_shaped (lib : EntityLib) (ro : RenderOptions) (ts : List Tree) (h : Tree.shapeds ts) (before : List NodeD) :
    Tree.shapeds (recodeAts lib ro before ts) := by
  have htag : ∀ (pre : Bool) (d : NodeD), d.nodeType = .tag → (recode lib ro pre d).nodeType = .tag ∧
      (recode lib ro pre d).tmeta = d.tmeta := by
    intro pre d hd
    unfold recode
    simp only [hd]
    split
    · exact ⟨rfl, rfl⟩
    · exact ⟨hd, rfl⟩
  have key : (∀ t : Tree, t.shaped → ∀ before, (recodeAt lib ro before t).shaped) ∧
      (∀ ts : List Tree, Tree.shapeds ts → ∀ before, Tree.shapeds (recodeAts lib ro before ts)) := by
    apply Tree.induct
    · intro d e h before
      simp only [recodeAt]
      by_cases hd : d.nodeType = .tag
      · obtain ⟨g1, g2⟩ := htag (openPre before) d hd
        unfold Tree.shaped at h ⊢
        simp only [hd, g1, g2] at h ⊢
        exact h
      · obtain ⟨ix, ty, b, en, ct, tm⟩ := d
        cases ty
        case tag => exact absurd rfl hd
        case text => simpa [recode, Tree.shaped] using h
        case spacesBetweenTag =>
          simp only [recode]
          split
          · simpa [Tree.shaped] using (show ct ≠ none ∧ e = none from by simpa [Tree.shaped] using h).2
          · exact h
        all_goals exact h
    · intro d e ts ih h before
      have hty : d.nodeType = .tag := by
        unfold Tree.shaped at h
        cases ht : d.nodeType <;> simp only [ht] at h
        all_goals first | rfl | (obtain ⟨_, _, h⟩ := h; cases h)
      obtain ⟨g1, g2⟩ := htag (openPre before) d hty
      have hk := shaped_kids h
      simp only [recodeAt]
      unfold Tree.shaped at h ⊢
      simp only [hty, g1, g2] at h ⊢
      exact ⟨h.1, h.2.1, ih hk _⟩
    · intro _ before; trivial
    · intro t ts h1 h2 h before
      exact ⟨h1 h.1 _, h2 h.2 _⟩
  exact key.2 ts h before

/-! ## What is legal -/

/-- A text without `<`. -/
def NoLt : PNode → Prop
  | .text w => '<' ∉ w
  | _ => True

theorem isRaw_of_plain {n : Str} (h : isPlainRaw n) : isRaw n := by
  unfold isPlainRaw sameName at h
  unfold isRaw
  rcases h with h | h <;> rw [h] <;> decide

theorem ElemShape.encode {o : ParseOptions} {ctx : Option Str} {n : Str} {s : Bool} {ct : Option Str} {ks ks' : List PNode}
    {e : Option Str} {K K' : Prop} {f : Str → Str} (hf : ∀ w, '<' ∉ f w) (h : ElemShape o ctx n s ct ks e K)
    (h1 : ks = [] → ks' = []) (h2 : K → K') : ElemShape o ctx n s (ct.map f) ks' e K' := by
  have h := h.imp h1 h2
  unfold ElemShape at h ⊢
  split
  · rename_i q; rw [if_pos q] at h; rw [h.1]; exact ⟨rfl, h.2⟩
  · rename_i q; rw [if_neg q] at h
    split
    · rename_i q; rw [if_pos q] at h; rw [h.1]; exact ⟨rfl, h.2⟩
    · rename_i q; rw [if_neg q] at h
      split
      · rename_i q; rw [if_pos q] at h
        obtain ⟨k1, w, e', k2, k3, k4, _⟩ := h
        refine ⟨k1, f w, e', by rw [k2]; rfl, k3, k4, ?_⟩
        intro u k v hw
        exact absurd (by rw [hw]; simp) (hf w)
      · rename_i q; rw [if_neg q] at h; rw [h.1]; exact ⟨rfl, h.2⟩

theorem recode_doc (lib : EntityLib) (ro : RenderOptions) (henc : ro.encodeContent = true → ∀ w, '<' ∉ encoded lib w) {o : ParseOptions} :
    (∀ t : Tree, t.shaped → ∀ before, (recodeAt lib ro before t).shaped ∧
      (∀ ctx, ctxNode ctx (recodeAt lib ro before t).pnode = ctxNode ctx t.pnode) ∧
      (allIn NoLt (recodeAt lib ro before t).pnode →
        ∀ ctx par, looseNode false o ctx par t.pnode → looseNode false o ctx par (recodeAt lib ro before t).pnode) ∧
      (optionalNode t.pnode → optionalNode (recodeAt lib ro before t).pnode) ∧
      (allIn (LowerOk o) t.pnode → allIn (LowerOk o) (recodeAt lib ro before t).pnode)) ∧
    (∀ ts : List Tree, Tree.shapeds ts → ∀ before, Tree.shapeds (recodeAts lib ro before ts) ∧
      (∀ ctx, ctxNodes ctx (Tree.pnodes (recodeAts lib ro before ts)) = ctxNodes ctx (Tree.pnodes ts)) ∧
      (allsIn NoLt (Tree.pnodes (recodeAts lib ro before ts)) →
        ∀ ctx par, looseNodes false o ctx par (Tree.pnodes ts) → looseNodes false o ctx par (Tree.pnodes (recodeAts lib ro before ts))) ∧
      (optionalNodes (Tree.pnodes ts) → optionalNodes (Tree.pnodes (recodeAts lib ro before ts))) ∧
      (allsIn (LowerOk o) (Tree.pnodes ts) → allsIn (LowerOk o) (Tree.pnodes (recodeAts lib ro before ts)))) := by
  have htag : ∀ (pre : Bool) (d : NodeD), d.nodeType = .tag → (recode lib ro pre d).nodeType = .tag ∧
      (recode lib ro pre d).tmeta = d.tmeta ∧ ((recode lib ro pre d).content = d.content ∨
        (ro.encodeContent = true ∧ (recode lib ro pre d).content = d.content.map (encoded lib))) := by
    intro pre d hd
    unfold recode
    simp only [hd]
    split
    · rename_i h; exact ⟨rfl, rfl, .inr ⟨h.1, rfl⟩⟩
    · exact ⟨hd, rfl, .inl rfl⟩
  have hp : ∀ (d : NodeD) (e : Option NodeD) us, d.nodeType = .tag →
      (Tree.mk d e us).pnode = .elem (d.tmeta.getD {}).name (d.tmeta.getD {}).attrs (d.tmeta.getD {}).selfClosed
        d.content (match us with | none => [] | some ts => Tree.pnodes ts) (e.bind NodeD.content) := by
    intro d e us hty
    obtain ⟨ix, ty, b, en, ct, tm⟩ := d
    cases hty
    cases us <;> rfl
  have hloose : ∀ (n : Str) (as : List Attr) (s : Bool) (ct ct' : Option Str) (ks ks' : List PNode) (e : Option Str) ctx par,
      (ct' = ct ∨ (ro.encodeContent = true ∧ ct' = ct.map (encoded lib))) → (ks = [] → ks' = []) →
      (∀ ctx par, looseNodes false o ctx par ks → looseNodes false o ctx par ks') →
      looseNode false o ctx par (.elem n as s ct ks e) → looseNode false o ctx par (.elem n as s ct' ks' e) := by
    intro n as s ct ct' ks ks' e ctx par hct h1 h2 q
    simp only [looseNode] at q ⊢
    refine ⟨q.1, q.2.1, ?_⟩
    rcases hct with rfl | ⟨he, rfl⟩
    · exact q.2.2.imp h1 (h2 _ _)
    · exact ElemShape.encode (henc he) q.2.2 h1 (h2 _ _)
  apply Tree.induct
  · intro d e h before
    simp only [recodeAt]
    by_cases hd : d.nodeType = .tag
    · obtain ⟨g1, g2, g3⟩ := htag (openPre before) d hd
      rw [hp d e none hd, hp _ e none g1, g2]
      refine ⟨?_, fun _ => by simp only [ctxNode], ?_, ?_, ?_⟩
      · unfold Tree.shaped at h ⊢
        simp only [hd, g1, g2] at h ⊢
        exact h
      · intro _ ctx par q
        exact hloose _ _ _ _ _ _ _ _ _ _ g3 id (fun _ _ k => k) q
      · intro q; simp only [optionalNode] at q ⊢; exact q
      · intro q; simp only [allIn] at q ⊢; exact q
    · obtain ⟨ix, ty, b, en, ct, tm⟩ := d
      cases ty
      case tag => exact absurd rfl hd
      case text =>
        unfold Tree.shaped at h
        simp only at h
        simp only [recode, Tree.pnode, Tree.shaped, ctxNode, looseNode, optionalNode, allIn, LowerOk, NoLt]
        exact ⟨⟨by simpa using h.1, h.2⟩, fun _ => trivial, fun q _ _ _ => ⟨by simp, q⟩, id, id⟩
      case spacesBetweenTag =>
        unfold Tree.shaped at h
        simp only at h
        simp only [recode]
        split
        · simp only [Tree.pnode, Tree.shaped, ctxNode, looseNode, optionalNode, allIn, LowerOk, NoLt]
          exact ⟨⟨by simp, h.2⟩, fun _ => trivial, fun q _ _ _ => ⟨by simp, q⟩, id, id⟩
        · exact ⟨by simpa [Tree.shaped] using h, fun _ => rfl, fun _ _ _ k => k, id, id⟩
      all_goals exact ⟨h, fun _ => rfl, fun _ _ _ k => k, id, id⟩
  · intro d e ts ih h before
    have hty : d.nodeType = .tag := by
      unfold Tree.shaped at h
      cases ht : d.nodeType <;> simp only [ht] at h
      all_goals first | rfl | (obtain ⟨_, _, h⟩ := h; cases h)
    obtain ⟨g1, g2, g3⟩ := htag (openPre before) d hty
    obtain ⟨k1, k2, k3, k4, k5⟩ := ih (shaped_kids h) (before ++ [d])
    simp only [recodeAt]
    rw [hp d e _ hty, hp _ e _ g1, g2]
    refine ⟨?_, ?_, ?_, ?_, ?_⟩
    · unfold Tree.shaped at h ⊢
      simp only [hty, g1, g2] at h ⊢
      exact ⟨h.1, h.2.1, k1⟩
    · intro ctx; simp only [ctxNode, k2]
    · intro hlt ctx par q
      simp only [allIn] at hlt
      refine hloose _ _ _ _ _ _ _ _ _ _ g3 ?_ (k3 hlt.2) q
      intro hz
      cases ts with
      | nil => rfl
      | cons t ts => simp [Tree.pnodes] at hz
    · intro q; simp only [optionalNode] at q ⊢; exact ⟨q.1, k4 q.2⟩
    · intro q; simp only [allIn] at q ⊢; exact ⟨q.1, k5 q.2⟩
  · intro _ before
    exact ⟨trivial, fun _ => rfl, fun _ _ _ k => k, id, id⟩
  · intro t ts h1 h2 h before
    obtain ⟨a1, a2, a3, a4, a5⟩ := h1 h.1 before
    obtain ⟨b1, b2, b3, b4, b5⟩ := h2 h.2 (before ++ linear t)
    simp only [recodeAts, Tree.pnodes, ctxNodes, looseNodes, optionalNodes, allsIn]
    refine ⟨⟨a1, b1⟩, fun ctx => by rw [a2, b2], ?_, fun q => ⟨a4 q.1, b4 q.2⟩, fun q => ⟨a5 q.1, b5 q.2⟩⟩
    intro hlt ctx par q
    rw [a2]
    exact ⟨a3 hlt.1 _ _ q.1, b3 hlt.2 _ _ q.2⟩

end Rphtml
