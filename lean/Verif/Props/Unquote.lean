import Verif.Props.RenderOpts
import Verif.Props.RoundTrip
import Verif.Spec.Quote

/-!
# C33: remove_attr_quote
-/

namespace Rphtml
open Spec

theorem build_unquote (a : Attr) : a.build true = (unquoteAttr a).build false := by
  obtain ⟨k, v, q, b⟩ := a
  cases k <;> cases v <;> cases q <;> cases b <;> rfl

theorem attrs_unquote (m : TagMeta) :
    (if !m.attrs.isEmpty then m.attrsToString true else []) =
      (if !(m.attrs.map unquoteAttr).isEmpty then TagMeta.attrsToString { m with attrs := m.attrs.map unquoteAttr } false else []) := by
  cases hm : m.attrs with
  | nil => rfl
  | cons a as =>
    simp only [List.isEmpty_cons, List.map_cons, Bool.not_false, if_true, TagMeta.attrsToString, hm, List.flatMap_cons, build_unquote,
      List.flatMap_map]

/-- **C33**, what the option does: rendering with `remove_attr_quote` is rendering the tree without the quotes that are not
marked as necessary (the parser never marks any). -/
theorem c33_unquoted (lib : EntityLib) (o : RenderOptions) (t : Tree) (it : Bool) (ho : o.removeAttrQuote = true) :
    build lib t o it = build lib (mapTree dropQuotes t) { o with removeAttrQuote := false } it := by
  refine build_map lib o { o with removeAttrQuote := false } dropQuotes rfl ?_ ?_ t it
  · intro n; unfold dropQuotes; split <;> rfl
  · intro n st
    obtain ⟨ix, ty, b, e, ct, tm⟩ := n
    cases ty with
    | tag =>
      cases tm with
      | none => rfl
      | some m =>
        unfold buildNode dropQuotes
        simp only [Option.map_some, ho, attrs_unquote]
    | htmlDoctype =>
      cases tm with
      | none => rfl
      | some m =>
        unfold buildNode dropQuotes
        simp only [Option.map_some, ho, attrs_unquote]
    | _ => rfl

theorem pnode_dropQuotes :
    (∀ t : Tree, t.shaped → (mapTree dropQuotes t).pnode = unquoteNode t.pnode ∧ (mapTree dropQuotes t).shaped) ∧
    (∀ ts : List Tree, Tree.shapeds ts →
      Tree.pnodes (mapForest dropQuotes ts) = unquoteNodes (Tree.pnodes ts) ∧ Tree.shapeds (mapForest dropQuotes ts)) := by
  have hend : ∀ e : Option NodeD, (e.map dropQuotes).bind NodeD.content = e.bind NodeD.content := by
    intro e
    cases e with
    | none => rfl
    | some x =>
      show (dropQuotes x).content = x.content
      unfold dropQuotes; split <;> rfl
  have hend' : ∀ e : Option NodeD, (∀ x, e = some x → x.nodeType = .tagEnd ∧ x.content ≠ none) →
      ∀ x, e.map dropQuotes = some x → x.nodeType = .tagEnd ∧ x.content ≠ none := by
    intro e h x hx
    cases e with
    | none => cases hx
    | some y =>
      obtain ⟨h1, h2⟩ := h y rfl
      simp only [Option.map_some, Option.some.injEq] at hx
      subst hx
      unfold dropQuotes
      split
      · rename_i q; rw [h1] at q; cases q
      · rename_i q; rw [h1] at q; cases q
      · exact ⟨h1, h2⟩
  apply Tree.induct
  · intro d e h
    obtain ⟨ix, ty, b, en, ct, tm⟩ := d
    simp only [mapTree]
    simp only [Tree.shaped] at h
    cases ty <;> simp only at h
    case tag =>
      cases tm with
      | none => exact absurd rfl h.1
      | some m =>
        simp only [dropQuotes, Tree.pnode, Tree.shaped, unquoteNode, hend, Option.map_some, Option.getD_some, unquoteNodes]
        exact ⟨trivial, by simp, hend' e h.2.1, trivial⟩
    case htmlDoctype =>
      cases tm with
      | none => exact absurd rfl h.1
      | some m =>
        simp only [dropQuotes, Tree.pnode, Tree.shaped, unquoteNode, Option.map_some, Option.getD_some]
        exact ⟨trivial, by simp, by rw [h.2.1]; rfl, trivial⟩
    all_goals
      simp only [dropQuotes, Tree.pnode, Tree.shaped, unquoteNode]
      exact ⟨trivial, h.1, by rw [h.2.1]; rfl, trivial⟩
  · intro d e ts ih h
    obtain ⟨ix, ty, b, en, ct, tm⟩ := d
    simp only [mapTree]
    simp only [Tree.shaped] at h
    cases ty <;> simp only [reduceCtorEq, and_false] at h
    case tag =>
      cases tm with
      | none => exact absurd rfl h.1
      | some m =>
        obtain ⟨k1, k2⟩ := ih h.2.2
        simp only [dropQuotes, Tree.pnode, Tree.shaped, unquoteNode, hend, Option.map_some, Option.getD_some, k1]
        exact ⟨trivial, by simp, hend' e h.2.1, k2⟩
  · exact fun _ => ⟨rfl, trivial⟩
  · intro t ts h1 h2 h
    obtain ⟨k1, k2⟩ := h1 h.1
    obtain ⟨k3, k4⟩ := h2 h.2
    exact ⟨by simp only [mapForest, Tree.pnodes, unquoteNodes, k1, k3], k2, k4⟩

theorem ctx_unquote :
    (∀ p ctx, ctxNode ctx (unquoteNode p) = ctxNode ctx p) ∧ (∀ ps ctx, ctxNodes ctx (unquoteNodes ps) = ctxNodes ctx ps) := by
  apply PNode.induct
  · intro w ctx; rfl
  · intro w ctx; rfl
  · intro w ctx; rfl
  · intro n a s ctx; rfl
  · intro n a s ct ks e ih ctx
    simp only [unquoteNode, ctxNode, ih]
  · intro ctx; rfl
  · intro p ps h1 h2 ctx
    simp only [unquoteNodes, ctxNodes, h1, h2]

theorem legal_unquote {allowEq inDoc : Bool} {as : List Attr} (h : legalAttrs allowEq inDoc as) (hq : ∀ a ∈ as, quotesOptional a) :
    legalAttrs allowEq inDoc (as.map unquoteAttr) := by
  obtain ⟨h1, h2⟩ := h
  refine ⟨?_, ?_⟩
  · intro a ha
    obtain ⟨b, hb, rfl⟩ := List.mem_map.1 ha
    have k1 := h1 b hb
    have k2 := hq b hb
    obtain ⟨k, v, q, nq⟩ := b
    obtain ⟨rfl, k1⟩ := k1
    refine ⟨rfl, ?_⟩
    cases k <;> cases v <;> cases q <;> simp only [unquoteAttr, Bool.false_eq_true, if_false] at k1 ⊢
    · exact absurd rfl (k2 (by simp)).1
    · exact k1
    · exact k1
    · exact ⟨k1.1, (k2 (by simp)).2 _ rfl⟩
  · have hkey : ∀ a, (unquoteAttr a).key = a.key ∧ (unquoteAttr a).value = a.value := by
      intro a; unfold unquoteAttr; split <;> exact ⟨rfl, rfl⟩
    clear h1 hq
    induction as with
    | nil => trivial
    | cons a as ih =>
      cases as with
      | nil => trivial
      | cons b as =>
        simp only [eqApart] at h2
        simp only [List.map_cons, eqApart, (hkey _).1, (hkey _).2]
        exact ⟨h2.1, ih h2.2⟩

theorem isText_unquote (p : PNode) : isText (unquoteNode p) = isText p := by
  cases p <;> simp [unquoteNode, isText]

theorem wf_unquote {o : ParseOptions} :
    (∀ p, optionalNode p → ∀ ctx par, wfNode o ctx par p → wfNode o ctx par (unquoteNode p)) ∧
    (∀ ps, optionalNodes ps → ∀ ctx par, wfNodes o ctx par ps → wfNodes o ctx par (unquoteNodes ps)) := by
  apply PNode.induct
  · intro w _ ctx par h; simpa only [unquoteNode] using h
  · intro w _ ctx par h; simpa only [unquoteNode] using h
  · intro w _ ctx par h; simpa only [unquoteNode] using h
  · intro n as s hq ctx par h
    simp only [optionalNode] at hq
    simp only [unquoteNode, wfNode] at h ⊢
    exact ⟨h.1, by simpa using h.2.1, h.2.2.1, legal_unquote h.2.2.2 hq⟩
  · intro n as s ct ks e ih hq ctx par h
    simp only [optionalNode] at hq
    simp only [unquoteNode, wfNode] at h ⊢
    refine ⟨h.1, legal_unquote h.2.1 hq.1, ?_⟩
    have h3 := h.2.2
    by_cases q1 : s = true
    · simp only [if_pos q1] at h3 ⊢
      obtain ⟨k1, rfl, k3⟩ := h3
      exact ⟨k1, rfl, k3⟩
    · simp only [if_neg q1] at h3 ⊢
      by_cases q2 : isVoid n
      · simp only [if_pos q2] at h3 ⊢
        obtain ⟨k1, rfl, k3⟩ := h3
        exact ⟨k1, rfl, k3⟩
      · simp only [if_neg q2] at h3 ⊢
        by_cases q3 : isRaw n
        · simp only [if_pos q3] at h3 ⊢
          obtain ⟨rfl, k3⟩ := h3
          exact ⟨rfl, k3⟩
        · simp only [if_neg q3] at h3 ⊢
          exact ⟨h3.1, h3.2.1, ih hq.2 _ _ h3.2.2⟩
  · intro _ ctx par _; simp only [unquoteNodes, wfNodes]
  · intro p ps h1 h2 hq ctx par h
    simp only [optionalNodes] at hq
    simp only [unquoteNodes, wfNodes] at h ⊢
    refine ⟨h1 hq.1 _ _ h.1, ?_, by rw [ctx_unquote.1]; exact h2 hq.2 _ _ h.2.2⟩
    intro k q hq'
    rw [isText_unquote] at k
    cases ps with
    | nil => simp [unquoteNodes] at hq'
    | cons r rs =>
      simp only [unquoteNodes, List.head?_cons, Option.some.injEq] at hq'
      subst hq'
      rw [isText_unquote]
      exact h.2.1 k r rfl

/-- **C33** for documents in which no attribute needs its quotes: rendering with `remove_attr_quote` succeeds, and parsing the
result gives the document with the same names, attribute names, values, contents and nesting; only the quotes are gone. -/
theorem c33_reread_partial (o : ParseOptions) (lib : EntityLib) (t : Tree) (hroot : t.data.nodeType = .abstractRoot)
    (hend : t.endTag = none) (hshape : Tree.shapeds t.kids) (hwf : wfDoc o t.doc) (hq : optionalNodes t.doc) :
    ∃ r, build lib t { removeAttrQuote := true } false = .ok r ∧ docOf r o = some (unquoteNodes t.doc) := by
  obtain ⟨n, e, cs⟩ := t
  have hdq : ∀ n : NodeD, n.nodeType = .abstractRoot → dropQuotes n = n := by
    intro n h; unfold dropQuotes; split
    · rename_i q; rw [h] at q; cases q
    · rename_i q; rw [h] at q; cases q
    · rfl
  simp only [Tree.data] at hroot
  simp only [Tree.endTag] at hend
  subst hend
  have key : (mapTree dropQuotes (.mk n none cs)).data.nodeType = .abstractRoot ∧ (mapTree dropQuotes (.mk n none cs)).endTag = none ∧
      Tree.shapeds (mapTree dropQuotes (.mk n none cs)).kids ∧
      (mapTree dropQuotes (.mk n none cs)).doc = unquoteNodes (Tree.doc (.mk n none cs)) := by
    cases cs with
    | none => simp only [mapTree, hdq n hroot]; exact ⟨hroot, rfl, trivial, rfl⟩
    | some ts =>
      obtain ⟨k1, k2⟩ := pnode_dropQuotes.2 ts hshape
      simp only [mapTree, hdq n hroot]
      exact ⟨hroot, rfl, k2, k1⟩
  obtain ⟨k1, k2, k3, k4⟩ := key
  refine ⟨printNodes (unquoteNodes (Tree.doc (.mk n none cs))), ?_, ?_⟩
  · rw [c33_unquoted lib _ _ _ rfl, ← k4]
    exact build_doc lib k1 k2 k3
  · exact (c05_document o lib (wf_unquote.2 _ hq none none hwf)).1

/-- The names and values of the attributes are unchanged. -/
theorem c33_same_attr (a : Attr) : (unquoteAttr a).key = a.key ∧ (unquoteAttr a).value = a.value := by
  unfold unquoteAttr; split <;> exact ⟨rfl, rfl⟩

/-- The hypotheses are met by `<a b="c" d='e"' f></a>`; the second value keeps its quote character. -/
example : docOf "<a b=c d=e\" f></a>".toList {} = some (unquoteNodes [.elem ['a']
    [{ key := some ['b'], value := some ['c'], quote := some '"' }, { key := some ['d'], value := some ['e', '"'], quote := some '\'' },
      { key := some ['f'] }] false none [] (some ['a'])]) ∧
    rendersTo "<a b=\"c\" d='e\"' f></a>" "<a b=c d=e\" f></a>" {} { removeAttrQuote := true } = true ∧
    docOf "<a b=\"c\" d='e\"' f></a>".toList {} = some [.elem ['a']
      [{ key := some ['b'], value := some ['c'], quote := some '"' }, { key := some ['d'], value := some ['e', '"'], quote := some '\'' },
        { key := some ['f'] }] false none [] (some ['a'])] := by decide +kernel

/-- The rest of C33 is false: values with spaces, empty values, values that begin with a slash. -/
example : rendersTo "<a b=\"c d\"></a>" "<a b=c d></a>" {} { removeAttrQuote := true } = true ∧
    rendersTo "<a b=\"\" c></a>" "<a b= c></a>" {} { removeAttrQuote := true } = true ∧
    docOf "<a b= c></a>".toList {} = some [.elem ['a'] [{ key := some ['b'], value := some ['c'] }] false none [] (some ['a'])] ∧
    rendersTo "<a b=\"/c\"></a>" "<a b=/c></a>" {} { removeAttrQuote := true } = true ∧
    docOf "<a b=/c></a>".toList {} = some [.elem ['a'] [{ key := some ['b'], value := some ['c'] }] false none [] (some ['a'])] := by
  decide +kernel

end Rphtml
