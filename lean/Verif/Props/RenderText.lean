import Verif.Props.RenderInner

/-! # C36: inner text -/

namespace Rphtml
open Spec

namespace Spec

/-- An attribute as written in a tag. -/
def attrSource (dropQuote : Bool) (a : Attr) : List Char :=
  let quote : List Char :=
    match a.quote with
    | some q => if dropQuote && !a.needQuote then [] else [q]
    | none => []
  match a.key, a.value with
  | none, none => []
  | some k, none => k
  | none, some v => quote ++ v ++ quote
  | some k, some v => k ++ "=".toList ++ quote ++ v ++ quote

/-- The text a single node stands for; markup stands for nothing. -/
def ownText (dec : List Char → List Char) (dropQuote : Bool) (n : NodeD) : List Char :=
  match n.nodeType with
  | .text => dec (n.content.getD [])
  | .spacesBetweenTag => n.content.getD []
  | .tag => n.content.getD []
  | .xmlCdata => "<![CDATA[".toList ++ n.content.getD [] ++ "]]>".toList
  | .htmlDoctype =>
    match n.tmeta with
    | some m => "<!".toList ++ m.name ++ (m.attrs.map fun a => " ".toList ++ attrSource dropQuote a).flatten
        ++ ">".toList
    | none => []
  | .comment | .tagEnd | .abstractRoot => []

mutual
/-- The text of a tree: the texts of its nodes in document order. -/
def textOf (dec : List Char → List Char) (dropQuote : Bool) : Tree → List Char
  | .mk d _ none => ownText dec dropQuote d
  | .mk d _ (some ts) => ownText dec dropQuote d ++ textsOf dec dropQuote ts

def textsOf (dec : List Char → List Char) (dropQuote : Bool) : List Tree → List Char
  | [] => []
  | t :: ts => textOf dec dropQuote t ++ textsOf dec dropQuote ts
end

mutual
/-- Everything hanging in an `end_tag` slot is an end tag node. -/
def endsTyped : Tree → Prop
  | .mk _ e none => ∀ x, e = some x → x.nodeType = .tagEnd
  | .mk _ e (some ts) => (∀ x, e = some x → x.nodeType = .tagEnd) ∧ endsTypedF ts

def endsTypedF : List Tree → Prop
  | [] => True
  | t :: ts => endsTyped t ∧ endsTypedF ts
end

end Spec

theorem attr_build_eq (a : Attr) (dq : Bool) : a.build dq = attrSource dq a := by
  unfold Attr.build attrSource
  cases a.key <;> cases a.value <;> cases a.quote <;> simp only [Option.isSome_none, Option.isSome_some,
    Bool.false_eq_true, if_false, if_true, List.nil_append, List.append_nil]
  all_goals (cases a.needQuote <;> cases dq <;> simp)

theorem attrsToString_eq (m : TagMeta) (dq : Bool) :
    m.attrsToString dq = (m.attrs.map fun a => " ".toList ++ attrSource dq a).flatten := by
  unfold TagMeta.attrsToString
  rw [List.flatMap_def]
  congr 1
  apply List.map_congr_left
  intro a _
  rw [attr_build_eq]; rfl

private theorem node_text (lib : EntityLib) (o : RenderOptions) (n : NodeD) (p : Bool) (hp : printable n)
    (hm : o.minifySpaces = false) (hc : o.encodeContent = false) :
    ∃ p', buildNode lib o n { innerType := .text, isInPre := p, root := false } =
      .ok ({ innerType := .text, isInPre := p', root := false },
        ownText (if o.decodeEntity then lib.decodeAll else id) o.removeAttrQuote n) := by
  unfold printable at hp
  unfold buildNode ownText
  cases ht : n.nodeType <;> simp only [ht] at hp ⊢
  case text =>
    cases h : n.content with
    | none => exact absurd h hp
    | some c =>
      refine ⟨p, ?_⟩
      simp only [buildText, hm, Bool.and_false, Bool.false_eq_true, if_false, Option.getD_some]
      cases o.decodeEntity <;> rfl
  case spacesBetweenTag =>
    cases h : n.content with
    | none => exact absurd h hp
    | some c => exact ⟨p, by simp [hm]⟩
  case tag =>
    cases h : n.tmeta with
    | none => exact absurd h hp
    | some m =>
      refine ⟨p || isEqualChars m.name preTagName (some .lower), ?_⟩
      simp only [RenderStatus.needTag, hc, Bool.false_and, Bool.false_eq_true, if_false, ne_eq,
        not_true_eq_false, decide_false, List.nil_append]
      cases n.content <;> rfl
  case tagEnd =>
    cases h : n.content with
    | none => exact absurd h hp
    | some c =>
      simp only [RenderStatus.needTag, Bool.false_eq_true, if_false, ne_eq,
        not_true_eq_false, decide_false]
      split <;> exact ⟨_, rfl⟩
  case htmlDoctype =>
    cases h : n.tmeta with
    | none => exact absurd h hp
    | some m =>
      refine ⟨p, ?_⟩
      simp only [attrsToString_eq]
      cases m.attrs <;> simp
  case comment =>
    cases o.removeComment <;> exact ⟨p, by simp⟩
  case xmlCdata => exact ⟨p, rfl⟩
  case abstractRoot => exact ⟨p, rfl⟩

private theorem end_text (lib : EntityLib) (o : RenderOptions) (e : Option NodeD) (p r : Bool)
    (hp : ∀ x, e = some x → printable x) (he : ∀ x, e = some x → x.nodeType = .tagEnd) :
    ∃ p', buildEnd lib o e { innerType := .text, isInPre := p, root := r } =
      .ok ({ innerType := .text, isInPre := p', root := r }, []) := by
  cases e with
  | none => exact ⟨p, rfl⟩
  | some x =>
    have h1 := hp x rfl
    have h2 := he x rfl
    unfold printable at h1
    unfold buildEnd buildNode
    simp only [h2] at h1 ⊢
    cases h : x.content with
    | none => exact absurd h h1
    | some c =>
      cases r <;>
      simp only [RenderStatus.needTag, Bool.false_eq_true, if_false, ne_eq, reduceCtorEq, if_true,
        not_true_eq_false, decide_false] <;>
      split <;> exact ⟨_, rfl⟩

private theorem tree_text (lib : EntityLib) (o : RenderOptions)
    (hm : o.minifySpaces = false) (hc : o.encodeContent = false) :
    (∀ t p, allNodes printable t → endsTyped t →
      ∃ p', buildTree lib o t { innerType := .text, isInPre := p, root := false } =
        .ok ({ innerType := .text, isInPre := p', root := false },
          textOf (if o.decodeEntity then lib.decodeAll else id) o.removeAttrQuote t)) ∧
    (∀ ts p, allForest printable ts → endsTypedF ts →
      ∃ p', buildForest lib o ts { innerType := .text, isInPre := p, root := false } =
        .ok ({ innerType := .text, isInPre := p', root := false },
          textsOf (if o.decodeEntity then lib.decodeAll else id) o.removeAttrQuote ts)) := by
  apply Tree.induct
  · intro d e p hp he
    simp only [allNodes] at hp
    simp only [endsTyped] at he
    obtain ⟨p1, h1⟩ := node_text lib o d p hp.1 hm hc
    obtain ⟨p2, h2⟩ := end_text lib o e p1 false hp.2 he
    exact ⟨p2, by simp only [buildTree, h1, h2, Except.bind_ok', textOf, List.append_nil]⟩
  · intro d e ts ih p hp he
    simp only [allNodes] at hp
    simp only [endsTyped] at he
    obtain ⟨p1, h1⟩ := node_text lib o d p hp.1 hm hc
    obtain ⟨p3, h3⟩ := ih p1 hp.2.2 he.2
    obtain ⟨p2, h2⟩ := end_text lib o e p3 false hp.2.1 he.1
    exact ⟨p2, by simp only [buildTree, h1, h2, h3, Except.bind_ok', textOf, List.append_nil,
      Bool.false_eq_true, if_false]⟩
  · intro p _ _; exact ⟨p, rfl⟩
  · intro t ts h1 h2 p hp he
    simp only [allForest] at hp
    simp only [endsTypedF] at he
    obtain ⟨p1, e1⟩ := h1 p hp.1 he.1
    obtain ⟨p2, e2⟩ := h2 p1 hp.2 he.2
    exact ⟨p2, by simp only [buildForest, e1, e2, Except.bind_ok', textsOf]⟩

/-- **C36**: the inner text of a tag is the text of its nodes in document order, whatever the options,
as long as neither whitespace minification nor content encoding is asked for. -/
theorem c36_inner_text (lib : EntityLib) (o : RenderOptions) (t : Tree) (ht : t.data.nodeType = .tag)
    (hp : allNodes printable t) (he : endsTyped t) (hi : o.innerHtml = false)
    (hm : o.minifySpaces = false) (hc : o.encodeContent = false) :
    build lib t o true =
      .ok (textOf (if o.decodeEntity then lib.decodeAll else id) o.removeAttrQuote t) := by
  obtain ⟨d, e, cs⟩ := t
  simp only [Tree.data] at ht
  have hb : build lib (.mk d e cs) o true =
      (buildTree lib o (.mk d e cs) { innerType := .text, root := true }).map (·.2) := by
    simp [build, innerTypeOf, hi, buildTarget, Tree.data, ht]
  rw [hb]
  have hpd : printable d := by cases cs <;> simp only [allNodes] at hp <;> exact hp.1
  have hpe : ∀ x, e = some x → printable x := by
    cases cs <;> simp only [allNodes] at hp
    · exact hp.2
    · exact hp.2.1
  have hee : ∀ x, e = some x → x.nodeType = .tagEnd := by
    cases cs <;> simp only [endsTyped] at he
    · exact he
    · exact he.1
  have h1 : ∃ p', buildNode lib o d { innerType := .text, root := true } =
      .ok ({ innerType := .text, isInPre := p', root := true }, d.content.getD []) := by
    cases hmeta : d.tmeta with
    | none => simp [printable, ht, hmeta] at hpd
    | some m =>
      simp only [buildNode, ht, hmeta, RenderStatus.needTag, hc, Bool.false_and, Bool.false_eq_true, if_false,
        if_true, reduceCtorEq, decide_false, List.nil_append]
      cases d.content <;> exact ⟨_, rfl⟩
  obtain ⟨p1, h1⟩ := h1
  have hown : ∀ dec dq, ownText dec dq d = d.content.getD [] := by intro dec dq; simp [ownText, ht]
  obtain ⟨p2, h2⟩ := end_text lib o e p1 true hpe hee
  cases cs with
  | none => simp only [buildTree, h1, h2, Except.bind_ok', textOf, List.append_nil, Except.map, hown]
  | some ts =>
    simp only [allNodes] at hp
    simp only [endsTyped] at he
    obtain ⟨p3, h3⟩ := (tree_text lib o hm hc).2 ts p1 hp.2.2 he.2
    simp only [buildTree, h1, h2, h3, Except.bind_ok', textOf, List.append_nil, Except.map, hown, if_true]

/-- A non-trivial instance (nested tags, raw text, comment, spaces). -/
example : outOf (build toyLib ((treeOf "<div a=1>x<b>y</b> <!--c--><script>1<2</script></DIV >").kids.headD
    (.mk {} none none)) {} true) = some "xy 1<2".toList := by decide +kernel

end Rphtml
