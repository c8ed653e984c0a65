import Verif.Proofs.Inner

/-!
# C36 and C62: the text and the html inside an element
-/

namespace Rphtml
open Spec

/-! ## C36 with all options -/

/-- **C36**, for all options: the inner text of a tag is the text of its nodes in document order, after the changes that
`minify_spaces`, `decode_entity` and `encode_content` make to them. -/
theorem c36_all_options (lib : EntityLib) (o : RenderOptions) (t : Tree) (ht : t.data.nodeType = .tag)
    (hp : allNodes printable t) (he : endsTyped t) (hi : o.innerHtml = false) :
    build lib t o true = .ok (textOf id o.removeAttrQuote (recodeAt lib o [] t)) := by
  rw [build_recode_node lib o true he (by rw [ht]; simp)]
  have h := c36_inner_text lib (plainRo o) (recodeAt lib o [] t) (by rw [recodeAt_data, recode_type, ht])
    ((printable_recode lib o).1 t hp []) ((endsTyped_recode lib o).1 t he []) hi rfl rfl
  exact h

/-! ## C62 -/

/-- **C62** (a document for its element): if exactly one of the nodes at the top of a document is an element, then the inner html,
and the inner text, of the document are those of the element, whatever is beside it. -/
theorem c62_only (lib : EntityLib) (o : RenderOptions) (it : Bool) (d : NodeD) (e : Option NodeD) (as bs : List Tree) (c : Tree)
    (hd : d.nodeType = .abstractRoot) (hc : c.data.nodeType = .tag) (ha : ∀ a ∈ as, a.data.nodeType ≠ .tag)
    (hb : ∀ b ∈ bs, b.data.nodeType ≠ .tag) (hi : it = true ∨ o.innerHtml = true) :
    build lib (.mk d e (some (as ++ c :: bs))) o it = build lib c o it := by
  have h1 : ∀ (bs : List Tree) (acc : Option Tree), (∀ b ∈ bs, b.data.nodeType ≠ .tag) → findOnlyTag bs acc = .ok acc := by
    intro bs
    induction bs with
    | nil => intro acc _; rfl
    | cons b bs ih =>
      intro acc h
      unfold findOnlyTag
      rw [if_neg (h b List.mem_cons_self)]
      exact ih acc fun x hx => h x (List.mem_cons_of_mem _ hx)
  have h2 : findOnlyTag (as ++ c :: bs) none = .ok (some c) := by
    clear hi
    induction as with
    | nil =>
      simp only [List.nil_append, findOnlyTag, hc, if_true]
      exact h1 bs (some c) hb
    | cons a as ih =>
      simp only [List.cons_append, findOnlyTag, if_neg (ha a List.mem_cons_self)]
      exact ih fun x hx => ha x (List.mem_cons_of_mem _ hx)
  unfold build
  cases hty : innerTypeOf o it with
  | error s => rfl
  | ok ty =>
    have hne : ty = .html ∨ ty = .text := by
      unfold innerTypeOf at hty
      cases it <;> cases ho : o.innerHtml <;> simp_all
    have k1 : buildTarget (.mk d e (some (as ++ c :: bs))) ty = .ok (some c) := by
      unfold buildTarget
      simp only [Tree.data, Tree.childs, hd, if_true, h2, if_pos hne]
    have k2 : buildTarget c ty = .ok (some c) := by
      unfold buildTarget
      simp [hc]
    simp only [k1, k2]

/-- **C62** (what is written), for every element of every tree: the inner html is the raw text, if there is one, and the source
text of the document inside the element, with the changes that the options make. -/
theorem c62_written (lib : EntityLib) (ro : RenderOptions) (c : Tree) (hc : c.data.nodeType = .tag) (hs : c.shaped)
    (hi : ro.innerHtml = true) (h2 : ro.alwaysCloseVoid = false) :
    build lib c ro false = .ok (innerRaw lib ro c ++ printNodes (innerDoc lib ro c)) := by
  have hends : (∀ t : Tree, t.shaped → endsTyped t) ∧ (∀ ts : List Tree, Tree.shapeds ts → endsTypedF ts) := by
    apply Tree.induct
    · intro d e h
      simp only [endsTyped]
      exact fun x hx => (shaped_end h hx).1
    · intro d e ts ih h
      simp only [endsTyped]
      exact ⟨fun x hx => (shaped_end h hx).1, ih (shaped_kids h)⟩
    · intro _; trivial
    · intro t ts h1 h2 h
      simp only [Tree.shapeds] at h
      exact ⟨h1 h.1, h2 h.2⟩
  rw [build_recode_node lib ro false (hends.1 c hs) (by rw [hc]; simp)]
  have hsh := recode_shaped lib ro [c] ⟨hs, trivial⟩ []
  simp only [recodeAts, Tree.shapeds] at hsh
  obtain ⟨d, e, cs⟩ := c
  simp only [Tree.data] at hc
  have hty : (recode lib ro (openPre []) d).nodeType = .tag := by rw [recode_type, hc]
  have hk : ∃ cs', recodeAt lib ro [] (.mk d e cs) = .mk (recode lib ro (openPre []) d) e cs' ∧
      Tree.kids (.mk (recode lib ro (openPre []) d) e cs') = recodeAts lib ro [d] (Tree.kids (.mk d e cs)) := by
    cases cs with
    | none => exact ⟨none, rfl, rfl⟩
    | some ts => exact ⟨some (recodeAts lib ro [d] ts), rfl, rfl⟩
  obtain ⟨cs', k1, k2⟩ := hk
  rw [k1] at hsh ⊢
  rw [inner_split lib (ro := plainRo ro) hi rfl rfl hty hsh.1]
  rw [k2]
  have hkids : Tree.shapeds (recodeAts lib ro [d] (Tree.kids (.mk d e cs))) := recode_shaped lib ro _ (shaped_sub hs) _
  have hform := build_formatted lib { plainRo ro with innerHtml := false } (rootTree { nodeType := .abstractRoot } (recodeAts lib ro [d] (Tree.kids (.mk d e cs))))
    rfl rfl hkids rfl h2 rfl rfl
  rw [build_rootTree lib rfl rfl] at hform
  have hflag : ∀ (ns : List NodeD) (st : RenderStatus), buildLine lib { plainRo ro with innerHtml := false } ns st = buildLine lib (plainRo ro) ns st := by
    intro ns
    induction ns with
    | nil => intro st; rfl
    | cons n ns ih => intro st; simp only [buildLine, ih]; rfl
  rw [hflag] at hform
  have hcon : (recode lib ro (openPre []) d).content.getD [] = innerRaw lib ro (.mk d e cs) := by
    have hr : innerRaw lib ro (.mk d e cs) =
        if ro.encodeContent = true ∧ isPlainRaw (d.tmeta.getD {}).name then encoded lib (d.content.getD []) else d.content.getD [] := rfl
    rw [hr]
    unfold recode
    simp only [hc]
    by_cases hq : ro.encodeContent = true ∧ isPlainRaw (d.tmeta.getD {}).name
    · rw [if_pos hq, if_pos hq]
      cases d.content <;> simp [encoded]
    · rw [if_neg hq, if_neg hq]
  have hdoc : rendered { plainRo ro with innerHtml := false } (rootTree { nodeType := .abstractRoot } (recodeAts lib ro [d] (Tree.kids (.mk d e cs)))) =
      innerDoc lib ro (.mk d e cs) := rfl
  rw [hdoc] at hform
  cases hx : buildLine lib (plainRo ro) (linears (recodeAts lib ro [d] (Tree.kids (.mk d e cs)))) { innerType := .none, root := false } with
  | error s => rw [hx] at hform; simp [Except.map] at hform
  | ok x =>
    rw [hx] at hform
    simp only [Except.map, Except.ok.injEq] at hform
    simp only [Except.map, hcon, hform]

/-- **C62** (reading it back): the inner html of an element that has no raw text, and whose children can stand on their own, is
read as the document inside it exactly if no text of that document contains a `<`. -/
theorem c62_reread (o : ParseOptions) (lib : EntityLib) (ro : RenderOptions) (c : Tree) (hc : c.data.nodeType = .tag) (hs : c.shaped)
    (hraw : c.data.content = none) (hwf : wfDoc o (Tree.pnodes c.kids))
    (hq : ro.removeAttrQuote = true → optionalNodes (Tree.pnodes c.kids))
    (hl : ro.lowercaseTagname = true → lowerSafe o (Tree.pnodes c.kids))
    (he : ro.encodeContent = true → hidesLt lib) (hi : ro.innerHtml = true) (h2 : ro.alwaysCloseVoid = false) :
    ∃ r, build lib c ro false = .ok r ∧
      (docOf r o = some (innerDoc lib ro c) ↔ ∀ w, Occurs (.text w) (Tree.pnodes (recodeAts lib ro [c.data] c.kids)) → '<' ∉ w) := by
  refine ⟨_, c62_written lib ro c hc hs hi h2, ?_⟩
  have hr : innerRaw lib ro c = [] := by
    unfold innerRaw
    rw [hraw]
    simp [encoded]
  rw [hr, List.nil_append]
  have henc : ro.encodeContent = true → ∀ w, '<' ∉ encoded lib w := by
    intro q w hm
    obtain ⟨g1, g2⟩ := he q
    unfold encoded at hm
    rw [List.mem_flatMap] at hm
    obtain ⟨c, _, hm⟩ := hm
    split at hm
    · rename_i hc
      obtain ⟨s, k1, k2⟩ := g2 c hc
      rw [k1] at hm
      exact k2 hm
    · rename_i hc
      simp only [List.mem_singleton] at hm
      subst hm
      exact hc g1
  obtain ⟨_, _, k3, k4, k5⟩ := (recode_doc lib ro henc (o := o)).2 c.kids (shaped_sub hs) [c.data]
  constructor
  · intro h w hw
    exact allsIn_occurs (noLt_changed ro (docOf_noLt h)) _ hw
  · intro h
    have hlt : allsIn NoLt (Tree.pnodes (recodeAts lib ro [c.data] c.kids)) := by
      refine allIn_of_occurs.2 _ ?_
      intro q hq
      cases q with
      | text w => exact h w hq
      | _ => trivial
    have hloose := loose_changed ro (k3 hlt none none (loose_of_wf.2 _ _ _ hwf)) (fun q => k4 (hq q))
      (fun q => k5 (lowerSafe_all (hl q)))
    have := loose_reread hloose
    unfold innerDoc
    rw [print_tidy]
    exact this

/-- **C62** for the elements of parsed documents without svg and math.  (Self-closing tags and CDATA sections are allowed only
inside those, hence not in what is left without the svg or math element.) -/
theorem c62_parsed {o : ParseOptions} (lib : EntityLib) (ro : RenderOptions) {s : Str} {d : Doc} {ps : List PNode} {t c : Tree}
    (hcm : complete s o) (hp : Doc.parse s o = .ok d) (h : docOf s o = some ps)
    (p1 : o.autoFixUnescapedLt = false) (p2 : o.autoFixUnexpectedEndtag = false ∨ o.autoFixUnclosedTag = true)
    (p3 : o.allowAttrKeyStartsWithEqualSign = false)
    (hd : ∀ n as sc, Occurs (.doctype n as sc) ps → as ≠ [] ∧ sc = false) (hf : homely ps)
    (ht : d.tree? = some t) (hw : Within c t) (hc : c.data.nodeType = .tag) (hraw : c.data.content = none)
    (hq : ro.removeAttrQuote = true → optionalNodes ps) (hl : ro.lowercaseTagname = true → lowerSafe o ps)
    (he : ro.encodeContent = true → hidesLt lib) (hi : ro.innerHtml = true) (h2 : ro.alwaysCloseVoid = false) :
    ∃ r, build lib c ro false = .ok r ∧
      (docOf r o = some (innerDoc lib ro c) ↔ ∀ w, Occurs (.text w) (Tree.pnodes (recodeAts lib ro [c.data] c.kids)) → '<' ∉ w) := by
  obtain ⟨a, k1, k2, t', k3, k4, k5, k6, k7⟩ := parse_machine_complete hp hcm
  have hwf := c04_wellformed hcm h p1 p2 p3 hd
  rw [docOf_machine k1 k2] at h
  simp only [Option.some.injEq] at h
  rw [h] at k4
  have htt : t' = t := by
    rw [ht] at k3
    exact (Option.some.inj k3).symm
  subst htt
  subst k4
  obtain ⟨g1, g2, g3⟩ := part_place k7 hw
  have hpl := g3 (.inl hc)
  obtain ⟨anc, ha⟩ := hpl
  have hsh : c.shaped := by
    rcases g1 with g1 | g1
    · rw [g1] at hc; rw [hc] at k5; cases k5
    · exact g1
  refine c62_reread o lib ro c hc hsh hraw (homely_place ha hf hwf) (fun q => optional_at ha (hq q)) (fun q => ?_) he hi h2
  intro n as sc ct ks e hoc
  exact hl q n as sc ct ks e (occurs_trans ⟨_, ha⟩ hoc)

/-! ## Default options -/

theorem recode_default (lib : EntityLib) (ro : RenderOptions) (h1 : ro.minifySpaces = false) (h2 : ro.decodeEntity = false)
    (h3 : ro.encodeContent = false) :
    (∀ (t : Tree) (before : List NodeD), recodeAt lib ro before t = t) ∧ (∀ (ts : List Tree) (before : List NodeD), recodeAts lib ro before ts = ts) := by
  have hn : ∀ pre n, recode lib ro pre n = n := by
    intro pre n
    obtain ⟨ix, ty, b, e, ct, tm⟩ := n
    have : textOut lib ro pre = id := by funext w; simp [textOut, h1, h2]
    cases ty <;> simp [recode, h1, h3, this]
  apply Tree.induct
  · intro d e before; simp only [recodeAt, hn]
  · intro d e ts ih before; simp only [recodeAt, hn, ih]
  · intro before; rfl
  · intro t ts h1 h2 before; simp only [recodeAts, h1, h2]

/-- A well-formed document has no empty texts and no texts in a row. -/
theorem wf_same {o : ParseOptions} : (∀ p, ∀ ctx q, wfNode o ctx q p → withoutNode isEmptyText p = p ∧ joinNode p = p ∧ isEmptyText p = false) ∧
    (∀ ps, ∀ ctx q, wfNodes o ctx q ps → withoutNodes isEmptyText ps = ps ∧ joinTexts ps = ps) := by
  apply PNode.induct
  · intro w ctx q h
    refine ⟨rfl, rfl, ?_⟩
    cases w with
    | nil => exact absurd rfl h.1
    | cons c w => rfl
  · intro w ctx q h; exact ⟨rfl, rfl, rfl⟩
  · intro w ctx q h; exact ⟨rfl, rfl, rfl⟩
  · intro n as s ctx q h; exact ⟨rfl, rfl, rfl⟩
  · intro n as s ct ks e ih ctx q h
    have hk : withoutNodes isEmptyText ks = ks ∧ joinTexts ks = ks := by
      simp only [wfNode] at h
      obtain ⟨_, _, h⟩ := h
      split at h
      · rw [h.2.1]; exact ⟨rfl, rfl⟩
      · split at h
        · rw [h.2.1]; exact ⟨rfl, rfl⟩
        · split at h
          · rw [h.1]; exact ⟨rfl, rfl⟩
          · exact ih _ _ h.2.2
    exact ⟨by simp only [withoutNode, hk.1], by simp only [joinNode, hk.2], rfl⟩
  · intro ctx q h; exact ⟨rfl, rfl⟩
  · intro p ps h1 h2 ctx q h
    simp only [wfNodes] at h
    obtain ⟨a1, a2, a3⟩ := h1 _ _ h.1
    obtain ⟨b1, b2⟩ := h2 _ _ h.2.2
    refine ⟨by simp only [withoutNodes, a1, a3, b1, Bool.false_eq_true, if_false], ?_⟩
    simp only [joinTexts, a2, b2]
    cases p with
    | text w =>
      cases ps with
      | nil => rfl
      | cons r ps =>
        have := h.2.1 rfl r rfl
        cases r <;> first | rfl | simp [isText] at this
    | _ => rfl

/-- **C62** with default options: the inner html of an element is read as exactly its children. -/
theorem c62_default {o : ParseOptions} (lib : EntityLib) {s : Str} {d : Doc} {ps : List PNode} {t c : Tree}
    (hcm : complete s o) (hp : Doc.parse s o = .ok d) (h : docOf s o = some ps)
    (p1 : o.autoFixUnescapedLt = false) (p2 : o.autoFixUnexpectedEndtag = false ∨ o.autoFixUnclosedTag = true)
    (p3 : o.allowAttrKeyStartsWithEqualSign = false)
    (hd : ∀ n as sc, Occurs (.doctype n as sc) ps → as ≠ [] ∧ sc = false) (hf : homely ps)
    (ht : d.tree? = some t) (hw : Within c t) (hc : c.data.nodeType = .tag) (hraw : c.data.content = none) :
    ∃ r, build lib c { innerHtml := true } false = .ok r ∧ docOf r o = some (Tree.pnodes c.kids) := by
  obtain ⟨r, k1, k2⟩ := c62_parsed lib { innerHtml := true } hcm hp h p1 p2 p3 hd hf ht hw hc hraw (fun q => by cases q)
    (fun q => by cases q) (fun q => by cases q) rfl rfl
  have hr : recodeAts lib { innerHtml := true } [c.data] c.kids = c.kids := (recode_default lib _ rfl rfl rfl).2 _ _
  have hpl : Siblings (Tree.pnodes c.kids) ps ∧ wfDoc o ps := by
    obtain ⟨a, g1, g2, t', g3, g4, g5, g6, g7⟩ := parse_machine_complete hp hcm
    have hwf := c04_wellformed hcm h p1 p2 p3 hd
    rw [docOf_machine g1 g2] at h
    simp only [Option.some.injEq] at h
    rw [h] at g4
    have htt : t' = t := by
      rw [ht] at g3
      exact (Option.some.inj g3).symm
    subst htt
    subst g4
    exact ⟨(part_place g7 hw).2.2 (.inl hc), hwf⟩
  obtain ⟨⟨anc, ha⟩, hwf⟩ := hpl
  have hsame := (wf_same (o := o)).2 _ none none (homely_place ha hf hwf)
  have hin : innerDoc lib { innerHtml := true } c = Tree.pnodes c.kids := by
    unfold innerDoc
    rw [hr]
    unfold tidyTexts changed
    simp only [Bool.false_eq_true, if_false]
    rw [hsame.1, hsame.2]
  rw [hin, hr] at k2
  refine ⟨r, k1, k2.2 ?_⟩
  intro w hoc
  exact allsIn_occurs (docOf_noLt h) _ (occurs_trans ⟨_, ha⟩ hoc)

/-! ## Samples -/

/-- An element with all kinds of children. -/
def Spec.innerSample : String := "x<DIV id=\"a\">b  &gt; c<I>d</I ><!--e--> <PRE>f  g</PRE></DIV>y"

/-- The element of the sample. -/
def Spec.innerElem : Tree := (treeOf innerSample).kids.getD 1 (.mk {} none none)

example : outOf (build smallLib innerElem { innerHtml := true } false) = some "b  &gt; c<I>d</I ><!--e--> <PRE>f  g</PRE>".toList ∧
    docOf "b  &gt; c<I>d</I ><!--e--> <PRE>f  g</PRE>".toList {} = some (Tree.pnodes innerElem.kids) := by decide +kernel

example : outOf (build smallLib innerElem { entityOptions with innerHtml := true, alwaysCloseVoid := false } false) =
    some "b >c<i>d</i><pre>f  g</pre>".toList := by decide +kernel

example : outOf (build smallLib innerElem entityOptions true) = some "b >cdf  g".toList := by decide +kernel

/-- The document stands for its only element: `x` and `y` are left out. -/
example : outOf (build smallLib (treeOf innerSample) {} true) = outOf (build smallLib innerElem {} true) ∧
    outOf (build smallLib (treeOf innerSample) { innerHtml := true } false) = outOf (build smallLib innerElem { innerHtml := true } false) := by
  decide +kernel

/-- An element of a `pre` rendered on its own is not preformatted. -/
example : outOf (build smallLib (treeOf "<pre><b>a  b</b></pre>") { minifySpaces := true } false) = some "<pre><b>a  b</b></pre>".toList ∧
    outOf (build smallLib (((treeOf "<pre><b>a  b</b></pre>").kids.getD 0 (.mk {} none none)).kids.getD 0 (.mk {} none none))
      { minifySpaces := true, innerHtml := true } false) = some "a b".toList := by decide +kernel

/-- The children of an svg element cannot stand on their own. -/
example : outOf (build smallLib ((treeOf "<svg><path/></svg>").kids.getD 0 (.mk {} none none)) { innerHtml := true } false) =
    some "<path />".toList ∧ docOf "<path />".toList {} = none := by decide +kernel

/-- The sample meets the hypotheses. -/
example : ∃ r, build smallLib innerElem { innerHtml := true } false = .ok r ∧ docOf r {} = some (Tree.pnodes innerElem.kids) := by
  have hps : docOf innerSample.toList {} = some [.text "x".toList, .elem "DIV".toList [{ key := some "id".toList, value := some "a".toList, quote := some '"' }] false none
      [.text "b  &gt; c".toList, .elem "I".toList [] false none [.text "d".toList] (some "I ".toList), .comment "e".toList, .text " ".toList,
        .elem "PRE".toList [] false none [.text "f  g".toList] (some "PRE".toList)] (some "DIV".toList), .text "y".toList] := by decide +kernel
  obtain ⟨d, hd⟩ := (parse_docOf (o := {}) (complete_of rfl)).2 ⟨_, hps⟩
  obtain ⟨_, _, _, t, ht, _⟩ := parse_machine_complete hd (complete_of rfl)
  have htt : t = treeOf innerSample := by unfold treeOf; rw [hd]; simp only [ht, Option.getD_some]
  refine c62_default smallLib (complete_of rfl) hd hps rfl (.inl rfl) rfl ?_ ?_ ht ?_ ?_ ?_
  · intro n as sc h
    refine allsIn_occurs (P := fun p => ∀ n as sc, p = .doctype n as sc → as ≠ [] ∧ sc = false) ?_ _ h n as sc rfl
    simp [allsIn, allIn]
  · intro n as s ct ks e h
    refine allsIn_occurs (P := Homely) ?_ _ h n as s ct ks e rfl
    have he : ∀ (n : Str) as s ct ks e, ¬ isForeign n → Homely (.elem n as s ct ks e) := by
      intro n as s ct ks e hn n' as' s' ct' ks' e' h
      simp only [PNode.elem.injEq] at h
      rw [← h.1]
      exact hn
    have ht : ∀ w, Homely (.text w) := fun w n as s ct ks e h => by cases h
    have hm : ∀ w, Homely (.comment w) := fun w n as s ct ks e h => by cases h
    simp only [allsIn, allIn, ht, hm, true_and, and_true]
    exact ⟨he _ _ _ _ _ _ (by decide +kernel), he _ _ _ _ _ _ (by decide +kernel), he _ _ _ _ _ _ (by decide +kernel)⟩
  · rw [htt]
    refine .kid .self ?_
    have hl : 1 < (treeOf innerSample).kids.length := by decide +kernel
    unfold innerElem
    rw [List.getD_eq_getElem?_getD, List.getElem?_eq_getElem hl, Option.getD_some]
    exact List.getElem_mem hl
  · decide +kernel
  · decide +kernel

end Rphtml
