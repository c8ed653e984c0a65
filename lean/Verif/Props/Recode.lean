import Verif.Proofs.Recode
import Verif.Props.Blank
import Verif.Proofs.TextInv

/-!
# C61: documents rendered with the entity options
-/

namespace Rphtml
open Spec

/-! ## Texts with `<` -/

theorem noLt_glue {p : PNode} {ps : List PNode} (h : allsIn NoLt (glue p ps)) : allIn NoLt p ∧ allsIn NoLt ps := by
  by_cases hp : isText p = true
  · cases p with
    | text w =>
      cases ps with
      | nil => exact h
      | cons q ps =>
        cases q with
        | text v =>
          simp only [glue, allsIn, allIn, NoLt, List.mem_append, not_or] at h ⊢
          exact ⟨h.1.1, h.1.2, h.2⟩
        | _ => exact h
    | _ => simp [isText] at hp
  · simp only [Bool.not_eq_true] at hp
    rw [glue_cons hp] at h
    exact h

theorem noLt_join : (∀ p, allIn NoLt (joinNode p) → allIn NoLt p) ∧ (∀ ps, allsIn NoLt (joinTexts ps) → allsIn NoLt ps) := by
  apply PNode.induct
  · intro w h; exact h
  · intro w h; exact h
  · intro w h; exact h
  · intro n as s h; exact h
  · intro n as s ct ks e ih h
    simp only [joinNode, allIn] at h ⊢
    exact ⟨trivial, ih h.2⟩
  · intro _; trivial
  · intro p ps h1 h2 h
    simp only [joinTexts] at h
    have := noLt_glue h
    exact ⟨h1 this.1, h2 this.2⟩

theorem noLt_without {q : PNode → Bool} (hq : ∀ p, q p = true → allIn NoLt p) :
    (∀ p, allIn NoLt (withoutNode q p) → allIn NoLt p) ∧ (∀ ps, allsIn NoLt (withoutNodes q ps) → allsIn NoLt ps) := by
  apply PNode.induct
  · intro w h; exact h
  · intro w h; exact h
  · intro w h; exact h
  · intro n as s h; exact h
  · intro n as s ct ks e ih h
    simp only [withoutNode, allIn] at h ⊢
    exact ⟨trivial, ih h.2⟩
  · intro _; trivial
  · intro p ps h1 h2 h
    simp only [withoutNodes] at h
    split at h
    · rename_i hp; exact ⟨hq p hp, h2 h⟩
    · exact ⟨h1 h.1, h2 h.2⟩

theorem noLt_unquote : (∀ p, allIn NoLt (unquoteNode p) → allIn NoLt p) ∧ (∀ ps, allsIn NoLt (unquoteNodes ps) → allsIn NoLt ps) := by
  apply PNode.induct
  · intro w h; exact h
  · intro w h; exact h
  · intro w h; exact h
  · intro n as s h; exact h
  · intro n as s ct ks e ih h
    simp only [unquoteNode, allIn] at h ⊢
    exact ⟨trivial, ih h.2⟩
  · intro _; trivial
  · intro p ps h1 h2 h; exact ⟨h1 h.1, h2 h.2⟩

theorem noLt_rename (f g : Str → Str) : (∀ p, allIn NoLt (renameNode f g p) → allIn NoLt p) ∧
    (∀ ps, allsIn NoLt (renameNodes f g ps) → allsIn NoLt ps) := by
  apply PNode.induct
  · intro w h; exact h
  · intro w h; exact h
  · intro w h; exact h
  · intro n as s h; exact h
  · intro n as s ct ks e ih h
    simp only [renameNode, allIn] at h ⊢
    exact ⟨trivial, ih h.2⟩
  · intro _; trivial
  · intro p ps h1 h2 h; exact ⟨h1 h.1, h2 h.2⟩

theorem noLt_changed (ro : RenderOptions) {ps : List PNode} (h : allsIn NoLt (tidyTexts (changed ro ps))) : allsIn NoLt ps := by
  unfold tidyTexts at h
  have h := noLt_join.2 _ h
  have h := (noLt_without (q := isEmptyText) (by
    intro p hp
    cases p with
    | text w => cases w with
      | nil => simp [allIn, NoLt]
      | cons c w => simp [isEmptyText] at hp
    | _ => simp [isEmptyText] at hp)).2 _ h
  unfold changed at h
  simp only at h
  have hn : ∀ ps, allsIn NoLt (withoutNodes isNote ps) → allsIn NoLt ps := (noLt_without (by
    intro p hp
    cases p with
    | comment w => trivial
    | _ => simp [isNote] at hp)).2
  have e : ∀ (b : Bool) (f : List PNode → List PNode), (∀ ps, allsIn NoLt (f ps) → allsIn NoLt ps) → ∀ ps,
      allsIn NoLt (if b = true then f ps else ps) → allsIn NoLt ps := by
    intro b f hf ps h
    cases b with
    | true => exact hf _ h
    | false => exact h
  exact e _ _ noLt_unquote.2 _ (e _ _ (noLt_rename _ _).2 _ (e _ _ (noLt_rename _ _).2 _ (e _ _ hn _ h)))

theorem loose_changed {o : ParseOptions} (ro : RenderOptions) {ps : List PNode} (h : looseNodes false o none none ps)
    (hq : ro.removeAttrQuote = true → optionalNodes ps) (hl : ro.lowercaseTagname = true → allsIn (LowerOk o) ps) :
    looseNodes false o none none (changed ro ps) := by
  unfold changed
  simp only
  have h1 : looseNodes false o none none (if ro.removeAttrQuote = true then unquoteNodes ps else ps) := by
    split
    · rename_i q; exact loose_unquote.2 _ (hq q) _ _ h
    · exact h
  have hl1 : ro.lowercaseTagname = true → allsIn (LowerOk o) (if ro.removeAttrQuote = true then unquoteNodes ps else ps) := by
    intro q
    split
    · exact lowerOk_unquote.2 _ (hl q)
    · exact hl q
  generalize (if ro.removeAttrQuote = true then unquoteNodes ps else ps) = ps1 at h1 hl1
  have h2 : looseNodes false o none none (if ro.lowercaseTagname = true then renameNodes fold fold ps1 else ps1) := by
    split
    · rename_i q
      refine ((loose_rename (o := o)).2 _ ((allsIn_imp ?_).2 _ (hl1 q)) none (by intro m hm; cases hm)).2 none none (.inl rfl) h1
      intro p hp n as s ct ks e he
      subst he
      exact lower_ok hp
    · exact h1
  generalize (if ro.lowercaseTagname = true then renameNodes fold fold ps1 else ps1) = ps2 at h2
  have h3 : looseNodes false o none none (if ro.removeEndtagSpace = true then renameNodes id trimEnd ps2 else ps2) := by
    split
    · refine ((loose_rename (o := o)).2 _ ((allsIn_true ?_).2 _) none (by intro m hm; cases hm)).2 none none (.inl rfl) h2
      intro p n as s ct ks e _
      exact trim_ok o n e
    · exact h2
  generalize (if ro.removeEndtagSpace = true then renameNodes id trimEnd ps2 else ps2) = ps3 at h3
  split
  · refine ((loose_without (b := false) (b' := false) (o := o) (q := isNote) ?_ ?_).2 _ none none h3).1
    · intro p hp
      cases p with
      | comment w => exact ⟨w, .inr rfl⟩
      | _ => simp [isNote] at hp
    · intro w _ _ q; cases q
  · exact h3

/-- A text node without `<`. -/
def TextFree (n : NodeD) : Prop := n.nodeType.isText → ∀ w, n.content = some w → '<' ∉ w

/-- No text of a document contains a `<`. -/
theorem docOf_noLt {s : Str} {o : ParseOptions} {ps : List PNode} (h : docOf s o = some ps) : allsIn NoLt ps := by
  unfold docOf at h
  cases hp : Doc.parse s o with
  | err e => rw [hp] at h; cases h
  | panic x => rw [hp] at h; cases h
  | ok d =>
    rw [hp] at h
    obtain ⟨t, ht, rfl⟩ := Option.map_eq_some_iff.1 h
    obtain ⟨d0, hr, he, hh, _, _, _⟩ := parse_ok hp
    obtain ⟨hroot, h0, _, g, ge, _⟩ := parse_graph hp
    have hall : ∀ i, i < d.heap.size → TextFree (d.heap.cell i).toNodeD := by
      intro i hi htx w hw
      rw [hh] at hi htx hw
      obtain ⟨w', k1, _, k2, _⟩ := hr.finalText he i hi htx
      rw [show (d0.finalHeap.cell i).toNodeD.content = (d0.finalHeap.cell i).content from rfl, k1] at hw
      cases hw
      exact k2
    have hn := allNodes_toTree g ge h0 hall _ _ t (by rw [hroot]; exact .root) ht
    have key : (∀ t : Tree, allNodes TextFree t → allIn NoLt t.pnode) ∧
        (∀ ts : List Tree, allForest TextFree ts →
          allsIn NoLt (Tree.pnodes ts)) := by
      apply Tree.induct
      · intro d e h
        simp only [allNodes] at h
        obtain ⟨ix, ty, b, en, ct, tm⟩ := d
        cases ty
        case text =>
          cases ct with
          | none => simp [Tree.pnode, allIn, NoLt]
          | some w => exact h.1 (by simp [NodeType.isText]) w rfl
        case spacesBetweenTag =>
          cases ct with
          | none => simp [Tree.pnode, allIn, NoLt]
          | some w => exact h.1 (by simp [NodeType.isText]) w rfl
        all_goals simp [Tree.pnode, allIn, NoLt, allsIn]
      · intro d e ts ih h
        simp only [allNodes] at h
        obtain ⟨ix, ty, b, en, ct, tm⟩ := d
        cases ty
        case text =>
          cases ct with
          | none => simp [Tree.pnode, allIn, NoLt]
          | some w => exact h.1 (by simp [NodeType.isText]) w rfl
        case spacesBetweenTag =>
          cases ct with
          | none => simp [Tree.pnode, allIn, NoLt]
          | some w => exact h.1 (by simp [NodeType.isText]) w rfl
        all_goals simp [Tree.pnode, allIn, NoLt, ih h.2.2]
      · intro _; trivial
      · intro t ts h1 h2 h
        simp only [allForest] at h
        exact ⟨h1 h.1, h2 h.2⟩
    obtain ⟨n, e, cs⟩ := t
    cases cs with
    | none => trivial
    | some ts =>
      simp only [allNodes] at hn
      exact key.2 ts hn.2.2

/-! ## C61 -/

/-- **C61** (what is written), for every document tree, whatever it contains: rendering with `minify_spaces`, `decode_entity`
and `encode_content`, and the formatting options besides, yields the source text of the document with the texts, and the contents
of titles and text areas, replaced accordingly. -/
theorem c61_written (lib : EntityLib) (ro : RenderOptions) (t : Tree) (hroot : t.data.nodeType = .abstractRoot)
    (hend : t.endTag = none) (hshape : Tree.shapeds t.kids) (h1 : ro.innerHtml = false) (h2 : ro.alwaysCloseVoid = false) :
    build lib t ro false = .ok (printNodes (writtenDoc lib ro t)) := by
  obtain ⟨n, e, cs⟩ := t
  simp only [Tree.data] at hroot
  simp only [Tree.endTag] at hend
  subst hend
  have hcs : ∃ ts, Tree.kids (.mk n none cs) = ts ∧ build lib (.mk n none cs) ro false = build lib (rootTree n ts) ro false := by
    cases cs with
    | some ts => exact ⟨ts, rfl, rfl⟩
    | none =>
      refine ⟨[], rfl, ?_⟩
      rw [build_rootTree lib h1 hroot]
      have hb : ∀ (st : RenderStatus), buildNode lib ro n st = .ok (st, []) := by
        intro st; unfold buildNode; simp only [hroot]
      unfold build innerTypeOf buildTarget
      simp only [h1, Bool.false_eq_true, if_false, reduceCtorEq, or_self, buildTree, hb, Except.bind_ok', buildEnd, linears, buildLine,
        List.append_nil]
      rfl
  obtain ⟨ts, hts, hbuild⟩ := hcs
  rw [hts] at hshape
  rw [hbuild, build_recode lib h1 hroot hshape]
  have hsh : Tree.shapeds (recodeAts lib ro [] ts) := recode_shaped lib ro ts hshape []
  rw [build_formatted lib (plainRo ro) (rootTree n (recodeAts lib ro [] ts)) hroot rfl hsh h1 h2 rfl rfl]
  unfold writtenDoc recodedDoc
  rw [hts]
  rfl

/-- **C61** (reading it back): the rendering is read as that document exactly if no text of it contains a `<`. -/
theorem c61_reread (o : ParseOptions) (lib : EntityLib) (ro : RenderOptions) (t : Tree) (hroot : t.data.nodeType = .abstractRoot)
    (hend : t.endTag = none) (hshape : Tree.shapeds t.kids) (hwf : wfDoc o t.doc)
    (hq : ro.removeAttrQuote = true → optionalNodes t.doc) (hl : ro.lowercaseTagname = true → lowerSafe o t.doc)
    (he : ro.encodeContent = true → hidesLt lib) (h1 : ro.innerHtml = false) (h2 : ro.alwaysCloseVoid = false) :
    ∃ r, build lib t ro false = .ok r ∧
      (docOf r o = some (writtenDoc lib ro t) ↔ ∀ w, Occurs (.text w) (recodedDoc lib ro t) → '<' ∉ w) := by
  refine ⟨_, c61_written lib ro t hroot hend hshape h1 h2, ?_⟩
  have henc : ro.encodeContent = true → ∀ w, '<' ∉ encoded lib w := by
    intro q w hm
    obtain ⟨g1, g2⟩ := he q
    unfold encoded at hm
    rw [List.mem_flatMap] at hm
    obtain ⟨c, _, hm⟩ := hm
    split at hm
    · rename_i hc
      obtain ⟨s, k1, k2⟩ := g2 c hc
      rw [k1] at hm
      exact k2 hm
    · rename_i hc
      simp only [List.mem_singleton] at hm
      subst hm
      exact hc g1
  obtain ⟨_, _, k3, k4, k5⟩ := (recode_doc lib ro henc (o := o)).2 t.kids hshape []
  constructor
  · intro h w hw
    exact allsIn_occurs (noLt_changed ro (docOf_noLt h)) _ hw
  · intro h
    have hlt : allsIn NoLt (recodedDoc lib ro t) := by
      refine allIn_of_occurs.2 _ ?_
      intro q hq
      cases q with
      | text w => exact h w hq
      | _ => trivial
    have hloose := loose_changed ro (k3 hlt none none (loose_of_wf.2 _ _ _ hwf)) (fun q => k4 (hq q))
      (fun q => k5 (lowerSafe_all (hl q)))
    have := loose_reread hloose
    unfold writtenDoc recodedDoc
    rw [print_tidy]
    exact this

theorem recode_close (lib : EntityLib) (ro : RenderOptions) (b : Bool) :
    (∀ (t : Tree) (before : List NodeD), recodeAt lib { ro with alwaysCloseVoid := b } before t = recodeAt lib ro before t) ∧
    (∀ (ts : List Tree) (before : List NodeD), recodeAts lib { ro with alwaysCloseVoid := b } before ts = recodeAts lib ro before ts) := by
  have h : ∀ pre n, recode lib { ro with alwaysCloseVoid := b } pre n = recode lib ro pre n := fun _ _ => rfl
  apply Tree.induct
  · intro d e before; simp only [recodeAt, h]
  · intro d e ts ih before; simp only [recodeAt, h, ih]
  · intro before; rfl
  · intro t ts h1 h2 before; simp only [recodeAts, h1, h2]

/-- **C61** for parsed documents.  The conditions on the parse options and on doctypes are those of C04, and `always_close_void`
may be set as well if open elements are not closed at the end of the input. -/
theorem c61_parsed {o : ParseOptions} (lib : EntityLib) (ro : RenderOptions) {s : Str} {d : Doc} {ps : List PNode}
    (hc : complete s o) (hp : Doc.parse s o = .ok d) (h : docOf s o = some ps)
    (p1 : o.autoFixUnescapedLt = false) (p2 : o.autoFixUnexpectedEndtag = false ∨ o.autoFixUnclosedTag = true)
    (p3 : o.allowAttrKeyStartsWithEqualSign = false)
    (hd : ∀ n as sc, Occurs (.doctype n as sc) ps → as ≠ [] ∧ sc = false)
    (hq : ro.removeAttrQuote = true → optionalNodes ps) (hl : ro.lowercaseTagname = true → lowerSafe o ps)
    (he : ro.encodeContent = true → hidesLt lib) (h1 : ro.innerHtml = false)
    (h2 : ro.alwaysCloseVoid = false ∨ o.autoFixUnclosedTag = false) :
    ∃ t r, d.tree? = some t ∧ t.doc = ps ∧ d.render lib ro = .ok r ∧
      (docOf r o = some (writtenDoc lib ro t) ↔ ∀ w, Occurs (.text w) (recodedDoc lib ro t) → '<' ∉ w) := by
  obtain ⟨a, k1, k2, t, k3, k4, k5, k6, k7⟩ := parse_machine_complete hp hc
  have hwf := c04_wellformed hc h p1 p2 p3 hd
  rw [docOf_machine k1 k2] at h
  simp only [Option.some.injEq] at h
  rw [h] at k4
  subst k4
  obtain ⟨r, q1, q2⟩ := c61_reread o lib { ro with alwaysCloseVoid := false } t k5 k6 k7 hwf hq hl he h1 rfl
  have hdoc : recodedDoc lib { ro with alwaysCloseVoid := false } t = recodedDoc lib ro t := by
    unfold recodedDoc; rw [(recode_close lib ro false).2]
  have hw : writtenDoc lib { ro with alwaysCloseVoid := false } t = writtenDoc lib ro t := by
    unfold writtenDoc; rw [hdoc]; rfl
  rw [hdoc, hw] at q2
  refine ⟨t, r, k3, rfl, ?_, q2⟩
  have hr : d.render lib ro = d.render lib { ro with alwaysCloseVoid := false } := by
    rcases h2 with h2 | h2
    · rw [show { ro with alwaysCloseVoid := false } = ro by rw [← h2]]
    · cases ha : ro.alwaysCloseVoid with
      | false => rw [show { ro with alwaysCloseVoid := false } = ro by rw [← ha]]
      | true =>
        have := (c34_parsed hp h2 lib ro).1
        rwa [show { ro with alwaysCloseVoid := true } = ro by rw [← ha]] at this
  rw [hr]
  unfold Doc.render
  rw [k3]
  exact q1

/-- The documents of the children. -/
def optDoc : Option (List Tree) → List PNode
  | none => []
  | some ts => Tree.pnodes ts

/-- Texts do not get a `<` without `decode_entity`. -/
theorem noLt_recode (lib : EntityLib) (ro : RenderOptions) (hd : ro.decodeEntity = false) :
    (∀ t : Tree, ∀ before, allIn NoLt t.pnode → allIn NoLt (recodeAt lib ro before t).pnode) ∧
    (∀ ts : List Tree, ∀ before, allsIn NoLt (Tree.pnodes ts) → allsIn NoLt (Tree.pnodes (recodeAts lib ro before ts))) := by
  have hleaf : ∀ (d : NodeD) (e : Option NodeD) (cs cs' : Option (List Tree)) (pre : Bool), allIn NoLt (Tree.mk d e cs).pnode →
      (allsIn NoLt (optDoc cs) → allsIn NoLt (optDoc cs')) → allIn NoLt (Tree.mk (recode lib ro pre d) e cs').pnode := by
    intro d e cs cs' pre h hk
    obtain ⟨ix, ty, b, en, ct, tm⟩ := d
    cases ty
    case text =>
      cases ct with
      | none => simp [recode, Tree.pnode, allIn, NoLt]
      | some w =>
        have h : '<' ∉ w := h
        simp only [recode, Tree.pnode, Option.map_some, Option.getD_some, allIn, NoLt, textOut, hd, Bool.false_eq_true, if_false]
        split
        · exact fun q => h (collapse_mem q)
        · exact h
    case spacesBetweenTag =>
      simp only [recode]
      split
      · simp [Tree.pnode, allIn, NoLt]
      · exact h
    case tag =>
      simp only [recode]
      split <;> cases cs <;> cases cs' <;> exact ⟨trivial, hk h.2⟩
    case tagEnd => cases cs <;> cases cs' <;> exact ⟨trivial, hk h.2⟩
    case abstractRoot => cases cs <;> cases cs' <;> exact ⟨trivial, hk h.2⟩
    all_goals trivial
  apply Tree.induct
  · intro d e before h
    exact hleaf d e none none _ h id
  · intro d e ts ih before h
    exact hleaf d e (some ts) (some _) _ h (ih _)
  · intro _ _; trivial
  · intro t ts h1 h2 before h
    exact ⟨h1 _ h.1, h2 _ h.2⟩

/-- **C61**: without `decode_entity`, what is rendered is always read back; `encode_content` only asks of the codec that it
encodes `<`. -/
theorem c61_encode {o : ParseOptions} (lib : EntityLib) (ro : RenderOptions) {s : Str} {d : Doc} {ps : List PNode}
    (hc : complete s o) (hp : Doc.parse s o = .ok d) (h : docOf s o = some ps)
    (p1 : o.autoFixUnescapedLt = false) (p2 : o.autoFixUnexpectedEndtag = false ∨ o.autoFixUnclosedTag = true)
    (p3 : o.allowAttrKeyStartsWithEqualSign = false)
    (hd : ∀ n as sc, Occurs (.doctype n as sc) ps → as ≠ [] ∧ sc = false)
    (hq : ro.removeAttrQuote = true → optionalNodes ps) (hl : ro.lowercaseTagname = true → lowerSafe o ps)
    (he : ro.encodeContent = true → hidesLt lib) (h1 : ro.innerHtml = false)
    (h2 : ro.alwaysCloseVoid = false ∨ o.autoFixUnclosedTag = false) (h3 : ro.decodeEntity = false) :
    ∃ t r, d.tree? = some t ∧ t.doc = ps ∧ d.render lib ro = .ok r ∧ docOf r o = some (writtenDoc lib ro t) := by
  obtain ⟨t, r, k1, k2, k3, k4⟩ := c61_parsed lib ro hc hp h p1 p2 p3 hd hq hl he h1 h2
  refine ⟨t, r, k1, k2, k3, k4.2 ?_⟩
  intro w hw
  refine allsIn_occurs ((noLt_recode lib ro h3).2 t.kids [] ?_) _ hw
  have := docOf_noLt h
  rw [← k2] at this
  exact this

/-! ## Samples -/

/-- A codec with three entities. -/
def Spec.smallLib : EntityLib where
  decodeOne := fun e => if e = ['l', 't'] then some '<' else if e = ['g', 't'] then some '>' else if e = ['a', 'm', 'p'] then some '&' else none
  decodeAll := decodeBy fun e => if e = ['l', 't'] then some '<' else if e = ['g', 't'] then some '>' else if e = ['a', 'm', 'p'] then some '&' else none
  inHtmlSet := fun c => c = '<' || c = '>' || c = '&'
  encodeNamed := fun c => if c = '<' then some "&lt;".toList else if c = '>' then some "&gt;".toList else some "&amp;".toList

theorem smallLib_hides : hidesLt smallLib := by
  refine ⟨by decide, ?_⟩
  intro c _
  simp only [smallLib]
  by_cases h1 : c = '<'
  · exact ⟨_, by rw [if_pos h1], by decide⟩
  · by_cases h2 : c = '>'
    · exact ⟨_, by rw [if_neg h1, if_pos h2], by decide⟩
    · exact ⟨_, by rw [if_neg h1, if_neg h2], by decide⟩

/-- All options but `inner_html`. -/
def Spec.entityOptions : RenderOptions := { minifySpaces := true, removeAttrQuote := true, lowercaseTagname := true, removeEndtagSpace := true, removeComment := true, decodeEntity := true, encodeContent := true, alwaysCloseVoid := true }

/-- The text is decoded and its spaces are dropped, also the one that follows a space and a reference; the text in `pre` is
decoded only; the title is encoded. -/
def Spec.entitySample : String := "<P>a  &gt; b</P><PRE>c  &gt;</PRE><TITLE>d<e&gt;  f</TITLE>"

example : reformat smallLib {} entityOptions entitySample.toList =
    some "<p>a >b</p><pre>c  ></pre><title>d&lt;e&amp;gt;  f</title>".toList := by decide +kernel

example : writtenDoc smallLib entityOptions (treeOf entitySample) =
    [.elem "p".toList [] false none [.text "a >b".toList] (some "p".toList),
      .elem "pre".toList [] false none [.text "c  >".toList] (some "pre".toList),
      .elem "title".toList [] false (some "d&lt;e&amp;gt;  f".toList) [] (some "title".toList)] := by decide +kernel

/-- The sample meets the hypotheses of `c61_parsed`, and none of its texts contains a `<` when decoded: it is read back. -/
example : ∃ d t r, Doc.parse entitySample.toList {} = .ok d ∧ d.tree? = some t ∧
    d.render smallLib entityOptions = .ok r ∧ docOf r {} = some (writtenDoc smallLib entityOptions t) := by
  have hps : docOf entitySample.toList {} = some [.elem "P".toList [] false none [.text "a  &gt; b".toList] (some "P".toList),
      .elem "PRE".toList [] false none [.text "c  &gt;".toList] (some "PRE".toList),
      .elem "TITLE".toList [] false (some "d<e&gt;  f".toList) [] (some "TITLE".toList)] := by decide +kernel
  obtain ⟨d, hd⟩ := (parse_docOf (o := {}) (complete_of rfl)).2 ⟨_, hps⟩
  obtain ⟨t, r, k1, _, k2, k3⟩ := c61_parsed smallLib entityOptions (complete_of rfl) hd hps rfl (.inl rfl) rfl
    (by
      intro n as sc h
      refine allsIn_occurs (P := fun p => ∀ n as sc, p = .doctype n as sc → as ≠ [] ∧ sc = false) ?_ _ h n as sc rfl
      simp [allsIn, allIn])
    (by intro _; simp [optionalNodes, optionalNode])
    (by
      intro _ n as s ct ks e
      refine allsIn_occurs (P := LowerOk {}) ?_ _
      simp only [allsIn, allIn, LowerOk, and_true, true_and]
      refine ⟨⟨?_, ?_⟩, ⟨?_, ?_⟩, ?_, ?_⟩
      all_goals first | decide +kernel | (intro e' he; cases he; decide +kernel))
    (fun _ => smallLib_hides) rfl (.inr rfl)
  refine ⟨d, t, r, hd, k1, k2, k3.2 ?_⟩
  have ht : recodedDoc smallLib entityOptions t = [.elem "P".toList [] false none [.text "a >b".toList] (some "P".toList),
      .elem "PRE".toList [] false none [.text "c  >".toList] (some "PRE".toList),
      .elem "TITLE".toList [] false (some "d&lt;e&amp;gt;  f".toList) [] (some "TITLE".toList)] := by
    have : t = treeOf entitySample := by unfold treeOf; rw [hd]; simp only [k1, Option.getD_some]
    rw [this]
    decide +kernel
  rw [ht]
  intro w hw
  refine allsIn_occurs (P := NoLt) ?_ _ hw
  simp only [allsIn, allIn, NoLt]
  decide +kernel

/-- The condition is needed: a decoded `<` begins a tag, or makes the text illegal. -/
example : reformat smallLib {} { decodeEntity := true } "<p>&lt;br&gt;</p>".toList = some "<p><br></p>".toList ∧
    docOf "<p><br></p>".toList {} = some [.elem "p".toList [] false none [.elem "br".toList [] false none [] none] (some "p".toList)] ∧
    reformat smallLib {} { decodeEntity := true } "<p>a&lt;b</p>".toList = some "<p>a<b</p>".toList ∧
    docOf "<p>a<b</p>".toList {} = none := by decide +kernel

/-- So is the condition on the codec: one that replaces `[` by `</title>` ends the title early. -/
def Spec.badLib : EntityLib := { smallLib with inHtmlSet := fun c => c = '[', encodeNamed := fun _ => some "</title>".toList }

example : reformat badLib {} { encodeContent := true } "<title>a[b</title>".toList = some "<title>a</title>b</title>".toList ∧
    docOf "<title>a</title>b</title>".toList {} = none := by decide +kernel

end Rphtml
