import Verif.Proofs.MinIdem
import Verif.Spec.Samples

/-!
# C56: formatting a formatted text
-/

namespace Rphtml
open Spec

/-- Parse a text and render it with the given options. -/
def Spec.reformat (lib : EntityLib) (o : ParseOptions) (ro : RenderOptions) (s : Str) : Option Str :=
  match Doc.parse s o with
  | .ok d => (d.render lib ro).toOption
  | _ => none

/-! ## What rendering writes -/

/-- Every shaped tree is rendered as the source text of the document with the changes of the options. -/
theorem build_formatted (lib : EntityLib) (ro : RenderOptions) (t : Tree) (hroot : t.data.nodeType = .abstractRoot)
    (hend : t.endTag = none) (hshape : Tree.shapeds t.kids)
    (h1 : ro.innerHtml = false) (h2 : ro.alwaysCloseVoid = false) (h3 : ro.decodeEntity = false) (h4 : ro.encodeContent = false) :
    build lib t ro false = .ok (printNodes (rendered ro t)) := by
  obtain ⟨n, e, cs⟩ := t
  simp only [Tree.data] at hroot
  simp only [Tree.endTag] at hend
  subst hend
  have hcs : ∃ ts, Tree.kids (.mk n none cs) = ts ∧ build lib (.mk n none cs) ro false = build lib (rootTree n ts) ro false := by
    cases cs with
    | some ts => exact ⟨ts, rfl, rfl⟩
    | none =>
      refine ⟨[], rfl, ?_⟩
      rw [build_rootTree lib h1 hroot]
      have hb : ∀ (st : RenderStatus), buildNode lib ro n st = .ok (st, []) := by
        intro st; unfold buildNode; simp only [hroot]
      unfold build innerTypeOf buildTarget
      simp only [h1, Bool.false_eq_true, if_false, reduceCtorEq, or_self, buildTree, hb, Except.bind_ok', buildEnd, linears, buildLine,
        List.append_nil]
      rfl
  obtain ⟨ts, hts, hbuild⟩ := hcs
  have hdoc : Tree.doc (.mk n none cs) = Tree.pnodes ts := by unfold Tree.doc; rw [hts]
  rw [hts] at hshape
  obtain ⟨t1, a1, a2, a3, _⟩ := step_minify lib ro h3 h1 hroot hshape {}
  obtain ⟨t2, b1, b2, b3, _⟩ := step_quote lib { ro with minifySpaces := false } hroot a2 {}
  obtain ⟨t3, c1, c2, c3, _⟩ := step_lower lib { ro with minifySpaces := false, removeAttrQuote := false } hroot b2 {}
  obtain ⟨t4, d1, d2, d3, _⟩ := step_trim lib { ro with minifySpaces := false, removeAttrQuote := false, lowercaseTagname := false } hroot c2 {}
  obtain ⟨t5, e1, e2, e3, _⟩ := step_comment lib { ro with minifySpaces := false, removeAttrQuote := false, lowercaseTagname := false, removeEndtagSpace := false } hroot d2 {}
  have hfin : build lib (rootTree n t5) {} false = .ok (printNodes (Tree.pnodes t5)) := by
    have := build_doc lib (t := rootTree n t5) hroot rfl e2
    exact this
  have hro : { ro with minifySpaces := false, removeAttrQuote := false, lowercaseTagname := false, removeEndtagSpace := false, removeComment := false } = ({} : RenderOptions) := by
    cases ro; simp_all
  have hr : rendered ro (.mk n none cs) = tidyTexts (Tree.pnodes t5) := by
    simp only at b3 c3 d3 e3
    unfold rendered
    rw [hdoc, hts, e3, d3, c3, b3, a3]
  rw [hr, print_tidy, hbuild, a1, b1, c1, d1]
  apply e1
  simp only at hro ⊢
  rw [hro]
  exact hfin

/-! ## Documents that the options do not change -/

/-- A property of nodes that does not look at the children. -/
def Shallow (P : PNode → Prop) : Prop := ∀ n as s ct ks ks' e, P (.elem n as s ct ks e) → P (.elem n as s ct ks' e)

theorem allsIn_rename {P Q : PNode → Prop} (hQ : Shallow Q) (f g : Str → Str) (hl : ∀ p, (∀ n as s ct ks e, p ≠ .elem n as s ct ks e) → P p → Q p)
    (he : ∀ n as s ct ks e, P (.elem n as s ct ks e) → Q (.elem (f n) as s ct ks (e.map g))) :
    (∀ p, allIn P p → allIn Q (renameNode f g p)) ∧ (∀ ps, allsIn P ps → allsIn Q (renameNodes f g ps)) := by
  apply PNode.induct
  · intro w h; exact hl (.text w) (by simp) h
  · intro w h; exact hl (.comment w) (by simp) h
  · intro w h; exact hl (.cdata w) (by simp) h
  · intro n as s h; exact hl (.doctype n as s) (by simp) h
  · intro n as s ct ks e ih h
    simp only [renameNode, allIn] at h ⊢
    exact ⟨hQ _ _ _ _ _ _ _ (he _ _ _ _ _ _ h.1), ih h.2⟩
  · intro _; trivial
  · intro p ps h1 h2 h; exact ⟨h1 h.1, h2 h.2⟩

theorem allsIn_unquote {P Q : PNode → Prop} (hQ : Shallow Q) (hl : ∀ p, (∀ n as s ct ks e, p ≠ .elem n as s ct ks e) → P p → Q (unquoteNode p))
    (he : ∀ n as s ct ks e, P (.elem n as s ct ks e) → Q (.elem n (as.map unquoteAttr) s ct ks e)) :
    (∀ p, allIn P p → allIn Q (unquoteNode p)) ∧ (∀ ps, allsIn P ps → allsIn Q (unquoteNodes ps)) := by
  apply PNode.induct
  · intro w h; exact hl (.text w) (by simp) h
  · intro w h; exact hl (.comment w) (by simp) h
  · intro w h; exact hl (.cdata w) (by simp) h
  · intro n as s h; exact hl (.doctype n as s) (by simp) h
  · intro n as s ct ks e ih h
    simp only [unquoteNode, allIn] at h ⊢
    exact ⟨hQ _ _ _ _ _ _ _ (he _ _ _ _ _ _ h.1), ih h.2⟩
  · intro _; trivial
  · intro p ps h1 h2 h; exact ⟨h1 h.1, h2 h.2⟩

theorem allsIn_without {P Q : PNode → Prop} (hQ : Shallow Q) (q : PNode → Bool) (h : ∀ p, q p = false → P p → Q p) :
    (∀ p, q p = false → allIn P p → allIn Q (withoutNode q p)) ∧ (∀ ps, allsIn P ps → allsIn Q (withoutNodes q ps)) := by
  apply PNode.induct
  · intro w a b; exact h (.text w) a b
  · intro w a b; exact h (.comment w) a b
  · intro w a b; exact h (.cdata w) a b
  · intro n as s a b; exact h (.doctype n as s) a b
  · intro n as s ct ks e ih a b
    simp only [withoutNode, allIn] at b ⊢
    exact ⟨hQ _ _ _ _ _ _ _ (h _ a b.1), ih b.2⟩
  · intro _; trivial
  · intro p ps h1 h2 k
    simp only [withoutNodes]
    split
    · exact h2 k.2
    · rename_i hp
      exact ⟨h1 (by simpa using hp) k.1, h2 k.2⟩

theorem allsIn_join {P : PNode → Prop} (hP : Shallow P) (ht : ∀ w, P (.text w)) :
    (∀ p, allIn P p → allIn P (joinNode p)) ∧ (∀ ps, allsIn P ps → allsIn P (joinTexts ps)) := by
  apply PNode.induct
  · intro w h; exact h
  · intro w h; exact h
  · intro w h; exact h
  · intro n as s h; exact h
  · intro n as s ct ks e ih h
    simp only [joinNode, allIn] at h ⊢
    exact ⟨hP _ _ _ _ _ _ _ h.1, ih h.2⟩
  · intro _; trivial
  · intro p ps h1 h2 h
    simp only [joinTexts]
    have a := h1 h.1
    have b := h2 h.2
    generalize joinNode p = p' at a
    generalize joinTexts ps = ps' at b
    unfold glue
    split
    · exact ⟨ht _, b.2⟩
    · exact ⟨a, b⟩

theorem allsIn_tidy {P : PNode → Prop} (hP : Shallow P) (ht : ∀ w, P (.text w)) {ps : List PNode} (h : allsIn P ps) :
    allsIn P (tidyTexts ps) :=
  (allsIn_join hP ht).2 _ ((allsIn_without hP isEmptyText fun _ _ k => k).2 _ h)

/-- The quotes of the node have been dropped. -/
def Unquoted : PNode → Prop
  | .doctype _ as _ => as.map unquoteAttr = as
  | .elem _ as _ _ _ _ => as.map unquoteAttr = as
  | _ => True

/-- The names of the node are changed by neither function. -/
def Named (f g : Str → Str) : PNode → Prop
  | .elem n _ _ _ _ e => f n = n ∧ e.map g = e
  | _ => True

/-- The node is not a comment. -/
def NoNote (p : PNode) : Prop := isNote p = false

theorem Shallow.unquoted : Shallow Unquoted := fun _ _ _ _ _ _ _ h => h

theorem Shallow.named (f g : Str → Str) : Shallow (Named f g) := fun _ _ _ _ _ _ _ h => h

theorem Shallow.noNote : Shallow NoNote := fun _ _ _ _ _ _ _ _ => rfl

theorem unquote_fixed : (∀ p, allIn Unquoted p → unquoteNode p = p) ∧ (∀ ps, allsIn Unquoted ps → unquoteNodes ps = ps) := by
  apply PNode.induct
  · intro w _; rfl
  · intro w _; rfl
  · intro w _; rfl
  · intro n as s h; simp only [unquoteNode]; rw [show as.map unquoteAttr = as from h]
  · intro n as s ct ks e ih h
    simp only [unquoteNode]
    rw [show as.map unquoteAttr = as from h.1, ih h.2]
  · intro _; rfl
  · intro p ps h1 h2 h; simp only [unquoteNodes, h1 h.1, h2 h.2]

theorem rename_fixed {f g : Str → Str} :
    (∀ p, allIn (Named f g) p → renameNode f g p = p) ∧ (∀ ps, allsIn (Named f g) ps → renameNodes f g ps = ps) := by
  apply PNode.induct
  · intro w _; rfl
  · intro w _; rfl
  · intro w _; rfl
  · intro n as s _; rfl
  · intro n as s ct ks e ih h
    simp only [renameNode]
    rw [show f n = n from h.1.1, show e.map g = e from h.1.2, ih h.2]
  · intro _; rfl
  · intro p ps h1 h2 h; simp only [renameNodes, h1 h.1, h2 h.2]

theorem without_fixed : (∀ p, allIn NoNote p → withoutNode isNote p = p) ∧ (∀ ps, allsIn NoNote ps → withoutNodes isNote ps = ps) := by
  apply PNode.induct
  · intro w _; rfl
  · intro w _; rfl
  · intro w _; rfl
  · intro n as s _; rfl
  · intro n as s ct ks e ih h
    simp only [withoutNode]
    rw [ih h.2]
  · intro _; rfl
  · intro p ps h1 h2 h
    have hp : isNote p = false := by
      cases p with
      | comment w => exact h.1
      | _ => rfl
    simp only [withoutNodes, hp, Bool.false_eq_true, if_false, h1 h.1, h2 h.2]

theorem rendered_eq (ro : RenderOptions) (t : Tree) :
    rendered ro t = tidyTexts (changed ro (if ro.minifySpaces then Tree.pnodes (squeezeAts [] t.kids) else t.doc)) := rfl

/-- The options other than `minify_spaces` do not change the document. -/
structure Fixed (ro : RenderOptions) (ps : List PNode) : Prop where
  quote : ro.removeAttrQuote = true → allsIn Unquoted ps
  lower : ro.lowercaseTagname = true → allsIn (Named fold fold) ps
  trim : ro.removeEndtagSpace = true → allsIn (Named id trimEnd) ps
  note : ro.removeComment = true → allsIn NoNote ps

theorem Fixed.eq {ro : RenderOptions} {ps : List PNode} (h : Fixed ro ps) : changed ro ps = ps := by
  unfold changed
  have h1 : (if ro.removeAttrQuote then unquoteNodes ps else ps) = ps := by
    split
    · rename_i q; exact unquote_fixed.2 _ (h.quote q)
    · rfl
  have h2 : (if ro.lowercaseTagname then renameNodes fold fold ps else ps) = ps := by
    split
    · rename_i q; exact rename_fixed.2 _ (h.lower q)
    · rfl
  have h3 : (if ro.removeEndtagSpace then renameNodes id trimEnd ps else ps) = ps := by
    split
    · rename_i q; exact rename_fixed.2 _ (h.trim q)
    · rfl
  have h4 : (if ro.removeComment then withoutNodes isNote ps else ps) = ps := by
    split
    · rename_i q; exact without_fixed.2 _ (h.note q)
    · rfl
  simp only [h1, h2, h3, h4]

theorem Fixed.tidy {ro : RenderOptions} {ps : List PNode} (h : Fixed ro ps) : Fixed ro (tidyTexts ps) where
  quote q := allsIn_tidy .unquoted (fun _ => trivial) (h.quote q)
  lower q := allsIn_tidy (.named _ _) (fun _ => trivial) (h.lower q)
  trim q := allsIn_tidy (.named _ _) (fun _ => trivial) (h.trim q)
  note q := allsIn_tidy .noNote (fun _ => rfl) (h.note q)

theorem unquoteAttr_idem (a : Attr) : unquoteAttr (unquoteAttr a) = unquoteAttr a := by
  unfold unquoteAttr
  split <;> simp_all

theorem fixed_quote (ro : RenderOptions) (ps : List PNode) :
    ro.removeAttrQuote = true → allsIn Unquoted (if ro.removeAttrQuote then unquoteNodes ps else ps) := by
  intro q
  rw [if_pos q]
  refine (allsIn_unquote (P := fun _ => True) .unquoted ?_ ?_).2 _ ((allsIn_true fun _ => trivial).2 _)
  · intro p hp _
    cases p with
    | doctype n as s => simp [unquoteNode, Unquoted, unquoteAttr_idem]
    | elem n as s ct ks e => exact absurd rfl (hp n as s ct ks e)
    | _ => trivial
  · intro n as s ct ks e _
    simp [Unquoted, unquoteAttr_idem]

theorem unquoted_rename {f g : Str → Str} {ps : List PNode} (h : allsIn Unquoted ps) : allsIn Unquoted (renameNodes f g ps) :=
  (allsIn_rename .unquoted f g (fun _ _ h => h) fun _ _ _ _ _ _ h => h).2 _ h

theorem without_all {P : PNode → Prop} (hP : Shallow P) {q : PNode → Bool} {ps : List PNode} (h : allsIn P ps) :
    allsIn P (withoutNodes q ps) :=
  (allsIn_without hP q fun _ _ h => h).2 _ h

theorem fixed_changed (ro : RenderOptions) (ps : List PNode) : Fixed ro (changed ro ps) := by
  unfold changed
  dsimp only
  have h1 := fixed_quote ro ps
  generalize (if ro.removeAttrQuote then unquoteNodes ps else ps) = p1 at h1 ⊢
  have h2 : (ro.removeAttrQuote = true → allsIn Unquoted (if ro.lowercaseTagname then renameNodes fold fold p1 else p1)) ∧
      (ro.lowercaseTagname = true → allsIn (Named fold fold) (if ro.lowercaseTagname then renameNodes fold fold p1 else p1)) := by
    refine ⟨fun q => ?_, fun q => ?_⟩
    · split
      · exact unquoted_rename (h1 q)
      · exact h1 q
    · rw [if_pos q]
      refine (allsIn_rename (P := fun _ => True) (.named _ _) fold fold ?_ ?_).2 _ ((allsIn_true fun _ => trivial).2 _)
      · intro p hp _
        cases p with
        | elem n as s ct ks e => exact absurd rfl (hp n as s ct ks e)
        | _ => trivial
      · intro n as s ct ks e _
        cases e <;> simp [Named, fold_idem]
  generalize (if ro.lowercaseTagname then renameNodes fold fold p1 else p1) = p2 at h2 ⊢
  have h3 : (ro.removeAttrQuote = true → allsIn Unquoted (if ro.removeEndtagSpace then renameNodes id trimEnd p2 else p2)) ∧
      (ro.lowercaseTagname = true → allsIn (Named fold fold) (if ro.removeEndtagSpace then renameNodes id trimEnd p2 else p2)) ∧
      (ro.removeEndtagSpace = true → allsIn (Named id trimEnd) (if ro.removeEndtagSpace then renameNodes id trimEnd p2 else p2)) := by
    refine ⟨fun q => ?_, fun q => ?_, fun q => ?_⟩
    · split
      · exact unquoted_rename (h2.1 q)
      · exact h2.1 q
    · split
      · refine (allsIn_rename (.named _ _) id trimEnd (fun _ _ h => h) ?_).2 _ (h2.2 q)
        intro n as s ct ks e h
        refine ⟨h.1, ?_⟩
        have h := h.2
        cases e with
        | none => rfl
        | some e =>
          simp only [Option.map_some, Option.some.injEq] at h ⊢
          rw [← trimEnd_fold, h]
      · exact h2.2 q
    · rw [if_pos q]
      refine (allsIn_rename (P := fun _ => True) (.named _ _) id trimEnd ?_ ?_).2 _ ((allsIn_true fun _ => trivial).2 _)
      · intro p hp _
        cases p with
        | elem n as s ct ks e => exact absurd rfl (hp n as s ct ks e)
        | _ => trivial
      · intro n as s ct ks e _
        cases e <;> simp [Named, trimEnd_idem]
  generalize (if ro.removeEndtagSpace then renameNodes id trimEnd p2 else p2) = p3 at h3 ⊢
  constructor
  · intro q
    split
    · exact without_all .unquoted (h3.1 q)
    · exact h3.1 q
  · intro q
    split
    · exact without_all (.named _ _) (h3.2.1 q)
    · exact h3.2.1 q
  · intro q
    split
    · exact without_all (.named _ _) (h3.2.2 q)
    · exact h3.2.2 q
  · intro q
    simp only [q, if_true]
    exact (allsIn_without (P := fun _ => True) .noNote isNote fun _ h _ => h).2 _ ((allsIn_true fun _ => trivial).2 _)

/-- What the library reads in a text that is well-formed as a document. -/
theorem reread_tree {o : ParseOptions} {ps : List PNode} (h : wfDoc o ps) :
    ∃ d t, Doc.parse (printNodes ps) o = .ok d ∧ d.tree? = some t ∧ t.doc = ps ∧ t.data.nodeType = .abstractRoot ∧
      t.endTag = none ∧ Tree.shapeds t.kids := by
  obtain ⟨b, h1, h2, h3⟩ := arun_wfDoc h
  obtain ⟨d, t, k1, k2, k3, k4, k5, k6⟩ := machine_parse h1 h2
  exact ⟨d, t, k1, k2, k3.trans h3, k4, k5, k6⟩

/-- Rendering keeps a document well-formed. -/
theorem wf_rendered (o : ParseOptions) (ro : RenderOptions) (t : Tree) (hshape : Tree.shapeds t.kids) (hwf : wfDoc o t.doc)
    (hq : ro.removeAttrQuote = true → optionalNodes t.doc) (hl : ro.lowercaseTagname = true → lowerSafe o t.doc)
    (h1 : ro.innerHtml = false) (h3 : ro.decodeEntity = false) : wfDoc o (rendered ro t) := by
  let lib : EntityLib := ⟨fun _ => [], fun _ => none, fun _ => false, fun _ => none⟩
  let n : NodeD := { nodeType := .abstractRoot }
  have hroot : n.nodeType = .abstractRoot := rfl
  have hloose := loose_of_wf.2 _ _ _ hwf
  obtain ⟨t1, _, a2, a3, a4, a5, a6⟩ := step_minify lib ro h3 h1 hroot hshape o
  obtain ⟨t2, _, b2, b3, b4, b5⟩ := step_quote lib { ro with minifySpaces := false } hroot a2 o
  obtain ⟨t3, _, c2, c3, c4⟩ := step_lower lib { ro with minifySpaces := false, removeAttrQuote := false } hroot b2 o
  obtain ⟨t4, _, d2, d3, d4⟩ := step_trim lib { ro with minifySpaces := false, removeAttrQuote := false, lowercaseTagname := false } hroot c2 o
  obtain ⟨t5, _, _, e3, e4⟩ := step_comment lib { ro with minifySpaces := false, removeAttrQuote := false, lowercaseTagname := false, removeEndtagSpace := false } hroot d2 o
  have hlo : looseNodes false o none none (Tree.pnodes t5) :=
    e4 (d4 (c4 (fun q => b5 (a6 (lowerSafe_all (hl q)))) (b4 (fun q => a5 (hq q)) (a4 hloose))))
  have hr : rendered ro t = tidyTexts (Tree.pnodes t5) := by
    simp only at b3 c3 d3 e3
    unfold rendered Tree.doc
    rw [e3, d3, c3, b3, a3]
  rw [hr]
  exact wf_tidy hlo

/-- **C56**: without `minify_spaces`, a formatted text is not changed by formatting it again with the same options.  The
conditions are those of C48. -/
theorem c56_idempotent {o : ParseOptions} (lib : EntityLib) (ro : RenderOptions) {s : Str} {d : Doc} {ps : List PNode}
    (hc : complete s o) (hp : Doc.parse s o = .ok d) (h : docOf s o = some ps)
    (p1 : o.autoFixUnescapedLt = false) (p2 : o.autoFixUnexpectedEndtag = false ∨ o.autoFixUnclosedTag = true)
    (p3 : o.allowAttrKeyStartsWithEqualSign = false)
    (hd : ∀ n as sc, Occurs (.doctype n as sc) ps → as ≠ [] ∧ sc = false)
    (hq : ro.removeAttrQuote = true → optionalNodes ps) (hl : ro.lowercaseTagname = true → lowerSafe o ps)
    (h1 : ro.innerHtml = false) (h2 : ro.alwaysCloseVoid = false) (h3 : ro.decodeEntity = false) (h4 : ro.encodeContent = false)
    (hm : ro.minifySpaces = false) :
    ∃ r, reformat lib o ro s = some r ∧ reformat lib o ro r = some r := by
  obtain ⟨a, k1, k2, t, k3, k4, k5, k6, k7⟩ := parse_machine_complete hp hc
  have hwf := c04_wellformed hc h p1 p2 p3 hd
  rw [docOf_machine k1 k2] at h
  simp only [Option.some.injEq] at h
  rw [h] at k4
  subst k4
  have hb := build_formatted lib ro t k5 k6 k7 h1 h2 h3 h4
  obtain ⟨d', t', e1, e2, e3, e4, e5, e6⟩ := reread_tree (wf_rendered o ro t k7 hwf hq hl h1 h3)
  have hb' := build_formatted lib ro t' e4 e5 e6 h1 h2 h3 h4
  refine ⟨printNodes (rendered ro t), ?_, ?_⟩
  · unfold reformat Doc.render
    simp only [hp, k3, hb]
    rfl
  · unfold reformat Doc.render
    simp only [e1, e2, hb']
    rw [rendered_eq ro t', hm, if_neg (by simp), e3]
    rw [rendered_eq ro t, hm, if_neg (by simp), (fixed_changed ro t.doc).tidy.eq, print_tidy]
    rfl

/-! ## minify_spaces -/

theorem allsIn_min {P : PNode → Prop} (hP : Shallow P) (ht : ∀ w, P (.text w)) :
    (∀ p, allIn P p → ∀ b k x, allIn P (minNode b k x p)) ∧ (∀ ps, allsIn P ps → ∀ b k t, allsIn P (minNodes b k t ps)) := by
  apply PNode.induct
  · intro w _ b k x; exact ht _
  · intro w h b k x; exact h
  · intro w h b k x; exact h
  · intro n as s h b k x; exact h
  · intro n as s ct ks e ih h b k x
    simp only [minNode, allIn] at h ⊢
    exact ⟨hP _ _ _ _ _ _ _ h.1, ih h.2 _ _ _⟩
  · intro _ b k t; trivial
  · intro p ps h1 h2 h b k t
    exact ⟨h1 h.1 _ _ _, h2 h.2 _ _ _⟩

theorem Fixed.min {ro : RenderOptions} {ps : List PNode} (h : Fixed ro ps) : Fixed ro (minDoc ps) where
  quote q := (allsIn_min .unquoted (fun _ => trivial)).2 _ (h.quote q) _ _ _
  lower q := (allsIn_min (.named _ _) (fun _ => trivial)).2 _ (h.lower q) _ _ _
  trim q := (allsIn_min (.named _ _) (fun _ => trivial)).2 _ (h.trim q) _ _ _
  note q := (allsIn_min .noNote (fun _ => rfl)).2 _ (h.note q) _ _ _

/-- A parsed document is rendered as the source text of the formatted document. -/
theorem rendered_formatted {o : ParseOptions} (ro : RenderOptions) {s : Str} {d : Doc} {t : Tree} (hp : Doc.parse s o = .ok d)
    (ht : d.tree? = some t) (hsh : Tree.shapeds t.kids)
    (hf1 : o.autoFixUnescapedLt = false) (hf2 : o.autoFixUnexpectedEndtag = false) (hf3 : o.autoFixUnclosedTag = false) :
    rendered ro t = tidyTexts (formatted ro t.doc) := by
  rw [rendered_eq]
  unfold formatted minDoc Tree.doc
  have := squeeze_min.2 t.kids hsh [] false true (parse_kinds hp hf1 hf2 hf3 ht)
  rw [this]
  rfl

/-- **C56** (what is written): without auto-fix options, what an accepted text is rendered as with the formatting options is the
source text of a document that is determined by the document in the text. -/
theorem c56_document {o : ParseOptions} (lib : EntityLib) (ro : RenderOptions) {s : Str} {d : Doc} {ps : List PNode}
    (hp : Doc.parse s o = .ok d) (h : docOf s o = some ps)
    (hf1 : o.autoFixUnescapedLt = false) (hf2 : o.autoFixUnexpectedEndtag = false) (hf3 : o.autoFixUnclosedTag = false)
    (h1 : ro.innerHtml = false) (h2 : ro.alwaysCloseVoid = false) (h3 : ro.decodeEntity = false) (h4 : ro.encodeContent = false) :
    d.render lib ro = .ok (printNodes (formatted ro ps)) := by
  obtain ⟨a, k1, k2, t, k3, k4, k5, k6, k7⟩ := parse_machine_complete hp (complete_of hf3)
  rw [docOf_machine k1 k2] at h
  simp only [Option.some.injEq] at h
  rw [h] at k4
  subst k4
  unfold Doc.render
  simp only [k3, build_formatted lib ro t k5 k6 k7 h1 h2 h3 h4, rendered_formatted ro hp k3 k7 hf1 hf2 hf3, print_tidy]

/-- **C56** (with `minify_spaces`): without auto-fix options, formatting a text twice leaves nothing for a third time.  (Once
is not enough, see `Verif.Findings`.) -/
theorem c56_minify {o : ParseOptions} (lib : EntityLib) (ro : RenderOptions) {s : Str} {d : Doc} {ps : List PNode}
    (hp : Doc.parse s o = .ok d) (h : docOf s o = some ps)
    (hf1 : o.autoFixUnescapedLt = false) (hf2 : o.autoFixUnexpectedEndtag = false) (hf3 : o.autoFixUnclosedTag = false)
    (p3 : o.allowAttrKeyStartsWithEqualSign = false)
    (hd : ∀ n as sc, Occurs (.doctype n as sc) ps → as ≠ [] ∧ sc = false)
    (hq : ro.removeAttrQuote = true → optionalNodes ps) (hl : ro.lowercaseTagname = true → lowerSafe o ps)
    (h1 : ro.innerHtml = false) (h2 : ro.alwaysCloseVoid = false) (h3 : ro.decodeEntity = false) (h4 : ro.encodeContent = false)
    (hm : ro.minifySpaces = true) :
    ∃ r r', reformat lib o ro s = some r ∧ reformat lib o ro r = some r' ∧ reformat lib o ro r' = some r' := by
  obtain ⟨a, k1, k2, t, k3, k4, k5, k6, k7⟩ := parse_machine_complete hp (complete_of hf3)
  have hwf := c04_wellformed (complete_of hf3) h hf1 (.inl hf2) p3 hd
  rw [docOf_machine k1 k2] at h
  simp only [Option.some.injEq] at h
  rw [h] at k4
  subst k4
  have hr := rendered_formatted ro hp k3 k7 hf1 hf2 hf3
  have hb := build_formatted lib ro t k5 k6 k7 h1 h2 h3 h4
  have hw1 := wf_rendered o ro t k7 hwf hq hl h1 h3
  rw [hr] at hb hw1
  have hfix : Fixed ro (tidyTexts (formatted ro t.doc)) := (fixed_changed ro _).tidy
  have hclean : cleanNodes false (tidyTexts (formatted ro t.doc)) := by
    refine clean_tidy (clean_changed ro ?_)
    rw [if_pos hm]
    exact clean_min.2 _ _ _ _ (by simp)
  have hapart := apart_of_wf.2 _ _ _ hw1
  obtain ⟨d', t', e1, e2, e3, e4, e5, e6⟩ := reread_tree hw1
  have hb' := build_formatted lib ro t' e4 e5 e6 h1 h2 h3 h4
  rw [rendered_formatted ro e1 e2 e6 hf1 hf2 hf3, e3] at hb'
  generalize tidyTexts (formatted ro t.doc) = p1 at *
  have hf1' : formatted ro p1 = minDoc p1 := by
    unfold formatted
    rw [if_pos hm, hfix.min.eq]
  rw [hf1'] at hb'
  have hloose : looseNodes false o none none (minDoc p1) := by
    have hs := squeeze_min.2 t'.kids e6 [] false true (parse_kinds e1 hf1 hf2 hf3 e2)
    have hd' : Tree.pnodes t'.kids = p1 := e3
    rw [hd'] at hs
    have hl' := ((squeeze_doc (o := o)).2 t'.kids e6 []).2.2.1 none none (by rw [hd']; exact loose_of_wf.2 _ _ _ hw1)
    rw [hs] at hl'
    exact hl'
  obtain ⟨d'', t'', g1, g2, g3, g4, g5, g6⟩ := reread_tree (wf_tidy hloose)
  have hb'' := build_formatted lib ro t'' g4 g5 g6 h1 h2 h3 h4
  rw [rendered_formatted ro g1 g2 g6 hf1 hf2 hf3, g3] at hb''
  have hf2' : formatted ro (tidyTexts (minDoc p1)) = tidyTexts (minDoc p1) := by
    unfold formatted
    rw [if_pos hm, minDoc_twice hapart hclean, hfix.min.tidy.eq]
  rw [hf2', print_tidy, print_tidy] at hb''
  rw [print_tidy] at hb' g1
  refine ⟨printNodes p1, printNodes (minDoc p1), ?_, ?_, ?_⟩
  · unfold reformat Doc.render
    simp only [hp, k3, hb]
    rfl
  · unfold reformat Doc.render
    simp only [e1, e2, hb']
    rfl
  · unfold reformat Doc.render
    simp only [g1, g2, hb'']
    rfl

/-! ## Samples -/

/-- The text that rendering a text with the given options gives. -/
def Spec.reformatS (s : String) (ro : RenderOptions) : Option String := (reformat toyLib {} ro s.toList).map String.ofList

/-- The sample of C48 needs two passes: taking out the comment has left two spaces in a row. -/
example : reformatS rereadSample rereadOptions = some "<div a=b> x  y<pre> p  q </pre></div>" ∧
    reformatS "<div a=b> x  y<pre> p  q </pre></div>" rereadOptions = some "<div a=b> x y<pre> p  q </pre></div>" ∧
    reformatS "<div a=b> x y<pre> p  q </pre></div>" rereadOptions = some "<div a=b> x y<pre> p  q </pre></div>" := by decide +kernel

/-- A blank text that is kept, one that is not, and one that is kept because nothing follows. -/
example : (docOf "<a> \n</a>x<b> </b><i> </i>".toList {}).map (printNodes ∘ minDoc) = some "<a> </a>x<b></b><i> </i>".toList := by
  decide +kernel

/-- The document in the sample. -/
def Spec.rereadDoc : List PNode := [.elem "DIV".toList [{ key := some "a".toList, value := some "b".toList, quote := some '\'' }]
  false none [.text " x ".toList, .comment "n".toList, .text "  y".toList,
    .elem "PRE".toList [] false none [.text " p  q ".toList] (some "PRE\n".toList), .text " \n".toList] (some "DIV ".toList)]

/-- The sample meets the hypotheses of `c56_minify`, `c56_document` and, but for `minify_spaces`, `c56_idempotent`. -/
example (lib : EntityLib) : (∃ r r', reformat lib {} rereadOptions rereadSample.toList = some r ∧
      reformat lib {} rereadOptions r = some r' ∧ reformat lib {} rereadOptions r' = some r') ∧
    ∃ r, reformat lib {} { rereadOptions with minifySpaces := false } rereadSample.toList = some r ∧
      reformat lib {} { rereadOptions with minifySpaces := false } r = some r := by
  have hps : docOf rereadSample.toList {} = some rereadDoc := by decide +kernel
  obtain ⟨d, hd⟩ := (parse_docOf (o := {}) (complete_of rfl)).2 ⟨_, hps⟩
  have k1 : ∀ n as sc, Occurs (.doctype n as sc) rereadDoc → as ≠ [] ∧ sc = false := by
    intro n as sc h
    refine allsIn_occurs (P := fun p => ∀ n as sc, p = .doctype n as sc → as ≠ [] ∧ sc = false) ?_ _ h n as sc rfl
    simp [rereadDoc, allsIn, allIn]
  have k2 : optionalNodes rereadDoc := by
    simp [rereadDoc, optionalNodes, optionalNode, quotesOptional]
    decide +kernel
  have k3 : lowerSafe {} rereadDoc := by
    intro n as s ct ks e
    refine allsIn_occurs (P := LowerOk {}) ?_ _
    simp only [rereadDoc, allsIn, allIn, LowerOk, and_true, true_and]
    refine ⟨⟨?_, ?_⟩, ?_, ?_⟩
    all_goals first | decide +kernel | (intro e' he; cases he; decide +kernel)
  exact ⟨c56_minify lib rereadOptions hd hps rfl rfl rfl rfl k1 (fun _ => k2) (fun _ => k3) rfl rfl rfl rfl rfl,
    c56_idempotent lib { rereadOptions with minifySpaces := false } (complete_of rfl) hd hps rfl (.inl rfl) rfl k1 (fun _ => k2)
      (fun _ => k3) rfl rfl rfl rfl rfl⟩

end Rphtml
