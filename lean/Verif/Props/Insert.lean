import Verif.Spec.Insert
import Verif.Props.Reread
import Verif.Props.Names

/-!
# C72: inserting and removing nodes

The fields of `Node` are public and meant for editing; `allow_insert` (parser.rs:129-147) tells an editor what may be
inserted where.
-/

namespace Rphtml
open Spec

theorem wfNodes_append {o : ParseOptions} {par : Option Str} : ∀ (l : List PNode) (ctx : Option Str) (r : List PNode),
    wfNodes o ctx par (l ++ r) ↔ wfNodes o ctx par l ∧ wfNodes o (ctxNodes ctx l) par r ∧
      (∀ a b, l.getLast? = some a → r.head? = some b → isText a = true → isText b = false)
  | [], ctx, r => by simp [wfNodes, ctxNodes]
  | p :: l, ctx, r => by
    have ih := wfNodes_append (o := o) (par := par) l (ctxNode ctx p) r
    simp only [List.cons_append, wfNodes, ctxNodes, ih]
    cases l with
    | nil =>
      simp only [List.nil_append, wfNodes, ctxNodes, true_and, List.getLast?_nil, List.getLast?_singleton, List.head?_nil,
        reduceCtorEq, false_implies, implies_true, and_true, Option.some.injEq]
      constructor
      · rintro ⟨h1, h2, h3⟩
        exact ⟨h1, h3, fun a b ha hb hx => by subst ha; exact h2 hx b hb⟩
      · rintro ⟨h1, h2, h3⟩
        exact ⟨h1, fun hx q hq => h3 p q rfl hq hx, h2⟩
    | cons q l =>
      simp only [List.cons_append, List.head?_cons, List.getLast?_cons_cons]
      constructor
      · rintro ⟨h1, h2, h3, h4, h5⟩
        exact ⟨⟨h1, h2, h3⟩, h4, h5⟩
      · rintro ⟨⟨h1, h2, h3⟩, h4, h5⟩
        exact ⟨h1, h2, h3, h4, h5⟩

theorem inserted_ctx {p : PNode} {c q ctx par : Option Str} {ps ps' : List PNode} (h : Inserted p c q ctx par ps ps')
    (hx : ctxNode c p = c) : ctxNodes ctx ps' = ctxNodes ctx ps := by
  induction h with
  | here hc hp h1 h2 => rw [ctxNodes_append, ctxNodes_append, ctxNodes, hc, hx]
  | down h ih => simp only [ctxNodes_append, ctxNodes, ctxNode, ih]

theorem inserted_nil {p : PNode} {c q ctx par : Option Str} {ps' : List PNode} (h : Inserted p c q ctx par [] ps') : par = q := by
  generalize hps : ([] : List PNode) = ps at h
  cases h with
  | here hc hp h1 h2 => exact hp
  | down h => simp at hps

theorem inserted_cons {p : PNode} {c q ctx par : Option Str} {ps : List PNode} (h : Inserted p c q ctx par ps []) : False := by
  generalize hps : ([] : List PNode) = ps' at h
  cases h with
  | here hc hp h1 h2 => simp at hps
  | down h => simp at hps

/-- Where the children of an element are. -/
def holds (q : Option Str) : Prop := ∀ n, q = some n → ¬ isVoid n ∧ ¬ isRaw n

theorem inserted_elem {o : ParseOptions} {p : PNode} {c q ctx : Option Str} {ks ks' : List PNode} {n : Str}
    (h : Inserted p c q (enter ctx n) (some n) ks ks') (as : List Attr) (ct e : Option Str) (par : Option Str)
    (ih : holds (some n) → (wfNodes o (enter ctx n) (some n) ks' ↔ wfNodes o (enter ctx n) (some n) ks ∧ wfNode o c q p ∧ holds q)) :
    wfNode o ctx par (.elem n as false ct ks' e) ↔ wfNode o ctx par (.elem n as false ct ks e) ∧ wfNode o c q p ∧ holds q := by
  have hempty : ks' ≠ [] := fun q => by subst q; exact inserted_cons h
  simp only [wfNode, Bool.false_eq_true, if_false]
  by_cases hv : isVoid n
  · rw [if_pos hv, if_pos hv]
    constructor
    · rintro ⟨_, _, _, h1, _⟩; exact absurd h1 hempty
    · rintro ⟨⟨_, _, _, h1, _⟩, _, h2⟩
      subst h1
      exact absurd hv (h2 n (inserted_nil h).symm).1
  · rw [if_neg hv, if_neg hv]
    by_cases hr : isRaw n
    · rw [if_pos hr, if_pos hr]
      constructor
      · rintro ⟨_, _, h1, _⟩; exact absurd h1 hempty
      · rintro ⟨⟨_, _, h1, _⟩, _, h2⟩
        subst h1
        exact absurd hr (h2 n (inserted_nil h).symm).2
    · rw [if_neg hr, if_neg hr, ih (fun m hm => by cases hm; exact ⟨hv, hr⟩)]
      constructor
      · rintro ⟨h1, h2, h3, h4, h5, h6⟩; exact ⟨⟨h1, h2, h3, h4, h5⟩, h6⟩
      · rintro ⟨⟨h1, h2, h3, h4, h5⟩, h6⟩; exact ⟨h1, h2, h3, h4, h5, h6⟩

theorem inserted_wf {o : ParseOptions} {p : PNode} {c q ctx par : Option Str} {ps ps' : List PNode} (h : Inserted p c q ctx par ps ps')
    (hx : ctxNode c p = c) : holds par → (wfNodes o ctx par ps' ↔ wfNodes o ctx par ps ∧ wfNode o c q p ∧ holds q) := by
  induction h with
  | @here ctx par l r hc hp h1 h2 =>
    intro hpar
    subst hp
    rw [wfNodes_append, wfNodes_append, wfNodes, hc, hx]
    constructor
    · rintro ⟨k1, ⟨k2, k3, k4⟩, k5⟩
      exact ⟨⟨k1, k4, h2⟩, k2, hpar⟩
    · rintro ⟨⟨k1, k4, _⟩, k2, _⟩
      refine ⟨k1, ⟨k2, fun hp => (h1 hp).2, k4⟩, fun a b ha hb hta => ?_⟩
      cases hb
      cases hp : isText p with
      | false => rfl
      | true => have := (h1 hp).1 a ha; rw [this] at hta; cases hta
  | @down ctx par l r n as ct ks ks' e h ih =>
    intro hpar
    rw [wfNodes_append, wfNodes_append, wfNodes, wfNodes, inserted_elem h as ct e par ih]
    have hctx : ctxNode (ctxNodes ctx l) (.elem n as false ct ks' e) = ctxNode (ctxNodes ctx l) (.elem n as false ct ks e) := by
      simp only [ctxNode, inserted_ctx h hx]
    rw [hctx]
    simp only [List.head?_cons, Option.some.injEq, isText, Bool.false_eq_true, false_implies, true_and]
    constructor
    · rintro ⟨k1, ⟨⟨k2, k3, k4⟩, k5⟩, k6⟩
      exact ⟨⟨k1, ⟨k2, k5⟩, fun a b _ hb _ => by subst hb; rfl⟩, k3, k4⟩
    · rintro ⟨⟨k1, ⟨k2, k5⟩, _⟩, k3, k4⟩
      exact ⟨k1, ⟨⟨k2, k3, k4⟩, k5⟩, fun a b _ hb _ => by subst hb; rfl⟩

theorem holds_none : holds none := fun _ h => by cases h

/-- **C72**: rendering an edited document.  If `t'` is `t` with a node inserted, then the rendering of `t'` is parsed to `t'`
if and only if the node is well-formed in its place and is not below a void or raw-text element. -/
theorem c72_insert {o : ParseOptions} (lib : EntityLib) {t t' : Tree} {p : PNode} {c q : Option Str} (hroot : t'.data.nodeType = .abstractRoot)
    (hend : t'.endTag = none) (hshape : Tree.shapeds t'.kids) (hwf : wfDoc o t.doc) (hi : Inserted p c q none none t.doc t'.doc)
    (hx : ctxNode c p = c) (hd : ∀ n as sc, Occurs (.doctype n as sc) t'.doc → as ≠ [] ∧ sc = false)
    (p1 : o.autoFixUnclosedTag = false) (p2 : o.autoFixUnexpectedEndtag = false) (p3 : o.autoFixUnescapedLt = false)
    (p4 : o.allowAttrKeyStartsWithEqualSign = false) :
    ∃ r, build lib t' {} false = .ok r ∧
      (docOf r o = some t'.doc ↔ wfNode o c q p ∧ ∀ n, q = some n → ¬ isVoid n ∧ ¬ isRaw n) := by
  refine ⟨_, build_doc lib hroot hend hshape, ?_⟩
  have hiff := inserted_wf (o := o) hi hx holds_none
  constructor
  · intro h
    exact (hiff.1 (c04_wellformed (complete_of p1) h p3 (.inl p2) p4 hd)).2
  · intro h
    exact (c05_document o lib (hiff.2 ⟨hwf, h⟩)).1

/-- **C72**: removing a node from a well-formed document, where it joins no texts and closes no foreign element, gives a
document whose rendering is parsed to it. -/
theorem c72_remove {o : ParseOptions} (lib : EntityLib) {t t' : Tree} {p : PNode} {c q : Option Str} (hroot : t.data.nodeType = .abstractRoot)
    (hend : t.endTag = none) (hshape : Tree.shapeds t.kids) (hwf : wfDoc o t'.doc) (hi : Inserted p c q none none t.doc t'.doc)
    (hx : ctxNode c p = c) : ∃ r, build lib t {} false = .ok r ∧ docOf r o = some t.doc :=
  ⟨_, build_doc lib hroot hend hshape, (c05_document o lib ((inserted_wf hi hx holds_none).1 hwf).1).1⟩

theorem inserted_text {p : PNode} {c q ctx par : Option Str} {ps ps' : List PNode} (hi : Inserted p c q ctx par ps ps') :
    ∃ a b, printNodes ps = a ++ b ∧ printNodes ps' = a ++ printNode p ++ b := by
  induction hi with
  | @here ctx par l r hc hp h1 h2 => exact ⟨printNodes l, printNodes r, by simp, by simp [printNodes]⟩
  | @down ctx par l r n as ct ks ks' e h ih =>
    obtain ⟨a, b, h1, h2⟩ := ih
    refine ⟨printNodes l ++ (printOpen n as false ++ ct.getD [] ++ a), b ++ printEnd e ++ printNodes r, ?_, ?_⟩
    · simp [printNodes, printNode, h1]
    · simp [printNodes, printNode, h2]

/-- **C72**: an edit changes the rendering only in its place. -/
theorem c72_local (lib : EntityLib) {t t' : Tree} {p : PNode} {c q : Option Str} (hroot : t.data.nodeType = .abstractRoot)
    (hend : t.endTag = none) (hshape : Tree.shapeds t.kids) (hroot' : t'.data.nodeType = .abstractRoot) (hend' : t'.endTag = none)
    (hshape' : Tree.shapeds t'.kids) (hi : Inserted p c q none none t.doc t'.doc) :
    ∃ a b, build lib t {} false = .ok (a ++ b) ∧ build lib t' {} false = .ok (a ++ printNode p ++ b) := by
  obtain ⟨a, b, h1, h2⟩ := inserted_text hi
  exact ⟨a, b, by rw [build_doc lib hroot hend hshape, h1], by rw [build_doc lib hroot' hend' hshape', h2]⟩

/-- **C72**: what `allow_insert` says about anything but CDATA sections.  A well-formed node below an element `n` is read
back if and only if `allow_insert` allows it and `n` is no raw-text element. -/
theorem c72_allow {o : ParseOptions} (lib : EntityLib) {t t' : Tree} {p : PNode} {c : Option Str} {n : Str} {k : NodeType}
    (hroot : t'.data.nodeType = .abstractRoot) (hend : t'.endTag = none) (hshape : Tree.shapeds t'.kids) (hwf : wfDoc o t.doc)
    (hi : Inserted p c (some n) none none t.doc t'.doc) (hx : ctxNode c p = c) (hp : wfNode o c (some n) p) (hk : hasKind p k)
    (hcd : ∀ w, p ≠ .cdata w) (hd : ∀ n as sc, Occurs (.doctype n as sc) t'.doc → as ≠ [] ∧ sc = false)
    (p1 : o.autoFixUnclosedTag = false) (p2 : o.autoFixUnexpectedEndtag = false) (p3 : o.autoFixUnescapedLt = false)
    (p4 : o.allowAttrKeyStartsWithEqualSign = false) :
    ∃ r, build lib t' {} false = .ok r ∧ (docOf r o = some t'.doc ↔ allowInsert n k = true ∧ ¬ isRaw n) := by
  obtain ⟨r, h1, h2⟩ := c72_insert lib hroot hend hshape hwf hi hx hd p1 p2 p3 p4
  refine ⟨r, h1, ?_⟩
  rw [h2, c43_exact]
  have hne : k ≠ .xmlCdata := by
    cases p with
    | text w => rcases hk with rfl | rfl <;> simp
    | comment w => rw [show k = _ from hk]; simp
    | cdata w => exact absurd rfl (hcd w)
    | doctype n as s => rw [show k = _ from hk]; simp
    | elem n as s ct ks e => rw [show k = _ from hk]; simp
  constructor
  · rintro ⟨_, h⟩
    obtain ⟨h3, h4⟩ := h n rfl
    refine ⟨⟨h3, fun hn => absurd ?_ h4, fun q => absurd q hne⟩, h4⟩
    rcases hn with rfl | rfl <;> decide
  · rintro ⟨⟨h3, _, _⟩, h4⟩
    exact ⟨hp, fun m hm => by cases hm; exact ⟨h3, h4⟩⟩

theorem ctx_foreign : (∀ (p : PNode) (ctx : Option Str) (x : Str), ctxNode ctx p = some x → ctx = some x ∨ isForeign x) ∧
    (∀ (ps : List PNode) (ctx : Option Str) (x : Str), ctxNodes ctx ps = some x → ctx = some x ∨ isForeign x) := by
  have henter : ∀ (ctx : Option Str) (n x : Str), enter ctx n = some x → ctx = some x ∨ isForeign x := by
    intro ctx n x h
    cases ctx with
    | some y => exact .inl h
    | none =>
      simp only [enter] at h
      split at h
      · rename_i hf; cases h; exact .inr hf
      · cases h
  apply PNode.induct
  · intro w ctx x h; exact .inl h
  · intro w ctx x h; exact .inl h
  · intro w ctx x h; exact .inl h
  · intro n a s ctx x h; exact .inl h
  · intro n a s ct ks e ih ctx x h
    simp only [ctxNode] at h
    split at h
    · exact .inl h
    · have hin : ctxNodes (enter ctx n) ks = some x → ctx = some x ∨ isForeign x := fun hh =>
        (ih _ x hh).elim (henter ctx n x) .inr
      cases e with
      | none => exact hin h
      | some e =>
        simp only [leave] at h
        split at h
        · cases h
        · exact hin h
  · intro ctx x h; exact .inl h
  · intro p ps h1 h2 ctx x h
    simp only [ctxNodes] at h
    exact (h2 _ x h).elim (h1 ctx x) .inr

theorem inserted_foreign {p : PNode} {c q ctx par : Option Str} {ps ps' : List PNode} (h : Inserted p c q ctx par ps ps') {x : Str}
    (hc : c = some x) : ctx = some x ∨ isForeign x := by
  induction h with
  | here h1 hp _ _ => exact ctx_foreign.2 _ _ _ (h1.trans hc)
  | @down ctx par l r n as ct ks ks' e h ih =>
    rcases ih with h1 | h1
    · cases hl : ctxNodes ctx l with
      | some y =>
        rw [hl] at h1
        exact ctx_foreign.2 _ _ _ (hl.trans h1)
      | none =>
        rw [hl] at h1
        simp only [enter] at h1
        split at h1
        · rename_i hf; cases h1; exact .inr hf
        · cases h1
    · exact .inr h1

/-- **C72**: what `allow_insert` says about CDATA sections is wrong.  In an element `n` that started the foreign content they
are allowed, but the rendering is not parsed to the document; in other elements of the foreign content they are not allowed,
but the rendering is parsed to the document. -/
theorem c72_cdata {o : ParseOptions} (lib : EntityLib) {t t' : Tree} {w : Str} {m n : Str}
    (hroot : t'.data.nodeType = .abstractRoot) (hend : t'.endTag = none) (hshape : Tree.shapeds t'.kids) (hwf : wfDoc o t.doc)
    (hi : Inserted (.cdata w) (some m) (some n) none none t.doc t'.doc) (hw : w ≠ [] ∧ ¬ [']', ']', '>'] <:+: w.tail)
    (hd : ∀ n as sc, Occurs (.doctype n as sc) t'.doc → as ≠ [] ∧ sc = false)
    (p1 : o.autoFixUnclosedTag = false) (p2 : o.autoFixUnexpectedEndtag = false) (p3 : o.autoFixUnescapedLt = false)
    (p4 : o.allowAttrKeyStartsWithEqualSign = false) :
    ∃ r, build lib t' {} false = .ok r ∧ (m = n → allowInsert n .xmlCdata = true ∧ docOf r o ≠ some t'.doc) ∧
      (¬ isForeign n → ¬ isVoid n → ¬ isRaw n → allowInsert n .xmlCdata = false ∧ docOf r o = some t'.doc) := by
  obtain ⟨r, h1, h2⟩ := c72_insert lib hroot hend hshape hwf hi rfl hd p1 p2 p3 p4
  have hm : isForeign m := (inserted_foreign hi rfl).resolve_left (by simp)
  have hf : isForeign n ↔ fold n = "svg".toList ∨ fold n = "math".toList := by
    unfold isForeign
    simp only [List.mem_cons, List.not_mem_nil, or_false]
    constructor
    · rintro (h | h)
      · exact .inl (by rw [← h]; simp)
      · exact .inr (by rw [← h]; simp)
    · rintro (h | h)
      · exact .inl (by rw [h]; rfl)
      · exact .inr (by rw [h]; rfl)
  refine ⟨r, h1, ?_, ?_⟩
  · rintro rfl
    refine ⟨?_, fun h => (h2.1 h).1.2.2.2.2 rfl⟩
    rw [c43_exact]
    refine ⟨?_, ?_, fun _ => hf.1 hm⟩
    · rcases hf.1 hm with h | h <;> rw [h] <;> decide
    · rintro (rfl | rfl) <;> exact absurd hm (by decide)
  · intro g1 g2 g3
    constructor
    · cases h : allowInsert n .xmlCdata with
      | false => rfl
      | true => exact absurd (hf.2 (((c43_exact n .xmlCdata).1 h).2.2 rfl)) g1
    · exact h2.2 ⟨⟨hw.1, hw.2, by simp, by simp, fun h => g1 (by cases h; exact hm)⟩, fun k hk => by cases hk; exact ⟨g2, g3⟩⟩

/-! ## Samples -/

/-- A tree with the given children of `<svg>` and of `<g>` in it. -/
def svgTree (ks gs : List Tree) : Tree :=
  let el (n : String) (ks : List Tree) : Tree := .mk { nodeType := .tag, tmeta := some { name := n.toList } } (some { nodeType := .tagEnd, content := some n.toList }) (some ks)
  .mk { nodeType := .abstractRoot } none (some [el "svg" (ks ++ [el "g" gs])])

/-- A leaf. -/
def leafOf (k : NodeType) (w : String) : Tree := .mk { nodeType := k, content := some w.toList } none none

theorem svg_wf : wfDoc {} (svgTree [] []).doc := by
  have e : (svgTree [] []).doc = [.elem "svg".toList [] false none [.elem "g".toList [] false none [] (some "g".toList)] (some "svg".toList)] := by decide
  have hg : tagName "g".toList := by show ('g').isAlpha = true ∧ ∀ x ∈ ['g'], x ∉ ws ∧ x ≠ '/' ∧ x ≠ '>'; decide
  have hs : tagName "svg".toList := by show ('s').isAlpha = true ∧ ∀ x ∈ ['s', 'v', 'g'], x ∉ ws ∧ x ≠ '/' ∧ x ≠ '>'; decide
  rw [e]
  simp only [wfDoc, wfNodes, wfNode, Bool.false_eq_true, if_false]
  rw [if_neg (by decide), if_neg (by decide), if_neg (by decide), if_neg (by decide)]
  exact ⟨⟨hs, ⟨by simp, trivial⟩, trivial, ⟨_, rfl, by decide⟩, ⟨hg, ⟨by simp, trivial⟩, trivial, ⟨_, rfl, by decide⟩, trivial⟩, by simp, trivial⟩, by simp, trivial⟩

/-- The hypotheses of `c72_cdata`, for both of its conclusions, and of `c72_allow` hold for edits of this tree. -/
theorem svg_inserts : Inserted (.cdata ['a']) (some "svg".toList) (some "svg".toList) none none (svgTree [] []).doc (svgTree [leafOf .xmlCdata "a"] []).doc ∧
    Inserted (.cdata ['a']) (some "svg".toList) (some "g".toList) none none (svgTree [] []).doc (svgTree [] [leafOf .xmlCdata "a"]).doc ∧
    Inserted (.comment ['a']) (some "svg".toList) (some "g".toList) none none (svgTree [] []).doc (svgTree [] [leafOf .comment "a"]).doc := by
  refine ⟨.down (l := []) (r := []) (.here (l := []) (by decide) rfl (fun q => by cases q) (by simp)), ?_, ?_⟩
  · exact .down (l := []) (r := []) (.down (l := []) (r := []) (.here (l := []) (r := []) (by decide) rfl (by simp) (by simp)))
  · exact .down (l := []) (r := []) (.down (l := []) (r := []) (.here (l := []) (r := []) (by decide) rfl (by simp) (by simp)))

theorem svg_noDoctype {ps : List PNode} (h : allsIn (fun p => ∀ n as sc, p ≠ .doctype n as sc) ps) :
    ∀ n as sc, Occurs (.doctype n as sc) ps → as ≠ [] ∧ sc = false :=
  fun n as sc ho => absurd rfl (allsIn_occurs h _ ho n as sc)

example : allowInsert "svg".toList .xmlCdata = true ∧ ∃ r, build toyLib (svgTree [leafOf .xmlCdata "a"] []) {} false = .ok r ∧
    docOf r {} ≠ some (svgTree [leafOf .xmlCdata "a"] []).doc := by
  obtain ⟨r, h1, h2, _⟩ := c72_cdata (o := {}) toyLib (t := svgTree [] []) (t' := svgTree [leafOf .xmlCdata "a"] []) rfl rfl
    (by simp [svgTree, leafOf, Tree.kids, Tree.shapeds, Tree.shaped]) svg_wf svg_inserts.1 (by decide)
    (svg_noDoctype (by simp [svgTree, leafOf, Tree.doc, Tree.kids, Tree.pnodes, Tree.pnode, allsIn, allIn])) rfl rfl rfl rfl
  exact ⟨(h2 rfl).1, r, h1, (h2 rfl).2⟩

example : ∃ r, build toyLib (svgTree [] [leafOf .comment "a"]) {} false = .ok r ∧ docOf r {} = some (svgTree [] [leafOf .comment "a"]).doc := by
  obtain ⟨r, h1, h2⟩ := c72_allow (o := {}) toyLib (t := svgTree [] []) (t' := svgTree [] [leafOf .comment "a"]) (k := .comment) rfl rfl
    (by simp [svgTree, leafOf, Tree.kids, Tree.shapeds, Tree.shaped]) svg_wf svg_inserts.2.2 rfl (by unfold wfNode; decide) rfl (by simp)
    (svg_noDoctype (by simp [svgTree, leafOf, Tree.doc, Tree.kids, Tree.pnodes, Tree.pnode, allsIn, allIn])) rfl rfl rfl rfl
  exact ⟨r, h1, h2.2 ⟨by decide, by decide⟩⟩

/-- Below `script`, `allow_insert` allows a comment, but it is read as raw text.  A tag in `title` is refused, in `TITLE` not. -/
example : allowInsert "script".toList .comment = true ∧
    docOf "<script><!--x--></script>".toList {} = some [.elem "script".toList [] false (some "<!--x-->".toList) [] (some "script".toList)] ∧
    docOf "<svg><![CDATA[a]]></svg>".toList {} = none ∧
    docOf "<svg><g><![CDATA[a]]></g></svg>".toList {} = some (svgTree [] [leafOf .xmlCdata "a"]).doc := by decide +kernel

end Rphtml
