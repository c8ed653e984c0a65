import Verif.Spec.Splice
import Verif.Props.Insert
import Verif.Proofs.Inner

/-!
# C74: inserting a parsed fragment

What an editor does to set or append html: parse a text, and put the nodes into another document.
-/

namespace Rphtml
open Spec

theorem spliced_ctx {qs : List PNode} {c q ctx par : Option Str} {ps ps' : List PNode} (h : Spliced qs c q ctx par ps ps')
    (hx : ctxNodes c qs = c) : ctxNodes ctx ps' = ctxNodes ctx ps := by
  induction h with
  | here hc hp h1 h2 => rw [ctxNodes_append, ctxNodes_append, ctxNodes_append, hc, hx]
  | down h ih => simp only [ctxNodes_append, ctxNodes, ctxNode, ih]

theorem spliced_nil {qs : List PNode} {c q ctx par : Option Str} {ps' : List PNode} (h : Spliced qs c q ctx par [] ps') : par = q := by
  generalize hps : ([] : List PNode) = ps at h
  cases h with
  | here hc hp h1 h2 => exact hp
  | down h => simp at hps

theorem spliced_empty {qs : List PNode} (hne : qs ≠ []) {c q ctx par : Option Str} {ps : List PNode} (h : Spliced qs c q ctx par ps []) : False := by
  generalize hps : ([] : List PNode) = ps' at h
  cases h with
  | here hc hp h1 h2 => simp [hne] at hps
  | down h => simp at hps

theorem spliced_wf {o : ParseOptions} {qs : List PNode} (hne : qs ≠ []) {c q ctx par : Option Str} {ps ps' : List PNode} (h : Spliced qs c q ctx par ps ps')
    (hx : ctxNodes c qs = c) : holds par → wfNodes o ctx par ps → (wfNodes o ctx par ps' ↔ wfNodes o c q qs ∧ holds q) := by
  induction h with
  | @here ctx par l r hc hp h1 h2 =>
    intro hpar hw
    subst hp
    rw [wfNodes_append] at hw
    rw [wfNodes_append, wfNodes_append, ctxNodes_append, hc, hx]
    constructor
    · rintro ⟨⟨k1, k2, k3⟩, k4⟩
      exact ⟨k2, hpar⟩
    · rintro ⟨k, _⟩
      refine ⟨⟨hw.1, k, h1⟩, hc ▸ hw.2.1, fun a b ha hb => ?_⟩
      refine h2 a b ?_ hb
      rw [List.getLast?_append, List.getLast?_eq_some_getLast hne] at ha
      rw [List.getLast?_eq_some_getLast hne]
      exact ha
  | @down ctx par l r n as ct ks ks' e h ih =>
    intro hpar hw
    have hctx : ctxNode (ctxNodes ctx l) (.elem n as false ct ks' e) = ctxNode (ctxNodes ctx l) (.elem n as false ct ks e) := by
      simp only [ctxNode, spliced_ctx h hx]
    rw [wfNodes_append, wfNodes] at hw ⊢
    rw [hctx]
    obtain ⟨g1, ⟨g2, g3, g4⟩, g5⟩ := hw
    have key : wfNode o (ctxNodes ctx l) par (.elem n as false ct ks' e) ↔ wfNodes o c q qs ∧ holds q := by
      simp only [wfNode, Bool.false_eq_true, if_false] at g2 ⊢
      obtain ⟨i1, i2, i3⟩ := g2
      by_cases hv : isVoid n
      · rw [if_pos hv] at i3 ⊢
        constructor
        · rintro ⟨_, _, _, k, _⟩; subst k; exact absurd h (fun h => spliced_empty hne h)
        · rintro ⟨_, k⟩
          obtain ⟨_, rfl, _⟩ := i3
          exact absurd hv (k n (spliced_nil h).symm).1
      · rw [if_neg hv] at i3 ⊢
        by_cases hr : isRaw n
        · rw [if_pos hr] at i3 ⊢
          constructor
          · rintro ⟨_, _, k, _⟩; subst k; exact absurd h (fun h => spliced_empty hne h)
          · rintro ⟨_, k⟩
            obtain ⟨rfl, _⟩ := i3
            exact absurd hr (k n (spliced_nil h).symm).2
        · rw [if_neg hr] at i3 ⊢
          rw [ih (fun m hm => by cases hm; exact ⟨hv, hr⟩) i3.2.2]
          exact ⟨fun k => k.2.2.2.2, fun k => ⟨i1, i2, i3.1, i3.2.1, k⟩⟩
    rw [key]
    constructor
    · exact fun k => k.2.1.1
    · intro k
      exact ⟨g1, ⟨k, by simp [isText], g4⟩, fun a b _ hb _ => by cases hb; rfl⟩

theorem closes_foreign {b : Bool} {n e : Str} (h : closes b n e) (hf : isForeign (trimEnd e)) : isForeign n := by
  unfold closes at h
  split at h
  · rw [← h]; exact hf
  · unfold isForeign at hf ⊢
    rw [← show fold (trimEnd e) = fold n from h]
    exact hf

/-- A fragment without svg and math is well-formed everywhere. -/
theorem homely_any {o : ParseOptions} (c : Option Str) (hc : ∀ x, c = some x → isForeign x) :
    (∀ p, allIn Homely p → ∀ q q', wfNode o none q p → wfNode o c q' p ∧ ctxNode c p = c) ∧
    (∀ ps, allsIn Homely ps → ∀ q q', wfNodes o none q ps → wfNodes o c q' ps ∧ ctxNodes c ps = c) := by
  apply PNode.induct
  · intro w _ q q' h; exact ⟨h, rfl⟩
  · intro w _ q q' h; exact ⟨h, rfl⟩
  · intro w _ q q' h; exact absurd rfl h.2.2.1
  · intro n as s _ q q' h; exact ⟨h, rfl⟩
  · intro n as s ct ks e ih hh q q' h
    simp only [allIn] at hh
    have hn : ¬ isForeign n := hh.1 n as s ct ks e rfl
    have hent : enter c n = c := by
      cases c with
      | some x => rfl
      | none => simp [enter, hn]
    simp only [wfNode, ctxNode, hent] at h ⊢
    obtain ⟨h1, h2, h3⟩ := h
    by_cases hs : s = true
    · simp only [hs, if_true, true_or] at h3 ⊢
      refine ⟨⟨h1, h2, h3.1, h3.2.1, h3.2.2.1, ?_⟩, trivial⟩
      rcases h3.2.2.2 with k | k | k
      · exact .inl k
      · exact .inr (.inl k)
      · exact absurd rfl k
    · simp only [hs, Bool.false_eq_true, if_false, false_or] at h3 ⊢
      by_cases hv : isVoid n
      · simp only [hv, if_true, true_or] at h3 ⊢
        exact ⟨⟨h1, h2, h3⟩, trivial⟩
      · simp only [hv, if_false, false_or] at h3 ⊢
        by_cases hr : isRaw n
        · simp only [hr, if_true] at h3 ⊢
          exact ⟨⟨h1, h2, h3⟩, trivial⟩
        · simp only [hr, if_false] at h3 ⊢
          obtain ⟨h4, ⟨e', h5, h6⟩, h7⟩ := h3
          have henn : enter none n = none := by simp [enter, hn]
          rw [henn] at h7
          obtain ⟨k1, k2⟩ := ih hh.2 (some n) (some n) h7
          refine ⟨⟨h1, h2, h4, ⟨e', h5, h6⟩, k1⟩, ?_⟩
          subst h5
          simp only [k2, leave]
          rw [if_neg]
          intro hx
          exact hn (closes_foreign h6 (hc _ hx))
  · intro _ q q' _; exact ⟨trivial, rfl⟩
  · intro p ps h1 h2 hh q q' h
    simp only [wfNodes, homely_ctx.1 p hh.1] at h
    obtain ⟨k1, k2⟩ := h1 hh.1 q q' h.1
    obtain ⟨k3, k4⟩ := h2 hh.2 q q' h.2.2
    simp only [wfNodes, ctxNodes, k2]
    exact ⟨⟨k1, h.2.1, k3⟩, k4⟩

theorem spliced_foreign {qs : List PNode} {c q ctx par : Option Str} {ps ps' : List PNode} (h : Spliced qs c q ctx par ps ps') {x : Str}
    (hc : c = some x) : ctx = some x ∨ isForeign x := by
  induction h with
  | here h1 hp _ _ => exact ctx_foreign.2 _ _ _ (h1.trans hc)
  | @down ctx par l r n as ct ks ks' e h ih =>
    rcases ih with h1 | h1
    · cases hl : ctxNodes ctx l with
      | some y =>
        rw [hl] at h1
        exact ctx_foreign.2 _ _ _ (hl.trans h1)
      | none =>
        rw [hl] at h1
        simp only [enter] at h1
        split at h1
        · rename_i hf; cases h1; exact .inr hf
        · cases h1
    · exact .inr h1

theorem spliced_text {qs : List PNode} {c q ctx par : Option Str} {ps ps' : List PNode} (hi : Spliced qs c q ctx par ps ps') :
    ∃ a b, printNodes ps = a ++ b ∧ printNodes ps' = a ++ printNodes qs ++ b := by
  induction hi with
  | @here ctx par l r hc hp h1 h2 => exact ⟨printNodes l, printNodes r, by simp, by simp⟩
  | @down ctx par l r n as ct ks ks' e h ih =>
    obtain ⟨a, b, h1, h2⟩ := ih
    refine ⟨printNodes l ++ (printOpen n as false ++ ct.getD [] ++ a), b ++ printEnd e ++ printNodes r, ?_, ?_⟩
    · simp [printNodes, printNode, h1]
    · simp [printNodes, printNode, h2]

/-- **C74**: inserting nodes that leave no foreign element open.  The rendering is parsed to the edited document if and only
if they are well-formed in their place, which is not below a void or raw-text element. -/
theorem c74_exact {o : ParseOptions} (lib : EntityLib) {t t' : Tree} {qs : List PNode} (hne : qs ≠ []) {c q : Option Str} (hroot : t'.data.nodeType = .abstractRoot)
    (hend : t'.endTag = none) (hshape : Tree.shapeds t'.kids) (hwf : wfDoc o t.doc) (hi : Spliced qs c q none none t.doc t'.doc)
    (hx : ctxNodes c qs = c) (hd : ∀ n as sc, Occurs (.doctype n as sc) t'.doc → as ≠ [] ∧ sc = false)
    (p1 : o.autoFixUnclosedTag = false) (p2 : o.autoFixUnexpectedEndtag = false) (p3 : o.autoFixUnescapedLt = false)
    (p4 : o.allowAttrKeyStartsWithEqualSign = false) :
    ∃ r, build lib t' {} false = .ok r ∧
      (docOf r o = some t'.doc ↔ wfNodes o c q qs ∧ ∀ n, q = some n → ¬ isVoid n ∧ ¬ isRaw n) := by
  refine ⟨_, build_doc lib hroot hend hshape, ?_⟩
  have hiff := spliced_wf (o := o) hne hi hx holds_none hwf
  exact ⟨fun h => hiff.1 (c04_wellformed (complete_of p1) h p3 (.inl p2) p4 hd), fun h => (c05_document o lib (hiff.2 h)).1⟩

/-- **C74**: the nodes of an accepted text without svg and math can be inserted anywhere, also in svg and math, but below void
and raw-text elements.  The rendering is that of the document, with the rendering of the text in it, and is parsed to the edited document. -/
theorem c74_fragment {o : ParseOptions} (lib : EntityLib) {s : Str} {f t t' : Tree} {d : Doc} {c q : Option Str}
    (hp : Doc.parse s o = .ok d) (hf : d.tree? = some f) (hne : f.doc ≠ []) (hh : homely f.doc)
    (hroot : t.data.nodeType = .abstractRoot) (hend : t.endTag = none) (hshape : Tree.shapeds t.kids)
    (hroot' : t'.data.nodeType = .abstractRoot) (hend' : t'.endTag = none) (hshape' : Tree.shapeds t'.kids)
    (hwf : wfDoc o t.doc) (hi : Spliced f.doc c q none none t.doc t'.doc) (hq : ∀ n, q = some n → ¬ isVoid n ∧ ¬ isRaw n)
    (hd : ∀ n as sc, Occurs (.doctype n as sc) f.doc → as ≠ [] ∧ sc = false)
    (p1 : o.autoFixUnclosedTag = false) (p2 : o.autoFixUnexpectedEndtag = false) (p3 : o.autoFixUnescapedLt = false)
    (p4 : o.allowAttrKeyStartsWithEqualSign = false) :
    ∃ a b m, build lib t {} false = .ok (a ++ b) ∧ d.render lib {} = .ok m ∧ build lib t' {} false = .ok (a ++ m ++ b) ∧
      docOf (a ++ m ++ b) o = some t'.doc := by
  have hdoc : docOf s o = some f.doc := by unfold docOf; rw [hp]; simp [hf]
  have hw : wfDoc o f.doc := c04_wellformed (complete_of p1) hdoc p3 (.inl p2) p4 hd
  have hall : allsIn Homely f.doc := allIn_of_occurs.2 _ (by
    intro p hp n as s ct ks e he
    subst he
    exact hh n as s ct ks e hp)
  obtain ⟨k1, k2⟩ := (homely_any (o := o) c (fun x hx => (spliced_foreign hi hx).resolve_left (by simp))).2 _ hall none q hw
  obtain ⟨a, b, h1, h2⟩ := spliced_text hi
  refine ⟨a, b, printNodes f.doc, ?_, docOf_render lib (complete_of p1) hp hdoc, ?_, ?_⟩
  · rw [build_doc lib hroot hend hshape, h1]
  · rw [build_doc lib hroot' hend' hshape', h2]
  · rw [← h2]
    exact (c05_document o lib ((spliced_wf hne hi k2 holds_none hwf).2 ⟨k1, hq⟩)).1

/-- `<b>x</b><br>` as trees. -/
def bTrees : List Tree :=
  [.mk { nodeType := .tag, tmeta := some { name := ['b'] } } (some { nodeType := .tagEnd, content := some ['b'] }) (some [leafOf .text "x"]),
   .mk { nodeType := .tag, tmeta := some { name := "br".toList } } none none]

/-- Appending `<b>x</b><br>` to the `<g>` in an svg element. -/
example : ∃ d, Doc.parse "<b>x</b><br>".toList {} = .ok d ∧ ∃ a b m, build toyLib (svgTree [] []) {} false = .ok (a ++ b) ∧ d.render toyLib {} = .ok m ∧
    build toyLib (svgTree [] bTrees) {} false = .ok (a ++ m ++ b) ∧ docOf (a ++ m ++ b) {} = some (svgTree [] bTrees).doc := by
  have hdoc : docOf "<b>x</b><br>".toList {} = some (Tree.pnodes bTrees) := by decide +kernel
  have hq : Tree.pnodes bTrees = [.elem ['b'] [] false none [.text ['x']] (some ['b']), .elem "br".toList [] false none [] none] := by decide
  cases hp : Doc.parse "<b>x</b><br>".toList {} with
  | err e => unfold docOf at hdoc; rw [hp] at hdoc; cases hdoc
  | panic e => unfold docOf at hdoc; rw [hp] at hdoc; cases hdoc
  | ok d =>
    refine ⟨d, rfl, ?_⟩
    unfold docOf at hdoc
    rw [hp] at hdoc
    simp only [Option.map_eq_some_iff] at hdoc
    obtain ⟨f, hf, he⟩ := hdoc
    have he : f.doc = _ := he.trans hq
    have hin : allsIn (fun p => (∀ n as sc, p ≠ .doctype n as sc) ∧ Homely p) f.doc := by
      rw [he]
      simp only [allsIn, allIn, Homely]
      refine ⟨⟨⟨by simp, ?_⟩, ⟨⟨by simp, by simp⟩, trivial⟩⟩, ⟨⟨by simp, ?_⟩, trivial⟩, trivial⟩ <;>
      · intro n as s ct ks e h
        cases h
        decide
    refine c74_fragment (c := some "svg".toList) (q := some ['g']) toyLib hp hf (by rw [he]; simp) ?_ rfl rfl ?_ rfl rfl ?_ svg_wf ?_ ?_ ?_ rfl rfl rfl rfl
    · intro n as s ct ks e ho
      exact (allsIn_occurs hin _ ho).2 n as s ct ks e rfl
    · simp [svgTree, Tree.kids, Tree.shapeds, Tree.shaped]
    · simp [svgTree, bTrees, leafOf, Tree.kids, Tree.shapeds, Tree.shaped]
    · rw [he]
      exact .down (l := []) (r := []) (.down (l := []) (r := []) (.here (l := []) (r := []) (by decide) rfl (by simp) (by simp)))
    · intro n hn; cases hn; decide
    · intro n as sc ho
      exact absurd rfl ((allsIn_occurs hin _ ho).1 n as sc)

end Rphtml
