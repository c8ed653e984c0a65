import Verif.Spec.Replace
import Verif.Props.Insert

/-!
# C73: changing nodes in place

Setting a text, the content of a comment or a script, or the value of an attribute through the public fields, and rendering:
when the new text cannot be taken for markup.
-/

namespace Rphtml
open Spec

/-- **C73**: a tree survives rendering and parsing if and only if it is well-formed. -/
theorem c73_survives {o : ParseOptions} (lib : EntityLib) {t : Tree} (hroot : t.data.nodeType = .abstractRoot) (hend : t.endTag = none)
    (hshape : Tree.shapeds t.kids) (hd : ∀ n as sc, Occurs (.doctype n as sc) t.doc → as ≠ [] ∧ sc = false)
    (p1 : o.autoFixUnclosedTag = false) (p2 : o.autoFixUnexpectedEndtag = false) (p3 : o.autoFixUnescapedLt = false)
    (p4 : o.allowAttrKeyStartsWithEqualSign = false) :
    ∃ r, build lib t {} false = .ok r ∧ (docOf r o = some t.doc ↔ wfDoc o t.doc) :=
  ⟨_, build_doc lib hroot hend hshape, fun h => c04_wellformed (complete_of p1) h p3 (.inl p2) p4 hd, fun h => (c05_document o lib h).1⟩

theorem replaced_ne {p p' : PNode} {c q ctx par : Option Str} {ps ps' : List PNode} (h : Replaced p p' c q ctx par ps ps') : ps ≠ [] ∧ ps' ≠ [] := by
  cases h <;> simp

theorem replaced_ctx {p p' : PNode} {c q ctx par : Option Str} {ps ps' : List PNode} (h : Replaced p p' c q ctx par ps ps')
    (hx : ctxNode c p' = ctxNode c p) : ctxNodes ctx ps' = ctxNodes ctx ps := by
  induction h with
  | here hc hp ht => simp only [ctxNodes_append, ctxNodes, hc, hx]
  | down h ih => simp only [ctxNodes_append, ctxNodes, ctxNode, ih]

theorem swap_wf {o : ParseOptions} {par : Option Str} {l r : List PNode} {ctx : Option Str} {p p' : PNode} (ht : isText p' = isText p)
    (hx : ctxNode (ctxNodes ctx l) p' = ctxNode (ctxNodes ctx l) p) (h : wfNodes o ctx par (l ++ p :: r)) :
    wfNodes o ctx par (l ++ p' :: r) ↔ wfNode o (ctxNodes ctx l) par p' := by
  rw [wfNodes_append, wfNodes] at h ⊢
  rw [hx, ht]
  obtain ⟨h1, ⟨h2, h3, h4⟩, h5⟩ := h
  refine ⟨fun q => q.2.1.1, fun q => ⟨h1, ⟨q, h3, h4⟩, fun a b ha hb hta => ?_⟩⟩
  cases hb
  rw [ht]
  exact h5 a p ha rfl hta

theorem replaced_wf {o : ParseOptions} {p p' : PNode} {c q ctx par : Option Str} {ps ps' : List PNode} (h : Replaced p p' c q ctx par ps ps')
    (hx : ctxNode c p' = ctxNode c p) : wfNodes o ctx par ps → wfNode o c q p ∧ (wfNodes o ctx par ps' ↔ wfNode o c q p') := by
  induction h with
  | @here ctx par l r hc hp ht =>
    intro hw
    subst hc hp
    refine ⟨?_, swap_wf ht hx hw⟩
    rw [wfNodes_append, wfNodes] at hw
    exact hw.2.1.1
  | @down ctx par l r n as s ct ks ks' e h ih =>
    intro hw
    have hc := replaced_ctx h hx
    have h1 := swap_wf (o := o) (par := par) (l := l) (r := r) (ctx := ctx) (p := .elem n as s ct ks e) (p' := .elem n as s ct ks' e) rfl
      (by simp only [ctxNode, hc]) hw
    rw [h1]
    rw [wfNodes_append, wfNodes] at hw
    have hn := hw.2.1.1
    have hne := replaced_ne h
    simp only [wfNode] at hn ⊢
    obtain ⟨g1, g2, hn⟩ := hn
    by_cases hs : s = true
    · rw [if_pos hs] at hn; exact absurd hn.2.1 hne.1
    · rw [if_neg hs] at hn ⊢
      by_cases hv : isVoid n
      · rw [if_pos hv] at hn; exact absurd hn.2.1 hne.1
      · rw [if_neg hv] at hn ⊢
        by_cases hr : isRaw n
        · rw [if_pos hr] at hn; exact absurd hn.1 hne.1
        · rw [if_neg hr] at hn ⊢
          obtain ⟨k1, k2⟩ := ih hn.2.2
          refine ⟨k1, ?_⟩
          rw [k2]
          exact ⟨fun x => x.2.2.2.2, fun x => ⟨g1, g2, hn.1, hn.2.1, x⟩⟩

/-- **C73**: a node of a well-formed document is replaced by one that leaves the same foreign element.  The new document
survives rendering and parsing if and only if the new node is well-formed in its place. -/
theorem c73_replace {o : ParseOptions} (lib : EntityLib) {t t' : Tree} {p p' : PNode} {c q : Option Str} (hroot : t'.data.nodeType = .abstractRoot)
    (hend : t'.endTag = none) (hshape : Tree.shapeds t'.kids) (hwf : wfDoc o t.doc) (hi : Replaced p p' c q none none t.doc t'.doc)
    (hx : ctxNode c p' = ctxNode c p) (hd : ∀ n as sc, Occurs (.doctype n as sc) t'.doc → as ≠ [] ∧ sc = false)
    (p1 : o.autoFixUnclosedTag = false) (p2 : o.autoFixUnexpectedEndtag = false) (p3 : o.autoFixUnescapedLt = false)
    (p4 : o.allowAttrKeyStartsWithEqualSign = false) :
    ∃ r, build lib t' {} false = .ok r ∧ (docOf r o = some t'.doc ↔ wfNode o c q p') := by
  obtain ⟨r, h1, h2⟩ := c73_survives lib hroot hend hshape hd p1 p2 p3 p4
  exact ⟨r, h1, h2.trans (replaced_wf hi hx hwf).2⟩

/-- **C73**: setting a text is safe exactly if it is not empty and has no `<`; the content of a comment, if it is not empty
and has no `-->` behind its first character; the content of a CDATA section alike. -/
theorem c73_text {o : ParseOptions} (lib : EntityLib) {t t' : Tree} {p p' : PNode} {v w : Str} {c q : Option Str} (hroot : t'.data.nodeType = .abstractRoot)
    (hend : t'.endTag = none) (hshape : Tree.shapeds t'.kids) (hwf : wfDoc o t.doc) (hi : Replaced p p' c q none none t.doc t'.doc)
    (hd : ∀ n as sc, Occurs (.doctype n as sc) t'.doc → as ≠ [] ∧ sc = false)
    (p1 : o.autoFixUnclosedTag = false) (p2 : o.autoFixUnexpectedEndtag = false) (p3 : o.autoFixUnescapedLt = false)
    (p4 : o.allowAttrKeyStartsWithEqualSign = false) :
    ∃ r, build lib t' {} false = .ok r ∧
      (p = .text v → p' = .text w → (docOf r o = some t'.doc ↔ w ≠ [] ∧ '<' ∉ w)) ∧
      (p = .comment v → p' = .comment w → (docOf r o = some t'.doc ↔ w ≠ [] ∧ ¬ ['-', '-', '>'] <:+: w.tail)) ∧
      (p = .cdata v → p' = .cdata w → (docOf r o = some t'.doc ↔ w ≠ [] ∧ ¬ [']', ']', '>'] <:+: w.tail)) := by
  have hb := build_doc lib hroot hend hshape
  refine ⟨_, hb, ?_, ?_, ?_⟩
  all_goals
    rintro rfl rfl
    obtain ⟨r, h1, h2⟩ := c73_replace lib hroot hend hshape hwf hi rfl hd p1 p2 p3 p4
    rw [hb] at h1
    cases h1
    have h3 := (replaced_wf (o := o) hi rfl hwf).1
    rw [h2]
    simp only [wfNode] at h3 ⊢
  exact ⟨fun h => ⟨h.1, h.2.1⟩, fun h => ⟨h.1, h.2, h3.2.2⟩⟩

/-- **C73**: setting the content of a `script`, `style`, `title` or `textarea` is safe exactly if no end tag of the element
is in it. -/
theorem c73_raw {o : ParseOptions} (lib : EntityLib) {t t' : Tree} {n : Str} {as : List Attr} {v w : Str} {e : Option Str} {c q : Option Str}
    (hroot : t'.data.nodeType = .abstractRoot) (hend : t'.endTag = none) (hshape : Tree.shapeds t'.kids) (hwf : wfDoc o t.doc)
    (hi : Replaced (.elem n as false (some v) [] e) (.elem n as false (some w) [] e) c q none none t.doc t'.doc)
    (hd : ∀ n as sc, Occurs (.doctype n as sc) t'.doc → as ≠ [] ∧ sc = false)
    (p1 : o.autoFixUnclosedTag = false) (p2 : o.autoFixUnexpectedEndtag = false) (p3 : o.autoFixUnescapedLt = false)
    (p4 : o.allowAttrKeyStartsWithEqualSign = false) :
    ∃ r, build lib t' {} false = .ok r ∧
      (docOf r o = some t'.doc ↔ ∀ a k b, w = a ++ ['<', '/'] ++ k ++ ['>'] ++ b → ¬ closes o.caseSensitiveTagname n k) := by
  obtain ⟨r, h1, h2⟩ := c73_replace lib hroot hend hshape hwf hi rfl hd p1 p2 p3 p4
  refine ⟨r, h1, h2.trans ?_⟩
  have h3 := (replaced_wf (o := o) hi rfl hwf).1
  simp only [wfNode, Bool.false_eq_true, if_false] at h3 ⊢
  obtain ⟨g1, g2, h3⟩ := h3
  by_cases hv : isVoid n
  · rw [if_pos hv] at h3; cases h3.1
  · rw [if_neg hv] at h3 ⊢
    by_cases hr : isRaw n
    · rw [if_pos hr] at h3 ⊢
      obtain ⟨_, w', e', g3, g4, g5, _⟩ := h3
      constructor
      · rintro ⟨_, _, _, x, y, k1, _, _, k4⟩
        cases k1
        exact k4
      · intro h
        exact ⟨g1, g2, trivial, w, e', rfl, g4, g5, h⟩
    · rw [if_neg hr] at h3; cases h3.1

theorem eqApart_swap {a a' : Attr} (hk : a'.key = a.key) (hv : a'.value = none → a.value = none) {r : List Attr} :
    ∀ {l : List Attr}, eqApart (l ++ a :: r) → eqApart (l ++ a' :: r)
  | [], h => by
    cases r with
    | nil => trivial
    | cons b r => exact ⟨fun q => h.1 (hv q), h.2⟩
  | [b], h => by
    refine ⟨fun q => by rw [hk]; exact h.1 q, ?_⟩
    exact eqApart_swap hk hv (l := []) h.2
  | b :: b' :: l, h => ⟨h.1, eqApart_swap hk hv (l := b' :: l) h.2⟩

/-- **C73**: setting the value of an attribute in quotes is safe exactly if the quotes are `"` or `'` and not in the value;
setting it without quotes, if it can be written without (`plainValue`). -/
theorem c73_attr {o : ParseOptions} (lib : EntityLib) {t t' : Tree} {n : Str} {l r : List Attr} {a : Attr} {k v : Str} {u : Option Char} {s : Bool}
    {ct e : Option Str} {ks : List PNode} {c q : Option Str}
    (hroot : t'.data.nodeType = .abstractRoot) (hend : t'.endTag = none) (hshape : Tree.shapeds t'.kids) (hwf : wfDoc o t.doc)
    (hi : Replaced (.elem n (l ++ a :: r) s ct ks e) (.elem n (l ++ { a with value := some v, quote := u } :: r) s ct ks e) c q none none t.doc t'.doc)
    (hk : a.key = some k) (hd : ∀ n as sc, Occurs (.doctype n as sc) t'.doc → as ≠ [] ∧ sc = false)
    (p1 : o.autoFixUnclosedTag = false) (p2 : o.autoFixUnexpectedEndtag = false) (p3 : o.autoFixUnescapedLt = false)
    (p4 : o.allowAttrKeyStartsWithEqualSign = false) :
    ∃ r, build lib t' {} false = .ok r ∧
      (docOf r o = some t'.doc ↔ (∀ x, u = some x → (x = '"' ∨ x = '\'') ∧ x ∉ v) ∧ (u = none → plainValue v)) := by
  obtain ⟨x, h1, h2⟩ := c73_replace lib hroot hend hshape hwf hi rfl hd p1 p2 p3 p4
  refine ⟨x, h1, h2.trans ?_⟩
  have h3 := (replaced_wf (o := o) hi rfl hwf).1
  simp only [wfNode] at h3 ⊢
  obtain ⟨g1, ⟨g2, g3⟩, g4⟩ := h3
  have ga := g2 a (by simp)
  have hname : attrName o.allowAttrKeyStartsWithEqualSign false k := by
    unfold legalAttr at ga
    rw [hk] at ga
    cases hv : a.value with
    | none => cases hq : a.quote <;> rw [hv, hq] at ga <;> first | exact ga.2 | exact absurd ga.2 id
    | some y => cases hq : a.quote <;> rw [hv, hq] at ga <;> exact ga.2.1
  have hlegal : legalAttr o.allowAttrKeyStartsWithEqualSign false { a with value := some v, quote := u } ↔ (∀ x, u = some x → (x = '"' ∨ x = '\'') ∧ x ∉ v) ∧ (u = none → plainValue v) := by
    unfold legalAttr
    simp only [hk]
    cases u with
    | none => exact ⟨fun h => ⟨fun _ q => (by cases q), fun _ => h.2.2⟩, fun h => ⟨ga.1, hname, h.2 rfl⟩⟩
    | some y => exact ⟨fun h => ⟨fun _ q => (by cases q; exact h.2.2), fun q => (by cases q)⟩, fun h => ⟨ga.1, hname, h.1 y rfl⟩⟩
  rw [← hlegal]
  constructor
  · rintro ⟨_, ⟨h, _⟩, _⟩
    exact h _ (by simp)
  · intro h
    refine ⟨g1, ⟨fun b hb => ?_, eqApart_swap (a := a) (a' := { a with value := some v, quote := u }) rfl (fun q => by cases q) g3⟩, g4⟩
    rcases List.mem_append.1 hb with hb | hb
    · exact g2 b (by simp [hb])
    · rcases List.mem_cons.1 hb with rfl | hb
      · exact h
      · exact g2 b (by simp [hb])

/-! ## Samples -/

/-- `<p x="…">…<!--…--></p><script>…</script>` as a tree. -/
def pTree (v w c j : String) : Tree :=
  let a : Attr := { key := some ['x'], value := some v.toList, quote := some '"' }
  .mk { nodeType := .abstractRoot } none (some [
    .mk { nodeType := .tag, tmeta := some { name := ['p'], attrs := [a] } } (some { nodeType := .tagEnd, content := some ['p'] }) (some [leafOf .text w, leafOf .comment c]),
    .mk { nodeType := .tag, content := some j.toList, tmeta := some { name := "script".toList } } (some { nodeType := .tagEnd, content := some "script".toList }) none])

theorem pTree_doc (v w c j : String) : (pTree v w c j).doc = [.elem ['p'] [{ key := some ['x'], value := some v.toList, quote := some '"' }] false none [.text w.toList, .comment c.toList] (some ['p']), .elem "script".toList [] false (some j.toList) [] (some "script".toList)] := rfl

theorem pTree_shape (v w c j : String) : Tree.shapeds (pTree v w c j).kids := by
  simp [pTree, leafOf, Tree.kids, Tree.shapeds, Tree.shaped]

theorem pTree_noDoctype (v w c j : String) : ∀ n as sc, Occurs (.doctype n as sc) (pTree v w c j).doc → as ≠ [] ∧ sc = false := by
  refine svg_noDoctype ?_
  rw [pTree_doc]
  simp [allsIn, allIn]

theorem pTree_wf : wfDoc {} (pTree "v" "w" "c" "").doc := by
  have h : (docOf "<p x=\"v\">w<!--c--></p><script></script>".toList {}) = some (pTree "v" "w" "c" "").doc := by decide +kernel
  exact c04_wellformed (complete_of rfl) h rfl (.inl rfl) rfl (pTree_noDoctype _ _ _ _)

/-- Setting the attribute: a value with the quote in it does not survive, any other does. -/
example (v : String) : ∃ r, build toyLib (pTree v "w" "c" "") {} false = .ok r ∧ (docOf r {} = some (pTree v "w" "c" "").doc ↔ '"' ∉ v.toList) := by
  have hi : Replaced (.elem ['p'] ([] ++ { key := some ['x'], value := some ['v'], quote := some '"' } :: []) false none [.text ['w'], .comment ['c']] (some ['p'])) (.elem ['p'] ([] ++ { key := some ['x'], value := some v.toList, quote := some '"' } :: []) false none [.text ['w'], .comment ['c']] (some ['p'])) none none none none (pTree "v" "w" "c" "").doc (pTree v "w" "c" "").doc :=
    .here (l := []) rfl rfl rfl
  obtain ⟨r, h1, h2⟩ := c73_attr (o := {}) toyLib (u := some '"') rfl rfl (pTree_shape ..) pTree_wf hi rfl (pTree_noDoctype _ _ _ _) rfl rfl rfl rfl
  exact ⟨r, h1, h2.trans ⟨fun h => (h.1 _ rfl).2, fun h => ⟨fun x hx => by cases hx; exact ⟨.inl rfl, h⟩, fun q => by cases q⟩⟩⟩

/-- Setting the text. -/
example (w : String) : ∃ r, build toyLib (pTree "v" w "c" "") {} false = .ok r ∧ (docOf r {} = some (pTree "v" w "c" "").doc ↔ w.toList ≠ [] ∧ '<' ∉ w.toList) := by
  have hi : Replaced (.text ['w']) (.text w.toList) none (some ['p']) none none (pTree "v" "w" "c" "").doc (pTree "v" w "c" "").doc :=
    .down (l := []) (.here (l := []) (by decide) rfl rfl)
  obtain ⟨r, h1, h2, _⟩ := c73_text (o := {}) toyLib (v := ['w']) (w := w.toList) rfl rfl (pTree_shape ..) pTree_wf hi (pTree_noDoctype _ _ _ _) rfl rfl rfl rfl
  exact ⟨r, h1, h2 rfl rfl⟩

/-- Setting the script. -/
example (j : String) : ∃ r, build toyLib (pTree "v" "w" "c" j) {} false = .ok r ∧
    (docOf r {} = some (pTree "v" "w" "c" j).doc ↔ ∀ a k b, j.toList = a ++ ['<', '/'] ++ k ++ ['>'] ++ b → ¬ closes false "script".toList k) :=
  c73_raw (o := {}) toyLib (v := []) (c := none) (q := none) rfl rfl (pTree_shape ..) pTree_wf (.here (l := [_]) (by decide) rfl rfl) (pTree_noDoctype _ _ _ _) rfl rfl rfl rfl

end Rphtml
