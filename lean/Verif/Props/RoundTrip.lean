import Verif.Proofs.DocOf
import Verif.Proofs.WfDec

/-!
# C05, C46: documents that are written down are read back
-/

namespace Rphtml
open Spec

/-- **C05** for plain documents: the source text of a well-formed document is read as that document, and rendering what
was read gives the text again. -/
theorem c05_document (o : ParseOptions) (lib : EntityLib) {ps : List PNode} (h : wfDoc o ps) :
    docOf (printNodes ps) o = some ps ∧
    ∃ d, Doc.parse (printNodes ps) o = .ok d ∧ d.render lib {} = .ok (printNodes ps) := by
  obtain ⟨b, h1, h2, h3⟩ := arun_wfDoc h
  obtain ⟨d, t, k1, k2, k3, k4, k5, k6⟩ := machine_parse h1 h2
  refine ⟨by rw [docOf_machine h1 h2, h3], d, k1, ?_⟩
  rw [parse_render lib k2 k4 k5 k6, k3, h3]

/-- **C05**: for every document tree whose contents are well-formed, under all parse options: default rendering succeeds,
parsing the rendering succeeds, and the parsed tree has the same nodes, names, attributes, quotes, contents, end tags and
child order. -/
theorem c05_roundtrip (o : ParseOptions) (lib : EntityLib) (t : Tree) (hroot : t.data.nodeType = .abstractRoot)
    (hend : t.endTag = none) (hshape : Tree.shapeds t.kids) (hwf : wfDoc o t.doc) :
    ∃ r d t', build lib t {} false = .ok r ∧ Doc.parse r o = .ok d ∧ d.tree? = some t' ∧ t'.doc = t.doc := by
  obtain ⟨b, h1, h2, h3⟩ := arun_wfDoc hwf
  obtain ⟨d, t', k1, k2, k3, _⟩ := machine_parse h1 h2
  exact ⟨_, d, t', build_doc lib hroot hend hshape, k1, k2, k3.trans h3⟩

/-- A document with a doctype, a comment, raw text, a void element, a self-closed element in svg and a CDATA section. -/
def Spec.sampleDoc : List PNode :=
  [.doctype "DOCTYPE".toList [{ key := some "html".toList }] false,
   .comment " a > b ".toList,
   .elem "div".toList [{ key := some "id".toList, value := some "x".toList, quote := some '"' }] false none
     [.text "\n a & b".toList,
      .elem "br".toList [] false none [] none,
      .elem "Script".toList [{ key := some "src".toList, value := some "a/b".toList }] false (some "if (a</b) </scripts>".toList) []
        (some "script ".toList),
      .elem "svg".toList [] false none
        [.elem "g".toList [] false none [.cdata "<p>]]".toList] (some "g".toList),
         .elem "path".toList [{ key := some "d".toList, value := some "M 0".toList, quote := some '\'' }] true none [] none]
        (some "svg".toList)]
     (some "DIV".toList)]

/-- The sample is well-formed, so the theorems speak about it. -/
example : wfDoc {} sampleDoc := by decide +kernel

/-- Its source text. -/
example : printNodes sampleDoc = ("<!DOCTYPE html><!-- a > b --><div id=\"x\">\n a & b<br><Script src=a/b>if (a</b) </scripts>" ++
    "</script ><svg><g><![CDATA[<p>]]]]></g><path d='M 0' /></svg></DIV>").toList := by decide +kernel

/-- It is not well-formed if names are case-sensitive, and then indeed rejected. -/
example : ¬ wfDoc { caseSensitiveTagname := true } sampleDoc ∧
    docOf (printNodes sampleDoc) { caseSensitiveTagname := true } = none := by decide +kernel

/-- **C46**: a start tag whose attributes are written one after the other, separated by any whitespace, yields exactly
those attributes with their quotes (shown for a tag that is opened and closed at the start of the document and for a
void tag; `c05_document` is the same anywhere in a document). -/
theorem c46_attributes (o : ParseOptions) {n : Str} {bs : List (Str × Attr)} {w : Str} (hn : tagName n)
    (hl : legalAttrs o.allowAttrKeyStartsWithEqualSign false (bs.map Prod.snd))
    (hs : ∀ b ∈ bs, b.1 ≠ [] ∧ ∀ c ∈ b.1, c ∈ ws) (hw : ∀ c ∈ w, c ∈ ws) :
    (isVoid n → docOf (['<'] ++ n ++ (bs.flatMap fun b => b.1 ++ printAttr b.2) ++ w ++ ['>']) o =
      some [.elem n (bs.map Prod.snd) false none [] none]) ∧
    (¬ isVoid n → ¬ isRaw n →
      docOf (['<'] ++ n ++ (bs.flatMap fun b => b.1 ++ printAttr b.2) ++ w ++ ['>'] ++ ['<', '/'] ++ n ++ ['>']) o =
        some [.elem n (bs.map Prod.snd) false none [] (some n)]) := by
  rw [tagName_iff] at hn
  have hfree : Free ({} : AState) := ⟨.other, rfl, by simp⟩
  obtain ⟨m, mk, mode, h1, h2, h3, h4⟩ := read_openSeps (o := o) (AtNode.outside (.inl hfree)) rfl hn hl
    (fun b hb => ⟨(hs b hb).1, fun c hc => (isWs_mem c).2 ((hs b hb).2 c hc)⟩) (fun c hc => (isWs_mem c).2 (hw c hc))
  constructor
  · intro hv
    have hmv : m.isVoid = true := by rw [h4, isVoid_iff]; exact hv
    have e : ['<'] ++ n ++ (bs.flatMap fun b => b.1 ++ printAttr b.2) ++ w ++ ['>'] =
        ('<' :: n) ++ ((bs.flatMap fun b => b.1 ++ printAttr b.2) ++ w) ++ ['>'] := by simp
    rw [e]
    simp only [AState.openTag, hmv, if_true] at h1
    rw [docOf_machine h1 (by simp [AState.final, AState.push])]
    simp only [AState.result, AState.push, AState.closeAll, List.length_nil, List.nil_append, h2, h3]
  · intro hv hr
    have hmv : m.isVoid = false := by
      rw [h4]
      cases hq : isVoidTag (lowerAll n) with
      | false => rfl
      | true => exact absurd ((isVoid_iff n).1 hq) hv
    have hmr : isContentTag (lowerAll m.name) none = false := by
      rw [h2]
      cases hq : isContentTag (lowerAll n) none with
      | false => rfl
      | true => exact absurd ((isRaw_iff n).1 hq) hr
    have e : ['<'] ++ n ++ (bs.flatMap fun b => b.1 ++ printAttr b.2) ++ w ++ ['>'] ++ ['<', '/'] ++ n ++ ['>'] =
        (('<' :: n) ++ ((bs.flatMap fun b => b.1 ++ printAttr b.2) ++ w) ++ ['>']) ++ (['<', '/'] ++ n ++ ['>']) := by simp
    rw [e]
    simp only [AState.openTag, hmv, hmr, if_false, Bool.false_eq_true] at h1
    have hcl : closes o.caseSensitiveTagname m.name n := by
      rw [h2, closes_iff]
      have := trimEnd_append (a := n) (w := []) (by simp) (sameText_last (sameText_refl false n) hn)
      rw [List.append_nil] at this
      rw [this]
      exact sameText_refl _ _
    obtain ⟨b, k1, k2, k3, k4, k5, _⟩ := read_end (o := o) (e := n) (g := {}) (gs := [])
      (a := { top := { name := m.name, attrs := m.attrs }, rest := [{}], sp := _, mark := mk, mode := .wait .other })
      rfl rfl (h2.symm ▸ hn) hcl
    rw [docOf_machine (a := b) (by rw [arun_append, h1, Option.bind_some]; exact k1) (by simp [AState.final, k2, k3])]
    simp only [AState.result, k3, AState.closeAll, List.length_nil, k5, List.nil_append, h2, h3]

/-- A bare key, an unquoted value, both kinds of quotes, unusual separators. -/
example : docOf "<A b\tc=d/e f=\"g 'h'\"\n  i='>' ></A>".toList {} = some [.elem "A".toList
    [{ key := some "b".toList }, { key := some "c".toList, value := some "d/e".toList },
     { key := some "f".toList, value := some "g 'h'".toList, quote := some '"' },
     { key := some "i".toList, value := some ">".toList, quote := some '\'' }] false none [] (some "A".toList)] := by
  have := (c46_attributes {} (n := "A".toList) (w := [' '])
    (bs := [([' '], { key := some "b".toList }), (['\t'], { key := some "c".toList, value := some "d/e".toList }),
      ([' '], { key := some "f".toList, value := some "g 'h'".toList, quote := some '"' }),
      (['\n', ' ', ' '], { key := some "i".toList, value := some ">".toList, quote := some '\'' })])
    (by decide) (by decide) (by decide) (by decide)).2 (by decide) (by decide)
  exact this

end Rphtml
