import Verif.Proofs.Span

/-! # C10, C59: spans -/

namespace Rphtml
open Spec

/-- **C10**: without repairs every node of an accepted document (end tags included) stands for the source text given by its
span. -/
theorem c10_spans {s : Str} {o : ParseOptions} {d : Doc} (h1 : o.autoFixUnescapedLt = false) (h2 : o.autoFixUnexpectedEndtag = false)
    (h3 : o.autoFixUnclosedTag = false) (h : Doc.parse s o = .ok d) (i : NodeId) (hi : i < d.heap.size) : nodeSpan s (d.heap.cell i).toNodeD := by
  obtain ⟨d0, hr, he, hh, _, _, _⟩ := parse_ok h
  rw [hh] at hi ⊢
  exact nodeSpan_of_mended h1 h2 h3 (hr.finalSpans he i hi (fun _ _ => h2))

/-- **C59**: with any options every node of an accepted document, and every end tag that an element has, stands for the source text
given by its span: texts up to the repairs, which are exactly `&lt;` for a `<` and nothing for a dropped end tag. -/
theorem c59_spans {s : Str} {o : ParseOptions} {d : Doc} (h : Doc.parse s o = .ok d) (i : NodeId) (hi : i < d.heap.size)
    (he : (d.heap.cell i).nodeType = .tagEnd → ∃ t, t < d.heap.size ∧ (d.heap.cell t).endTag = some i) :
    mendedSpan o s (d.heap.cell i).toNodeD := by
  obtain ⟨d0, hr, heof, hh, _, _, _⟩ := parse_ok h
  rw [hh] at hi he ⊢
  refine hr.finalSpans heof i hi (fun q1 q2 => ?_)
  obtain ⟨t, ht, hte⟩ := he q1
  exact absurd q2 (hr.finalLinks.2.down t i ht hte).2.2.2.2.1

/-- **C59**: the end tags that no element has are those that were dropped; they have no content, and they are there only with
`auto_fix_unexpected_endtag`. -/
theorem c59_dropped {s : Str} {o : ParseOptions} {d : Doc} (h : Doc.parse s o = .ok d) (i : NodeId) (hi : i < d.heap.size) :
    mendedSpan o s (d.heap.cell i).toNodeD ∨
      (o.autoFixUnexpectedEndtag = true ∧ (d.heap.cell i).nodeType = .tagEnd ∧ (d.heap.cell i).content = none ∧
        ∀ t, t < d.heap.size → (d.heap.cell t).endTag ≠ some i) := by
  obtain ⟨d0, hr, heof, hh, _, _, _⟩ := parse_ok h
  rw [hh] at hi ⊢
  by_cases q : (d0.finalHeap.cell i).nodeType = .tagEnd ∧ (d0.finalHeap.cell i).content = none
  · cases ho : o.autoFixUnexpectedEndtag with
    | false => exact .inl (hr.finalSpans heof i hi (fun _ _ => ho))
    | true =>
      refine .inr ⟨rfl, q.1, q.2, fun t ht hte => ?_⟩
      exact absurd q.2 (hr.finalLinks.2.down t i ht hte).2.2.2.2.1
  · exact .inl (hr.finalSpans heof i hi (fun q1 q2 => absurd ⟨q1, q2⟩ q))

/-- The spans of a sample. -/
def Spec.spanSample (s : String) (o : ParseOptions := {}) : List (Nat × Nat) :=
  match Doc.parse s.toList o with
  | .ok d => (List.range d.heap.size).map fun i => ((d.heap.cell i).beginAt, (d.heap.cell i).endAt)
  | _ => []

/-- All node types occur: root, doctype, tag, text, comment, end tag, raw element and its end tag. -/
example : spanSample "<!doctype html><p>a <!--b--></p><style>c</style >\n" =
    [(0, 50), (0, 0), (15, 15), (18, 20), (20, 28), (28, 32), (32, 32), (49, 49), (49, 50)] := by decide +kernel
example : spanSample "<svg><g><![cDATA[a]]></g></svg>" =
    [(0, 31), (0, 0), (5, 5), (8, 21), (21, 25), (25, 31)] := by decide +kernel

/-- With `auto_fix_unescaped_lt` the content is not the source text any more. -/
example : spanSample "a < b" { autoFixUnescapedLt := true } = [(0, 5), (0, 5)] := by decide +kernel

/-- The texts of a sample with the source text they stand for. -/
def Spec.textSample (s : String) (o : ParseOptions) : List (String × Option String) :=
  match Doc.parse s.toList o with
  | .ok d => ((List.range d.heap.size).filter fun i => (d.heap.cell i).nodeType = .text).map fun i =>
      (String.ofList (slice s.toList (d.heap.cell i).beginAt (d.heap.cell i).endAt), (d.heap.cell i).content.map String.ofList)
  | _ => []

/-- The options with all repairs. -/
def Spec.mendAll : ParseOptions := { autoFixUnescapedLt := true, autoFixUnexpectedEndtag := true, autoFixUnclosedTag := true }

/-- One text over several repairs, and two texts around an element. -/
example : textSample "a < b</i>c<<2<p>d</p>e</ >" mendAll =
    [("a < b</i>c<<2", some "a &lt; bc&lt;&lt;2"), ("d", some "d"), ("e", some "e")] := by decide +kernel

/-- The last element ends in its name, so it has none. -/
example : spanSample "a<p>b<br" mendAll = [(0, 8), (0, 1), (1, 1), (4, 5), (5, 5), (8, 8)] := by decide +kernel

/-- `Mended` relates exactly the repaired spelling to the source. -/
example : Mended mendAll ['a', ' ', '<', ' ', 'b', '<', '/', 'i', '>'] "a &lt; b".toList :=
  .char (by decide) (.char (by decide) (.lt rfl (by simp) (.char (by decide) (.char (by decide)
    (.dropped (e := ['i']) (s := []) rfl rfl (by decide) .nil)))))
example : ¬ Mended mendAll ['a', '<', 'b'] ['a', '&', 'l', 't', ';', 'b'] := by
  intro h
  cases h with
  | char _ h =>
    cases h with
    | lt _ hs => exact absurd (hs 'b' rfl).1 (by decide)

end Rphtml
