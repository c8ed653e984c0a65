import Verif.Props.Tags
import Verif.Props.Blank
import Verif.Props.Span
import Verif.Proofs.Flags

/-!
# C69: what the record of a tag says
-/

namespace Rphtml
open Spec

/-- **C69.** The nodes with a record (`meta`) are the tags and the doctypes, but for the tag whose name is cut off by the end of
the text. -/
theorem c69_record {s : Str} {o : ParseOptions} {d : Doc} (h : Doc.parse s o = .ok d) {x : NodeId} (hx : InDoc d.heap d.root x) :
    ((d.heap.cell x).tmeta ≠ none → (d.heap.cell x).nodeType = .tag ∨ (d.heap.cell x).nodeType = .htmlDoctype) ∧
    ((d.heap.cell x).nodeType = .tag ∨ (d.heap.cell x).nodeType = .htmlDoctype → (d.heap.cell x).tmeta ≠ none ∨
      (o.autoFixUnclosedTag = true ∧ ∃ n, tagName n ∧ s = s.take (d.heap.cell x).beginAt ++ '<' :: n)) := by
  obtain ⟨hroot, h0, _, g, ge, _⟩ := parse_graph h
  have hl : x < d.heap.size := by rw [hroot] at hx; exact (g.inDoc_lt h0 hx).2
  constructor
  · intro hm
    obtain ⟨d0, hr, he, hh, _⟩ := parse_ok h
    rw [hh] at hl hm ⊢
    cases hc : (d0.finalHeap.cell x).tmeta with
    | none => exact absurd hc hm
    | some m =>
      obtain ⟨h1, h2, m0, h3, _⟩ := final_tmeta hr.ctl hr.tags he hl hc
      rw [h2]
      exact hr.tags.kind x h1 (by rw [h3]; simp)
  · intro hty
    have hs := c59_spans h x hl (fun q => by rcases hty with r | r <;> rw [r] at q <;> cases q)
    unfold mendedSpan at hs
    rcases hty with q | q <;> simp only [q] at hs
    · rcases hs with ⟨m, hm, _⟩ | ⟨k1, _, n, k2, k3⟩
      · left
        have : (d.heap.cell x).tmeta = some m := hm
        rw [this]; simp
      · right
        refine ⟨k1, n, k3, ?_⟩
        rw [← k2]
        unfold slice
        rw [List.take_of_length_le (l := s.drop _) (by rw [List.length_drop]; exact Nat.le_refl _)]
        exact (List.take_append_drop _ _).symm
    · left
      unfold nodeSpan at hs
      simp only [q] at hs
      obtain ⟨m, hm, _⟩ := hs
      have : (d.heap.cell x).tmeta = some m := hm
      rw [this]; simp

/-- **C69.** A tag is marked as void exactly if its name is that of a void element. -/
theorem c69_void {s : Str} {o : ParseOptions} {d : Doc} (h : Doc.parse s o = .ok d) {x : NodeId} (hx : InDoc d.heap d.root x) {m : TagMeta}
    (hm : (d.heap.cell x).tmeta = some m) : m.isVoid = true ↔ isVoid m.name := by
  obtain ⟨hroot, h0, _, g, ge, _⟩ := parse_graph h
  have hl : x < d.heap.size := by rw [hroot] at hx; exact (g.inDoc_lt h0 hx).2
  obtain ⟨d0, hr, he, hh, _⟩ := parse_ok h
  rw [hh] at hl hm
  obtain ⟨h1, _, m0, h3, h4⟩ := final_tmeta hr.ctl hr.tags he hl hm
  have hv := hr.voids x h1 m0 h3
  have : m.isVoid = m0.isVoid ∧ m.name = m0.name := by
    rcases h4 with q | ⟨_, _, _, q⟩ <;> rw [q] <;> exact ⟨rfl, rfl⟩
  rw [this.1, this.2, hv]
  exact isVoid_iff _

/-- **C69.** No attribute is marked as one that needs its quotes. -/
theorem c69_quote {s : Str} {o : ParseOptions} {d : Doc} (h : Doc.parse s o = .ok d) {x : NodeId} (hx : InDoc d.heap d.root x) {m : TagMeta}
    (hm : (d.heap.cell x).tmeta = some m) {a : Attr} (ha : a ∈ m.attrs) : a.needQuote = false := by
  obtain ⟨hroot, h0, _, g, ge, _⟩ := parse_graph h
  have hl : x < d.heap.size := by rw [hroot] at hx; exact (g.inDoc_lt h0 hx).2
  rcases parse_metaWf h hl hm with w | ⟨_, t, e1, _, w⟩
  · exact (w.attrs a ha).1
  · have w := w.attrs
    rw [← e1] at ha
    split at w
    · exact (w.1 a ha).1
    · exact (w.1 a ha).1
    · obtain ⟨init, h1, h2, _⟩ := w
      rw [h1] at ha
      rcases List.mem_append.1 ha with q | q
      · exact (h2 a q).1
      · simp only [List.mem_singleton] at q; rw [q]
    · obtain ⟨init, b, h1, h2, h3, _⟩ := w
      rw [h1] at ha
      rcases List.mem_append.1 ha with q | q
      · exact (h2 a q).1
      · simp only [List.mem_singleton] at q
        rcases h3 with ⟨k, h3, _⟩ | ⟨_, h3, _⟩ <;> rw [q, h3]
    · exact w.elim

/-- **C69.** A tag marked as repaired has an end tag with its own name that the parser put at the end of the text. -/
theorem c69_added {s : Str} {o : ParseOptions} {d : Doc} (h : Doc.parse s o = .ok d) {x : NodeId} (hx : InDoc d.heap d.root x) {m : TagMeta}
    (hm : (d.heap.cell x).tmeta = some m) (hf : m.autoFix = true) : o.autoFixUnclosedTag = true ∧ LastOpen d.heap x ∧
      ∃ e, (d.heap.cell x).endTag = some e ∧ (d.heap.cell e).content = some m.name ∧ (d.heap.cell e).beginAt = s.length ∧
        (d.heap.cell e).endAt = s.length := by
  obtain ⟨q1, _, q3⟩ := c34_repaired h x m hx hm hf
  refine ⟨q1, q3, ?_⟩
  obtain ⟨hroot, h0, _, g, ge, _⟩ := parse_graph h
  have hl : x < d.heap.size := by rw [hroot] at hx; exact (g.inDoc_lt h0 hx).2
  obtain ⟨d0, hr, he, hh, _⟩ := parse_ok h
  rw [hh] at hl hm ⊢
  have hd := hr.ctl
  obtain ⟨h1, h2, h3, h4⟩ := (hr.repaired x hl).1 ⟨m, hm, hf⟩
  have hne : d0.codeIn = .textNode → x ≠ d0.current := by
    rintro q rfl
    have h5 := hd.cur_text q
    rcases hr.tags.kind d0.current h3 h4 with h6 | h6 <;> unfold Doc.cur at h5 <;> rw [h5] at h6 <;> cases h6
  have hcell := finalHeap_cell x h2 hne
  rw [hcell] at hm ⊢
  rcases fixedHeap_cell hd x h3 with k | ⟨_, _, _, m0, e, k1, k2, k3, k4, k5⟩
  · rw [k] at hm
    rw [hr.noFix x h3 m hm] at hf; cases hf
  · rw [k4] at hm ⊢
    simp only [Option.some.injEq] at hm
    have he0 : d0.finalHeap.cell e = d0.fixedHeap.cell e :=
      finalHeap_cell e (by have := hd.sizePos; omega) (fun _ => by have := hd.curLt; omega)
    refine ⟨e, rfl, ?_⟩
    rw [he0, k5, ← hm]
    exact ⟨rfl, hr.position, hr.position⟩

/-- **C69.** The end tag of a tag that is not marked as repaired stands in the text. -/
theorem c69_written {s : Str} {o : ParseOptions} {d : Doc} (h : Doc.parse s o = .ok d) {x e : NodeId} (hx : InDoc d.heap d.root x) {m : TagMeta}
    (hm : (d.heap.cell x).tmeta = some m) (hf : m.autoFix = false) (hend : (d.heap.cell x).endTag = some e) :
    nodeSpan s (d.heap.cell e).toNodeD := by
  obtain ⟨hroot, h0, _, g, ge, _⟩ := parse_graph h
  have hl : x < d.heap.size := by rw [hroot] at hx; exact (g.inDoc_lt h0 hx).2
  obtain ⟨d0, hr, he, hh, _⟩ := parse_ok h
  rw [hh] at hl hm hend ⊢
  have hd := hr.ctl
  obtain ⟨h1, h2, m0, h3, h4⟩ := final_tmeta hr.ctl hr.tags he hl hm
  have hk : (d0.heap.cell x).endTag = some e := by
    rcases (eofCell hd he x h1).endTag with q | ⟨q1, q2, q3, _⟩
    · rw [← q]; exact hend
    · have := (hr.repaired x hl).2 ⟨q1, q2, h1, by rw [h3]; simp⟩
      obtain ⟨m', k1, k2⟩ := this
      rw [hm] at k1; cases k1
      rw [hf] at k2; cases k2
  obtain ⟨_, r1, r2, _, r3, _⟩ := hr.links.ends.down x e h1 hk
  exact hr.endRead he r1 r2 r3

/-- The records of a text with a void element, quotes, and an element that is not closed. -/
example : (match Doc.parse "<p a='b'><br><i>c".toList { autoFixUnclosedTag := true } with
    | .ok d => some ((List.range d.heap.size).map fun i => match (d.heap.cell i).tmeta with
      | none => none
      | some m => some (String.ofList m.name, m.isVoid, m.autoFix, (d.heap.cell i).endTag.isSome))
    | _ => none) = some [none, some ("p", false, true, true), some ("br", true, false, false), some ("i", false, true, true), none, none, none] := by
  decide +kernel

/-- The end tag that was read, and the one that was added. -/
example : (match Doc.parse "<p></p><p>".toList { autoFixUnclosedTag := true } with
    | .ok d => some (((d.heap.cell 2).beginAt, (d.heap.cell 2).endAt), ((d.heap.cell 4).beginAt, (d.heap.cell 4).endAt))
    | _ => none) = some ((3, 7), (10, 10)) := by decide +kernel

/-- The tag without a record. -/
example : (match Doc.parse "a<p".toList { autoFixUnclosedTag := true } with
    | .ok d => some ((d.heap.cell 2).nodeType == .tag, (d.heap.cell 2).tmeta.isSome)
    | _ => none) = some (true, false) := by decide +kernel

end Rphtml
