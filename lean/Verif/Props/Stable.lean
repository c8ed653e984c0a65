import Verif.Props.Accepted
import Verif.Props.RoundTrip

/-!
# C04: rendering is a fixed point
-/

namespace Rphtml
open Spec

theorem eqApart_of {isDoc : Bool} : ∀ {as : List Attr}, (∀ a ∈ as, legalAttr false isDoc a) → eqApart as
  | [], _ => trivial
  | [_], _ => trivial
  | a :: b :: as, h => by
    refine ⟨fun _ hb => ?_, eqApart_of fun x hx => h x (List.mem_cons_of_mem _ hx)⟩
    have hl := h b (by simp)
    unfold legalAttr at hl
    cases hk : b.key with
    | none => rw [hk] at hb; simp at hb
    | some k =>
      rw [hk] at hb hl
      have : attrName false isDoc k := by
        cases hv : b.value <;> cases hq : b.quote <;> rw [hv, hq] at hl
        · exact hl.2
        · exact hl.2.elim
        · exact hl.2.1
        · exact hl.2.1
      cases k with
      | nil => simp at hb
      | cons c cs =>
        simp only [Option.getD_some, List.head?_cons, Option.some.injEq] at hb
        have := this.2.2.2.1 hb
        cases this

/-- A doctype that can be written down and read back. -/
def Spec.doctypeFull : PNode → Prop
  | .doctype _ as s => as ≠ [] ∧ s = false
  | _ => True

/-- An accepted document is well-formed. -/
theorem wf_of_ok {o : ParseOptions} (h1 : o.autoFixUnescapedLt = false) (h2 : Adj o) (h3 : o.allowAttrKeyStartsWithEqualSign = false) :
    (∀ p, allIn doctypeFull p → ∀ ctx parent, okNode o ctx parent p → wfNode o ctx parent p) ∧
    (∀ ps, allsIn doctypeFull ps → ∀ ctx parent, okNodes o ctx parent ps → wfNodes o ctx parent ps) := by
  have hole : ∀ ks, holeOk o ks → ks = [] := by
    rintro ks (q | ⟨q, _⟩)
    · exact q
    · rw [h1] at q; cases q
  apply PNode.induct
  · intro w _ ctx parent h; simp only [okNode] at h; simp only [wfNode]; exact h
  · intro w _ ctx parent h; simp only [okNode] at h; simp only [wfNode]; exact h
  · intro w _ ctx parent h; simp only [okNode] at h; simp only [wfNode]; exact h
  · intro n as s hd ctx parent h
    simp only [okNode] at h
    simp only [allIn, doctypeFull] at hd
    simp only [wfNode]
    refine ⟨h.1, hd.1, hd.2, h.2, ?_⟩
    rw [h3] at h
    exact eqApart_of h.2
  · intro n as s ct ks e ih hd ctx parent h
    simp only [allIn] at hd
    simp only [okNode] at h
    simp only [wfNode]
    obtain ⟨k1, k2, k3⟩ := h
    refine ⟨k1, ⟨k2, eqApart_of (h3 ▸ k2)⟩, ?_⟩
    split at k3
    · rename_i hs; rw [if_pos hs]; exact k3
    · rename_i hs
      rw [if_neg hs]
      split at k3
      · rename_i hv; rw [if_pos hv]; exact ⟨k3.1, hole _ k3.2.1, k3.2.2⟩
      · rename_i hv
        rw [if_neg hv]
        split at k3
        · rename_i hr; rw [if_pos hr]; exact ⟨hole _ k3.1, k3.2⟩
        · rename_i hr
          rw [if_neg hr]
          refine ⟨k3.1, ?_, ih hd.2 _ _ k3.2.2⟩
          rcases k3.2.1 with q | ⟨_, n', as', q⟩
          · exact q
          · exfalso
            obtain ⟨xs, rfl⟩ : ∃ xs, ks = xs ++ [.doctype n' as' true] := by
              rcases List.eq_nil_or_concat ks with rfl | ⟨xs, x, rfl⟩
              · cases q
              · simp at q; exact ⟨xs, by rw [q, List.concat_eq_append]⟩
            have := hd.2
            rw [allsIn_append] at this
            simp only [allsIn, allIn, doctypeFull] at this
            exact absurd this.2.1.2 (by simp)
  · intros; simp only [wfNodes]
  · intro p ps ih1 ih2 hd ctx parent h
    simp only [allsIn] at hd
    simp only [okNodes] at h
    simp only [wfNodes]
    exact ⟨ih1 hd.1 _ _ h.1, h.2.1 h2, ih2 hd.2 _ _ h.2.2⟩

/-- What is read is well-formed, unless a doctype has no attributes or is self-closed. -/
theorem c04_wellformed {o : ParseOptions} {s : Str} {ps : List PNode} (hc : complete s o) (h : docOf s o = some ps)
    (h1 : o.autoFixUnescapedLt = false) (h2 : o.autoFixUnexpectedEndtag = false ∨ o.autoFixUnclosedTag = true)
    (h3 : o.allowAttrKeyStartsWithEqualSign = false)
    (hd : ∀ n as sc, Occurs (.doctype n as sc) ps → as ≠ [] ∧ sc = false) : wfDoc o ps := by
  refine (wf_of_ok h1 h2 h3).2 ps ?_ none none (docOf_ok hc h)
  refine allIn_of_occurs.2 ps ?_
  intro q hq
  cases q with
  | doctype n as sc => exact hd n as sc hq
  | elem => trivial
  | text => trivial
  | comment => trivial
  | cdata => trivial

/-- **C04**: parsing the rendering of a parsed document yields the same document and the same rendering, for documents
without an attribute-less or self-closed doctype.  The default options satisfy the hypotheses on the options. -/
theorem c04_stable {o : ParseOptions} (lib : EntityLib) {s : Str} {d : Doc} {ps : List PNode} (hc : complete s o)
    (hp : Doc.parse s o = .ok d) (h : docOf s o = some ps)
    (h1 : o.autoFixUnescapedLt = false) (h2 : o.autoFixUnexpectedEndtag = false ∨ o.autoFixUnclosedTag = true)
    (h3 : o.allowAttrKeyStartsWithEqualSign = false)
    (hd : ∀ n as sc, Occurs (.doctype n as sc) ps → as ≠ [] ∧ sc = false) :
    ∃ r d', d.render lib {} = .ok r ∧ Doc.parse r o = .ok d' ∧ d'.render lib {} = .ok r ∧ docOf r o = some ps := by
  have hw := c04_wellformed hc h h1 h2 h3 hd
  obtain ⟨k1, d', k2, k3⟩ := c05_document o lib hw
  exact ⟨_, d', docOf_render lib hc hp h, k2, k3, k1⟩

/-- **C04** with the default options. -/
theorem c04_stable_default (lib : EntityLib) {s r : Str} {d : Doc} {ps : List PNode} (hp : Doc.parse s {} = .ok d)
    (h : docOf s {} = some ps) (hr : d.render lib {} = .ok r)
    (hd : ∀ n as sc, Occurs (.doctype n as sc) ps → as ≠ [] ∧ sc = false) :
    ∃ d', Doc.parse r {} = .ok d' ∧ d'.render lib {} = .ok r := by
  obtain ⟨r', d', k1, k2, k3, _⟩ := c04_stable lib (complete_of rfl) hp h rfl (.inl rfl) rfl hd
  rw [hr] at k1
  cases k1
  exact ⟨d', k2, k3⟩

/-- An input that is not in canonical form. -/
example : docOf "<a  b = c/ d='e'f >x</A\n>".toList {} = some [.elem "a".toList
    [{ key := some "b".toList, value := some "c/".toList },
     { key := some "d".toList, value := some "e".toList, quote := some '\'' }, { key := some "f".toList }] false none
    [.text "x".toList] (some "A\n".toList)] := by decide +kernel

/-- The exceptions are real: these are read, but their renderings are not, or are read differently. -/
example : (docOf "<!DOCTYPE >".toList {}).map printNodes = some "<!DOCTYPE>".toList ∧ docOf "<!DOCTYPE>".toList {} = none := by
  decide +kernel
example : (docOf "<a><!DOCTYPE x/>".toList {}).map printNodes = some "<a><!DOCTYPE x>".toList ∧
    docOf "<a><!DOCTYPE x>".toList {} = none := by decide +kernel

end Rphtml
