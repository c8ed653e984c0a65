import Verif.Spec.DocOf
import Verif.Proofs.RoundTrip

/-!
# `docOf` in terms of the machine
-/

namespace Rphtml
open Spec

theorem docOf_machine {s : Str} {o : ParseOptions} {a : AState} (h : arun o {} s = some a) (hf : a.final o = true) :
    docOf s o = some a.result := by
  obtain ⟨d, t, h1, h2, h3, _⟩ := machine_parse h hf
  unfold docOf
  rw [h1]
  simp only [h2, Option.map_some, h3]

theorem Abs.inStart_code {d : Doc} {a : AState} (hd : Ctl d) (h : Abs d a) (hi : a.mode.inStart = true) : d.codeIn = .tag := by
  have hm := h.mode
  have hs := hd.hs
  unfold HandleOk at hs
  cases hmo : a.mode with
  | tagName pc =>
    rw [hmo] at hm; rw [hm.1] at hs
    exact hs.1
  | inTag isDoc t =>
    rw [hmo] at hm hi
    obtain ⟨h1, h2, ⟨m, h3, h4, _⟩, _⟩ := hm
    obtain ⟨_, _, _, hor⟩ := hd.inTag h1 h3
    cases isDoc with
    | true => cases hi
    | false =>
      rcases hor with k | k
      · exact k.1
      · rw [k.1] at h2; simp at h2
  | wait l => rw [hmo] at hi; cases hi
  | text p => rw [hmo] at hi; cases hi
  | lt l => rw [hmo] at hi; cases hi
  | bang D pc => rw [hmo] at hi; cases hi
  | comment cd pc => rw [hmo] at hi; cases hi
  | doctypeName pc => rw [hmo] at hi; cases hi
  | tagEnd pc ret => rw [hmo] at hi; cases hi
  | raw m pc => rw [hmo] at hi; cases hi

theorem parse_machine_complete {s : Str} {o : ParseOptions} {d : Doc} (h : Doc.parse s o = .ok d) (hc : complete s o) :
    ∃ a, arun o {} s = some a ∧ a.final o = true ∧ ∃ t, d.tree? = some t ∧ t.doc = a.result ∧
      t.data.nodeType = .abstractRoot ∧ t.endTag = none ∧ Tree.shapeds t.kids := by
  obtain ⟨a, h1, h2 | h2⟩ := parse_machine h
  · obtain ⟨d0, k1, hab, hr⟩ := (Abs.run (ctx := s) s [] (Doc.new o) {} Reach.init (Abs.new o)).2 a h1
    rw [List.nil_append] at hr
    have := hc h2.2
    unfold endsInStartTag at this
    rw [k1] at this
    simp [hab.inStart_code hr.ctl h2.1] at this
  · exact ⟨a, h1, h2⟩

theorem docOf_iff {s : Str} {o : ParseOptions} (ho : complete s o) {ps : List PNode} :
    docOf s o = some ps ↔ ∃ a, arun o {} s = some a ∧ a.final o = true ∧ a.result = ps := by
  constructor
  · intro h
    unfold docOf at h
    cases hp : Doc.parse s o with
    | ok d =>
      rw [hp] at h
      obtain ⟨a, h1, h2, t, h3, h4, _⟩ := parse_machine_complete hp ho
      simp only [h3, Option.map_some, Option.some.injEq] at h
      exact ⟨a, h1, h2, h4 ▸ h⟩
    | err e => rw [hp] at h; cases h
    | panic x => rw [hp] at h; cases h
  · rintro ⟨a, h1, h2, rfl⟩
    exact docOf_machine h1 h2

theorem complete_of {s : Str} {o : ParseOptions} (h : o.autoFixUnclosedTag = false) : complete s o := by
  intro q; rw [h] at q; cases q

/-- Parsing succeeds exactly if there is a document, when open elements are not closed at the end of the input. -/
theorem parse_docOf {s : Str} {o : ParseOptions} (ho : complete s o) :
    (∃ d, Doc.parse s o = .ok d) ↔ ∃ ps, docOf s o = some ps := by
  constructor
  · rintro ⟨d, hd⟩
    obtain ⟨a, h1, h2, _⟩ := parse_machine_complete hd ho
    exact ⟨_, docOf_machine h1 h2⟩
  · rintro ⟨ps, h⟩
    unfold docOf at h
    cases hp : Doc.parse s o with
    | ok d => exact ⟨d, rfl⟩
    | err e => rw [hp] at h; cases h
    | panic x => rw [hp] at h; cases h

/-- The rendering of a parsed document is the source text of what was read. -/
theorem docOf_render (lib : EntityLib) {s : Str} {o : ParseOptions} {d : Doc} {ps : List PNode}
    (ho : complete s o) (hd : Doc.parse s o = .ok d) (h : docOf s o = some ps) :
    d.render lib {} = .ok (printNodes ps) := by
  obtain ⟨a, h1, h2, t, h3, h4, h5, h6, h7⟩ := parse_machine_complete hd ho
  rw [docOf_machine h1 h2] at h
  simp only [Option.some.injEq] at h
  rw [← h, ← h4]
  exact parse_render lib h3 h5 h6 h7

end Rphtml
