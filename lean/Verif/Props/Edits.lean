import Verif.Spec.Edits
import Verif.Props.Replace
import Verif.Props.Splice

/-!
# C76: editing a document in several steps
-/

namespace Rphtml

open Spec

theorem safeEdit_wf {o : ParseOptions} {ps ps' : List PNode} (e : SafeEdit o ps ps') (h : wfDoc o ps) : wfDoc o ps' := by
  cases e with
  | insert hi hx hp hq => exact (inserted_wf hi hx holds_none).2 ⟨h, hp, hq⟩
  | remove hi hx => exact ((inserted_wf hi hx holds_none).1 h).1
  | replace hr hx hp => exact (replaced_wf hr hx h).2.2 hp

theorem safeEdits_wf {o : ParseOptions} {ps ps' : List PNode} (e : SafeEdits o ps ps') (h : wfDoc o ps) : wfDoc o ps' := by
  induction e with
  | none => exact h
  | more _ e ih => exact safeEdit_wf e ih

theorem safeEdits_trans {o : ParseOptions} {ps qs rs : List PNode} (e : SafeEdits o ps qs) (f : SafeEdits o qs rs) : SafeEdits o ps rs := by
  induction f with
  | none => exact e
  | more _ f ih => exact .more ih f

/-- **C76**: parse a text and edit the document any number of times.  The rendering of the result is parsed to the result. -/
theorem c76_edits {o : ParseOptions} (lib : EntityLib) {s : Str} {f t : Tree} {d : Doc} (hp : Doc.parse s o = .ok d) (hf : d.tree? = some f)
    (hd : ∀ n as sc, Occurs (.doctype n as sc) f.doc → as ≠ [] ∧ sc = false) (he : SafeEdits o f.doc t.doc)
    (hroot : t.data.nodeType = .abstractRoot) (hend : t.endTag = none) (hshape : Tree.shapeds t.kids)
    (p1 : o.autoFixUnclosedTag = false) (p2 : o.autoFixUnexpectedEndtag = false) (p3 : o.autoFixUnescapedLt = false)
    (p4 : o.allowAttrKeyStartsWithEqualSign = false) : ∃ r, build lib t {} false = .ok r ∧ docOf r o = some t.doc := by
  have hdoc : docOf s o = some f.doc := by unfold docOf; rw [hp]; simp [hf]
  have hw : wfDoc o f.doc := c04_wellformed (complete_of p1) hdoc p3 (.inl p2) p4 hd
  exact ⟨_, build_doc lib hroot hend hshape, (c05_document o lib (safeEdits_wf he hw)).1⟩

theorem edits_clear {o : ParseOptions} : ∀ ps : List PNode, (∀ p ∈ ps, ctxNode none p = none) → wfDoc o ps → SafeEdits o ps []
  | [], _, _ => .none _
  | p :: ps, hc, h => by
    have hx := hc p (by simp)
    simp only [wfDoc, wfNodes] at h
    rw [hx] at h
    have ih := edits_clear ps (fun q hq => hc q (by simp [hq])) h.2.2
    have e : SafeEdit o (p :: ps) ps :=
      .remove (.here (l := []) (r := ps) rfl rfl (fun ht => ⟨by simp, fun b hb => by
        exact h.2.1 ht b hb⟩) (by simp)) hx
    exact safeEdits_trans (.more (.none _) e) ih

theorem edits_build {o : ParseOptions} : ∀ ps : List PNode, (∀ p ∈ ps, ctxNode none p = none) → wfDoc o ps → SafeEdits o [] ps
  | [], _, _ => .none _
  | p :: ps, hc, h => by
    have hx := hc p (by simp)
    simp only [wfDoc, wfNodes] at h
    rw [hx] at h
    have ih := edits_build ps (fun q hq => hc q (by simp [hq])) h.2.2
    refine .more ih (.insert (.here (l := []) (r := ps) rfl rfl (fun ht => ⟨by simp, fun b hb => by
        exact h.2.1 ht b hb⟩) (by simp)) hx h.1 (by simp))

/-- **C76**: after any number of safe edits, one more insertion or change is read back if and only if it is safe too. -/
theorem c76_last {o : ParseOptions} (lib : EntityLib) {s : Str} {f t t' : Tree} {d : Doc} (hp : Doc.parse s o = .ok d) (hf : d.tree? = some f)
    (hd : ∀ n as sc, Occurs (.doctype n as sc) f.doc → as ≠ [] ∧ sc = false) (he : SafeEdits o f.doc t.doc)
    (hroot : t'.data.nodeType = .abstractRoot) (hend : t'.endTag = none) (hshape : Tree.shapeds t'.kids)
    (hd' : ∀ n as sc, Occurs (.doctype n as sc) t'.doc → as ≠ [] ∧ sc = false)
    (p1 : o.autoFixUnclosedTag = false) (p2 : o.autoFixUnexpectedEndtag = false) (p3 : o.autoFixUnescapedLt = false)
    (p4 : o.allowAttrKeyStartsWithEqualSign = false) :
    ∃ r, build lib t' {} false = .ok r ∧
      (∀ p c q, Inserted p c q none none t.doc t'.doc → ctxNode c p = c →
        (docOf r o = some t'.doc ↔ wfNode o c q p ∧ ∀ n, q = some n → ¬ isVoid n ∧ ¬ isRaw n)) ∧
      (∀ p p' c q, Replaced p p' c q none none t.doc t'.doc → ctxNode c p' = ctxNode c p → (docOf r o = some t'.doc ↔ wfNode o c q p')) := by
  have hdoc : docOf s o = some f.doc := by unfold docOf; rw [hp]; simp [hf]
  have hw : wfDoc o t.doc := safeEdits_wf he (c04_wellformed (complete_of p1) hdoc p3 (.inl p2) p4 hd)
  refine ⟨_, build_doc lib hroot hend hshape, ?_, ?_⟩
  · intro p c q hi hx
    obtain ⟨r, h1, h2⟩ := c72_insert lib hroot hend hshape hw hi hx hd' p1 p2 p3 p4
    rw [build_doc lib hroot hend hshape] at h1
    cases h1
    exact h2
  · intro p p' c q hi hx
    obtain ⟨r, h1, h2⟩ := c73_replace lib hroot hend hshape hw hi hx hd' p1 p2 p3 p4
    rw [build_doc lib hroot hend hshape] at h1
    cases h1
    exact h2

/-- **C76**: safe edits are enough.  They lead from the document of any text without svg and math to the document of any
other. -/
theorem c76_reach {o : ParseOptions} {s s' : Str} {d d' : Doc} {f f' : Tree} (hp : Doc.parse s o = .ok d) (hf : d.tree? = some f)
    (hp' : Doc.parse s' o = .ok d') (hf' : d'.tree? = some f') (hh : homely f.doc) (hh' : homely f'.doc)
    (hd : ∀ n as sc, Occurs (.doctype n as sc) f.doc → as ≠ [] ∧ sc = false)
    (hd' : ∀ n as sc, Occurs (.doctype n as sc) f'.doc → as ≠ [] ∧ sc = false)
    (p1 : o.autoFixUnclosedTag = false) (p2 : o.autoFixUnexpectedEndtag = false) (p3 : o.autoFixUnescapedLt = false)
    (p4 : o.allowAttrKeyStartsWithEqualSign = false) : SafeEdits o f.doc f'.doc := by
  have key : ∀ {s : Str} {d : Doc} {f : Tree}, Doc.parse s o = .ok d → d.tree? = some f → homely f.doc →
      (∀ n as sc, Occurs (.doctype n as sc) f.doc → as ≠ [] ∧ sc = false) → wfDoc o f.doc ∧ ∀ p ∈ f.doc, ctxNode none p = none := by
    intro s d f hp hf hh hd
    have hdoc : docOf s o = some f.doc := by unfold docOf; rw [hp]; simp [hf]
    have hw : wfDoc o f.doc := c04_wellformed (complete_of p1) hdoc p3 (.inl p2) p4 hd
    have hall : allsIn Homely f.doc := allIn_of_occurs.2 _ (by
      intro p hp n as s ct ks e he
      subst he
      exact hh n as s ct ks e hp)
    refine ⟨hw, ?_⟩
    generalize f.doc = ps at hw hall
    clear hd hdoc hf hp hh
    induction ps with
    | nil => intro p hp; cases hp
    | cons p ps ih =>
      simp only [wfDoc, wfNodes] at hw
      simp only [allsIn] at hall
      have hx := ((homely_any (o := o) none (fun x hx => by cases hx)).1 p hall.1 none none hw.1).2
      rw [hx] at hw
      intro q hq
      rcases List.mem_cons.1 hq with rfl | hq
      · exact hx
      · exact ih hw.2.2 hall.2 q hq
  obtain ⟨k1, k2⟩ := key hp hf hh hd
  obtain ⟨k3, k4⟩ := key hp' hf' hh' hd'
  exact safeEdits_trans (edits_clear _ k2 k1) (edits_build _ k4 k3)

/-! Samples -/

/-- Two edits of `<p x="v">w<!--c--></p><script></script>`: another text, another comment. -/
theorem pTree_edits : SafeEdits {} (pTree "v" "w" "c" "").doc (pTree "v" "z>" "k--" "").doc := by
  refine .more (.more (.none _) (?_ : SafeEdit {} _ (pTree "v" "z>" "c" "").doc)) ?_
  · exact .replace (p := .text ['w']) (p' := .text ['z', '>']) (c := none) (q := some ['p']) (.down (l := []) (.here (l := []) rfl rfl rfl)) rfl (by simp [wfNode])
  · exact .replace (p := .comment ['c']) (p' := .comment ['k', '-', '-']) (c := none) (q := some ['p']) (.down (l := []) (.here (l := [.text ['z', '>']]) rfl rfl rfl)) rfl ⟨by simp, by decide⟩

example : ∃ r, build toyLib (pTree "v" "z>" "k--" "") {} false = .ok r ∧ docOf r {} = some (pTree "v" "z>" "k--" "").doc := by
  have hdoc : docOf "<p x=\"v\">w<!--c--></p><script></script>".toList {} = some (pTree "v" "w" "c" "").doc := by decide +kernel
  cases hp : Doc.parse "<p x=\"v\">w<!--c--></p><script></script>".toList {} with
  | err e => unfold docOf at hdoc; rw [hp] at hdoc; cases hdoc
  | panic e => unfold docOf at hdoc; rw [hp] at hdoc; cases hdoc
  | ok d =>
    unfold docOf at hdoc
    rw [hp] at hdoc
    simp only [Option.map_eq_some_iff] at hdoc
    obtain ⟨f, hf, he⟩ := hdoc
    exact c76_edits toyLib hp hf (by rw [he]; exact pTree_noDoctype _ _ _ _) (by rw [he]; exact pTree_edits) rfl rfl (pTree_shape ..) rfl rfl rfl rfl

/-- From `<b>x</b>` to `y<!--z-->`. -/
example : SafeEdits {} [.elem ['b'] [] false none [.text ['x']] (some ['b'])] [.text ['y'], .comment ['z']] := by
  have h1 : docOf "<b>x</b>".toList {} = some [.elem ['b'] [] false none [.text ['x']] (some ['b'])] := by decide +kernel
  have h2 : docOf "y<!--z-->".toList {} = some [.text ['y'], .comment ['z']] := by decide +kernel
  unfold docOf at h1 h2
  split at h1
  · rename_i d hp
    split at h2
    · rename_i d' hp'
      simp only [Option.map_eq_some_iff] at h1 h2
      obtain ⟨f, hf, he⟩ := h1
      obtain ⟨f', hf', he'⟩ := h2
      have hin : allsIn (fun p => (∀ n as sc, p ≠ .doctype n as sc) ∧ Homely p) f.doc := by
        rw [he]
        simp only [allsIn, allIn, Homely]
        refine ⟨⟨⟨by simp, ?_⟩, ⟨⟨by simp, by simp⟩, trivial⟩⟩, trivial⟩
        intro n as s ct ks e h
        cases h
        decide
      have hin' : allsIn (fun p => (∀ n as sc, p ≠ .doctype n as sc) ∧ Homely p) f'.doc := by
        rw [he']
        simp [allsIn, allIn, Homely]
      have := c76_reach (o := {}) hp hf hp' hf' (fun n as s ct ks e ho => (allsIn_occurs hin _ ho).2 n as s ct ks e rfl)
        (fun n as s ct ks e ho => (allsIn_occurs hin' _ ho).2 n as s ct ks e rfl)
        (fun n as sc ho => absurd rfl ((allsIn_occurs hin _ ho).1 n as sc)) (fun n as sc ho => absurd rfl ((allsIn_occurs hin' _ ho).1 n as sc)) rfl rfl rfl rfl
      rw [he, he'] at this
      exact this
    · cases h2
  · cases h1

end Rphtml
