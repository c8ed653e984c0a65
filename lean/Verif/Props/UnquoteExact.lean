import Verif.Props.Unquote
import Verif.Props.Stable
import Verif.Props.Written
import Verif.Props.Reread

/-!
# C33: exactly when the quotes can be removed
-/

namespace Rphtml
open Spec

/-- The attributes of the node are legal. -/
def legalHere (o : ParseOptions) : PNode → Prop
  | .doctype _ as _ => ∀ a ∈ as, legalAttr o.allowAttrKeyStartsWithEqualSign true a
  | .elem _ as _ _ _ _ => ∀ a ∈ as, legalAttr o.allowAttrKeyStartsWithEqualSign false a
  | _ => True

theorem legal_of_ok {o : ParseOptions} :
    (∀ p ctx par, okNode o ctx par p → allIn (legalHere o) p) ∧
    (∀ ps ctx par, okNodes o ctx par ps → allsIn (legalHere o) ps) := by
  have hole : ∀ ks, holeOk o ks → allsIn (legalHere o) ks := by
    rintro ks (rfl | ⟨_, w, rfl, _⟩) <;> simp [allsIn, allIn, legalHere]
  apply PNode.induct
  · intros; trivial
  · intros; trivial
  · intros; trivial
  · intro n as s ctx par h
    simp only [okNode] at h
    exact h.2
  · intro n as s ct ks e ih ctx par h
    simp only [okNode] at h
    simp only [allIn]
    refine ⟨h.2.1, ?_⟩
    have h3 := h.2.2
    split at h3
    · rw [h3.2.1]; trivial
    · split at h3
      · exact hole _ h3.2.1
      · split at h3
        · exact hole _ h3.1
        · exact ih _ _ h3.2.2
  · intros; trivial
  · intro p ps h1 h2 ctx par h
    simp only [okNodes] at h
    exact ⟨h1 _ _ h.1, h2 _ _ h.2.2⟩

/-- The number of solid characters. -/
def solids (s : Str) : Nat := (solid s).length

theorem solids_append (a b : Str) : solids (a ++ b) = solids a + solids b := by
  unfold solids solid; simp

/-- Without its quotes an attribute has fewer solid characters, unless it had none. -/
theorem solids_attr {e i : Bool} {a : Attr} (h : legalAttr e i a) :
    solids (printAttr (unquoteAttr a)) ≤ solids (printAttr a) ∧
    (solids (printAttr (unquoteAttr a)) = solids (printAttr a) → unquoteAttr a = a) := by
  obtain ⟨k, v, q, nq⟩ := a
  obtain ⟨h1, h2⟩ := h
  simp only at h1
  subst h1
  cases q with
  | none => exact ⟨Nat.le_refl _, fun _ => rfl⟩
  | some q =>
    have hq : v ≠ none ∧ (q = '"' ∨ q = '\'') := by
      cases k <;> cases v <;> simp only at h2
      · exact ⟨nofun, h2.2.1⟩
      · exact ⟨nofun, h2.2.1⟩
    obtain ⟨hv, hq⟩ := hq
    cases v with
    | none => exact absurd rfl hv
    | some v =>
      have hs : solids [q] = 1 := by rcases hq with rfl | rfl <;> decide
      have e : solids (printAttr { key := k, value := some v, quote := some q }) =
          solids (printAttr (unquoteAttr { key := k, value := some v, quote := some q })) + 2 := by
        simp only [printAttr, unquoteAttr, Bool.false_eq_true, if_false, solids_append, hs]
        omega
      rw [e]
      exact ⟨by omega, fun h => by omega⟩

theorem solids_attrs {e i : Bool} : ∀ {as : List Attr}, (∀ a ∈ as, legalAttr e i a) →
    solids (printAttrs (as.map unquoteAttr)) ≤ solids (printAttrs as) ∧
    (solids (printAttrs (as.map unquoteAttr)) = solids (printAttrs as) → as.map unquoteAttr = as)
  | [], _ => ⟨Nat.le_refl _, fun _ => rfl⟩
  | a :: as, h => by
    have h1 := solids_attr (h a (by simp))
    have h2 := solids_attrs (as := as) fun x hx => h x (by simp [hx])
    simp only [printAttrs] at h2
    simp only [printAttrs, List.map_cons, List.flatMap_cons, solids_append, List.cons.injEq]
    exact ⟨by omega, fun q => ⟨h1.2 (by omega), h2.2 (by omega)⟩⟩

theorem solids_unquote {o : ParseOptions} :
    (∀ p, allIn (legalHere o) p → solids (printNode (unquoteNode p)) ≤ solids (printNode p) ∧
      (solids (printNode (unquoteNode p)) = solids (printNode p) → unquoteNode p = p)) ∧
    (∀ ps, allsIn (legalHere o) ps → solids (printNodes (unquoteNodes ps)) ≤ solids (printNodes ps) ∧
      (solids (printNodes (unquoteNodes ps)) = solids (printNodes ps) → unquoteNodes ps = ps)) := by
  apply PNode.induct
  · intro w _; exact ⟨Nat.le_refl _, fun _ => rfl⟩
  · intro w _; exact ⟨Nat.le_refl _, fun _ => rfl⟩
  · intro w _; exact ⟨Nat.le_refl _, fun _ => rfl⟩
  · intro n as s h
    have h1 := solids_attrs (show ∀ a ∈ as, legalAttr _ true a from h)
    simp only [unquoteNode, printNode, solids_append]
    exact ⟨by omega, fun q => by rw [h1.2 (by omega)]⟩
  · intro n as s ct ks e ih h
    simp only [allIn] at h
    have h1 := solids_attrs (show ∀ a ∈ as, legalAttr _ false a from h.1)
    have h2 := ih h.2
    simp only [unquoteNode, printNode, printOpen, solids_append]
    exact ⟨by omega, fun q => by rw [h1.2 (by omega), h2.2 (by omega)]⟩
  · intro _; exact ⟨Nat.le_refl _, fun _ => rfl⟩
  · intro p ps h1 h2 h
    simp only [allsIn] at h
    have h1 := h1 h.1
    have h2 := h2 h.2
    simp only [unquoteNodes, printNodes, solids_append]
    exact ⟨by omega, fun q => by rw [h1.2 (by omega), h2.2 (by omega)]⟩

theorem optional_attrs {e i : Bool} {as : List Attr} (h : ∀ a ∈ as, legalAttr e i a)
    (h' : ∀ a ∈ as.map unquoteAttr, legalAttr e i a) : ∀ a ∈ as, quotesOptional a := by
  intro a ha hq
  have h1 := h a ha
  have h2 := h' _ (List.mem_map_of_mem ha)
  obtain ⟨k, v, q, nq⟩ := a
  obtain ⟨g1, g2⟩ := h1
  simp only at g1
  subst g1
  obtain ⟨_, h2⟩ := h2
  cases q with
  | none => exact absurd rfl hq
  | some q =>
    cases k <;> cases v <;> simp only [unquoteAttr, Bool.false_eq_true, if_false] at g2 h2
    refine ⟨nofun, ?_⟩
    rintro v ⟨⟩
    exact h2.2

theorem optional_of_legal {o : ParseOptions} :
    (∀ p, allIn (legalHere o) p → allIn (legalHere o) (unquoteNode p) → optionalNode p) ∧
    (∀ ps, allsIn (legalHere o) ps → allsIn (legalHere o) (unquoteNodes ps) → optionalNodes ps) := by
  apply PNode.induct
  · intros; trivial
  · intros; trivial
  · intros; trivial
  · intro n as s h h'
    exact optional_attrs (show ∀ a ∈ as, legalAttr _ true a from h) h'
  · intro n as s ct ks e ih h h'
    simp only [allIn, unquoteNode] at h h'
    exact ⟨optional_attrs (show ∀ a ∈ as, legalAttr _ false a from h.1) h'.1, ih h.2 h'.2⟩
  · intros; trivial
  · intro p ps h1 h2 h h'
    simp only [allsIn, unquoteNodes] at h h'
    exact ⟨h1 h.1 h'.1, h2 h.2 h'.2⟩

/-- The rendering without quotes of what was parsed. -/
theorem render_unquoted (lib : EntityLib) {s : Str} {o : ParseOptions} {d : Doc} {ps : List PNode} (hc : complete s o)
    (hd : Doc.parse s o = .ok d) (h : docOf s o = some ps) :
    d.render lib { removeAttrQuote := true } = .ok (printNodes (unquoteNodes ps)) := by
  obtain ⟨a, h1, h2, t, h3, h4, h5, h6, h7⟩ := parse_machine_complete hd hc
  rw [docOf_machine h1 h2] at h
  simp only [Option.some.injEq] at h
  rw [← h, ← h4]
  obtain ⟨n, e, cs⟩ := t
  simp only [Tree.data] at h5
  simp only [Tree.endTag] at h6
  subst h6
  have hdq : dropQuotes n = n := by
    unfold dropQuotes; split
    · rename_i q; rw [h5] at q; cases q
    · rename_i q; rw [h5] at q; cases q
    · rfl
  unfold Doc.render
  rw [h3]
  show build lib (.mk n none cs) _ false = _
  rw [c33_unquoted lib _ _ _ rfl]
  cases cs with
  | none =>
    simp only [mapTree, hdq]
    exact build_doc lib h5 rfl trivial
  | some ts =>
    obtain ⟨k1, k2⟩ := pnode_dropQuotes.2 ts h7
    have := build_doc lib (t := mapTree dropQuotes (.mk n none (some ts))) (by simp only [mapTree, hdq]; exact h5)
      (by simp only [mapTree]; rfl) (by simp only [mapTree]; exact k2)
    rw [show (mapTree dropQuotes (.mk n none (some ts))).doc = unquoteNodes (Tree.doc (.mk n none (some ts))) by
      simp only [mapTree]; exact k1] at this
    exact this

/-- **C33**, exactly: rendering a parsed document with `remove_attr_quote` and parsing the result gives the same document, up
to the quotes of the attributes, if and only if no attribute needs its quotes. -/
theorem c33_exact (lib : EntityLib) {s : Str} {o : ParseOptions} {d : Doc} {ps : List PNode} (hp : Doc.parse s o = .ok d)
    (h : docOf s o = some ps) (h1 : o.autoFixUnescapedLt = false) (h2 : o.autoFixUnexpectedEndtag = false)
    (h3 : o.autoFixUnclosedTag = false) (h4 : o.allowAttrKeyStartsWithEqualSign = false)
    (hd : ∀ n as sc, Occurs (.doctype n as sc) ps → as ≠ [] ∧ sc = false) :
    ∃ r, d.render lib { removeAttrQuote := true } = .ok r ∧
      ((∃ ps', docOf r o = some ps' ∧ unquoteNodes ps' = unquoteNodes ps) ↔ optionalNodes ps) := by
  have hr := render_unquoted lib (complete_of h3) hp h
  refine ⟨_, hr, ?_, ?_⟩
  · rintro ⟨ps', k1, k2⟩
    have g := legal_of_ok.2 _ _ _ (docOf_ok (complete_of h3) h)
    have g' := legal_of_ok.2 _ _ _ (docOf_ok (complete_of h3) k1)
    have ag := (agree_print.2 _ _ (c03_written h1 h2 h3 k1)).fold
    have len : solids (printNodes (unquoteNodes ps')) = solids (printNodes ps') := by
      have := congrArg List.length ag
      unfold Spec.fold at this
      simp only [List.length_map] at this
      rw [k2]
      exact this
    have e := (solids_unquote.2 ps' g').2 len
    rw [k2] at e
    rw [← e] at g'
    exact optional_of_legal.2 _ g g'
  · intro hq
    have wf := c04_wellformed (complete_of h3) h h1 (.inl h2) h4 hd
    refine ⟨unquoteNodes ps, (c05_document o lib (wf_unquote.2 _ hq none none wf)).1, ?_⟩
    have idem : (∀ p, unquoteNode (unquoteNode p) = unquoteNode p) ∧ (∀ ps, unquoteNodes (unquoteNodes ps) = unquoteNodes ps) := by
      have ia : ∀ a, unquoteAttr (unquoteAttr a) = unquoteAttr a := by
        intro a; unfold unquoteAttr; by_cases q : a.needQuote = true <;> simp [q]
      apply PNode.induct <;> intros <;> simp_all [unquoteNode, unquoteNodes]
    exact idem.2 ps

/-- `<a b="c d">e</a>` meets the hypotheses, and its quotes are needed: the text without them is another document. -/
example : (∃ d, Doc.parse "<a b=\"c d\">e</a>".toList {} = .ok d) ∧
    docOf "<a b=\"c d\">e</a>".toList {} = some [.elem ['a'] [{ key := some ['b'], value := some ['c', ' ', 'd'], quote := some '"' }]
      false none [.text ['e']] (some ['a'])] ∧
    rendersTo "<a b=\"c d\">e</a>" "<a b=c d>e</a>" {} { removeAttrQuote := true } = true ∧
    docOf "<a b=c d>e</a>".toList {} = some [.elem ['a'] [{ key := some ['b'], value := some ['c'] }, { key := some ['d'] }]
      false none [.text ['e']] (some ['a'])] ∧
    (∀ n as sc, Occurs (.doctype n as sc) [.elem ['a'] [{ key := some ['b'], value := some ['c', ' ', 'd'], quote := some '"' }]
      false none [.text ['e']] (some ['a'])] → as ≠ [] ∧ sc = false) := by
  refine ⟨(parse_docOf (complete_of rfl)).2 ⟨_, (by decide +kernel : docOf "<a b=\"c d\">e</a>".toList {} = some [.elem ['a']
    [{ key := some ['b'], value := some ['c', ' ', 'd'], quote := some '"' }] false none [.text ['e']] (some ['a'])])⟩,
    by decide +kernel, by decide +kernel, by decide +kernel, ?_⟩
  intro n as sc h
  exact allsIn_occurs (P := doctypeFull) (by simp [allsIn, allIn, doctypeFull]) _ h

end Rphtml
