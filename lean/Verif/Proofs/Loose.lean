import Verif.Spec.Reread
import Verif.Props.Unquote
import Verif.Props.Accepted
import Verif.Proofs.Join

/-!
# Documents that are well-formed up to empty and neighbouring texts
-/

namespace Rphtml
open Spec

/-- The part of well-formedness that concerns an element; `kids` is what is demanded of the children. -/
def ElemShape (o : ParseOptions) (ctx : Option Str) (n : Str) (s : Bool) (ct : Option Str) (ks : List PNode) (e : Option Str)
    (kids : Prop) : Prop :=
  if s = true then ct = none ∧ ks = [] ∧ e = none ∧ (o.allowSelfClosing = true ∨ isVoid n ∨ ctx ≠ none)
  else if isVoid n then ct = none ∧ ks = [] ∧ e = none
  else if isRaw n then
    ks = [] ∧ ∃ w e', ct = some w ∧ e = some e' ∧ closes o.caseSensitiveTagname n e' ∧
      ∀ u k v, w = u ++ ['<', '/'] ++ k ++ ['>'] ++ v → ¬ closes o.caseSensitiveTagname n k
  else ct = none ∧ (∃ e', e = some e' ∧ closes o.caseSensitiveTagname n e') ∧ kids

theorem ElemShape.imp {o : ParseOptions} {ctx : Option Str} {n : Str} {s : Bool} {ct : Option Str} {ks ks' : List PNode}
    {e : Option Str} {K K' : Prop} (h : ElemShape o ctx n s ct ks e K) (h1 : ks = [] → ks' = []) (h2 : K → K') :
    ElemShape o ctx n s ct ks' e K' := by
  unfold ElemShape at h ⊢
  split
  · rename_i q; rw [if_pos q] at h; exact ⟨h.1, h1 h.2.1, h.2.2⟩
  · rename_i q; rw [if_neg q] at h
    split
    · rename_i q; rw [if_pos q] at h; exact ⟨h.1, h1 h.2.1, h.2.2⟩
    · rename_i q; rw [if_neg q] at h
      split
      · rename_i q; rw [if_pos q] at h; exact ⟨h1 h.1, h.2⟩
      · rename_i q; rw [if_neg q] at h; exact ⟨h.1, h.2.1, h2 h.2.2⟩

mutual
/-- A node as `wfNode`, but texts may stand side by side, and may be empty if `b` is false. -/
def looseNode (b : Bool) (o : ParseOptions) (ctx parent : Option Str) : PNode → Prop
  | .text w => (b = true → w ≠ []) ∧ '<' ∉ w
  | .comment w => w ≠ [] ∧ ¬ ['-', '-', '>'] <:+: w.tail
  | .cdata w => w ≠ [] ∧ ¬ [']', ']', '>'] <:+: w.tail ∧ ctx ≠ none ∧ parent ≠ none ∧ ctx ≠ parent
  | .doctype n as s => fold n = ['d', 'o', 'c', 't', 'y', 'p', 'e'] ∧ as ≠ [] ∧ s = false ∧
      legalAttrs o.allowAttrKeyStartsWithEqualSign true as
  | .elem n as s ct ks e =>
    tagName n ∧ legalAttrs o.allowAttrKeyStartsWithEqualSign false as ∧
    ElemShape o ctx n s ct ks e (looseNodes b o (enter ctx n) (some n) ks)

/-- The same for a list. -/
def looseNodes (b : Bool) (o : ParseOptions) (ctx parent : Option Str) : List PNode → Prop
  | [] => True
  | p :: ps => looseNode b o ctx parent p ∧ looseNodes b o (ctxNode ctx p) parent ps
end

theorem loose_of_wf {o : ParseOptions} :
    (∀ p ctx par, wfNode o ctx par p → looseNode false o ctx par p) ∧
    (∀ ps ctx par, wfNodes o ctx par ps → looseNodes false o ctx par ps) := by
  apply PNode.induct
  · intro w ctx par h
    simp only [wfNode] at h
    simp only [looseNode]
    exact ⟨by simp, h.2⟩
  · intro w ctx par h; simpa only [wfNode, looseNode] using h
  · intro w ctx par h; simpa only [wfNode, looseNode] using h
  · intro n as s ctx par h; simpa only [wfNode, looseNode] using h
  · intro n as s ct ks e ih ctx par h
    simp only [wfNode] at h
    simp only [looseNode]
    exact ⟨h.1, h.2.1, ElemShape.imp (K := wfNodes o (enter ctx n) (some n) ks) h.2.2 id (ih _ _)⟩
  · intro ctx par _; simp only [looseNodes]
  · intro p ps h1 h2 ctx par h
    simp only [wfNodes] at h
    simp only [looseNodes]
    exact ⟨h1 _ _ h.1, h2 _ _ h.2.2⟩

/-- Removing nodes that do not matter for what is legal after them. -/
theorem loose_without {b b' : Bool} {o : ParseOptions} {q : PNode → Bool} (hq : ∀ p, q p = true → ∃ w, p = .text w ∨ p = .comment w)
    (hb : ∀ w, q (.text w) = false → (b = true → w ≠ []) → (b' = true → w ≠ [])) :
    (∀ p, q p = false → ∀ ctx par, looseNode b o ctx par p → looseNode b' o ctx par (withoutNode q p) ∧
      ctxNode ctx (withoutNode q p) = ctxNode ctx p) ∧
    (∀ ps ctx par, looseNodes b o ctx par ps → looseNodes b' o ctx par (withoutNodes q ps) ∧
      ctxNodes ctx (withoutNodes q ps) = ctxNodes ctx ps) := by
  apply PNode.induct
  · intro w hw ctx par h
    simp only [looseNode, withoutNode] at h ⊢
    exact ⟨⟨hb w hw h.1, h.2⟩, trivial⟩
  · intro w hw ctx par h; simp only [looseNode, withoutNode] at h ⊢; exact ⟨h, trivial⟩
  · intro w hw ctx par h; simp only [looseNode, withoutNode] at h ⊢; exact ⟨h, trivial⟩
  · intro n as s hw ctx par h; simp only [looseNode, withoutNode] at h ⊢; exact ⟨h, trivial⟩
  · intro n as s ct ks e ih hw ctx par h
    simp only [looseNode, withoutNode] at h ⊢
    refine ⟨⟨h.1, h.2.1, h.2.2.imp (by rintro rfl; rfl) (fun k => (ih _ _ k).1)⟩, ?_⟩
    simp only [ctxNode]
    split
    · rfl
    · rename_i hx
      simp only [not_or] at hx
      have h3 := h.2.2
      unfold ElemShape at h3
      rw [if_neg hx.1, if_neg hx.2.1, if_neg hx.2.2] at h3
      rw [(ih _ _ h3.2.2).2]
  · intro ctx par _; simp only [withoutNodes, looseNodes]; exact ⟨trivial, trivial⟩
  · intro p ps h1 h2 ctx par h
    simp only [looseNodes] at h
    simp only [withoutNodes]
    cases hp : q p with
    | true =>
      have : ctxNode ctx p = ctx := by
        obtain ⟨w, rfl | rfl⟩ := hq p hp <;> simp only [ctxNode]
      rw [this] at h
      simp only [if_true, ctxNodes, this]
      exact h2 _ _ h.2
    | false =>
      obtain ⟨k1, k2⟩ := h1 hp _ _ h.1
      obtain ⟨k3, k4⟩ := h2 _ _ h.2
      simp only [Bool.false_eq_true, if_false, looseNodes, ctxNodes, k2]
      exact ⟨⟨k1, k3⟩, k4⟩

theorem wfNodes_glue {o : ParseOptions} {ctx par : Option Str} {p : PNode} {ps : List PNode} (h1 : wfNode o ctx par p)
    (h2 : wfNodes o (ctxNode ctx p) par ps) : wfNodes o ctx par (glue p ps) ∧ ctxNodes ctx (glue p ps) = ctxNodes (ctxNode ctx p) ps := by
  by_cases hp : isText p = true
  · cases p with
    | text w =>
      cases ps with
      | nil =>
        simp only [glue, wfNodes, ctxNodes]
        exact ⟨⟨h1, by simp⟩, trivial⟩
      | cons q ps =>
        cases q with
        | text v =>
          simp only [wfNodes, ctxNode] at h2
          simp only [wfNode] at h1 h2
          simp only [glue, wfNodes, ctxNodes, ctxNode, wfNode]
          refine ⟨⟨⟨by simp [h1.1], ?_⟩, h2.2.1, h2.2.2⟩, trivial⟩
          simp only [List.mem_append, not_or]
          exact ⟨h1.2, h2.1.2⟩
        | _ =>
          simp only [glue, wfNodes, ctxNodes] at h2 ⊢
          refine ⟨⟨h1, ?_, h2⟩, trivial⟩
          intro _ q hq
          simp only [List.head?_cons, Option.some.injEq] at hq
          subst hq; rfl
    | _ => simp [isText] at hp
  · simp only [Bool.not_eq_true] at hp
    rw [glue_cons hp]
    simp only [wfNodes, ctxNodes]
    exact ⟨⟨h1, by rw [hp]; simp, h2⟩, trivial⟩

theorem wf_join {o : ParseOptions} :
    (∀ p ctx par, looseNode true o ctx par p → wfNode o ctx par (joinNode p) ∧ ctxNode ctx (joinNode p) = ctxNode ctx p) ∧
    (∀ ps ctx par, looseNodes true o ctx par ps → wfNodes o ctx par (joinTexts ps) ∧ ctxNodes ctx (joinTexts ps) = ctxNodes ctx ps) := by
  apply PNode.induct
  · intro w ctx par h
    simp only [looseNode, wfNode, joinNode] at h ⊢
    exact ⟨⟨h.1 trivial, h.2⟩, trivial⟩
  · intro w ctx par h; simp only [looseNode, wfNode, joinNode] at h ⊢; exact ⟨h, trivial⟩
  · intro w ctx par h; simp only [looseNode, wfNode, joinNode] at h ⊢; exact ⟨h, trivial⟩
  · intro n as s ctx par h; simp only [looseNode, wfNode, joinNode] at h ⊢; exact ⟨h, trivial⟩
  · intro n as s ct ks e ih ctx par h
    simp only [looseNode, joinNode] at h ⊢
    refine ⟨?_, ?_⟩
    · simp only [wfNode]
      exact ⟨h.1, h.2.1, ElemShape.imp (K' := wfNodes o (enter ctx n) (some n) (joinTexts ks)) h.2.2 (by rintro rfl; rfl) (fun k => (ih _ _ k).1)⟩
    · simp only [ctxNode]
      split
      · rfl
      · rename_i hx
        simp only [not_or] at hx
        have h3 := h.2.2
        unfold ElemShape at h3
        rw [if_neg hx.1, if_neg hx.2.1, if_neg hx.2.2] at h3
        rw [(ih _ _ h3.2.2).2]
  · intro ctx par _; simp only [joinTexts, wfNodes]; exact ⟨trivial, trivial⟩
  · intro p ps h1 h2 ctx par h
    simp only [looseNodes] at h
    obtain ⟨k1, k2⟩ := h1 _ _ h.1
    obtain ⟨k3, k4⟩ := h2 _ _ h.2
    simp only [joinTexts, ctxNodes]
    rw [← k2] at k3
    obtain ⟨k5, k6⟩ := wfNodes_glue k1 k3
    rw [k2, k4] at k6
    exact ⟨k5, k6⟩

/-- After tidying the texts, the document is well-formed. -/
theorem wf_tidy {o : ParseOptions} {ps : List PNode} (h : looseNodes false o none none ps) : wfDoc o (tidyTexts ps) := by
  have h1 := (loose_without (b := false) (b' := true) (o := o) (q := isEmptyText)
    (by
      intro p hp
      cases p with
      | text w => exact ⟨w, .inl rfl⟩
      | _ => simp [isEmptyText] at hp)
    (by
      intro w hw _ _ h0
      subst h0
      simp [isEmptyText] at hw)).2 ps none none h
  exact (wf_join.2 _ none none h1.1).1

theorem print_glue (p : PNode) (ps : List PNode) : printNodes (glue p ps) = printNode p ++ printNodes ps := by
  by_cases hp : isText p = true
  · cases p with
    | text w =>
      cases ps with
      | nil => rfl
      | cons q ps =>
        cases q with
        | text v => simp only [glue, printNodes, printNode, List.append_assoc]
        | _ => rfl
    | _ => simp [isText] at hp
  · simp only [Bool.not_eq_true] at hp
    rw [glue_cons hp]; rfl

theorem print_join : (∀ p, printNode (joinNode p) = printNode p) ∧ (∀ ps, printNodes (joinTexts ps) = printNodes ps) := by
  apply PNode.induct
  · intro w; rfl
  · intro w; rfl
  · intro w; rfl
  · intro n a s; rfl
  · intro n a s ct ks e ih; simp only [joinNode, printNode, ih]
  · rfl
  · intro p ps h1 h2; simp only [joinTexts, print_glue, printNodes, h1, h2]

theorem print_fill : (∀ p, printNode (withoutNode isEmptyText p) = printNode p) ∧
    (∀ ps, printNodes (withoutNodes isEmptyText ps) = printNodes ps) := by
  apply PNode.induct
  · intro w; rfl
  · intro w; rfl
  · intro w; rfl
  · intro n a s; rfl
  · intro n a s ct ks e ih; simp only [withoutNode, printNode, ih]
  · rfl
  · intro p ps h1 h2
    simp only [withoutNodes]
    split
    · rename_i hp
      have : printNode p = [] := by
        cases p with
        | text w =>
          cases w with
          | nil => rfl
          | cons c w => simp [isEmptyText] at hp
        | _ => simp [isEmptyText] at hp
      simp only [printNodes, this, List.nil_append, h2]
    · simp only [printNodes, h1, h2]

/-- Tidying the texts does not change the source text. -/
theorem print_tidy (ps : List PNode) : printNodes (tidyTexts ps) = printNodes ps := by
  unfold tidyTexts
  rw [print_join.2, print_fill.2]

/-- A document that is well-formed up to its texts is read back with its texts tidied. -/
theorem loose_reread {o : ParseOptions} {ps : List PNode} (h : looseNodes false o none none ps) :
    docOf (printNodes ps) o = some (tidyTexts ps) := by
  rw [← print_tidy ps]
  exact (c05_document o ⟨fun _ => [], fun _ => none, fun _ => false, fun _ => none⟩ (wf_tidy h)).1

end Rphtml
