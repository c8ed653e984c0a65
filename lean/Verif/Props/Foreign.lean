import Verif.Spec.TagSeq
import Verif.Props.Accepted
import Verif.Spec.Samples

/-!
# C44: where a self-closed tag is accepted
-/

namespace Rphtml
open Spec

theorem Spec.foreignOpen.append {a b : List TagEv} {m : Str} (h : foreignOpen a m) (hb : ∀ e, .close e ∈ b → trimEnd e ≠ m) :
    foreignOpen (a ++ b) m := by
  obtain ⟨h1, x, y, rfl, h2⟩ := h
  refine ⟨h1, x, y ++ b, by simp, ?_⟩
  intro e he
  rcases List.mem_append.1 he with he | he
  · exact h2 e he
  · exact hb e he

/-- The foreign element that the document counts as being in has been started and not ended. -/
def Tracks (ctx : Option Str) (before : List TagEv) : Prop := ∀ m, ctx = some m → foreignOpen before m

theorem raw_not_foreign {c : Bool} {n e m : Str} (hr : isRaw n) (hc : closes c n e) (hf : isForeign m) : trimEnd e ≠ m := by
  intro h
  have h1 : fold (trimEnd e) = fold n := by
    unfold closes at hc
    split at hc
    · rw [hc]
    · exact hc
  rw [h] at h1
  unfold isForeign at hf
  unfold isRaw at hr
  rw [h1] at hf
  simp only [List.mem_cons, List.not_mem_nil, or_false] at hf hr
  rcases hf with hf | hf <;> rw [hf] at hr <;> revert hr <;> decide

/-- A self-closed tag in the tags of a node, after `before`, is void or inside a foreign element; and tracking goes on. -/
theorem okNode_tags {o : ParseOptions} (ho : o.allowSelfClosing = false) :
    (∀ p, ∀ ctx parent before, okNode o ctx parent p → Tracks ctx before →
      Tracks (ctxNode ctx p) (before ++ tagsOf p) ∧
      ∀ x n y, tagsOf p = x ++ .selfClosed n :: y → isVoid n ∨ ∃ m, foreignOpen (before ++ x) m) ∧
    (∀ ps, ∀ ctx parent before, okNodes o ctx parent ps → Tracks ctx before →
      Tracks (ctxNodes ctx ps) (before ++ tagsOfs ps) ∧
      ∀ x n y, tagsOfs ps = x ++ .selfClosed n :: y → isVoid n ∨ ∃ m, foreignOpen (before ++ x) m) := by
  have hno : ∀ x n y, ([] : List TagEv) = x ++ .selfClosed n :: y → False := by
    intro x n y h; cases x <;> cases h
  have hhole : ∀ ks, holeOk o ks → tagsOfs ks = [] := by
    rintro ks (rfl | ⟨_, w, rfl, _⟩) <;> simp [tagsOfs, tagsOf]
  apply PNode.induct
  · intro w ctx parent before _ ht
    simp only [ctxNode, tagsOf, List.append_nil]
    exact ⟨ht, fun x n y h => (hno x n y h).elim⟩
  · intro w ctx parent before _ ht
    simp only [ctxNode, tagsOf, List.append_nil]
    exact ⟨ht, fun x n y h => (hno x n y h).elim⟩
  · intro w ctx parent before _ ht
    simp only [ctxNode, tagsOf, List.append_nil]
    exact ⟨ht, fun x n y h => (hno x n y h).elim⟩
  · intro n as s ctx parent before _ ht
    simp only [ctxNode, tagsOf, List.append_nil]
    exact ⟨ht, fun x n y h => (hno x n y h).elim⟩
  · intro n as s ct ks e ih ctx parent before h ht
    simp only [okNode] at h
    obtain ⟨_, _, h⟩ := h
    cases s with
    | true =>
      rw [if_pos rfl] at h
      obtain ⟨_, rfl, rfl, h⟩ := h
      simp only [tagsOf, tagsOfs, closeEv, List.append_nil, if_true, ctxNode, true_or]
      refine ⟨fun m hm => foreignOpen.append (ht m hm) (by simp), ?_⟩
      intro x k y hx
      cases x with
      | nil =>
        simp only [List.nil_append, List.cons.injEq, TagEv.selfClosed.injEq] at hx
        rw [← hx.1]
        rcases h with h | h | h
        · rw [ho] at h; cases h
        · exact .inl h
        · right
          cases ctx with
          | none => exact absurd rfl h
          | some m => exact ⟨m, by rw [List.append_nil]; exact ht m rfl⟩
      | cons z x => simp at hx
    | false =>
      rw [if_neg (by simp)] at h
      by_cases hv : isVoid n
      · rw [if_pos hv] at h
        obtain ⟨_, h1, rfl⟩ := h
        simp only [tagsOf, hhole ks h1, closeEv, List.append_nil, Bool.false_eq_true, if_false, ctxNode, hv, true_or, or_true,
          if_true]
        refine ⟨fun m hm => foreignOpen.append (ht m hm) (by simp), ?_⟩
        intro x k y hx
        cases x <;> simp at hx
      · rw [if_neg hv] at h
        by_cases hr : isRaw n
        · rw [if_pos hr] at h
          obtain ⟨h1, w, e', _, rfl, h2, _⟩ := h
          simp only [tagsOf, hhole ks h1, closeEv, List.nil_append, Bool.false_eq_true, if_false, ctxNode, hr, or_true, if_true]
          refine ⟨fun m hm => foreignOpen.append (ht m hm) ?_, ?_⟩
          · intro e he
            simp only [List.mem_cons, TagEv.close.injEq, reduceCtorEq, false_or, List.not_mem_nil, or_false] at he
            rw [he]
            exact raw_not_foreign hr h2 (ht m hm).1
          · intro x k y hx
            cases x with
            | nil => simp at hx
            | cons z x =>
              simp only [List.cons_append, List.cons.injEq] at hx
              cases x with
              | nil => simp at hx
              | cons z' x => simp at hx
        · rw [if_neg hr] at h
          obtain ⟨_, h1, h2⟩ := h
          have ht' : Tracks (enter ctx n) (before ++ [.start n]) := by
            intro m hm
            unfold enter at hm
            cases ctx with
            | some k =>
              simp only [Option.some.injEq] at hm
              subst hm
              exact foreignOpen.append (ht k rfl) (by simp)
            | none =>
              simp only at hm
              split at hm
              · rename_i hf
                simp only [Option.some.injEq] at hm
                subst hm
                exact ⟨hf, before, [], rfl, by simp⟩
              · cases hm
          obtain ⟨k1, k2⟩ := ih (enter ctx n) (some n) _ h2 ht'
          refine ⟨?_, ?_⟩
          · simp only [tagsOf, ctxNode, hv, hr, Bool.false_eq_true, or_self, if_false]
            clear h1
            cases e with
            | none =>
              simp only [closeEv, List.append_nil]
              rw [show before ++ TagEv.start n :: tagsOfs ks = before ++ [.start n] ++ tagsOfs ks by simp]
              exact k1
            | some e =>
              simp only [closeEv]
              intro m hm
              unfold leave at hm
              split at hm
              · cases hm
              · rename_i hne
                rw [show before ++ TagEv.start n :: (tagsOfs ks ++ [.close e]) = before ++ [.start n] ++ tagsOfs ks ++ [.close e] by simp]
                refine foreignOpen.append (k1 m hm) ?_
                intro e2 he2 he3
                simp only [List.mem_singleton, TagEv.close.injEq] at he2
                subst he2 he3
                exact hne hm
          · intro x k y hx
            simp only [tagsOf, Bool.false_eq_true, if_false] at hx
            cases x with
            | nil => simp at hx
            | cons z x =>
              simp only [List.cons_append, List.cons.injEq] at hx
              obtain ⟨rfl, hx⟩ := hx
              rw [show before ++ TagEv.start n :: x = before ++ [.start n] ++ x by simp]
              have : ∃ y', tagsOfs ks = x ++ .selfClosed k :: y' := by
                rcases List.append_eq_append_iff.1 hx with ⟨u, h3, h4⟩ | ⟨u, h3, h4⟩
                · exfalso
                  have h5 : TagEv.selfClosed k ∈ closeEv e := by rw [h4]; simp
                  cases e <;> simp [closeEv] at h5
                · cases u with
                  | nil =>
                    exfalso
                    simp only [List.nil_append] at h4
                    have h5 : TagEv.selfClosed k ∈ closeEv e := by rw [← h4]; simp
                    cases e <;> simp [closeEv] at h5
                  | cons v u =>
                    simp only [List.cons_append, List.cons.injEq] at h4
                    exact ⟨u, by rw [h3, h4.1]⟩
              obtain ⟨y', hy⟩ := this
              exact k2 x k y' hy
  · intro ctx parent before _ ht
    simp only [ctxNodes, tagsOfs, List.append_nil]
    exact ⟨ht, fun x n y h => (hno x n y h).elim⟩
  · intro p ps h1 h2 ctx parent before h ht
    simp only [okNodes] at h
    obtain ⟨a1, a2⟩ := h1 ctx parent before h.1 ht
    obtain ⟨b1, b2⟩ := h2 _ parent _ h.2.2 a1
    simp only [ctxNodes, tagsOfs]
    refine ⟨by rw [← List.append_assoc]; exact b1, ?_⟩
    intro x n y hx
    rcases List.append_eq_append_iff.1 hx with ⟨u, h3, h4⟩ | ⟨u, h3, h4⟩
    · rw [h3, ← List.append_assoc]
      exact b2 u n y h4
    · cases u with
      | nil =>
        simp only [List.nil_append, List.append_nil] at h3 h4
        have := b2 [] n y h4.symm
        rw [h3, List.append_nil] at this
        exact this
      | cons v u =>
        simp only [List.cons_append, List.cons.injEq] at h4
        exact a2 x n u (by rw [h3, h4.1])

/-- **C44** for all accepted documents, in terms of the order of the tags: without `allow_self_closing`, a self-closed tag is
one of a void element, or it comes after the start tag of an svg or math element that no end tag *of the same spelling* has
followed.  (The claim is that it is inside such an element; this is what the library looks at instead.) -/
theorem c44_exact {o : ParseOptions} {s : Str} {ps : List PNode} (hc : complete s o) (h : docOf s o = some ps)
    (ho : o.allowSelfClosing = false) {before after : List TagEv} {n : Str} (ht : tagsOfs ps = before ++ .selfClosed n :: after) :
    isVoid n ∨ ∃ m, foreignOpen before m := by
  have := ((okNode_tags ho).2 ps none none [] (docOf_ok hc h) (by intro m hm; cases hm)).2 before n after ht
  simpa using this

/-- A self-closed tag inside an svg element, one after an svg element whose end tag is spelled differently, and one that is
rejected because an inner svg element has ended. -/
example : (docOf "<svg><a/></svg>".toList {}).map tagsOfs =
      some [.start "svg".toList, .selfClosed "a".toList, .close "svg".toList] ∧
    (docOf "<svg></SVG><a/>".toList {}).map tagsOfs =
      some [.start "svg".toList, .close "SVG".toList, .selfClosed "a".toList] ∧
    docOf "<svg><svg></svg><a/></svg>".toList {} = none := by decide +kernel

end Rphtml
