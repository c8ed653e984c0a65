import Verif.Proofs.Ends

/-!
# C54: the outcome of parsing any text, without the parser

`Result` (C53), `Rejects`, `Ends` and `Crashes` are defined on texts alone, by the grammar of `Spec.Scan`.
-/

namespace Rphtml
open Spec

/-- **C54**, first part: `parse` succeeds on exactly these texts. -/
theorem c54_accepts (s : Str) (o : ParseOptions) : (∃ d, Doc.parse s o = .ok d) ↔ Accepts o s := c53_accepts s o

/-- **C54**, second part: `parse` reports an error of kind `k` at index `i` on exactly these texts. -/
theorem c54_errors (s : Str) (o : ParseOptions) (k : ErrorKind) (i : Nat) :
    (∃ e, Doc.parse s o = .err e ∧ e.kind = k ∧ e.region.index = i) ↔ Errs o s k i := by
  rw [c52_errors, Errs, ends_iff]
  simp only [rejects_iff]

/-- **C54**, third part: `parse` panics at the place `p` on exactly these texts. -/
theorem c54_panics (s : Str) (o : ParseOptions) (p : Site) : Doc.parse s o = .panic p ↔ Crashes o s p := crashes_iff.symm

/-- **C54**, last part: these are all texts, and nothing is said twice about one. -/
theorem c54_outcome (s : Str) (o : ParseOptions) :
    (Accepts o s ∨ (∃ k i, Errs o s k i) ∨ ∃ p, Crashes o s p) ∧
    (Accepts o s → (∀ k i, ¬ Errs o s k i) ∧ ∀ p, ¬ Crashes o s p) ∧
    (∀ k i, Errs o s k i → (∀ k' i', Errs o s k' i' → k' = k ∧ i' = i) ∧ ∀ p, ¬ Crashes o s p) ∧
    ∀ p, Crashes o s p → ∀ q, Crashes o s q → q = p := by
  have acc := c54_accepts s o
  have err := c54_errors s o
  have pan := c54_panics s o
  simp only [← acc, ← err, ← pan]
  cases hr : Doc.parse s o with
  | ok d => simp
  | err e =>
    refine ⟨.inr (.inl ⟨_, _, e, rfl, rfl, rfl⟩), by simp, ?_, by simp⟩
    rintro k i ⟨e', h, rfl, rfl⟩
    cases h
    refine ⟨?_, by simp⟩
    rintro k i ⟨e', h, rfl, rfl⟩
    cases h
    exact ⟨rfl, rfl⟩
  | panic p =>
    refine ⟨.inr (.inr ⟨p, rfl⟩), by simp, by simp, ?_⟩
    rintro _ h _ k
    rw [h] at k; cases k; rfl

/-- `a<`: a text, and a `<`. -/
private theorem ex_lt : Spec.Scan {} "a<".toList { top := { kids := [.text ['a']] }, last := .text .top, spot := .lt } :=
  .lt (u := ['a']) (.text (u := []) (w := ['a']) .nil rfl rfl (by simp) (by simp) (by decide)) (by decide)

private theorem ex_lastAt : Spec.LastAt {} "a<".toList 0 := by
  have h : Spec.Scan {} ['a'] _ := .text (u := []) (w := ['a']) .nil rfl rfl (by simp) (by simp) (by decide)
  exact .lt h (by decide) (.text (u := []) (w := ['a']) .nil rfl (by simp) (by simp) (by decide))

/-- The `<` at the end of `a<` is reported where the text begins. -/
example : ∃ e, Doc.parse "a<".toList {} = .err e ∧ e.kind = .unclosedTag "UnkownTag".toList ∧ e.region.index = 0 :=
  (c54_errors _ _ _ _).2 (.inr (.lt ex_lt rfl (.inr rfl) ex_lastAt))

/-- But a `<` before something that is no markup is reported where it is. -/
example : ∃ e, Doc.parse "a<1b".toList {} = .err e ∧ e.kind = .wrongTag ['1'] ∧ e.region.index = 1 :=
  (c54_errors _ _ _ _).2 (.inl ⟨"a<".toList, '1', ['b'], rfl, .lt ex_lt rfl rfl (by decide)⟩)

/-- `<p`: the text ends inside a name. -/
example : Doc.parse "<p".toList {} = .panic .eofMeta := by
  refine (c54_panics _ _ _).2 (.name ⟨_, ['p'], .tag (u := ['<']) (n := ['p']) (t := []) (.lt .nil (by decide)) rfl rfl (by decide) (by simp) ?_⟩ rfl)
  exact ⟨['>'], by decide, [], false, TagRest.close (g := []) (by decide)⟩

/-- An element that is not closed. -/
example : ∃ e, Doc.parse "<p>a".toList {} = .err e ∧ e.kind = .unclosedTag ['p'] ∧ e.region.index = 0 := by
  have h0 : Spec.Scan {} ['<'] { spot := .lt } := .lt (.nil) (by decide)
  have h1 := Spec.Scan.start (n := ['p']) (t := ['>']) h0 rfl rfl (by decide)
    ⟨'>', rfl, by decide⟩ (TagRest.close (g := []) (by simp [isGap])) (by decide) (by decide)
  have h2 := Spec.Scan.text (w := ['a']) h1 rfl rfl (by simp) (by simp) (by decide)
  have hin : Spec.Inside {} (['<'] ++ ['p']) _ (.tag ['p'] []) := .tag (n := ['p']) (t := []) h0 rfl rfl (by decide) (by simp)
    ⟨['>'], by decide, [], false, TagRest.close (g := []) (by decide)⟩
  have h3 : ¬ EndsInName {} "<p>a".toList := fun ⟨_, _, h⟩ => c53_unique.2.1 h2 _ _ h
  refine (c54_errors _ _ _ _).2 (.inr (.element (ns := []) rfl (.inl ⟨_, h2, rfl⟩) ⟨['<'], "p>a".toList, _, rfl, rfl, h0, rfl, rfl, ?_⟩ h3))
  intro x y hx hne T hT
  rcases x with _ | ⟨a, _ | ⟨b, _ | ⟨c, x⟩⟩⟩
  · exact absurd rfl hne
  · simp at hx; obtain ⟨rfl, rfl⟩ := hx
    exact absurd hin (c53_unique.2.1 hT _ _)
  · simp at hx; obtain ⟨rfl, rfl, rfl⟩ := hx
    rw [c53_unique.1 hT _ h1]; decide
  · simp at hx; obtain ⟨rfl, rfl, rfl, hx⟩ := hx
    obtain rfl := hx.1
    rw [c53_unique.1 hT _ h2]; decide

end Rphtml
