import Verif.Proofs.ErrIndex
import Verif.Props.Region

/-! # C24: errors are prefix-stable -/

namespace Rphtml
open Spec

/-- The end-of-input check only ever reports unclosed tags. -/
theorem eof_err_kind {d : Doc} {ctx : Str} {e : ParseError} (h : d.eof ctx = .err e) :
    ∃ s, e.kind = .unclosedTag s := by
  unfold Doc.eof at h
  simp only [Res.bind_eq] at h
  cases hc : d.eofChain ctx with
  | ok d1 =>
    rw [hc] at h
    simp only [Res.bind] at h
    cases hs : d1.eofState ctx with
    | ok d2 => rw [hs] at h; simp at h
    | err e' =>
      rw [hs] at h
      simp only [Res.err.injEq] at h
      subst h
      unfold Doc.eofState at hs
      repeat' split at hs
      all_goals first
        | (simp at hs; done)
        | (simp only [createParseError, Res.err.injEq] at hs; exact ⟨_, by rw [← hs]⟩)
    | panic s => rw [hs] at h; simp at h
  | err e' =>
    rw [hc] at h
    simp only [Res.bind, Res.err.injEq] at h
    subst h
    unfold Doc.eofChain at hc
    repeat' split at hc
    all_goals first
      | (simp at hc; done)
      | (simp only [createParseError, Res.err.injEq] at hc; exact ⟨_, by rw [← hc]⟩)
  | panic s => rw [hc] at h; simp at h

/-- **C24**: if the characters of `p` are rejected while they are read, every extension is rejected
with the same error (kind, index, line and column). -/
theorem c24_read_errors_prefix_stable (p t : Str) (opts : ParseOptions) (e : ParseError)
    (h : (Doc.new opts).run p p = .err e) : Doc.parse (p ++ t) opts = .err e := by
  have hi := run_err h (Nat.zero_le _)
  have hr := run_rectx (Doc.new opts) p p (p ++ t)
  rw [h] at hr
  have hp : (Doc.new opts).position = 0 := rfl
  have he : Res.rectx (α := Doc) (p ++ t) (.err e) = .err e := by
    simp only [Res.rectx, createParseError]
    rw [region_append _ _ _ (by omega)]
    have h2 := run_rectx (Doc.new opts) p p p
    rw [h] at h2
    exact h2
  rw [he] at hr
  unfold Doc.parse
  rw [Res.bind_eq, run_append, ← hr]
  rfl

/-- **C24** in terms of the public API: an error that is not "unclosed tag at the end of the input" is
stable under extension of the input. -/
theorem c24_errors_prefix_stable (p t : Str) (opts : ParseOptions) (e : ParseError)
    (h : Doc.parse p opts = .err e) (hk : ∀ s, e.kind ≠ .unclosedTag s) :
    Doc.parse (p ++ t) opts = .err e := by
  refine c24_read_errors_prefix_stable p t opts e ?_
  unfold Doc.parse at h
  simp only [Res.bind_eq] at h
  cases hr : (Doc.new opts).run p p with
  | ok d =>
    rw [hr] at h
    simp only [Res.bind] at h
    cases he : d.eof p with
    | ok d' => rw [he] at h; simp at h
    | err e' =>
      rw [he] at h
      simp only [Res.err.injEq] at h
      subst h
      obtain ⟨s, hs⟩ := eof_err_kind he
      exact absurd hs (hk s)
    | panic s => rw [he] at h; simp at h
  | err e' => rw [hr] at h; simpa using h
  | panic s => rw [hr] at h; simp at h

/-- Non-vacuity: a rejected prefix, with an error on the second line. -/
example : ∃ e, Doc.parse "a\n</b>".toList {} = .err e ∧ e.kind = .wrongEndTag ['b']
    ∧ e.region = ⟨5, 2, 4⟩ := ⟨_, rfl, rfl, rfl⟩

end Rphtml
