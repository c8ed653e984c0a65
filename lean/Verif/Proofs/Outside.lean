import Verif.Spec.Gap
import Verif.Proofs.DocOf

/-!
# Where a text ends, in terms of the machine
-/

namespace Rphtml
open Spec

theorem Abs.outside {d : Doc} {a : AState} (h : Abs d a) : (d.handle = .wait ∨ d.handle = .text) ↔ a.mode.outside = true := by
  have hm := h.mode
  cases hmo : a.mode with
  | inTag isDoc t =>
    rw [hmo] at hm
    have h1 := hm.1
    constructor
    · rintro (q | q) <;> rw [q] at h1 <;> cases h1
    · intro q; cases q
  | _ =>
    rw [hmo] at hm
    have h1 := hm.1
    rw [h1]; simp [Mode.outside]

theorem run_machine {s : Str} {o : ParseOptions} {d : Doc} (h : (Doc.new o).run s s = .ok d) :
    ∃ a, arun o {} s = some a ∧ Abs d a ∧ Ctl d := by
  obtain ⟨a, h1, h2⟩ := (Abs.run (ctx := s) s [] (Doc.new o) {} Reach.init (Abs.new o)).1 d h
  obtain ⟨d', k1, k2, k3⟩ := (Abs.run (ctx := s) s [] (Doc.new o) {} Reach.init (Abs.new o)).2 a h1
  rw [h] at k1; cases k1
  exact ⟨a, h1, h2, k3.ctl⟩

theorem machine_run {s : Str} {o : ParseOptions} {a : AState} (h : arun o {} s = some a) :
    ∃ d, (Doc.new o).run s s = .ok d ∧ Abs d a ∧ Ctl d := by
  obtain ⟨d', k1, k2, k3⟩ := (Abs.run (ctx := s) s [] (Doc.new o) {} Reach.init (Abs.new o)).2 a h
  exact ⟨d', k1, k2, k3.ctl⟩

theorem outside_iff {s : Str} {o : ParseOptions} : outside s o = true ↔ ∃ a, arun o {} s = some a ∧ a.mode.outside = true := by
  unfold Spec.outside
  constructor
  · intro h
    cases hr : (Doc.new o).run s s with
    | ok d =>
      rw [hr] at h
      obtain ⟨a, h1, h2, _⟩ := run_machine hr
      exact ⟨a, h1, h2.outside.1 (of_decide_eq_true h)⟩
    | err e => rw [hr] at h; cases h
    | panic x => rw [hr] at h; cases h
  · rintro ⟨a, h1, h2⟩
    obtain ⟨d, h3, h4, _⟩ := machine_run h1
    rw [h3]
    exact decide_eq_true (h4.outside.2 h2)

theorem Abs.code_inStart {d : Doc} {a : AState} (hd : Ctl d) (h : Abs d a) (hc : d.codeIn = .tag) : a.mode.inStart = true := by
  have hm := h.mode
  have hs := hd.hs
  unfold HandleOk at hs
  cases hmo : a.mode with
  | tagName pc => rfl
  | inTag isDoc t =>
    rw [hmo] at hm
    obtain ⟨_, h2, _⟩ := hm
    rw [hc] at h2
    cases isDoc with
    | true => simp at h2
    | false => rfl
  | wait l => rw [hmo] at hm; rw [hm.1, hc] at hs; simp at hs
  | text p => rw [hmo] at hm; rw [hm.1, hc] at hs; simp at hs
  | lt l => rw [hmo] at hm; rw [hm.1, hc] at hs; simp at hs
  | bang D pc => rw [hmo] at hm; rw [hm.1, hc] at hs; simp at hs
  | comment cd pc => rw [hmo] at hm; rw [hm.1, hc] at hs; simp at hs
  | doctypeName pc => rw [hmo] at hm; rw [hm.1, hc] at hs; simp at hs
  | tagEnd pc ret => rw [hmo] at hm; rw [hm.1, hc] at hs; simp at hs
  | raw m pc =>
    rw [hmo] at hm; rw [hm.1, hc] at hs
    obtain ⟨_, _, m', _, _, h5, _⟩ := hs
    exfalso
    revert h5
    unfold rawCode
    repeat' split
    all_goals simp

theorem endsInStartTag_iff {s : Str} {o : ParseOptions} :
    endsInStartTag s o = true ↔ ∃ a, arun o {} s = some a ∧ a.mode.inStart = true := by
  unfold endsInStartTag
  constructor
  · intro h
    cases hr : (Doc.new o).run s s with
    | ok d =>
      rw [hr] at h
      obtain ⟨a, h1, h2, h3⟩ := run_machine hr
      exact ⟨a, h1, h2.code_inStart h3 (of_decide_eq_true h)⟩
    | err e => rw [hr] at h; cases h
    | panic x => rw [hr] at h; cases h
  · rintro ⟨a, h1, h2⟩
    obtain ⟨d, h3, h4, h5⟩ := machine_run h1
    rw [h3]
    exact decide_eq_true (h4.inStart_code h5 h2)

theorem complete_iff {s : Str} {o : ParseOptions} :
    complete s o ↔ (o.autoFixUnclosedTag = true → ∀ a, arun o {} s = some a → a.mode.inStart = false) := by
  unfold complete
  constructor
  · intro h ho a ha
    have := h ho
    cases hi : a.mode.inStart with
    | false => rfl
    | true => rw [endsInStartTag_iff.2 ⟨a, ha, hi⟩] at this; cases this
  · intro h ho
    cases hi : endsInStartTag s o with
    | false => rfl
    | true =>
      obtain ⟨a, h1, h2⟩ := endsInStartTag_iff.1 hi
      rw [h ho a h1] at h2; cases h2

/-- No document: the machine stops, or the text ends too early. -/
theorem docOf_none {s : Str} {o : ParseOptions} (hc : complete s o) (h : ∀ a, arun o {} s = some a → a.final o = false) :
    docOf s o = none := by
  cases hd : docOf s o with
  | none => rfl
  | some ps =>
    obtain ⟨a, h1, h2, _⟩ := (docOf_iff hc).1 hd
    rw [h a h1] at h2; cases h2

/-- No document inside a comment or the like. -/
theorem docOf_pending {s : Str} {o : ParseOptions} {a : AState} (h : arun o {} s = some a) (h1 : a.mode.outside = false)
    (h2 : a.mode.inStart = false) : docOf s o = none := by
  refine docOf_none (complete_iff.2 fun _ b hb => ?_) fun b hb => ?_
  · rw [h] at hb; cases hb; exact h2
  · rw [h] at hb; cases hb
    cases hf : a.final o with
    | false => rfl
    | true => rw [((final_iff o a).1 hf).1] at h1; cases h1

/-- No document when the machine stops. -/
theorem docOf_stop {s : Str} {o : ParseOptions} (h : arun o {} s = none) : docOf s o = none :=
  docOf_none (complete_iff.2 fun _ b hb => by rw [h] at hb; cases hb) fun b hb => by rw [h] at hb; cases hb

end Rphtml
