import Verif.Spec.Viable
import Verif.Proofs.Viable
import Verif.Props.Stops

/-!
# C51: errors are reported as soon as they are certain, except in end tags
-/

namespace Rphtml
open Spec

theorem maybeEnd_iff {cs : Bool} {n k : Str} (hn : TagNameOk n) : maybeEnd cs n k ↔ ∃ w, closes cs n (k ++ w) := by
  have pre : ∀ a b : Str, (if cs then a <+: b else fold a <+: fold b) ↔ ∃ z, sameText cs (a ++ z) b := by
    intro a b
    unfold sameText
    cases cs
    · simp only [Bool.false_eq_true, if_false, lowerAll_eq_fold]
      constructor
      · rintro ⟨z, hz⟩
        refine ⟨b.drop a.length, ?_⟩
        have hl : (fold a).length = a.length := by unfold fold; simp
        have : fold (b.drop a.length) = z := by
          have := congrArg (List.drop a.length) hz
          rw [← hl, List.drop_left, hl] at this
          rw [this]; unfold fold; rw [List.map_drop]
        have happ : ∀ x y : Str, fold (x ++ y) = fold x ++ fold y := by intro x y; unfold fold; simp
        rw [happ, this, hz]
      · rintro ⟨z, hz⟩
        have happ : ∀ x y : Str, fold (x ++ y) = fold x ++ fold y := by intro x y; unfold fold; simp
        exact ⟨fold z, by rw [← happ]; exact hz⟩
    · simp only [if_true]
      exact ⟨fun ⟨z, hz⟩ => ⟨z, hz⟩, fun ⟨z, hz⟩ => ⟨z, hz⟩⟩
  unfold maybeEnd
  rw [pre]
  constructor
  · rintro (h | ⟨z, hz⟩)
    · exact ⟨[], by rwa [List.append_nil]⟩
    · refine ⟨z, ?_⟩
      rw [closes_iff]
      have := trimEnd_append (a := k ++ z) (w := []) (by simp) (sameText_last hz hn)
      rw [List.append_nil] at this
      rw [this]; exact hz
  · rintro ⟨w, h⟩
    rw [closes_iff] at h
    obtain ⟨z, h1, h2⟩ := trimEnd_split (k ++ w)
    rcases List.append_eq_append_iff.1 h1 with ⟨y, y1, y2⟩ | ⟨y, y1, y2⟩
    · exact .inr ⟨y, by rw [← y1]; exact h⟩
    · refine .inl ?_
      rw [closes_iff, y1, trimEnd_append (fun x hx => ?_) (sameText_last h hn)]
      · exact h
      · exact h2 x (by rw [y2]; simp [hx])

theorem readable_iff {u : Str} {o : ParseOptions} : readable u o = true ↔ ∃ a, arun o {} u = some a := by
  unfold readable
  constructor
  · intro h
    cases hr : (Doc.new o).run u u with
    | ok d =>
      obtain ⟨a, h1, _⟩ := run_machine hr
      exact ⟨a, h1⟩
    | err e => rw [hr] at h; cases h
    | panic x => rw [hr] at h; cases h
  · rintro ⟨a, h1⟩
    obtain ⟨d, h3, _⟩ := machine_run h1
    rw [h3]

theorem afterLt_machine {u : Str} {o : ParseOptions} : afterLt u o = true ↔ ∃ a l, arun o {} u = some a ∧ a.mode = .lt l := by
  rw [afterLt_iff]
  constructor
  · rintro ⟨d, h, hh⟩
    obtain ⟨a, h1, h2, _⟩ := run_machine h
    have hm := h2.mode
    cases hmo : a.mode with
    | lt l => exact ⟨a, l, h1, hmo⟩
    | inTag isDoc t =>
      rw [hmo] at hm
      have := hm.1
      rw [hh] at this; cases this
    | _ =>
      rw [hmo] at hm
      have := hm.1
      rw [hh] at this; cases this
  · rintro ⟨a, l, h1, h2⟩
    obtain ⟨d, h3, h4, _⟩ := machine_run h1
    have hm := h4.mode
    rw [h2] at hm
    exact ⟨d, h3, hm.1⟩

/-- What is known of the open elements after a `<`. -/
theorem lt_machine {u : Str} {o : ParseOptions} {a : AState} {l : Last} (h : arun o {} u = some a) (hl : a.mode = .lt l) :
    openNames u o = frameNames a.top a.rest ∧ notClosed u o = !a.over := by
  obtain ⟨d, h3, h4, _⟩ := machine_run h
  have hr : Ran o u d := h3
  have hm := h4.mode
  rw [hl] at hm
  obtain ⟨_, x, cs, h1, h2, _⟩ := hm
  have := Zip.names d.heap.cell (fun _ => rfl) cs x a.top a.rest _ _ h2
  rw [hr.openNames, hr.notClosed]
  rcases h1 with ⟨k1, k2, _⟩ | ⟨k1, k2, k3⟩
  · rw [k2, this, k1]; exact ⟨rfl, rfl⟩
  · rw [k2, k1, ← this, k3]; exact ⟨rfl, rfl⟩

theorem stuck_iff {u : Str} {o : ParseOptions} {a : AState} (h : arun o {} u = some a) : Stuck o a ↔ deadEndTag u o ∨ afterEnd u o := by
  constructor
  · intro hs
    have hb := Began.run _ u a rfl h
    unfold Stuck at hs
    unfold Began at hb
    cases hm : a.mode with
    | tagEnd pc r =>
      rw [hm] at hs hb
      obtain ⟨hg, t, b, l, e, k1, k2, k3, k4, k5⟩ := hb
      refine .inl ⟨hs.1, t, pc, e, afterLt_machine.2 ⟨b, l, k1, k2⟩, hg, ?_⟩
      intro n ns hn hc
      rw [(lt_machine k1 k2).1] at hn
      have hst := (WfInv.run k1).stack
      cases hr : b.rest with
      | nil => rw [hr] at hn; cases hn
      | cons g gs =>
        rw [hr] at hn hst
        simp only [frameNames, List.cons.injEq] at hn
        rw [← hn.1] at hc
        obtain ⟨w, hw⟩ := (maybeEnd_iff hst.1).1 hc
        exact hs.2 g gs w (by rw [k4, hr]) (by rw [k3]; exact hw)
    | lt l =>
      rw [hm] at hs
      exact .inr ⟨u, afterLt_machine.2 ⟨a, l, h, hm⟩, by rw [(lt_machine h hm).2, hs.1]; rfl, .inl ⟨rfl, hs.2⟩⟩
    | bang D pc =>
      rw [hm] at hs hb
      obtain ⟨_, t, b, l, r, e, k1, k2, k3⟩ := hb
      exact .inr ⟨t, afterLt_machine.2 ⟨b, l, k1, k2⟩, by rw [(lt_machine k1 k2).2, ← k3, hs]; rfl, .inr ⟨r, e⟩⟩
    | _ => rw [hm] at hs; exact hs.elim
  · rintro (⟨ho, t, k, rfl, ht, hg, hn⟩ | ⟨t, ht, hc, hor⟩)
    · obtain ⟨b, l, k1, k2⟩ := afterLt_machine.1 ht
      have hb : isAlpha '/' = false := by decide
      have h1 : arun o {} (t ++ ['/']) = some _ :=
        arun_snoc k1 (by simp only [arun, astep, k2, hb, if_true, if_false, Bool.false_eq_true]; rfl)
      have h2 := arun_snoc h1 (arun_tagEnd (o := o) k [] _ rfl hg)
      rw [List.append_assoc] at h2
      have h2 : arun o {} (t ++ '/' :: k) = _ := h2
      rw [h] at h2
      simp only [Option.some.injEq] at h2
      subst h2
      refine ⟨ho, fun g gs w e hcl => ?_⟩
      have e : b.rest = g :: gs := e
      have hst := (WfInv.run k1).stack
      have hnm := (lt_machine k1 k2).1
      rw [e] at hst hnm
      exact hn _ _ hnm ((maybeEnd_iff hst.1).2 ⟨w, by simpa using hcl⟩)
    · obtain ⟨b, l, k1, k2⟩ := afterLt_machine.1 ht
      rw [(lt_machine k1 k2).2] at hc
      have hov : b.over = true := by simpa using hc
      rcases hor with ⟨rfl, q1, q2⟩ | ⟨r, rfl⟩
      · rw [h] at k1
        simp only [Option.some.injEq] at k1
        subst k1
        unfold Stuck
        rw [k2]
        exact ⟨hov, q1, q2⟩
      · have hb : isAlpha '!' = false := by decide
        have h1 : arun o {} (t ++ ['!']) = some { b with mode := .bang none [] } :=
          arun_snoc k1 (by simp only [arun, astep, k2, hb, if_true, if_false, Bool.false_eq_true]; rfl)
        have hs : Stuck o { b with mode := .bang none [] } := hov
        have h' : arun o {} ((t ++ ['!']) ++ r) = some a := by rw [List.append_assoc]; exact h
        rw [arun_append, h1] at h'
        exact Stuck.run r _ _ a h1 hs h'

/-- **C51** A text is the beginning of an accepted text exactly if the parser reads it without complaint and it does not end
in an end tag that closes nothing (or in markup after the document was closed).  So in every other place, the parser reports an
error at the first character after which the text can no longer be completed. -/
theorem c51_viable (u : Str) (o : ParseOptions) :
    (∃ v d, Doc.parse (u ++ v) o = .ok d) ↔ readable u o = true ∧ ¬ deadEndTag u o ∧ ¬ afterEnd u o := by
  constructor
  · rintro ⟨v, d, hp⟩
    obtain ⟨b, h1, h2⟩ := parse_machine hp
    rw [arun_append] at h1
    cases ha : arun o {} u with
    | none => rw [ha] at h1; cases h1
    | some a =>
      rw [ha] at h1
      have hns : ¬ Stuck o a := by
        intro hs
        have hm := (Stuck.run v u a b ha hs h1).of_mode
        rcases h2 with ⟨q, _⟩ | ⟨q, _⟩
        · rw [hm.2] at q; cases q
        · have := ((final_iff o b).1 q).1
          rw [hm.1] at this; cases this
      rw [stuck_iff ha] at hns
      exact ⟨readable_iff.2 ⟨a, ha⟩, fun q => hns (.inl q), fun q => hns (.inr q)⟩
  · rintro ⟨hr, h1, h2⟩
    obtain ⟨a, ha⟩ := readable_iff.1 hr
    obtain ⟨v, b, k1, k2, k3⟩ := Stuck.of_viable ha (fun hs => by
      rcases (stuck_iff ha).1 hs with q | q
      · exact h1 q
      · exact h2 q)
    have hd := docOf_machine k1 ((final_iff o b).2 ⟨k2, .inl k3⟩)
    unfold docOf at hd
    cases hp : Doc.parse (u ++ v) o with
    | ok d => exact ⟨v, d, hp⟩
    | err e => rw [hp] at hd; cases hd
    | panic x => rw [hp] at hd; cases hd

/-! Both sides occur: these beginnings can be completed (unfinished tags, declarations, raw text, end tags) … -/

example : readable "<p a='x".toList {} = true ∧ readable "<p><b>x</B".toList {} = true ∧ readable "<script>a</scr".toList {} = true ∧
    readable "<!doc".toList {} = true := by decide +kernel

example : (match Doc.parse ("<p a='x".toList ++ "'></p>".toList) {} with | .ok _ => true | _ => false) = true := by decide +kernel

example : maybeEnd false "title".toList "TI".toList ∧ maybeEnd false "b".toList "B ".toList ∧ ¬ maybeEnd true "b".toList "B".toList ∧
    ¬ maybeEnd false "b".toList "bx".toList := by
  refine ⟨.inr ⟨"tle".toList, by decide⟩, .inl (by decide), ?_, ?_⟩
  · rintro (h | ⟨z, hz⟩)
    · exact absurd h (by decide)
    · exact absurd hz (by simp)
  · rintro (h | ⟨z, hz⟩)
    · exact absurd h (by decide)
    · have := congrArg List.length hz
      simp [fold] at this

/-- … and these, though read without complaint, cannot: the parser reports the end tag only at its `>`, and what follows a
closed document only where a node would begin. -/
example : readable "<b></i".toList {} = true ∧ deadEndTag "<b></i".toList {} := by
  refine ⟨by decide +kernel, rfl, "<b><".toList, "i".toList, by decide, by decide +kernel, by decide, ?_⟩
  intro n ns hn
  have : openNames "<b><".toList {} = ["b".toList] := by decide +kernel
  rw [this] at hn
  simp only [List.cons.injEq] at hn
  rw [← hn.1]
  rintro (h | ⟨z, hz⟩)
  · exact absurd h (by decide)
  · have : fold "i".toList = ['i'] := by decide
    rw [this] at hz
    exact absurd hz (by simp [fold])

example : readable "<!DOCTYPE a/><!--".toList {} = false ∧ readable "<!DOCTYPE a/><!-".toList {} = true ∧
    afterEnd "<!DOCTYPE a/><!-".toList {} :=
  ⟨by decide +kernel, by decide +kernel, "<!DOCTYPE a/><".toList, by decide +kernel, by decide +kernel, .inr ⟨"-".toList, by decide⟩⟩

end Rphtml
