import Verif.Proofs.LoosePlace
import Verif.Props.EscapeVoid
import Verif.Props.OptionsJoin

/-!
# C20 and C22 for all combinations of options

Both are true of documents when it does not matter whether a text stands inside or behind an element without children, and whether
it is split.
-/

namespace Rphtml
open Spec

theorem inStart_of_outside {m : Mode} (h : m.outside = true) : m.inStart = false := by
  cases m <;> first | rfl | cases h

/-- What a run ends with, and a run that is like it. -/
theorem Loosely.doc {o : ParseOptions} {u : Bool} (hu : o.autoFixUnclosedTag = true → u = true) {s t : Str} {a a' : AState}
    (h1 : arun o {} s = some a) (h2 : arun { o with autoFixUnclosedTag := u } {} t = some a') (h : Loosely o a a') (hf : a.final o = true) :
    docOf s o = some a.result ∧ docOf t { o with autoFixUnclosedTag := u } = some a'.result ∧ a'.mode.outside = true ∧
      loose a'.result = loose a.result := by
  obtain ⟨f1, f2⟩ := (final_iff o a).1 hf
  have f1' : a'.mode.outside = true := by rw [← h.mode.outside, f1]
  refine ⟨docOf_machine h1 hf, docOf_machine h2 ((final_iff _ a').2 ⟨f1', ?_⟩), f1', h.result.symm⟩
  exact f2.imp (LStack.rel.name h.stack).2.1 hu

/-- **C22** with every combination of the other options: a stray end tag leaves the document as it was, except that it may split a
text or move it from the inside of a void or raw-text element behind it.  (In a document that
a self-closed doctype has closed `auto_fix_unclosed_tag` is needed, see below.) -/
theorem c22_loose {o : ParseOptions} {s e u : Str} (h1 : o.autoFixUnexpectedEndtag = true)
    (h2 : o.autoFixUnclosedTag = true ∨ notClosed s o = true) (h : outside s o = true) (he : '>' ∉ e)
    (hs : ∀ n, (openNames s o).head? = some n → ¬ sameName (trimEnd e) n) (hc : complete (s ++ u) o) :
    (docOf (s ++ (['<', '/'] ++ e ++ ['>']) ++ u) o).map loose = (docOf (s ++ u) o).map loose := by
  cases h3 : o.autoFixUnclosedTag with
  | true => rw [c22_stray_partial h1 h3 h he hs hc]
  | false =>
    obtain ⟨a, ha, hout⟩ := outside_iff.1 h
    have hr := stray_run ha hout h1 he hs
    simp only [h3, Bool.false_eq_true, if_false] at hr
    have hov : a.over = false := notClosed_machine ha hout (h2.resolve_left (by rw [h3]; simp))
    have hc' : ∀ t, complete t o := fun t => complete_iff.2 fun q => by rw [h3] at q; cases q
    have hw : WfInv o a := WfInv.run ha
    have hw' : WfInv o { a with mode := .wait .other } := WfInv.run hr
    have k1 : Loosely o a { a with mode := .wait .other } :=
      ⟨LStack.refl _ _, rfl, rfl, .out hout rfl, fun q => by rw [hov] at q; cases q⟩
    have k2 : Loosely o { a with mode := .wait .other } a :=
      ⟨LStack.refl _ _, rfl, rfl, .out rfl hout, fun q => by rw [hov] at q; cases q⟩
    have hu : o.autoFixUnclosedTag = true → o.autoFixUnclosedTag = true := id
    cases q : arun o a u with
    | some b =>
      obtain ⟨b', q', k⟩ := k1.run hu u hw hw' q
      have q' : arun o { a with mode := .wait .other } u = some b' := q'
      have r1 : arun o {} (s ++ u) = some b := by rw [arun_append, ha]; exact q
      have r2 : arun o {} (s ++ (['<', '/'] ++ e ++ ['>']) ++ u) = some b' := by rw [arun_append, hr]; exact q'
      cases f : b.final o with
      | true =>
        obtain ⟨d1, d2, _, d3⟩ := Loosely.doc hu r1 r2 k f
        rw [d1, show docOf _ o = _ from d2, Option.map_some, Option.map_some, d3]
      | false =>
        have f' : b'.final o = false := by
          rw [Bool.eq_false_iff] at f ⊢
          intro g
          obtain ⟨g1, g2⟩ := (final_iff o b').1 g
          exact f ((final_iff o b).2 ⟨by rw [k.mode.outside, g1], g2.imp_left (LStack.rel.name k.stack).2.2⟩)
        rw [docOf_none (hc' _) fun x hx => by rw [r2] at hx; cases hx; exact f',
          docOf_none (hc' _) fun x hx => by rw [r1] at hx; cases hx; exact f]
    | none =>
      cases q' : arun o { a with mode := .wait .other } u with
      | some b' =>
        obtain ⟨b, q2, _⟩ := k2.run hu u hw' hw q'
        exact absurd (q.symm.trans q2) (by simp)
      | none =>
        rw [docOf_stop (s := s ++ u) (by rw [arun_append, ha]; exact q),
          docOf_stop (s := s ++ (['<', '/'] ++ e ++ ['>']) ++ u) (by rw [arun_append, hr]; exact q')]

/-- The case left out of `c22_joined_partial`. -/
example : (docOf ("<br>".toList ++ (['<', '/'] ++ ['b'] ++ ['>']) ++ "<1".toList) { autoFixUnexpectedEndtag := true, autoFixUnescapedLt := true }).map loose =
      (docOf ("<br>".toList ++ "<1".toList) { autoFixUnexpectedEndtag := true, autoFixUnescapedLt := true }).map loose ∧
    docOf ("<br>".toList ++ "<1".toList) { autoFixUnexpectedEndtag := true, autoFixUnescapedLt := true } ≠ none :=
  ⟨c22_loose rfl (.inr (by decide +kernel)) (by decide +kernel) (by decide) (by decide +kernel) (by decide +kernel), by decide +kernel⟩

/-- Behind a self-closed doctype, which closes the document, the stray end tag ends the last text there can be. -/
example : docOf ("<!DOCTYPE a/><1".toList ++ (['<', '/'] ++ ['b'] ++ ['>']) ++ ['x']) { autoFixUnexpectedEndtag := true, autoFixUnescapedLt := true, allowSelfClosing := true } = none ∧
    docOf ("<!DOCTYPE a/><1".toList ++ ['x']) { autoFixUnexpectedEndtag := true, autoFixUnescapedLt := true, allowSelfClosing := true } ≠ none := by decide +kernel

/-- **C20** for all options: a document that is accepted is accepted under more permissive options, as a document that differs at
most in where texts are split and in whether they stand inside or behind a void or raw-text element. -/
theorem c20_loose {o o' : ParseOptions} (ho : morePermissive o o') {s : Str} {ps : List PNode} (hc : complete s o)
    (h : docOf s o = some ps) : ∃ ps', docOf s o' = some ps' ∧ loose ps' = loose ps := by
  obtain ⟨a, ha, hf, rfl⟩ := (docOf_iff hc).1 h
  have hu : o.autoFixUnclosedTag = true → o'.autoFixUnclosedTag = true := ho.2.2.2.1
  obtain ⟨b, hb, hab⟩ := Loosely.run hu s (a := {}) (a' := {}) ⟨LStack.refl _ _, rfl, rfl, .sim (.refl _), fun _ q => q⟩
    (WfInv.init o) (WfInv.init _) ha
  obtain ⟨_, d2, d3, d4⟩ := Loosely.doc hu ha hb hab hf
  refine ⟨b.result, ?_, d4⟩
  refine c20_conservative_partial (o := { o with autoFixUnclosedTag := o'.autoFixUnclosedTag })
    ⟨ho.1, ho.2.1, ho.2.2.1, id, ho.2.2.2.2.1, ho.2.2.2.2.2⟩ (.inr rfl) ?_ d2
  refine complete_iff.2 fun _ x hx => ?_
  rw [hb] at hx
  cases hx
  exact inStart_of_outside d3

/-- The case left out of `c20_joined_partial`. -/
example : ∃ ps', docOf "<br></b><1".toList { autoFixUnexpectedEndtag := true, autoFixUnescapedLt := true, autoFixUnclosedTag := true } = some ps' ∧
    loose ps' = loose [.elem ['b', 'r'] [] false none [] none, .text "&lt;1".toList] :=
  c20_loose (o := { autoFixUnexpectedEndtag := true, autoFixUnescapedLt := true }) (by decide) (complete_of rfl) (by decide +kernel)

end Rphtml
