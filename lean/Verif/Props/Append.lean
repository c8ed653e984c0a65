import Verif.Proofs.Prefix
import Verif.Proofs.DocOf
import Verif.Props.Accepted

/-!
# C47: one document after another

A text that is accepted on its own is read the same way when something follows it, and what follows is read as if it stood
alone.
-/

namespace Rphtml
open Spec

theorem Before.nil {ps : List PNode} {F G : Frame} (h : Before ps F [] G []) : G.kids = ps ++ F.kids := by
  unfold Before before at h
  simp only [List.cons.injEq, and_true] at h
  rw [h]

/-- **C47.**  Without the three repairs: if `s` is a document that leaves no svg or math open and has no self-closed doctype
at its top level, and `u` does not go on with a text that ends `s`, then the document in `s ++ u` is the document in `s`
followed by the document in `u`; and there is none exactly if there is none in `u`. -/
theorem c47_append {o : ParseOptions} {s u : Str} {ps : List PNode} (h1 : o.autoFixUnclosedTag = false)
    (h2 : o.autoFixUnexpectedEndtag = false) (h3 : o.autoFixUnescapedLt = false)
    (hs : docOf s o = some ps) (hc : ctxNodes none ps = none) (hd : ∀ n as, .doctype n as true ∉ ps)
    (hu : ∀ w, ps.getLast? = some (.text w) → u = [] ∨ u.head? = some '<') :
    docOf (s ++ u) o = (docOf u o).map (ps ++ ·) := by
  obtain ⟨a, ha, hf, hr⟩ := (docOf_iff (complete_of h1)).1 hs
  obtain ⟨hout, hrest⟩ := (final_iff o a).1 hf
  have hrest : a.rest = [] := by
    rcases hrest with q | q
    · exact q
    · rw [h1] at q; cases q
  have hk : a.top.kids = ps := by
    rw [← hr, result_eq, hrest]; rfl
  have hw := WfInv.run ha
  have hsp : a.sp = none := by
    have := hw.ctx
    rw [hrest] at this
    simp only [ctxEnd, hk, hc, ctxOf, Option.map_eq_none_iff] at this
    exact this
  have hov : a.over = false := by
    cases q : a.over with
    | false => rfl
    | true =>
      obtain ⟨_, n, as, k⟩ := OverInv.run ha q
      rw [hk] at k
      exact absurd k (hd n as)
  have hnil : docOf [] o = some [] := docOf_machine (a := {}) rfl rfl
  have main : OptRel (Sim (Before ps) o) (arun o {} u) (arun o a u) ∨ u = [] := by
    cases hmo : a.mode with
    | wait l =>
      left
      have := arun_before ha hov hsp hrest (by rw [hmo]; exact .wait _ _ h3 h2) u
      rwa [hk] at this
    | text p =>
      have hl := hw.last
      unfold LastFits at hl
      rw [hmo] at hl
      cases p with
      | nested => exact absurd hl.1 (by rw [h3]; simp)
      | top =>
        obtain ⟨xs, w, hx⟩ := hl
        rcases hu w (by rw [← hk, hx]; simp) with q | q
        · exact .inr q
        · left
          cases u with
          | nil => cases q
          | cons c u =>
            simp only [List.head?_cons, Option.some.injEq] at q
            subst q
            have := arun_before_lt ha hov hsp hrest hout h3 h2 u
            rwa [hk] at this
    | _ => rw [hmo] at hout; cases hout
  rcases main with hm | rfl
  · have happ : arun o {} (s ++ u) = arun o a u := by rw [arun_append, ha]; rfl
    cases q1 : arun o {} u with
    | none =>
      rw [q1] at hm
      cases q2 : arun o a u with
      | some b => rw [q2] at hm; cases hm
      | none =>
        have k1 : docOf u o = none := by
          cases k : docOf u o with
          | none => rfl
          | some qs => obtain ⟨b, hb, _⟩ := (docOf_iff (complete_of h1)).1 k; rw [q1] at hb; cases hb
        have k2 : docOf (s ++ u) o = none := by
          cases k : docOf (s ++ u) o with
          | none => rfl
          | some qs => obtain ⟨b, hb, _⟩ := (docOf_iff (complete_of h1)).1 k; rw [happ, q2] at hb; cases hb
        rw [k1, k2]; rfl
    | some b =>
      rw [q1] at hm
      cases q2 : arun o a u with
      | none => rw [q2] at hm; cases hm
      | some b' =>
        rw [q2] at hm
        have hm : Sim (Before ps) o b b' := hm
        have hfin := hm.final (Before.rel ps)
        obtain ⟨F, G, kK, kF, kG⟩ := hm.result (Before.rel ps)
        cases hbf : b.final o with
        | true =>
          rw [docOf_machine q1 hbf, docOf_machine (happ.trans q2) (by rw [← hfin, hbf])]
          rw [kF, kG, kK.nil]; rfl
        | false =>
          have k1 : docOf u o = none := by
            cases k : docOf u o with
            | none => rfl
            | some qs =>
              obtain ⟨x, hx, hy, _⟩ := (docOf_iff (complete_of h1)).1 k
              rw [q1] at hx; cases hx; rw [hbf] at hy; cases hy
          have k2 : docOf (s ++ u) o = none := by
            cases k : docOf (s ++ u) o with
            | none => rfl
            | some qs =>
              obtain ⟨x, hx, hy, _⟩ := (docOf_iff (complete_of h1)).1 k
              rw [happ, q2] at hx; cases hx; rw [← hfin, hbf] at hy; cases hy
          rw [k1, k2]; rfl
  · rw [List.append_nil, hs, hnil]; simp

/-- A text followed by another document. -/
example : docOf ("<p>a</p>b".toList ++ "<i>c</i>".toList) {} =
    some [.elem ['p'] [] false none [.text ['a']] (some ['p']), .text ['b'],
      .elem ['i'] [] false none [.text ['c']] (some ['i'])] := by
  have h : docOf "<p>a</p>b".toList {} = some [.elem ['p'] [] false none [.text ['a']] (some ['p']), .text ['b']] := by
    decide +kernel
  rw [c47_append rfl rfl rfl h (by decide +kernel) (by simp) (by intros; right; rfl)]
  decide +kernel

/-- An unfinished document after another one. -/
example : docOf ("<p>a</p>".toList ++ "</i>".toList) {} = none := by
  have h : docOf "<p>a</p>".toList {} = some [.elem ['p'] [] false none [.text ['a']] (some ['p'])] := by
    decide +kernel
  rw [c47_append rfl rfl rfl h (by decide +kernel) (by simp) (by simp)]
  decide +kernel

/-- The conditions are needed: a self-closed doctype closes the document. -/
example : docOf "<!DOCTYPE a/>".toList {} = some [.doctype "DOCTYPE".toList [{ key := some ['a'] }] true] ∧
    docOf "b".toList {} = some [.text ['b']] ∧ docOf ("<!DOCTYPE a/>".toList ++ "b".toList) {} = none := by decide +kernel

/-- The conditions are needed: an svg closed in other letters stays open. -/
example : docOf "<svg></SVG>".toList {} = some [.elem "svg".toList [] false none [] (some "SVG".toList)] ∧
    docOf "<b/>".toList {} = none ∧
    docOf ("<svg></SVG>".toList ++ "<b/>".toList) {} =
      some [.elem "svg".toList [] false none [] (some "SVG".toList), .elem ['b'] [] true none [] none] := by decide +kernel

end Rphtml
