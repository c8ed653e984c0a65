import Verif.Proofs.Hoist
import Verif.Proofs.Scan
import Verif.Props.Fixes

/-!
# C23: a `<` that cannot start markup, also behind elements without children

Behind a void or raw-text element the text goes into that element.  Otherwise the document is the one with `&lt;`; behind a void
element its source text is the same, too.
-/

namespace Rphtml
open Spec

variable {R : Bool}

theorem Apart.inStart {o : ParseOptions} {a a' : AState} (h : Apart R o a a') : a.mode.inStart = a'.mode.inStart := by
  rcases h with ⟨_, _, _, _, _, _, _, _, _, rfl, hp⟩ | h
  · exact hp.inStart
  · exact h.mode.inStart

theorem docOf_apart {o : ParseOptions} {s t : Str} (h : OptRel (Apart R o) (arun o {} s) (arun o {} t)) (hc : complete s o) :
    (docOf s o = none ∧ docOf t o = none) ∨
      ∃ ps ps', docOf s o = some ps ∧ docOf t o = some ps' ∧ hoistNodes R ps = hoistNodes R ps' := by
  cases h1 : arun o {} s with
  | none =>
    cases h2 : arun o {} t with
    | none => exact .inl ⟨docOf_stop h1, docOf_stop h2⟩
    | some b => rw [h1, h2] at h; exact h.elim
  | some a =>
    cases h2 : arun o {} t with
    | none => rw [h1, h2] at h; exact h.elim
    | some b =>
      rw [h1, h2] at h
      have h : Apart R o a b := h
      have hc' : complete t o := complete_iff.2 fun q x hx => by
        rw [h2] at hx; cases hx
        rw [← h.inStart]
        exact complete_iff.1 hc q a h1
      have hf := h.final
      cases q : a.final o with
      | false =>
        left
        exact ⟨docOf_none hc fun x hx => by rw [h1] at hx; cases hx; exact q,
          docOf_none hc' fun x hx => by rw [h2] at hx; cases hx; rw [← hf]; exact q⟩
      | true =>
        exact .inr ⟨_, _, docOf_machine h1 q, docOf_machine h2 (by rw [← hf, q]), h.result h1⟩

/-- The runs part behind an element without children. -/
theorem escape_apart {o : ParseOptions} {a : AState} {c : Char} (h1 : o.autoFixUnescapedLt = true) (hov : a.over = false)
    (hm : a.mode = .wait .hole) {xs : List PNode} {n : Str} {as : List Attr} {ct e : Option Str}
    (hk : a.top.kids = xs ++ [.elem n as false ct [] e]) (hn : emptied R n ct e)
    (ha : isAlpha c = false) (hs : c ≠ '/') (hx : c ≠ '!') :
    OptRel (Apart R o) (arun o a ['<', c]) (arun o a (['&', 'l', 't', ';'] ++ [c])) := by
  have hne : o.autoFixUnescapedLt ≠ false := by rw [h1]; simp
  have hamp : ('&' : Char) ≠ '<' := by decide
  have hfill : ∀ w, modLast (PNode.modKids fun ks => ks ++ [PNode.text w]) a.top.kids = xs ++ [.elem n as false ct [.text w] e] := by
    intro w; rw [hk, modLast_append _ _ (by simp)]; rfl
  have hml : ∀ v w (ks : List PNode), modLast (PNode.addText w) (ks ++ [.text v]) = ks ++ [.text (v ++ w)] := by
    intro v w ks; rw [modLast_append _ _ (by simp)]; rfl
  have h2 : arun o a ['&', 'l', 't', ';'] = some { a with top := { a.top with kids := a.top.kids ++ [.text ['&', 'l', 't', ';']] }, mode := .text .top } := by
    have h3 : astep o a '&' = some { a.push (.text ['&']) with mode := .text .top } := by
      simp only [astep, hm, if_neg hamp, hov, Bool.false_eq_true, if_false]
    simp only [arun, h3]
    have := arun_more (o := o) (a := { a.push (.text ['&']) with mode := .text .top }) (p := .top) ['l', 't', ';'] rfl (by decide) (by simp)
    simp only [arun] at this
    rw [this]
    simp only [AState.more, AState.push, addTextAt, hml]
    rfl
  rw [arun_append, h2, Option.bind_some]
  by_cases hc : c = '<'
  · subst hc
    simp only [arun, astep, hm, if_true, ha, hs, hx, if_false, Bool.false_eq_true, if_neg hne]
    refine .inl ⟨xs, n, as, ct, e, ['&', 'l', 't', ';'], .lt (.text .top), hn, ?_, ?_, .lt⟩
    · simp only [AState.fill, hfill]
    · simp only [AState.fill, hk, List.append_assoc, List.singleton_append]
  · simp only [arun, astep, hm, if_true, ha, hs, hx, if_neg hc, if_false, Bool.false_eq_true, if_neg hne]
    refine .inl ⟨xs, n, as, ct, e, ['&', 'l', 't', ';'] ++ [c], .text .top, hn, ?_, ?_, .text⟩
    · simp only [AState.fill, hfill]; rfl
    · simp only [AState.fill, AState.more, hk, List.append_assoc, List.singleton_append, addTextAt]
      rw [show xs ++ [PNode.elem n as false ct [] e, .text ['&', 'l', 't', ';']] = (xs ++ [PNode.elem n as false ct [] e]) ++ [.text ['&', 'l', 't', ';']] by simp, hml]
      simp

/-- The documents of the two texts, behind an element without children. -/
theorem escape_docs {o : ParseOptions} {s u : Str} {c : Char} {a : AState} (h1 : o.autoFixUnescapedLt = true) (ha : arun o {} s = some a)
    (hov : a.over = false) (hm : a.mode = .wait .hole) {xs : List PNode} {n : Str} {as : List Attr} {ct e : Option Str}
    (hk : a.top.kids = xs ++ [.elem n as false ct [] e]) (hn : emptied R n ct e) (hc : ¬ c.isAlpha ∧ c ≠ '/' ∧ c ≠ '!')
    (hcomp : complete (s ++ '<' :: c :: u) o) :
    (docOf (s ++ '<' :: c :: u) o = none ∧ docOf (s ++ ['&', 'l', 't', ';'] ++ c :: u) o = none) ∨
      ∃ ps ps', docOf (s ++ '<' :: c :: u) o = some ps ∧ docOf (s ++ ['&', 'l', 't', ';'] ++ c :: u) o = some ps' ∧
        hoistNodes R ps = hoistNodes R ps' := by
  refine docOf_apart ?_ hcomp
  have e1 : s ++ '<' :: c :: u = s ++ ['<', c] ++ u := by simp
  have e2 : s ++ ['&', 'l', 't', ';'] ++ c :: u = s ++ (['&', 'l', 't', ';'] ++ [c]) ++ u := by simp
  have key := escape_apart (R := R) h1 hov hm hk hn (by rw [isAlpha_eq]; simpa using hc.1) hc.2.1 hc.2.2
  rw [e1, e2, arun_append, arun_append o (s ++ _), arun_append, arun_append o s, ha, Option.bind_some, Option.bind_some]
  cases q : arun o a ['<', c] with
  | none =>
    rw [q] at key
    cases q' : arun o a (['&', 'l', 't', ';'] ++ [c]) with
    | none => trivial
    | some b' => rw [q'] at key; exact key.elim
  | some b =>
    rw [q] at key
    cases q' : arun o a (['&', 'l', 't', ';'] ++ [c]) with
    | none => rw [q'] at key; exact key.elim
    | some b' =>
      rw [q'] at key
      exact Apart.run u (v := s ++ ['<', c]) key (by rw [arun_append, ha, Option.bind_some, q])

/-- **C23** without the exception for elements without children: the document with the `<` is read when the one with `&lt;` is,
and differs only in that texts may stand inside void and raw-text elements instead of behind them. -/
theorem c23_place {o : ParseOptions} {s u : Str} {c : Char} (h1 : o.autoFixUnescapedLt = true) (h : outside s o = true)
    (hn : notClosed s o = true) (hc : ¬ c.isAlpha ∧ c ≠ '/' ∧ c ≠ '!') (hcomp : complete (s ++ '<' :: c :: u) o) :
    (docOf (s ++ '<' :: c :: u) o = none ∧ docOf (s ++ ['&', 'l', 't', ';'] ++ c :: u) o = none) ∨
      ∃ ps ps', docOf (s ++ '<' :: c :: u) o = some ps ∧ docOf (s ++ ['&', 'l', 't', ';'] ++ c :: u) o = some ps' ∧
        hoistNodes true ps = hoistNodes true ps' := by
  obtain ⟨a, ha, hout⟩ := outside_iff.1 h
  have hov := notClosed_machine ha hout hn
  by_cases hm : a.mode = .wait .hole
  · have hf := (WfInv.run ha).modeFit
    unfold ModeFit at hf
    rw [hm] at hf
    obtain ⟨xs, n, as, ct, e, hk, hv⟩ := hf
    exact escape_docs h1 ha hov hm hk (.inr ⟨rfl, hv⟩) hc hcomp
  · have hw := (WfInv.run ha).last
    have : docOf (s ++ '<' :: c :: u) o = docOf (s ++ ['&', 'l', 't', ';'] ++ c :: u) o := by
      refine docOf_same ?_ hcomp
      have e1 : s ++ '<' :: c :: u = s ++ (['<', c] ++ u) := rfl
      have e2 : s ++ ['&', 'l', 't', ';'] ++ c :: u = s ++ ((['&', 'l', 't', ';'] ++ [c]) ++ u) := by simp
      rw [e1, e2, arun_append, arun_append o s, ha, Option.bind_some, Option.bind_some, arun_append, arun_append o (_ ++ _),
        escape_run h1 hout hov hm ?_ (by rw [isAlpha_eq]; simpa using hc.1) hc.2.1 hc.2.2]
      · exact OptRel.refl (fun _ _ => ⟨rfl, rfl⟩) _
      · intro p q
        unfold LastFits at hw
        rw [q] at hw
        exact hw.2 p rfl
    rw [← this]
    cases docOf (s ++ '<' :: c :: u) o with
    | none => exact .inl ⟨rfl, rfl⟩
    | some ps => exact .inr ⟨ps, ps, rfl, rfl, rfl⟩

/-- **C23** behind a void element: the document with the `<` is read when the one with `&lt;` is.  Both have the same source
text; they differ only in that texts may stand inside void elements instead of behind them. -/
theorem c23_void {o : ParseOptions} {s u : Str} {c : Char} (h1 : o.autoFixUnescapedLt = true) {S : Sit} (hS : Spec.Scan o s S)
    (hb : S.spot = .between) (hl : S.last = .hole) (ho : S.over = false) {xs : List PNode} {n : Str} {as : List Attr}
    (hk : S.top.kids = xs ++ [.elem n as false none [] none]) (hn : isVoid n) (hc : ¬ c.isAlpha ∧ c ≠ '/' ∧ c ≠ '!')
    (hcomp : complete (s ++ '<' :: c :: u) o) :
    (docOf (s ++ '<' :: c :: u) o = none ∧ docOf (s ++ ['&', 'l', 't', ';'] ++ c :: u) o = none) ∨
      ∃ ps ps', docOf (s ++ '<' :: c :: u) o = some ps ∧ docOf (s ++ ['&', 'l', 't', ';'] ++ c :: u) o = some ps' ∧
        hoistNodes false ps = hoistNodes false ps' ∧ printNodes ps = printNodes ps' := by
  obtain ⟨a, ha, hs, rfl⟩ := Scan.run hS
  obtain ⟨l, hm, hl'⟩ := spot_between hs hb
  rw [hl'] at hl
  subst hl
  rcases escape_docs (R := false) h1 ha ho hm hk (.inl ⟨hn, rfl, rfl⟩) hc hcomp with h | ⟨ps, ps', q1, q2, q3⟩
  · exact .inl h
  · refine .inr ⟨ps, ps', q1, q2, q3, ?_⟩
    rw [← print_hoist.2 ps, ← print_hoist.2 ps', q3]

private theorem ex_br : Spec.Scan { autoFixUnescapedLt := true } "<br>".toList { top := { kids := [.elem ['b', 'r'] [] false none [] none] }, last := .hole } :=
  .void (u := ['<']) (n := ['b', 'r']) (t := ['>']) (.lt .nil (by decide)) rfl rfl (by decide) ⟨'>', rfl, by decide⟩
    (TagRest.close (g := []) (by simp [isGap])) (by decide)

example : ∃ ps ps', docOf "<br><1".toList { autoFixUnescapedLt := true } = some ps ∧
    docOf "<br>&lt;1".toList { autoFixUnescapedLt := true } = some ps' ∧ printNodes ps = printNodes ps' ∧ ps ≠ ps' := by
  rcases c23_void (u := []) (c := '1') rfl ex_br rfl rfl rfl (xs := []) rfl (by decide) (by decide) (by decide +kernel) with h | ⟨ps, ps', h1, h2, _, h4⟩
  · exact absurd h.1 (by decide +kernel)
  · refine ⟨ps, ps', h1, h2, h4, ?_⟩
    rintro rfl
    exact absurd (h1.trans h2.symm) (by decide +kernel)

example : docOf ("<p><br>".toList ++ '<' :: '1' :: "</p>".toList) { autoFixUnescapedLt := true } =
      some [.elem ['p'] [] false none [.elem ['b', 'r'] [] false none [.text "&lt;1".toList] none] (some ['p'])] ∧
    docOf ("<p><br>".toList ++ ['&', 'l', 't', ';'] ++ '1' :: "</p>".toList) { autoFixUnescapedLt := true } =
      some [.elem ['p'] [] false none [.elem ['b', 'r'] [] false none [] none, .text "&lt;1".toList] (some ['p'])] := by decide +kernel

example : (outside "<title>a</title>".toList { autoFixUnescapedLt := true } = true ∧
    notClosed "<title>a</title>".toList { autoFixUnescapedLt := true } = true) ∧
    complete ("<title>a</title>".toList ++ '<' :: '1' :: []) { autoFixUnescapedLt := true } ∧
    ∃ ps ps', docOf ("<title>a</title>".toList ++ '<' :: '1' :: []) { autoFixUnescapedLt := true } = some ps ∧
      docOf ("<title>a</title>".toList ++ ['&', 'l', 't', ';'] ++ '1' :: []) { autoFixUnescapedLt := true } = some ps' ∧
      hoistNodes true ps = hoistNodes true ps' ∧ printNodes ps ≠ printNodes ps' :=
  ⟨by decide +kernel, by decide +kernel, [.elem "title".toList [] false (some ['a']) [.text "&lt;1".toList] (some "title".toList)],
    [.elem "title".toList [] false (some ['a']) [] (some "title".toList), .text "&lt;1".toList], by decide +kernel⟩

end Rphtml
