import Verif.Props.Options
import Verif.Props.Fixes

/-!
# C20: `auto_fix_unclosed_tag` added to `auto_fix_unexpected_endtag`

The one case in which a more permissive option changes an accepted document: a text that a stray end tag had split is in
one piece.  Nothing else changes.
-/

namespace Rphtml
open Spec

/-- States of the two runs: they differ in what is known about the text before a stray end tag. -/
inductive Late (o : ParseOptions) (a a' : AState) : Prop
  | same (h : Sim JoinStack o a a')
  | inEnd (hk : JoinStack a.top a.rest a'.top a'.rest) (ho : a.over = a'.over) (hs : a.sp = a'.sp) (pc : Str) (l : Last)
      (hm : a.mode = .tagEnd pc .other) (hm' : a'.mode = .tagEnd pc l)
  | behind (hk : JoinStack a.top a.rest a'.top a'.rest) (ho : a.over = a'.over) (hs : a.sp = a'.sp) (l : Last)
      (hm : a.mode = .wait .other) (hm' : a'.mode = .wait l)

theorem Late.step {o : ParseOptions} (h1 : o.autoFixUnescapedLt = false) (h2 : o.autoFixUnclosedTag = false)
    (h3 : o.autoFixUnexpectedEndtag = true) {a a' b : AState} {c : Char} (h : Late o a a') (hw : WfInv o a)
    (hw' : WfInv { o with autoFixUnclosedTag := true } a') (hs : astep o a c = some b) :
    ∃ b', astep { o with autoFixUnclosedTag := true } a' c = some b' ∧ Late o b b' := by
  have hK := JoinStack.rel h1
  cases h with
  | same h =>
    by_cases hlt : ∃ l, a'.mode = .lt l ∧ c = '/'
    · obtain ⟨l, hm', rfl⟩ := hlt
      have hm : ∃ l, a.mode = .lt l := by
        have := h.mode
        rw [hm'] at this
        generalize a.mode = m at this
        cases this <;> exact ⟨_, rfl⟩
      obtain ⟨l0, hm⟩ := hm
      have q : isAlpha '/' = false := by decide
      simp [astep, hm, q, h2] at hs
      refine ⟨{ a' with mode := .tagEnd [] l }, by simp [astep, hm', q], ?_⟩
      subst hs
      exact .inEnd h.stack h.over h.sp [] l rfl rfl
    · have e : astep { o with autoFixUnclosedTag := true } a' c = astep o a' c := by
        unfold astep
        split <;> try rfl
        rename_i l hm
        have : c ≠ '/' := fun q => hlt ⟨l, hm, q⟩
        simp only [if_neg this]
      have := h.step hK hw.modeFit c
      rw [hs] at this
      rw [e]
      cases q : astep o a' c with
      | none => rw [q] at this; exact this.elim
      | some b' => rw [q] at this; exact ⟨b', rfl, .same this⟩
  | inEnd hk ho hs' pc l hm hm' =>
    obtain ⟨hn, hr⟩ := hK.name hk
    simp only [astep, hm] at hs
    simp only [astep, hm']
    by_cases hc : c = '>'
    · simp only [if_pos hc, ne_eq] at hs
      simp only [if_pos hc, ← hn, ne_eq, ← hr]
      by_cases he : ¬ a.rest = [] ∧ (isEqualCharsIgnoreCase a.top.name (charsTrimEnd pc)).1 = true
      · simp only [if_pos he] at hs
        simp only [if_pos he]
        by_cases hcs : o.caseSensitiveTagname = true ∧ (isEqualCharsIgnoreCase a.top.name (charsTrimEnd pc)).2 = false
        · simp only [if_pos hcs] at hs; cases hs
        · simp only [if_neg hcs, Option.some.injEq] at hs
          simp only [if_neg hcs]
          subst hs
          refine ⟨_, rfl, .same ?_⟩
          obtain ⟨k1, k2⟩ := Sim.pop hK hk ho (some pc)
          exact ⟨k1, k2, by simp only [hs'], .refl _⟩
      · simp only [if_neg he, if_pos h3, Option.some.injEq] at hs
        simp only [if_neg he, if_pos h3]
        subst hs
        exact ⟨_, rfl, .behind hk ho hs' l rfl rfl⟩
    · simp only [if_neg hc, Option.some.injEq] at hs
      simp only [if_neg hc]
      subst hs
      exact ⟨_, rfl, .inEnd hk ho hs' _ l rfl rfl⟩
  | behind hk ho hs' l hm hm' =>
    simp only [astep, hm] at hs
    simp only [astep, hm']
    by_cases hc : c = '<'
    · simp only [if_pos hc, Option.some.injEq] at hs
      simp only [if_pos hc]
      subst hs
      exact ⟨_, rfl, .same ⟨hk, ho, hs', .lt _ _ h1 (.inr h2)⟩⟩
    · simp only [if_neg hc] at hs
      simp only [if_neg hc]
      by_cases hov : a.over = true
      · rw [if_pos hov] at hs; cases hs
      · rw [if_neg hov, Option.some.injEq] at hs
        subst hs
        have hpush : ∃ b', (if a'.over = true then none else some { a'.push (.text [c]) with mode := .text .top }) = some b' ∧
            Late o { a.push (.text [c]) with mode := .text .top } b' := by
          rw [← ho, if_neg hov]
          exact ⟨_, rfl, .same ⟨hK.push _ hk trivial, ho, hs', .refl _⟩⟩
        cases l with
        | other => exact hpush
        | hole => exact hpush
        | text p =>
          simp only [h3]
          refine ⟨_, rfl, .same ⟨?_, ho, hs', ?_⟩⟩
          · have hf := hw'.modeFit
            unfold ModeFit at hf
            rw [hm'] at hf
            cases p with
            | nested => exact absurd hf.1 (by simp [h1])
            | top =>
              obtain ⟨xs, w, hx⟩ := hf
              refine hk.mod ⟨hk.top.1, hk.top.2.1, ?_⟩
              show joinTexts (a.top.kids ++ [.text [c]]) = joinTexts (modLast (PNode.addText [c]) a'.top.kids)
              rw [joinTexts_snoc hk.top.2.2 _ _ rfl, hx, modLast_append _ _ (by simp)]
              exact (joinTexts_more xs w [c]).symm
          · cases p with
            | nested =>
              have hf := hw'.modeFit
              unfold ModeFit at hf
              rw [hm'] at hf
              exact absurd hf.1 (by simp [h1])
            | top => exact .refl _

theorem Late.run {o : ParseOptions} (h1 : o.autoFixUnescapedLt = false) (h2 : o.autoFixUnclosedTag = false)
    (h3 : o.autoFixUnexpectedEndtag = true) : ∀ (s : Str) {a a' b : AState}, Late o a a' → WfInv o a →
      WfInv { o with autoFixUnclosedTag := true } a' → arun o a s = some b →
      ∃ b', arun { o with autoFixUnclosedTag := true } a' s = some b' ∧ Late o b b'
  | [], a, a', b, h, _, _, hr => by
    simp only [arun, Option.some.injEq] at hr
    subst hr
    exact ⟨a', rfl, h⟩
  | c :: s, a, a', b, h, hw, hw', hr => by
    simp only [arun] at hr ⊢
    cases hs : astep o a c with
    | none => rw [hs] at hr; cases hr
    | some a1 =>
      rw [hs] at hr
      obtain ⟨a1', k1, k2⟩ := h.step h1 h2 h3 hw hw' hs
      rw [k1]
      exact Late.run h1 h2 h3 s k2 (hw.astep hs) (hw'.astep k1) hr

/-- **C20** where texts may be split: a document that is accepted is accepted as the same document under more permissive
options, up to the joining of neighbouring texts, unless both `auto_fix_unexpected_endtag` and `auto_fix_unescaped_lt` were on
before. -/
theorem c20_joined_partial {o o' : ParseOptions} (ho : morePermissive o o')
    (hl : o.autoFixUnexpectedEndtag = true → o.autoFixUnescapedLt = false) {s : Str} {ps : List PNode} (hc : complete s o)
    (h : docOf s o = some ps) : ∃ ps', docOf s o' = some ps' ∧ joinTexts ps' = joinTexts ps := by
  by_cases hu : o.autoFixUnexpectedEndtag = false ∨ o.autoFixUnclosedTag = o'.autoFixUnclosedTag
  · exact ⟨ps, c20_conservative_partial ho hu hc h, rfl⟩
  · have h3 : o.autoFixUnexpectedEndtag = true := by
      cases q : o.autoFixUnexpectedEndtag with
      | false => exact absurd (.inl q) hu
      | true => rfl
    have h2 : o.autoFixUnclosedTag = false ∧ o'.autoFixUnclosedTag = true := by
      have := ho.2.2.2.1
      cases q : o.autoFixUnclosedTag with
      | true => exact absurd (.inr (by rw [q, this q])) hu
      | false =>
        cases q' : o'.autoFixUnclosedTag with
        | false => exact absurd (.inr (by rw [q, q'])) hu
        | true => exact ⟨rfl, rfl⟩
    have h1 := hl h3
    obtain ⟨a, ha, hf, rfl⟩ := (docOf_iff hc).1 h
    obtain ⟨b, hb, hab⟩ := Late.run h1 h2.1 h3 s (a := {}) (a' := {}) (.same ⟨JoinStack.refl _ _, rfl, rfl, .refl _⟩)
      (WfInv.init o) (WfInv.init _) ha
    obtain ⟨f1, f2⟩ := (final_iff o a).1 hf
    have hb' : b.mode.outside = true ∧ JoinStack a.top a.rest b.top b.rest := by
      cases hab with
      | same h =>
        refine ⟨?_, h.stack⟩
        have := h.mode
        generalize a.mode = m at this f1
        generalize b.mode = m' at this
        cases this <;> first | exact f1 | rfl | cases f1
      | inEnd _ _ _ _ _ hm => rw [hm] at f1; cases f1
      | behind hk _ _ _ _ hm' => exact ⟨by rw [hm']; rfl, hk⟩
    have hj := hb'.2
    have hr : a.rest = [] := by
      rcases f2 with q | q
      · exact q
      · rw [h2.1] at q; cases q
    have hr' : b.rest = [] := ((JoinStack.rel h1).name hj).2.1 hr
    have hd : docOf s { o with autoFixUnclosedTag := true } = some b.result :=
      docOf_machine hb ((final_iff _ b).2 ⟨hb'.1, .inr rfl⟩)
    refine ⟨b.result, ?_, ?_⟩
    · refine c20_conservative_partial (o := { o with autoFixUnclosedTag := true })
        ⟨ho.1, ho.2.1, ho.2.2.1, fun _ => h2.2, ho.2.2.2.2.1, ho.2.2.2.2.2⟩ (.inr h2.2.symm) ?_ hd
      refine complete_iff.2 fun _ x hx => ?_
      rw [hb] at hx
      cases hx
      have := hb'.1
      generalize b.mode = m at this
      cases m <;> first | rfl | cases this
    · simp only [AState.result, hr, hr', List.length_nil, AState.closeAll]
      exact hj.top.2.2.symm

/-- The exception of `c20_conservative_partial` is covered. -/
example : ∃ ps', docOf "<p>a</b>c</p>".toList { autoFixUnexpectedEndtag := true, autoFixUnclosedTag := true } = some ps' ∧
    joinTexts ps' = joinTexts [.elem ['p'] [] false none [.text ['a'], .text ['c']] (some ['p'])] :=
  c20_joined_partial (o := { autoFixUnexpectedEndtag := true }) (by decide) (fun _ => rfl) (complete_of rfl) (by decide +kernel)

/-- What is left out is false: a text can go elsewhere. -/
example : docOf "<br></b><1".toList { autoFixUnexpectedEndtag := true, autoFixUnescapedLt := true } =
      some [.elem ['b', 'r'] [] false none [] none, .text "&lt;1".toList] ∧
    docOf "<br></b><1".toList { autoFixUnexpectedEndtag := true, autoFixUnescapedLt := true, autoFixUnclosedTag := true } =
      some [.elem ['b', 'r'] [] false none [.text "&lt;1".toList] none] := by decide +kernel

end Rphtml
