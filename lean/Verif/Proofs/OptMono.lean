import Verif.Proofs.AStep
import Verif.Proofs.DocOf

/-!
# Runs of the machine under more permissive options
-/

namespace Rphtml
open Spec

/-- `o'` permits everything that `o` permits (before the end of the input). -/
structure OptLe (o o' : ParseOptions) : Prop where
  cs : o'.caseSensitiveTagname = o.caseSensitiveTagname
  eq : o.allowAttrKeyStartsWithEqualSign = true → o'.allowAttrKeyStartsWithEqualSign = true
  self : o.allowSelfClosing = true → o'.allowSelfClosing = true
  unexpected : o.autoFixUnexpectedEndtag = true → o'.autoFixUnexpectedEndtag = true
  lt : o.autoFixUnescapedLt = true → o'.autoFixUnescapedLt = true

/-- States that differ in where a stray end tag would lead. -/
def Ret (o : ParseOptions) (a a' : AState) : Prop :=
  (a' = a ∧ (o.autoFixUnexpectedEndtag = false → ∀ p, a.mode ≠ .wait (.text p))) ∨
    (o.autoFixUnexpectedEndtag = false ∧ ∃ pc l l', a.mode = .tagEnd pc l ∧ a' = { a with mode := .tagEnd pc l' })

theorem tagChar_allow {isDoc : Bool} {t : TagSt} {c : Char} {out : TagOut} (h : tagChar isDoc false t c = out) (he : ∀ e, out ≠ .err e)
    (b : Bool) : tagChar isDoc b t c = out := by
  have hw : ∀ i, tagWaitC isDoc false t c i = out → tagWaitC isDoc b t c i = out := by
    intro i h
    unfold tagWaitC at h ⊢
    by_cases h1 : c = '"' ∨ c = '\''
    · rw [if_pos h1] at h ⊢; exact h
    · rw [if_neg h1] at h ⊢
      by_cases h2 : c = '>'
      · rw [if_pos h2] at h ⊢; exact h
      · rw [if_neg h2] at h ⊢
        by_cases h3 : c = '/'
        · rw [if_pos h3] at h ⊢; exact h
        · rw [if_neg h3] at h ⊢
          by_cases h4 : c = '='
          · rw [if_pos h4] at h ⊢
            by_cases h5 : t.m.codeIn = .keyEnd
            · rw [if_pos h5] at h ⊢; exact h
            · rw [if_neg h5] at h ⊢
              by_cases h6 : t.m.codeIn = .wait
              · rw [if_pos h6] at h ⊢
                exact absurd h.symm (he _)
              · rw [if_neg h6] at h ⊢; exact h
          · rw [if_neg h4] at h ⊢; exact h
  unfold tagChar at h ⊢
  split at h
  · exact hw _ h
  · by_cases h1 : c = '>'
    · rw [if_pos h1] at h ⊢; exact h
    · rw [if_neg h1] at h ⊢
      by_cases h2 : c = '/'
      · rw [if_pos h2] at h ⊢; exact h
      · rw [if_neg h2] at h ⊢; exact hw _ h
  · exact h
  · exact h
  · exact h

theorem tagChar_mono {isDoc b b' : Bool} (hb : b = true → b' = true) {t : TagSt} {c : Char} {out : TagOut}
    (h : tagChar isDoc b t c = out) (he : ∀ e, out ≠ .err e) : tagChar isDoc b' t c = out := by
  cases b with
  | false => exact tagChar_allow h he b'
  | true => rw [hb rfl]; exact h

theorem Ret.refl' {o : ParseOptions} {a : AState} (h : ∀ p, a.mode ≠ .wait (.text p)) : Ret o a a := .inl ⟨rfl, fun _ => h⟩

theorem Ret.step {o o' : ParseOptions} (ho : OptLe o o')
    (hu : o.autoFixUnexpectedEndtag = false ∨ o.autoFixUnclosedTag = o'.autoFixUnclosedTag)
    {a a' b : AState} {c : Char} (h : Ret o a a') (hs : astep o a c = some b) :
    ∃ b', astep o' a' c = some b' ∧ Ret o b b' := by
  rcases h with ⟨rfl, hw⟩ | ⟨hun, pc, l, l', hm, rfl⟩
  · have hopen : ∀ m pc, ∀ p, (a'.openTag m pc).mode ≠ .wait (.text p) := by
      intro m pc p
      unfold AState.openTag
      split
      · simp
      · split <;> simp
    have hs' := astep_sound hs
    cases hs' with
    | lt hm =>
      refine ⟨_, ?_, .refl' (by simp)⟩
      rcases hm with hm | ⟨p, rfl, hm⟩ <;> simp [astep, hm]
    | resume hm hx hc =>
      refine ⟨_, ?_, .inl ⟨rfl, fun q => by rw [q] at hx; cases hx⟩⟩
      simp [astep, hm, hc, ho.unexpected hx]
    | start hm hl hover hc =>
      rename_i l
      refine ⟨_, ?_, .refl' (by simp)⟩
      cases l with
      | text p => exact absurd hm (hw (hl p rfl) p)
      | other => simp [astep, hm, hc, hover]
      | hole => simp [astep, hm, hc, hover]
    | more hm hc => exact ⟨_, by simp [astep, hm, hc], .refl' (by simp [AState.more, hm])⟩
    | tagOpen hm hc hover => exact ⟨_, by simp [astep, hm, hc, hover], .refl' (by simp)⟩
    | endOpen hm =>
      rename_i l
      have h1 : isAlpha '/' = false := by decide
      refine ⟨{ a' with mode := .tagEnd [] (if o'.autoFixUnclosedTag then l else .other) }, by simp [astep, hm, h1], ?_⟩
      rcases hu with hu | hu
      · exact .inr ⟨hu, _, _, _, rfl, rfl⟩
      · rw [hu]; exact .refl' (by simp)
    | bangOpen hm =>
      have h1 : isAlpha '!' = false := by decide
      exact ⟨_, by simp [astep, hm, h1], .refl' (by simp)⟩
    | ltMore hm hx hc => 
      refine ⟨_, ?_, .refl' (by simp; split <;> simp)⟩
      simp [astep, hm, hc.1, hc.2.1, hc.2.2, ho.lt hx]
    | ltFill hm hx hc => 
      refine ⟨_, ?_, .refl' (by simp; split <;> simp)⟩
      simp [astep, hm, hc.1, hc.2.1, hc.2.2, ho.lt hx]
    | ltPush hm hx hc => 
      refine ⟨_, ?_, .refl' (by simp; split <;> simp)⟩
      simp [astep, hm, hc.1, hc.2.1, hc.2.2, ho.lt hx]
    | tagMore hm ht =>
      refine ⟨_, ?_, .refl' (by simp)⟩
      simp only [astep, hm, tagChar_mono ho.eq ht (by simp)]
    | docClose hm ht =>
      refine ⟨_, ?_, .refl' (by simp)⟩
      simp only [astep, hm, tagChar_mono ho.eq ht (by simp), if_true]
    | tagClose hm ht =>
      refine ⟨_, ?_, .refl' (by simpa using hopen _ _)⟩
      simp only [astep, hm, tagChar_mono ho.eq ht (by simp), Bool.false_eq_true, if_false]
    | docSelf hm ht =>
      refine ⟨_, ?_, .refl' (by simp)⟩
      simp only [astep, hm, tagChar_mono ho.eq ht (by simp), if_true]
    | tagSelf hm ht hx =>
      refine ⟨_, ?_, .refl' (by simp)⟩
      have : o'.allowSelfClosing = true ∨ _ := hx.imp ho.self id
      simp only [astep, hm, tagChar_mono ho.eq ht (by simp), Bool.false_eq_true, if_false, if_pos this]
    | endMore hm hc => exact ⟨_, by simp [astep, hm, hc], .refl' (by simp)⟩
    | endMatch hm hr he hcase =>
      refine ⟨_, ?_, .refl' (by simp)⟩
      have : astep o' a' '>' = astep o a' '>' := by
        simp [astep, hm, ho.cs, hr, he]
      rw [this, hs]
    | endStray hm he hx =>
      refine ⟨_, ?_, .inl ⟨rfl, fun q => by rw [q] at hx; cases hx⟩⟩
      simp only [astep, hm, if_true]
      rw [if_neg he, if_pos (ho.unexpected hx)]
    | rawClose hm hb =>
      refine ⟨_, ?_, .refl' (by simp)⟩
      simp only [astep, hm, if_true, ho.cs, hb]
    | rawMore hm hb =>
      refine ⟨_, ?_, .refl' (by simp)⟩
      simp only [astep, hm, ho.cs]
      by_cases hc : c = '>'
      · rw [if_pos hc, hb hc]
      · rw [if_neg hc]
    | nameClose hm =>
      refine ⟨_, ?_, .refl' (hopen _ _)⟩
      simp [astep, hm]
    | bangDash hm =>
      refine ⟨_, ?_, .refl' (by simp)⟩
      rw [← hs]; simp only [astep, hm]
    | bangD hm =>
      refine ⟨_, ?_, .refl' (by simp)⟩
      rw [← hs]; simp only [astep, hm]
    | bangC hm =>
      refine ⟨_, ?_, .refl' (by simp)⟩
      rw [← hs]; simp only [astep, hm]
    | bangMore hm =>
      refine ⟨_, ?_, .refl' (by simp)⟩
      rw [← hs]; simp only [astep, hm]
    | commentOpen hm =>
      refine ⟨_, ?_, .refl' (by simp)⟩
      rw [← hs]; simp only [astep, hm]
    | cdataOpen hm =>
      refine ⟨_, ?_, .refl' (by simp)⟩
      rw [← hs]; simp only [astep, hm]
    | doctypeOpen hm =>
      refine ⟨_, ?_, .refl' (by simp)⟩
      rw [← hs]; simp only [astep, hm]
    | commentClose hm =>
      refine ⟨_, ?_, .refl' (by simp)⟩
      rw [← hs]; simp only [astep, hm]
    | commentMore hm =>
      refine ⟨_, ?_, .refl' (by simp)⟩
      rw [← hs]; simp only [astep, hm]
    | doctypeName hm =>
      refine ⟨_, ?_, .refl' (by simp)⟩
      rw [← hs]; simp only [astep, hm]
    | nameMore hm =>
      refine ⟨_, ?_, .refl' (by simp)⟩
      rw [← hs]; simp only [astep, hm]
    | nameEnd hm =>
      refine ⟨_, ?_, .refl' (by simp)⟩
      rw [← hs]; simp only [astep, hm]
  · simp only [astep, hm] at hs ⊢
    by_cases hc : c = '>'
    · rw [if_pos hc] at hs ⊢
      by_cases hx : a.rest ≠ [] ∧ (isEqualCharsIgnoreCase a.top.name (charsTrimEnd pc)).1 = true
      · rw [if_pos hx] at hs ⊢
        rw [ho.cs]
        split at hs
        · cases hs
        · rename_i hq
          rw [if_neg hq]
          injection hs with hs
          refine ⟨_, rfl, .inl ⟨?_, ?_⟩⟩
          · rw [← hs]
            obtain ⟨_, rest, _, _, _, _⟩ := a
            cases rest <;> rfl
          · rw [← hs]; simp
      · rw [if_neg hx, if_neg (by rw [hun]; simp)] at hs; cases hs
    · rw [if_neg hc] at hs ⊢
      injection hs with hs
      refine ⟨_, rfl, .inr ⟨hun, _, _, _, by rw [← hs], by rw [← hs]⟩⟩

theorem Ret.run {o o' : ParseOptions} (ho : OptLe o o')
    (hu : o.autoFixUnexpectedEndtag = false ∨ o.autoFixUnclosedTag = o'.autoFixUnclosedTag) :
    ∀ (s : Str) {a a' b : AState}, Ret o a a' → arun o a s = some b → ∃ b', arun o' a' s = some b' ∧ Ret o b b'
  | [], a, a', b, h, hr => by
    simp only [arun, Option.some.injEq] at hr
    subst hr
    exact ⟨a', rfl, h⟩
  | c :: s, a, a', b, h, hr => by
    simp only [arun] at hr ⊢
    cases hs : astep o a c with
    | none => rw [hs] at hr; cases hr
    | some a1 =>
      rw [hs] at hr
      obtain ⟨a1', h1, h2⟩ := h.step ho hu hs
      rw [h1]
      exact Ret.run ho hu s h2 hr

/-- A finished run under more permissive options. -/
theorem run_mono {o o' : ParseOptions} (ho : OptLe o o')
    (hu : o.autoFixUnexpectedEndtag = false ∨ o.autoFixUnclosedTag = o'.autoFixUnclosedTag) {s : Str} {a : AState}
    (h : arun o {} s = some a) (hf : a.mode.outside = true) : arun o' {} s = some a := by
  obtain ⟨a', h1, ⟨rfl, _⟩ | ⟨_, pc, l, l', hm, _⟩⟩ := Ret.run ho hu s (a := {}) (a' := {}) (.inl ⟨rfl, by simp⟩) h
  · exact h1
  · rw [hm] at hf; cases hf

end Rphtml
