import Verif.Spec.Written
import Verif.Proofs.WfInv
import Verif.Proofs.DocOf
import Verif.Proofs.Span
import Verif.Proofs.Prefix

/-!
# The parser reads what is written
-/

namespace Rphtml
open Spec

theorem gapChar_ws {c : Char} (h : isWs c = true) : gapChar c := by
  rw [isWs_eq] at h; exact Or.inl (by simpa using h)

theorem sep_gap {t : Str} {c : Char} (h : gapChar c) : sep (t ++ [c]) := ⟨t, c, rfl, Or.inl h⟩

theorem nameLast_name (m : TagMeta) (k : Str) : (m.nameLast k).name = m.name := by
  unfold TagMeta.nameLast TagMeta.mapOrInsert
  split <;> rfl

/-- What has been written of a tag behind its name. -/
def Part (t : TagSt) (u : Str) : Prop :=
  match t.handle with
  | .tagWait | .tagSelfClosing => sep u ∧ (t.m.codeIn = .wait → Laid t.m.attrs u) ∧
      (t.m.codeIn ≠ .wait → ∃ init k t0 g, t.m.attrs = init ++ [{ key := some k }] ∧ u = t0 ++ k ++ g ∧ Laid init t0 ∧ sep t0 ∧
        (∀ c ∈ g, gapChar c) ∧ (t.m.codeIn = .waitValue → '=' ∈ g))
  | .attrKey => ∃ init t0, t.m.attrs = init ++ [{ key := some [] }] ∧ u = t0 ++ t.pc ∧ Laid init t0 ∧ sep t0
  | .attrValue => (t.mark = ' ' ∨ t.mark = '"' ∨ t.mark = '\'') ∧ ∃ init t0, Laid init t0 ∧ sep t0 ∧
      ((∃ k g, t.m.attrs = init ++ [{ key := some k }] ∧ (∀ c ∈ g, gapChar c) ∧ '=' ∈ g ∧
          u = t0 ++ k ++ g ++ (if t.mark = ' ' then [] else [t.mark]) ++ t.pc) ∨
        (t.mark ≠ ' ' ∧ t.m.attrs = init ++ [{ value := some [], quote := some t.mark }] ∧ u = t0 ++ [t.mark] ++ t.pc))
  | _ => False

theorem Spec.Laid.gaps {as : List Attr} {t : Str} (h : Laid as t) : ∀ g : Str, (∀ c ∈ g, gapChar c) → Laid as (t ++ g) := by
  intro g
  induction g generalizing t with
  | nil => intro _; simpa using h
  | cons c cs ih =>
    intro hg
    have := ih (h.gap (hg c (by simp))) (fun x hx => hg x (by simp [hx]))
    simpa using this

/-- A waiting tag is spelled by what has been read. -/
theorem Part.laid {t : TagSt} {u : Str} (hh : t.handle = .tagWait ∨ t.handle = .tagSelfClosing) (h : Part t u) : Laid t.m.attrs u := by
  have h : sep u ∧ (t.m.codeIn = .wait → Laid t.m.attrs u) ∧
      (t.m.codeIn ≠ .wait → ∃ init k t0 g, t.m.attrs = init ++ [{ key := some k }] ∧ u = t0 ++ k ++ g ∧ Laid init t0 ∧ sep t0 ∧
        (∀ c ∈ g, gapChar c) ∧ (t.m.codeIn = .waitValue → '=' ∈ g)) := by
    unfold Part at h
    rcases hh with e | e <;> simp only [e] at h <;> exact h
  by_cases hc : t.m.codeIn = .wait
  · exact h.2.1 hc
  · obtain ⟨init, k, t0, g, e1, e2, l, s, hg, _⟩ := h.2.2 hc
    rw [e1, e2]
    exact (l.bare s).gaps g hg

theorem Part.waiting {t : TagSt} {u : Str} (hh : t.handle = .tagWait ∨ t.handle = .tagSelfClosing) :
    Part t u ↔ sep u ∧ (t.m.codeIn = .wait → Laid t.m.attrs u) ∧
      (t.m.codeIn ≠ .wait → ∃ init k t0 g, t.m.attrs = init ++ [{ key := some k }] ∧ u = t0 ++ k ++ g ∧ Laid init t0 ∧ sep t0 ∧
        (∀ c ∈ g, gapChar c) ∧ (t.m.codeIn = .waitValue → '=' ∈ g)) := by
  unfold Part
  rcases hh with e | e <;> simp only [e]

/-- A gap in a waiting tag. -/
theorem Part.gap {t t' : TagSt} {u : Str} {c : Char} (hh : t.handle = .tagWait ∨ t.handle = .tagSelfClosing)
    (hh' : t'.handle = .tagWait ∨ t'.handle = .tagSelfClosing) (ha : t'.m.attrs = t.m.attrs)
    (hc : t'.m.codeIn = t.m.codeIn ∨ (t.m.codeIn = .keyEnd ∧ t'.m.codeIn = .waitValue ∧ c = '='))
    (h : Part t u) (hg : gapChar c) : Part t' (u ++ [c]) := by
  rw [Part.waiting hh] at h
  rw [Part.waiting hh']
  obtain ⟨h1, h2, h3⟩ := h
  refine ⟨sep_gap hg, ?_, ?_⟩
  · intro hw
    rcases hc with hc | ⟨_, hc, _⟩
    · rw [ha]; exact (h2 (by rw [← hc]; exact hw)).gap hg
    · rw [hc] at hw; cases hw
  · intro hw
    have hn : t.m.codeIn ≠ .wait := by
      rcases hc with hc | ⟨hc, _⟩
      · rw [← hc]; exact hw
      · rw [hc]; simp
    obtain ⟨init, k, t0, g, e1, e2, l, s, hgg, he⟩ := h3 hn
    refine ⟨init, k, t0, g ++ [c], by rw [ha, e1], by rw [e2]; simp, l, s, ?_, ?_⟩
    · intro x hx
      rcases List.mem_append.1 hx with hx | hx
      · exact hgg x hx
      · simp only [List.mem_singleton] at hx; rw [hx]; exact hg
    · intro hv
      rcases hc with hc | ⟨_, _, hc⟩
      · simp [he (by rw [← hc]; exact hv)]
      · simp [hc]

/-- A name begins. -/
theorem Part.key {t : TagSt} {u : Str} {c : Char} (hh : t.handle = .tagWait ∨ t.handle = .tagSelfClosing) (hpc : t.pc = []) (mk : Char)
    (h : Part t u) : Part { handle := .attrKey, m := { t.m.addAttrKey with codeIn := .key }, pc := t.pc ++ [c], mark := mk } (u ++ [c]) := by
  have hl := h.laid hh
  rw [Part.waiting hh] at h
  exact ⟨t.m.attrs, u, rfl, by rw [hpc]; rfl, hl, h.1⟩

/-- A value begins. -/
theorem Part.val {t : TagSt} {u : Str} {pc : Str} {mk c : Char} (hh : t.handle = .tagWait ∨ t.handle = .tagSelfClosing)
    (hw : t.m.codeIn = .waitValue) (hmk : mk = ' ' ∨ mk = '"' ∨ mk = '\'') (hc : (if mk = ' ' then [] else [mk]) ++ pc = [c])
    (h : Part t u) : Part { handle := .attrValue, m := { t.m with codeIn := .value }, pc := pc, mark := mk } (u ++ [c]) := by
  rw [Part.waiting hh] at h
  obtain ⟨_, _, h3⟩ := h
  obtain ⟨init, k, t0, g, e1, e2, l, s, hg, he⟩ := h3 (by rw [hw]; simp)
  refine ⟨hmk, init, t0, l, s, Or.inl ⟨k, g, e1, hg, he hw, ?_⟩⟩
  rw [e2, ← hc]
  simp

theorem Part.doc {t : TagSt} {u : Str} {c : Char} (hh : t.handle = .tagWait ∨ t.handle = .tagSelfClosing) (hpc : t.pc = [])
    (hc : c = '"' ∨ c = '\'') (h : Part t u) :
    Part { handle := .attrValue, m := { t.m.addAttrValue (some c) with codeIn := .value }, pc := t.pc, mark := c } (u ++ [c]) := by
  have hl := h.laid hh
  rw [Part.waiting hh] at h
  have hne : c ≠ ' ' := by rcases hc with rfl | rfl <;> decide
  exact ⟨Or.inr hc, t.m.attrs, u, hl, h.1, Or.inr ⟨hne, rfl, by simp [hpc]⟩⟩

theorem Part.waitC {isDoc allowEq : Bool} {t t' : TagSt} {c : Char} {i id : Option Str} {u : Str}
    (hh : t.handle = .tagWait ∨ t.handle = .tagSelfClosing) (hok : t.Ok2) (h : Part t u)
    (hs : tagWaitC isDoc allowEq t c i = .cont t' id) (hcl : t.handle = .tagWait ∨ c ≠ '/') : Part t' (u ++ [c]) := by
  have hok : t.pc = [] ∧ (t.m.codeIn = .wait ∨ t.m.codeIn = .keyEnd ∨ t.m.codeIn = .waitValue) ∧
      (t.m.codeIn ≠ .wait → t.m.attrs ≠ []) := by
    unfold TagSt.Ok2 at hok
    rcases hh with e | e <;> simp only [e] at hok <;> exact hok
  obtain ⟨hpc, hci, _⟩ := hok
  unfold tagWaitC at hs
  by_cases h1 : c = '"' ∨ c = '\''
  · rw [if_pos h1] at hs
    by_cases h2 : t.m.codeIn ≠ .waitValue
    · rw [if_pos h2] at hs
      cases isDoc with
      | true =>
        simp only [if_true, TagOut.cont.injEq] at hs
        rw [← hs.1]
        exact h.doc hh hpc h1
      | false =>
        simp only [Bool.false_eq_true, if_false, TagOut.cont.injEq] at hs
        rw [← hs.1]
        exact h.key hh hpc _
    · rw [if_neg h2] at hs
      simp only [TagOut.cont.injEq] at hs
      rw [← hs.1]
      have hne : c ≠ ' ' := by rcases h1 with rfl | rfl <;> decide
      exact h.val hh (by simpa using h2) (Or.inr h1) (by rw [if_neg hne, hpc]; rfl)
  rw [if_neg h1] at hs
  by_cases h2 : c = '>'
  · rw [if_pos h2] at hs; cases hs
  rw [if_neg h2] at hs
  by_cases h3 : c = '/'
  · rw [if_pos h3] at hs
    simp only [TagOut.cont.injEq] at hs
    rw [← hs.1]
    exact h.gap hh (Or.inr rfl) rfl (Or.inl rfl) (Or.inr (Or.inl h3))
  rw [if_neg h3] at hs
  by_cases h4 : c = '='
  · rw [if_pos h4] at hs
    by_cases h5 : t.m.codeIn = .keyEnd
    · rw [if_pos h5] at hs
      simp only [TagOut.cont.injEq] at hs
      rw [← hs.1]
      exact h.gap hh (Or.inl rfl) rfl (Or.inr ⟨h5, rfl, h4⟩) (Or.inr (Or.inr h4))
    rw [if_neg h5] at hs
    by_cases h6 : t.m.codeIn = .wait
    · rw [if_pos h6] at hs
      cases allowEq with
      | false => simp at hs
      | true =>
        simp only [Bool.not_true, Bool.false_eq_true, if_false, TagOut.cont.injEq] at hs
        rw [← hs.1]
        exact h.key hh hpc _
    · rw [if_neg h6] at hs
      simp only [TagOut.cont.injEq] at hs
      rw [← hs.1]
      refine h.val hh ?_ (Or.inl rfl) (by rw [if_pos rfl, hpc]; rfl)
      rcases hci with h | h | h
      · exact absurd h h6
      · exact absurd h h5
      · exact h
  rw [if_neg h4] at hs
  by_cases h5 : isWs c = true
  · rw [if_pos h5] at hs
    simp only [TagOut.cont.injEq] at hs
    rw [← hs.1]
    exact h.gap hh hh rfl (Or.inl rfl) (gapChar_ws h5)
  rw [if_neg h5] at hs
  by_cases h6 : t.m.codeIn = .waitValue
  · rw [if_pos h6] at hs
    simp only [TagOut.cont.injEq] at hs
    rw [← hs.1]
    exact h.val hh h6 (Or.inl rfl) (by rw [if_pos rfl, hpc]; rfl)
  · rw [if_neg h6] at hs
    simp only [TagOut.cont.injEq] at hs
    rw [← hs.1]
    exact h.key hh hpc _

/-- A name ends. -/
theorem Part.named {t t' : TagSt} {u : Str} {c : Char} (hh : t.handle = .attrKey) (h : Part t u)
    (hh' : t'.handle = .tagWait ∨ t'.handle = .tagSelfClosing) (ha : t'.m.attrs = (t.m.nameLast t.pc).attrs)
    (hc : t'.m.codeIn = .waitValue → c = '=') (hg : gapChar c) : Part t' (u ++ [c]) := by
  unfold Part at h
  simp only [hh] at h
  obtain ⟨init, t0, e1, e2, l, s⟩ := h
  rw [(nameLast_eq e1 t.pc).1] at ha
  rw [Part.waiting hh']
  refine ⟨sep_gap hg, fun _ => ?_, fun _ => ⟨init, t.pc, t0, [c], ha, by rw [e2], l, s, by simpa using hg, fun hw => by simp [hc hw]⟩⟩
  rw [ha, e2]
  exact (l.bare s).gap hg

/-- The text of a finished value. -/
theorem Part.valued {t : TagSt} {u : Str} (hh : t.handle = .attrValue) (h : Part t u) :
    Laid (t.m.valueLast t.pc (if t.mark = ' ' then none else some t.mark)).attrs (u ++ (if t.mark = ' ' then [] else [t.mark])) := by
  unfold Part at h
  simp only [hh] at h
  obtain ⟨hmk, init, t0, l, s, ⟨k, g, e1, hg, he, e2⟩ | ⟨hn, e1, e2⟩⟩ := h
  · rw [(valueLast_eq e1 t.pc _).1, e2]
    by_cases hm : t.mark = ' '
    · simp only [hm, if_true]
      have := l.value (k := k) (v := t.pc) (q := none) s hg he
      simpa [quoted] using this
    · simp only [hm, if_false]
      have := l.value (k := k) (v := t.pc) (q := some t.mark) s hg he
      simpa [quoted] using this
  · rw [(valueLast_eq e1 t.pc _).1, e2]
    simp only [hn, if_false]
    have := l.lone (v := t.pc) (q := t.mark) s
    simpa [quoted] using this

theorem Part.step {isDoc allowEq : Bool} {t t' : TagSt} {c : Char} {id : Option Str} {u : Str} (hok : t.Ok2) (h : Part t u)
    (hs : tagChar isDoc allowEq t c = .cont t' id) : Part t' (u ++ [c]) := by
  unfold tagChar at hs
  split at hs
  · rename_i hh
    exact h.waitC (Or.inl hh) hok hs (Or.inl hh)
  · rename_i hh
    by_cases h1 : c = '>'
    · rw [if_pos h1] at hs; cases hs
    rw [if_neg h1] at hs
    by_cases h2 : c = '/'
    · rw [if_pos h2] at hs
      simp only [TagOut.cont.injEq] at hs
      rw [← hs.1]
      exact h.gap (Or.inr hh) (Or.inr hh) rfl (Or.inl rfl) (Or.inr (Or.inl h2))
    · rw [if_neg h2] at hs
      exact h.waitC (Or.inr hh) hok hs (Or.inr h2)
  · rename_i hh
    by_cases h1 : c = '='
    · rw [if_pos h1] at hs
      simp only [TagOut.cont.injEq] at hs
      rw [← hs.1]
      exact h.named hh (Or.inl rfl) rfl (fun _ => h1) (Or.inr (Or.inr h1))
    rw [if_neg h1] at hs
    by_cases h2 : c = '>'
    · rw [if_pos h2] at hs; cases hs
    rw [if_neg h2] at hs
    by_cases h3 : c = '/'
    · rw [if_pos h3] at hs
      simp only [TagOut.cont.injEq] at hs
      rw [← hs.1]
      exact h.named hh (Or.inr rfl) rfl (fun h => by cases h) (Or.inr (Or.inl h3))
    rw [if_neg h3] at hs
    by_cases h4 : isWs c = true
    · rw [if_pos h4] at hs
      simp only [TagOut.cont.injEq] at hs
      rw [← hs.1]
      exact h.named hh (Or.inl rfl) rfl (fun h => by cases h) (gapChar_ws h4)
    · rw [if_neg h4] at hs
      simp only [TagOut.cont.injEq] at hs
      rw [← hs.1]
      unfold Part at h ⊢
      simp only [hh] at h ⊢
      obtain ⟨init, t0, e1, e2, l, s⟩ := h
      exact ⟨init, t0, e1, by rw [e2]; simp, l, s⟩
  · rename_i hh
    have hl := h.valued hh
    by_cases h1 : t.mark = ' ' ∧ c = '>'
    · rw [if_pos h1] at hs; cases hs
    rw [if_neg h1] at hs
    by_cases h2 : (if t.mark = ' ' then isWs c else c == t.mark) = true
    · rw [if_pos h2] at hs
      simp only [TagOut.cont.injEq] at hs
      rw [← hs.1, Part.waiting (Or.inl rfl)]
      by_cases hm : t.mark = ' '
      · simp only [hm, if_true] at h2 hl
        have hg := gapChar_ws h2
        refine ⟨sep_gap hg, fun _ => ?_, fun hn => absurd rfl hn⟩
        simp only [hm, if_true]
        have := hl.gap hg
        simpa using this
      · simp only [hm, if_false, beq_iff_eq] at h2 hl
        have hq : c = '"' ∨ c = '\'' := by
          unfold Part at h
          simp only [hh] at h
          rcases h.1 with e | e | e
          · exact absurd e hm
          · rw [h2, e]; simp
          · rw [h2, e]; simp
        refine ⟨⟨u, c, rfl, Or.inr hq⟩, fun _ => ?_, fun hn => absurd rfl hn⟩
        simp only [hm, if_false]
        rw [h2]; exact hl
    · rw [if_neg h2] at hs
      simp only [TagOut.cont.injEq] at hs
      rw [← hs.1]
      unfold Part at h ⊢
      simp only [hh] at h ⊢
      obtain ⟨hmk, init, t0, l, s, ⟨k, g, e1, hg, he, e2⟩ | ⟨hn, e1, e2⟩⟩ := h
      · exact ⟨hmk, init, t0, l, s, Or.inl ⟨k, g, e1, hg, he, by rw [e2]; simp⟩⟩
      · exact ⟨hmk, init, t0, l, s, Or.inr ⟨hn, e1, by rw [e2]; simp⟩⟩
  · rename_i h1 h2 h3 h4
    unfold TagSt.Ok2 at hok
    cases hh : t.handle <;> simp only [hh] at hok
    · exact absurd hh h2
    · exact absurd hh h1
    · exact absurd hh h3
    · exact absurd hh h4

theorem Part.close {isDoc allowEq : Bool} {t : TagSt} {c mk : Char} {m : TagMeta} {pc : Str} {id : Option Str} {u : Str} (hok : t.Ok2)
    (h : Part t u) (hs : tagChar isDoc allowEq t c = .close m pc mk id) : Laid m.attrs u ∧ m.name = t.m.name ∧ pc = [] ∧ c = '>' := by
  have hw : ∀ i, (t.handle = .tagWait ∨ t.handle = .tagSelfClosing) → tagWaitC isDoc allowEq t c i = .close m pc mk id →
      Laid m.attrs u ∧ m.name = t.m.name ∧ pc = [] ∧ c = '>' := by
    intro i hh hs
    obtain ⟨e1, e2, _, _, e3⟩ := tagWaitC_close hs
    have : t.pc = [] := by
      unfold TagSt.Ok2 at hok
      rcases hh with e | e <;> simp only [e] at hok <;> exact hok.1
    exact ⟨by rw [e1]; exact h.laid hh, by rw [e1], by rw [e2, this], e3⟩
  unfold tagChar at hs
  split at hs
  · rename_i hh; exact hw _ (Or.inl hh) hs
  · rename_i hh
    repeat' split at hs
    · cases hs
    · cases hs
    · exact hw _ (Or.inr hh) hs
  · rename_i hh
    by_cases h1 : c = '='
    · rw [if_pos h1] at hs; cases hs
    rw [if_neg h1] at hs
    by_cases h2 : c = '>'
    · rw [if_pos h2] at hs
      simp only [TagOut.close.injEq] at hs
      obtain ⟨rfl, rfl, _, _⟩ := hs
      refine ⟨?_, nameLast_name _ _, rfl, h2⟩
      unfold Part at h
      simp only [hh] at h
      obtain ⟨init, t0, e1, e2, l, s⟩ := h
      show Laid (t.m.nameLast t.pc).attrs u
      rw [(nameLast_eq e1 t.pc).1, e2]
      exact l.bare s
    rw [if_neg h2] at hs
    repeat' split at hs
    all_goals cases hs
  · rename_i hh
    have hl := h.valued hh
    by_cases h1 : t.mark = ' ' ∧ c = '>'
    · rw [if_pos h1] at hs
      simp only [TagOut.close.injEq] at hs
      obtain ⟨rfl, rfl, _, _⟩ := hs
      simp only [h1.1, if_true, List.append_nil] at hl
      exact ⟨hl, rfl, rfl, h1.2⟩
    rw [if_neg h1] at hs
    repeat' split at hs
    all_goals cases hs
  · cases hs

/-- What a tag that may close itself looks like. -/
def Slashed (t : TagSt) (u : Str) : Prop :=
  t.handle = .tagSelfClosing → ∃ mid w, u = mid ++ '/' :: w ∧ Laid t.m.attrs mid ∧ ∀ c ∈ w, c ∈ ws

/-- A tag that may close itself. -/
theorem Slashed.step {isDoc allowEq : Bool} {t t' : TagSt} {c : Char} {id : Option Str} {u : Str} (h : Part t u)
    (hu : Slashed t u) (hs : tagChar isDoc allowEq t c = .cont t' id) : Slashed t' (u ++ [c]) := by
  intro hh'
  have hw : ∀ i, t.handle = .tagWait ∨ t.handle = .tagSelfClosing → tagWaitC isDoc allowEq t c i = .cont t' id →
      ∃ mid w, u ++ [c] = mid ++ '/' :: w ∧ Laid t'.m.attrs mid ∧ ∀ c ∈ w, c ∈ ws := by
    intro i hh hs
    have hl := h.laid hh
    unfold tagWaitC at hs
    repeat' split at hs
    all_goals first
      | (cases hs; done)
      | skip
    all_goals
      simp only [TagOut.cont.injEq] at hs
      obtain ⟨rfl, _⟩ := hs
    all_goals first
      | (cases hh'; done)
      | skip
    · rename_i k1 k2 k3
      exact ⟨u, [], by rw [k2], hl, by simp⟩
    · rename_i k _
      obtain ⟨mid, w, e1, e2, e3⟩ := hu hh'
      refine ⟨mid, w ++ [c], by rw [e1]; simp, e2, ?_⟩
      intro x hx
      rcases List.mem_append.1 hx with hx | hx
      · exact e3 x hx
      · simp only [List.mem_singleton] at hx
        rw [hx]
        rw [isWs_eq] at k
        simpa using k
  unfold tagChar at hs
  split at hs
  · rename_i hh; exact hw _ (Or.inl hh) hs
  · rename_i hh
    by_cases h1 : c = '>'
    · rw [if_pos h1] at hs; cases hs
    rw [if_neg h1] at hs
    by_cases h2 : c = '/'
    · rw [if_pos h2] at hs
      simp only [TagOut.cont.injEq] at hs
      rw [← hs.1]
      exact ⟨u, [], by rw [h2], h.laid (Or.inr hh), by simp⟩
    · rw [if_neg h2] at hs; exact hw _ (Or.inr hh) hs
  · rename_i hh
    unfold Part at h
    simp only [hh] at h
    obtain ⟨init, t0, e1, e2, l, s⟩ := h
    repeat' split at hs
    all_goals first
      | (cases hs; done)
      | skip
    all_goals
      simp only [TagOut.cont.injEq] at hs
      obtain ⟨rfl, _⟩ := hs
    all_goals first
      | (cases hh'; done)
      | skip
    · rename_i k1 k2 k3
      refine ⟨u, [], by rw [k2], ?_, by simp⟩
      show Laid (t.m.nameLast t.pc).attrs u
      rw [(nameLast_eq e1 t.pc).1, e2]
      exact l.bare s
    · rw [show ({ t with pc := t.pc ++ [c] } : TagSt).handle = t.handle from rfl, hh] at hh'
      cases hh'
  · rename_i hh
    repeat' split at hs
    all_goals first
      | (cases hs; done)
      | skip
    all_goals
      simp only [TagOut.cont.injEq] at hs
      obtain ⟨rfl, _⟩ := hs
    all_goals first
      | (cases hh'; done)
      | (rw [show ({ t with pc := t.pc ++ [c] } : TagSt).handle = t.handle from rfl, hh] at hh'; cases hh')
  · rename_i h1 h2 h3 h4
    simp only [TagOut.cont.injEq] at hs
    rw [← hs.1] at hh'
    exact absurd hh' h2

/-- The text read so far spells the finished nodes of the open elements. -/
def WStk : List Frame → Str → Prop
  | [], s => s = []
  | [f], s => writtens f.kids s
  | f :: g :: fs, s => ∃ s0 t w, s = s0 ++ ("<".toList ++ f.name ++ t ++ ">".toList) ++ w ∧ WStk (g :: fs) s0 ∧ Laid f.attrs t ∧ writtens f.kids w

/-- What has been read of an unfinished construct. -/
def Pend (m : Mode) (u : Str) : Prop :=
  match m with
  | .wait _ | .text _ => u = []
  | .lt _ => u = "<".toList
  | .bang none _ => u = "<!".toList
  | .bang (some _) pc => u = "<!".toList ++ pc
  | .comment false pc => u = "<!--".toList ++ pc
  | .comment true pc => ∃ k, fold k = "[cdata[".toList ∧ u = "<!".toList ++ k ++ pc
  | .doctypeName pc => u = "<!".toList ++ pc
  | .tagName pc => u = "<".toList ++ pc
  | .inTag isDoc t => ∃ w, u = (if isDoc then "<!".toList else "<".toList) ++ t.m.name ++ w ∧ Part t w ∧ Slashed t w
  | .tagEnd pc _ => u = "</".toList ++ pc
  | .raw m pc => ∃ w, Laid m.attrs w ∧ u = "<".toList ++ m.name ++ w ++ ">".toList ++ pc

/-- What has been read so far. -/
def Written (s : Str) (a : AState) : Prop := ∃ s0 u, s = s0 ++ u ∧ WStk (a.top :: a.rest) s0 ∧ Pend a.mode u

theorem writtens_append {ps qs : List PNode} : ∀ {s : Str}, writtens (ps ++ qs) s ↔ ∃ a b, s = a ++ b ∧ writtens ps a ∧ writtens qs b := by
  induction ps with
  | nil =>
    intro s
    simp only [List.nil_append, writtens]
    exact ⟨fun h => ⟨[], s, rfl, rfl, h⟩, fun ⟨a, b, h1, h2, h3⟩ => by subst h2; rw [h1]; exact h3⟩
  | cons p ps ih =>
    intro s
    simp only [List.cons_append, writtens]
    constructor
    · rintro ⟨a, b, rfl, h1, h2⟩
      obtain ⟨c, d, rfl, h3, h4⟩ := ih.1 h2
      exact ⟨a ++ c, d, by simp, ⟨a, c, rfl, h1, h3⟩, h4⟩
    · rintro ⟨x, d, rfl, ⟨a, c, rfl, h1, h3⟩, h4⟩
      exact ⟨a, c ++ d, by simp, h1, ih.2 ⟨c, d, rfl, h3, h4⟩⟩

theorem writtens_snoc {ps : List PNode} {p : PNode} {a b : Str} (h1 : writtens ps a) (h2 : written p b) : writtens (ps ++ [p]) (a ++ b) :=
  writtens_append.2 ⟨a, b, rfl, h1, by simp only [writtens]; exact ⟨b, [], by simp, h2, rfl⟩⟩

theorem writtens_last {ps : List PNode} {p : PNode} {s : Str} (h : writtens (ps ++ [p]) s) :
    ∃ a b, s = a ++ b ∧ writtens ps a ∧ written p b := by
  obtain ⟨a, b, rfl, h1, h2⟩ := writtens_append.1 h
  simp only [writtens] at h2
  obtain ⟨c, d, rfl, h3, rfl⟩ := h2
  exact ⟨a, c, by simp, h1, h3⟩

/-- The children of the innermost element grow. -/
theorem WStk.kids {f : Frame} {fs : List Frame} {s v : Str} {ks : List PNode} (h : WStk (f :: fs) s)
    (hk : ∀ x, writtens f.kids x → writtens ks (x ++ v)) : WStk ({ f with kids := ks } :: fs) (s ++ v) := by
  cases fs with
  | nil => exact hk _ h
  | cons g gs =>
    obtain ⟨s0, t, w, rfl, h1, h2, h3⟩ := h
    exact ⟨s0, t, w ++ v, by simp, h1, h2, hk _ h3⟩

theorem WStk.push {f : Frame} {fs : List Frame} {s v : Str} {p : PNode} (h : WStk (f :: fs) s) (hp : written p v) :
    WStk ({ f with kids := f.kids ++ [p] } :: fs) (s ++ v) := h.kids fun _ hx => writtens_snoc hx hp

theorem WStk.enter {fs : List Frame} {s t n : Str} {as : List Attr} (hf : fs ≠ []) (h : WStk fs s) (hl : Laid as t) :
    WStk ({ name := n, attrs := as } :: fs) (s ++ ("<".toList ++ n ++ t ++ ">".toList)) := by
  cases fs with
  | nil => exact absurd rfl hf
  | cons g gs => exact ⟨s, t, [], by simp, h, hl, rfl⟩

theorem WStk.pop {f g : Frame} {fs : List Frame} {s : Str} {e : Option Str} (h : WStk (f :: g :: fs) s) :
    WStk ({ g with kids := g.kids ++ [.elem f.name f.attrs false none f.kids e] } :: fs) (s ++ printEnd e) := by
  obtain ⟨s0, t, w, rfl, h1, h2, h3⟩ := h
  have : written (.elem f.name f.attrs false none f.kids e) (("<".toList ++ f.name ++ t ++ ">".toList) ++ w ++ printEnd e) := by
    simp only [written]
    refine ⟨t, ['>'], w, h2, rfl, h3, ?_⟩
    cases e <;> simp [printEnd]
  have := h1.push this
  simpa using this

theorem Written.openTag {s : Str} {a : AState} {m : TagMeta} {s0 w : Str} (h1 : WStk (a.top :: a.rest) s0) (h2 : Laid m.attrs w)
    (hs : s = s0 ++ ("<".toList ++ m.name ++ w ++ ">".toList)) (mk : Char) : Written s { a.openTag m [] with mark := mk } := by
  unfold AState.openTag
  by_cases hv : m.isVoid = true
  · rw [if_pos hv]
    refine ⟨s, [], by simp, ?_, rfl⟩
    rw [hs]
    exact h1.push (by simp only [written, writtens]; exact ⟨w, ['>'], [], h2, rfl, rfl, by simp⟩)
  rw [if_neg hv]
  by_cases hr : isContentTag (lowerAll m.name) none = true
  · rw [if_pos hr]
    exact ⟨s0, _, hs, h1, w, h2, by simp⟩
  · rw [if_neg hr]
    refine ⟨s, [], by simp, ?_, rfl⟩
    rw [hs]
    exact h1.enter (by simp) h2

theorem Written.step {o : ParseOptions} {s : Str} {a a' : AState} {c : Char} (h1 : o.autoFixUnescapedLt = false)
    (h2 : o.autoFixUnexpectedEndtag = false) (hw : WfInv o a) (hi : Written s a) (st : AStep o a c a') : Written (s ++ [c]) a' := by
  obtain ⟨s0, u, hs, hk, hp⟩ := hi
  have hmo := hw.mode
  unfold ModeOk at hmo
  cases st with
  | lt hm =>
    refine ⟨s0, ['<'], ?_, hk, rfl⟩
    rcases hm with hm | ⟨p, _, hm⟩ <;> rw [hm] at hp <;> rw [hs, show u = [] from hp] <;> simp
  | resume hm ho => rw [h2] at ho; cases ho
  | start hm hl hover hc =>
    rw [hm] at hp
    refine ⟨s0 ++ [c], [], by rw [hs, show u = [] from hp]; simp, hk.push rfl, rfl⟩
  | more hm hc =>
    rename_i p
    rw [hm] at hp
    have hl := hw.last
    unfold LastFits at hl
    rw [hm] at hl
    cases p with
    | nested => obtain ⟨q, _⟩ := hl; rw [h1] at q; cases q
    | top =>
      obtain ⟨xs, w, e⟩ := hl
      refine ⟨s0 ++ [c], [], by rw [hs, show u = [] from hp]; simp, ?_, by rw [show (a.more .top [c]).mode = a.mode from rfl, hm]; rfl⟩
      refine hk.kids fun x hx => ?_
      rw [e] at hx ⊢
      obtain ⟨y, z, rfl, k1, k2⟩ := writtens_last hx
      have k2 : z = w := k2
      subst k2
      rw [show addTextAt Place.top [c] (xs ++ [PNode.text z]) = xs ++ [.text (z ++ [c])] by
        simp only [addTextAt]; rw [modLast_append _ _ (by simp)]; rfl]
      rw [List.append_assoc]
      exact writtens_snoc k1 rfl
  | tagOpen hm hc hover =>
    rw [hm] at hp
    exact ⟨s0, _, by rw [hs, List.append_assoc], hk, by rw [show u = "<".toList from hp]; rfl⟩
  | endOpen hm =>
    rw [hm] at hp
    exact ⟨s0, _, by rw [hs, List.append_assoc], hk, by rw [show u = "<".toList from hp]; rfl⟩
  | bangOpen hm =>
    rw [hm] at hp
    exact ⟨s0, _, by rw [hs, List.append_assoc], hk, by rw [show u = "<".toList from hp]; rfl⟩
  | ltMore hm ho => rw [h1] at ho; cases ho
  | ltFill hm ho => rw [h1] at ho; cases ho
  | ltPush hm ho => rw [h1] at ho; cases ho
  | bangDash hm =>
    rw [hm] at hp
    exact ⟨s0, _, by rw [hs, List.append_assoc], hk, by rw [show u = "<!".toList from hp]; rfl⟩
  | bangD hm hc =>
    rw [hm] at hp
    exact ⟨s0, _, by rw [hs, List.append_assoc], hk, by rw [show u = "<!".toList from hp]; rfl⟩
  | bangC hm =>
    rw [hm] at hp
    exact ⟨s0, _, by rw [hs, List.append_assoc], hk, by rw [show u = "<!".toList from hp]; rfl⟩
  | bangMore hm hc hl =>
    rename_i D pc
    rw [hm] at hp
    exact ⟨s0, _, by rw [hs, List.append_assoc], hk, by rw [show u = "<!".toList ++ pc from hp]; simp [Pend]⟩
  | commentOpen hm hc hl hover =>
    rename_i pc
    rw [hm] at hp hmo
    have hlen : pc.length = 1 := by
      have : pc.length < detectComment.length := by
        rcases Nat.lt_or_ge pc.length detectComment.length with h | h
        · exact h
        · rw [List.getElem?_eq_none h] at hc; cases hc
      simp only [detectComment] at this hl
      simp at this hl
      omega
    have hpc : pc = ['-'] := by
      match pc, hlen with
      | [x], _ =>
        have := hmo.2
        simp only [detectComment, List.map_cons, List.map_nil, List.length_cons, List.length_nil] at this
        have : toUpper x = '-' := by simpa using this
        rw [(toUpper_eq_dash x).1 this]
    have hcd : c = '-' := by
      rw [hlen] at hc
      have : toUpper c = '-' := by simpa [detectComment, eq_comm] using hc
      exact (toUpper_eq_dash c).1 this
    exact ⟨s0, _, by rw [hs, List.append_assoc], hk, by rw [show u = "<!".toList ++ pc from hp, hpc, hcd]; rfl⟩
  | cdataOpen hm hc hl hover =>
    rename_i pc
    rw [hm] at hp hmo
    refine ⟨s0, _, by rw [hs, List.append_assoc], hk, pc ++ [c], ?_, by rw [show u = "<!".toList ++ pc from hp]; simp⟩
    have hlen : pc.length = 6 := by
      have : pc.length < detectCdata.length := by
        rcases Nat.lt_or_ge pc.length detectCdata.length with h | h
        · exact h
        · rw [List.getElem?_eq_none h] at hc; cases hc
      simp only [detectCdata] at this hl
      simp at this hl
      omega
    have hup : (pc ++ [c]).map toUpper = detectCdata := by
      rw [List.map_append, hmo.2, hlen]
      rw [hlen] at hc
      simp only [detectCdata] at hc ⊢
      simp at hc ⊢
      exact hc.symm
    rw [fold_of_upper hup]; decide +kernel
  | doctypeOpen hm hd1 hd2 hc hl hover =>
    rename_i D pc
    rw [hm] at hp
    exact ⟨s0, _, by rw [hs, List.append_assoc], hk, by rw [show u = "<!".toList ++ pc from hp]; simp [Pend]⟩
  | commentClose hm hb =>
    rename_i cd pc b
    rw [hm] at hp
    have hb := ((commentBody_iff _ _ _).1 hb).2
    refine ⟨s ++ ['>'], [], by simp, ?_, rfl⟩
    rw [hs, List.append_assoc]
    cases cd with
    | false =>
      refine hk.push ?_
      simp only [written, Bool.false_eq_true, if_false]
      rw [show u = "<!--".toList ++ pc from hp, hb]; simp
    | true =>
      obtain ⟨k, k1, k2⟩ := hp
      refine hk.push ?_
      simp only [written, if_true]
      exact ⟨k, k1, by rw [k2, hb]; simp⟩
  | commentMore hm hb =>
    rename_i cd pc
    rw [hm] at hp
    refine ⟨s0, u ++ [c], by rw [hs, List.append_assoc], hk, ?_⟩
    cases cd with
    | false => rw [show u = "<!--".toList ++ pc from hp]; simp [Pend]
    | true =>
      obtain ⟨k, k1, k2⟩ := hp
      exact ⟨k, k1, by rw [k2]; simp⟩
  | doctypeName hm hc =>
    rename_i pc
    rw [hm] at hp
    refine ⟨s0, u ++ [c], by rw [hs, List.append_assoc], hk, [c], by rw [show u = "<!".toList ++ pc from hp]; simp, ?_, ?_⟩
    · have hg := gapChar_ws hc
      exact ⟨sep_gap (t := []) hg, fun _ => Laid.nil.gap hg, fun hn => absurd rfl hn⟩
    · intro hh; cases hh
  | nameMore hm hc =>
    rename_i pc
    rw [hm] at hp
    exact ⟨s0, _, by rw [hs, List.append_assoc], hk, by rw [show u = "<".toList ++ pc from hp]; simp [Pend]⟩
  | nameEnd hm hc =>
    rename_i pc
    rw [hm] at hp
    refine ⟨s0, u ++ [c], by rw [hs, List.append_assoc], hk, [c], by rw [show u = "<".toList ++ pc from hp]; simp, ?_, ?_⟩
    · have hg : gapChar c := by
        rcases hc.2 with h | h
        · exact Or.inr (Or.inl h)
        · exact gapChar_ws h
      rw [Part.waiting (by simp only; split <;> simp)]
      exact ⟨sep_gap (t := []) hg, fun _ => Laid.nil.gap hg, fun hn => absurd rfl hn⟩
    · intro hh
      by_cases h : c = '/'
      · exact ⟨[], [], by rw [h]; rfl, Laid.nil, by simp⟩
      · simp only [h, if_false] at hh
        cases hh
  | nameClose hm =>
    rename_i pc
    rw [hm] at hp
    have := Written.openTag (s := s ++ ['>']) (m := { name := pc, isVoid := isVoidTag (lowerAll pc) }) hk Laid.nil
      (by rw [hs, show u = "<".toList ++ pc from hp]; simp) (a.openTag { name := pc, isVoid := isVoidTag (lowerAll pc) } []).mark
    exact this
  | tagMore hm ht =>
    rename_i isDoc t t' id
    rw [hm] at hp hmo
    obtain ⟨w, e, k1, k2⟩ := hp
    have hn : t'.m.name = t.m.name := (tagChar_cont hmo.2.ok ht).2.1.name
    exact ⟨s0, u ++ [c], by rw [hs, List.append_assoc], hk, w ++ [c], by rw [e, hn]; simp, k1.step hmo.2.ok ht, k2.step k1 ht⟩
  | docClose hm ht =>
    rw [hm] at hp hmo
    obtain ⟨w, e, k1, k2⟩ := hp
    obtain ⟨j1, j2, j3, j4⟩ := k1.close hmo.2.ok ht
    refine ⟨s ++ [c], [], by simp, ?_, rfl⟩
    rw [hs, List.append_assoc]
    refine hk.push ?_
    simp only [written]
    exact ⟨w, ['>'], j1, rfl, by rw [e, j2, j4]; simp⟩
  | tagClose hm ht =>
    rw [hm] at hp hmo
    obtain ⟨w, e, k1, k2⟩ := hp
    obtain ⟨j1, j2, j3, j4⟩ := k1.close hmo.2.ok ht
    subst j3
    exact Written.openTag hk j1 (by rw [hs, e, j2, j4]; simp) _
  | docSelf hm ht =>
    rename_i t
    rw [hm] at hp hmo
    obtain ⟨w, e, k1, k2⟩ := hp
    obtain ⟨j1, j2⟩ := tagChar_self ht
    obtain ⟨mid, v, q1, q2, q3⟩ := k2 j1
    have hk' : WStk ((a.push (.doctype t.m.name t.m.attrs true)).top :: (a.push (.doctype t.m.name t.m.attrs true)).rest) (s ++ [c]) := by
      rw [hs, List.append_assoc]
      refine hk.push ?_
      simp only [written]
      exact ⟨mid, '/' :: v ++ ['>'], q2, ⟨v, rfl, q3⟩, by rw [e, q1, j2]; simp⟩
    refine ⟨s ++ [c], [], by simp, ?_, rfl⟩
    generalize a.push (.doctype t.m.name t.m.attrs true) = b at hk'
    unfold AState.pop
    split
    · exact hk'
    · rename_i g gs hr
      rw [hr] at hk'
      have := hk'.pop (e := none)
      simpa [printEnd] using this
  | tagSelf hm ht ho =>
    rename_i t
    rw [hm] at hp hmo
    obtain ⟨w, e, k1, k2⟩ := hp
    obtain ⟨j1, j2⟩ := tagChar_self ht
    obtain ⟨mid, v, q1, q2, q3⟩ := k2 j1
    refine ⟨s ++ [c], [], by simp, ?_, rfl⟩
    rw [hs, List.append_assoc]
    refine hk.push ?_
    simp only [written, writtens]
    exact ⟨mid, '/' :: v ++ ['>'], [], q2, ⟨v, rfl, q3⟩, rfl, by rw [e, q1, j2]; simp⟩
  | endMore hm hc =>
    rename_i pc ret
    rw [hm] at hp
    exact ⟨s0, _, by rw [hs, List.append_assoc], hk, by rw [show u = "</".toList ++ pc from hp]; simp [Pend]⟩
  | endMatch hm hr he hcase =>
    rename_i pc ret
    rw [hm] at hp
    refine ⟨s ++ ['>'], [], by simp, ?_, rfl⟩
    simp only
    unfold AState.pop
    split
    · rename_i hr'; exact absurd hr' hr
    · rename_i g gs hr'
      rw [hr'] at hk
      have := hk.pop (e := some pc)
      rw [hs, show u = "</".toList ++ pc from hp]
      simpa [printEnd] using this
  | endStray hm he ho => rw [h2] at ho; cases ho
  | rawClose hm hb =>
    rename_i m pc n
    rw [hm] at hp hmo
    obtain ⟨w, k1, k2⟩ := hp
    obtain ⟨x, k, e1, _, e2⟩ := (rawBody_spec (by simpa using hmo.2.tag.name.1)).1 hb
    refine ⟨s ++ ['>'], [], by simp, ?_, rfl⟩
    rw [hs, List.append_assoc]
    refine hk.push ?_
    simp only [written, writtens]
    refine ⟨w, ['>'], [], k1, rfl, rfl, ?_⟩
    have d1 : pc.take n = x := by rw [e1, ← e2]; simp
    have d2 : pc.drop (n + 2) = k := by rw [e1, ← e2, ← List.drop_drop]; simp
    rw [k2, d1, d2, e1]
    simp
  | rawMore hm hb =>
    rename_i m pc
    rw [hm] at hp
    obtain ⟨w, k1, k2⟩ := hp
    exact ⟨s0, u ++ [c], by rw [hs, List.append_assoc], hk, w, k1, by rw [k2]; simp⟩

/-- The machine has read a spelling of what it has built. -/
theorem Written.run {o : ParseOptions} {s : Str} {a : AState} (h1 : o.autoFixUnescapedLt = false)
    (h2 : o.autoFixUnexpectedEndtag = false) (h : arun o {} s = some a) : Written s a :=
  (arun_inv (P := fun s a => WfInv o a ∧ Written s a) (fun _ _ _ _ k st => ⟨k.1.step st, k.2.step h1 h2 k.1 st⟩) s [] {} a
    ⟨WfInv.init o, [], [], rfl, rfl, rfl⟩ h).2

end Rphtml
