import Verif.Spec.Scan
import Verif.Spec.Mend
import Verif.Proofs.TagHalf

/-!
# Completing a start tag that was not finished
-/

namespace Rphtml
open Spec

/-- The first character that is not part of a gap decides, so what comes behind it does not matter. -/
theorem noValue_key {g k t t' : Str} {b d : Bool} (hg : isGap g) (hk : attrName b d k) (h : noValue (g ++ k ++ t)) : noValue (g ++ k ++ t') := by
  intro x u hx e
  cases k with
  | nil => exact hk.elim
  | cons c k =>
    have hc : ¬ (c ∈ ws ∨ c = '/') := by
      rintro (q | q)
      · exact hk.1 q
      · exact hk.2.2.1 q
    have key : c = '=' ∧ x = g := by
      have e : g ++ c :: (k ++ t') = x ++ '=' :: u := by simpa using e
      rcases List.append_eq_append_iff.1 e with ⟨y, h1, h2⟩ | ⟨y, h1, h2⟩
      · cases y with
        | nil => simp only [List.nil_append, List.cons.injEq] at h2; exact ⟨h2.1, by simpa using h1⟩
        | cons z y =>
          simp only [List.cons_append, List.cons.injEq] at h2
          exact absurd (hx c (by rw [h1, h2.1]; simp)) hc
      · cases y with
        | nil => simp only [List.nil_append, List.cons.injEq] at h2; exact ⟨h2.1.symm, by simpa using h1.symm⟩
        | cons z y =>
          simp only [List.cons_append, List.cons.injEq] at h2
          exact absurd (hg z (by rw [h1]; simp)) (by rw [← h2.1]; decide)
    obtain ⟨rfl, rfl⟩ := key
    have := h x (k ++ t) hx (by simp)
    cases x with
    | nil => simp at this
    | cons z x => simpa using this

theorem noValue_gt : noValue ['>'] := by
  intro h u _ e
  have : '=' ∈ ['>'] := by rw [e]; simp
  exact absurd this (by decide)

/-- Two beginnings of the rest of a tag that go on alike. -/
def GoOn (b : Bool) (t t' : Str) : Prop :=
  t' = ['>'] ∨ ∃ g k x y, isGap g ∧ attrName b false k ∧ t = g ++ k ++ x ∧ t' = g ++ k ++ y

theorem GoOn.name {b : Bool} {t t' : Str} (h : GoOn b t t') (hn : nameOver t) : nameOver t' := by
  rcases h with rfl | ⟨g, k, x, y, hg, hk, rfl, rfl⟩
  · exact ⟨'>', rfl, by decide⟩
  · obtain ⟨c, h1, h2⟩ := hn
    refine ⟨c, ?_, h2⟩
    cases g with
    | nil =>
      cases k with
      | nil => exact hk.elim
      | cons z k => simpa using h1
    | cons z g => simpa using h1

theorem GoOn.value {b : Bool} {t t' : Str} (h : GoOn b t t') (hn : valueOver t) : valueOver t' := by
  rcases h with rfl | ⟨g, k, x, y, hg, hk, rfl, rfl⟩
  · exact ⟨'>', rfl, by decide⟩
  · obtain ⟨c, h1, h2⟩ := hn
    refine ⟨c, ?_, h2⟩
    cases g with
    | nil =>
      cases k with
      | nil => exact hk.elim
      | cons z k => simpa using h1
    | cons z g => simpa using h1

theorem GoOn.no {b : Bool} {t t' : Str} (h : GoOn b t t') (hn : noValue t) : noValue t' := by
  rcases h with rfl | ⟨g, k, x, y, hg, hk, rfl, rfl⟩
  · exact noValue_gt
  · exact noValue_key hg hk hn

/-- An unfinished start tag whose last attribute has a name can be finished without changing the attributes. -/
theorem half_finish {b : Bool} {as : List Attr} {t : Str} (h : TagHalf b as t) (hk : ∀ a ∈ as, a.key ≠ some []) :
    ∃ t', TagRest b false as false t' ∧ GoOn b t t' := by
  have hgt : TagRest b false [] false ['>'] := TagRest.close (g := []) (by intro c hc; cases hc)
  have one : ∀ {g k}, isGap g → attrName b false k → TagRest b false [{ key := some k }] false (g ++ k ++ ['>']) :=
    fun hg hk => .bare hg hk ⟨'>', rfl, by decide⟩ noValue_gt hgt
  induction h with
  | gap hg => exact ⟨_, hgt, .inl rfl⟩
  | name hg hk' => exact absurd rfl (hk _ (List.mem_singleton.2 rfl))
  | @equals g k w h hg hk' hw hh => exact ⟨_, one hg hk', .inr ⟨g, k, w ++ h, _, hg, hk', by simp, rfl⟩⟩
  | @inPlain g k w h v hg hk' hw hh hv => exact ⟨_, one hg hk', .inr ⟨g, k, w ++ h ++ v, _, hg, hk', by simp, rfl⟩⟩
  | @inQuoted g k w h v q hg hk' hw hh hv => exact ⟨_, one hg hk', .inr ⟨g, k, w ++ h ++ [q] ++ v, _, hg, hk', by simp, rfl⟩⟩
  | @bare g k t as hg hk' ho hn _ ih =>
    obtain ⟨t', h1, h2⟩ := ih (fun a ha => hk a (List.mem_cons_of_mem _ ha))
    exact ⟨_, .bare hg hk' (h2.name ho) (h2.no hn) h1, .inr ⟨g, k, t, t', hg, hk', rfl, rfl⟩⟩
  | @plain g k w h v t as hg hk' hw hh hv ho _ ih =>
    obtain ⟨t', h1, h2⟩ := ih (fun a ha => hk a (List.mem_cons_of_mem _ ha))
    exact ⟨_, .plain hg hk' hw hh hv (h2.value ho) h1, .inr ⟨g, k, w ++ h ++ v ++ t, w ++ h ++ v ++ t', hg, hk', by simp, by simp⟩⟩
  | @quoted g k w h v t q as hg hk' hw hh hv _ ih =>
    obtain ⟨t', h1, h2⟩ := ih (fun a ha => hk a (List.mem_cons_of_mem _ ha))
    exact ⟨_, .quoted hg hk' hw hh hv h1, .inr ⟨g, k, w ++ h ++ [q] ++ v ++ [q] ++ t, w ++ h ++ [q] ++ v ++ [q] ++ t', hg, hk', by simp, by simp⟩⟩

end Rphtml
