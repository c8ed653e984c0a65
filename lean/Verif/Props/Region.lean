import Verif.Proofs.Ctx
import Verif.Spec.Text
import Mathlib.Data.List.Induction

/-! # C24, C25: error positions -/

namespace Rphtml
open Spec

/-- The loop body, seen as processing a prefix: `prev` only matters as "was it `\r`". -/
private theorem loop_spec (index : Nat) : ∀ (s : Str) (cur : Nat) (prev : Char) (r : CodeRegion),
    CodeRegion.loop index cur prev r s =
      CodeRegion.loop index cur prev r (s.take (index + 1 - cur)) := by
  intro s
  induction s with
  | nil => intros; simp
  | cons c cs ih =>
    intro cur prev r
    by_cases h : cur ≤ index
    · have : index + 1 - cur = (index - cur) + 1 := by omega
      rw [this, List.take_succ_cons]
      unfold CodeRegion.loop
      simp only [h, if_true]
      rw [ih]
      have : index + 1 - (cur + 1) = index - cur := by omega
      rw [this]
    · have : index + 1 - cur = 0 := by omega
      rw [this, List.take_zero]
      have hh : ∀ (s : Str) (cur : Nat) prev r, index < cur → CodeRegion.loop index cur prev r s = r := by
        intro s
        induction s with
        | nil => intros; rfl
        | cons c cs ih =>
          intro cur prev r hc
          unfold CodeRegion.loop
          rw [if_neg (by omega)]
          exact ih _ _ _ (by omega)
      rw [hh _ _ _ _ (by omega), hh _ _ _ _ (by omega)]

private theorem lineBreaks_cons (c : Char) (cs : Str) :
    lineBreaks (c :: cs) =
      if c = '\r' then (if cs.head? = some '\n' then lineBreaks cs else 1 + lineBreaks cs)
      else if c = '\n' then 1 + lineBreaks cs else lineBreaks cs := by
  by_cases h : c = '\r'
  · subst h
    cases cs with
    | nil => rfl
    | cons c' cs' =>
      by_cases h' : c' = '\n'
      · subst h'
        simp only [lineBreaks, List.head?_cons, if_true]
      · have hn : ¬ (c' :: cs').head? = some '\n' := by simpa using h'
        rw [if_pos rfl, if_neg hn, lineBreaks.eq_3]
        intro cs h; simp at h; exact h' h.1
  · rw [if_neg h]
    by_cases h' : c = '\n'
    · subst h'; simp [lineBreaks]
    · rw [if_neg h', lineBreaks.eq_5]
      · intro _ h1; exact absurd h1 h
      · intro h1; exact absurd h1 h
      · intro h1; exact absurd h1 h'

private theorem lineBreaks_snoc (p : Str) (c : Char) :
    lineBreaks (p ++ [c]) = lineBreaks p +
      (if c = '\r' then 1 else if c = '\n' then (if p.getLast? = some '\r' then 0 else 1) else 0) := by
  induction p with
  | nil =>
    rw [List.nil_append, lineBreaks_cons]
    by_cases h : c = '\r' <;> by_cases h' : c = '\n' <;> simp [lineBreaks, h, h']
  | cons a p ih =>
    rw [List.cons_append, lineBreaks_cons, lineBreaks_cons a p, ih]
    cases p with
    | nil =>
      by_cases h : a = '\r'
      · by_cases h' : c = '\n'
        · simp [lineBreaks, h, h']
        · by_cases h'' : c = '\r' <;> simp [lineBreaks, h, h', h'']
      · simp [lineBreaks, h]
        by_cases h1 : a = '\n' <;> simp [h1] 
    | cons b p =>
      have : (a :: b :: p).getLast? = (b :: p).getLast? := by simp [List.getLast?_cons_cons]
      rw [this]
      have hh : (b :: p ++ [c]).head? = (b :: p).head? := by simp
      rw [hh]
      by_cases h1 : (b :: p).head? = some '\n'
      · rw [if_pos h1, if_pos h1]; split <;> (try split) <;> omega
      · rw [if_neg h1, if_neg h1]; split <;> (try split) <;> omega

private theorem loop_snoc (index : Nat) : ∀ (p : Str) (c : Char) (cur : Nat) (prev : Char) (r : CodeRegion),
    cur + p.length ≤ index →
    CodeRegion.loop index cur prev r (p ++ [c]) =
      (CodeRegion.loop index cur prev r p).stepChar (p.getLast?.getD prev) c := by
  intro p
  induction p with
  | nil =>
    intro c cur prev r h
    simp only [List.length_nil] at h
    simp [CodeRegion.loop, show cur ≤ index by omega]
  | cons a p ih =>
    intro c cur prev r h
    simp only [List.length_cons] at h
    rw [List.cons_append]
    unfold CodeRegion.loop
    rw [if_pos (by omega), if_pos (by omega), ih _ _ _ _ (by omega)]
    congr 1
    cases p with
    | nil => rfl
    | cons b p => rw [List.getLast?_cons_cons]; simp [List.getLast?_eq_some_getLast]

private theorem lastLineLength_snoc (p : Str) (c : Char) :
    lastLineLength (p ++ [c]) = if c = '\r' ∨ c = '\n' then 0 else lastLineLength p + 1 := by
  unfold lastLineLength
  rw [List.reverse_append]
  simp only [List.reverse_cons, List.reverse_nil, List.nil_append, List.singleton_append,
    List.takeWhile_cons]
  by_cases h : c = '\r' <;> by_cases h' : c = '\n' <;> simp [h, h']

private theorem region_prefix (p : Str) (index : Nat) (h : p.length ≤ index + 1) :
    CodeRegion.loop index 0 '\x00' ⟨index, 1, 0⟩ p = ⟨index, 1 + lineBreaks p, lastLineLength p⟩ := by
  induction p using List.reverseRecOn with
  | nil => rfl
  | append_singleton p c ih =>
    simp only [List.length_append, List.length_singleton] at h
    rw [loop_snoc _ _ _ _ _ _ (by omega), ih (by omega), lineBreaks_snoc, lastLineLength_snoc]
    unfold CodeRegion.stepChar CodeRegion.setNewLine CodeRegion.moveOne
    by_cases h1 : c = '\r'
    · simp [h1, Nat.add_assoc]
    · by_cases h2 : c = '\n'
      · subst h2
        have hl : (p.getLast?.getD '\x00' = '\r') ↔ p.getLast? = some '\r' := by
          cases p.getLast? <;> simp
        by_cases h3 : p.getLast? = some '\r'
        · have h4 : lastLineLength p = 0 := by
            rcases List.eq_nil_or_concat p with rfl | ⟨q, x, rfl⟩
            · rfl
            · simp only [List.concat_eq_append, List.getLast?_append, List.getLast?_singleton,
                Option.some_or, Option.some.injEq] at h3
              rw [List.concat_eq_append, lastLineLength_snoc, if_pos (Or.inl h3)]
          simp [h3, h4]
        · simp [hl, h3, Nat.add_assoc]
      · simp [h1, h2]

/-- **C25** (line and column): the region reported for a character index is determined by the text up
to and including that index, as the specification says. -/
theorem c25_region_spec (ctx : Str) (index : Nat) :
    CodeRegion.fromContextIndex ctx index =
      ⟨index, 1 + lineBreaks (ctx.take (index + 1)), lastLineLength (ctx.take (index + 1))⟩ := by
  unfold CodeRegion.fromContextIndex
  rw [loop_spec]
  exact region_prefix _ _ (by simp; omega)

/-- The position of an index inside a prefix does not depend on what follows. -/
theorem region_append (p t : Str) (i : Nat) (h : i < p.length) :
    CodeRegion.fromContextIndex (p ++ t) i = CodeRegion.fromContextIndex p i := by
  rw [c25_region_spec, c25_region_spec, List.take_append_of_le_length (by omega)]

end Rphtml
