import Verif.Model.Render
import Verif.Proofs.TextLemmas

/-! # C27: minify_spaces -/

namespace Rphtml
open Spec

/-- The text as rendered with `minify_spaces` and without `decode_entity`, outside of `pre`. -/
def minified (t : Str) : Str := minifyLoop false t

theorem c27_buildText_minify (lib : EntityLib) (o : RenderOptions) (t : Str)
    (hm : o.minifySpaces = true) (hd : o.decodeEntity = false) :
    buildText lib o false t = minified t := by
  simp [buildText, hm, hd, minified]

/-- **C27** (only removes): the result is a subsequence of the text. -/
theorem c27_sublist (t : Str) : (minified t).Sublist t := by
  unfold minified
  suffices ∀ b, (minifyLoop b t).Sublist t from this false
  induction t with
  | nil => intro b; cases b <;> exact List.Sublist.slnil
  | cons c cs ih =>
    intro b
    unfold minifyLoop
    split
    · split
      · exact (ih true).cons c
      · exact (ih true).cons_cons c
    · exact (ih false).cons_cons c

/-- **C27** (visible characters): the sequence of non-whitespace characters is unchanged. -/
theorem c27_visible (t : Str) : visible (minified t) = visible t := by
  unfold minified
  suffices ∀ b, visible (minifyLoop b t) = visible t from this false
  induction t with
  | nil => intro b; cases b <;> rfl
  | cons c cs ih =>
    intro b
    have hc : ∀ s, visible (c :: s) = if c ∈ ws then visible s else c :: visible s := by
      intro s; unfold visible; by_cases h : c ∈ ws <;> simp [h]
    unfold minifyLoop
    by_cases h : c ∈ ws
    · have h' := (isWs_mem c).2 h
      simp only [h', if_true]
      split <;> simp [hc, h, ih]
    · have h' := (not_isWs_mem c).2 h
      simp [h', hc, h, ih]

private theorem splitWs_ne_nil (s : Str) : splitWs s ≠ [] := by
  cases s with
  | nil => simp [splitWs]
  | cons c cs => unfold splitWs; split <;> (try split) <;> simp

private theorem words_aux (t : Str) :
    (∃ w r r', splitWs t = w :: r ∧ splitWs (minifyLoop false t) = w :: r' ∧
      r.filter (fun w => !w.isEmpty) = r'.filter (fun w => !w.isEmpty)) ∧
    words (minifyLoop true t) = words t := by
  induction t with
  | nil => exact ⟨⟨[], [], [], rfl, rfl, rfl⟩, rfl⟩
  | cons c cs ih =>
    obtain ⟨⟨w, r, r', h1, h2, h3⟩, h4⟩ := ih
    by_cases h : c ∈ ws
    · have h' := (isWs_mem c).2 h
      refine ⟨⟨[], splitWs cs, splitWs (minifyLoop true cs), ?_, ?_, ?_⟩, ?_⟩
      · simp [splitWs, h]
      · simp [minifyLoop, h', splitWs, h]
      · exact h4.symm
      · simp only [minifyLoop, h', if_true]
        rw [h4]
        simp [words, splitWs, h]
    · have h' := (not_isWs_mem c).2 h
      refine ⟨⟨c :: w, r, r', ?_, ?_, h3⟩, ?_⟩
      · simp [splitWs, h, h1]
      · simp [minifyLoop, h', splitWs, h, h2]
      · simp [minifyLoop, h', words, splitWs, h, h1, h2, h3]

/-- **C27** (words): no word boundary appears or disappears. -/
theorem c27_words (t : Str) : words (minified t) = words t := by
  obtain ⟨⟨w, r, r', h1, h2, h3⟩, -⟩ := words_aux t
  unfold minified words
  rw [h1, h2, List.filter_cons, List.filter_cons, h3]

/-- **C27** (first character): the text still starts with whitespace iff it did. -/
theorem c27_head (t : Str) : (minified t).head? = t.head? := by
  cases t with
  | nil => rfl
  | cons c cs =>
    unfold minified minifyLoop
    split <;> simp

private theorem noDouble_aux (t : Str) : ∀ b, noDoubleWs (minifyLoop b t) ∧
    (b = true → ∀ c, (minifyLoop b t).head? = some c → c ∉ ws) := by
  induction t with
  | nil =>
    intro b
    refine ⟨fun a x y r h => ?_, fun _ c h => ?_⟩
    · cases b <;> simp [minifyLoop] at h
    · cases b <;> simp [minifyLoop] at h
  | cons c cs ih =>
    intro b
    have cons_ok : ∀ (c : Char) (s : Str), noDoubleWs s →
        (∀ x, s.head? = some x → ¬ (c ∈ ws ∧ x ∈ ws)) → noDoubleWs (c :: s) := by
      intro c s h1 h2 a x y r he
      cases a with
      | nil =>
        simp only [List.nil_append, List.cons.injEq] at he
        obtain ⟨rfl, rfl⟩ := he
        exact h2 y rfl
      | cons a0 a =>
        simp only [List.cons_append, List.cons.injEq] at he
        exact h1 a x y r he.2
    unfold minifyLoop
    by_cases h : c ∈ ws
    · have h' := (isWs_mem c).2 h
      simp only [h', if_true]
      cases b with
      | true => simpa using ih true
      | false =>
        simp only [Bool.false_eq_true, if_false]
        exact ⟨cons_ok _ _ (ih true).1 fun x hx hh => (ih true).2 rfl x hx hh.2, fun h => h.elim⟩
    · have h' := (not_isWs_mem c).2 h
      simp only [h', Bool.false_eq_true, if_false]
      refine ⟨cons_ok _ _ (ih false).1 fun x _ hh => h hh.1, fun _ x hx => ?_⟩
      simp only [List.head?_cons, Option.some.injEq] at hx
      subst hx; exact h

/-- **C27** (normal form): no two whitespace characters in a row remain. -/
theorem c27_noDoubleWs (t : Str) : noDoubleWs (minified t) := (noDouble_aux t false).1

private theorem minify_fix (t : Str) : ∀ b, noDoubleWs t →
    (b = true → ∀ c, t.head? = some c → c ∉ ws) → minifyLoop b t = t := by
  induction t with
  | nil => intro b _ _; cases b <;> rfl
  | cons c cs ih =>
    intro b h1 h2
    have h1' : noDoubleWs cs := fun a x y r he => h1 (c :: a) x y r (by rw [he]; rfl)
    unfold minifyLoop
    by_cases h : c ∈ ws
    · have h' := (isWs_mem c).2 h
      cases b with
      | true => exact absurd h (h2 rfl c rfl)
      | false =>
        simp only [h', if_true, Bool.false_eq_true, if_false]
        rw [ih true h1']
        intro _ x hx
        cases cs with
        | nil => simp at hx
        | cons y ys =>
          simp only [List.head?_cons, Option.some.injEq] at hx
          subst hx
          exact fun hy => h1 [] c y ys rfl ⟨h, hy⟩
    · have h' := (not_isWs_mem c).2 h
      simp only [h', Bool.false_eq_true, if_false]
      rw [ih false h1' (by simp)]

/-- **C27** (already minified texts are untouched). -/
theorem c27_fixed (t : Str) (h : noDoubleWs t) : minified t = t := minify_fix t false h (by simp)

/-- **C27** (idempotence). -/
theorem c27_idempotent (t : Str) : minified (minified t) = minified t :=
  c27_fixed _ (c27_noDoubleWs t)

/-- **C27** (inside `pre`): without entity decoding the text is verbatim. -/
theorem c27_pre_verbatim (lib : EntityLib) (o : RenderOptions) (t : Str) (hd : o.decodeEntity = false) :
    buildText lib o true t = t := by simp [buildText, hd]

/-- Non-vacuity: runs of mixed whitespace collapse to their first character. -/
example : minified "a \n b\t\tc ".toList = "a b\tc ".toList := by decide

end Rphtml
