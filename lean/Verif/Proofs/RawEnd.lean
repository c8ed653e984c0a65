import Verif.Proofs.AStep
import Verif.Proofs.Simulate
import Verif.Proofs.TextLemmas
import Verif.Spec.Wf

/-!
# Where comments and raw-text elements end

`commentBody` and `rawBody`, the tests that the machine makes at each `>`, in terms of the text read.
-/

namespace Rphtml
open Spec

theorem contentCharMatch_iff (cs : Bool) (d p : Char) :
    contentCharMatch cs d p = true ↔ if cs = true then p = d else toLower p = toLower d := by
  unfold contentCharMatch
  by_cases h : d = p
  · subst h; simp
  · rw [if_neg h]
    cases cs with
    | true => simp [Ne.symm h]
    | false =>
      simp only [Bool.false_eq_true, if_false]
      rw [ignoreCase_char p d]
      cases h1 : isUpper d <;> cases h2 : isLower d
      · simp [h]
      · simp [h]
      · simp [h]
      · exfalso
        rw [isUpper_iff] at h1
        rw [isLower_iff] at h2
        omega

/-- Equality of texts, up to case unless case-sensitive. -/
def sameText (cs : Bool) (a b : Str) : Prop := if cs = true then a = b else lowerAll a = lowerAll b

theorem sameText_cons {cs : Bool} {x y : Char} {a b : Str} :
    sameText cs (x :: a) (y :: b) ↔ (if cs = true then x = y else toLower x = toLower y) ∧ sameText cs a b := by
  unfold sameText
  cases cs <;> simp [lowerAll]

theorem sameText_length {cs : Bool} {a b : Str} (h : sameText cs a b) : a.length = b.length := by
  unfold sameText at h
  split at h
  · rw [h]
  · have := congrArg List.length h
    simpa [lowerAll] using this

theorem sameText_reverse {cs : Bool} {a b : Str} : sameText cs a.reverse b.reverse ↔ sameText cs a b := by
  unfold sameText
  cases cs
  · simp only [Bool.false_eq_true, if_false, lowerAll, List.map_reverse, List.reverse_inj]
  · simp only [if_true, List.reverse_inj]

theorem sameText_append {cs : Bool} {a b c d : Str} (h1 : sameText cs a b) (h2 : sameText cs c d) : sameText cs (a ++ c) (b ++ d) := by
  unfold sameText at *
  cases cs
  · simp only [Bool.false_eq_true, if_false, lowerAll, List.map_append] at *
    rw [h1, h2]
  · simp only [if_true] at *
    rw [h1, h2]

theorem sameText_refl (cs : Bool) (a : Str) : sameText cs a a := by unfold sameText; split <;> rfl

theorem contentMatch_iff (cs : Bool) : ∀ (ds ps rest : Str),
    contentMatch cs ds ps = some rest ↔ ∃ k, ps = k ++ rest ∧ sameText cs k ds
  | [], ps, rest => by
    simp only [contentMatch, Option.some.injEq]
    constructor
    · rintro rfl; exact ⟨[], rfl, sameText_refl _ _⟩
    · rintro ⟨k, h1, h2⟩
      have := sameText_length h2
      have : k = [] := List.length_eq_zero_iff.1 (by simpa using this)
      subst this
      simpa using h1
  | d :: ds, [], rest => by
    simp only [contentMatch, reduceCtorEq, false_iff]
    rintro ⟨k, h1, h2⟩
    have := sameText_length h2
    cases k with
    | nil => simp at this
    | cons x k => simp at h1
  | d :: ds, p :: ps, rest => by
    simp only [contentMatch]
    by_cases h : contentCharMatch cs d p = true
    · rw [if_pos h, contentMatch_iff cs ds ps rest]
      rw [contentCharMatch_iff] at h
      constructor
      · rintro ⟨k, h1, h2⟩
        exact ⟨p :: k, by rw [h1]; rfl, sameText_cons.2 ⟨h, h2⟩⟩
      · rintro ⟨k, h1, h2⟩
        cases k with
        | nil => have := sameText_length h2; simp at this
        | cons x k =>
          simp only [List.cons_append, List.cons.injEq] at h1
          exact ⟨k, h1.2, (sameText_cons.1 h2).2⟩
    · rw [if_neg h]
      simp only [reduceCtorEq, false_iff]
      rintro ⟨k, h1, h2⟩
      cases k with
      | nil => have := sameText_length h2; simp at this
      | cons x k =>
        simp only [List.cons_append, List.cons.injEq] at h1
        apply h
        rw [contentCharMatch_iff, h1.1]
        exact (sameText_cons.1 h2).1

theorem mem_takeWhile' {p : Char → Bool} : ∀ {l : Str} {x : Char}, x ∈ l.takeWhile p → p x = true
  | a :: l, x, h => by
    rw [List.takeWhile_cons] at h
    by_cases ha : p a = true
    · rw [if_pos ha] at h
      rcases List.mem_cons.1 h with rfl | h
      · exact ha
      · exact mem_takeWhile' h
    · rw [if_neg ha] at h; cases h

theorem dropWhile_all {p : Char → Bool} : ∀ {l : Str}, (∀ x ∈ l, p x = true) → l.dropWhile p = []
  | [], _ => rfl
  | a :: l, h => by
    rw [List.dropWhile_cons, if_pos (h a (by simp))]
    exact dropWhile_all fun x hx => h x (by simp [hx])

theorem trimEnd_split (s : Str) : ∃ w, s = trimEnd s ++ w ∧ ∀ x ∈ w, isWs x = true := by
  have hp : (fun c => decide (c ∈ ws)) = isWs := by funext c; rw [isWs_eq]
  refine ⟨(s.reverse.takeWhile isWs).reverse, ?_, ?_⟩
  · unfold trimEnd
    rw [hp, ← List.reverse_append, List.takeWhile_append_dropWhile, List.reverse_reverse]
  · intro x hx
    rw [List.mem_reverse] at hx
    exact mem_takeWhile' hx

theorem trimEnd_append {a w : Str} (hw : ∀ x ∈ w, isWs x = true) (ha : ∀ x, a.getLast? = some x → isWs x = false) :
    trimEnd (a ++ w) = a := by
  have hp : (fun c => decide (c ∈ ws)) = isWs := by funext c; rw [isWs_eq]
  unfold trimEnd
  rw [hp, List.reverse_append, List.dropWhile_append]
  have h1 : w.reverse.dropWhile isWs = [] := by
    apply dropWhile_all
    intro x hx; exact hw x (by simpa using hx)
  rw [h1]
  simp only [List.isEmpty_nil, if_true]
  cases h2 : a.reverse with
  | nil =>
    have : a = [] := by simpa using h2
    rw [this]; rfl
  | cons x xs =>
    have hx : a.getLast? = some x := by rw [← List.head?_reverse, h2]; rfl
    rw [List.dropWhile_cons_of_neg (by rw [ha x hx]; simp), ← h2, List.reverse_reverse]

theorem toLower_ws {x y : Char} (h : toLower x = toLower y) (hy : isWs y = false) : isWs x = false := by
  cases hx : isWs x with
  | false => rfl
  | true =>
    exfalso
    have h2 : ¬ isWs y = true := by simp [hy]
    rw [isWs_iff] at hx h2
    have h3 := congrArg Char.toNat h
    rw [toNat_toLower, toNat_toLower] at h3
    split at h3 <;> split at h3 <;> omega

theorem toLower_gt {x y : Char} (h : toLower x = toLower y) (hy : y ≠ '>') : x ≠ '>' := by
  intro hx
  rw [char_eq_iff] at hx
  have : ¬ y.toNat = ('>' : Char).toNat := fun e => hy (char_ext e)
  have h3 := congrArg Char.toNat h
  rw [toNat_toLower, toNat_toLower] at h3
  have hg : ('>' : Char).toNat = 62 := by decide
  rw [hg] at hx this
  split at h3 <;> split at h3 <;> omega

/-- The characters of a name, up to case. -/
theorem sameText_mem {cs : Bool} : ∀ {a b : Str}, sameText cs a b → ∀ x ∈ a, ∃ y ∈ b, toLower x = toLower y
  | [], _, _, x, hx => by cases hx
  | _ :: _, [], h, _, _ => by have := sameText_length h; simp at this
  | u :: a, v :: b, h, x, hx => by
    rw [sameText_cons] at h
    rcases List.mem_cons.1 hx with rfl | hx
    · refine ⟨v, by simp, ?_⟩
      have := h.1
      split at this
      · rw [this]
      · exact this
    · obtain ⟨y, h1, h2⟩ := sameText_mem h.2 x hx
      exact ⟨y, by simp [h1], h2⟩

theorem closes_iff (cs : Bool) (name e : Str) : closes cs name e ↔ sameText cs (trimEnd e) name := by
  unfold closes sameText sameName
  cases cs
  · simp only [Bool.false_eq_true, if_false, lowerAll_eq_fold]
  · simp only [if_true]

/-- The model's test for an end tag that matches. -/
theorem endMatch_iff (cs : Bool) (name e : Str) :
    ((isEqualCharsIgnoreCase name (charsTrimEnd e)).1 = true ∧
      (cs = true → (isEqualCharsIgnoreCase name (charsTrimEnd e)).2 = true)) ↔ closes cs name e := by
  rw [isEqualCharsIgnoreCase_spec, charsTrimEnd_eq, closes_iff]
  unfold sameText
  by_cases h : lowerAll name = lowerAll (trimEnd e)
  · rw [if_pos h]
    cases cs
    · simp [h]
    · simp [eq_comm]
  · rw [if_neg h]
    cases cs
    · simp only [Bool.false_eq_true, false_and, if_false, false_iff]
      exact fun q => h q.symm
    · simp only [Bool.false_eq_true, false_and, if_true, false_iff]
      intro q; exact h (by rw [q])

theorem TagNameOk.noWs {n : Str} (h : TagNameOk n) : n ≠ [] ∧ ∀ x ∈ n, isWs x = false ∧ x ≠ '>' := by
  obtain ⟨c, cs, rfl, h1, h2⟩ := h
  exact ⟨by simp, fun x hx => ⟨(h2 x hx).1, (h2 x hx).2.2⟩⟩

theorem closes_noGt {cs : Bool} {n e : Str} (hn : TagNameOk n) (h : closes cs n e) : '>' ∉ e := by
  rw [closes_iff] at h
  obtain ⟨w, h1, h2⟩ := trimEnd_split e
  rw [h1]
  intro hx
  rcases List.mem_append.1 hx with k | k
  · obtain ⟨y, hy1, hy2⟩ := sameText_mem h _ k
    exact toLower_gt hy2 (hn.noWs.2 y hy1).2 rfl
  · exact absurd (h2 _ k) (by decide)

theorem sameText_last {cs : Bool} {a n : Str} (h : sameText cs a n) (hn : TagNameOk n) : ∀ x, a.getLast? = some x → isWs x = false := by
  intro x hx
  obtain ⟨y, hy1, hy2⟩ := sameText_mem h x (List.mem_of_getLast? hx)
  exact toLower_ws hy2 (hn.noWs.2 y hy1).1

/-- A raw-text element may end at a `>` exactly if the text before it ends with `</name`, up to whitespace. -/
theorem rawBody_spec {cs : Bool} {name pc : Str} {n : Nat} (hn : TagNameOk name) :
    rawBody cs name pc = some n ↔ ∃ u k, pc = u ++ ['<', '/'] ++ k ∧ closes cs name k ∧ u.length = n := by
  unfold rawBody
  have hp : (fun c => decide (c ∈ ws)) = isWs := by funext c; rw [isWs_eq]
  have ht : pc.reverse.dropWhile isWs = (trimEnd pc).reverse := by unfold trimEnd; rw [hp]; simp
  rw [ht]
  constructor
  · intro h
    cases hm : contentMatch cs (['<', '/'] ++ name).reverse (trimEnd pc).reverse with
    | none => rw [hm] at h; cases h
    | some rest =>
      rw [hm] at h
      simp only [Option.map_some, Option.some.injEq] at h
      rw [contentMatch_iff] at hm
      obtain ⟨k, h1, h2⟩ := hm
      have h3 : trimEnd pc = rest.reverse ++ k.reverse := by
        have := congrArg List.reverse h1
        simpa using this
      have h4 : sameText cs k.reverse (['<', '/'] ++ name) := by
        rw [← sameText_reverse, List.reverse_reverse]; exact h2
      cases hk : k.reverse with
      | nil => rw [hk] at h4; have := sameText_length h4; simp at this
      | cons a l =>
        cases l with
        | nil =>
          rw [hk] at h4
          have := sameText_length h4
          simp at this
        | cons b l =>
          rw [hk] at h4 h3
          simp only [List.cons_append, List.nil_append] at h4
          rw [sameText_cons, sameText_cons] at h4
          have hfix : ∀ x y : Char, (if cs = true then x = y else toLower x = toLower y) → y = '<' ∨ y = '/' → x = y := by
            intro x y hxy hy
            split at hxy
            · exact hxy
            · have h3 := congrArg Char.toNat hxy
              rw [toNat_toLower, toNat_toLower] at h3
              have g1 : ('<' : Char).toNat = 60 := by decide
              have g2 : ('/' : Char).toNat = 47 := by decide
              apply char_ext
              rcases hy with rfl | rfl
              · rw [g1] at h3 ⊢; split at h3 <;> split at h3 <;> omega
              · rw [g2] at h3 ⊢; split at h3 <;> split at h3 <;> omega
          have ha := hfix a _ h4.1 (Or.inl rfl)
          have hb := hfix b _ h4.2.1 (Or.inr rfl)
          subst ha; subst hb
          obtain ⟨w, w1, w2⟩ := trimEnd_split pc
          refine ⟨rest.reverse, l ++ w, ?_, ?_, by simpa using h⟩
          · rw [h3] at w1
            rw [w1]; simp
          · rw [closes_iff, trimEnd_append w2 (sameText_last h4.2.2 hn)]
            exact h4.2.2
  · rintro ⟨u, k, rfl, h2, h3⟩
    rw [closes_iff] at h2
    obtain ⟨w, w1, w2⟩ := trimEnd_split k
    have hne : trimEnd k ≠ [] := by
      intro he
      rw [he] at h2
      have := sameText_length h2
      exact hn.noWs.1 (List.length_eq_zero_iff.1 (by simpa using this.symm))
    have h4 : trimEnd (u ++ ['<', '/'] ++ k) = u ++ ['<', '/'] ++ trimEnd k := by
      have e : u ++ ['<', '/'] ++ k = (u ++ ['<', '/'] ++ trimEnd k) ++ w := by
        rw [List.append_assoc _ (trimEnd k) w, ← w1]
      rw [e]
      apply trimEnd_append w2
      intro x hx
      refine sameText_last h2 hn x ?_
      rw [List.getLast?_append] at hx
      cases hl : (trimEnd k).getLast? with
      | none => exact absurd (List.getLast?_eq_none_iff.1 hl) hne
      | some y => rw [hl] at hx; simpa using hx
    have h5 : contentMatch cs (['<', '/'] ++ name).reverse (trimEnd (u ++ ['<', '/'] ++ k)).reverse = some u.reverse := by
      rw [contentMatch_iff, h4]
      refine ⟨(['<', '/'] ++ trimEnd k).reverse, by simp, ?_⟩
      rw [sameText_reverse]
      exact sameText_append (sameText_refl _ _) h2
    rw [h5]
    simp [h3]

end Rphtml
