import Verif.Model.Render

/-! Lemmas about the ASCII helpers. -/

namespace Rphtml

theorem char_ext {a b : Char} (h : a.toNat = b.toNat) : a = b := by
  rw [← Char.ofNat_toNat a, ← Char.ofNat_toNat b, h]

theorem toNat_ofNat {n : Nat} (h : n < 55296) : (Char.ofNat n).toNat = n := by
  simp [Char.ofNat, Nat.isValidChar, h, Char.toNat, Char.ofNatAux]

theorem toNat_toLower (c : Char) :
    (toLower c).toNat = if 65 ≤ c.toNat ∧ c.toNat ≤ 90 then c.toNat + 32 else c.toNat := by
  unfold toLower isUpper
  by_cases h : 65 ≤ c.toNat ∧ c.toNat ≤ 90
  · simp only [h, decide_true, Bool.and_self, if_true, and_self]
    exact toNat_ofNat (by omega)
  · have : (decide (65 ≤ c.toNat) && decide (c.toNat ≤ 90)) = false := by
      rw [Bool.eq_false_iff]; simpa using h
    simp [this, h]

theorem toNat_toUpper (c : Char) :
    (toUpper c).toNat = if 97 ≤ c.toNat ∧ c.toNat ≤ 122 then c.toNat - 32 else c.toNat := by
  unfold toUpper isLower
  by_cases h : 97 ≤ c.toNat ∧ c.toNat ≤ 122
  · simp only [h, decide_true, Bool.and_self, if_true, and_self]
    exact toNat_ofNat (by omega)
  · have : (decide (97 ≤ c.toNat) && decide (c.toNat ≤ 122)) = false := by
      rw [Bool.eq_false_iff]; simpa using h
    simp [this, h]

/-- Rust's `to_ascii_lowercase` as modelled is Lean core's `Char.toLower`. -/
theorem toLower_eq_core (c : Char) : toLower c = c.toLower := by
  apply char_ext
  rw [toNat_toLower]
  unfold Char.toLower
  have e1 : ('A' : Char).val.toNat = 65 := rfl
  have e2 : ('Z' : Char).val.toNat = 90 := rfl
  split <;> split <;> rename_i h1 h2
  · simp only [Char.toNat, UInt32.toNat_add]
    have : ('a'.val - 'A'.val).toNat = 32 := by decide
    simp only [Char.toNat] at h1
    rw [this]; omega
  · exfalso; apply h2
    simp only [ge_iff_le, UInt32.le_iff_toNat_le, e1, e2]
    exact h1
  · exfalso; apply h1
    simp only [ge_iff_le, UInt32.le_iff_toNat_le, e1, e2] at h2
    exact h2
  · rfl

theorem toUpper_eq_core (c : Char) : toUpper c = c.toUpper := by
  apply char_ext
  rw [toNat_toUpper]
  unfold Char.toUpper
  have e1 : ('a' : Char).val.toNat = 97 := rfl
  have e2 : ('z' : Char).val.toNat = 122 := rfl
  split <;> split <;> rename_i h1 h2
  · simp only [Char.toNat, UInt32.toNat_add]
    have : ('A'.val - 'a'.val).toNat = 4294967264 := by decide
    simp only [Char.toNat] at h1
    rw [this]; omega
  · exfalso; apply h2
    simp only [UInt32.le_iff_toNat_le, e1, e2]
    exact h1
  · exfalso; apply h1
    simp only [UInt32.le_iff_toNat_le, e1, e2] at h2
    exact h2
  · rfl

theorem isUpper_iff (c : Char) : isUpper c = true ↔ 65 ≤ c.toNat ∧ c.toNat ≤ 90 := by
  simp [isUpper]

theorem isLower_iff (c : Char) : isLower c = true ↔ 97 ≤ c.toNat ∧ c.toNat ≤ 122 := by
  simp [isLower]

theorem char_eq_iff (a b : Char) : a = b ↔ a.toNat = b.toNat :=
  ⟨fun h => by rw [h], char_ext⟩

theorem isWs_iff (c : Char) :
    isWs c = true ↔ c.toNat = 32 ∨ c.toNat = 9 ∨ c.toNat = 10 ∨ c.toNat = 12 ∨ c.toNat = 13 := by
  simp only [isWs, Bool.or_eq_true, decide_eq_true_eq, char_eq_iff]
  have : (' ' : Char).toNat = 32 ∧ ('\t' : Char).toNat = 9 ∧ ('\n' : Char).toNat = 10
    ∧ ('\x0c' : Char).toNat = 12 ∧ ('\r' : Char).toNat = 13 := by decide
  omega

theorem toLower_idem (c : Char) : toLower (toLower c) = toLower c := by
  apply char_ext; simp only [toNat_toLower]; split <;> (try split) <;> omega

theorem lowerAll_idem (s : Str) : lowerAll (lowerAll s) = lowerAll s := by
  simp [lowerAll, toLower_idem, Function.comp_def]

theorem lowerAll_length (s : Str) : (lowerAll s).length = s.length := by simp [lowerAll]

/-! ### Name comparison -/

theorem isEqualCharsLoop_none (a b : Str) (h : a.length = b.length) :
    isEqualCharsLoop none a b = true ↔ a = b := by
  induction a generalizing b with
  | nil => cases b <;> simp_all [isEqualCharsLoop]
  | cons x xs ih =>
    cases b with
    | nil => simp at h
    | cons y ys =>
      have h' : xs.length = ys.length := by simpa using h
      simp only [isEqualCharsLoop, eqCharCase]
      by_cases e : x = y
      · simp [e, ih ys h']
      · simp [e]

@[simp] theorem isEqualChars_none (a b : Str) : isEqualChars a b none = true ↔ a = b := by
  unfold isEqualChars
  by_cases h : a.length = b.length
  · simp [h, isEqualCharsLoop_none a b h]
  · simp only [ne_eq, h, not_false_eq_true, if_true, Bool.false_eq_true, false_iff]
    intro e; exact h (by rw [e])

theorem isEqualCharsLoop_lower (a b : Str) (h : a.length = b.length)
    (hb : ∀ c ∈ b, toLower c = c) :
    isEqualCharsLoop (some .lower) a b = true ↔ lowerAll a = b := by
  induction a generalizing b with
  | nil => cases b <;> simp_all [isEqualCharsLoop, lowerAll]
  | cons x xs ih =>
    cases b with
    | nil => simp at h
    | cons y ys =>
      have h' : xs.length = ys.length := by simpa using h
      have hy : toLower y = y := hb y (by simp)
      have := ih ys h' (fun c hc => hb c (by simp [hc]))
      simp only [isEqualCharsLoop, eqCharCase, lowerAll, List.map_cons, List.cons.injEq]
      simp only [lowerAll] at this
      by_cases e : x = y
      · simp [e, hy, this]
      · by_cases e2 : toLower x = y
        · simp [e, e2, this]
        · simp [e, e2]

/-- `is_equal_chars(a, b, Some(NameCase::Lower))` against a lower-case constant. -/
theorem isEqualChars_lower (a b : Str) (hb : ∀ c ∈ b, toLower c = c) :
    isEqualChars a b (some .lower) = true ↔ lowerAll a = b := by
  unfold isEqualChars
  by_cases h : a.length = b.length
  · simp [h, isEqualCharsLoop_lower a b h hb]
  · simp only [ne_eq, h, not_false_eq_true, if_true, Bool.false_eq_true, false_iff]
    intro e; exact h (by rw [← e, lowerAll_length])

theorem ignoreCase_char (t c : Char) :
    toLower t = toLower c ↔ (c = t ∨ (isLower c = true ∧ toUpper c = t) ∨ (isUpper c = true ∧ toLower c = t)) := by
  simp only [char_eq_iff, toNat_toLower, toNat_toUpper, isLower_iff, isUpper_iff]
  split <;> split <;> split <;> omega

theorem isEqualIgnoreCaseLoop_spec (t c : Str) (h : t.length = c.length) (same : Bool) :
    isEqualIgnoreCaseLoop t c same =
      if lowerAll t = lowerAll c then (true, same && decide (t = c)) else (false, false) := by
  induction t generalizing c same with
  | nil => cases c <;> simp_all [isEqualIgnoreCaseLoop, lowerAll]
  | cons x xs ih =>
    cases c with
    | nil => simp at h
    | cons y ys =>
      have h' : xs.length = ys.length := by simpa using h
      have key := ignoreCase_char x y
      simp only [isEqualIgnoreCaseLoop, lowerAll, List.map_cons, List.cons.injEq]
      by_cases e : y = x
      · subst e
        rw [if_pos rfl, ih ys h']
        simp [lowerAll]
        split <;> rename_i hh <;> simp [hh]
      · have e' : ¬ x = y := fun h => e h.symm
        rw [if_neg e]
        by_cases l : isLower y = true
        · have nu : isUpper y = false := by
            rw [Bool.eq_false_iff, ne_eq, isUpper_iff]; rw [isLower_iff] at l; omega
          simp only [l, if_true]
          by_cases u : toUpper y = x
          · have : toLower x = toLower y := key.2 (Or.inr (Or.inl ⟨l, u⟩))
            simp [u, this, ih ys h', e', lowerAll]
          · have : ¬ toLower x = toLower y := by
              intro hh; rcases key.1 hh with h1 | h1 | h1
              · exact e h1
              · exact u h1.2
              · simp [nu] at h1
            simp [u, this]
        · simp only [l, Bool.false_eq_true, if_false]
          by_cases up : isUpper y = true
          · simp only [up, if_true]
            by_cases u : toLower y = x
            · have : toLower x = toLower y := key.2 (Or.inr (Or.inr ⟨up, u⟩))
              simp [u, this, ih ys h', e', lowerAll]
            · have : ¬ toLower x = toLower y := by
                intro hh; rcases key.1 hh with h1 | h1 | h1
                · exact e h1
                · exact l h1.1
                · exact u h1.2
              simp [u, this]
          · simp only [up, Bool.false_eq_true, if_false]
            have : ¬ toLower x = toLower y := by
              intro hh; rcases key.1 hh with h1 | h1 | h1
              · exact e h1
              · exact l h1.1
              · exact up h1.1
            simp [this]

theorem isEqualCharsIgnoreCase_spec (t c : Str) :
    isEqualCharsIgnoreCase t c =
      if lowerAll t = lowerAll c then (true, decide (t = c)) else (false, false) := by
  unfold isEqualCharsIgnoreCase
  by_cases h : t.length = c.length
  · simp [h, isEqualIgnoreCaseLoop_spec t c h]
  · have : ¬ lowerAll t = lowerAll c := by
      intro e; apply h; rw [← lowerAll_length t, e, lowerAll_length]
    simp [h, this]

end Rphtml
