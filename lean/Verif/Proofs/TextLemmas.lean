import Verif.Proofs.Chars
import Verif.Spec.Text

/-! Relating the model's character helpers to the specification vocabulary. -/

namespace Rphtml
open Spec

theorem isWs_eq (c : Char) : isWs c = decide (c ∈ ws) := by
  simp [isWs, ws, Bool.or_assoc]

theorem isWs_mem (c : Char) : isWs c = true ↔ c ∈ ws := by simp [isWs_eq]

theorem not_isWs_mem (c : Char) : isWs c = false ↔ c ∉ ws := by simp [isWs_eq]

theorem lowerAll_eq_fold (s : Str) : lowerAll s = fold s := by
  unfold lowerAll fold; congr 1; funext c; exact toLower_eq_core c

theorem charsTrimEnd_eq (s : Str) : charsTrimEnd s = trimEnd s := by
  unfold charsTrimEnd trimEnd
  have h1 : (s.reverse.takeWhile isWs).length + (s.reverse.dropWhile isWs).length = s.length := by
    rw [← List.length_append, List.takeWhile_append_dropWhile, List.length_reverse]
  have hp : (fun c => decide (c ∈ ws)) = isWs := by funext c; rw [isWs_eq]
  rw [hp]
  have h2 : s = (s.reverse.dropWhile isWs).reverse ++ (s.reverse.takeWhile isWs).reverse := by
    rw [← List.reverse_append, List.takeWhile_append_dropWhile, List.reverse_reverse]
  have h3 : s.length - (s.reverse.takeWhile isWs).length = (s.reverse.dropWhile isWs).reverse.length := by
    rw [List.length_reverse]; omega
  rw [h3]
  have h4 : ∀ (a b : Str), s = a ++ b → s.take a.length = a := by
    intro a b h; rw [h]; simp
  exact h4 _ _ h2

end Rphtml
