import Verif.Model.Basic

/-!
# Reading the position back from the text of an error
-/

namespace Rphtml.Spec

/-- The number at the beginning of a text, and what follows it; the number starts with `n`. -/
def number (n : Nat) : Str → Nat × Str
  | [] => (n, [])
  | c :: s => if '0' ≤ c ∧ c ≤ '9' then number (10 * n + (c.toNat - 48)) s else (n, c :: s)

/-- What follows `p` in a text that begins with it. -/
def behind (p s : Str) : Option Str := if p <+: s then some (s.drop p.length) else none

/-- The position at the beginning of a text, and what follows it. -/
def position (s : Str) : Option (CodeRegion × Str) := do
  let s ← behind "[line:".toList s
  let (line, s) := number 0 s
  let s ← behind ",col:".toList s
  let (col, s) := number 0 s
  let s ← behind ",index:".toList s
  let (index, s) := number 0 s
  let s ← behind "]".toList s
  some (⟨index, line, col⟩, s)

end Rphtml.Spec
