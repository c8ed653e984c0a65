import Verif.Model.Basic

/-! # Files as bytes (spec) -/

namespace Rphtml.Spec

/-- The UTF-8 encoding of a text. -/
def utf8 (s : Str) : List UInt8 := s.flatMap String.utf8EncodeChar

/-- The text is empty or ends with a newline. -/
def wholeLines (u : Str) : Prop := u = [] ∨ u.getLast? = some '\n'

/-- The first line of these bytes cannot be read: it is not the encoding of a text, or it is the last one, and reading
fails before its end. -/
def badLine (rest : List UInt8) (fails : Bool) : Prop :=
  (∃ w z, rest = w ++ 10 :: z ∧ 10 ∉ w ∧ ∀ s, utf8 s ≠ w ++ [10]) ∨
  (10 ∉ rest ∧ (fails = true ∨ ∀ s, utf8 s ≠ rest))

end Rphtml.Spec
