/-!
# Specification vocabulary for texts

Independent of the model: only core `List`/`Char` operations.
-/

namespace Rphtml.Spec

/-- Number of line breaks; `\r\n` counts once. -/
def lineBreaks : List Char → Nat
  | [] => 0
  | '\r' :: '\n' :: cs => 1 + lineBreaks cs
  | '\r' :: cs => 1 + lineBreaks cs
  | '\n' :: cs => 1 + lineBreaks cs
  | _ :: cs => lineBreaks cs

/-- Number of characters after the last line break. -/
def lastLineLength (s : List Char) : Nat :=
  (s.reverse.takeWhile fun c => c ≠ '\r' ∧ c ≠ '\n').length

/-- ASCII case folding of a name. -/
def fold (s : List Char) : List Char := s.map Char.toLower

/-- Equality up to ASCII case. -/
def sameName (a b : List Char) : Prop := fold a = fold b

instance (a b : List Char) : Decidable (sameName a b) :=
  inferInstanceAs (Decidable (fold a = fold b))

/-- The five ASCII whitespace characters. -/
def ws : List Char := [' ', '\t', '\n', '\x0c', '\r']

/-- The visible (non-whitespace) characters of a text. -/
def visible (s : List Char) : List Char := s.filter fun c => c ∉ ws

/-- Cut a text at every whitespace character. -/
def splitWs : List Char → List (List Char)
  | [] => [[]]
  | c :: cs =>
    if c ∈ ws then [] :: splitWs cs
    else
      match splitWs cs with
      | [] => [[c]]
      | w :: rest => (c :: w) :: rest

/-- The words of a text: the non-empty pieces between whitespace characters. -/
def words (s : List Char) : List (List Char) := (splitWs s).filter fun w => !w.isEmpty

/-- No two whitespace characters in a row. -/
def noDoubleWs (s : List Char) : Prop :=
  ∀ a x y b, s = a ++ x :: y :: b → ¬ (x ∈ ws ∧ y ∈ ws)

/-- Remove the trailing whitespace: the longest prefix that does not end in whitespace. -/
def trimEnd (s : List Char) : List Char := (s.reverse.dropWhile fun c => c ∈ ws).reverse

end Rphtml.Spec
