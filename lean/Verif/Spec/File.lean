import Verif.Model.Basic

/-! # Text files (spec) -/

namespace Rphtml.Spec

/-- Replace every `\r\n` by `\n`. -/
def crlfToLf : Str → Str
  | [] => []
  | '\r' :: '\n' :: cs => '\n' :: crlfToLf cs
  | c :: cs => c :: crlfToLf cs

/-- End a non-empty text with `\n`. -/
def endNl (s : Str) : Str := if s = [] ∨ s.getLast? = some '\n' then s else s ++ ['\n']

/-- The text of a file with `\r\n` normalised to `\n` and a final newline. -/
def fileText (s : Str) : Str := endNl (crlfToLf s)

end Rphtml.Spec
