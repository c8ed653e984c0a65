import Verif.Model.Basic

/-!
# What is shown of an error

The `Display` implementations of src/error.rs and src/position.rs.  `format!` with `{}` on a `String` or a `char` copies it; on a
`usize` it writes the decimal digits without leading zeros.
-/

namespace Rphtml

/-- `Display` of a `usize` (of the standard library). -/
def decimal (n : Nat) : Str :=
  if n < 10 then [Char.ofNat (48 + n)] else decimal (n / 10) ++ [Char.ofNat (48 + n % 10)]
decreasing_by omega

/-- `Display` of `CodeRegion` (position.rs:58-63). -/
def CodeRegion.display (r : CodeRegion) : Str :=
  "[line:".toList ++ decimal r.line ++ ",col:".toList ++ decimal r.col ++ ",index:".toList ++ decimal r.index ++ "]".toList

/-- `Display` of `ErrorKind`, from the `#[error(…)]` attributes (error.rs:28-58). -/
def ErrorKind.display : ErrorKind → Str
  | .wrongTag s => "wrong tag <".toList ++ s
  | .wrongEndTag s => "wrong end tag </".toList ++ s
  | .childInSpecialTag s c => "wrong child tag '<".toList ++ [c] ++ "' in tag '".toList ++ s ++ "'".toList
  | .unmatchedClosedTag s => "unmatched tag '</".toList ++ s ++ ">'".toList
  | .unexpectedCharacter c => "unexpected character '".toList ++ [c] ++ "'".toList
  | .unclosedTag s => "the tag '".toList ++ s ++ "' is not closed".toList
  | .noSpaceBetweenAttr c => "the tag's attribute should split by spaces,wrong character '".toList ++ [c] ++ "'".toList
  | .wrongHtmlDoctype c => "unexpected character '".toList ++ [c] ++ "' in html doctype decalaration".toList
  | .unrecognizedTag s t => "unrecognized tag '".toList ++ s ++ "', do you mean '".toList ++ t ++ "'".toList
  | .wrongTagIdentity s => "wrong tag name '".toList ++ s ++ "'".toList
  | .wrongRootTextNode s => "not allowed text '".toList ++ s ++ "' in root node".toList
  | .wrongCaseSensitive s => "because the config of 'case-sensitive', the tag '".toList ++ s ++ "' is not matched correctly.".toList
  | .wrongSelfClosing s => "wrong self-closing tag '".toList ++ s ++ "',make sure you set the config allow self-closing.".toList
  | .commonError s => s

/-- `Display` of `ParseError` (error.rs:18-23). -/
def ParseError.display (e : ParseError) : Str := e.region.display ++ e.kind.display

end Rphtml
