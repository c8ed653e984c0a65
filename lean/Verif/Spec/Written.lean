import Verif.Spec.Doc
import Verif.Spec.Text

/-!
# Texts that spell a document

`writtens ps s` says that `s` is one of the ways to write the document `ps`: texts, comments and raw contents stand as they
are, a tag is its name and its attributes, in order, with some whitespace, `/` and `=` in between.
-/

namespace Rphtml.Spec

/-- A character that may stand between the pieces of a tag. -/
def gapChar (c : Char) : Prop := c ∈ ws ∨ c = '/' ∨ c = '='

instance (c : Char) : Decidable (gapChar c) := by unfold gapChar; infer_instance

/-- A value with its quotes. -/
def quoted : Option Char → Str → Str
  | none, v => v
  | some q, v => [q] ++ v ++ [q]

/-- An attribute may begin behind this text. -/
def sep (t : Str) : Prop := ∃ u c, t = u ++ [c] ∧ (gapChar c ∨ c = '"' ∨ c = '\'')

/-- A text that spells a list of attributes: names and values stand as they are, a `=` stands between a name and its
value, and an attribute begins only behind a gap or a closing quote. -/
inductive Laid : List Attr → Str → Prop
  | nil : Laid [] []
  | gap {as : List Attr} {t : Str} {c : Char} : Laid as t → gapChar c → Laid as (t ++ [c])
  | bare {as : List Attr} {t k : Str} : Laid as t → sep t → Laid (as ++ [{ key := some k }]) (t ++ k)
  | value {as : List Attr} {t k g v : Str} {q : Option Char} : Laid as t → sep t → (∀ c ∈ g, gapChar c) → '=' ∈ g →
      Laid (as ++ [{ key := some k, value := some v, quote := q }]) (t ++ k ++ g ++ quoted q v)
  | lone {as : List Attr} {t v : Str} {q : Char} : Laid as t → sep t →
      Laid (as ++ [{ value := some v, quote := some q }]) (t ++ quoted (some q) v)

/-- The end of a tag: one that closes itself has a `/` before its `>`, perhaps with some whitespace in between. -/
def tail (sc : Bool) (z : Str) : Prop :=
  if sc then ∃ w, z = '/' :: w ++ ['>'] ∧ ∀ c ∈ w, c ∈ ws else z = ['>']

mutual
/-- A text that spells a node. -/
def written : PNode → Str → Prop
  | .text w, s => s = w
  | .comment w, s => s = "<!--".toList ++ w ++ "-->".toList
  | .cdata w, s => ∃ k, fold k = "[cdata[".toList ∧ s = "<!".toList ++ k ++ w ++ "]]>".toList
  | .doctype n as sc, s => ∃ t z, Laid as t ∧ tail sc z ∧ s = "<!".toList ++ n ++ t ++ z
  | .elem n as sc ct ks e, s => ∃ t z w, Laid as t ∧ tail sc z ∧ writtens ks w ∧
      s = "<".toList ++ n ++ t ++ z ++ ct.getD [] ++ w ++
        (match e with
          | some e => "</".toList ++ e ++ ">".toList
          | none => [])

/-- A text that spells a list of nodes. -/
def writtens : List PNode → Str → Prop
  | [], s => s = []
  | p :: ps, s => ∃ a b, s = a ++ b ∧ written p a ∧ writtens ps b
end

/-- Two texts are equal up to whitespace, `/` and `=`, and up to the case of the word `CDATA` in a `<![CDATA[`. -/
inductive Agree : Str → Str → Prop
  | nil : Agree [] []
  | char (c : Char) {s r : Str} : Agree s r → Agree (c :: s) (c :: r)
  | left {c : Char} {s r : Str} : gapChar c → Agree s r → Agree (c :: s) r
  | right {c : Char} {s r : Str} : gapChar c → Agree s r → Agree s (c :: r)
  | cdata {k s r : Str} : fold k = "[cdata[".toList → Agree s r → Agree ("<!".toList ++ k ++ s) ("<![CDATA[".toList ++ r)

end Rphtml.Spec
