import Verif.Spec.Wf
import Verif.Spec.Join

/-!
# What a repaired document is read back as

`auto_fix_unescaped_lt` puts a text into a void or raw-text element.  When it is written down and read again, the text inside a
void element stands behind the element, and the text inside a raw-text element is part of the raw text.  A raw-text element whose
start tag was not finished has no raw text, and is read back with an empty one.
-/

namespace Rphtml.Spec

/-- The characters of the texts among the nodes. -/
def textChars : List PNode → Str
  | [] => []
  | .text w :: ps => w ++ textChars ps
  | _ :: ps => textChars ps

mutual
/-- Empty the void and raw-text elements of texts. -/
def mendNode : PNode → List PNode
  | .elem n as sc ct ks e =>
    if isVoid n then .elem n as sc ct [] e :: mendNodes ks
    else if isRaw n ∧ sc = false then [.elem n as sc (some (ct.getD [] ++ textChars ks)) [] e]
    else [.elem n as sc ct (mendNodes ks) e]
  | p => [p]

/-- The same for a list of nodes. -/
def mendNodes : List PNode → List PNode
  | [] => []
  | p :: ps => mendNode p ++ mendNodes ps
end

/-- The document that the source text of the document is read as. -/
def mended (ps : List PNode) : List PNode := joinTexts (mendNodes ps)

/-- The options without the repairs. -/
def strict (o : ParseOptions) : ParseOptions :=
  { o with autoFixUnclosedTag := false, autoFixUnexpectedEndtag := false, autoFixUnescapedLt := false }

example : mended [.elem ['b', 'r'] [] false none [.text ['a']] none, .text ['b'],
      .elem "title".toList [] false (some ['c']) [.text ['d']] (some "title".toList)] =
    [.elem ['b', 'r'] [] false none [] none, .text ['a', 'b'], .elem "title".toList [] false (some ['c', 'd']) [] (some "title".toList)] := by
  decide +kernel

end Rphtml.Spec
