import Verif.Spec.Level
import Verif.Proofs.Step

/-!
# The parser as a machine on plain values

`astep` is the parser without the node heap: the state holds the finished nodes of every open element as
plain values.  `Proofs/Simulate.lean` shows that the parser of the model is exactly this machine.
-/

namespace Rphtml

/-- What the parser is reading. -/
inductive Mode where
  | wait (l : Last)
  | text (p : Place)
  | lt (l : Last)
  | bang (detect : Option Str) (pc : Str)
  | comment (cdata : Bool) (pc : Str)
  | doctypeName (pc : Str)
  | tagName (pc : Str)
  | inTag (isDoc : Bool) (t : TagSt)
  | tagEnd (pc : Str) (ret : Last)
  | raw (m : TagMeta) (pc : Str)

/-- The state of the machine. -/
structure AState where
  top : Frame := {}
  rest : List Frame := []
  /-- the document itself has been closed (by a self-closed doctype) -/
  over : Bool := false
  /-- inside svg or math -/
  sp : Option (SpecialTag × Str) := none
  mark : Char := '\x00'
  mode : Mode := .wait .other

namespace AState

/-- Add a finished child. -/
def push (a : AState) (p : PNode) : AState := { a with top := { a.top with kids := a.top.kids ++ [p] } }

/-- Append to the text node at a place. -/
def more (a : AState) (p : Place) (s : Str) : AState :=
  { a with top := { a.top with kids := addTextAt p s a.top.kids } }

/-- Put a text into the last child. -/
def fill (a : AState) (s : Str) : AState :=
  { a with top := { a.top with kids := modLast (PNode.modKids fun ks => ks ++ [.text s]) a.top.kids } }

/-- Leave the innermost open element. -/
def pop (a : AState) (endName : Option Str) : AState :=
  match a.rest with
  | [] => { a with over := true }
  | g :: gs =>
    { a with
      top := { g with kids := g.kids ++ [.elem a.top.name a.top.attrs false none a.top.kids endName] }
      rest := gs }

/-- The end of a start tag. -/
def openTag (a : AState) (m : TagMeta) (pc : Str) : AState :=
  if m.isVoid then { a.push (.elem m.name m.attrs false none [] none) with mode := .wait .hole }
  else if isContentTag (lowerAll m.name) none then { a with mode := .raw m pc }
  else
    { a with
      top := { name := m.name, attrs := m.attrs }
      rest := a.top :: a.rest
      sp := match a.sp with
        | some s => some s
        | none => (specialTag (lowerAll m.name)).map fun s => (s, m.name)
      mode := .wait .other }

end AState

/-- The body of a comment or CDATA section whose terminator has just been read up to its `>`. -/
def commentBody (k : Char) (pc : Str) : Option Str :=
  if pc.length > 2 ∧ pc[pc.length - 1]? = some k ∧ pc[pc.length - 2]? = some k then some (pc.take (pc.length - 2))
  else none

/-- The length of the content of a raw-text element whose end tag has just been read up to its `>`. -/
def rawBody (caseSensitive : Bool) (name pc : Str) : Option Nat :=
  (contentMatch caseSensitive (['<', '/'] ++ name).reverse (pc.reverse.dropWhile isWs)).map List.length

/-- One character; `none` is an error or a panic. -/
def astep (o : ParseOptions) (a : AState) (c : Char) : Option AState :=
  match a.mode with
  | .wait l =>
    if c = '<' then some { a with mode := .lt l }
    else
      match l, o.autoFixUnexpectedEndtag with
      | .text p, true => some { a.more p [c] with mode := .text p }
      | _, _ => if a.over then none else some { a.push (.text [c]) with mode := .text .top }
  | .text p => if c = '<' then some { a with mode := .lt (.text p) } else some (a.more p [c])
  | .lt l =>
    if isAlpha c then if a.over then none else some { a with mode := .tagName [c] }
    else if c = '/' then some { a with mode := .tagEnd [] (if o.autoFixUnclosedTag then l else .other) }
    else if c = '!' then some { a with mode := .bang none [] }
    else if o.autoFixUnescapedLt = false then none
    else
      let s := if c = '<' then ['&', 'l', 't', ';'] else ['&', 'l', 't', ';', c]
      let next := fun p => if c = '<' then Mode.lt (.text p) else .text p
      match l with
      | .text p => some { a.more p s with mode := next p }
      | .hole => some { a.fill s with mode := next .nested }
      | .other => some { a.push (.text s) with mode := next .top }
  | .bang none _ =>
    if c = '-' then some { a with mode := .bang (some detectComment) [c] }
    else if c = 'D' ∨ c = 'd' then some { a with mode := .bang (some detectDoctype) [c] }
    else if c = '[' then
      match a.sp with
      | some (_, n) =>
        if a.over = true ∨ a.rest.isEmpty = true ∨ n = a.top.name then none
        else some { a with mode := .bang (some detectCdata) [c] }
      | none => none
    else none
  | .bang (some D) pc =>
    if D[pc.length]? = some (toUpper c) then
      if pc.length + 1 < D.length then some { a with mode := .bang (some D) (pc ++ [c]) }
      else if a.over then none
      else if D = detectComment then some { a with mode := .comment false [], mark := '-' }
      else if D = detectCdata then some { a with mode := .comment true [], mark := ']' }
      else some { a with mode := .doctypeName (pc ++ [c]) }
    else none
  | .comment cd pc =>
    match (if c = '>' then commentBody (if cd then ']' else '-') pc else none) with
    | some b => some { a.push (if cd then .cdata b else .comment b) with mode := .wait .other, mark := '\x00' }
    | none => some { a with mode := .comment cd (pc ++ [c]) }
  | .doctypeName pc =>
    if isWs c then
      some { a with mode := .inTag true ⟨.tagWait, { name := pc, isVoid := isVoidTag (lowerAll pc) }, [], a.mark⟩ }
    else none
  | .tagName pc =>
    let m : TagMeta := { name := pc, isVoid := isVoidTag (lowerAll pc) }
    if c = '>' then some (a.openTag m [])
    else if c = '/' then some { a with mode := .inTag false ⟨.tagSelfClosing, m, [], a.mark⟩ }
    else if isWs c then some { a with mode := .inTag false ⟨.tagWait, m, [], a.mark⟩ }
    else some { a with mode := .tagName (pc ++ [c]) }
  | .inTag isDoc t =>
    match tagChar isDoc o.allowAttrKeyStartsWithEqualSign t c with
    | .cont t' _ => some { a with mode := .inTag isDoc t', mark := t'.mark }
    | .close m pc mark _ =>
      if isDoc then some { a.push (.doctype m.name m.attrs false) with mode := .wait .other, mark := mark }
      else some { a.openTag m pc with mark := mark }
    | .selfClose =>
      if isDoc then some { (a.push (.doctype t.m.name t.m.attrs true)).pop none with mode := .wait .other }
      else if o.allowSelfClosing ∨ t.m.isVoid ∨ a.sp ≠ none then
        some { a.push (.elem t.m.name t.m.attrs true none [] none) with mode := .wait .other }
      else none
    | .err _ => none
  | .tagEnd pc ret =>
    if c = '>' then
      if a.rest ≠ [] ∧ (isEqualCharsIgnoreCase a.top.name (charsTrimEnd pc)).1 = true then
        if o.caseSensitiveTagname = true ∧ (isEqualCharsIgnoreCase a.top.name (charsTrimEnd pc)).2 = false then none
        else
          some { a.pop (some pc) with
            sp := match a.sp with
              | some (s, n) => if n = charsTrimEnd pc then none else some (s, n)
              | none => none
            mode := .wait .other }
      else if o.autoFixUnexpectedEndtag then some { a with mode := .wait ret }
      else none
    else some { a with mode := .tagEnd (pc ++ [c]) ret }
  | .raw m pc =>
    match (if c = '>' then rawBody o.caseSensitiveTagname m.name pc else none) with
    | some n =>
      some { a.push (.elem m.name m.attrs false (some (pc.take n)) [] (some (pc.drop (n + 2)))) with mode := .wait .hole }
    | none => some { a with mode := .raw m (pc ++ [c]) }

/-- A run of the machine. -/
def arun (o : ParseOptions) : AState → Str → Option AState
  | a, [] => some a
  | a, c :: cs =>
    match astep o a c with
    | some a' => arun o a' cs
    | none => none

theorem arun_append (o : ParseOptions) (s t : Str) : ∀ a : AState,
    arun o a (s ++ t) = (arun o a s).bind fun b => arun o b t := by
  induction s with
  | nil => intro a; rfl
  | cons c cs ih =>
    intro a
    simp only [List.cons_append, arun]
    cases astep o a c with
    | none => rfl
    | some b => exact ih b

/-- The finished document when the input ends here: the open elements are closed with their own names. -/
def AState.closeAll : Nat → AState → AState
  | 0, a => a
  | n + 1, a => AState.closeAll n (a.pop (some a.top.name))

/-- The document that the machine has read when the input ends. -/
def AState.result (a : AState) : List PNode := (AState.closeAll a.rest.length a).top.kids

/-- Whether the input may end here. -/
def AState.final (o : ParseOptions) (a : AState) : Bool :=
  (match a.mode with
    | .wait _ | .text _ => true
    | _ => false) && (a.rest.isEmpty || o.autoFixUnclosedTag)

end Rphtml
