import Verif.Model.Basic
import Verif.Spec.Text

/-!
# Character references
-/

namespace Rphtml.Spec

/-- What stands before and after the first semicolon. -/
def cutSemi : Str → Option (Str × Str)
  | [] => none
  | c :: cs => if c = ';' then some ([], cs) else (cutSemi cs).map fun x => (c :: x.1, x.2)

theorem cutSemi_length : ∀ {s e r : Str}, cutSemi s = some (e, r) → r.length < s.length
  | [], _, _, h => by cases h
  | c :: cs, e, r, h => by
    unfold cutSemi at h
    split at h
    · simp only [Option.some.injEq, Prod.mk.injEq] at h
      rw [← h.2]; simp
    · cases hc : cutSemi cs with
      | none => rw [hc] at h; cases h
      | some x =>
        rw [hc] at h
        simp only [Option.map_some, Option.some.injEq, Prod.mk.injEq] at h
        have := cutSemi_length (e := x.1) (r := x.2) hc
        rw [← h.2]; simp; omega

/-- Replace every `&e;` by the character that `e` stands for; leave it if it stands for none. -/
def decodeBy (one : Str → Option Char) : Str → Str
  | [] => []
  | c :: cs =>
    if c = '&' then
      match h : cutSemi cs with
      | none => c :: cs
      | some (e, r) =>
        have := cutSemi_length h
        (match one e with
          | some d => [d]
          | none => ['&'] ++ e ++ [';']) ++ decodeBy one r
    else c :: decodeBy one cs
termination_by s => s.length
decreasing_by all_goals simp_all <;> omega

/-- No `&` stands directly after a whitespace character. -/
def noSpaceAmp (s : Str) : Prop := ∀ w ∈ ws, ¬ [w, '&'] <:+: s

instance (s : Str) : Decidable (noSpaceAmp s) := inferInstanceAs (Decidable (∀ w ∈ ws, _))

/-- A piece of a text: a plain character, a reference `&e;`, or an `&` without a `;` behind it and all that follows. -/
inductive Piece where
  | char (c : Char)
  | ref (e : Str)
  | rest (s : Str)

/-- A text cut at its references. -/
inductive Cut : Str → List Piece → Prop
  | nil : Cut [] []
  | char {c : Char} {s : Str} {ps : List Piece} (hc : c ≠ '&') (h : Cut s ps) : Cut (c :: s) (.char c :: ps)
  | ref {e s : Str} {ps : List Piece} (he : ';' ∉ e) (h : Cut s ps) : Cut ('&' :: (e ++ ';' :: s)) (.ref e :: ps)
  | rest {s : Str} (hs : ';' ∉ s) : Cut ('&' :: s) [.rest s]

/-- A piece decoded. -/
def Piece.out (one : Str → Option Char) : Piece → Str
  | .char c => [c]
  | .ref e =>
    match one e with
    | some d => [d]
    | none => '&' :: (e ++ [';'])
  | .rest s => '&' :: s

/-- The plain characters. -/
def plain (ps : List Piece) : Str := ps.filterMap fun p => match p with
  | .char c => some c
  | _ => none

/-- A plain whitespace character, and the last plain character before it is whitespace as well; references do not count. -/
def again (before : List Piece) : Piece → Bool
  | .char c => decide (c ∈ ws) && (plain before).getLast?.any (· ∈ ws)
  | _ => false

/-- The characters of the decoded text, each with whether it is kept. -/
def flagged (one : Str → Option Char) (ps : List Piece) : List (Char × Bool) :=
  ps.zipIdx.flatMap fun x => (x.1.out one).map fun c => (c, !again (ps.take x.2) x.1)

/-- All characters between two visible ones are dropped, and there are some. -/
def joins (l : List (Char × Bool)) : Prop :=
  ∃ a x m y b, l = a ++ [x] ++ m ++ [y] ++ b ∧ x.1 ∉ ws ∧ m ≠ [] ∧ (∀ z ∈ m, z.2 = false) ∧ y.1 ∉ ws

end Rphtml.Spec
