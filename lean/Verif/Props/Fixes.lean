import Verif.Proofs.Join
import Verif.Proofs.Open
import Verif.Proofs.OptMono
import Verif.Proofs.Prefix
import Verif.Props.Blocks

/-!
# C21, C22, C23: what the three repairs do
-/

namespace Rphtml
open Spec

theorem frameNames_ok {o : ParseOptions} : ∀ (fs : List Frame) (f : Frame), StackOk o (f :: fs) → ∀ n ∈ frameNames f fs, TagNameOk n
  | [], _, _, n, hn => by simp [frameNames] at hn
  | g :: gs, f, h, n, hn => by
    simp only [StackOk] at h
    simp only [frameNames, List.mem_cons] at hn
    rcases hn with rfl | hn
    · exact h.1
    · exact frameNames_ok gs g h.2.2.2.2.2 n hn

/-- **C21.**  With `auto_fix_unclosed_tag`, a text that ends outside of markup is read as the same text followed by the end
tags of the open elements, innermost first; without the option that longer text is read the same way. -/
theorem c21_unclosed {o : ParseOptions} {s : Str} (h : outside s o = true) (ho : o.autoFixUnclosedTag = true) :
    ∃ ps, docOf s o = some ps ∧ docOf (s ++ endTags (openNames s o)) o = some ps ∧
      (o.autoFixUnexpectedEndtag = false → docOf (s ++ endTags (openNames s o)) { o with autoFixUnclosedTag := false } = some ps) := by
  obtain ⟨a, ha, hout⟩ := outside_iff.1 h
  obtain ⟨b, h1, h2, h3, h4, h5⟩ := close_run a.rest a rfl hout (WfInv.run ha).stack
  have hb : arun o {} (s ++ endTags (openNames s o)) = some b := by
    rw [arun_append, ha, openNames_machine ha hout]; exact h1
  have hres : b.result = a.result := by rw [result_eq b, h3, closeKids, h4]
  refine ⟨a.result, docOf_machine ha ((final_iff o a).2 ⟨hout, .inr ho⟩), ?_, fun hu => ?_⟩
  · rw [docOf_machine hb ((final_iff o b).2 ⟨h2, .inl h3⟩), hres]
  · have := run_mono (o := o) (o' := { o with autoFixUnclosedTag := false }) ⟨rfl, id, id, id, id⟩ (.inl hu) hb h2
    rw [docOf_machine this ((final_iff _ b).2 ⟨h2, .inl h3⟩), hres]

/-- **C21**, with stray end tags repaired as well: after those end tags nothing is open any more. -/
theorem c21_all_closed {o : ParseOptions} {s b : Str} {ps : List PNode} (h : outside s o = true) (ho : o.autoFixUnclosedTag = true)
    (hs : docOf s o = some ps) (hd : ∀ n as, .doctype n as true ∉ ps) (hb : b ≠ []) (hb' : ¬ ['-', '-', '>'] <:+: b.tail) :
    docOf (s ++ endTags (openNames s o) ++ (['<', '!', '-', '-'] ++ b ++ ['-', '-', '>'])) o = some (ps ++ [.comment b]) := by
  obtain ⟨a, ha, hout⟩ := outside_iff.1 h
  obtain ⟨x, h1, h2, h3, h4, h5⟩ := close_run a.rest a rfl hout (WfInv.run ha).stack
  have hx : arun o {} (s ++ endTags (openNames s o)) = some x := by
    rw [arun_append, ha, openNames_machine ha hout]; exact h1
  have hps : ps = a.result := by
    rw [docOf_machine ha ((final_iff o a).2 ⟨hout, .inr ho⟩)] at hs
    exact (Option.some.inj hs).symm
  have hov : x.over = false := by
    rw [h5]
    cases q : a.over with
    | false => rfl
    | true =>
      obtain ⟨k1, n, as, k⟩ := OverInv.run ha q
      rw [result_eq, k1, closeKids] at hps
      rw [← hps] at k
      exact absurd k (hd n as)
  rw [hps, ← h4]
  refine docOf_push (l := .other) (mk := '\x00') ?_ h3
  rw [List.append_assoc ['<', '!', '-', '-'], ← List.append_assoc, arun_append, arun_append, hx, Option.bind_some, comment_open h2,
    if_neg (by rw [hov]; simp), Option.bind_some]
  exact read_comment (cd := false) (a := { x with mode := .comment false [], mark := '-' }) '-' rfl rfl hb hb'

/-- **C21**, the other side: a text that ends inside a comment, an end tag or the like is still rejected. -/
theorem c21_rejected {o : ParseOptions} {s : Str} (h : outside s o = false) (h' : endsInStartTag s o = false) : docOf s o = none := by
  cases ha : arun o {} s with
  | none => exact docOf_stop ha
  | some a =>
    refine docOf_pending ha ?_ ?_
    · cases q : a.mode.outside with
      | false => rfl
      | true => rw [outside_iff.2 ⟨a, ha, q⟩] at h; cases h
    · cases q : a.mode.inStart with
      | false => rfl
      | true => rw [endsInStartTag_iff.2 ⟨a, ha, q⟩] at h'; cases h'

theorem ModeSim.inStart {o : ParseOptions} {m m' : Mode} (h : ModeSim o m m') : m.inStart = m'.inStart := by
  cases h with
  | tag _ => rename_i isDoc _ _ _; cases isDoc <;> rfl
  | _ => rfl

/-- The documents of two runs that stay in step. -/
theorem docOf_sim {Fit : Last → List PNode → Prop} {K : Frame → List Frame → Frame → List Frame → Prop} (hK : KRel Fit K)
    {o : ParseOptions} {s t : Str} (h : OptRel (Sim K o) (arun o {} s) (arun o {} t)) (hc : complete s o) :
    (docOf s o = none ∧ docOf t o = none) ∨ ∃ F G, K F [] G [] ∧ docOf s o = some F.kids ∧ docOf t o = some G.kids := by
  cases h1 : arun o {} s with
  | none =>
    cases h2 : arun o {} t with
    | none => exact .inl ⟨docOf_stop h1, docOf_stop h2⟩
    | some b => rw [h1, h2] at h; exact h.elim
  | some a =>
    cases h2 : arun o {} t with
    | none => rw [h1, h2] at h; exact h.elim
    | some b =>
      rw [h1, h2] at h
      have h : Sim K o a b := h
      have hc' : complete t o := complete_iff.2 fun q x hx => by
        rw [h2] at hx; cases hx
        rw [← h.mode.inStart]
        exact complete_iff.1 hc q a h1
      have hf := h.final hK
      cases q : a.final o with
      | false =>
        left
        exact ⟨docOf_none hc fun x hx => by rw [h1] at hx; cases hx; exact q,
          docOf_none hc' fun x hx => by rw [h2] at hx; cases hx; rw [← hf]; exact q⟩
      | true =>
        obtain ⟨F, G, k1, k2, k3⟩ := h.result hK
        exact .inr ⟨F, G, k1, by rw [docOf_machine h1 q, k2], by rw [docOf_machine h2 (by rw [← hf, q]), k3]⟩

/-- Equal stacks. -/
def SameStack (f : Frame) (fs : List Frame) (g : Frame) (gs : List Frame) : Prop := f = g ∧ fs = gs

theorem SameStack.rel : KRel (fun _ _ => True) SameStack where
  name := by rintro _ _ _ _ ⟨rfl, rfl⟩; exact ⟨rfl, Iff.rfl⟩
  push := by rintro _ _ _ _ p ⟨rfl, rfl⟩ _; exact ⟨rfl, rfl⟩
  more := by rintro _ _ _ _ p s ⟨rfl, rfl⟩ _; exact ⟨rfl, rfl⟩
  fill := by rintro _ _ _ _ s ⟨rfl, rfl⟩ _; exact ⟨rfl, rfl⟩
  enter := by rintro _ _ _ _ n as ⟨rfl, rfl⟩; exact ⟨rfl, rfl⟩
  leave := by
    rintro f f1 fs g g1 gs e ⟨rfl, h⟩
    injection h with h1 h2
    subst h1; subst h2
    exact ⟨rfl, rfl⟩

theorem docOf_same {o : ParseOptions} {s t : Str} (h : OptRel (Sim SameStack o) (arun o {} s) (arun o {} t)) (hc : complete s o) :
    docOf s o = docOf t o := by
  rcases docOf_sim SameStack.rel h hc with ⟨h1, h2⟩ | ⟨F, G, ⟨rfl, _⟩, h1, h2⟩ <;> rw [h1, h2]

theorem ModeFit.triv (a : AState) : ModeFit (fun _ _ => True) a := by
  unfold ModeFit; cases a.mode <;> trivial

theorem OptRel.refl {K : Frame → List Frame → Frame → List Frame → Prop} (hK : ∀ f fs, K f fs f fs) {o : ParseOptions} (x : Option AState) :
    OptRel (Sim K o) x x := by
  cases x with
  | none => trivial
  | some a => exact ⟨hK _ _, rfl, rfl, .refl _⟩

/-- A stray end tag is read. -/
theorem stray_run {o : ParseOptions} {s : Str} {a : AState} (ha : arun o {} s = some a) (hout : a.mode.outside = true)
    (h1 : o.autoFixUnexpectedEndtag = true) {e : Str} (he : '>' ∉ e)
    (hs : ∀ n, (openNames s o).head? = some n → ¬ sameName (trimEnd e) n) :
    arun o {} (s ++ (['<', '/'] ++ e ++ ['>'])) =
      some { a with mode := .wait (if o.autoFixUnclosedTag then (match a.mode with | .wait l => l | .text p => .text p | _ => .other) else .other) } := by
  have hsl : isAlpha '/' = false := by decide
  have hne : ¬ (a.rest ≠ [] ∧ (isEqualCharsIgnoreCase a.top.name (charsTrimEnd e)).1 = true) := by
    rintro ⟨q1, q2⟩
    rw [openNames_machine ha hout] at hs
    cases hr : a.rest with
    | nil => exact q1 hr
    | cons g gs =>
      rw [hr] at hs
      refine hs a.top.name rfl ?_
      rw [c40_match_iff, charsTrimEnd_eq] at q2
      exact Eq.symm q2
  have key : ∀ l : Last, arun o { a with mode := .lt l } ('/' :: (e ++ ['>'])) =
      some { a with mode := .wait (if o.autoFixUnclosedTag then l else .other) } := by
    intro l
    simp only [arun, astep, hsl, if_true, if_false, Bool.false_eq_true]
    rw [arun_append, arun_tagEnd e [] _ rfl he]
    simp only [Option.bind_some, List.nil_append, arun, astep, if_true]
    rw [if_neg hne, if_pos h1]
  rw [arun_append, ha, Option.bind_some]
  show arun o a ('<' :: '/' :: (e ++ ['>'])) = _
  cases hm : a.mode with
  | wait l =>
    have : arun o a ('<' :: '/' :: (e ++ ['>'])) = arun o { a with mode := .lt l } ('/' :: (e ++ ['>'])) := by
      simp only [arun, astep, hm, if_true]
    rw [this, key]
  | text p =>
    have : arun o a ('<' :: '/' :: (e ++ ['>'])) = arun o { a with mode := .lt (.text p) } ('/' :: (e ++ ['>'])) := by
      simp only [arun, astep, hm, if_true]
    rw [this, key]
  | _ => rw [hm] at hout; cases hout

/-- **C22** with `auto_fix_unclosed_tag`: an end tag that does not have the name of the innermost open element changes nothing,
whatever precedes and follows it. -/
theorem c22_stray_partial {o : ParseOptions} {s e u : Str} (h1 : o.autoFixUnexpectedEndtag = true) (h2 : o.autoFixUnclosedTag = true)
    (h : outside s o = true) (he : '>' ∉ e) (hs : ∀ n, (openNames s o).head? = some n → ¬ sameName (trimEnd e) n)
    (hc : complete (s ++ u) o) : docOf (s ++ (['<', '/'] ++ e ++ ['>']) ++ u) o = docOf (s ++ u) o := by
  obtain ⟨a, ha, hout⟩ := outside_iff.1 h
  refine (docOf_same ?_ hc).symm
  rw [arun_append, ha, arun_append, stray_run ha hout h1 he hs, Option.bind_some, Option.bind_some]
  simp only [h2, if_true]
  refine Sim.run SameStack.rel (P := fun _ => True) (fun _ _ => trivial) (fun _ => ModeFit.triv _) u ⟨⟨rfl, rfl⟩, rfl, rfl, ?_⟩ trivial
  cases hm : a.mode with
  | wait l => exact .refl _
  | text p => exact .text' p h1
  | _ => rw [hm] at hout; cases hout

example : outside "<p>a<b".toList {} = false ∧ outside "<p>a<b>c".toList { autoFixUnclosedTag := true } = true ∧
    openNames "<p>a<b>c".toList { autoFixUnclosedTag := true } = [['b'], ['p']] ∧
    docOf "<p>a<b>c".toList { autoFixUnclosedTag := true } =
      some [.elem ['p'] [] false none [.text ['a'], .elem ['b'] [] false none [.text ['c']] (some ['b'])] (some ['p'])] ∧
    docOf "<p>a<b>c</b></p>".toList {} = docOf "<p>a<b>c".toList { autoFixUnclosedTag := true } := by decide +kernel

/-- A stray end tag in the middle of a text, inside an element. -/
example : docOf ("<p>a".toList ++ (['<', '/'] ++ ['b'] ++ ['>']) ++ "c</p>".toList) { autoFixUnclosedTag := true, autoFixUnexpectedEndtag := true } =
    docOf ("<p>a".toList ++ "c</p>".toList) { autoFixUnclosedTag := true, autoFixUnexpectedEndtag := true } :=
  c22_stray_partial rfl rfl (by decide +kernel) (by decide) (by decide +kernel) (by decide +kernel)

/-- **C22** with either setting of `auto_fix_unclosed_tag`, where the repair of `<` is off: a stray end tag leaves the tree as it
was, except that it may split a text. -/
theorem c22_joined_partial {o : ParseOptions} {s e u : Str} (h1 : o.autoFixUnexpectedEndtag = true) (h2 : o.autoFixUnescapedLt = false)
    (h : outside s o = true) (he : '>' ∉ e) (hs : ∀ n, (openNames s o).head? = some n → ¬ sameName (trimEnd e) n)
    (hc : complete (s ++ u) o) :
    (docOf (s ++ (['<', '/'] ++ e ++ ['>']) ++ u) o).map joinTexts = (docOf (s ++ u) o).map joinTexts := by
  cases h3 : o.autoFixUnclosedTag with
  | true => rw [c22_stray_partial h1 h3 h he hs hc]
  | false =>
    obtain ⟨a, ha, hout⟩ := outside_iff.1 h
    have hr := stray_run ha hout h1 he hs
    simp only [h3, Bool.false_eq_true, if_false] at hr
    have hc' : ∀ t, complete t o := fun t => complete_iff.2 fun q => by rw [h3] at q; cases q
    rcases Sim.forget h2 h3 (Plain.run h2 h3 ha) (WfInv.run ha) hout u with rfl | hu
    · simp only [List.append_nil]
      have hf : AState.final o { a with mode := .wait .other } = a.final o := by
        rw [Bool.eq_iff_iff, final_iff, final_iff, hout]; simp [Mode.outside]
      cases q : a.final o with
      | false =>
        rw [docOf_none (hc' s) fun x hx => by rw [ha] at hx; cases hx; exact q,
          docOf_none (hc' (s ++ (['<', '/'] ++ e ++ ['>']))) fun x hx => by rw [hr] at hx; cases hx; rw [hf]; exact q]
      | true =>
        rw [docOf_machine ha q, docOf_machine hr (by rw [hf, q])]
        simp only [result_eq]
    · have hsim : OptRel (Sim JoinStack o) (arun o {} (s ++ u)) (arun o {} (s ++ (['<', '/'] ++ e ++ ['>']) ++ u)) := by
        rw [arun_append, ha, arun_append, hr]; exact hu
      rcases docOf_sim (JoinStack.rel h2) hsim hc with ⟨k1, k2⟩ | ⟨F, G, k, k1, k2⟩
      · rw [k1, k2]
      · rw [k1, k2]; simp only [Option.map_some, k.top.2.2]

/-- The text is split, and joined again. -/
example : docOf ("<p>a".toList ++ (['<', '/'] ++ ['b'] ++ ['>']) ++ "c</p>".toList) { autoFixUnexpectedEndtag := true } =
      some [.elem ['p'] [] false none [.text ['a'], .text ['c']] (some ['p'])] ∧
    (docOf ("<p>a".toList ++ (['<', '/'] ++ ['b'] ++ ['>']) ++ "c</p>".toList) { autoFixUnexpectedEndtag := true }).map joinTexts =
      (docOf ("<p>a".toList ++ "c</p>".toList) { autoFixUnexpectedEndtag := true }).map joinTexts :=
  ⟨by decide +kernel, c22_joined_partial rfl rfl (by decide +kernel) (by decide) (by decide +kernel) (by decide +kernel)⟩

/-- With the repair of `<` and without `auto_fix_unclosed_tag` more changes: the text goes elsewhere. -/
example : docOf ("<br>".toList ++ (['<', '/'] ++ ['b'] ++ ['>']) ++ "<1".toList) { autoFixUnexpectedEndtag := true, autoFixUnescapedLt := true } =
      some [.elem ['b', 'r'] [] false none [] none, .text "&lt;1".toList] ∧
    docOf ("<br>".toList ++ "<1".toList) { autoFixUnexpectedEndtag := true, autoFixUnescapedLt := true } =
      some [.elem ['b', 'r'] [] false none [.text "&lt;1".toList] none] := by decide +kernel

/-- What is left of C22 is false without `auto_fix_unclosed_tag`: the text is split. -/
example : docOf "a</b>c".toList { autoFixUnexpectedEndtag := true } = some [.text ['a'], .text ['c']] := by decide +kernel

/-! ## C23 -/

theorem addText_addText (s t : Str) (p : PNode) : PNode.addText s (PNode.addText t p) = PNode.addText (t ++ s) p := by
  cases p <;> simp [PNode.addText]

theorem modLast_modLast {α : Type} (f g : α → α) : ∀ l : List α, modLast f (modLast g l) = modLast (fun x => f (g x)) l
  | [] => rfl
  | [a] => rfl
  | a :: b :: l => by
    have ih := modLast_modLast f g (b :: l)
    cases l with
    | nil => rfl
    | cons c l =>
      simp only [modLast] at ih ⊢
      rw [ih]

theorem addTextAt_addTextAt (p : Place) (s t : Str) (ks : List PNode) : addTextAt p s (addTextAt p t ks) = addTextAt p (t ++ s) ks := by
  cases p with
  | top =>
    simp only [addTextAt, modLast_modLast]
    congr 1
    funext x; exact addText_addText s t x
  | nested =>
    simp only [addTextAt, modLast_modLast]
    congr 1
    funext x
    cases x <;> simp only [PNode.modKids, modLast_modLast]
    congr 2
    funext y; exact addText_addText s t y

theorem arun_more {o : ParseOptions} {p : Place} : ∀ (w : Str) {a : AState}, a.mode = .text p → '<' ∉ w → w ≠ [] →
    arun o a w = some (a.more p w)
  | [], _, _, _, h => absurd rfl h
  | [c], a, hm, hw, _ => by
    have hc : c ≠ '<' := fun e => hw (by simp [e])
    simp only [arun, astep, hm, if_neg hc]
  | c :: c' :: w, a, hm, hw, _ => by
    have hc : c ≠ '<' := fun e => hw (by simp [e])
    have ih := arun_more (o := o) (c' :: w) (a := a.more p [c]) (by simpa [AState.more] using hm) (fun e => hw (by simp [e])) (by simp)
    show arun o a ([c] ++ (c' :: w)) = _
    rw [arun_append]
    have : arun o a [c] = some (a.more p [c]) := by simp only [arun, astep, hm, if_neg hc]
    rw [this, Option.bind_some, ih]
    simp only [AState.more, addTextAt_addTextAt, List.singleton_append]

theorem isAlpha_eq (c : Char) : isAlpha c = c.isAlpha := by
  have e : ∀ a : Char, a.val.toNat = a.toNat := fun _ => rfl
  rw [Bool.eq_iff_iff]
  unfold isAlpha isLower isUpper
  unfold Char.isAlpha Char.isUpper Char.isLower
  simp only [Bool.or_eq_true, Bool.and_eq_true, decide_eq_true_eq, ge_iff_le, UInt32.le_iff_toNat_le, e]
  exact or_comm

/-- A `<` that cannot start markup, and its escaped form. -/
theorem escape_run {o : ParseOptions} {a : AState} {c : Char} (h1 : o.autoFixUnescapedLt = true) (hout : a.mode.outside = true)
    (hov : a.over = false) (hh : a.mode ≠ .wait .hole) (hl : ∀ p, a.mode = .wait (.text p) → o.autoFixUnexpectedEndtag = true)
    (ha : isAlpha c = false) (hs : c ≠ '/') (hx : c ≠ '!') :
    arun o a ['<', c] = arun o a (['&', 'l', 't', ';'] ++ [c]) := by
  have hne : o.autoFixUnescapedLt ≠ false := by rw [h1]; simp
  have hamp : ('&' : Char) ≠ '<' := by decide
  -- the right-hand side, once the text has begun
  have right : ∀ (p : Place) (b : AState), b.mode = .text p → arun o b (['l', 't', ';'] ++ [c]) =
      if c = '<' then some { b.more p ['l', 't', ';'] with mode := .lt (.text p) } else some (b.more p ['l', 't', ';', c]) := by
    intro p b hb
    by_cases hc : c = '<'
    · rw [if_pos hc, arun_append, arun_more _ hb (by decide) (by simp), Option.bind_some]
      have : (b.more p ['l', 't', ';']).mode = .text p := hb
      simp only [arun, astep, this, if_pos hc]
    · rw [if_neg hc]
      exact arun_more _ hb (by simp [Ne.symm hc]) (by simp)
  have split : ∀ b, arun o b (['&', 'l', 't', ';'] ++ [c]) = (astep o b '&').bind fun b => arun o b (['l', 't', ';'] ++ [c]) := by
    intro b
    show (match astep o b '&' with | some a' => arun o a' (['l', 't', ';'] ++ [c]) | none => none) = _
    cases astep o b '&' <;> rfl
  rw [split]
  have old : ∀ p, astep o a '&' = some { a.more p ['&'] with mode := .text p } →
      arun o { a with mode := .lt (.text p) } [c] = (astep o a '&').bind fun b => arun o b (['l', 't', ';'] ++ [c]) := by
    intro p hp
    rw [hp, Option.bind_some, right p _ rfl]
    simp only [arun, astep, ha, hs, hx, if_false, Bool.false_eq_true, if_neg hne]
    by_cases hc : c = '<'
    · simp only [if_pos hc, AState.more, addTextAt_addTextAt]; rfl
    · simp only [if_neg hc, AState.more, addTextAt_addTextAt]; rfl
  cases hm : a.mode with
  | text p =>
    have h2 : arun o a ['<', c] = arun o { a with mode := .lt (.text p) } [c] := by simp only [arun, astep, hm, if_true]
    rw [h2]
    refine old p ?_
    simp only [astep, hm, if_neg hamp, AState.more]
  | wait l =>
    have h2 : arun o a ['<', c] = arun o { a with mode := .lt l } [c] := by simp only [arun, astep, hm, if_true]
    rw [h2]
    cases l with
    | hole => exact absurd hm hh
    | text p =>
      refine old p ?_
      simp only [astep, hm, if_neg hamp, hl p hm]
    | other =>
      have h3 : astep o a '&' = some { a.push (.text ['&']) with mode := .text .top } := by
        simp only [astep, hm, if_neg hamp, hov, Bool.false_eq_true, if_false]
      rw [h3, Option.bind_some, right .top _ rfl]
      simp only [arun, astep, ha, hs, hx, if_false, Bool.false_eq_true, if_neg hne]
      have hml : ∀ w (ks : List PNode), modLast (PNode.addText w) (ks ++ [.text ['&']]) = ks ++ [.text (['&'] ++ w)] := by
        intro w ks; rw [modLast_append _ _ (by simp)]; rfl
      by_cases hc : c = '<'
      · simp only [if_pos hc, AState.more, AState.push, addTextAt, hml]; rfl
      · simp only [if_neg hc, AState.more, AState.push, addTextAt, hml]; rfl
  | _ => rw [hm] at hout; cases hout

/-- **C23**: a `<` that cannot start markup is read as `&lt;`, at the same place, unless it follows an element that cannot have
children (where the text becomes a child of that element) or the document has been closed by a self-closed doctype. -/
theorem c23_escape_partial {o : ParseOptions} {s u : Str} {c : Char} (h1 : o.autoFixUnescapedLt = true) (h : outside s o = true)
    (hn : notClosed s o = true) (hh : afterHollow s o = false) (hc : ¬ c.isAlpha ∧ c ≠ '/' ∧ c ≠ '!')
    (hcomp : complete (s ++ '<' :: c :: u) o) : docOf (s ++ '<' :: c :: u) o = docOf (s ++ ['&', 'l', 't', ';'] ++ c :: u) o := by
  obtain ⟨a, ha, hout⟩ := outside_iff.1 h
  have hov := notClosed_machine ha hout hn
  have hw := (WfInv.run ha).last
  refine docOf_same ?_ hcomp
  have e1 : s ++ '<' :: c :: u = s ++ (['<', c] ++ u) := rfl
  have e2 : s ++ ['&', 'l', 't', ';'] ++ c :: u = s ++ ((['&', 'l', 't', ';'] ++ [c]) ++ u) := by simp
  rw [e1, e2, arun_append, arun_append o s, ha, Option.bind_some, Option.bind_some, arun_append, arun_append o (_ ++ _),
    escape_run h1 hout hov ?_ ?_ (by rw [isAlpha_eq]; simpa using hc.1) hc.2.1 hc.2.2]
  · exact OptRel.refl (fun _ _ => ⟨rfl, rfl⟩) _
  · intro q
    rw [afterHollow_machine ha q] at hh; cases hh
  · intro p q
    unfold LastFits at hw
    rw [q] at hw
    exact hw.2 p rfl

example : docOf ("<p>a".toList ++ '<' :: '1' :: "</p>".toList) { autoFixUnescapedLt := true } =
    docOf ("<p>a".toList ++ ['&', 'l', 't', ';'] ++ '1' :: "</p>".toList) { autoFixUnescapedLt := true } ∧
    docOf "<p>a&lt;1</p>".toList {} = some [.elem ['p'] [] false none [.text "a&lt;1".toList] (some ['p'])] :=
  ⟨c23_escape_partial rfl (by decide +kernel) (by decide +kernel) (by decide +kernel) (by decide) (by decide +kernel), by decide +kernel⟩

/-- After a void element the text is put inside it; after a raw element even before its end tag. -/
example : afterHollow "<br>".toList { autoFixUnescapedLt := true } = true ∧
    docOf "<br><1".toList { autoFixUnescapedLt := true } = some [.elem ['b', 'r'] [] false none [.text "&lt;1".toList] none] ∧
    docOf "<br>&lt;1".toList { autoFixUnescapedLt := true } = some [.elem ['b', 'r'] [] false none [] none, .text "&lt;1".toList] ∧
    docOf "<title>a</title><1".toList { autoFixUnescapedLt := true } =
      some [.elem "title".toList [] false (some ['a']) [.text "&lt;1".toList] (some "title".toList)] := by decide +kernel

/-- After a self-closed doctype a text is not accepted, but a `<` is. -/
example : notClosed "<!DOCTYPE a/>".toList { autoFixUnescapedLt := true } = false ∧
    docOf "<!DOCTYPE a/>&lt;1".toList { autoFixUnescapedLt := true } = none ∧
    docOf "<!DOCTYPE a/><1".toList { autoFixUnescapedLt := true } ≠ none := by decide +kernel

end Rphtml
