import Verif.Proofs.Hoist

/-!
# Two runs that put texts at different places

What is known about the last node decides where a text goes.  Two runs that differ only in that build documents that are the same
up to where texts stand (`Spec.loose`).
-/

namespace Rphtml
open Spec

theorem loose_append (xs ys : List PNode) : loose (xs ++ ys) = (loose xs).foldr glue (loose ys) := by
  unfold loose
  rw [hoistNodes_append, joinTexts_append]

theorem loose_push {ks ks' : List PNode} (h : loose ks = loose ks') (ps : List PNode) : loose (ks ++ ps) = loose (ks' ++ ps) := by
  rw [loose_append, loose_append, h]

theorem loose_elem {n : Str} {as : List Attr} {ks ks' : List PNode} (e : Option Str) (h : loose ks = loose ks') :
    loose [.elem n as false none ks e] = loose [.elem n as false none ks' e] := by
  unfold loose at h ⊢
  simp only [hoistNodes_one, hoistNode]
  split
  · simp only [joinTexts, h]
  · simp only [joinTexts, joinNode, h]

/-- Frames up to where texts stand. -/
def LFrame (f g : Frame) : Prop := f.name = g.name ∧ f.attrs = g.attrs ∧ loose f.kids = loose g.kids

/-- Stacks up to where texts stand. -/
def LStack : Frame → List Frame → Frame → List Frame → Prop
  | f, [], g, [] => LFrame f g
  | f, f1 :: fs, g, g1 :: gs => LFrame f g ∧ LStack f1 fs g1 gs
  | _, _, _, _ => False

theorem LStack.refl : ∀ (fs : List Frame) (f : Frame), LStack f fs f fs
  | [], _ => ⟨rfl, rfl, rfl⟩
  | g :: gs, _ => ⟨⟨rfl, rfl, rfl⟩, LStack.refl gs g⟩

theorem LStack.symm : ∀ (fs gs : List Frame) (f g : Frame), LStack f fs g gs → LStack g gs f fs
  | [], [], _, _, h => ⟨h.1.symm, h.2.1.symm, h.2.2.symm⟩
  | _ :: fs, _ :: gs, _, _, h => ⟨⟨h.1.1.symm, h.1.2.1.symm, h.1.2.2.symm⟩, LStack.symm fs gs _ _ h.2⟩
  | [], _ :: _, _, _, h => h.elim
  | _ :: _, [], _, _, h => h.elim

theorem LStack.top {f g : Frame} {fs gs : List Frame} (h : LStack f fs g gs) : LFrame f g := by
  cases fs <;> cases gs <;> first | exact h | exact h.1 | exact h.elim

theorem LStack.mod {f f' g g' : Frame} {fs gs : List Frame} (h : LStack f fs g gs) (h' : LFrame f' g') : LStack f' fs g' gs := by
  cases fs <;> cases gs <;> first | exact h' | exact ⟨h', h.2⟩ | exact h.elim

theorem LStack.rel : KRel (fun _ _ => False) LStack where
  name := by
    intro f fs g gs h
    refine ⟨h.top.1, ?_⟩
    cases fs <;> cases gs <;> first | exact h.elim | simp
  push := fun p h _ => h.mod ⟨h.top.1, h.top.2.1, loose_push h.top.2.2 [p]⟩
  more := fun _ _ _ q => q.elim
  fill := fun _ _ q => q.elim
  enter := fun _ _ h => ⟨⟨rfl, rfl, rfl⟩, h⟩
  leave := by
    intro f f1 fs g g1 gs e h
    obtain ⟨⟨h1, h2, h3⟩, h4⟩ := h
    refine h4.mod ⟨h4.top.1, h4.top.2.1, ?_⟩
    show loose (f1.kids ++ _) = loose (g1.kids ++ _)
    rw [loose_append, loose_append, h4.top.2.2, h1, h2, loose_elem e h3]

/-- Where a text goes. -/
def putText (l : Last) (t : Str) (ks : List PNode) : List PNode :=
  match l with
  | .text p => addTextAt p t ks
  | .hole => modLast (PNode.modKids fun ks => ks ++ [.text t]) ks
  | .other => ks ++ [.text t]

theorem loose_more (xs : List PNode) (w t : Str) : loose (xs ++ [.text (w ++ t)]) = loose (xs ++ [.text w] ++ [.text t]) := by
  unfold loose
  simp only [hoistNodes_append, hoistNodes_one, hoistNode]
  exact joinTexts_more _ _ _

/-- Wherever it goes, it is the text behind everything else. -/
theorem loose_put {o : ParseOptions} {l : Last} {ks : List PNode} (h : l = .other ∨ Fits o l ks) (t : Str) :
    loose (putText l t ks) = loose (ks ++ [.text t]) := by
  have hole : ∀ (xs : List PNode) n as ct e w, isVoid n ∨ isRaw n →
      loose (xs ++ [.elem n as false ct [.text w] e]) = loose (xs ++ [.elem n as false ct [] e] ++ [.text w]) := by
    intro xs n as ct e w hn
    have he : emptied true n ct e := .inr ⟨rfl, hn⟩
    unfold loose
    simp only [hoistNodes_append, hoistNode, if_pos he, hoistNodes, List.append_assoc, List.append_nil,
      List.singleton_append]
  cases l with
  | other => rfl
  | hole =>
    obtain ⟨xs, n, as, ct, e, rfl, hn⟩ := h.resolve_left (by simp)
    unfold putText
    rw [modLast_append _ _ (by simp)]
    exact hole xs n as ct e t hn
  | text p =>
    have h := h.resolve_left (by simp)
    cases p with
    | top =>
      obtain ⟨xs, w, rfl⟩ := h
      unfold putText addTextAt
      rw [modLast_append _ _ (by simp)]
      exact loose_more xs w t
    | nested =>
      obtain ⟨_, xs, n, as, ct, w, e, rfl, hn⟩ := h
      have e1 : putText (.text .nested) t (xs ++ [PNode.elem n as false ct [.text w] e]) = xs ++ [.elem n as false ct [.text (w ++ t)] e] := by
        simp only [putText, addTextAt]
        rw [modLast_append _ _ (by simp)]; rfl
      rw [e1, hole _ _ _ _ _ _ hn, loose_more, loose_push (hole xs n as ct e w hn).symm]

/-- The place of the next text is known to be a text. -/
def Mode.textLast : Mode → Bool
  | .text _ | .wait (.text _) | .lt (.text _) | .tagEnd _ (.text _) => true
  | _ => false

/-- Modes that differ in what is known about the last node. -/
inductive Alike (o : ParseOptions) : Mode → Mode → Prop
  | out {m m' : Mode} (h : m.outside = true) (h' : m'.outside = true) : Alike o m m'
  | lt (l l' : Last) : Alike o (.lt l) (.lt l')
  | tagEnd (pc : Str) (l l' : Last) : Alike o (.tagEnd pc l) (.tagEnd pc l')
  | sim {m m' : Mode} (h : ModeSim o m m') : Alike o m m'

theorem Alike.outside {o : ParseOptions} {m m' : Mode} (h : Alike o m m') : m.outside = m'.outside := by
  cases h with
  | out h h' => rw [h, h']
  | lt => rfl
  | tagEnd => rfl
  | sim h => cases h <;> rfl

theorem Alike.isLt {o : ParseOptions} {l : Last} {m' : Mode} (h : Alike o (.lt l) m') : ∃ l', m' = .lt l' := by
  cases h with
  | out h => cases h
  | lt l l' => exact ⟨l', rfl⟩
  | sim h => cases h <;> exact ⟨_, rfl⟩

theorem Alike.isEnd {o : ParseOptions} {pc : Str} {l : Last} {m' : Mode} (h : Alike o (.tagEnd pc l) m') : ∃ l', m' = .tagEnd pc l' := by
  cases h with
  | out h => cases h
  | tagEnd pc l l' => exact ⟨l', rfl⟩
  | sim h => cases h <;> exact ⟨_, rfl⟩

/-- States that differ in where texts stand. -/
structure Loosely (o : ParseOptions) (a a' : AState) : Prop where
  stack : LStack a.top a.rest a'.top a'.rest
  over : a.over = a'.over
  sp : a.sp = a'.sp
  mode : Alike o a.mode a'.mode
  text : a.over = true → a.mode.textLast = true → a'.mode.textLast = true

/-- A character of a text. -/
theorem text_step {o : ParseOptions} {a : AState} {c : Char} (hm : a.mode.outside = true) (hc : c ≠ '<') (hw : WfInv o a) :
    (a.over = true → a.mode.textLast = true) ↔ ∃ l p, (l = .other ∨ Fits o l a.top.kids) ∧
      astep o a c = some { a with top := { a.top with kids := putText l [c] a.top.kids }, mode := .text p } := by
  have hf := hw.last
  unfold LastFits at hf
  cases hmo : a.mode with
  | text p =>
    rw [hmo] at hf
    refine iff_of_true (fun _ => rfl) ⟨.text p, p, .inr hf, ?_⟩
    simp only [astep, hmo, if_neg hc, AState.more, putText]
  | wait l =>
    rw [hmo] at hf
    cases l with
    | text p =>
      have hu := hf.2 p rfl
      refine iff_of_true (fun _ => rfl) ⟨.text p, p, .inr hf.1, ?_⟩
      simp only [astep, hmo, if_neg hc, hu, AState.more, putText]
    | hole =>
      simp only [astep, hmo, if_neg hc, Mode.textLast, Bool.false_eq_true, imp_false]
      cases hov : a.over with
      | true => simp
      | false => exact iff_of_true (by simp) ⟨.other, .top, .inl rfl, by simp [hov, AState.push, putText]⟩
    | other =>
      simp only [astep, hmo, if_neg hc, Mode.textLast, Bool.false_eq_true, imp_false]
      cases hov : a.over with
      | true => simp
      | false => exact iff_of_true (by simp) ⟨.other, .top, .inl rfl, by simp [hov, AState.push, putText]⟩
  | _ => rw [hmo] at hm; cases hm

/-- What happens in the modes in which the last node does not matter. -/
theorem astep_textLast {o : ParseOptions} {a b : AState} {c : Char} (h1 : a.mode.outside = false) (h2 : ∀ l, a.mode ≠ .lt l)
    (h3 : ∀ pc l, a.mode ≠ .tagEnd pc l) (hs : astep o a c = some b) : b.mode.textLast = false := by
  cases hm : a.mode with
  | text p => rw [hm] at h1; cases h1
  | wait l => rw [hm] at h1; cases h1
  | lt l => exact absurd hm (h2 l)
  | tagEnd pc l => exact absurd hm (h3 pc l)
  | bang D pc =>
    cases D <;> simp only [astep, hm] at hs <;> repeat' split at hs
    all_goals first | (cases hs; done) | (rw [Option.some.injEq] at hs; subst hs; rfl)
  | comment cd pc =>
    simp only [astep, hm] at hs
    split at hs <;> (rw [Option.some.injEq] at hs; subst hs; rfl)
  | doctypeName pc =>
    simp only [astep, hm] at hs
    split at hs
    · rw [Option.some.injEq] at hs; subst hs; rfl
    · cases hs
  | tagName pc =>
    simp only [astep, hm] at hs
    split at hs
    · rw [Option.some.injEq] at hs; subst hs
      unfold AState.openTag
      repeat' split
      all_goals rfl
    · repeat' split at hs
      all_goals (rw [Option.some.injEq] at hs; subst hs; rfl)
  | inTag isDoc t =>
    simp only [astep, hm] at hs
    cases ht : tagChar isDoc o.allowAttrKeyStartsWithEqualSign t c with
    | cont t1 id => simp only [ht, Option.some.injEq] at hs; subst hs; rfl
    | close m pc mk id =>
      simp only [ht] at hs
      split at hs
      · rw [Option.some.injEq] at hs; subst hs; rfl
      · rw [Option.some.injEq] at hs; subst hs
        unfold AState.openTag
        repeat' split
        all_goals rfl
    | selfClose =>
      simp only [ht] at hs
      repeat' split at hs
      all_goals first | (cases hs; done) | (rw [Option.some.injEq] at hs; subst hs; rfl)
    | err e => simp only [ht] at hs; cases hs
  | raw m pc =>
    simp only [astep, hm] at hs
    split at hs <;> (rw [Option.some.injEq] at hs; subst hs; rfl)

/-- One character; the second run may have `auto_fix_unclosed_tag` in addition. -/
theorem Loosely.step {o : ParseOptions} {u : Bool} (hu : o.autoFixUnclosedTag = true → u = true) {a a' b : AState} {c : Char}
    (h : Loosely o a a') (hw : WfInv o a) (hw' : WfInv { o with autoFixUnclosedTag := u } a') (hs : astep o a c = some b) :
    ∃ b', astep { o with autoFixUnclosedTag := u } a' c = some b' ∧ Loosely o b b' := by
  obtain ⟨hk, ho, hsp, hm, ht⟩ := h
  have hput : ∀ {l l' : Last} (t : Str), (l = .other ∨ Fits o l a.top.kids) →
      (l' = .other ∨ Fits { o with autoFixUnclosedTag := u } l' a'.top.kids) →
      LStack { a.top with kids := putText l t a.top.kids } a.rest { a'.top with kids := putText l' t a'.top.kids } a'.rest := by
    intro l l' t q q'
    refine hk.mod ⟨hk.top.1, hk.top.2.1, ?_⟩
    show loose (putText l t a.top.kids) = loose (putText l' t a'.top.kids)
    rw [loose_put q, loose_put q', loose_push hk.top.2.2]
  by_cases hout : a.mode.outside = true
  · have hout' : a'.mode.outside = true := by rw [← hm.outside]; exact hout
    by_cases hc : c = '<'
    · have key : ∀ (o : ParseOptions) (a : AState), a.mode.outside = true →
          ∃ l, astep o a c = some { a with mode := .lt l } ∧ (Mode.lt l).textLast = a.mode.textLast := by
        intro o a q
        cases hmo : a.mode with
        | text p => exact ⟨.text p, by simp only [astep, hmo, if_pos hc], rfl⟩
        | wait l => exact ⟨l, by simp only [astep, hmo, if_pos hc], by cases l <;> rfl⟩
        | _ => rw [hmo] at q; cases q
      obtain ⟨l, k1, k2⟩ := key o a hout
      obtain ⟨l', k1', k2'⟩ := key { o with autoFixUnclosedTag := u } a' hout'
      rw [k1, Option.some.injEq] at hs
      subst hs
      exact ⟨_, k1', hk, ho, hsp, .lt _ _, fun q1 q2 => by
        show (Mode.lt l').textLast = true
        rw [k2']
        exact ht q1 (by rw [← k2]; exact q2)⟩
    · have k := (text_step (o := o) hout hc hw).2
      have k1 : a.over = true → a.mode.textLast = true := by
        cases hmo : a.mode with
        | text p => exact fun _ => rfl
        | wait l =>
          cases l with
          | text p => exact fun _ => rfl
          | hole =>
            intro q
            simp only [astep, hmo, if_neg hc, q, if_true] at hs; cases hs
          | other =>
            intro q
            simp only [astep, hmo, if_neg hc, q, if_true] at hs; cases hs
        | _ => rw [hmo] at hout; cases hout
      obtain ⟨l, p, q1, q2⟩ := (text_step hout hc hw).1 k1
      obtain ⟨l', p', q1', q2'⟩ := (text_step hout' hc hw').1 (fun q => ht (by rw [ho]; exact q) (k1 (by rw [ho]; exact q)))
      rw [q2, Option.some.injEq] at hs
      subst hs
      exact ⟨_, q2', hput [c] q1 q1', ho, hsp, .out rfl rfl, fun _ _ => rfl⟩
  · cases hmo : a.mode with
    | lt l =>
      rw [hmo] at hm ht
      obtain ⟨l', hmo'⟩ := hm.isLt
      have hf := hw.last
      have hf' := hw'.last
      unfold LastFits at hf hf'
      rw [hmo] at hf
      rw [hmo'] at hf' ht
      simp only [astep, hmo] at hs
      simp only [astep, hmo']
      by_cases q1 : isAlpha c = true
      · rw [if_pos q1] at hs ⊢
        by_cases q2 : a.over = true
        · rw [if_pos q2] at hs; cases hs
        · rw [if_neg q2, Option.some.injEq] at hs
          rw [if_neg (by rw [← ho]; exact q2)]; subst hs
          exact ⟨_, rfl, hk, ho, hsp, .sim (.refl _), fun _ q => q⟩
      · rw [if_neg q1] at hs ⊢
        by_cases q2 : c = '/'
        · rw [if_pos q2, Option.some.injEq] at hs
          rw [if_pos q2]; subst hs
          refine ⟨_, rfl, hk, ho, hsp, .tagEnd _ _ _, fun k1 k2 => ?_⟩
          have k1 : a.over = true := k1
          revert k2
          show Mode.textLast (.tagEnd [] (if o.autoFixUnclosedTag = true then l else .other)) = true →
            Mode.textLast (.tagEnd [] (if u = true then l' else .other)) = true
          intro k2
          by_cases hun : o.autoFixUnclosedTag = true
          · rw [if_pos hun] at k2
            rw [if_pos (hu hun)]
            have k3 : Mode.textLast (.lt l) = true := by cases l <;> first | rfl | cases k2
            have k4 := ht k1 k3
            cases l' <;> first | rfl | cases k4
          · rw [if_neg hun] at k2; cases k2
        · rw [if_neg q2] at hs ⊢
          by_cases q3 : c = '!'
          · rw [if_pos q3, Option.some.injEq] at hs
            rw [if_pos q3]; subst hs
            exact ⟨_, rfl, hk, ho, hsp, .sim (.refl _), fun _ q => q⟩
          · rw [if_neg q3] at hs ⊢
            by_cases q4 : o.autoFixUnescapedLt = false
            · rw [if_pos q4] at hs; cases hs
            · rw [if_neg q4] at hs ⊢
              have key : ∀ (l : Last) (a : AState) (t : Str) (next : Place → Mode),
                  (match l with
                    | .text p => some { a.more p t with mode := next p }
                    | .hole => some { a.fill t with mode := next .nested }
                    | .other => some { a.push (.text t) with mode := next .top }) =
                  some { a with top := { a.top with kids := putText l t a.top.kids }, mode := next (match l with | .text p => p | .hole => .nested | .other => .top) } := by
                intro l a t next
                cases l <;> rfl
              have hs := hs.symm.trans (key l a _ fun p => if c = '<' then .lt (.text p) else .text p)
              rw [Option.some.injEq] at hs
              refine ⟨_, key l' a' _ fun p => if c = '<' then .lt (.text p) else .text p, ?_⟩
              subst hs
              refine ⟨hput _ (.inr hf) (.inr hf'), ho, hsp, ?_, fun _ _ => ?_⟩
              · by_cases hc : c = '<'
                · simp only [if_pos hc]; exact .lt _ _
                · simp only [if_neg hc]; exact .out rfl rfl
              · by_cases hc : c = '<'
                · simp only [if_pos hc]; rfl
                · simp only [if_neg hc]; rfl
    | tagEnd pc l =>
      rw [hmo] at hm ht
      obtain ⟨l', hmo'⟩ := hm.isEnd
      rw [hmo'] at ht
      obtain ⟨hn, hr⟩ := LStack.rel.name hk
      simp only [astep, hmo] at hs
      simp only [astep, hmo']
      by_cases hc : c = '>'
      · simp only [if_pos hc, ne_eq] at hs
        simp only [if_pos hc, ← hn, ne_eq, ← hr]
        by_cases he : ¬ a.rest = [] ∧ (isEqualCharsIgnoreCase a.top.name (charsTrimEnd pc)).1 = true
        · simp only [if_pos he] at hs
          simp only [if_pos he]
          by_cases hcs : o.caseSensitiveTagname = true ∧ (isEqualCharsIgnoreCase a.top.name (charsTrimEnd pc)).2 = false
          · simp only [if_pos hcs] at hs; cases hs
          · simp only [if_neg hcs, Option.some.injEq] at hs
            simp only [if_neg hcs]
            subst hs
            obtain ⟨k1, k2⟩ := Sim.pop LStack.rel hk ho (some pc)
            exact ⟨_, rfl, k1, k2, by simp only [hsp], .sim (.refl _), fun _ q => q⟩
        · simp only [if_neg he] at hs
          simp only [if_neg he]
          by_cases hun : o.autoFixUnexpectedEndtag = true
          · simp only [if_pos hun, Option.some.injEq] at hs
            simp only [if_pos hun]
            subst hs
            refine ⟨_, rfl, hk, ho, hsp, .out rfl rfl, fun k1 k2 => ?_⟩
            have k3 : Mode.textLast (.tagEnd pc l) = true := by
              have k2 : Mode.textLast (.wait l) = true := k2
              cases l <;> first | rfl | cases k2
            have k4 := ht k1 k3
            show Mode.textLast (.wait l') = true
            cases l' <;> first | rfl | cases k4
          · simp only [if_neg hun] at hs; cases hs
      · simp only [if_neg hc, Option.some.injEq] at hs
        simp only [if_neg hc]
        subst hs
        refine ⟨_, rfl, hk, ho, hsp, .tagEnd _ _ _, fun k1 k2 => ?_⟩
        have k3 : Mode.textLast (.tagEnd pc l) = true := by
          have k2 : Mode.textLast (.tagEnd (pc ++ [c]) l) = true := k2
          cases l <;> first | rfl | cases k2
        have k4 := ht k1 k3
        show Mode.textLast (.tagEnd (pc ++ [c]) l') = true
        cases l' <;> first | rfl | cases k4
    | text p => rw [hmo] at hout; exact absurd rfl hout
    | wait l => rw [hmo] at hout; exact absurd rfl hout
    | _ =>
      have h2 : ∀ l, a.mode ≠ .lt l := by rw [hmo]; simp
      have h3 : ∀ pc l, a.mode ≠ .tagEnd pc l := by rw [hmo]; simp
      have hout := Bool.eq_false_iff.2 hout
      have hsim : ModeSim o a.mode a'.mode := by
        generalize a.mode = m at hm hout h2 h3
        generalize a'.mode = m' at hm
        cases hm with
        | out h => rw [h] at hout; cases hout
        | lt l l' => exact absurd rfl (h2 l)
        | tagEnd pc l l' => exact absurd rfl (h3 pc l)
        | sim h => exact h
      have e : astep { o with autoFixUnclosedTag := u } a' c = astep o a' c := by
        unfold astep
        split <;> try rfl
        rename_i l hml
        rw [hml, hmo] at hsim
        cases hsim
      have hst := Sim.step LStack.rel (o := o) ⟨hk, ho, hsp, hsim⟩ (by unfold ModeFit; rw [hmo]; trivial) c
      rw [hs] at hst
      rw [e]
      cases q : astep o a' c with
      | none => rw [q] at hst; exact hst.elim
      | some b' =>
        rw [q] at hst
        obtain ⟨k1, k2, k3, k4⟩ := hst
        refine ⟨b', rfl, k1, k2, k3, .sim k4, fun _ q => ?_⟩
        rw [astep_textLast hout h2 h3 hs] at q; cases q

theorem Loosely.run {o : ParseOptions} {u : Bool} (hu : o.autoFixUnclosedTag = true → u = true) : ∀ (s : Str) {a a' b : AState},
    Loosely o a a' → WfInv o a → WfInv { o with autoFixUnclosedTag := u } a' → arun o a s = some b →
      ∃ b', arun { o with autoFixUnclosedTag := u } a' s = some b' ∧ Loosely o b b'
  | [], a, a', b, h, _, _, hr => by
    simp only [arun, Option.some.injEq] at hr
    subst hr
    exact ⟨a', rfl, h⟩
  | c :: s, a, a', b, h, hw, hw', hr => by
    simp only [arun] at hr ⊢
    cases hs : astep o a c with
    | none => rw [hs] at hr; cases hr
    | some a1 =>
      rw [hs] at hr
      obtain ⟨a1', k1, k2⟩ := h.step hu hw hw' hs
      rw [k1]
      exact Loosely.run hu s k2 (hw.astep hs) (hw'.astep k1) hr

theorem Loosely.result {o : ParseOptions} {a a' : AState} (h : Loosely o a a') : loose a.result = loose a'.result := by
  obtain ⟨F, G, k1, k2, k3⟩ := closeKids_rel LStack.rel _ _ _ _ h.stack
  rw [result_eq, result_eq, k2, k3]
  exact k1.2.2

end Rphtml
