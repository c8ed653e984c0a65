import Verif.Spec.Join
import Verif.Proofs.Prefix

/-!
# Runs that differ in how texts are split
-/

namespace Rphtml
open Spec

theorem glue_text_glue (w v : Str) (ps : List PNode) : glue (.text w) (glue (.text v) ps) = glue (.text (w ++ v)) ps := by
  cases ps with
  | nil => rfl
  | cons p ps => cases p <;> simp [glue]

theorem glue_cons {p : PNode} (hp : isText p = false) (ps : List PNode) : glue p ps = p :: ps := by
  cases p <;> first | rfl | cases hp

theorem glue_cons' {p q : PNode} (hq : isText q = false) (ps : List PNode) : glue p (q :: ps) = p :: q :: ps := by
  cases p <;> cases q <;> first | rfl | cases hq

theorem foldr_glue (p : PNode) (xs ys : List PNode) : (glue p xs).foldr glue ys = glue p (xs.foldr glue ys) := by
  cases hp : isText p with
  | false => rw [glue_cons hp]; rfl
  | true =>
    cases p with
    | text w =>
      cases xs with
      | nil => rfl
      | cons q xs =>
        cases q with
        | text v => exact (glue_text_glue w v _).symm
        | _ => rfl
    | _ => cases hp

theorem joinTexts_append (qs : List PNode) : ∀ ps, joinTexts (ps ++ qs) = (joinTexts ps).foldr glue (joinTexts qs)
  | [] => by simp [joinTexts]
  | p :: ps => by simp only [List.cons_append, joinTexts, joinTexts_append qs ps, foldr_glue]

theorem glue_snoc (p : PNode) {q : PNode} (hq : isText q = false) (xs : List PNode) : glue p (xs ++ [q]) = glue p xs ++ [q] := by
  cases xs with
  | nil => rw [List.nil_append, glue_cons' hq]; cases p <;> rfl
  | cons x xs => cases p <;> cases x <;> rfl

theorem joinTexts_nontext {q : PNode} (hq : isText q = false) : ∀ ps, joinTexts (ps ++ [q]) = joinTexts ps ++ [joinNode q]
  | [] => by
    have hq' : isText (joinNode q) = false := by cases q <;> first | (cases hq; done) | simp [joinNode, isText]
    simp only [List.nil_append, joinTexts]; exact glue_cons hq' _
  | p :: ps => by
    have hq' : isText (joinNode q) = false := by cases q <;> first | (cases hq; done) | simp [joinNode, isText]
    simp only [List.cons_append, joinTexts, joinTexts_nontext hq ps, glue_snoc _ hq']

theorem joinTexts_snoc {ps qs : List PNode} (h : joinTexts ps = joinTexts qs) (p q : PNode) (hp : joinNode p = joinNode q) :
    joinTexts (ps ++ [p]) = joinTexts (qs ++ [q]) := by
  rw [joinTexts_append, joinTexts_append, h]
  simp only [joinTexts, hp]

/-- Appending to the last text is adding a text. -/
theorem joinTexts_more (xs : List PNode) (w s : Str) : joinTexts (xs ++ [.text (w ++ s)]) = joinTexts (xs ++ [.text w] ++ [.text s]) := by
  rw [List.append_assoc, joinTexts_append, joinTexts_append (_ ++ _)]
  rfl

/-- Whether the last node is a text. -/
def lastText (ps : List PNode) : Bool :=
  match ps.getLast? with
  | some p => isText p
  | none => false

theorem lastText_glue (p : PNode) (ps : List PNode) : lastText (glue p ps) = lastText (p :: ps) := by
  cases p with
  | text w =>
    cases ps with
    | nil => rfl
    | cons q ps =>
      cases q with
      | text v => cases ps <;> simp [glue, lastText, isText]
      | _ => rfl
  | _ => rfl

theorem isText_joinNode (p : PNode) : isText (joinNode p) = isText p := by
  cases p <;> simp [joinNode, isText]

theorem joinTexts_nil {ps : List PNode} : joinTexts ps = [] ↔ ps = [] := by
  cases ps with
  | nil => simp [joinTexts]
  | cons p ps =>
    simp only [joinTexts, reduceCtorEq, iff_false]
    cases joinNode p <;> cases joinTexts ps with
    | nil => simp [glue]
    | cons q qs => cases q <;> simp [glue]

theorem lastText_join : ∀ ps, lastText (joinTexts ps) = lastText ps
  | [] => by simp [joinTexts]
  | p :: ps => by
    have ih := lastText_join ps
    rw [joinTexts, lastText_glue]
    cases ps with
    | nil => simp [joinTexts, lastText, isText_joinNode]
    | cons q qs =>
      cases hj : joinTexts (q :: qs) with
      | nil => exact absurd (joinTexts_nil.1 hj) (by simp)
      | cons q' qs' =>
        rw [hj] at ih
        unfold lastText at ih ⊢
        rw [List.getLast?_cons_cons, List.getLast?_cons_cons]
        exact ih

/-- Frames up to the splitting of texts. -/
def JoinFrame (f g : Frame) : Prop := f.name = g.name ∧ f.attrs = g.attrs ∧ joinTexts f.kids = joinTexts g.kids

/-- Stacks up to the splitting of texts. -/
def JoinStack : Frame → List Frame → Frame → List Frame → Prop
  | f, [], g, [] => JoinFrame f g
  | f, f1 :: fs, g, g1 :: gs => JoinFrame f g ∧ JoinStack f1 fs g1 gs
  | _, _, _, _ => False

theorem JoinStack.refl : ∀ (fs : List Frame) (f : Frame), JoinStack f fs f fs
  | [], _ => ⟨rfl, rfl, rfl⟩
  | g :: gs, _ => ⟨⟨rfl, rfl, rfl⟩, JoinStack.refl gs g⟩

theorem JoinStack.top {f g : Frame} {fs gs : List Frame} (h : JoinStack f fs g gs) : JoinFrame f g := by
  cases fs <;> cases gs <;> first | exact h | exact h.1 | exact h.elim

theorem JoinStack.mod {f f' g g' : Frame} {fs gs : List Frame} (h : JoinStack f fs g gs) (h' : JoinFrame f' g') : JoinStack f' fs g' gs := by
  cases fs <;> cases gs <;> first | exact h' | exact ⟨h', h.2⟩ | exact h.elim

theorem snoc_cases (ps : List PNode) : ps = [] ∨ ∃ xs p, ps = xs ++ [p] := by
  rcases List.eq_nil_or_concat ps with h | ⟨xs, p, h⟩
  · exact .inl h
  · exact .inr ⟨xs, p, by simpa using h⟩

theorem JoinStack.rel {o : ParseOptions} (ho : o.autoFixUnescapedLt = false) : KRel (Fits o) JoinStack where
  name := by
    intro f fs g gs h
    refine ⟨h.top.1, ?_⟩
    cases fs <;> cases gs <;> first | exact h.elim | simp
  push := by
    intro f fs g gs p h _
    exact h.mod ⟨h.top.1, h.top.2.1, joinTexts_snoc h.top.2.2 p p rfl⟩
  more := by
    intro f fs g gs p s h hf
    refine h.mod ⟨h.top.1, h.top.2.1, ?_⟩
    cases p with
    | nested => exact absurd hf.1 (by rw [ho]; simp)
    | top =>
      obtain ⟨xs, w, hk⟩ := hf
      have hj := h.top.2.2
      have hl : lastText g.kids = true := by
        rw [← lastText_join, ← hj, lastText_join, hk]; simp [lastText, isText]
      rcases snoc_cases g.kids with hg | ⟨ys, q, hg⟩
      · rw [hg] at hl; cases hl
      · cases q with
        | text v =>
          have key : ∀ zs (z : Str), modLast (PNode.addText s) (zs ++ [PNode.text z]) = zs ++ [.text (z ++ s)] := by
            intro zs z; rw [modLast_append _ _ (by simp)]; rfl
          simp only [addTextAt, hk, hg, key, joinTexts_more]
          rw [hk, hg] at hj
          exact joinTexts_snoc hj _ _ rfl
        | _ => rw [hg] at hl; simp [lastText, isText] at hl
  fill := by
    intro f fs g gs s h hf
    refine h.mod ⟨h.top.1, h.top.2.1, ?_⟩
    obtain ⟨xs, n, as, ct, e, hk, _⟩ := hf
    have hj := h.top.2.2
    have hl : lastText g.kids = false := by
      rw [← lastText_join, ← hj, lastText_join, hk]; simp [lastText, isText]
    have key : ∀ zs (n : Str) as b ct ks e, modLast (PNode.modKids fun ks => ks ++ [.text s]) (zs ++ [PNode.elem n as b ct ks e]) =
        zs ++ [.elem n as b ct (ks ++ [.text s]) e] := by
      intro zs n as b ct ks e; rw [modLast_append _ _ (by simp)]; rfl
    rcases snoc_cases g.kids with hg | ⟨ys, q, hg⟩
    · rw [hg, hk] at hj
      exact absurd (joinTexts_nil.1 hj) (by simp)
    · have hq : isText q = false := by rw [hg] at hl; simpa [lastText] using hl
      rw [hg, hk, joinTexts_nontext hq, joinTexts_nontext (q := .elem ..) rfl] at hj
      obtain ⟨h1, h2⟩ := List.append_inj' hj rfl
      cases q with
      | elem n' as' b' ct' ks' e' =>
        simp only [joinNode, List.cons.injEq, PNode.elem.injEq, and_true] at h2
        obtain ⟨rfl, rfl, rfl, rfl, h3, rfl⟩ := h2
        have : ks' = [] := joinTexts_nil.1 (by rw [← h3]; simp [joinTexts])
        subst this
        rw [hk, hg, key, key]
        exact joinTexts_snoc h1 _ _ rfl
      | _ => simp [joinNode] at h2
  enter := by
    intro f fs g gs n as h
    exact ⟨⟨rfl, rfl, rfl⟩, h⟩
  leave := by
    intro f f1 fs g g1 gs e h
    obtain ⟨⟨h1, h2, h3⟩, h4⟩ := h
    exact h4.mod ⟨h4.top.1, h4.top.2.1, joinTexts_snoc h4.top.2.2 _ _ (by simp only [joinNode, h1, h2, h3])⟩

/-- Without the two repairs that go back to a text, a text is being read only where texts may be, and is never resumed. -/
def Plain (a : AState) : Prop := (∀ p, a.mode = .text p → p = .top ∧ a.over = false) ∧ (∀ p, a.mode ≠ .wait (.text p)) ∧ ∀ pc p, a.mode ≠ .tagEnd pc (.text p)

theorem Plain.step {o : ParseOptions} (h1 : o.autoFixUnescapedLt = false) (h2 : o.autoFixUnclosedTag = false) {a b : AState} {c : Char}
    (h : Plain a) (s : AStep o a c b) : Plain b := by
  obtain ⟨k1, k2, k3⟩ := h
  cases s with
  | resume hm => exact absurd hm (k2 _)
  | start hm hl hov hc =>
    refine ⟨?_, ?_, ?_⟩
    · intro p hp; simp only [Mode.text.injEq] at hp; exact ⟨hp.symm, hov⟩
    · intro p hp; simp only [reduceCtorEq] at hp
    · intro pc p hp; simp only [reduceCtorEq] at hp
  | more hm hc => exact ⟨fun p hp => k1 p hp, k2, k3⟩
  | ltMore hm ho => rw [h1] at ho; cases ho
  | ltFill hm ho => rw [h1] at ho; cases ho
  | ltPush hm ho => rw [h1] at ho; cases ho
  | endMore hm hc =>
    refine ⟨?_, ?_, ?_⟩
    · intro p hp; simp only [reduceCtorEq] at hp
    · intro p hp; simp only [reduceCtorEq] at hp
    · intro pc p hp
      simp only [Mode.tagEnd.injEq] at hp
      rw [hp.2] at hm
      exact k3 _ _ hm
  | endStray hm ho =>
    refine ⟨?_, ?_, ?_⟩
    · intro p hp; simp only [reduceCtorEq] at hp
    · intro p hp
      simp only [Mode.wait.injEq] at hp
      rw [hp] at hm
      exact k3 _ _ hm
    · intro pc p hp; simp only [reduceCtorEq] at hp
  | nameClose => unfold AState.openTag; split <;> (try split) <;> simp [Plain]
  | tagClose => unfold AState.openTag; split <;> (try split) <;> simp [Plain]
  | _ => simp [Plain, h2]

theorem Plain.run {o : ParseOptions} (h1 : o.autoFixUnescapedLt = false) (h2 : o.autoFixUnclosedTag = false) {s : Str} {a : AState}
    (h : arun o {} s = some a) : Plain a :=
  arun_inv (P := fun _ a => Plain a) (fun _ _ _ _ k st => k.step h1 h2 st) s [] {} a (by simp [Plain]) h

theorem WfInv.modeFit {o : ParseOptions} {a : AState} (h : WfInv o a) : ModeFit (Fits o) a := by
  have := h.last
  unfold LastFits at this
  unfold ModeFit
  cases hm : a.mode with
  | text p => rw [hm] at this; exact this
  | wait l => rw [hm] at this; exact this.1
  | lt l => rw [hm] at this; exact this
  | _ => trivial

/-- Forgetting that a text is being read splits it. -/
theorem Sim.forget {o : ParseOptions} (h1 : o.autoFixUnescapedLt = false) (h2 : o.autoFixUnclosedTag = false) {a : AState} (hp : Plain a)
    (hw : WfInv o a) (hm : a.mode.outside = true) (u : Str) :
    u = [] ∨ OptRel (Sim JoinStack o) (arun o a u) (arun o { a with mode := .wait .other } u) := by
  cases u with
  | nil => exact .inl rfl
  | cons c u =>
    right
    have go : ∀ {b b' : AState}, Sim JoinStack o b b' → WfInv o b → OptRel (Sim JoinStack o) (arun o b u) (arun o b' u) :=
      fun h hb => Sim.run (JoinStack.rel h1) (P := WfInv o) (fun k st => k.astep st) (fun k => k.modeFit) u h hb
    have key : OptRel (Sim JoinStack o) (astep o a c) (astep o { a with mode := .wait .other } c) := by
      cases hma : a.mode with
      | wait l =>
        have hl : ∀ p, l ≠ .text p := by intro p hl; exact hp.2.1 p (by rw [hma, hl])
        simp only [astep, hma]
        by_cases hc : c = '<'
        · rw [if_pos hc, if_pos hc]
          exact ⟨JoinStack.refl _ _, rfl, rfl, .lt _ _ h1 (.inr h2)⟩
        · rw [if_neg hc, if_neg hc]
          cases l with
          | text p => exact absurd rfl (hl p)
          | _ =>
            simp only
            by_cases hov : a.over = true
            · simp only [if_pos hov]; trivial
            · simp only [if_neg hov]; exact ⟨JoinStack.refl _ _, rfl, rfl, .refl _⟩
      | text p =>
        obtain ⟨rfl, hov⟩ := hp.1 p hma
        simp only [astep, hma]
        by_cases hc : c = '<'
        · rw [if_pos hc, if_pos hc]
          exact ⟨JoinStack.refl _ _, rfl, rfl, .lt _ _ h1 (.inr h2)⟩
        · rw [if_neg hc, if_neg hc]
          simp only [hov, Bool.false_eq_true, if_false]
          have hf := hw.modeFit
          unfold ModeFit at hf
          rw [hma] at hf
          obtain ⟨xs, w, hk⟩ := hf
          refine ⟨?_, hov.symm ▸ rfl, rfl, by show ModeSim o a.mode _; rw [hma]; exact .refl _⟩
          refine (JoinStack.refl a.rest a.top).mod ⟨rfl, rfl, ?_⟩
          show joinTexts (modLast (PNode.addText [c]) a.top.kids) = joinTexts (a.top.kids ++ [.text [c]])
          rw [hk, modLast_append _ _ (by simp)]
          exact joinTexts_more xs w [c]
      | _ => rw [hma] at hm; cases hm
    simp only [arun]
    cases h3 : astep o a c with
    | none =>
      cases h4 : astep o { a with mode := .wait .other } c with
      | none => trivial
      | some b' => rw [h3, h4] at key; exact key.elim
    | some b =>
      cases h4 : astep o { a with mode := .wait .other } c with
      | none => rw [h3, h4] at key; exact key.elim
      | some b' => rw [h3, h4] at key; exact go key (hw.astep h3)

end Rphtml
