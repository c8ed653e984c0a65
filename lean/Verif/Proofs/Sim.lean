import Verif.Proofs.AStep
import Verif.Proofs.RoundTrip

/-!
# Two runs side by side

The machine never looks into finished nodes.  So two runs on the same input stay in step if their states agree in what the
machine looks at, and the finished nodes stay related by any relation that respects what the machine does with them.
-/

namespace Rphtml
open Spec

/-- The nodes that the machine adds. -/
def NewNode : PNode → Prop
  | .comment w => w ≠ []
  | .cdata w => w ≠ []
  | .elem _ _ _ ct ks e => ks = [] ∧ ct.isSome = e.isSome
  | _ => True

/-- A relation between stacks of open elements that respects the machine; `Fit` is what is known about the last child. -/
structure KRel (Fit : Last → List PNode → Prop) (K : Frame → List Frame → Frame → List Frame → Prop) : Prop where
  name : ∀ {f fs g gs}, K f fs g gs → f.name = g.name ∧ (fs = [] ↔ gs = [])
  push : ∀ {f fs g gs} (p : PNode), K f fs g gs → NewNode p →
    K { f with kids := f.kids ++ [p] } fs { g with kids := g.kids ++ [p] } gs
  more : ∀ {f fs g gs} (p : Place) (s : Str), K f fs g gs → Fit (.text p) f.kids →
    K { f with kids := addTextAt p s f.kids } fs { g with kids := addTextAt p s g.kids } gs
  fill : ∀ {f fs g gs} (s : Str), K f fs g gs → Fit .hole f.kids →
    K { f with kids := modLast (PNode.modKids fun ks => ks ++ [.text s]) f.kids } fs
      { g with kids := modLast (PNode.modKids fun ks => ks ++ [.text s]) g.kids } gs
  enter : ∀ {f fs g gs} (n : Str) (as : List Attr), K f fs g gs → K ⟨n, as, []⟩ (f :: fs) ⟨n, as, []⟩ (g :: gs)
  leave : ∀ {f f1 fs g g1 gs} (e : Option Str), K f (f1 :: fs) g (g1 :: gs) →
    K { f1 with kids := f1.kids ++ [.elem f.name f.attrs false none f.kids e] } fs
      { g1 with kids := g1.kids ++ [.elem g.name g.attrs false none g.kids e] } gs

/-- The state inside a tag, without a mark that does not matter. -/
def TagSim (t t' : TagSt) : Prop := t = t' ∨ (t.handle ≠ .attrValue ∧ t' = { t with mark := t'.mark })

/-- Modes that cannot be told apart. -/
inductive ModeSim (o : ParseOptions) : Mode → Mode → Prop
  | refl (m : Mode) : ModeSim o m m
  | tag {isDoc : Bool} {t t' : TagSt} (h : TagSim t t') : ModeSim o (.inTag isDoc t) (.inTag isDoc t')
  | wait (l l' : Last) (h1 : o.autoFixUnescapedLt = false) (h2 : o.autoFixUnexpectedEndtag = false) : ModeSim o (.wait l) (.wait l')
  | lt (l l' : Last) (h1 : o.autoFixUnescapedLt = false) (h2 : o.autoFixUnexpectedEndtag = false ∨ o.autoFixUnclosedTag = false) : ModeSim o (.lt l) (.lt l')
  | tagEnd (pc : Str) (l l' : Last) (h1 : o.autoFixUnescapedLt = false) (h2 : o.autoFixUnexpectedEndtag = false) :
      ModeSim o (.tagEnd pc l) (.tagEnd pc l')
  | text (p : Place) (h : o.autoFixUnexpectedEndtag = true) : ModeSim o (.wait (.text p)) (.text p)
  | text' (p : Place) (h : o.autoFixUnexpectedEndtag = true) : ModeSim o (.text p) (.wait (.text p))

/-- States that cannot be told apart, up to the finished nodes. -/
structure Sim (K : Frame → List Frame → Frame → List Frame → Prop) (o : ParseOptions) (a a' : AState) : Prop where
  stack : K a.top a.rest a'.top a'.rest
  over : a.over = a'.over
  sp : a.sp = a'.sp
  mode : ModeSim o a.mode a'.mode

/-- What is known about the last child, where the machine may change it. -/
def ModeFit (Fit : Last → List PNode → Prop) (a : AState) : Prop :=
  match a.mode with
  | .text p => Fit (.text p) a.top.kids
  | .wait l => Fit l a.top.kids
  | .lt l => Fit l a.top.kids
  | _ => True

/-- Both runs stop, or both go on. -/
def OptRel {α : Type} (R : α → α → Prop) : Option α → Option α → Prop
  | none, none => True
  | some a, some b => R a b
  | _, _ => False

/-- Outcomes of a character inside a tag that cannot be told apart. -/
def OutSim : TagOut → TagOut → Prop
  | .cont t _, .cont t' _ => TagSim t t'
  | .close m pc _ _, .close m' pc' _ _ => m = m' ∧ pc = pc'
  | .selfClose, .selfClose => True
  | .err _, .err _ => True
  | _, _ => False

theorem OutSim.refl (x : TagOut) : OutSim x x := by
  cases x <;> simp [OutSim, TagSim]

theorem tagChar_sim {isDoc allowEq : Bool} {t t' : TagSt} {c : Char} (h : TagSim t t') :
    OutSim (tagChar isDoc allowEq t c) (tagChar isDoc allowEq t' c) := by
  rcases h with rfl | ⟨h, h'⟩
  · exact OutSim.refl _
  · obtain ⟨hd, m, pc, mk⟩ := t
    obtain ⟨hd', m', pc', mk'⟩ := t'
    simp only [TagSt.mk.injEq, and_true] at h'
    obtain ⟨rfl, rfl, rfl⟩ := h'
    simp only at h
    have hw : hd' ≠ .attrValue → OutSim (tagWaitC isDoc allowEq ⟨hd', m', pc', mk⟩ c none) (tagWaitC isDoc allowEq ⟨hd', m', pc', mk'⟩ c none) := by
      intro hd
      unfold tagWaitC
      repeat' split
      all_goals simp_all [OutSim, TagSim]
    unfold tagChar
    cases hd' with
    | tagWait => exact hw (by simp)
    | tagSelfClosing =>
      simp only
      by_cases h1 : c = '>'
      · simp [h1, OutSim]
      · by_cases h2 : c = '/'
        · simp [h2, OutSim, TagSim]
        · simp only [h1, h2, if_false]
          exact hw (by simp)
    | attrKey =>
      simp only
      repeat' split
      all_goals simp [OutSim, TagSim]
    | attrValue => exact absurd rfl h
    | _ => simp [OutSim, TagSim]

variable {Fit : Last → List PNode → Prop} {K : Frame → List Frame → Frame → List Frame → Prop} {o : ParseOptions}

theorem Sim.openTag (hK : KRel Fit K) {a a' : AState} (h : K a.top a.rest a'.top a'.rest) (h1 : a.over = a'.over) (h2 : a.sp = a'.sp)
    (m : TagMeta) (pc : Str) (mk mk' : Char) :
    Sim K o { a.openTag m pc with mark := mk } { a'.openTag m pc with mark := mk' } := by
  unfold AState.openTag
  split
  · exact ⟨hK.push _ h ⟨rfl, rfl⟩, h1, h2, .refl _⟩
  · split
    · exact ⟨h, h1, h2, .refl _⟩
    · refine ⟨hK.enter _ _ h, h1, ?_, .refl _⟩
      simp only [h2]

theorem Sim.pop (hK : KRel Fit K) {a a' : AState} (h : K a.top a.rest a'.top a'.rest) (h1 : a.over = a'.over)
    (e : Option Str) : K (a.pop e).top (a.pop e).rest (a'.pop e).top (a'.pop e).rest ∧ (a.pop e).over = (a'.pop e).over := by
  have hn := (hK.name h).2
  unfold AState.pop
  cases hr : a.rest with
  | nil =>
    rw [hr] at hn h
    have := hn.1 rfl
    rw [this] at h ⊢
    exact ⟨h, rfl⟩
  | cons g gs =>
    cases hr' : a'.rest with
    | nil => rw [hr'] at hn; rw [hn.2 rfl] at hr; cases hr
    | cons g' gs' =>
      rw [hr, hr'] at h
      exact ⟨hK.leave e h, h1⟩

theorem Sim.tagStep (hK : KRel Fit K) {a a' : AState} (h : K a.top a.rest a'.top a'.rest) (h1 : a.over = a'.over) (h2 : a.sp = a'.sp)
    {isDoc : Bool} {t t' : TagSt} (ht : TagSim t t') (hm : a.mode = .inTag isDoc t) (hm' : a'.mode = .inTag isDoc t') (c : Char) :
    OptRel (Sim K o) (astep o a c) (astep o a' c) := by
  have ho := tagChar_sim (isDoc := isDoc) (allowEq := o.allowAttrKeyStartsWithEqualSign) (c := c) ht
  have hmm : t.m = t'.m := by
    rcases ht with rfl | ⟨_, e⟩
    · rfl
    · rw [e]
  simp only [astep, hm, hm']
  cases h3 : tagChar isDoc o.allowAttrKeyStartsWithEqualSign t c with
  | cont t1 id =>
    cases h4 : tagChar isDoc o.allowAttrKeyStartsWithEqualSign t' c with
    | cont t2 id' =>
      rw [h3, h4] at ho
      exact ⟨h, (by first | exact h1 | rfl | simp_all), (by first | exact h2 | rfl | simp_all), .tag ho⟩
    | close => rw [h3, h4] at ho; exact ho.elim
    | selfClose => rw [h3, h4] at ho; exact ho.elim
    | err => rw [h3, h4] at ho; exact ho.elim
  | close m pc mk id =>
    cases h4 : tagChar isDoc o.allowAttrKeyStartsWithEqualSign t' c with
    | close m' pc' mk' id' =>
      rw [h3, h4] at ho
      obtain ⟨rfl, rfl⟩ := ho
      cases isDoc with
      | true => exact ⟨hK.push _ h trivial, (by first | exact h1 | rfl | simp_all), (by first | exact h2 | rfl | simp_all), .refl _⟩
      | false => exact Sim.openTag hK h h1 h2 _ _ _ _
    | cont => rw [h3, h4] at ho; exact ho.elim
    | selfClose => rw [h3, h4] at ho; exact ho.elim
    | err => rw [h3, h4] at ho; exact ho.elim
  | selfClose =>
    cases h4 : tagChar isDoc o.allowAttrKeyStartsWithEqualSign t' c with
    | selfClose =>
      simp only [← hmm, ← h2]
      cases isDoc with
      | true =>
        have hp := Sim.pop hK (a := a.push (.doctype t.m.name t.m.attrs true)) (a' := a'.push (.doctype t.m.name t.m.attrs true))
          (hK.push _ h trivial) h1 none
        have hsp : ∀ x : AState, ∀ e, (x.pop e).sp = x.sp := by
          intro x e; unfold AState.pop; split <;> rfl
        refine ⟨hp.1, hp.2, ?_, .refl _⟩
        simp only [hsp, AState.push, h2]
      | false =>
        simp only [Bool.false_eq_true, if_false]
        by_cases hx : o.allowSelfClosing = true ∨ t.m.isVoid = true ∨ a.sp ≠ none
        · rw [if_pos hx, if_pos hx]
          exact ⟨hK.push _ h ⟨rfl, rfl⟩, (by first | exact h1 | rfl | simp_all), (by first | exact h2 | rfl | simp_all), .refl _⟩
        · rw [if_neg hx, if_neg hx]; trivial
    | cont => rw [h3, h4] at ho; exact ho.elim
    | close => rw [h3, h4] at ho; exact ho.elim
    | err => rw [h3, h4] at ho; exact ho.elim
  | err k =>
    cases h4 : tagChar isDoc o.allowAttrKeyStartsWithEqualSign t' c with
    | err => trivial
    | cont => rw [h3, h4] at ho; exact ho.elim
    | close => rw [h3, h4] at ho; exact ho.elim
    | selfClose => rw [h3, h4] at ho; exact ho.elim

theorem Sim.endStep (hK : KRel Fit K) {a a' : AState} (h : K a.top a.rest a'.top a'.rest) (h1 : a.over = a'.over) (h2 : a.sp = a'.sp)
    {pc : Str} {l l' : Last} (hl : l = l' ∨ (o.autoFixUnescapedLt = false ∧ o.autoFixUnexpectedEndtag = false))
    (hm : a.mode = .tagEnd pc l) (hm' : a'.mode = .tagEnd pc l') (c : Char) :
    OptRel (Sim K o) (astep o a c) (astep o a' c) := by
  obtain ⟨hn, hr⟩ := hK.name h
  simp only [astep, hm, hm']
  by_cases hc : c = '>'
  · simp only [if_pos hc, ← hn, ne_eq, ← hr, ← h2]
    by_cases he : ¬ a.rest = [] ∧ (isEqualCharsIgnoreCase a.top.name (charsTrimEnd pc)).1 = true
    · simp only [if_pos he]
      by_cases hcs : o.caseSensitiveTagname = true ∧ (isEqualCharsIgnoreCase a.top.name (charsTrimEnd pc)).2 = false
      · simp only [if_pos hcs]; trivial
      · simp only [if_neg hcs]
        obtain ⟨k1, k2⟩ := Sim.pop hK h h1 (some pc)
        exact ⟨k1, k2, rfl, .refl _⟩
    · simp only [if_neg he]
      by_cases ho : o.autoFixUnexpectedEndtag = true
      · simp only [if_pos ho]
        refine ⟨h, (by first | exact h1 | rfl | simp_all), (by first | exact h2 | rfl | simp_all), ?_⟩
        rcases hl with rfl | ⟨_, q⟩
        · exact .refl _
        · rw [ho] at q; cases q
      · simp only [if_neg ho]; trivial
  · rw [if_neg hc, if_neg hc]
    refine ⟨h, (by first | exact h1 | rfl | simp_all), (by first | exact h2 | rfl | simp_all), ?_⟩
    rcases hl with rfl | ⟨q1, q2⟩
    · exact .refl _
    · exact .tagEnd _ _ _ q1 q2

theorem Sim.ltStep (hK : KRel Fit K) {a a' : AState} (h : K a.top a.rest a'.top a'.rest) (h1 : a.over = a'.over) (h2 : a.sp = a'.sp)
    {l l' : Last} (hl : l = l' ∨ (o.autoFixUnescapedLt = false ∧ (o.autoFixUnexpectedEndtag = false ∨ o.autoFixUnclosedTag = false)))
    (hm : a.mode = .lt l) (hm' : a'.mode = .lt l') (hf : Fit l a.top.kids) (c : Char) :
    OptRel (Sim K o) (astep o a c) (astep o a' c) := by
  simp only [astep, hm, hm', ← h1]
  by_cases q1 : isAlpha c = true
  · simp only [q1, if_true]
    by_cases q2 : a.over = true
    · simp only [q2, if_true]; trivial
    · simp only [q2, if_false, Bool.false_eq_true]
      exact ⟨h, (by first | exact h1 | rfl | simp_all), (by first | exact h2 | rfl | simp_all), .refl _⟩
  · rw [if_neg q1, if_neg q1]
    by_cases q2 : c = '/'
    · rw [if_pos q2, if_pos q2]
      refine ⟨h, (by first | exact h1 | rfl | simp_all), (by first | exact h2 | rfl | simp_all), ?_⟩
      rcases hl with rfl | ⟨r1, r2⟩
      · exact .refl _
      · rcases r2 with r2 | r2
        · exact .tagEnd _ _ _ r1 r2
        · rw [r2]; exact .refl _
    · rw [if_neg q2, if_neg q2]
      by_cases q3 : c = '!'
      · rw [if_pos q3, if_pos q3]
        exact ⟨h, (by first | exact h1 | rfl | simp_all), (by first | exact h2 | rfl | simp_all), .refl _⟩
      · rw [if_neg q3, if_neg q3]
        by_cases q4 : o.autoFixUnescapedLt = false
        · rw [if_pos q4, if_pos q4]; trivial
        · rw [if_neg q4, if_neg q4]
          rcases hl with rfl | ⟨r1, r2⟩
          · cases l with
            | text p => exact ⟨hK.more _ _ h hf, (by first | exact h1 | rfl | simp_all), (by first | exact h2 | rfl | simp_all), .refl _⟩
            | hole => exact ⟨hK.fill _ h hf, (by first | exact h1 | rfl | simp_all), (by first | exact h2 | rfl | simp_all), .refl _⟩
            | other => exact ⟨hK.push _ h trivial, (by first | exact h1 | rfl | simp_all), (by first | exact h2 | rfl | simp_all), .refl _⟩
          · exact absurd r1 q4

theorem commentBody_ne {k : Char} {pc b : Str} (h : commentBody k pc = some b) : b ≠ [] :=
  ((commentBody_iff k pc b).1 h).1

/-- One character. -/
theorem Sim.step (hK : KRel Fit K) {a a' : AState} (h : Sim K o a a') (hf : ModeFit Fit a) (c : Char) :
    OptRel (Sim K o) (astep o a c) (astep o a' c) := by
  obtain ⟨hs, h1, h2, hm⟩ := h
  obtain ⟨hn, hr⟩ := hK.name hs
  unfold ModeFit at hf
  generalize hma : a.mode = ma at hm hf
  generalize hmb : a'.mode = mb at hm
  cases hm with
  | tag ht => exact Sim.tagStep hK hs h1 h2 ht hma hmb c
  | wait l l' q1 q2 =>
    simp only [astep, hma, hmb, ← h1]
    by_cases hc : c = '<'
    · rw [if_pos hc, if_pos hc]
      exact ⟨hs, (by first | exact h1 | rfl | simp_all), (by first | exact h2 | rfl | simp_all), .lt _ _ q1 (.inl q2)⟩
    · rw [if_neg hc, if_neg hc]
      simp only [q2]
      by_cases hov : a.over = true
      · simp only [hov, if_true]
        cases l <;> cases l' <;> trivial
      · simp only [hov, if_false, Bool.false_eq_true]
        cases l <;> cases l' <;> exact ⟨hK.push _ hs trivial, (by first | exact h1 | rfl | simp_all), (by first | exact h2 | rfl | simp_all), .refl _⟩
  | lt l l' q1 q2 => exact Sim.ltStep hK hs h1 h2 (.inr ⟨q1, q2⟩) hma hmb hf c
  | tagEnd pc l l' q1 q2 => exact Sim.endStep hK hs h1 h2 (.inr ⟨q1, q2⟩) hma hmb c
  | text p q =>
    simp only [astep, hma, hmb]
    by_cases hc : c = '<'
    · rw [if_pos hc, if_pos hc]
      exact ⟨hs, (by first | exact h1 | rfl | simp_all), (by first | exact h2 | rfl | simp_all), .refl _⟩
    · rw [if_neg hc, if_neg hc]
      simp only [q]
      refine ⟨hK.more _ _ hs hf, (by first | exact h1 | rfl | simp_all), (by first | exact h2 | rfl | simp_all), ?_⟩
      show ModeSim o _ a'.mode
      rw [hmb]; exact .refl _
  | text' p q =>
    simp only [astep, hma, hmb]
    by_cases hc : c = '<'
    · rw [if_pos hc, if_pos hc]
      exact ⟨hs, (by first | exact h1 | rfl | simp_all), (by first | exact h2 | rfl | simp_all), .refl _⟩
    · rw [if_neg hc, if_neg hc]
      simp only [q]
      refine ⟨hK.more _ _ hs hf, (by first | exact h1 | rfl | simp_all), (by first | exact h2 | rfl | simp_all), ?_⟩
      show ModeSim o a.mode _
      rw [hma]; exact .refl _
  | refl m =>
    cases hmo : ma with
    | inTag isDoc t => subst hmo; exact Sim.tagStep hK hs h1 h2 (.inl rfl) hma hmb c
    | tagEnd pc l => subst hmo; exact Sim.endStep hK hs h1 h2 (.inl rfl) hma hmb c
    | lt l => subst hmo; exact Sim.ltStep hK hs h1 h2 (.inl rfl) hma hmb hf c
    | wait l =>
      subst hmo
      simp only [astep, hma, hmb, ← h1]
      by_cases hc : c = '<'
      · rw [if_pos hc, if_pos hc]
        exact ⟨hs, (by first | exact h1 | rfl | simp_all), (by first | exact h2 | rfl | simp_all), .refl _⟩
      · rw [if_neg hc, if_neg hc]
        have hst : OptRel (Sim K o) (if a.over = true then none else some { a.push (.text [c]) with mode := .text .top })
            (if a.over = true then none else some { a'.push (.text [c]) with mode := .text .top }) := by
          by_cases hov : a.over = true
          · rw [if_pos hov, if_pos hov]; trivial
          · rw [if_neg hov, if_neg hov]
            exact ⟨hK.push _ hs trivial, (by first | exact h1 | rfl | simp_all), (by first | exact h2 | rfl | simp_all), .refl _⟩
        cases l with
        | other => exact hst
        | hole => exact hst
        | text p =>
          cases ho : o.autoFixUnexpectedEndtag with
          | false => exact hst
          | true => exact ⟨hK.more _ _ hs hf, (by first | exact h1 | rfl | simp_all), (by first | exact h2 | rfl | simp_all), .refl _⟩
    | text p =>
      subst hmo
      simp only [astep, hma, hmb]
      by_cases hc : c = '<'
      · rw [if_pos hc, if_pos hc]
        exact ⟨hs, (by first | exact h1 | rfl | simp_all), (by first | exact h2 | rfl | simp_all), .refl _⟩
      · rw [if_neg hc, if_neg hc]
        refine ⟨hK.more _ _ hs hf, (by first | exact h1 | rfl | simp_all), (by first | exact h2 | rfl | simp_all), ?_⟩
        show ModeSim o a.mode a'.mode
        rw [hma, hmb]; exact .refl _
    | bang D pc =>
      subst hmo
      cases D with
      | none =>
        simp only [astep, hma, hmb, ← h1, ← h2, ← hn]
        have hre : a.rest.isEmpty = a'.rest.isEmpty := by
          rw [Bool.eq_iff_iff, List.isEmpty_iff, List.isEmpty_iff]; exact hr
        rw [← hre]
        by_cases q1 : c = '-'
        · rw [if_pos q1, if_pos q1]; exact ⟨hs, (by first | exact h1 | rfl | simp_all), (by first | exact h2 | rfl | simp_all), .refl _⟩
        · rw [if_neg q1, if_neg q1]
          by_cases q2 : c = 'D' ∨ c = 'd'
          · rw [if_pos q2, if_pos q2]; exact ⟨hs, (by first | exact h1 | rfl | simp_all), (by first | exact h2 | rfl | simp_all), .refl _⟩
          · rw [if_neg q2, if_neg q2]
            by_cases q3 : c = '['
            · rw [if_pos q3, if_pos q3]
              cases hsp : a.sp with
              | none => trivial
              | some x =>
                obtain ⟨k, n⟩ := x
                simp only
                by_cases q4 : a.over = true ∨ a.rest.isEmpty = true ∨ n = a.top.name
                · rw [if_pos q4, if_pos q4]; trivial
                · rw [if_neg q4, if_neg q4]
                  exact ⟨hs, (by first | exact h1 | rfl | simp_all), (by first | exact h2 | rfl | simp_all), .refl _⟩
            · rw [if_neg q3, if_neg q3]; trivial
      | some D =>
        simp only [astep, hma, hmb, ← h1]
        by_cases q1 : D[pc.length]? = some (toUpper c)
        · rw [if_pos q1, if_pos q1]
          by_cases q2 : pc.length + 1 < D.length
          · rw [if_pos q2, if_pos q2]; exact ⟨hs, (by first | exact h1 | rfl | simp_all), (by first | exact h2 | rfl | simp_all), .refl _⟩
          · rw [if_neg q2, if_neg q2]
            by_cases q3 : a.over = true
            · rw [if_pos q3, if_pos q3]; trivial
            · rw [if_neg q3, if_neg q3]
              by_cases q4 : D = detectComment
              · rw [if_pos q4, if_pos q4]; exact ⟨hs, (by first | exact h1 | rfl | simp_all), (by first | exact h2 | rfl | simp_all), .refl _⟩
              · rw [if_neg q4, if_neg q4]
                by_cases q5 : D = detectCdata
                · rw [if_pos q5, if_pos q5]; exact ⟨hs, (by first | exact h1 | rfl | simp_all), (by first | exact h2 | rfl | simp_all), .refl _⟩
                · rw [if_neg q5, if_neg q5]; exact ⟨hs, (by first | exact h1 | rfl | simp_all), (by first | exact h2 | rfl | simp_all), .refl _⟩
        · rw [if_neg q1, if_neg q1]; trivial
    | comment cd pc =>
      subst hmo
      simp only [astep, hma, hmb]
      cases hb : (if c = '>' then commentBody (if cd = true then ']' else '-') pc else none) with
      | none => exact ⟨hs, (by first | exact h1 | rfl | simp_all), (by first | exact h2 | rfl | simp_all), .refl _⟩
      | some b =>
        have hb' : b ≠ [] := by
          by_cases hc : c = '>'
          · rw [if_pos hc] at hb; exact commentBody_ne hb
          · rw [if_neg hc] at hb; cases hb
        exact ⟨hK.push _ hs (by cases cd <;> exact hb'), (by first | exact h1 | rfl | simp_all), (by first | exact h2 | rfl | simp_all), .refl _⟩
    | doctypeName pc =>
      subst hmo
      simp only [astep, hma, hmb]
      by_cases hc : isWs c = true
      · rw [if_pos hc, if_pos hc]
        exact ⟨hs, (by first | exact h1 | rfl | simp_all), (by first | exact h2 | rfl | simp_all), .tag (.inr ⟨by simp, rfl⟩)⟩
      · rw [if_neg hc, if_neg hc]; trivial
    | tagName pc =>
      subst hmo
      simp only [astep, hma, hmb]
      by_cases q1 : c = '>'
      · rw [if_pos q1, if_pos q1]
        have q := Sim.openTag (o := o) hK hs h1 h2 (nameMeta pc) [] a.mark a'.mark
        exact ⟨q.stack, q.over, q.sp, q.mode⟩
      · rw [if_neg q1, if_neg q1]
        by_cases q2 : c = '/'
        · rw [if_pos q2, if_pos q2]
          exact ⟨hs, (by first | exact h1 | rfl | simp_all), (by first | exact h2 | rfl | simp_all), .tag (.inr ⟨by simp, rfl⟩)⟩
        · rw [if_neg q2, if_neg q2]
          by_cases q3 : isWs c = true
          · rw [if_pos q3, if_pos q3]
            exact ⟨hs, (by first | exact h1 | rfl | simp_all), (by first | exact h2 | rfl | simp_all), .tag (.inr ⟨by simp, rfl⟩)⟩
          · rw [if_neg q3, if_neg q3]
            exact ⟨hs, (by first | exact h1 | rfl | simp_all), (by first | exact h2 | rfl | simp_all), .refl _⟩
    | raw m pc =>
      subst hmo
      simp only [astep, hma, hmb]
      cases hb : (if c = '>' then rawBody o.caseSensitiveTagname m.name pc else none) with
      | none => exact ⟨hs, (by first | exact h1 | rfl | simp_all), (by first | exact h2 | rfl | simp_all), .refl _⟩
      | some n => exact ⟨hK.push _ hs ⟨rfl, rfl⟩, (by first | exact h1 | rfl | simp_all), (by first | exact h2 | rfl | simp_all), .refl _⟩

/-- A whole run; `P` is an invariant of the first run. -/
theorem Sim.run (hK : KRel Fit K) {P : AState → Prop} (hP : ∀ {a b c}, P a → astep o a c = some b → P b)
    (hF : ∀ {a}, P a → ModeFit Fit a) : ∀ (s : Str) {a a' : AState}, Sim K o a a' → P a →
    OptRel (Sim K o) (arun o a s) (arun o a' s)
  | [], _, _, h, _ => h
  | c :: s, a, a', h, ha => by
    have := h.step hK (hF ha) c
    simp only [arun]
    cases h1 : astep o a c with
    | none =>
      cases h2 : astep o a' c with
      | none => trivial
      | some b' => rw [h1, h2] at this; exact this.elim
    | some b =>
      cases h2 : astep o a' c with
      | none => rw [h1, h2] at this; exact this.elim
      | some b' =>
        rw [h1, h2] at this
        exact Sim.run hK hP hF s this (hP ha h1)

theorem Sim.outside {a a' : AState} (h : Sim K o a a') : a.mode.outside = a'.mode.outside := by
  have := h.mode
  generalize a.mode = m at this
  generalize a'.mode = m' at this
  cases this <;> rfl

theorem Sim.final (hK : KRel Fit K) {a a' : AState} (h : Sim K o a a') : a.final o = a'.final o := by
  rw [Bool.eq_iff_iff, final_iff, final_iff, h.outside, (hK.name h.stack).2]

theorem closeKids_rel (hK : KRel Fit K) : ∀ (fs gs : List Frame) (f g : Frame), K f fs g gs →
    ∃ F G, K F [] G [] ∧ closeKids f.kids f fs = F.kids ∧ closeKids g.kids g gs = G.kids
  | [], [], f, g, h => ⟨f, g, h, rfl, rfl⟩
  | [], g1 :: gs, f, g, h => by have := (hK.name h).2.1 rfl; cases this
  | f1 :: fs, [], f, g, h => by have := (hK.name h).2.2 rfl; cases this
  | f1 :: fs, g1 :: gs, f, g, h => by
    have h1 := hK.leave (some f.name) h
    obtain ⟨F, G, k1, k2, k3⟩ := closeKids_rel hK fs gs _ _ h1
    refine ⟨F, G, k1, ?_, ?_⟩
    · rw [← k2]; unfold closeKids; cases fs <;> rfl
    · rw [← k3]; unfold closeKids; rw [(hK.name h).1]; cases gs <;> rfl

/-- The documents read. -/
theorem Sim.result (hK : KRel Fit K) {a a' : AState} (h : Sim K o a a') :
    ∃ F G, K F [] G [] ∧ a.result = F.kids ∧ a'.result = G.kids := by
  obtain ⟨F, G, k1, k2, k3⟩ := closeKids_rel hK _ _ _ _ h.stack
  exact ⟨F, G, k1, by rw [result_eq, k2], by rw [result_eq, k3]⟩

end Rphtml
