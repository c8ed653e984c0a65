import Verif.Spec.Hoist
import Verif.Proofs.Join

/-!
# Two runs, one of which has a text inside a void element
-/

namespace Rphtml
open Spec

variable {R : Bool}

theorem hoistNodes_append (qs : List PNode) : ∀ ps, hoistNodes R (ps ++ qs) = hoistNodes R ps ++ hoistNodes R qs
  | [] => by simp [hoistNodes]
  | p :: ps => by simp only [List.cons_append, hoistNodes, hoistNodes_append qs ps, List.append_assoc]

theorem hoistNodes_one (p : PNode) : hoistNodes R [p] = hoistNode R p := by simp [hoistNodes]

/-- Hoisting does not change the source text. -/
theorem print_hoist : (∀ p, printNodes (hoistNode false p) = printNode p) ∧ (∀ ps, printNodes (hoistNodes false ps) = printNodes ps) := by
  apply PNode.induct
  · intro w; simp [hoistNode, printNodes]
  · intro w; simp [hoistNode, printNodes]
  · intro w; simp [hoistNode, printNodes]
  · intro n as s; simp [hoistNode, printNodes]
  · intro n as s ct ks e ih
    simp only [hoistNode]
    split
    · rename_i h
      obtain ⟨_, rfl, rfl⟩ := h.resolve_right (by simp)
      simp only [printNodes, printNode, ih, printEnd, Option.getD_none, List.append_nil]
    · simp only [printNodes, printNode, ih, List.append_nil]
  · simp [hoistNodes]
  · intro p ps h1 h2
    simp only [hoistNodes, printNodes_append, h1, h2, printNodes]

/-- An element without children. -/
def hollow (n : Str) : Prop := isVoid n ∨ isRaw n

/-- The nodes that a later text may change. -/
def openEnded : PNode → Prop
  | .text _ => True
  | .elem n _ _ _ _ _ => hollow n
  | _ => False

/-- The last nodes are the same, where that matters. -/
def SameLast (ks ks' : List PNode) : Prop := ∀ p, ks.getLast? = some p → openEnded p → ks'.getLast? = some p

/-- Frames up to hoisting. -/
def HFrame (R : Bool) (f g : Frame) : Prop := f.name = g.name ∧ f.attrs = g.attrs ∧ hoistNodes R f.kids = hoistNodes R g.kids

/-- Some frame is that of an element without children. -/
def anyHollow (fs : List Frame) : Prop := ∃ f ∈ fs, hollow f.name

/-- Stacks up to hoisting. -/
def HStack (R : Bool) : Frame → List Frame → Frame → List Frame → Prop
  | f, [], g, [] => HFrame R f g ∧ (anyHollow [f] → f = g)
  | f, f1 :: fs, g, g1 :: gs => HFrame R f g ∧ (anyHollow (f :: f1 :: fs) → f = g) ∧ HStack R f1 fs g1 gs
  | _, _, _, _ => False

/-- Stacks up to hoisting, except for the last node. -/
def HRel (R : Bool) (f : Frame) (fs : List Frame) (g : Frame) (gs : List Frame) : Prop := HStack R f fs g gs ∧ SameLast f.kids g.kids

theorem HStack.top {f g : Frame} {fs gs : List Frame} (h : HStack R f fs g gs) : HFrame R f g ∧ (anyHollow (f :: fs) → f = g) := by
  cases fs <;> cases gs <;> first | exact h | exact ⟨h.1, h.2.1⟩ | exact h.elim

theorem HStack.mod {f f' g g' : Frame} {fs gs : List Frame} (h : HStack R f fs g gs) (h' : HFrame R f' g')
    (he : anyHollow (f' :: fs) → f' = g') : HStack R f' fs g' gs := by
  cases fs <;> cases gs <;> first | exact ⟨h', he⟩ | exact ⟨h', he, h.2.2⟩ | exact h.elim

theorem SameLast.snoc {ks ks' : List PNode} (p : PNode) : SameLast (ks ++ [p]) (ks' ++ [p]) := by
  intro q hq _
  simpa using hq

theorem anyHollow_kids {f : Frame} {fs : List Frame} {ks : List PNode} (h : anyHollow ({ f with kids := ks } :: fs)) : anyHollow (f :: fs) := by
  obtain ⟨x, hx, hn⟩ := h
  rcases List.mem_cons.1 hx with rfl | hx
  · exact ⟨f, by simp, hn⟩
  · exact ⟨x, by simp [hx], hn⟩

theorem HRel.split {f g : Frame} {fs gs : List Frame} {xs : List PNode} {p : PNode} (h : HRel R f fs g gs) (hk : f.kids = xs ++ [p])
    (hp : openEnded p) : ∃ ys, g.kids = ys ++ [p] ∧ hoistNodes R xs = hoistNodes R ys := by
  have hl := h.2 p (by rw [hk]; simp) hp
  rcases snoc_cases g.kids with q | ⟨ys, q', q⟩
  · rw [q] at hl; cases hl
  · rw [q] at hl
    have hl : q' = p := by simpa using hl
    subst hl
    refine ⟨ys, q, ?_⟩
    have := h.1.top.1.2.2
    rw [hk, q, hoistNodes_append, hoistNodes_append] at this
    exact List.append_cancel_right this

theorem HRel.replace {f g : Frame} {fs gs : List Frame} {xs ys : List PNode} {p p' : PNode} (h : HRel R f fs g gs)
    (hk : f.kids = xs ++ [p]) (hk' : g.kids = ys ++ [p]) (hx : hoistNodes R xs = hoistNodes R ys) :
    HRel R { f with kids := xs ++ [p'] } fs { g with kids := ys ++ [p'] } gs := by
  refine ⟨h.1.mod ⟨h.1.top.1.1, h.1.top.1.2.1, by simp only [hoistNodes_append, hx]⟩ ?_, .snoc p'⟩
  intro q
  have := h.1.top.2 (anyHollow_kids q)
  subst this
  rw [hk] at hk'
  rw [List.append_cancel_right hk']

theorem hoistNode_elem {n : Str} {as : List Attr} {ks ks' : List PNode} (e : Option Str) (h : hoistNodes R ks = hoistNodes R ks') :
    hoistNode R (.elem n as false none ks e) = hoistNode R (.elem n as false none ks' e) := by
  simp only [hoistNode, h]

theorem HRel.leave {f f1 g g1 : Frame} {fs gs : List Frame} (e : Option Str) (h : HStack R f (f1 :: fs) g (g1 :: gs)) :
    HRel R { f1 with kids := f1.kids ++ [.elem f.name f.attrs false none f.kids e] } fs
      { g1 with kids := g1.kids ++ [.elem g.name g.attrs false none g.kids e] } gs := by
  obtain ⟨⟨h1, h2, h3⟩, h4, h5⟩ := h
  refine ⟨h5.mod ⟨h5.top.1.1, h5.top.1.2.1, ?_⟩ ?_, ?_⟩
  · simp only [hoistNodes_append, h5.top.1.2.2, hoistNodes_one, h1, h2, hoistNode_elem e h3]
  · intro q
    have q := anyHollow_kids q
    obtain ⟨x, hx, hn⟩ := q
    have e1 := h4 ⟨x, List.mem_cons_of_mem _ hx, hn⟩
    have e2 := h5.top.2 ⟨x, hx, hn⟩
    subst e1 e2
    rfl
  · intro p hp ho
    have hp : PNode.elem f.name f.attrs false none f.kids e = p := by simpa using hp
    subst hp
    have e1 := h4 ⟨f, by simp, ho⟩
    subst e1
    simp

theorem HRel.rel {o : ParseOptions} : KRel (Fits o) (HRel R) where
  name := by
    intro f fs g gs h
    refine ⟨h.1.top.1.1, ?_⟩
    cases fs <;> cases gs <;> first | exact h.1.elim | simp
  push := by
    intro f fs g gs p h _
    refine ⟨h.1.mod ⟨h.1.top.1.1, h.1.top.1.2.1, by simp only [hoistNodes_append, h.1.top.1.2.2]⟩ ?_, .snoc p⟩
    intro q
    have := h.1.top.2 (anyHollow_kids q)
    subst this
    rfl
  more := by
    intro f fs g gs p s h hf
    cases p with
    | top =>
      obtain ⟨xs, w, hk⟩ := hf
      obtain ⟨ys, hk', hx⟩ := h.split hk trivial
      have := h.replace (p' := .text (w ++ s)) hk hk' hx
      have key : ∀ zs, modLast (PNode.addText s) (zs ++ [PNode.text w]) = zs ++ [.text (w ++ s)] := by
        intro zs; rw [modLast_append _ _ (by simp)]; rfl
      simp only [addTextAt, hk, hk', key]
      exact this
    | nested =>
      obtain ⟨_, xs, n, as, ct, w, e, hk, hn⟩ := hf
      obtain ⟨ys, hk', hx⟩ := h.split hk hn
      have := h.replace (p' := .elem n as false ct [.text (w ++ s)] e) hk hk' hx
      have key : ∀ zs, modLast (PNode.modKids (modLast (PNode.addText s))) (zs ++ [PNode.elem n as false ct [.text w] e]) =
          zs ++ [.elem n as false ct [.text (w ++ s)] e] := by
        intro zs; rw [modLast_append _ _ (by simp)]; rfl
      simp only [addTextAt, hk, hk', key]
      exact this
  fill := by
    intro f fs g gs s h hf
    obtain ⟨xs, n, as, ct, e, hk, hn⟩ := hf
    obtain ⟨ys, hk', hx⟩ := h.split hk hn
    have := h.replace (p' := .elem n as false ct [.text s] e) hk hk' hx
    have key : ∀ zs, modLast (PNode.modKids fun ks => ks ++ [.text s]) (zs ++ [PNode.elem n as false ct [] e]) =
        zs ++ [.elem n as false ct [.text s] e] := by
      intro zs; rw [modLast_append _ _ (by simp)]; rfl
    simp only [hk, hk', key]
    exact this
  enter := by
    intro f fs g gs n as h
    exact ⟨⟨⟨rfl, rfl, rfl⟩, fun _ => rfl, h.1⟩, fun p hp _ => by simp at hp⟩
  leave := by
    intro f f1 fs g g1 gs e h
    exact HRel.leave e h.1

theorem HStack.refl : ∀ (fs : List Frame) (f : Frame), HStack R f fs f fs
  | [], _ => ⟨⟨rfl, rfl, rfl⟩, fun _ => rfl⟩
  | g :: gs, _ => ⟨⟨rfl, rfl, rfl⟩, fun _ => rfl, HStack.refl gs g⟩

/-- Modes in which the last node is not looked at. -/
def Mode.free : Mode → Prop
  | .text _ => False
  | .wait l | .lt l | .tagEnd _ l => l = .other
  | _ => True

/-- Modes of the two runs while the text is last. -/
inductive Pair : Mode → Mode → Prop
  | text : Pair (.text .nested) (.text .top)
  | lt : Pair (.lt (.text .nested)) (.lt (.text .top))
  | wait : Pair (.wait (.text .nested)) (.wait (.text .top))
  | tagEnd (pc : Str) : Pair (.tagEnd pc (.text .nested)) (.tagEnd pc (.text .top))
  | free {m : Mode} (h : m.free) : Pair m m

/-- The text is the last thing read. -/
structure Inner (R : Bool) (a a' : AState) : Prop where
  ex : ∃ (xs : List PNode) (n : Str) (as : List Attr) (ct e : Option Str) (w : Str) (m : Mode), emptied R n ct e ∧
    a.top.kids = xs ++ [.elem n as false ct [.text w] e] ∧
    a' = { a with top := { a.top with kids := xs ++ [.elem n as false ct [] e, .text w] }, mode := m } ∧ Pair a.mode m

theorem inner_hoist {xs : List PNode} {n : Str} {as : List Attr} {ct e : Option Str} {w : Str} (hn : emptied R n ct e) :
    hoistNodes R (xs ++ [.elem n as false ct [.text w] e]) = hoistNodes R (xs ++ [.elem n as false ct [] e, .text w]) := by
  simp [hoistNodes_append, hoistNodes, hoistNode, hn]

theorem StackOk.notHollow {o : ParseOptions} : ∀ {fs : List Frame} {f : Frame}, StackOk o (f :: fs) → Bottom (f :: fs) →
    ¬ anyHollow (f :: fs)
  | [], f, _, hb, ⟨x, hx, hn⟩ => by
    have hx : x = f := by simpa using hx
    subst hx
    have := hb.1
    rw [this] at hn
    exact absurd hn (by unfold hollow; decide)
  | g :: gs, f, h, hb, ⟨x, hx, hn⟩ => by
    simp only [StackOk] at h
    rcases List.mem_cons.1 hx with rfl | hx
    · exact hn.elim h.2.1 h.2.2.1
    · exact StackOk.notHollow h.2.2.2.2.2 hb ⟨x, hx, hn⟩

/-- The last frames of two runs with the text inside and outside. -/
theorem inner_stack {f : Frame} {fs : List Frame} {xs : List PNode} {n : Str} {as : List Attr} {ct e : Option Str} {w : Str} (hn : emptied R n ct e)
    (hk : f.kids = xs ++ [.elem n as false ct [.text w] e]) (h : ¬ anyHollow (f :: fs)) :
    HStack R f fs { f with kids := xs ++ [.elem n as false ct [] e, .text w] } fs :=
  (HStack.refl fs f).mod ⟨rfl, rfl, by rw [hk]; exact inner_hoist hn⟩ fun q => absurd q h

theorem HStack.push {f g : Frame} {fs gs : List Frame} (h : HStack R f fs g gs) (p : PNode) :
    HRel R { f with kids := f.kids ++ [p] } fs { g with kids := g.kids ++ [p] } gs := by
  refine ⟨h.mod ⟨h.top.1.1, h.top.1.2.1, by simp only [hoistNodes_append, h.top.1.2.2]⟩ ?_, .snoc p⟩
  intro q
  have := h.top.2 (anyHollow_kids q)
  subst this
  rfl

theorem inner_openTag {o : ParseOptions} {a : AState} {xs : List PNode} {n : Str} {as : List Attr} {ct e : Option Str} {w : Str} {m0 : Mode} (hn : emptied R n ct e)
    (hk : a.top.kids = xs ++ [.elem n as false ct [.text w] e]) (hh : ¬ anyHollow (a.top :: a.rest)) (m : TagMeta) (pc : Str)
    {a' : AState}
    (ha' : a' = { a with top := { a.top with kids := xs ++ [.elem n as false ct [] e, .text w] }, mode := m0 }) :
    Inner R (a.openTag m pc) (a'.openTag m pc) ∨ Sim (HRel R) o (a.openTag m pc) (a'.openTag m pc) := by
  have hst := inner_stack hn hk hh
  subst ha'
  unfold AState.openTag
  split
  · exact .inr ⟨hst.push _, rfl, rfl, .refl _⟩
  · split
    · exact .inl ⟨xs, n, as, ct, e, w, _, hn, hk, rfl, .free trivial⟩
    · exact .inr ⟨⟨⟨⟨rfl, rfl, rfl⟩, fun _ => rfl, hst⟩, fun p hp _ => by simp at hp⟩, rfl, rfl, .refl _⟩

theorem inner_mark {o : ParseOptions} {b b' : AState} (h : Inner R b b' ∨ Sim (HRel R) o b b') (mk : Char) :
    Inner R { b with mark := mk } { b' with mark := mk } ∨ Sim (HRel R) o { b with mark := mk } { b' with mark := mk } := by
  rcases h with ⟨xs, n, as, ct, e, w, m, h1, h2, rfl, h4⟩ | ⟨h1, h2, h3, h4⟩
  · exact .inl ⟨xs, n, as, ct, e, w, m, h1, h2, rfl, h4⟩
  · exact .inr ⟨h1, h2, h3, h4⟩

theorem inner_pop {f : Frame} {fs : List Frame} {g : Frame} (h : HStack R f fs g fs) (hl : SameLast f.kids g.kids) {a a' : AState} (e : Option Str)
    (h1 : a.top = f) (h2 : a.rest = fs) (h3 : a'.top = g) (h4 : a'.rest = fs) (h5 : a.over = a'.over) (h6 : a.sp = a'.sp) :
    HRel R (a.pop e).top (a.pop e).rest (a'.pop e).top (a'.pop e).rest ∧ (a.pop e).over = (a'.pop e).over ∧ (a.pop e).sp = (a'.pop e).sp := by
  unfold AState.pop
  cases fs with
  | nil =>
    rw [h2, h4]
    simp only [h1, h3]
    exact ⟨⟨h, hl⟩, trivial, h6⟩
  | cons g gs =>
    rw [h2, h4]
    simp only [h1, h3]
    exact ⟨HRel.leave e h, h5, h6⟩

/-- One character. -/
theorem Inner.step {o : ParseOptions} {a a' b : AState} {c : Char} (h : Inner R a a') (hw : WfInv o a) (hb : Bottom (a.top :: a.rest))
    (hs : astep o a c = some b) : ∃ b', astep o a' c = some b' ∧ (Inner R b b' ∨ Sim (HRel R) o b b') := by
  obtain ⟨xs, n, as, ct, e, w, m, hn, hk, rfl, hp⟩ := h
  have hh := hw.stack.notHollow hb
  have hst := inner_stack hn hk hh
  have hmore : ∀ t, addTextAt .nested t a.top.kids = xs ++ [.elem n as false ct [.text (w ++ t)] e] := by
    intro t
    rw [hk]
    simp only [addTextAt]
    rw [modLast_append _ _ (by simp)]; rfl
  have hmore' : ∀ t, addTextAt .top t (xs ++ [PNode.elem n as false ct [] e, .text w]) =
      xs ++ [.elem n as false ct [] e, .text (w ++ t)] := by
    intro t
    simp only [addTextAt]
    rw [modLast_append _ _ (by simp)]; rfl
  -- the text goes on
  have goOn : ∀ (t : Str) (m m' : Mode), Pair m m' → Inner R { a.more .nested t with mode := m }
      { a.more .nested t with top := { a.top with kids := xs ++ [.elem n as false ct [] e, .text (w ++ t)] }, mode := m' } := by
    intro t m m' hp
    exact ⟨xs, n, as, ct, e, w ++ t, m', hn, by simp only [AState.more, hmore], rfl, hp⟩
  have stay : ∀ (m m' : Mode) (mk : Char), Pair m m' → Inner R { a with mode := m, mark := mk }
      { a with top := { a.top with kids := xs ++ [.elem n as false ct [] e, .text w] }, mode := m', mark := mk } := by
    intro m m' mk hp
    exact ⟨xs, n, as, ct, e, w, m', hn, hk, rfl, hp⟩
  have pushed : ∀ (p : PNode) (m : Mode) (mk : Char), Sim (HRel R) o { a.push p with mode := m, mark := mk }
      { a with top := { a.top with kids := xs ++ [.elem n as false ct [] e, .text w] ++ [p] }, mode := m, mark := mk } := by
    intro p m mk
    exact ⟨hst.push p, rfl, rfl, .refl _⟩
  generalize hma : a.mode = ma at hp
  cases hp with
  | text =>
    simp only [astep, hma] at hs ⊢
    by_cases hc : c = '<'
    · rw [if_pos hc, Option.some.injEq] at hs
      rw [if_pos hc]
      subst hs
      exact ⟨_, rfl, .inl (stay _ _ _ .lt)⟩
    · rw [if_neg hc, Option.some.injEq] at hs
      rw [if_neg hc]
      subst hs
      refine ⟨_, rfl, .inl ⟨xs, n, as, ct, e, w ++ [c], .text .top, hn, by simp only [AState.more, hmore], ?_, ?_⟩⟩
      · simp only [AState.more, hmore']
      · show Pair a.mode _; rw [hma]; exact .text
  | lt =>
    simp only [astep, hma] at hs ⊢
    by_cases q1 : isAlpha c = true
    · rw [if_pos q1] at hs ⊢
      by_cases q2 : a.over = true
      · rw [if_pos q2] at hs; cases hs
      · rw [if_neg q2, Option.some.injEq] at hs
        rw [if_neg q2]; subst hs
        exact ⟨_, rfl, .inl (stay _ _ _ (.free trivial))⟩
    · rw [if_neg q1] at hs ⊢
      by_cases q2 : c = '/'
      · rw [if_pos q2, Option.some.injEq] at hs
        rw [if_pos q2]; subst hs
        refine ⟨_, rfl, .inl (stay _ _ _ ?_)⟩
        by_cases hu : o.autoFixUnclosedTag = true
        · rw [if_pos hu, if_pos hu]; exact .tagEnd _
        · rw [if_neg hu, if_neg hu]; exact .free rfl
      · rw [if_neg q2] at hs ⊢
        by_cases q3 : c = '!'
        · rw [if_pos q3, Option.some.injEq] at hs
          rw [if_pos q3]; subst hs
          exact ⟨_, rfl, .inl (stay _ _ _ (.free trivial))⟩
        · rw [if_neg q3] at hs ⊢
          by_cases q4 : o.autoFixUnescapedLt = false
          · rw [if_pos q4] at hs; cases hs
          · rw [if_neg q4, Option.some.injEq] at hs
            rw [if_neg q4]
            subst hs
            refine ⟨_, rfl, .inl ?_⟩
            simp only [AState.more, hmore']
            refine goOn _ _ _ ?_
            by_cases hc : c = '<'
            · rw [if_pos hc, if_pos hc]; exact .lt
            · rw [if_neg hc, if_neg hc]; exact .text
  | wait =>
    simp only [astep, hma] at hs ⊢
    by_cases hc : c = '<'
    · rw [if_pos hc, Option.some.injEq] at hs
      rw [if_pos hc]; subst hs
      exact ⟨_, rfl, .inl (stay _ _ _ .lt)⟩
    · rw [if_neg hc] at hs ⊢
      cases hu : o.autoFixUnexpectedEndtag with
      | true =>
        simp only [hu, Option.some.injEq] at hs ⊢
        subst hs
        refine ⟨_, rfl, .inl ?_⟩
        simp only [AState.more, hmore']
        exact goOn _ _ _ .text
      | false =>
        simp only [hu] at hs ⊢
        by_cases q2 : a.over = true
        · rw [if_pos q2] at hs; cases hs
        · rw [if_neg q2, Option.some.injEq] at hs
          rw [if_neg q2]; subst hs
          exact ⟨_, rfl, .inr (pushed _ _ _)⟩
  | tagEnd pc =>
    simp only [astep, hma] at hs ⊢
    by_cases hc : c = '>'
    · rw [if_pos hc] at hs ⊢
      by_cases he : a.rest ≠ [] ∧ (isEqualCharsIgnoreCase a.top.name (charsTrimEnd pc)).1 = true
      · rw [if_pos he] at hs ⊢
        by_cases hcs : o.caseSensitiveTagname = true ∧ (isEqualCharsIgnoreCase a.top.name (charsTrimEnd pc)).2 = false
        · rw [if_pos hcs] at hs; cases hs
        · rw [if_neg hcs, Option.some.injEq] at hs
          rw [if_neg hcs]; subst hs
          refine ⟨_, rfl, .inr ?_⟩
          cases hr : a.rest with
          | nil => exact absurd hr he.1
          | cons g gs =>
            rw [hr] at hst
            have := HRel.leave (some pc) hst
            refine ⟨?_, ?_, rfl, .refl _⟩
            · simp only [AState.pop, hr]; exact this
            · simp only [AState.pop, hr]
      · rw [if_neg he] at hs ⊢
        by_cases hu : o.autoFixUnexpectedEndtag = true
        · rw [if_pos hu, Option.some.injEq] at hs
          rw [if_pos hu]; subst hs
          exact ⟨_, rfl, .inl (stay _ _ _ .wait)⟩
        · rw [if_neg hu] at hs; cases hs
    · rw [if_neg hc, Option.some.injEq] at hs
      rw [if_neg hc]; subst hs
      exact ⟨_, rfl, .inl (stay _ _ _ (.tagEnd _))⟩
  | free hf =>
    cases m with
    | text p => exact hf.elim
    | wait l =>
      have hf : l = .other := hf
      subst hf
      simp only [astep, hma] at hs ⊢
      by_cases hc : c = '<'
      · rw [if_pos hc, Option.some.injEq] at hs
        rw [if_pos hc]; subst hs
        exact ⟨_, rfl, .inl (stay _ _ _ (.free rfl))⟩
      · rw [if_neg hc] at hs ⊢
        by_cases q2 : a.over = true
        · rw [if_pos q2] at hs; cases hs
        · rw [if_neg q2, Option.some.injEq] at hs
          rw [if_neg q2]; subst hs
          exact ⟨_, rfl, .inr (pushed _ _ _)⟩
    | lt l =>
      have hf : l = .other := hf
      subst hf
      simp only [astep, hma] at hs ⊢
      by_cases q1 : isAlpha c = true
      · rw [if_pos q1] at hs ⊢
        by_cases q2 : a.over = true
        · rw [if_pos q2] at hs; cases hs
        · rw [if_neg q2, Option.some.injEq] at hs
          rw [if_neg q2]; subst hs
          exact ⟨_, rfl, .inl (stay _ _ _ (.free trivial))⟩
      · rw [if_neg q1] at hs ⊢
        by_cases q2 : c = '/'
        · rw [if_pos q2, Option.some.injEq] at hs
          rw [if_pos q2]; subst hs
          refine ⟨_, rfl, .inl (stay _ _ _ (.free ?_))⟩
          unfold Mode.free; simp
        · rw [if_neg q2] at hs ⊢
          by_cases q3 : c = '!'
          · rw [if_pos q3, Option.some.injEq] at hs
            rw [if_pos q3]; subst hs
            exact ⟨_, rfl, .inl (stay _ _ _ (.free trivial))⟩
          · rw [if_neg q3] at hs ⊢
            by_cases q4 : o.autoFixUnescapedLt = false
            · rw [if_pos q4] at hs; cases hs
            · rw [if_neg q4, Option.some.injEq] at hs
              rw [if_neg q4]
              subst hs
              exact ⟨_, rfl, .inr (pushed _ _ _)⟩
    | tagEnd pc l =>
      have hf : l = .other := hf
      subst hf
      simp only [astep, hma] at hs ⊢
      by_cases hc : c = '>'
      · rw [if_pos hc] at hs ⊢
        by_cases he : a.rest ≠ [] ∧ (isEqualCharsIgnoreCase a.top.name (charsTrimEnd pc)).1 = true
        · rw [if_pos he] at hs ⊢
          by_cases hcs : o.caseSensitiveTagname = true ∧ (isEqualCharsIgnoreCase a.top.name (charsTrimEnd pc)).2 = false
          · rw [if_pos hcs] at hs; cases hs
          · rw [if_neg hcs, Option.some.injEq] at hs
            rw [if_neg hcs]; subst hs
            refine ⟨_, rfl, .inr ?_⟩
            cases hr : a.rest with
            | nil => exact absurd hr he.1
            | cons g gs =>
              rw [hr] at hst
              have := HRel.leave (some pc) hst
              refine ⟨?_, ?_, rfl, .refl _⟩
              · simp only [AState.pop, hr]; exact this
              · simp only [AState.pop, hr]
        · rw [if_neg he] at hs ⊢
          by_cases hu : o.autoFixUnexpectedEndtag = true
          · rw [if_pos hu, Option.some.injEq] at hs
            rw [if_pos hu]; subst hs
            exact ⟨_, rfl, .inl (stay _ _ _ (.free rfl))⟩
          · rw [if_neg hu] at hs; cases hs
      · rw [if_neg hc, Option.some.injEq] at hs
        rw [if_neg hc]; subst hs
        exact ⟨_, rfl, .inl (stay _ _ _ (.free rfl))⟩
    | bang D pc =>
      have key : (∃ m mk, b = { a with mode := m, mark := mk } ∧ m.free ∧
          astep o { a with top := { a.top with kids := xs ++ [.elem n as false ct [] e, .text w] }, mode := .bang D pc } c =
            some { a with top := { a.top with kids := xs ++ [.elem n as false ct [] e, .text w] }, mode := m, mark := mk }) := by
        cases D with
        | none =>
          simp only [astep, hma] at hs ⊢
          repeat' split at hs
          all_goals first | (cases hs; done) | skip
          all_goals (rw [Option.some.injEq] at hs; subst hs; refine ⟨_, _, rfl, trivial, ?_⟩; simp_all)
        | some D =>
          simp only [astep, hma] at hs ⊢
          repeat' split at hs
          all_goals first | (cases hs; done) | skip
          all_goals (rw [Option.some.injEq] at hs; subst hs; refine ⟨_, _, rfl, trivial, ?_⟩; simp_all)
      obtain ⟨m, mk, rfl, hm, h2⟩ := key
      exact ⟨_, h2, .inl (stay _ _ _ (.free hm))⟩
    | comment cd pc =>
      simp only [astep, hma] at hs ⊢
      cases hb : (if c = '>' then commentBody (if cd = true then ']' else '-') pc else none) with
      | none =>
        simp only [hb, Option.some.injEq] at hs ⊢
        subst hs
        exact ⟨_, rfl, .inl (stay _ _ _ (.free trivial))⟩
      | some bd =>
        simp only [hb, Option.some.injEq] at hs ⊢
        subst hs
        exact ⟨_, rfl, .inr (pushed _ _ _)⟩
    | doctypeName pc =>
      simp only [astep, hma] at hs ⊢
      by_cases hc : isWs c = true
      · rw [if_pos hc, Option.some.injEq] at hs
        rw [if_pos hc]; subst hs
        exact ⟨_, rfl, .inl (stay _ _ _ (.free trivial))⟩
      · rw [if_neg hc] at hs; cases hs
    | tagName pc =>
      simp only [astep, hma] at hs ⊢
      by_cases q1 : c = '>'
      · rw [if_pos q1, Option.some.injEq] at hs
        rw [if_pos q1]; subst hs
        refine ⟨_, rfl, ?_⟩
        exact inner_openTag hn hk hh _ _ rfl
      · rw [if_neg q1] at hs ⊢
        by_cases q2 : c = '/'
        · rw [if_pos q2, Option.some.injEq] at hs
          rw [if_pos q2]; subst hs
          exact ⟨_, rfl, .inl (stay _ _ _ (.free trivial))⟩
        · rw [if_neg q2] at hs ⊢
          by_cases q3 : isWs c = true
          · rw [if_pos q3, Option.some.injEq] at hs
            rw [if_pos q3]; subst hs
            exact ⟨_, rfl, .inl (stay _ _ _ (.free trivial))⟩
          · rw [if_neg q3, Option.some.injEq] at hs
            rw [if_neg q3]; subst hs
            exact ⟨_, rfl, .inl (stay _ _ _ (.free trivial))⟩
    | inTag isDoc t =>
      simp only [astep, hma] at hs ⊢
      cases ht : tagChar isDoc o.allowAttrKeyStartsWithEqualSign t c with
      | cont t1 id =>
        simp only [ht, Option.some.injEq] at hs ⊢
        subst hs
        exact ⟨_, rfl, .inl (stay _ _ _ (.free trivial))⟩
      | close m pc mk id =>
        simp only [ht] at hs ⊢
        cases isDoc with
        | true =>
          simp only [if_true, Option.some.injEq] at hs ⊢
          subst hs
          exact ⟨_, rfl, .inr (pushed _ _ _)⟩
        | false =>
          simp only [Bool.false_eq_true, if_false, Option.some.injEq] at hs ⊢
          subst hs
          exact ⟨_, rfl, inner_mark (inner_openTag hn hk hh _ _ rfl) _⟩
      | selfClose =>
        simp only [ht] at hs ⊢
        cases isDoc with
        | true =>
          simp only [if_true, Option.some.injEq] at hs ⊢
          subst hs
          refine ⟨_, rfl, .inr ?_⟩
          have hq := hst.push (.doctype t.m.name t.m.attrs true)
          obtain ⟨k1, k2, k3⟩ := inner_pop hq.1 hq.2 (a := a.push (.doctype t.m.name t.m.attrs true))
            (a' := AState.push { a with top := { a.top with kids := xs ++ [.elem n as false ct [] e, .text w] }, mode := .inTag true t }
              (.doctype t.m.name t.m.attrs true)) none rfl rfl rfl rfl rfl rfl
          exact ⟨k1, k2, k3, .refl _⟩
        | false =>
          simp only [Bool.false_eq_true, if_false] at hs ⊢
          by_cases hx : o.allowSelfClosing = true ∨ t.m.isVoid = true ∨ a.sp ≠ none
          · rw [if_pos hx, Option.some.injEq] at hs
            rw [if_pos hx]; subst hs
            exact ⟨_, rfl, .inr (pushed _ _ _)⟩
          · rw [if_neg hx] at hs; cases hs
      | err e => simp only [ht] at hs; cases hs
    | raw m pc =>
      simp only [astep, hma] at hs ⊢
      cases hb : (if c = '>' then rawBody o.caseSensitiveTagname m.name pc else none) with
      | none =>
        simp only [hb, Option.some.injEq] at hs ⊢
        subst hs
        exact ⟨_, rfl, .inl (stay _ _ _ (.free trivial))⟩
      | some k =>
        simp only [hb, Option.some.injEq] at hs ⊢
        subst hs
        exact ⟨_, rfl, .inr (pushed _ _ _)⟩

theorem Pair.inStart {m m' : Mode} (h : Pair m m') : m.inStart = m'.inStart := by cases h <;> rfl

theorem Pair.outside {m m' : Mode} (h : Pair m m') : m.outside = m'.outside := by cases h <;> rfl

/-- What stops one run stops the other. -/
theorem Inner.stop {o : ParseOptions} {a a' : AState} {c : Char} (h : Inner R a a') (hs : astep o a c = none) : astep o a' c = none := by
  obtain ⟨xs, n, as, ct, e, w, m, hn, hk, rfl, hp⟩ := h
  generalize hma : a.mode = ma at hp
  cases hp with
  | text => simp only [astep, hma] at hs; split at hs <;> cases hs
  | lt =>
    simp only [astep, hma] at hs ⊢
    repeat' split at hs
    all_goals first | (cases hs; done) | skip
    all_goals simp_all
  | wait =>
    simp only [astep, hma] at hs ⊢
    repeat' split at hs
    all_goals first | (cases hs; done) | skip
    all_goals simp_all
  | tagEnd pc =>
    simp only [astep, hma] at hs ⊢
    repeat' split at hs
    all_goals first | (cases hs; done) | skip
    all_goals simp_all
  | free hf =>
    cases m with
    | text p => exact hf.elim
    | wait l =>
      have hf : l = .other := hf
      subst hf
      simp only [astep, hma] at hs ⊢
      repeat' split at hs
      all_goals first | (cases hs; done) | skip
      all_goals simp_all
    | lt l =>
      have hf : l = .other := hf
      subst hf
      simp only [astep, hma] at hs ⊢
      repeat' split at hs
      all_goals first | (cases hs; done) | skip
      all_goals simp_all
    | tagEnd pc l =>
      have hf : l = .other := hf
      subst hf
      simp only [astep, hma] at hs ⊢
      repeat' split at hs
      all_goals first | (cases hs; done) | skip
      all_goals simp_all
    | bang D pc =>
      cases D with
      | none =>
        simp only [astep, hma] at hs ⊢
        repeat' split at hs
        all_goals first | (cases hs; done) | skip
        all_goals simp_all
      | some D =>
        simp only [astep, hma] at hs ⊢
        repeat' split at hs
        all_goals first | (cases hs; done) | skip
        all_goals simp_all
    | comment cd pc =>
      simp only [astep, hma] at hs ⊢
      split at hs <;> cases hs
    | doctypeName pc =>
      simp only [astep, hma] at hs ⊢
      split at hs
      · cases hs
      · simp_all
    | tagName pc =>
      simp only [astep, hma] at hs
      repeat' split at hs
      all_goals cases hs
    | inTag isDoc t =>
      simp only [astep, hma] at hs ⊢
      cases ht : tagChar isDoc o.allowAttrKeyStartsWithEqualSign t c with
      | cont t1 id => simp only [ht] at hs; cases hs
      | close m pc mk id =>
        simp only [ht] at hs
        split at hs <;> cases hs
      | selfClose =>
        simp only [ht] at hs ⊢
        repeat' split at hs
        all_goals first | (cases hs; done) | skip
        all_goals simp_all
      | err e => rfl
    | raw m pc =>
      simp only [astep, hma] at hs ⊢
      split at hs <;> cases hs

/-- The two runs, from where they part. -/
def Apart (R : Bool) (o : ParseOptions) (a a' : AState) : Prop := Inner R a a' ∨ Sim (HRel R) o a a'

theorem Apart.run {o : ParseOptions} : ∀ (u : Str) {v : Str} {a a' : AState}, Apart R o a a' → arun o {} v = some a →
    OptRel (Apart R o) (arun o a u) (arun o a' u)
  | [], _, _, _, h, _ => h
  | c :: u, v, a, a', h, hv => by
    simp only [arun]
    have hw := WfInv.run hv
    cases hs : astep o a c with
    | none =>
      have : astep o a' c = none := by
        rcases h with h | h
        · exact h.stop hs
        · have := h.step HRel.rel hw.modeFit c
          rw [hs] at this
          cases q : astep o a' c with
          | none => rfl
          | some b' => rw [q] at this; exact this.elim
      rw [this]; trivial
    | some b =>
      have : ∃ b', astep o a' c = some b' ∧ Apart R o b b' := by
        rcases h with h | h
        · exact h.step hw (bottom_run hv) hs
        · have := h.step HRel.rel hw.modeFit c
          rw [hs] at this
          cases q : astep o a' c with
          | none => rw [q] at this; exact this.elim
          | some b' => rw [q] at this; exact ⟨b', rfl, .inr this⟩
      obtain ⟨b', h1, h2⟩ := this
      rw [h1]
      refine Apart.run u (v := v ++ [c]) h2 ?_
      rw [arun_append, hv]
      simp only [Option.bind_some, arun, hs]

theorem Apart.final {o : ParseOptions} {a a' : AState} (h : Apart R o a a') : a.final o = a'.final o := by
  rcases h with ⟨_, _, _, _, _, _, _, _, _, rfl, hp⟩ | h
  · rw [Bool.eq_iff_iff, final_iff, final_iff, hp.outside]
  · exact h.final (HRel.rel (o := o))

/-- The documents read are the same up to hoisting. -/
theorem Apart.result {o : ParseOptions} {v : Str} {a a' : AState} (h : Apart R o a a') (hv : arun o {} v = some a) :
    hoistNodes R a.result = hoistNodes R a'.result := by
  rcases h with ⟨xs, n, as, ct, e, w, m, hn, hk, rfl, hp⟩ | h
  · have hst := inner_stack hn hk ((WfInv.run hv).stack.notHollow (bottom_run hv))
    rw [result_eq, result_eq]
    show hoistNodes R (closeKids a.top.kids a.top a.rest) = hoistNodes R (closeKids _ _ a.rest)
    cases hr : a.rest with
    | nil =>
      rw [hr] at hst
      exact hst.1.2.2
    | cons g gs =>
      rw [hr] at hst
      obtain ⟨F, G, k1, k2, k3⟩ := closeKids_rel (HRel.rel (o := o)) _ _ _ _ (HRel.leave (some a.top.name) hst)
      have q1 : closeKids a.top.kids a.top (g :: gs) = F.kids := by
        rw [← k2]; unfold closeKids; cases gs <;> rfl
      have q2 : ∀ ks, closeKids ks { a.top with kids := ks } (g :: gs) =
          closeKids (g.kids ++ [.elem a.top.name a.top.attrs false none ks (some a.top.name)])
            { g with kids := g.kids ++ [.elem a.top.name a.top.attrs false none ks (some a.top.name)] } gs := by
        intro ks; rw [closeKids]; cases gs <;> rfl
      rw [q1, q2, k3]
      exact k1.1.1.2.2
  · obtain ⟨F, G, k1, k2, k3⟩ := h.result (HRel.rel (o := o))
    rw [k2, k3]
    exact k1.1.1.2.2

end Rphtml
