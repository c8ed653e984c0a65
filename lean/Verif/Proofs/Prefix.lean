import Verif.Proofs.Sim
import Verif.Proofs.WfInv

/-!
# Reading on after a finished document

A document read after another one is read as if it stood alone.
-/

namespace Rphtml
open Spec

/-- Put nodes before the children of the outermost frame. -/
def before (ps : List PNode) : List Frame → List Frame
  | [] => []
  | [f] => [{ f with kids := ps ++ f.kids }]
  | f :: g :: fs => f :: before ps (g :: fs)

/-- Stacks that differ in nodes before the first one. -/
def Before (ps : List PNode) (f : Frame) (fs : List Frame) (g : Frame) (gs : List Frame) : Prop :=
  g :: gs = before ps (f :: fs)

/-- A text or void element is there. -/
def HasLast (l : Last) (ks : List PNode) : Prop := l ≠ .other → ks ≠ []

theorem modLast_append {α : Type} (f : α → α) (xs : List α) : ∀ {ys : List α}, ys ≠ [] → modLast f (xs ++ ys) = xs ++ modLast f ys := by
  induction xs with
  | nil => intros; rfl
  | cons x xs ih =>
    intro ys hy
    cases hq : xs ++ ys with
    | nil => simp at hq; exact absurd hq.2 hy
    | cons z zs =>
      rw [List.cons_append, hq, modLast, ← hq, ih hy, List.cons_append]

theorem before_change {ps : List PNode} {f : Frame} {fs : List Frame} {g : Frame} {gs : List Frame} (h : Before ps f fs g gs)
    (φ : List PNode → List PNode) (hφ : φ (ps ++ f.kids) = ps ++ φ f.kids) :
    Before ps { f with kids := φ f.kids } fs { g with kids := φ g.kids } gs := by
  unfold Before at h ⊢
  cases fs with
  | nil =>
    simp only [before, List.cons.injEq] at h ⊢
    obtain ⟨rfl, rfl⟩ := h
    simp only [hφ, and_self]
  | cons f1 fs =>
    simp only [before, List.cons.injEq] at h ⊢
    obtain ⟨rfl, rfl⟩ := h
    simp

theorem before_cons (ps : List PNode) (f : Frame) (fs : List Frame) : ∃ g gs, before ps (f :: fs) = g :: gs := by
  cases fs with
  | nil => exact ⟨_, _, rfl⟩
  | cons f1 fs => exact ⟨_, _, rfl⟩

theorem Before.rel (ps : List PNode) : KRel HasLast (Before ps) where
  name := by
    intro f fs g gs h
    unfold Before at h
    cases fs with
    | nil =>
      simp only [before, List.cons.injEq] at h
      obtain ⟨rfl, rfl⟩ := h
      simp
    | cons f1 fs =>
      simp only [before, List.cons.injEq] at h
      obtain ⟨rfl, h⟩ := h
      obtain ⟨x, xs, hx⟩ := before_cons ps f1 fs
      rw [h, hx]; simp
  push := fun p h _ => before_change h (· ++ [p]) (by simp)
  more := by
    intro f fs g gs p s h hf
    refine before_change h (addTextAt p s) ?_
    cases p <;> exact modLast_append _ _ (hf (by simp))
  fill := fun s h hf => before_change h _ (modLast_append _ _ (hf (by simp)))
  enter := by
    intro f fs g gs n as h
    unfold Before at h ⊢
    simp only [before, h]
  leave := by
    intro f f1 fs g g1 gs e h
    unfold Before at h
    simp only [before, List.cons.injEq] at h
    obtain ⟨rfl, h⟩ := h
    exact before_change (ps := ps) h (· ++ [.elem g.name g.attrs false none g.kids e]) (by simp)

theorem WfInv.hasLast {o : ParseOptions} {a : AState} (h : WfInv o a) : ModeFit HasLast a := by
  have hl := h.last
  unfold LastFits at hl
  have key : ∀ l, Fits o l a.top.kids → HasLast l a.top.kids := by
    intro l hf hn
    cases l with
    | other => exact absurd rfl hn
    | hole => obtain ⟨xs, n, as, ct, e, hk, _⟩ := hf; rw [hk]; simp
    | text p =>
      cases p with
      | top => obtain ⟨xs, w, hk⟩ := hf; rw [hk]; simp
      | nested => obtain ⟨_, xs, n, as, ct, w, e, hk, _⟩ := hf; rw [hk]; simp
  unfold ModeFit
  cases hm : a.mode with
  | text p => rw [hm] at hl; exact key _ hl
  | wait l => rw [hm] at hl; exact key _ hl.1
  | lt l => rw [hm] at hl; exact key _ hl
  | _ => trivial

/-- The document has been closed by a self-closed doctype. -/
def OverInv (a : AState) : Prop := a.over = true → a.rest = [] ∧ ∃ n as, .doctype n as true ∈ a.top.kids

theorem mem_modLast {α : Type} {f : α → α} {x : α} (hx : f x = x) : ∀ {xs : List α}, x ∈ xs → x ∈ modLast f xs
  | [], h => by cases h
  | [y], h => by
    simp only [List.mem_singleton] at h
    subst h
    simp [modLast, hx]
  | y :: z :: ys, h => by
    simp only [modLast, List.mem_cons]
    rcases List.mem_cons.1 h with rfl | h
    · exact .inl rfl
    · right
      exact mem_modLast hx h

theorem OverInv.step {o : ParseOptions} {a a' : AState} {c : Char} (h : OverInv a) (hm0 : ModeOk o a) (s : AStep o a c a') : OverInv a' := by
  have keep : ∀ (b : AState), b.over = a.over → b.rest = a.rest → (∀ n as, PNode.doctype n as true ∈ a.top.kids → .doctype n as true ∈ b.top.kids) →
      OverInv b := by
    intro b h1 h2 h3 h4
    rw [h1] at h4
    obtain ⟨k1, n, as, k2⟩ := h h4
    exact ⟨h2.trans k1, n, as, h3 n as k2⟩
  have same : ∀ (b : AState), b.over = a.over → b.rest = a.rest → b.top = a.top → OverInv b :=
    fun b h1 h2 h3 => keep b h1 h2 (fun _ _ q => h3 ▸ q)
  have not : ∀ (b : AState), b.over = false → OverInv b := by
    intro b h1 h2; rw [h1] at h2; cases h2
  have hmore : ∀ p w n as, PNode.doctype n as true ∈ a.top.kids → PNode.doctype n as true ∈ addTextAt p w a.top.kids := by
    intro p w n as q
    cases p <;> exact mem_modLast rfl q
  have hopen : ∀ m pc, a.over = false → (a.openTag m pc).over = false := by
    intro m pc q; unfold AState.openTag; split
    · exact q
    · split <;> exact q
  unfold ModeOk at hm0
  cases s with
  | lt => exact same _ rfl rfl rfl
  | resume => exact keep _ rfl rfl (hmore _ _)
  | start _ _ ho => exact not _ ho
  | more => exact keep _ rfl rfl (hmore _ _)
  | tagOpen => exact same _ rfl rfl rfl
  | endOpen => exact same _ rfl rfl rfl
  | bangOpen => exact same _ rfl rfl rfl
  | ltMore => exact keep _ rfl rfl (hmore _ _)
  | ltFill => exact keep _ rfl rfl (fun _ _ q => mem_modLast rfl q)
  | ltPush => exact keep _ rfl rfl (fun _ _ q => List.mem_append_left _ q)
  | bangDash => exact same _ rfl rfl rfl
  | bangD => exact same _ rfl rfl rfl
  | bangC => exact same _ rfl rfl rfl
  | bangMore => exact same _ rfl rfl rfl
  | commentOpen => exact same _ rfl rfl rfl
  | cdataOpen => exact same _ rfl rfl rfl
  | doctypeOpen => exact same _ rfl rfl rfl
  | commentClose => exact keep _ rfl rfl (fun _ _ q => List.mem_append_left _ q)
  | commentMore => exact same _ rfl rfl rfl
  | doctypeName => exact same _ rfl rfl rfl
  | nameMore => exact same _ rfl rfl rfl
  | nameEnd => exact same _ rfl rfl rfl
  | nameClose hm => simp only [hm] at hm0; exact not _ (hopen _ _ hm0.1)
  | tagMore => exact same _ rfl rfl rfl
  | docClose => exact keep _ rfl rfl (fun _ _ q => List.mem_append_left _ q)
  | tagClose hm => simp only [hm] at hm0; exact not _ (hopen _ _ hm0.1)
  | docSelf hm =>
    rename_i t _
    simp only [hm] at hm0
    cases hr : a.rest with
    | nil =>
      intro _
      simp only [AState.pop, AState.push, hr]
      exact ⟨trivial, t.m.name, t.m.attrs, by simp⟩
    | cons g gs =>
      apply not
      simp only [AState.pop, AState.push, hr]
      exact hm0.1
  | tagSelf => exact keep _ rfl rfl (fun _ _ q => List.mem_append_left _ q)
  | endMore => exact same _ rfl rfl rfl
  | endMatch _ hr =>
    have ho : a.over = false := by
      cases ho : a.over with
      | false => rfl
      | true => exact absurd (h ho).1 hr
    apply not
    simp only
    unfold AState.pop
    split <;> simp_all
  | endStray => exact same _ rfl rfl rfl
  | rawClose => exact keep _ rfl rfl (fun _ _ q => List.mem_append_left _ q)
  | rawMore => exact same _ rfl rfl rfl

theorem OverInv.run {o : ParseOptions} {s : Str} {a : AState} (h : arun o {} s = some a) : OverInv a :=
  (arun_inv (P := fun _ a => WfInv o a ∧ OverInv a) (fun _ _ _ _ k st => ⟨k.1.step st, k.2.step k.1.mode st⟩) s [] {} a
    ⟨WfInv.init o, fun q => by cases q⟩ h).2

theorem WfInv.astep {o : ParseOptions} {a b : AState} {c : Char} (h : WfInv o a) (hs : astep o a c = some b) : WfInv o b :=
  h.step (astep_sound hs)

/-- The outermost frame is the document itself. -/
def Bottom : List Frame → Prop
  | [] => False
  | [f] => f.name = [] ∧ f.attrs = []
  | _ :: g :: fs => Bottom (g :: fs)

theorem Bottom.kids {f : Frame} {fs : List Frame} {ks : List PNode} (h : Bottom (f :: fs)) : Bottom ({ f with kids := ks } :: fs) := by
  cases fs with
  | nil => exact h
  | cons g gs => exact h

theorem Bottom.rel : KRel (fun _ _ => True) (fun f fs g gs => f = g ∧ fs = gs ∧ Bottom (f :: fs)) where
  name := by rintro f fs g gs ⟨rfl, rfl, _⟩; simp
  push := by rintro f fs g gs p ⟨rfl, rfl, h⟩ _; exact ⟨rfl, rfl, h.kids⟩
  more := by rintro f fs g gs p s ⟨rfl, rfl, h⟩ _; exact ⟨rfl, rfl, h.kids⟩
  fill := by rintro f fs g gs s ⟨rfl, rfl, h⟩ _; exact ⟨rfl, rfl, h.kids⟩
  enter := by rintro f fs g gs n as ⟨rfl, rfl, h⟩; exact ⟨rfl, rfl, h⟩
  leave := by
    rintro f f1 fs g g1 gs e ⟨rfl, h1, h⟩
    simp only [List.cons.injEq] at h1
    obtain ⟨rfl, rfl⟩ := h1
    exact ⟨rfl, rfl, Bottom.kids (f := f1) h⟩

theorem bottom_run {o : ParseOptions} {s : Str} {a : AState} (h : arun o {} s = some a) : Bottom (a.top :: a.rest) := by
  have := Sim.run Bottom.rel (o := o) (P := fun _ => True) (fun _ _ => trivial)
    (fun _ => by unfold ModeFit; split <;> trivial) s (a := {}) (a' := {}) ⟨⟨rfl, rfl, rfl, rfl⟩, rfl, rfl, .refl _⟩ trivial
  rw [h] at this
  exact this.stack.2.2

/-- The machine goes on after a finished document as at the beginning. -/
theorem arun_before {o : ParseOptions} {s : Str} {a : AState} (h : arun o {} s = some a) (ho : a.over = false) (hs : a.sp = none)
    (hr : a.rest = []) (hm : ModeSim o (.wait .other) a.mode) (u : Str) :
    OptRel (Sim (Before a.top.kids) o) (arun o {} u) (arun o a u) := by
  refine Sim.run (Before.rel a.top.kids) (P := WfInv o) (fun h hs => h.astep hs) WfInv.hasLast u ?_ (WfInv.init o)
  refine ⟨?_, ho.symm, hs.symm, hm⟩
  have hb := bottom_run h
  rw [hr] at hb
  unfold Before
  rw [hr]
  simp only [Bottom] at hb
  obtain ⟨⟨n, as, ks⟩, _, _, _, _, _⟩ := a
  simp only at hb
  simp [before, hb]

/-- The same when the document ends with text and markup follows. -/
theorem arun_before_lt {o : ParseOptions} {s : Str} {a : AState} (h : arun o {} s = some a) (ho : a.over = false) (hs : a.sp = none)
    (hr : a.rest = []) (hm : a.mode.outside = true) (h1 : o.autoFixUnescapedLt = false) (h2 : o.autoFixUnexpectedEndtag = false) (u : Str) :
    OptRel (Sim (Before a.top.kids) o) (arun o {} ('<' :: u)) (arun o a ('<' :: u)) := by
  have key : ∀ l, astep o a '<' = some { a with mode := .lt l } →
      OptRel (Sim (Before a.top.kids) o) (arun o {} ('<' :: u)) (arun o a ('<' :: u)) := by
    intro l hl
    have hl' : astep o {} '<' = some { ({} : AState) with mode := .lt .other } := by simp [astep]
    simp only [arun, hl, hl']
    refine Sim.run (Before.rel a.top.kids) (P := WfInv o) (fun h hs => h.astep hs) WfInv.hasLast u ?_ ((WfInv.init o).astep hl')
    refine ⟨?_, ho.symm, hs.symm, .lt _ _ h1 (.inl h2)⟩
    have hb := bottom_run h
    rw [hr] at hb
    unfold Before
    simp only [hr]
    simp only [Bottom] at hb
    obtain ⟨⟨n, as, ks⟩, _, _, _, _, _⟩ := a
    simp only at hb
    simp [before, hb]
  cases hmo : a.mode with
  | wait l => exact key l (by simp [astep, hmo])
  | text p => exact key (.text p) (by simp [astep, hmo])
  | _ => rw [hmo] at hm; cases hm

end Rphtml
