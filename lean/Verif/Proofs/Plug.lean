import Verif.Spec.Gap
import Verif.Proofs.Prefix
import Verif.Proofs.DocOf

/-!
# Runs that differ in one finished node

Some nodes are never produced by the machine.  One of them is used as a mark: a run with the mark in its state is the run
with any other finished node in that place.
-/

namespace Rphtml
open Spec

/-- A mark that the machine never produces. -/
structure IsMark (isMark : PNode → Bool) : Prop where
  text : ∀ w, isMark (.text w) = false
  kids : ∀ f p, isMark (p.modKids f) = isMark p
  new : ∀ p, NewNode p → isMark p = false
  plain : ∀ n as ks e, isMark (.elem n as false none ks e) = false
  ok : ∀ o ctx parent p, okNode o ctx parent p → isMark p = false

/-- A change that only concerns the mark. -/
structure Change (isMark : PNode → Bool) (g : PNode → PNode) : Prop where
  keep : ∀ p, isMark p = false → g p = p
  addText : ∀ s p, g (p.addText s) = (g p).addText s
  modKids : ∀ f p, g (p.modKids f) = (g p).modKids f

mutual
/-- Change the marks in a node. -/
def plug (g : PNode → PNode) : PNode → PNode
  | .elem n as s ct ks e => g (.elem n as s ct (plugs g ks) e)
  | .text w => g (.text w)
  | .comment w => g (.comment w)
  | .cdata w => g (.cdata w)
  | .doctype n as s => g (.doctype n as s)

/-- The same in a list. -/
def plugs (g : PNode → PNode) : List PNode → List PNode
  | [] => []
  | p :: ps => plug g p :: plugs g ps
end

mutual
/-- The number of marks in a node. -/
def marks (k : PNode → Bool) : PNode → Nat
  | .elem n as s ct ks e => (k (.elem n as s ct ks e)).toNat + markss k ks
  | .text w => (k (.text w)).toNat
  | .comment w => (k (.comment w)).toNat
  | .cdata w => (k (.cdata w)).toNat
  | .doctype n as s => (k (.doctype n as s)).toNat

/-- The same in a list. -/
def markss (k : PNode → Bool) : List PNode → Nat
  | [] => 0
  | p :: ps => marks k p + markss k ps
end

variable {k : PNode → Bool} {g : PNode → PNode}

theorem plugs_append (g : PNode → PNode) (xs ys : List PNode) : plugs g (xs ++ ys) = plugs g xs ++ plugs g ys := by
  induction xs with
  | nil => rfl
  | cons x xs ih => simp only [List.cons_append, plugs, ih]

theorem markss_append (k : PNode → Bool) (xs ys : List PNode) : markss k (xs ++ ys) = markss k xs + markss k ys := by
  induction xs with
  | nil => simp [markss]
  | cons x xs ih => simp only [List.cons_append, markss, ih]; omega

theorem plugs_modLast {f f' : PNode → PNode} (h : ∀ p, plug g (f p) = f' (plug g p)) : ∀ ks, plugs g (modLast f ks) = modLast f' (plugs g ks)
  | [] => rfl
  | [p] => by simp only [modLast, plugs, h]
  | p :: q :: ks => by
    have := plugs_modLast h (q :: ks)
    simp only [modLast, plugs] at this ⊢
    rw [this]

theorem markss_modLast {f : PNode → PNode} (h : ∀ p, marks k (f p) = marks k p) : ∀ ks, markss k (modLast f ks) = markss k ks
  | [] => rfl
  | [p] => by simp only [modLast, markss, h]
  | p :: q :: ks => by
    have := markss_modLast h (q :: ks)
    simp only [modLast, markss] at this ⊢
    rw [this]

theorem IsMark.text_marks (hk : IsMark k) (w : Str) : marks k (.text w) = 0 := by
  simp only [marks, hk.text]; rfl

theorem IsMark.addText (hk : IsMark k) (s : Str) (p : PNode) : marks k (p.addText s) = marks k p := by
  cases p with
  | text w => rw [PNode.addText, hk.text_marks, hk.text_marks]
  | _ => rfl

theorem IsMark.modKids (hk : IsMark k) {f : List PNode → List PNode} (h : ∀ ks, markss k (f ks) = markss k ks) (p : PNode) :
    marks k (p.modKids f) = marks k p := by
  cases p with
  | elem n as s ct ks e =>
    have := hk.kids f (.elem n as s ct ks e)
    simp only [PNode.modKids, marks] at this ⊢
    rw [this, h]
  | _ => rfl

theorem Change.plug_addText (hg : Change k g) (s : Str) (p : PNode) : plug g (p.addText s) = (plug g p).addText s := by
  cases p with
  | text w =>
    have := hg.addText s (.text w)
    simpa only [PNode.addText, plug] using this
  | elem n as st ct ks e => simpa only [PNode.addText, plug] using hg.addText s (.elem n as st ct (plugs g ks) e)
  | comment w => simpa only [PNode.addText, plug] using hg.addText s (.comment w)
  | cdata w => simpa only [PNode.addText, plug] using hg.addText s (.cdata w)
  | doctype n as st => simpa only [PNode.addText, plug] using hg.addText s (.doctype n as st)

theorem Change.plug_modKids (hg : Change k g) {f : List PNode → List PNode} (h : ∀ ks, plugs g (f ks) = f (plugs g ks)) (p : PNode) :
    plug g (p.modKids f) = (plug g p).modKids f := by
  cases p with
  | text w => simpa only [PNode.modKids, plug] using hg.modKids f (.text w)
  | elem n as st ct ks e =>
    have := hg.modKids f (.elem n as st ct (plugs g ks) e)
    simp only [PNode.modKids, plug] at this ⊢
    rw [h, this]
  | comment w => simpa only [PNode.modKids, plug] using hg.modKids f (.comment w)
  | cdata w => simpa only [PNode.modKids, plug] using hg.modKids f (.cdata w)
  | doctype n as st => simpa only [PNode.modKids, plug] using hg.modKids f (.doctype n as st)

theorem plug_none (hg : Change k g) : (∀ p, marks k p = 0 → plug g p = p) ∧ (∀ ps, markss k ps = 0 → plugs g ps = ps) := by
  have b : ∀ x : Bool, x.toNat = 0 → x = false := by intro x; cases x <;> simp
  refine PNode.induct ?_ ?_ ?_ ?_ ?_ ?_ ?_
  · intro w h; exact hg.keep _ (b _ (by simpa only [marks] using h))
  · intro w h; exact hg.keep _ (b _ (by simpa only [marks] using h))
  · intro w h; exact hg.keep _ (b _ (by simpa only [marks] using h))
  · intro n a s h; exact hg.keep _ (b _ (by simpa only [marks] using h))
  · intro n a s ct ks e ih h
    simp only [marks, Nat.add_eq_zero_iff] at h
    rw [plug, ih h.2]
    exact hg.keep _ (b _ h.1)
  · intro _; rfl
  · intro p ps ih1 ih2 h
    simp only [markss, Nat.add_eq_zero_iff] at h
    rw [plugs, ih1 h.1, ih2 h.2]

/-- One mark is one gap. -/
theorem gap_of (hk : IsMark k) : (∀ p, marks k p = 1 → (k p = true ∧ ∀ g, Change k g → plug g p = g p) ∨
      ∃ (n : Str) (as : List Attr) (s : Bool) (ct : Option Str) (C : Gap) (e : Option Str) (m : PNode), k m = true ∧
        ∀ g, Change k g → plug g p = .elem n as s ct (C.put (g m)) e) ∧
    (∀ ps, markss k ps = 1 → ∃ (C : Gap) (m : PNode), k m = true ∧ ∀ g, Change k g → plugs g ps = C.put (g m)) := by
  have b : ∀ x : Bool, x.toNat = 1 → x = true := by intro x; cases x <;> simp
  have b0 : ∀ x : Bool, x.toNat = 0 → x = false := by intro x; cases x <;> simp
  refine PNode.induct ?_ ?_ ?_ ?_ ?_ ?_ ?_
  · intro w h; exact .inl ⟨b _ (by simpa only [marks] using h), fun g hg => rfl⟩
  · intro w h; exact .inl ⟨b _ (by simpa only [marks] using h), fun g hg => rfl⟩
  · intro w h; exact .inl ⟨b _ (by simpa only [marks] using h), fun g hg => rfl⟩
  · intro n a s h; exact .inl ⟨b _ (by simpa only [marks] using h), fun g hg => rfl⟩
  · intro n a s ct ks e ih h
    simp only [marks] at h
    cases hq : k (.elem n a s ct ks e) with
    | true =>
      left
      refine ⟨rfl, fun g hg => ?_⟩
      rw [hq] at h
      rw [plug, (plug_none hg).2 ks (by simpa using h)]
    | false =>
      right
      rw [hq] at h
      obtain ⟨C, m, hm, hC⟩ := ih (by simpa using h)
      refine ⟨n, a, s, ct, C, e, m, hm, fun g hg => ?_⟩
      rw [plug, ← hC g hg]
      have := hk.kids (fun _ => plugs g ks) (.elem n a s ct ks e)
      exact hg.keep _ (this.trans hq)
  · intro h; simp [markss] at h
  · intro p ps ih1 ih2 h
    simp only [markss] at h
    by_cases hp : marks k p = 0
    · obtain ⟨C, m, hm, hC⟩ := ih2 (by omega)
      cases C with
      | here l r =>
        refine ⟨.here (p :: l) r, m, hm, fun g hg => ?_⟩
        rw [plugs, (plug_none hg).1 p hp, hC g hg]; rfl
      | inside l n as s ct C e r =>
        refine ⟨.inside (p :: l) n as s ct C e r, m, hm, fun g hg => ?_⟩
        rw [plugs, (plug_none hg).1 p hp, hC g hg]; rfl
    · have h0 : markss k ps = 0 := by omega
      rcases ih1 (by omega) with ⟨h1, h2⟩ | ⟨n, as, s, ct, C, e, m, h1, h2⟩
      · refine ⟨.here [] ps, p, h1, fun g hg => ?_⟩
        rw [plugs, (plug_none hg).2 ps h0, h2 g hg]; rfl
      · refine ⟨.inside [] n as s ct C e ps, m, h1, fun g hg => ?_⟩
        rw [plugs, (plug_none hg).2 ps h0, h2 g hg]; rfl

/-! ## Stacks -/

/-- Change the marks in an open element. -/
def plugFrame (g : PNode → PNode) (f : Frame) : Frame := { f with kids := plugs g f.kids }

/-- The number of marks in a stack. -/
def marksF (k : PNode → Bool) : List Frame → Nat
  | [] => 0
  | f :: fs => markss k f.kids + marksF k fs

/-- Stacks that differ in one mark. -/
def Plugged (k : PNode → Bool) (g : PNode → PNode) (f : Frame) (fs : List Frame) (f' : Frame) (fs' : List Frame) : Prop :=
  f' :: fs' = (f :: fs).map (plugFrame g) ∧ marksF k (f :: fs) = 1

theorem Plugged.change (f : Frame) {fs : List Frame} {f' : Frame} {fs' : List Frame}
    (h : Plugged k g f fs f' fs') {φ : List PNode → List PNode} (h1 : plugs g (φ f.kids) = φ (plugs g f.kids))
    (h2 : markss k (φ f.kids) = markss k f.kids) :
    Plugged k g { f with kids := φ f.kids } fs { f' with kids := φ f'.kids } fs' := by
  obtain ⟨q1, q2⟩ := h
  simp only [List.map_cons, List.cons.injEq] at q1
  obtain ⟨rfl, rfl⟩ := q1
  refine ⟨?_, ?_⟩
  · simp only [List.map_cons, plugFrame, h1]
  · simpa only [marksF, h2] using q2

theorem marks_new (hk : IsMark k) {p : PNode} (hp : NewNode p) : marks k p = 0 := by
  have := hk.new p hp
  cases p with
  | elem n as s ct ks e =>
    obtain ⟨rfl, _⟩ := hp
    simp only [marks, this, markss]; rfl
  | _ => simp only [marks, this]; rfl

theorem Plugged.rel (hk : IsMark k) (hg : Change k g) : KRel (fun _ _ => True) (Plugged k g) where
  name := by
    rintro f fs f' fs' ⟨h, _⟩
    simp only [List.map_cons, List.cons.injEq] at h
    obtain ⟨rfl, rfl⟩ := h
    exact ⟨rfl, by simp⟩
  push := by
    intro f fs f' fs' p h hp
    have h0 := marks_new hk hp
    exact h.change f (φ := (· ++ [p])) (by simp only [plugs_append, plugs, (plug_none hg).1 p h0])
      (by simp only [markss_append, markss, h0, Nat.add_zero])
  more := by
    intro f fs f' fs' p s h _
    cases p with
    | top => exact h.change f (φ := addTextAt .top s) (plugs_modLast (hg.plug_addText s) _) (markss_modLast (hk.addText s) _)
    | nested =>
      exact h.change f (φ := addTextAt .nested s) (plugs_modLast (hg.plug_modKids (plugs_modLast (hg.plug_addText s))) _)
        (markss_modLast (hk.modKids (markss_modLast (hk.addText s))) _)
  fill := by
    intro f fs f' fs' s h _
    have h0 := hk.text_marks s
    refine h.change f (φ := modLast (PNode.modKids fun ks => ks ++ [.text s])) (plugs_modLast (hg.plug_modKids ?_) _)
      (markss_modLast (hk.modKids ?_) _)
    · intro ks; simp only [plugs_append, plugs, (plug_none hg).1 _ h0]
    · intro ks; simp only [markss_append, markss, h0, Nat.add_zero]
  enter := by
    rintro f fs f' fs' n as ⟨h1, h2⟩
    refine ⟨?_, by simpa only [marksF, markss, Nat.zero_add] using h2⟩
    rw [h1]; rfl
  leave := by
    rintro f f1 fs f' f1' fs' e ⟨h1, h2⟩
    simp only [List.map_cons, List.cons.injEq] at h1
    obtain ⟨rfl, rfl, rfl⟩ := h1
    refine ⟨?_, ?_⟩
    · simp only [List.map_cons, plugFrame, plugs_append, plugs, plug, hg.keep _ (hk.plain _ _ _ _)]
    · simp only [marksF, markss_append, markss, marks, hk.plain] at h2 ⊢
      simp only [Bool.toNat_false]; omega

theorem okNodes_marks (hk : IsMark k) (o : ParseOptions) :
    (∀ p ctx parent, okNode o ctx parent p → marks k p = 0) ∧ (∀ ps ctx parent, okNodes o ctx parent ps → markss k ps = 0) := by
  have hole : ∀ ks, holeOk o ks → markss k ks = 0 := by
    intro ks h
    rcases h with rfl | ⟨_, w, rfl, _⟩
    · rfl
    · simp only [markss, hk.text_marks]
  refine PNode.induct ?_ ?_ ?_ ?_ ?_ ?_ ?_
  · intro w ctx parent h; exact hk.text_marks w
  · intro w ctx parent h; rw [marks, hk.ok _ _ _ _ h]; rfl
  · intro w ctx parent h; rw [marks, hk.ok _ _ _ _ h]; rfl
  · intro n a s ctx parent h; rw [marks, hk.ok _ _ _ _ h]; rfl
  · intro n a s ct ks e ih ctx parent h
    rw [marks, hk.ok _ _ _ _ h]
    simp only [Bool.toNat_false, Nat.zero_add]
    simp only [okNode] at h
    obtain ⟨_, _, h⟩ := h
    split at h
    · rw [h.2.1]; rfl
    · split at h
      · exact hole _ h.2.1
      · split at h
        · exact hole _ h.1
        · exact ih _ _ h.2.2
  · intro ctx parent _; rfl
  · intro p ps ih1 ih2 ctx parent h
    simp only [okNodes] at h
    rw [markss, ih1 _ _ h.1, ih2 _ _ h.2.2]

theorem stack_marks (hk : IsMark k) (o : ParseOptions) : ∀ fs, StackOk o fs → marksF k fs = 0
  | [], _ => rfl
  | [f], h => by simp only [marksF, (okNodes_marks hk o).2 _ _ _ h]
  | f :: f1 :: fs, h => by
    simp only [StackOk] at h
    obtain ⟨_, _, _, _, h5, h6⟩ := h
    rw [marksF, (okNodes_marks hk o).2 _ _ _ h5, stack_marks hk o _ h6]

/-- A mark among the finished nodes: there is one document with a gap, whatever is put in the place of the mark. -/
theorem gap_run {o : ParseOptions} {a : AState} (hk : IsMark k) (hw : StackOk o (a.top :: a.rest)) {x : PNode} (hx : k x = true)
    (hx' : ∃ w, x = .comment w ∨ x = .cdata w ∨ ∃ n as s ct e, x = .elem n as s ct [] e) (mode : Mode) (mk : Char) (post : Str) :
    ∃ D : Option (Gap × PNode), (∀ C m, D = some (C, m) → k m = true) ∧ ∀ g, Change k g →
      (∀ b, arun o { a.push (g x) with mode := mode, mark := mk } post = some b → b.final o = true →
        D.map (fun q => q.1.put (g q.2)) = some b.result) ∧
      ((arun o { a.push (g x) with mode := mode, mark := mk } post = none ∨
        ∃ b, arun o { a.push (g x) with mode := mode, mark := mk } post = some b ∧ b.final o = false) → D = none) := by
  have hm1 : marks k x = 1 := by
    obtain ⟨w, rfl | rfl | ⟨n, as, s, ct, e, rfl⟩⟩ := hx' <;> simp only [marks, hx, markss] <;> rfl
  have hpx : ∀ g, Change k g → plug g x = g x := by
    intro g hg
    obtain ⟨w, rfl | rfl | ⟨n, as, s, ct, e, rfl⟩⟩ := hx' <;> rfl
  have hsim : ∀ g, Change k g → OptRel (Sim (Plugged k g) o) (arun o { a.push x with mode := mode, mark := mk } post)
      (arun o { a.push (g x) with mode := mode, mark := mk } post) := by
    intro g hg
    refine Sim.run (Plugged.rel hk hg) (P := fun _ => True) (fun _ _ => trivial) (fun _ => by unfold ModeFit; split <;> trivial) post ?_ trivial
    refine ⟨?_, rfl, rfl, .refl _⟩
    have h0 := stack_marks hk o _ hw
    simp only [marksF, Nat.add_eq_zero_iff] at h0
    refine ⟨?_, ?_⟩
    · have hrest : ∀ fs : List Frame, marksF k fs = 0 → fs.map (plugFrame g) = fs := by
        intro fs
        induction fs with
        | nil => intro _; rfl
        | cons f fs ih =>
          intro h
          simp only [marksF, Nat.add_eq_zero_iff] at h
          simp only [List.map_cons, plugFrame, (plug_none hg).2 _ h.1, ih h.2]
      simp only [List.map_cons, AState.push, plugFrame, plugs_append, (plug_none hg).2 _ h0.1, plugs, hpx g hg, hrest _ h0.2]
    · simp only [AState.push, marksF, markss_append, markss, h0.1, h0.2, hm1]
  have hid : Change k id := ⟨fun _ _ => rfl, fun _ _ => rfl, fun _ _ => rfl⟩
  cases hr : arun o { a.push x with mode := mode, mark := mk } post with
  | none =>
    refine ⟨none, by simp, fun g hg => ⟨?_, fun _ => rfl⟩⟩
    intro b hb
    have := hsim g hg
    rw [hr, hb] at this; cases this
  | some b0 =>
    cases hf : b0.final o with
    | false =>
      refine ⟨none, by simp, fun g hg => ⟨?_, fun _ => rfl⟩⟩
      intro b hb hbf
      have := hsim g hg
      rw [hr, hb] at this
      have this : Sim (Plugged k g) o b0 b := this
      rw [← this.final (Plugged.rel hk hg), hf] at hbf; cases hbf
    | true =>
      have hres : ∀ g, Change k g → ∀ b, arun o { a.push (g x) with mode := mode, mark := mk } post = some b →
          b.final o = true ∧ markss k b0.result = 1 ∧ b.result = plugs g b0.result := by
        intro g hg b hb
        have hs := hsim g hg
        rw [hr, hb] at hs
        have hs : Sim (Plugged k g) o b0 b := hs
        obtain ⟨F, G, ⟨k1, k2⟩, k3, k4⟩ := hs.result (Plugged.rel hk hg)
        simp only [List.map_cons, List.map_nil, List.cons.injEq, and_true] at k1
        simp only [marksF, Nat.add_zero] at k2
        refine ⟨by rw [← hs.final (Plugged.rel hk hg), hf], by rw [k3, k2], by rw [k4, k1, k3]; rfl⟩
      obtain ⟨C, m, hm, hC⟩ := (gap_of hk).2 b0.result (hres id hid b0 (by simpa using hr)).2.1
      refine ⟨some (C, m), by rintro _ _ ⟨⟩; exact hm, fun g hg => ⟨?_, ?_⟩⟩
      · intro b hb _
        rw [(hres g hg b hb).2.2, hC g hg]; rfl
      · rintro (h | ⟨b, hb, hbf⟩)
        · have := hsim g hg
          rw [hr, h] at this; cases this
        · rw [(hres g hg b hb).1] at hbf; cases hbf

end Rphtml
