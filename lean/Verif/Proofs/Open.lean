import Verif.Spec.Open
import Verif.Proofs.Outside
import Verif.Proofs.WfInv

/-!
# The open elements, in terms of the machine
-/

namespace Rphtml
open Spec

/-- The names of the open elements. -/
def frameNames : Frame → List Frame → List Str
  | _, [] => []
  | f, g :: gs => f.name :: frameNames g gs

theorem Zip.names {h : Heap} (H : NodeId → Cell) (hH : ∀ i, (H i).tmeta = (h.cell i).tmeta) :
    ∀ (cs : List NodeId) (c : NodeId) (f : Frame) (fs : List Frame) (ex : List NodeId) (hi : NodeId), Zip h (c :: cs) (f :: fs) ex hi →
      (c :: cs).dropLast.map (fun i => ((H i).tmeta.getD {}).name) = frameNames f fs
  | [], c, f, fs, ex, hi, g => by
    rcases g.cons.2 with b | b
    · rw [b.2.2.1]; rfl
    · exact absurd rfl b.2.1
  | c' :: cs, c, f, fs, ex, hi, g => by
    rcases g.cons.2 with b | b
    · exact absurd b.2.1 (by simp)
    · obtain ⟨⟨_, _, _, m, hm, hn, _⟩, _, hf, hz⟩ := b
      cases fs with
      | nil => exact absurd rfl hf
      | cons f' fs =>
        have ih := Zip.names H hH cs c' f' fs _ _ hz
        simp only [List.dropLast_cons₂, List.map_cons, frameNames, hH, hm, Option.getD_some, hn, List.cons.injEq, true_and]
        simpa only [hH] using ih

theorem Abs.names {d : Doc} {a : AState} (h : Abs d a) (ho : a.mode.outside = true) :
    d.chain.dropLast.map (fun i => ((d.heap.cell i).tmeta.getD {}).name) = frameNames a.top a.rest := by
  have hm := h.mode
  have key : ∀ (H : Heap) (x : NodeId) (cs : List NodeId) (hi : NodeId), (∀ i, (d.heap.cell i).tmeta = (H.cell i).tmeta) →
      Stk d a.over (x :: cs) → Zip H (x :: cs) (a.top :: a.rest) [] hi →
      d.chain.dropLast.map (fun i => ((d.heap.cell i).tmeta.getD {}).name) = frameNames a.top a.rest := by
    intro H x cs hi hH h1 h2
    have := Zip.names d.heap.cell hH cs x a.top a.rest _ _ h2
    rcases h1 with ⟨_, k2, _⟩ | ⟨_, k2, k3⟩
    · rw [k2, this]
    · rw [← this, k2, k3]; rfl
  cases hmo : a.mode with
  | wait l =>
    rw [hmo] at hm
    obtain ⟨_, x, cs, h1, h2, _⟩ := hm
    exact key _ _ _ _ (fun _ => rfl) h1 h2
  | text p =>
    rw [hmo] at hm
    obtain ⟨_, x, cs, h1, h2, _⟩ := hm
    refine key _ _ _ _ (fun i => ?_) h1 h2
    unfold Doc.withText
    rw [Heap.upd_cell]
    split <;> rfl
  | _ => rw [hmo] at ho; cases ho

theorem openNames_machine {s : Str} {o : ParseOptions} {a : AState} (h : arun o {} s = some a) (ho : a.mode.outside = true) :
    openNames s o = frameNames a.top a.rest := by
  obtain ⟨d, h1, h2, _⟩ := machine_run h
  unfold openNames
  rw [h1]
  exact h2.names ho

theorem afterHollow_machine {s : Str} {o : ParseOptions} {a : AState} (h : arun o {} s = some a) (hw : a.mode = .wait .hole) :
    afterHollow s o = true := by
  obtain ⟨d, h1, h2, _⟩ := machine_run h
  unfold afterHollow
  rw [h1]
  have hm := h2.mode
  rw [hw] at hm
  obtain ⟨k1, x, cs, k2, k3, k4, ⟨m, k5, k6, _⟩, k7, k8⟩ := hm
  have hne : x ≠ d.current := by
    rintro rfl
    rw [k8] at k7; cases k7
  refine decide_eq_true ⟨k1, k4, ?_, ?_⟩
  · show ((d.heap.cell d.current).tmeta.getD {}).selfClosed = false
    rw [k5]; exact k6
  · rcases k2 with ⟨_, q, _⟩ | ⟨_, q, _⟩
    · rw [q]; simpa using hne
    · rw [q]; simp

theorem notClosed_machine {s : Str} {o : ParseOptions} {a : AState} (h : arun o {} s = some a) (ho : a.mode.outside = true)
    (hc : notClosed s o = true) : a.over = false := by
  obtain ⟨d, h1, h2, _⟩ := machine_run h
  unfold notClosed at hc
  rw [h1] at hc
  have hm := h2.mode
  have key : ∀ st, Stk d a.over st → a.over = false := by
    intro st k
    rcases k with ⟨k, _⟩ | ⟨_, k, _⟩
    · exact k
    · simp [k] at hc
  cases hmo : a.mode with
  | wait l =>
    rw [hmo] at hm
    obtain ⟨_, x, cs, k, _⟩ := hm
    exact key _ k
  | text p =>
    rw [hmo] at hm
    obtain ⟨_, x, cs, k, _⟩ := hm
    exact key _ k
  | _ => rw [hmo] at ho; cases ho

/-- The end tags of the open elements are read. -/
theorem close_run {o : ParseOptions} : ∀ (fs : List Frame) (a : AState), a.rest = fs → a.mode.outside = true →
    StackOk o (a.top :: a.rest) → ∃ b, arun o a (endTags (frameNames a.top fs)) = some b ∧ b.mode.outside = true ∧ b.rest = [] ∧
      b.top.kids = a.result ∧ b.over = a.over
  | [], a, hr, ho, _ => ⟨a, rfl, ho, hr, by rw [result_eq, hr]; rfl, rfl⟩
  | g :: gs, a, hr, ho, hs => by
    have hs' := hs
    rw [hr] at hs
    have hn : TagNameOk a.top.name := by simp only [StackOk] at hs; exact hs.1
    obtain ⟨b, h1, h2, h3, h4, h5, _⟩ := read_end (o := o) ho hr hn (closes_self hn)
    have hp := (StackOk.pop (e := some a.top.name) hs (.inl ⟨_, rfl, closes_self hn⟩)).1
    obtain ⟨b', k1, k2, k3, k4, k5⟩ := close_run gs b h3 (by rw [h2]; rfl) (by rw [h5, h3]; exact hp)
    refine ⟨b', ?_, k2, k3, ?_, k5.trans h4⟩
    · have : endTags (frameNames a.top (g :: gs)) = (['<', '/'] ++ a.top.name ++ ['>']) ++ endTags (frameNames g gs) := by
        simp [endTags, frameNames]
      rw [this, arun_append, h1]
      have hfn : frameNames b.top gs = frameNames g gs := by
        rw [h5]; cases gs <;> rfl
      rw [hfn] at k1
      exact k1
    · rw [k4, result_eq, result_eq, hr, h3, h5]
      simp only [closeKids]
      cases gs <;> rfl

end Rphtml
