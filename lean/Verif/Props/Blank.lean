import Verif.Proofs.BlankFinal
import Verif.Props.RenderOpts
import Verif.Props.Spaces
import Verif.Spec.Blank

/-!
# C19 and C34 with repairs

`c19_all_partial` extends `c19_exact_partial` to every option set.  `c34_repaired` and `c34_parsed` say which elements of
a parsed document `always_close_void` can change.
-/

namespace Rphtml
open Spec

/-- **C19**, for every option set: a whitespace-only text keeps the type `Text` if and only if `KeptBlank` holds of it;
otherwise it is `SpacesBetweenTag`.  Missing: the independence from what follows, which is false (`c19_violated`). -/
theorem c19_all_partial {s : Str} {o : ParseOptions} {d : Doc} (h : Doc.parse s o = .ok d)
    (x : NodeId) (hx : InDoc d.heap d.root x)
    (ht : (d.heap.cell x).nodeType = .text ∨ (d.heap.cell x).nodeType = .spacesBetweenTag)
    (w : Str) (hw : (d.heap.cell x).content = some w) (hws : ∀ c ∈ w, c ∈ ws) :
    (d.heap.cell x).nodeType = .text ↔ Spec.KeptBlank s d.heap x w := by
  obtain ⟨hroot, h0, _, g, _, _⟩ := parse_graph h
  obtain ⟨d0, hr, he, hh, _, _, _⟩ := parse_ok h
  rw [hroot] at hx
  have hl := (g.inDoc_lt h0 hx).2
  rw [hh] at hl ht hw g ⊢
  exact hr.finalBlank he g x w hl ht hw fun c hc => (isWs_mem c).2 (hws c hc)

/-- Every repair. -/
def Spec.repairAll : ParseOptions :=
  { autoFixUnclosedTag := true, autoFixUnexpectedEndtag := true, autoFixUnescapedLt := true }

/-- A space that ends the document in an unclosed element is not kept; -/
example : contents "<p> " repairAll =
    some [(.abstractRoot, none), (.tag, none), (.spacesBetweenTag, some " "), (.tagEnd, some "p")] := by decide +kernel

/-- followed by a dropped end tag it is kept, -/
example : contents "<p> </x>" repairAll =
    some [(.abstractRoot, none), (.tag, none), (.text, some " "), (.tagEnd, none), (.tagEnd, some "p")] := by decide +kernel

/-- and so is a space that a dropped end tag cuts in two. -/
example : contents "<p> </x> </p>" repairAll =
    some [(.abstractRoot, none), (.tag, none), (.text, some "  "), (.tagEnd, none), (.tagEnd, some "p")] := by decide +kernel

/-- Without `auto_fix_unclosed_tag` the two parts are texts of their own; the first is kept. -/
example : contents " </x> " { autoFixUnexpectedEndtag := true } =
    some [(.abstractRoot, none), (.text, some " "), (.tagEnd, none), (.spacesBetweenTag, some " ")] := by decide +kernel

/-- The only content of an element, which is the last node of a closed and of an unclosed element. -/
example : contents "<p><b> </b></p><p><b> </b>" repairAll =
    some [(.abstractRoot, none), (.tag, none), (.tag, none), (.spacesBetweenTag, some " "), (.tagEnd, some "b"),
      (.tagEnd, some "p"), (.tag, none), (.tag, none), (.text, some " "), (.tagEnd, some "b"), (.tagEnd, some "p")] := by
  decide +kernel

/-! ## C34 -/

theorem allNodes_toTree {P : NodeD → Prop} {lt : Bool} {h : Heap} (g : Owns lt h) (ge : Ends h) (h0 : 0 < h.size)
    (hp : ∀ i, i < h.size → P (h.cell i).toNodeD) :
    ∀ (fuel i : Nat) (t : Tree), InDoc h 0 i → h.toTree? fuel i = some t → allNodes P t := by
  intro fuel
  induction fuel with
  | zero => intro i t _ ht; simp [Heap.toTree?] at ht
  | succ fuel ih =>
    intro i t hin ht
    have hi := (g.inDoc_lt h0 hin).2
    unfold Heap.toTree? at ht
    have he : ∀ x, ((h.cell i).endTag.map fun e => (h.cell e).toNodeD) = some x → P x := by
      intro x hx
      obtain ⟨e, h1, h2⟩ := Option.map_eq_some_iff.1 hx
      rw [← h2]; exact hp e (ge.down i e hi h1).2.1
    cases hc : (h.cell i).childs with
    | none =>
      simp only [hc, Option.some.injEq] at ht
      subst ht
      simp only [allNodes]
      exact ⟨hp i hi, he⟩
    | some ids =>
      simp only [hc] at ht
      cases ho : optAll (h.toTree? fuel) ids with
      | none => rw [ho] at ht; cases ht
      | some ts =>
        rw [ho] at ht
        simp only [Option.some.injEq] at ht
        subst ht
        simp only [allNodes]
        refine ⟨hp i hi, he, ?_⟩
        have hk : ∀ a ∈ ids, InDoc h 0 a := fun a ha => hin.child hc ha
        clear hc
        induction ids generalizing ts with
        | nil => simp only [optAll, Option.some.injEq] at ho; subst ho; simp only [allForest]
        | cons a as iha =>
          unfold optAll at ho
          split at ho
          · rename_i b bs hb hbs
            cases ho
            simp only [allForest]
            exact ⟨ih a b (hk a (by simp)) hb, iha bs hbs fun x hx => hk x (by simp [hx])⟩
          · cases ho

/-- **C34**, which elements of a document can be changed by `always_close_void`: the ones marked as repaired have no end tag
in the source; each is the last node of the root or of another such element; there is none without `auto_fix_unclosed_tag`. -/
theorem c34_repaired {s : Str} {o : ParseOptions} {d : Doc} (h : Doc.parse s o = .ok d) (t : NodeId) (m : TagMeta)
    (hx : InDoc d.heap d.root t) (hm : (d.heap.cell t).tmeta = some m) (hf : m.autoFix = true) :
    o.autoFixUnclosedTag = true ∧ (d.heap.cell t).endTag ≠ none ∧ Spec.LastOpen d.heap t := by
  obtain ⟨hroot, h0, _, g, _, _⟩ := parse_graph h
  obtain ⟨d0, hr, he, hh, _, _, _⟩ := parse_ok h
  rw [hroot] at hx
  have hl := (g.inDoc_lt h0 hx).2
  rw [hh] at hl hm ⊢
  obtain ⟨h1, h2, h3⟩ := hr.repairedLast he t hl ⟨m, hm, hf⟩
  exact ⟨h1, h3, h2⟩

/-- **C34**: without `auto_fix_unclosed_tag`, `always_close_void` has no effect on any parsed document, whatever void
elements it has. -/
theorem c34_parsed {s : Str} {o : ParseOptions} {d : Doc} (h : Doc.parse s o = .ok d) (hf : o.autoFixUnclosedTag = false)
    (lib : EntityLib) (r : RenderOptions) :
    d.render lib { r with alwaysCloseVoid := true } = d.render lib { r with alwaysCloseVoid := false } ∧
    d.renderText lib { r with alwaysCloseVoid := true } = d.renderText lib { r with alwaysCloseVoid := false } := by
  obtain ⟨d0, hr, he, hh, _, _, _⟩ := parse_ok h
  obtain ⟨hroot, h0, _, g, ge, _⟩ := parse_graph h
  have hall : ∀ i, i < d.heap.size → ∀ m, ((d.heap.cell i).toNodeD).tmeta = some m → m.autoFix = false := by
    intro i hi m hm
    cases hfix : m.autoFix with
    | false => rfl
    | true =>
      rw [hh] at hi hm
      have := (hr.repairedLast he i hi ⟨m, hm, hfix⟩).1
      rw [hf] at this; cases this
  unfold Doc.render Doc.renderText
  cases ht : d.tree? with
  | none => exact ⟨rfl, rfl⟩
  | some t =>
    have ha := allNodes_toTree
      (P := fun n => ∀ m, n.tmeta = some m → m.autoFix = false) g ge h0 hall _ _ t (by rw [hroot]; exact .root) ht
    exact ⟨c34_partial lib r t false ha, c34_partial lib r t true ha⟩

/-- A document with void elements; the option changes nothing. -/
example : Spec.rendersTo "<p><br></p><img>" "<p><br></p><img>" {} { alwaysCloseVoid := true } = true := by decide +kernel

/-- Two repaired elements, one in the other. -/
example : Spec.rendersTo "<i></i><p><b><br>" "<i></i><p /><b /><br></b></p>" { autoFixUnclosedTag := true } { alwaysCloseVoid := true } = true := by
  decide +kernel

end Rphtml
