import Verif.Proofs.DocOf

/-!
# The document of a text that ends inside a start tag
-/

namespace Rphtml
open Spec

/-- With `auto_fix_unclosed_tag` a text that ends inside a start tag, behind its name, is read as if the tag ended there. -/
theorem half_parse {s : Str} {o : ParseOptions} {a : AState} {t : TagSt} (h : arun o {} s = some a) (hm : a.mode = .inTag false t)
    (ho : o.autoFixUnclosedTag = true) :
    ∃ d t', Doc.parse s o = .ok d ∧ d.tree? = some t' ∧
      t'.doc = closeKids [] { name := t.m.name, attrs := t.m.attrs } (a.top :: a.rest) ∧ t'.data.nodeType = .abstractRoot ∧
      t'.endTag = none ∧ Tree.shapeds t'.kids := by
  obtain ⟨d0, h1, hab, hr⟩ := (Abs.run (ctx := s) s [] (Doc.new o) {} Reach.init (Abs.new o)).2 a h
  rw [List.nil_append] at hr
  have hd := hr.ctl
  have hc : d0.codeIn = .tag := hab.inStart_code hd (by rw [hm]; rfl)
  have ho' : d0.opts.autoFixUnclosedTag = true := by rw [hr.opts]; exact ho
  have he : EofOk d0 := ⟨.inr ho', .inr (.inr (.inr ⟨hc, ho'⟩))⟩
  have ha := hab.mode
  rw [hm] at ha
  obtain ⟨k1, k2, ⟨m, k3, k4, _⟩, k5, k6, k7⟩ := ha
  obtain ⟨_, j1, _, hor⟩ := hd.inTag k1 k3
  obtain ⟨j2, j3, j4, j5⟩ : d0.codeIn = .tag ∧ d0.cur.nodeType = .tag ∧ d0.chain.head? = some d0.current ∧ TagNameOk m.name := by
    rcases hor with j | j
    · exact j
    · rw [j.1] at hc; cases hc
  have hmt : m = t.m := by rw [← k4]; rfl
  have hch : d0.chain = d0.current :: d0.chain.tail := by
    cases hl : d0.chain with
    | nil => rw [hl] at j4; cases j4
    | cons x xs => rw [hl] at j4; simp only [List.head?_cons, Option.some.injEq] at j4; rw [j4]; rfl
  have hz : Zip d0.heap (d0.current :: d0.chain.tail) ({ name := t.m.name, attrs := t.m.attrs } :: a.top :: a.rest) [] d0.heap.size := by
    cases hl : d0.chain.tail with
    | nil => rw [if_neg (by decide), hl] at k6; simp [Zip] at k6
    | cons x xs =>
      rw [if_neg (by decide), hl] at k6
      refine ⟨⟨j3, k7.2.2, k7.1, m, k3, by rw [hmt], by rw [hmt], j1⟩, ⟨[], ?_, ?_⟩, k6⟩
      · unfold Heap.kids; rw [k7.2.1]; rfl
      · simp only [Reps, true_and]; exact hd.curLt
  have hst : Stk d0 a.over (d0.current :: d0.chain.tail) := .inl ⟨k5, hch, by simp⟩
  have hnt : d0.handle ≠ .tagName := by intro q; rw [q] at k1; cases k1
  have hH : TextDone d0 d0.heap := fun k _ => ⟨rfl, rfl, rfl, rfl, by rw [if_neg]; rintro ⟨q, _⟩; rw [hc] at q; cases q⟩
  obtain ⟨t', q1, q2⟩ := Zip.final_tree hd he hH hst hz hnt
  obtain ⟨d1, h2⟩ := fixHeap_total d0 s he
  obtain ⟨_, hh, hroot, _, _⟩ := eof_ok hd.root0 h2
  refine ⟨d1.intoRoot, t', ?_, ?_, q2⟩
  · unfold Doc.parse
    simp only [Res.bind_eq, h1, Res.bind, h2]
  · unfold Doc.tree?
    rw [hh, hroot]; exact q1

end Rphtml
