import Verif.Props.Mend
import Verif.Props.Scan
import Verif.Props.Size
import Verif.Proofs.Finish

/-!
# C63: texts that end inside a start tag
-/

namespace Rphtml
open Spec

/-- What is asked of every node: see `c63_every`. -/
def Spec.rereads (allowEq : Bool) : PNode → Prop
  | .doctype _ as s => as ≠ [] ∧ s = false ∧ (allowEq = true → eqApart as)
  | .elem n as _ _ _ e => (allowEq = true → eqApart as) ∧ (isVoid n → e = none) ∧ ∀ a ∈ as, a.key ≠ some []
  | _ => True

theorem rereads_apart {b : Bool} {p : PNode} (h : rereads b p) : apart b p := by
  cases p with
  | doctype n as s => exact h
  | elem n as sc ct ks e => exact h.1
  | text => trivial
  | comment => trivial
  | cdata => trivial

theorem closeUp_all {P : PNode → Prop} (hP : ∀ n as sc ct ks ks' e, P (.elem n as sc ct ks e) → P (.elem n as sc ct ks' e)) :
    ∀ (gs : List Frame) (f : Frame) (ks ks' : List PNode), (allsIn P ks → allsIn P ks') →
      allsIn P (Sit.closeUp ks f gs) → allsIn P (Sit.closeUp ks' f gs)
  | [], _, _, _, h, hk => h hk
  | g :: gs, f, ks, ks', h, hk => by
    refine closeUp_all hP gs g _ _ (fun q => ?_) hk
    rw [allsIn_append] at q ⊢
    refine ⟨q.1, ?_⟩
    have q := q.2
    simp only [allsIn, allIn, and_true] at q ⊢
    exact ⟨hP _ _ _ _ _ _ _ q.1, h q.2⟩

theorem closeUp_inner {P : PNode → Prop} :
    ∀ (gs : List Frame) (f : Frame) (ks : List PNode), allsIn P (Sit.closeUp ks f gs) → allsIn P ks
  | [], _, _, hk => hk
  | g :: gs, f, ks, hk => by
    have q := closeUp_inner gs g _ hk
    rw [allsIn_append] at q
    have q := q.2
    simp only [allsIn, allIn, and_true] at q
    exact q.2

theorem mendNodes_append (ps qs : List PNode) : mendNodes (ps ++ qs) = mendNodes ps ++ mendNodes qs := by
  induction ps with
  | nil => rfl
  | cons p ps ih => simp only [List.cons_append, mendNodes, ih, List.append_assoc]

theorem textChars_append (ps qs : List PNode) : textChars (ps ++ qs) = textChars ps ++ textChars qs := by
  induction ps with
  | nil => rfl
  | cons p ps ih => cases p <;> simp only [List.cons_append, textChars, ih, List.append_assoc]

theorem closeUp_mend : ∀ (gs : List Frame) (f : Frame) (ks ks' : List PNode), mendNodes ks = mendNodes ks' → textChars ks = textChars ks' →
    printNodes ks = printNodes ks' →
    mendNodes (Sit.closeUp ks f gs) = mendNodes (Sit.closeUp ks' f gs) ∧ printNodes (Sit.closeUp ks f gs) = printNodes (Sit.closeUp ks' f gs)
  | [], _, _, _, h1, _, h3 => ⟨h1, h3⟩
  | g :: gs, f, ks, ks', h1, h2, h3 => by
    refine closeUp_mend gs g _ _ ?_ ?_ ?_
    · simp only [mendNodes_append, mendNodes, mendNode, h1, h2]
    · simp only [textChars_append, textChars]
    · simp only [printNodes_append, printNodes, printNode, h3]

theorem doc_add (S : Sit) (p : PNode) : (S.add p).doc = Sit.closeUp (S.top.kids ++ [p]) S.top S.rest := by
  unfold Sit.doc Sit.add
  cases S.rest <;> rfl

/-- **C63**, also for texts that end inside a start tag behind its name (`auto_fix_unclosed_tag`): a document that was read under
any options is written down as a text that needs no repair, if its doctypes can be written down (C04), no attribute starting with
`=` follows one without a value, no void element has got an end tag, and no attribute has an empty name (the last two happen only
to the element whose start tag was not finished).  Other options that are as permissive and agree about the case of names accept the
text, render it as it is, and read the same document up to where the texts stand that `auto_fix_unescaped_lt` has put into void and
raw-text elements. -/
theorem c63_every {o o' : ParseOptions} (lib : EntityLib) {s : Str} {d : Doc} {ps : List PNode} (ho : reads o o')
    (hn : ¬ EndsInName o s) (hp : Doc.parse s o = .ok d) (h : docOf s o = some ps)
    (hd : ∀ n as sc, Occurs (.doctype n as sc) ps → as ≠ [] ∧ sc = false)
    (he : o.allowAttrKeyStartsWithEqualSign = true →
      (∀ n as sc ct ks e, Occurs (.elem n as sc ct ks e) ps → eqApart as) ∧ ∀ n as sc, Occurs (.doctype n as sc) ps → eqApart as)
    (hv : ∀ n as sc ct ks e, Occurs (.elem n as sc ct ks e) ps → (isVoid n → e = none) ∧ ∀ a ∈ as, a.key ≠ some []) :
    ∃ r d', d.render lib {} = .ok r ∧ Doc.parse r o' = .ok d' ∧ d'.render lib {} = .ok r ∧ docOf r o' = some (mended ps) := by
  have hres := (c53_doc hn ps).1 h
  have hw : allsIn (rereads o.allowAttrKeyStartsWithEqualSign) ps := by
    refine allIn_of_occurs.2 ps fun q hq => ?_
    cases q with
    | doctype n as sc => exact ⟨(hd n as sc hq).1, (hd n as sc hq).2, fun ha => (he ha).2 n as sc hq⟩
    | elem n as sc ct ks e => exact ⟨fun ha => (he ha).1 n as sc ct ks e hq, hv n as sc ct ks e hq⟩
    | text => trivial
    | comment => trivial
    | cdata => trivial
  have hr := c53_render lib hp hres
  -- it is enough to find a complete text
  suffices hs : ∃ s' ps', complete s' o ∧ docOf s' o = some ps' ∧ allsIn (rereads o.allowAttrKeyStartsWithEqualSign) ps' ∧
      mendNodes ps' = mendNodes ps ∧ printNodes ps' = printNodes ps by
    obtain ⟨s', ps', k1, k2, k3, k4, k5⟩ := hs
    cases hp' : Doc.parse s' o with
    | ok d1 =>
      have ha : allsIn (apart o.allowAttrKeyStartsWithEqualSign) ps' :=
        allIn_of_occurs.2 ps' fun q hq => rereads_apart (allsIn_occurs (ps := ps') k3 q hq)
      obtain ⟨d', _, h2, h3, h4⟩ := mend_core lib ho k1 hp' k2 ha
      rw [k5] at h2 h3 h4
      refine ⟨_, d', hr, h2, h3, ?_⟩
      rw [h4]; unfold mended; rw [k4]
    | err e => unfold docOf at k2; rw [hp'] at k2; cases k2
    | panic e => unfold docOf at k2; rw [hp'] at k2; cases k2
  have complete_of : ∀ {s' S}, Spec.Scan o s' S → complete s' o := fun hS _ => (c53_scan hS).2.2.2.2.2
  have doc_of : ∀ {s' S}, Spec.Scan o s' S → S.spot ≠ .lt → o.autoFixUnclosedTag = true → docOf s' o = some S.doc := fun hS k1 k2 =>
    (c53_doc (fun ⟨T, _, q⟩ => c53_unique.2.1 hS T _ q) _).2 (.inl ⟨_, hS, k1, .inr k2, rfl⟩)
  have done_doc : ∀ (S : Sit) l, (S.done l).doc = S.doc := fun _ _ => rfl
  rcases hres with ⟨S, h1, _⟩ | ⟨hfix, S, n, t, as, h1, h2, h3, rfl⟩
  · exact ⟨s, ps, complete_of h1, h, hw, rfl, rfl⟩
  · have hel : rereads o.allowAttrKeyStartsWithEqualSign (.elem n as false none [] (some n)) := by
      rw [doc_add] at hw
      have := closeUp_inner _ _ _ hw
      rw [allsIn_append] at this
      have := this.2
      simp only [allsIn, allIn, and_true] at this
      exact this
    have hnv : ¬ isVoid n := fun q => by cases hel.2.1 q
    obtain ⟨t', h4, h5⟩ := half_finish h3 hel.2.2
    cases h1 with
    | @tag u _ _ _ k1 k2 k3 k4 k5 k6 =>
      have hov := h5.name (k5 h2)
      by_cases hraw : isRaw n
      · have hS := Spec.Scan.raw (x := []) (e := n) k1 k2 k3 k4 hov h4 hraw (closes_self (tagName_ok k4)) (by intro y k z e; simp at e)
        refine ⟨_, _, complete_of hS, doc_of hS (by simp [Sit.done]) hfix, ?_, ?_⟩
        · rw [done_doc, doc_add]
          rw [doc_add] at hw
          refine closeUp_all (fun _ _ _ _ _ _ _ q => q) _ _ _ _ ?_ hw
          simp only [allsIn_append, allsIn, allIn, and_true]
          exact fun q => ⟨q.1, q.2⟩
        · rw [done_doc, doc_add, doc_add]
          refine closeUp_mend _ _ _ _ ?_ ?_ ?_
          · simp only [mendNodes_append, mendNodes, mendNode, hnv, if_false, hraw, and_self, if_true, textChars, Option.getD_none, Option.getD_some]
          · simp only [textChars_append, textChars]
          · simp only [printNodes_append, printNodes, printNode]
            simp
      · have hS := Spec.Scan.start k1 k2 k3 k4 hov h4 hnv hraw
        have e : Sit.doc { top := { name := n, attrs := as }, rest := S.top :: S.rest, over := S.over, foreign := enter S.foreign n } =
            (S.add (.elem n as false none [] (some n))).doc := by rw [doc_add]; rfl
        exact ⟨_, _, complete_of hS, doc_of hS (by simp) hfix, by rw [e]; exact hw, by rw [e], by rw [e]⟩

/-! ## Samples -/

private def repairs : ParseOptions := { autoFixUnclosedTag := true }

private def cut : Str := "<p a><title b=\"1\" c= ".toList

private def cutDoc : List PNode :=
  [.elem ['p'] [{ key := some ['a'] }] false none
    [.elem "title".toList [{ key := some ['b'], value := some ['1'], quote := some '"' }, { key := some ['c'] }] false none [] (some "title".toList)]
    (some ['p'])]

private theorem cut_doc : docOf cut repairs = some cutDoc := by decide +kernel

private theorem cut_name : ¬ EndsInName repairs cut := by
  intro h
  obtain ⟨u, n, h1, _, _, c, r, rfl, h2, h3⟩ := endsInName_stop h
  have e : (u ++ c :: r).getLast? = some ' ' := by rw [← h1]; decide +kernel
  rw [List.getLast?_append, List.getLast?_eq_some_getLast (l := c :: r) (by simp), Option.some_or, ← List.getLast?_eq_some_getLast] at e
  exact (h3 ' ' (List.mem_of_getLast? e)).1 (by decide)

/-- A text that ends inside an attribute. -/
example : ∃ d d', Doc.parse cut repairs = .ok d ∧ Doc.parse "<p a><title b=\"1\" c></title></p>".toList {} = .ok d' ∧
    docOf "<p a><title b=\"1\" c></title></p>".toList {} = some (mended cutDoc) := by
  cases hp : Doc.parse cut repairs with
  | ok d =>
    have hno : ∀ n as sc, ¬ Occurs (.doctype n as sc) cutDoc := by
      intro n as sc hq
      have := allsIn_occurs (P := fun p => ∀ n as sc, p ≠ .doctype n as sc) (ps := cutDoc) (by simp [cutDoc, allsIn, allIn]) _ hq
      exact this n as sc rfl
    have hel : ∀ n as sc ct ks e, Occurs (.elem n as sc ct ks e) cutDoc → (isVoid n → e = none) ∧ ∀ a ∈ as, a.key ≠ some [] := by
      intro n as sc ct ks e hq
      have := allsIn_occurs (P := rereads false) (ps := cutDoc) (by simp only [cutDoc, allsIn, allIn, rereads]; decide) _ hq
      exact this.2
    obtain ⟨r, d', h1, h2, _, h4⟩ := c63_every (o' := {}) ⟨fun _ => [], fun _ => none, fun _ => false, fun _ => none⟩ (reads_strict repairs) cut_name hp
      cut_doc (fun n as sc hq => absurd hq (hno n as sc)) (fun h => by cases h) hel
    have e := c53_render ⟨fun _ => [], fun _ => none, fun _ => false, fun _ => none⟩ hp ((c53_doc cut_name _).1 cut_doc)
    rw [h1] at e
    have e : r = "<p a><title b=\"1\" c></title></p>".toList := by
      rw [Except.ok.inj e]; decide +kernel
    rw [e] at h2 h4
    exact ⟨d, d', rfl, h2, h4⟩
  | err e => exact absurd cut_doc (by unfold docOf; rw [hp]; simp)
  | panic e => exact absurd cut_doc (by unfold docOf; rw [hp]; simp)

end Rphtml
