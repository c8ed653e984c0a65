import Verif.Spec.Mend
import Verif.Props.Stable
import Verif.Props.Reread
import Verif.Proofs.Loose

/-!
# C63: a repaired document needs no more repair
-/

namespace Rphtml
open Spec

/-- Doctypes can be written down and read back, and no attribute becomes the value of the one before it. -/
def Spec.writable : PNode → Prop
  | .doctype _ as s => as ≠ [] ∧ s = false ∧ eqApart as
  | .elem _ as _ _ _ _ => eqApart as
  | _ => True

theorem mem_trimEnd {c : Char} {k : Str} (hc : c ∉ ws) (h : c ∈ k) : c ∈ trimEnd k := by
  unfold trimEnd
  simp only [List.mem_reverse]
  have h : c ∈ k.reverse := by simpa using h
  revert h
  generalize k.reverse = l
  intro h
  induction l with
  | nil => cases h
  | cons x l ih =>
    by_cases hx : x ∈ ws
    · rw [List.dropWhile_cons_of_pos (by simpa using hx)]
      rcases List.mem_cons.1 h with rfl | h
      · exact absurd hx hc
      · exact ih h
    · rw [List.dropWhile_cons_of_neg (by simpa using hx)]
      exact h

theorem closes_amp {b : Bool} {n k : Str} (hr : isRaw n) (h : closes b n k) : '&' ∉ k := by
  intro hk
  have h1 := mem_trimEnd (by decide) hk
  have h2 : fold (trimEnd k) = fold n := by
    unfold closes at h
    split at h
    · rw [h]
    · exact h
  have h3 : '&' ∈ fold n := by
    rw [← h2]
    unfold fold
    exact List.mem_map.2 ⟨'&', h1, by decide⟩
  unfold isRaw at hr
  generalize fold n = f at *
  have h4 : f = (String.ofList f).toList := by simp
  rw [h4] at h3
  simp only [List.mem_cons, List.not_mem_nil, or_false] at hr
  rcases hr with q | q | q | q <;> rw [q] at h3 <;> revert h3 <;> decide

/-- A text that begins with a repaired `<` does not close a raw-text element. -/
theorem raw_pour {b : Bool} {n w v : Str} (hr : isRaw n) (hv : '<' ∉ v) (ha : ['&', 'l', 't', ';'] <+: v)
    (h : ∀ u k x, w = u ++ ['<', '/'] ++ k ++ ['>'] ++ x → ¬ closes b n k) :
    ∀ u k x, w ++ v = u ++ ['<', '/'] ++ k ++ ['>'] ++ x → ¬ closes b n k := by
  intro u k x e hc
  have hamp := closes_amp hr hc
  rcases List.append_eq_append_iff.1 e with ⟨y, h1, h2⟩ | ⟨y, h1, h2⟩
  · -- the end tag ends in the text
    cases y with
    | nil =>
      rw [List.append_nil] at h1
      exact h u k [] (by rw [h1, List.append_nil]) hc
    | cons c y =>
      have hcv : c = '&' := by
        obtain ⟨z, rfl⟩ := ha
        simp only [List.cons_append, List.cons.injEq] at h2
        exact h2.1.symm
      subst hcv
      have hyv : '<' ∉ y := fun q => hv (by rw [h2]; simp [q])
      -- where the `<` of the end tag is
      have h1 : w ++ '&' :: y = u ++ ('<' :: '/' :: (k ++ ['>'])) := by rw [← h1]; simp
      rcases List.append_eq_append_iff.1 h1 with ⟨z, k1, k2⟩ | ⟨z, k1, k2⟩
      · have : '<' ∈ '&' :: y := by rw [k2]; simp
        simp only [List.mem_cons] at this
        rcases this with q | q
        · exact absurd q (by decide)
        · exact hyv q
      · match z, k2 with
        | [], k2 => simp at k2
        | [z1], k2 => simp at k2
        | z1 :: z2 :: z, k2 =>
          simp only [List.cons_append, List.cons.injEq] at k2
          have : '&' ∈ k ++ ['>'] := by rw [k2.2.2]; simp
          simp only [List.mem_append, List.mem_singleton] at this
          rcases this with q | q
          · exact hamp q
          · exact absurd q (by decide)
  · exact h u k y (by rw [h1]) hc

/-- Two sets of options that read the same documents as long as nothing is repaired. -/
def Spec.reads (o o' : ParseOptions) : Prop :=
  o'.caseSensitiveTagname = o.caseSensitiveTagname ∧ (o.allowSelfClosing = true → o'.allowSelfClosing = true) ∧
    (o.allowAttrKeyStartsWithEqualSign = true → o'.allowAttrKeyStartsWithEqualSign = true)

theorem attrName_mono {a b d : Bool} {k : Str} (h : a = true → b = true) (q : attrName a d k) : attrName b d k := by
  cases k with
  | nil => exact q
  | cons c cs => exact ⟨q.1, q.2.1, q.2.2.1, fun e => h (q.2.2.2.1 e), q.2.2.2.2⟩

theorem legalAttr_mono {a b d : Bool} {x : Attr} (h : a = true → b = true) (q : legalAttr a d x) : legalAttr b d x := by
  unfold legalAttr at q ⊢
  refine ⟨q.1, ?_⟩
  have q := q.2
  revert q
  cases x.key <;> cases x.value <;> cases x.quote <;> simp only <;> intro q
  · exact q
  · exact q
  · exact q
  · exact q
  · exact attrName_mono h q
  · exact q
  · exact ⟨attrName_mono h q.1, q.2⟩
  · exact ⟨attrName_mono h q.1, q.2⟩

theorem textChars_one (w : Str) : textChars [.text w] = w := by simp [textChars]

/-- What is read under repairs is well-formed when the texts are taken out of void and raw-text elements, except that texts may
stand side by side. -/
theorem mend_loose {o o' : ParseOptions} (ho : reads o o') :
    (∀ p, allIn writable p → ∀ ctx par, okNode o ctx par p →
      looseNodes true o' ctx par (mendNode p) ∧ ctxNodes ctx (mendNode p) = ctxNode ctx p ∧ printNodes (mendNode p) = printNode p) ∧
    (∀ ps, allsIn writable ps → ∀ ctx par, okNodes o ctx par ps →
      looseNodes true o' ctx par (mendNodes ps) ∧ ctxNodes ctx (mendNodes ps) = ctxNodes ctx ps ∧
        printNodes (mendNodes ps) = printNodes ps) := by
  obtain ⟨ho1, ho2, ho3⟩ := ho
  have happ : ∀ (ps qs : List PNode) ctx par, looseNodes true o' ctx par (ps ++ qs) ↔
      looseNodes true o' ctx par ps ∧ looseNodes true o' (ctxNodes ctx ps) par qs := by
    intro ps qs
    induction ps with
    | nil => intro ctx par; simp [looseNodes, ctxNodes]
    | cons p ps ih => intro ctx par; simp only [List.cons_append, looseNodes, ctxNodes, ih, and_assoc]
  apply PNode.induct
  · intro w _ ctx par h
    simp only [okNode, textOk] at h
    simp only [mendNode, looseNodes, looseNode, ctxNodes, ctxNode, printNodes, List.append_nil, and_true]
    exact ⟨fun _ => h.1, h.2⟩
  · intro w _ ctx par h
    simp only [okNode] at h
    simp only [mendNode, looseNodes, looseNode, ctxNodes, ctxNode, printNodes, List.append_nil, and_true]
    exact h
  · intro w _ ctx par h
    simp only [okNode] at h
    simp only [mendNode, looseNodes, looseNode, ctxNodes, ctxNode, printNodes, List.append_nil, and_true]
    exact h
  · intro n as s hd ctx par h
    simp only [okNode] at h
    simp only [allIn, writable] at hd
    simp only [mendNode, looseNodes, looseNode, ctxNodes, ctxNode, printNodes, List.append_nil, and_true]
    exact ⟨h.1, hd.1, hd.2.1, fun a ha => legalAttr_mono ho3 (h.2 a ha), hd.2.2⟩
  · intro n as s ct ks e ih hd ctx par h
    simp only [allIn, writable] at hd
    simp only [okNode] at h
    obtain ⟨k1, k2, k3⟩ := h
    have hl : legalAttrs o'.allowAttrKeyStartsWithEqualSign false as := ⟨fun a ha => legalAttr_mono ho3 (k2 a ha), hd.1⟩
    have hself : (o.allowSelfClosing = true ∨ isVoid n ∨ ctx ≠ none) → (o'.allowSelfClosing = true ∨ isVoid n ∨ ctx ≠ none) := by
      rintro (q | q)
      · exact .inl (ho2 q)
      · exact .inr q
    simp only [mendNode]
    split at k3
    · rename_i hs
      subst hs
      obtain ⟨rfl, rfl, rfl, k4⟩ := k3
      have e : (if isVoid n then [PNode.elem n as true none [] none] ++ mendNodes []
          else if isRaw n ∧ true = false then [.elem n as true (some (Option.getD none [] ++ textChars [])) [] none]
          else [.elem n as true none (mendNodes []) none]) = [.elem n as true none [] none] := by
        simp [mendNodes]
      rw [show (if isVoid n then PNode.elem n as true none [] none :: mendNodes [] else _) = _ from e]
      simp only [looseNodes, looseNode, ElemShape, ctxNodes, ctxNode, printNodes, if_true, true_or, and_true, List.append_nil]
      exact ⟨k1, hl, trivial, trivial, trivial, hself k4⟩
    · rename_i hs
      have hs : s = false := by simpa using hs
      subst hs
      split at k3
      · rename_i hv
        obtain ⟨rfl, k4, rfl⟩ := k3
        rw [if_pos hv]
        have hks : looseNodes true o' ctx par (mendNodes ks) ∧ ctxNodes ctx (mendNodes ks) = ctx ∧ printNodes (mendNodes ks) = printNodes ks := by
          rcases k4 with rfl | ⟨_, w, rfl, k5, _⟩
          · simp only [mendNodes, looseNodes, ctxNodes, and_self]
          · simp only [mendNodes, mendNode, looseNodes, looseNode, ctxNodes, ctxNode, List.append_nil, and_true]
            exact ⟨fun _ => k5.1, k5.2⟩
        simp only [looseNodes, looseNode, ElemShape, ctxNodes, ctxNode, printNodes, printNode, hv, if_true, or_true, true_or,
          Bool.false_eq_true, if_false, and_true, hks, List.append_nil]
        exact ⟨⟨k1, hl⟩, by simp [printEnd]⟩
      · rename_i hv
        rw [if_neg hv]
        split at k3
        · rename_i hr
          rw [if_pos ⟨hr, rfl⟩]
          obtain ⟨k4, w, e', rfl, rfl, k5, k6⟩ := k3
          have hks : printNodes ks = textChars ks ∧ ∀ u k v, w ++ textChars ks = u ++ ['<', '/'] ++ k ++ ['>'] ++ v →
              ¬ closes o.caseSensitiveTagname n k := by
            rcases k4 with rfl | ⟨_, v, rfl, k7, k8⟩
            · simp only [printNodes, textChars, List.append_nil, true_and]; exact k6
            · rw [textChars_one]
              exact ⟨by simp [printNodes, printNode], raw_pour hr k7.2 k8 k6⟩
          simp only [looseNodes, looseNode, ElemShape, ctxNodes, ctxNode, printNodes, printNode, hv, hr, if_true, or_true,
            Bool.false_eq_true, if_false, and_true, List.append_nil, Option.getD_some, true_and, ho1]
          refine ⟨⟨k1, hl, _, _, rfl, rfl, k5, hks.2⟩, ?_⟩
          rw [hks.1]; simp
        · rename_i hr
          rw [if_neg (fun q => hr q.1)]
          obtain ⟨rfl, k4, k5⟩ := k3
          obtain ⟨a1, a2, a3⟩ := ih hd.2 _ _ k5
          have he : ∃ e', e = some e' ∧ closes o.caseSensitiveTagname n e' := by
            rcases k4 with q | ⟨_, n', as', q⟩
            · exact q
            · exfalso
              obtain ⟨xs, rfl⟩ : ∃ xs, ks = xs ++ [.doctype n' as' true] := by
                rcases List.eq_nil_or_concat ks with rfl | ⟨xs, x, rfl⟩
                · cases q
                · simp at q; exact ⟨xs, by rw [q, List.concat_eq_append]⟩
              have := hd.2
              rw [allsIn_append] at this
              simp only [allsIn, allIn, writable] at this
              exact absurd this.2.1.2.1 (by simp)
          obtain ⟨e', rfl, k6⟩ := he
          simp only [looseNodes, looseNode, ElemShape, ctxNodes, ctxNode, printNodes, printNode, hv, hr, or_false,
            Bool.false_eq_true, if_false, and_true, List.append_nil, true_and, ho1, a2, a3]
          exact ⟨k1, hl, ⟨e', rfl, k6⟩, a1⟩
  · intro _ ctx par _; simp only [mendNodes, looseNodes, ctxNodes, printNodes, and_self]
  · intro p ps ih1 ih2 hd ctx par h
    simp only [allsIn] at hd
    simp only [okNodes] at h
    obtain ⟨a1, a2, a3⟩ := ih1 hd.1 _ _ h.1
    obtain ⟨b1, b2, b3⟩ := ih2 hd.2 _ _ h.2.2
    simp only [mendNodes, happ, ctxNodes_append, printNodes_append, printNodes, ctxNodes, a2, a3, b3]
    exact ⟨⟨a1, b1⟩, b2, trivial⟩

/-- The attributes and doctypes are as C63 asks. -/
def Spec.apart (allowEq : Bool) : PNode → Prop
  | .doctype _ as s => as ≠ [] ∧ s = false ∧ (allowEq = true → eqApart as)
  | .elem _ as _ _ _ _ => allowEq = true → eqApart as
  | _ => True

theorem mend_core {o o' : ParseOptions} (lib : EntityLib) {s : Str} {d : Doc} {ps : List PNode} (ho : reads o o') (hc : complete s o)
    (hp : Doc.parse s o = .ok d) (h : docOf s o = some ps) (ha : allsIn (apart o.allowAttrKeyStartsWithEqualSign) ps) :
    ∃ d', d.render lib {} = .ok (printNodes ps) ∧ Doc.parse (printNodes ps) o' = .ok d' ∧ d'.render lib {} = .ok (printNodes ps) ∧
      docOf (printNodes ps) o' = some (mended ps) := by
  have hok := docOf_ok hc h
  have hw : allsIn writable ps := by
    refine allIn_of_occurs.2 ps fun q hq => ?_
    obtain ⟨ctx, par, hk⟩ := okNode_occurs hok hq
    have hq := allsIn_occurs (ps := ps) ha q hq
    cases q with
    | doctype n as sc =>
      refine ⟨hq.1, hq.2.1, ?_⟩
      simp only [okNode] at hk
      cases ha : o.allowAttrKeyStartsWithEqualSign with
      | true => exact hq.2.2 ha
      | false => rw [ha] at hk; exact eqApart_of hk.2
    | elem n as sc ct ks e =>
      show eqApart as
      simp only [okNode] at hk
      cases ha : o.allowAttrKeyStartsWithEqualSign with
      | true => exact hq ha
      | false => rw [ha] at hk; exact eqApart_of hk.2.1
    | text => trivial
    | comment => trivial
    | cdata => trivial
  obtain ⟨h1, _, h3⟩ := (mend_loose ho).2 ps hw none none hok
  have hwf : wfDoc o' (mended ps) := (wf_join.2 _ _ _ h1).1
  obtain ⟨k1, d', k2, k3⟩ := c05_document o' lib hwf
  have e : printNodes (mended ps) = printNodes ps := by unfold mended; rw [print_join.2, h3]
  rw [e] at k1 k2 k3
  exact ⟨d', docOf_render lib hc hp h, k2, k3, k1⟩

theorem apart_of {b : Bool} {ps : List PNode} (hd : ∀ n as sc, Occurs (.doctype n as sc) ps → as ≠ [] ∧ sc = false)
    (he : b = true →
      (∀ n as sc ct ks e, Occurs (.elem n as sc ct ks e) ps → eqApart as) ∧ ∀ n as sc, Occurs (.doctype n as sc) ps → eqApart as) :
    allsIn (apart b) ps := by
  refine allIn_of_occurs.2 ps fun q hq => ?_
  cases q with
  | doctype n as sc => exact ⟨(hd n as sc hq).1, (hd n as sc hq).2, fun ha => (he ha).2 n as sc hq⟩
  | elem n as sc ct ks e => exact fun ha => (he ha).1 n as sc ct ks e hq
  | text => trivial
  | comment => trivial
  | cdata => trivial

/-- **C63**: a document that was read under any options, if its doctypes can be written down (C04) and no attribute starting with
`=` follows one without a value, is written down as a text that needs no repair: other options that are as permissive and agree
about the case of names, in particular the same options without the auto-fixes, accept the text, render it as it is, and read the
same document up to where the texts stand that `auto_fix_unescaped_lt` has put into void and raw-text elements. -/
theorem c63_mended {o o' : ParseOptions} (lib : EntityLib) {s : Str} {d : Doc} {ps : List PNode} (ho : reads o o') (hc : complete s o)
    (hp : Doc.parse s o = .ok d) (h : docOf s o = some ps)
    (hd : ∀ n as sc, Occurs (.doctype n as sc) ps → as ≠ [] ∧ sc = false)
    (he : o.allowAttrKeyStartsWithEqualSign = true →
      (∀ n as sc ct ks e, Occurs (.elem n as sc ct ks e) ps → eqApart as) ∧ ∀ n as sc, Occurs (.doctype n as sc) ps → eqApart as) :
    ∃ r d', d.render lib {} = .ok r ∧ Doc.parse r o' = .ok d' ∧ d'.render lib {} = .ok r ∧ docOf r o' = some (mended ps) :=
  ⟨_, mend_core lib ho hc hp h (apart_of hd he)⟩

theorem reads_strict (o : ParseOptions) : reads o (strict o) := ⟨rfl, id, id⟩

/-! ## Samples -/

/-- All repairs. -/
private def fixes : ParseOptions := { autoFixUnclosedTag := true, autoFixUnexpectedEndtag := true, autoFixUnescapedLt := true }

private def broken : Str := "<p><br><1</b>x<title>a</title><<b>y".toList

private def repaired : List PNode :=
  [.elem ['p'] [] false none
    [.elem ['b', 'r'] [] false none [.text "&lt;1x".toList] none,
     .elem "title".toList [] false (some ['a']) [.text "&lt;".toList] (some "title".toList),
     .elem ['b'] [] false none [.text ['y']] (some ['b'])] (some ['p'])]

private theorem broken_doc : docOf broken fixes = some repaired := by decide +kernel

/-- A text with every kind of mistake. -/
example : ∃ d d', Doc.parse broken fixes = .ok d ∧ Doc.parse "<p><br>&lt;1x<title>a&lt;</title><b>y</b></p>".toList {} = .ok d' ∧
    docOf "<p><br>&lt;1x<title>a&lt;</title><b>y</b></p>".toList {} = some (mended repaired) ∧
    mended repaired = [.elem ['p'] [] false none
      [.elem ['b', 'r'] [] false none [] none, .text "&lt;1x".toList, .elem "title".toList [] false (some "a&lt;".toList) [] (some "title".toList),
       .elem ['b'] [] false none [.text ['y']] (some ['b'])] (some ['p'])] := by
  have hc : complete broken fixes := by decide +kernel
  cases hp : Doc.parse broken fixes with
  | ok d =>
    have hno : ∀ n as sc, ¬ Occurs (.doctype n as sc) repaired := by
      intro n as sc hq
      have := allsIn_occurs (P := fun p => ∀ n as sc, p ≠ .doctype n as sc) (ps := repaired) (by simp [repaired, allsIn, allIn]) _ hq
      exact this n as sc rfl
    obtain ⟨r, d', h1, h2, _, h4⟩ := c63_mended (o' := {}) ⟨fun _ => [], fun _ => none, fun _ => false, fun _ => none⟩ (reads_strict fixes) hc hp
      broken_doc (fun n as sc hq => absurd hq (hno n as sc)) (fun h => by cases h)
    have e := docOf_render ⟨fun _ => [], fun _ => none, fun _ => false, fun _ => none⟩ hc hp broken_doc
    rw [h1] at e
    have e : r = "<p><br>&lt;1x<title>a&lt;</title><b>y</b></p>".toList := by
      rw [Except.ok.inj e]; decide +kernel
    rw [e] at h2 h4
    exact ⟨d, d', rfl, h2, h4, by decide +kernel⟩
  | err e => exact absurd broken_doc (by unfold docOf; rw [hp]; simp)
  | panic e => exact absurd broken_doc (by unfold docOf; rw [hp]; simp)

end Rphtml
