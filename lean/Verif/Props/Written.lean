import Verif.Proofs.Written
import Verif.Spec.Samples

/-! # C03: nothing is lost between the input and its rendering -/

namespace Rphtml
open Spec

/-- The input spells the document that is read from it. -/
theorem c03_written {s : Str} {o : ParseOptions} {ps : List PNode} (h1 : o.autoFixUnescapedLt = false)
    (h2 : o.autoFixUnexpectedEndtag = false) (h3 : o.autoFixUnclosedTag = false) (h : docOf s o = some ps) : writtens ps s := by
  obtain ⟨a, k1, k2, k3⟩ := (docOf_iff (complete_of h3)).1 h
  obtain ⟨s0, u, e, hk, hp⟩ := Written.run h1 h2 k1
  unfold AState.final at k2
  simp only [h3, Bool.or_false, Bool.and_eq_true, List.isEmpty_iff] at k2
  obtain ⟨hm, hr⟩ := k2
  rw [hr] at hk
  have hu : u = [] := by
    cases hmode : a.mode <;> simp only [hmode] at hm hp <;> first | exact hp | cases hm
  rw [← k3, result_eq, hr, e, hu, List.append_nil]
  exact hk

theorem Spec.Agree.refl : ∀ s : Str, Agree s s
  | [] => .nil
  | c :: s => .char c (Agree.refl s)

theorem Spec.Agree.append {a b c d : Str} (h : Agree a b) (h' : Agree c d) : Agree (a ++ c) (b ++ d) := by
  induction h with
  | nil => exact h'
  | char x _ ih => exact .char x ih
  | left g _ ih => exact .left g ih
  | right g _ ih => exact .right g ih
  | cdata k _ ih =>
    rw [List.append_assoc _ _ c, List.append_assoc _ _ d]
    exact .cdata k ih

theorem Spec.Agree.gapL {g : Str} (h : ∀ c ∈ g, gapChar c) : Agree g [] := by
  induction g with
  | nil => exact .nil
  | cons c cs ih => exact .left (h c (by simp)) (ih fun x hx => h x (by simp [hx]))

theorem Spec.Agree.gapR {g : Str} (h : ∀ c ∈ g, gapChar c) : Agree [] g := by
  induction g with
  | nil => exact .nil
  | cons c cs ih => exact .right (h c (by simp)) (ih fun x hx => h x (by simp [hx]))

theorem Spec.Agree.gaps {g g' : Str} (h : ∀ c ∈ g, gapChar c) (h' : ∀ c ∈ g', gapChar c) : Agree g g' := by
  have := (Agree.gapL h).append (Agree.gapR h')
  simpa using this

theorem gap_space : gapChar ' ' := Or.inl (by decide)

theorem agree_attrs {as : List Attr} {t : Str} (h : Laid as t) : Agree t (printAttrs as) := by
  have snoc : ∀ (as : List Attr) (a : Attr), printAttrs (as ++ [a]) = printAttrs as ++ ([' '] ++ printAttr a) := by
    intro as a; simp [printAttrs]
  have sp : ∀ {a b : Str}, Agree a b → Agree a ([' '] ++ b) := fun h => .right gap_space h
  induction h with
  | nil => exact .nil
  | gap _ g ih =>
    have := ih.append (Agree.gapL (g := [_]) (by simpa using g))
    simpa using this
  | bare _ _ ih =>
    rw [snoc]
    refine ih.append (sp ?_)
    simp [printAttr, Agree.refl]
  | value _ _ hg he ih =>
    rename_i k g v q _ _
    rw [snoc, List.append_assoc, List.append_assoc]
    refine ih.append (sp ?_)
    have : Agree (k ++ (g ++ quoted q v)) (k ++ (['='] ++ quoted q v)) :=
      (Agree.refl k).append ((Agree.gaps hg (by simp [gapChar])).append (Agree.refl _))
    cases q <;> simpa [printAttr, quoted] using this
  | lone _ _ ih =>
    rw [snoc]
    refine ih.append (sp ?_)
    simp [printAttr, quoted, Agree.refl]

theorem gap_tail {sc : Bool} {z : Str} (h : tail sc z) : ∃ g, z = g ++ ['>'] ∧ ∀ c ∈ g, gapChar c := by
  cases sc with
  | false => exact ⟨[], h, by simp⟩
  | true =>
    obtain ⟨w, e, hw⟩ := h
    refine ⟨'/' :: w, e, ?_⟩
    intro c hc
    rcases List.mem_cons.1 hc with h | h
    · exact Or.inr (Or.inl h)
    · exact Or.inl (hw c h)

/-- Two spellings of a document agree with the way it is printed. -/
theorem agree_print : (∀ (p : PNode) (s : Str), written p s → Agree s (printNode p)) ∧
    ∀ (ps : List PNode) (s : Str), writtens ps s → Agree s (printNodes ps) := by
  refine PNode.induct ?_ ?_ ?_ ?_ ?_ ?_ ?_
  · intro w s h
    simp only [written] at h
    rw [h]; exact Agree.refl _
  · intro w s h
    simp only [written] at h
    rw [h]; exact Agree.refl _
  · intro w s h
    simp only [written] at h
    obtain ⟨k, k1, rfl⟩ := h
    have := Agree.cdata k1 (Agree.refl (w ++ "]]>".toList))
    rw [show "<!".toList ++ k ++ w ++ "]]>".toList = "<!".toList ++ k ++ (w ++ "]]>".toList) by simp]
    exact this
  · intro n as sc s h
    simp only [written] at h
    obtain ⟨t, z, k1, k2, rfl⟩ := h
    obtain ⟨g, rfl, hg⟩ := gap_tail k2
    simp only [printNode]
    have := ((Agree.refl ("<!".toList ++ n)).append (agree_attrs k1)).append ((Agree.gapL hg).append (Agree.refl ['>']))
    exact this
  · intro n as sc ct ks e ih s h
    simp only [written] at h
    obtain ⟨t, z, w, k1, k2, k3, rfl⟩ := h
    obtain ⟨g, rfl, hg⟩ := gap_tail k2
    simp only [printNode, printOpen]
    have := ((((Agree.refl (['<'] ++ n)).append (agree_attrs k1)).append
      ((Agree.gaps (g' := if sc then [' ', '/'] else []) hg (by cases sc <;> simp [gapChar, ws])).append (Agree.refl ['>']))).append
        (Agree.refl (ct.getD []))).append ((ih w k3).append (Agree.refl (printEnd e)))
    cases e <;> simpa [printEnd] using this
  · intro s h
    simp only [writtens] at h
    rw [h]; exact .nil
  · intro p ps hp hps s h
    simp only [writtens] at h
    obtain ⟨a, b, rfl, k1, k2⟩ := h
    exact (hp a k1).append (hps b k2)

/-- **C03**: without repairs, the default rendering of an accepted text has the characters of the text in the same order, up
to whitespace, `/` and `=` and up to the case of the word `CDATA`. -/
theorem c03_agree (lib : EntityLib) {s : Str} {o : ParseOptions} {d : Doc} (h1 : o.autoFixUnescapedLt = false)
    (h2 : o.autoFixUnexpectedEndtag = false) (h3 : o.autoFixUnclosedTag = false) (h : Doc.parse s o = .ok d) :
    ∃ r, d.render lib {} = .ok r ∧ Agree s r := by
  obtain ⟨ps, hps⟩ := (parse_docOf (complete_of h3)).1 ⟨d, h⟩
  exact ⟨_, docOf_render lib (complete_of h3) h hps, agree_print.2 _ _ (c03_written h1 h2 h3 hps)⟩

/-- The characters that are never dropped or added. -/
def Spec.solid (s : Str) : Str := s.filter fun c => ¬ gapChar c

/-- Agreeing texts have the same solid characters, up to case. -/
theorem Spec.Agree.fold {s r : Str} (h : Agree s r) : Spec.fold (solid s) = Spec.fold (solid r) := by
  unfold solid
  induction h with
  | nil => rfl
  | char c _ ih =>
    simp only [List.filter_cons]
    split
    · simp only [Spec.fold, List.map_cons] at ih ⊢; rw [ih]
    · exact ih
  | left g _ ih => rw [List.filter_cons_of_neg (by simpa using g)]; exact ih
  | right g _ ih => rw [List.filter_cons_of_neg (by simpa using g)]; exact ih
  | cdata hk _ ih =>
    rename_i k s r _
    simp only [List.filter_append, Spec.fold, List.map_append] at ih ⊢
    rw [ih]
    congr 1
    have key : ∀ (k : Str), (∀ c ∈ k, ¬ gapChar c.toLower) → k.filter (fun c => decide ¬ gapChar c) = k := by
      intro k h
      rw [List.filter_eq_self]
      intro c hc
      have := h c hc
      simp only [decide_eq_true_eq]
      intro g
      apply this
      rcases g with g | g | g
      · simp only [ws, List.mem_cons, List.not_mem_nil, or_false] at g
        rcases g with rfl | rfl | rfl | rfl | rfl <;> decide
      · subst g; decide
      · subst g; decide
    have h1 : k.filter (fun c => decide ¬ gapChar c) = k := by
      apply key
      intro c hc
      have : c.toLower ∈ "[cdata[".toList := by rw [← hk]; exact List.mem_map_of_mem hc
      revert this
      generalize c.toLower = x
      intro hx
      have hx : x = '[' ∨ x = 'c' ∨ x = 'd' ∨ x = 'a' ∨ x = 't' := by
        have : x ∈ ['[', 'c', 'd', 'a', 't', 'a', '['] := hx
        simp only [List.mem_cons, List.not_mem_nil, or_false] at this
        rcases this with h | h | h | h | h | h | h <;> simp [h]
      rcases hx with rfl | rfl | rfl | rfl | rfl <;> decide
    rw [h1]
    unfold Spec.fold at hk
    rw [hk]
    decide +kernel

/-- The solid characters are the same, up to case. -/
theorem c03_solid (lib : EntityLib) {s : Str} {o : ParseOptions} {d : Doc} (h1 : o.autoFixUnescapedLt = false)
    (h2 : o.autoFixUnexpectedEndtag = false) (h3 : o.autoFixUnclosedTag = false) (h : Doc.parse s o = .ok d) :
    ∃ r, d.render lib {} = .ok r ∧ fold (solid s) = fold (solid r) := by
  obtain ⟨r, k1, k2⟩ := c03_agree lib h1 h2 h3 h
  exact ⟨r, k1, k2.fold⟩

/-- Agreeing texts without a `[` have the same solid characters. -/
theorem Spec.Agree.solid {s r : Str} (h : Agree s r) (hs : '[' ∉ s) : Spec.solid s = Spec.solid r := by
  unfold Spec.solid
  induction h with
  | nil => rfl
  | char c _ ih =>
    have ih := ih (fun q => hs (by simp [q]))
    simp only [List.filter_cons]
    rw [ih]
  | left g _ ih => rw [List.filter_cons_of_neg (by simpa using g)]; exact ih (fun q => hs (by simp [q]))
  | right g _ ih => rw [List.filter_cons_of_neg (by simpa using g)]; exact ih hs
  | cdata hk _ ih =>
    rename_i k s r _
    exfalso
    apply hs
    have : '[' ∈ k.map Char.toLower := by
      unfold Spec.fold at hk
      rw [hk]; decide +kernel
    obtain ⟨x, hx, e⟩ := List.mem_map.1 this
    have : x = '[' := by
      have e' : toLower x = '[' := by rw [toLower_eq_core]; exact e
      rw [char_eq_iff, toNat_toLower] at e'
      rw [char_eq_iff]
      have : '['.toNat = 91 := rfl
      split at e' <;> omega
    rw [this] at hx
    simp [hx]

/-- A document without `[` is rendered with exactly its solid characters. -/
theorem c03_same (lib : EntityLib) {s : Str} {o : ParseOptions} {d : Doc} (h1 : o.autoFixUnescapedLt = false)
    (h2 : o.autoFixUnexpectedEndtag = false) (h3 : o.autoFixUnclosedTag = false) (hs : '[' ∉ s) (h : Doc.parse s o = .ok d) :
    ∃ r, d.render lib {} = .ok r ∧ solid s = solid r := by
  obtain ⟨r, k1, k2⟩ := c03_agree lib h1 h2 h3 h
  exact ⟨r, k1, k2.solid hs⟩

/-- Odd spacing, a lower-case `cdata`, slashes and bare attributes. -/
example : rendersTo "<svg  a = '1' / b><g><![cdata[x y]]></g></svg ><br/ ><P/c=\"d\"e>t</p>"
    "<svg a='1' b><g><![CDATA[x y]]></g></svg ><br /><P c=\"d\" e>t</p>" = true := by decide +kernel

/-- White space in a text is not a gap: `Laid` is only about tags. -/
example : ¬ written (.text "a b".toList) "ab".toList := by simp only [written]; decide +kernel

end Rphtml
