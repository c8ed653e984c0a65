import Verif.Proofs.Scan
import Verif.Proofs.Grammar

/-!
# What the machine has read is a sequence of constructs
-/

namespace Rphtml
open Spec

/-- One more character of a text. -/
theorem Scan.textMore {o : ParseOptions} {u : Str} {S : Sit} (h : Spec.Scan o u S) (hs : S.spot = .inText) {c : Char} (hc : c ≠ '<')
    {p : Place} (hl : S.last = .text p) : Spec.Scan o (u ++ [c]) (S.more p [c]) := by
  cases h with
  | nil => cases hs
  | @text u w S h hs' ho hl' hw hlt =>
    cases hl
    have := Spec.Scan.text (w := w ++ [c]) h hs' ho hl' (by simp) (by simp [hlt, Ne.symm hc])
    rw [List.append_assoc]
    refine Eq.mp ?_ this
    congr 1
    refine sit_eq ?_ rfl rfl rfl rfl rfl
    show _ = ({ S.top with kids := addTextAt .top [c] (S.top.kids ++ [.text w]) } : Frame)
    simp only [addTextAt]
    rw [modLast_append _ _ (by simp)]
    rfl
  | @resume u w S q h hs' hl' ho hw hlt =>
    cases hl
    have := Spec.Scan.resume (w := w ++ [c]) h hs' hl' ho (by simp) (by simp [hlt, Ne.symm hc])
    rw [List.append_assoc]
    refine Eq.mp ?_ this
    congr 1
    refine sit_eq ?_ rfl rfl rfl rfl rfl
    simp only [Sit.more, addTextAt_twice]
  | lt => cases hs
  | escape => cases hs
  | @escapeText u w S c' h hs' ho hc' hlt =>
    have := Spec.Scan.escapeText (w := w ++ [c]) (c := c') h hs' ho hc' (by
      rw [← List.cons_append]; simp only [List.mem_append, List.mem_singleton]; rintro (q | q)
      · exact hlt q
      · exact hc q.symm)
    have e : u ++ c' :: w ++ [c] = u ++ c' :: (w ++ [c]) := by simp
    rw [e]
    refine Eq.mp ?_ this
    congr 1
    have hl : (S.text ("&lt;".toList ++ c' :: w)).last = .text p := hl
    unfold Sit.text at hl ⊢
    cases hSl : S.last with
    | text q =>
      rw [hSl] at hl
      cases hl
      refine sit_eq ?_ rfl rfl rfl rfl rfl
      simp [Sit.more, addTextAt_twice]
    | hole =>
      rw [hSl] at hl
      cases hl
      refine sit_eq ?_ rfl rfl rfl rfl rfl
      simp [Sit.more, addTextAt_fill]
    | other =>
      rw [hSl] at hl
      cases hl
      refine sit_eq ?_ rfl rfl rfl rfl rfl
      simp only [Sit.more, Sit.add, addTextAt]
      rw [modLast_append _ _ (by simp)]
      simp [modLast, PNode.addText]
  | _ => cases hs

/-- What has been read of a construct, behind its `<`. -/
def Shape (o : ParseOptions) (l : Last) (m : Mode) (v : Str) : Prop :=
  match m with
  | .wait _ | .text _ | .lt _ => False
  | .bang none _ => v = ['!']
  | .bang (some _) pc => v = '!' :: pc
  | .comment false pc => v = "!--".toList ++ pc
  | .comment true pc => ∃ k, fold k = "[cdata[".toList ∧ v = '!' :: k ++ pc
  | .doctypeName pc => v = '!' :: pc
  | .tagName pc => v = pc
  | .inTag isDoc t => ∃ c w mk, v = (if isDoc then ['!'] else []) ++ t.m.name ++ c :: w ∧ (c ∈ ws ∨ isDoc = false ∧ c = '/') ∧
      trun isDoc o.allowAttrKeyStartsWithEqualSign ⟨.tagWait, nameMeta t.m.name, [], mk⟩ (c :: w) = some t
  | .tagEnd pc r => v = '/' :: pc ∧ '>' ∉ pc ∧ r = if o.autoFixUnclosedTag then l else .other
  | .raw m pc => ∃ t, nameOver t ∧ TagRest o.allowAttrKeyStartsWithEqualSign false m.attrs false t ∧ v = m.name ++ t ++ pc

/-- What has been read. -/
def Told (o : ParseOptions) (u : Str) (a : AState) : Prop :=
  if a.mode.simple then Spec.Scan o u (sitOf a)
  else ∃ t v l, u = t ++ v ∧ Spec.Scan o t (sitOf { a with mode := .lt l }) ∧ Shape o l a.mode v

theorem Told.scan {o : ParseOptions} {u : Str} {a : AState} (h : Told o u a) (hm : a.mode.simple = true) : Spec.Scan o u (sitOf a) := by
  unfold Told at h; rw [if_pos hm] at h; exact h

theorem Told.shape {o : ParseOptions} {u : Str} {a : AState} (h : Told o u a) (hm : a.mode.simple = false) :
    ∃ t v l, u = t ++ v ∧ Spec.Scan o t (sitOf { a with mode := .lt l }) ∧ Shape o l a.mode v := by
  unfold Told at h; rw [if_neg (by rw [hm]; decide)] at h; exact h

theorem Told.of_scan {o : ParseOptions} {u : Str} {a : AState} (hm : a.mode.simple = true) (h : Spec.Scan o u (sitOf a)) : Told o u a := by
  unfold Told; rw [if_pos hm]; exact h

theorem Told.of_shape {o : ParseOptions} {u t v : Str} {a : AState} {l : Last} (hm : a.mode.simple = false) (he : u = t ++ v)
    (h : Spec.Scan o t (sitOf { a with mode := .lt l })) (hs : Shape o l a.mode v) : Told o u a := by
  unfold Told; rw [if_neg (by rw [hm]; decide)]; exact ⟨t, v, l, he, h, hs⟩

/-- Behind a `<`, where the machine is not inside anything. -/
theorem sit_lt {a : AState} {l : Last} (hm : a.mode = .lt l) : sitOf a = sitOf { a with mode := .lt l } := by rw [← hm]

theorem sit_lt_eq {a b : AState} (l : Last) (h1 : b.top = a.top) (h2 : b.rest = a.rest) (h3 : b.over = a.over) (h4 : b.sp = a.sp) :
    sitOf { b with mode := .lt l } = sitOf { a with mode := .lt l } := by
  refine sit_eq h1 h2 h3 ?_ rfl rfl
  unfold sitOf ctxOf; simp only [h4]

/-- Behind a `<` that begins a construct. -/
theorem Told.begin {o : ParseOptions} {u : Str} {a a' : AState} {l : Last} {c : Char} (h : Told o u a) (hm : a.mode = .lt l)
    (hs : a'.mode.simple = false) (h1 : a'.top = a.top) (h2 : a'.rest = a.rest) (h3 : a'.over = a.over) (h4 : a'.sp = a.sp)
    (hv : Shape o l a'.mode [c]) : Told o (u ++ [c]) a' := by
  refine Told.of_shape hs rfl (l := l) ?_ hv
  have := h.scan (by rw [hm]; rfl)
  rw [sit_lt_eq l h1 h2 h3 h4, ← sit_lt hm]
  exact this

/-- One more character of a construct. -/
theorem Told.next {o : ParseOptions} {u : Str} {a a' : AState} {c : Char} (h : Told o u a) (hm : a.mode.simple = false)
    (hs : a'.mode.simple = false) (h1 : a'.top = a.top) (h2 : a'.rest = a.rest) (h3 : a'.over = a.over) (h4 : a'.sp = a.sp)
    (hv : ∀ l v, Shape o l a.mode v → Shape o l a'.mode (v ++ [c])) : Told o (u ++ [c]) a' := by
  obtain ⟨t, v, l, he, hS, hx⟩ := h.shape hm
  refine Told.of_shape hs (t := t) (v := v ++ [c]) (by rw [he, List.append_assoc]) (l := l) ?_ (hv l v hx)
  rw [sit_lt_eq l h1 h2 h3 h4]
  exact hS

/-- The last character of a construct. -/
theorem Told.last {o : ParseOptions} {u : Str} {a a' : AState} {c : Char} (h : Told o u a) (hm : a.mode.simple = false)
    (hs : a'.mode.simple = true)
    (hv : ∀ t l v, Spec.Scan o t (sitOf { a with mode := .lt l }) → Shape o l a.mode v → Spec.Scan o (t ++ (v ++ [c])) (sitOf a')) :
    Told o (u ++ [c]) a' := by
  obtain ⟨t, v, l, he, hS, hx⟩ := h.shape hm
  refine Told.of_scan hs ?_
  rw [he, List.append_assoc]
  exact hv t l v hS hx

theorem not_raw_void {n : Str} (h : ¬ isVoidTag (lowerAll n) = true) : ¬ isVoid n := fun q => h ((isVoid_iff n).2 q)

/-- The `>` of a start tag. -/
theorem Told.openTag {o : ParseOptions} {u t z : Str} {a : AState} {m : TagMeta} {l : Last} (ho : a.over = false)
    (hS : Spec.Scan o t (sitOf { a with mode := .lt l })) (hn : TagNameOk m.name) (hvoid : m.isVoid = isVoidTag (lowerAll m.name))
    (hz : nameOver z) (hr : TagRest o.allowAttrKeyStartsWithEqualSign false m.attrs false z) (hu : u = t ++ (m.name ++ z)) (mk : Char) :
    Told o u { a.openTag m [] with mark := mk } := by
  have hn' := (tagName_iff _).2 hn
  unfold AState.openTag
  by_cases h1 : m.isVoid = true
  · rw [if_pos h1]
    refine Told.of_scan rfl ?_
    rw [hu]
    exact Spec.Scan.void hS rfl ho hn' hz hr ((isVoid_iff _).1 (hvoid ▸ h1))
  · rw [if_neg h1]
    have h1' : ¬ isVoid m.name := fun q => h1 (by rw [hvoid]; exact (isVoid_iff _).2 q)
    by_cases h2 : isContentTag (lowerAll m.name) none = true
    · rw [if_pos h2]
      exact Told.of_shape rfl hu (l := l) hS ⟨z, hz, hr, by simp⟩
    · rw [if_neg h2]
      refine Told.of_scan rfl ?_
      rw [hu]
      have := Spec.Scan.start hS rfl ho hn' hz hr h1' fun q => h2 ((isRaw_iff _).2 q)
      refine Eq.mp ?_ this
      congr 1
      refine sit_eq rfl rfl rfl ?_ rfl rfl
      exact (ctx_enter a.sp m.name).symm

theorem Told.step {o : ParseOptions} {s : Str} {a a' : AState} {c : Char} (hw : WfInv o a) (hi : Told o s a) (st : AStep o a c a') :
    Told o (s ++ [c]) a' := by
  have hmo := hw.mode
  unfold ModeOk at hmo
  cases st with
  | lt hm =>
    refine Told.of_scan rfl ?_
    rcases hm with hm | ⟨p, rfl, hm⟩
    · have h := hi.scan (by rw [hm]; rfl)
      refine Eq.mp ?_ (Spec.Scan.lt h (by simp [sitOf, hm, spotOf]))
      congr 1
      exact sit_eq rfl rfl rfl rfl (by simp [sitOf, hm, lastOf]) rfl
    · have h := hi.scan (by rw [hm]; rfl)
      refine Eq.mp ?_ (Spec.Scan.lt h (by simp [sitOf, hm, spotOf]))
      congr 1
      exact sit_eq rfl rfl rfl rfl (by simp [sitOf, hm, lastOf]) rfl
  | resume hm ho hc =>
    refine Told.of_scan rfl ?_
    have h := hi.scan (by rw [hm]; rfl)
    exact Spec.Scan.resume h (by simp [sitOf, hm, spotOf]) (by simp [sitOf, hm, lastOf]) ho (by simp) (by simpa using Ne.symm hc)
  | start hm hl hover hc =>
    refine Told.of_scan rfl ?_
    have h := hi.scan (by rw [hm]; rfl)
    exact Spec.Scan.text h (by simp [sitOf, hm, spotOf]) hover (by simpa [sitOf, hm, lastOf] using hl) (by simp) (by simpa using Ne.symm hc)
  | more hm hc =>
    rename_i p
    refine Told.of_scan (by show a.mode.simple = true; rw [hm]; rfl) ?_
    have h := hi.scan (by rw [hm]; rfl)
    have := Scan.textMore h (by simp [sitOf, hm, spotOf]) hc (p := p) (by simp [sitOf, hm, lastOf])
    refine Eq.mp ?_ this
    congr 1
    refine sit_eq rfl rfl rfl rfl ?_ rfl
    simp [sitOf, hm, lastOf, Sit.more, AState.more]
  | tagOpen hm hc hover => exact hi.begin hm rfl rfl rfl rfl rfl rfl
  | endOpen hm => exact hi.begin hm rfl rfl rfl rfl rfl ⟨rfl, by simp, rfl⟩
  | bangOpen hm => exact hi.begin hm rfl rfl rfl rfl rfl rfl
  | ltMore hm ho hc =>
    rename_i p
    have h := hi.scan (by rw [hm]; rfl)
    have e : (sitOf a).last = .text p := by simp [sitOf, hm, lastOf]
    by_cases q : c = '<'
    · subst q
      refine Told.of_scan rfl ?_
      refine Eq.mp ?_ (Spec.Scan.escape h (by simp [sitOf, hm, spotOf]) ho)
      congr 1
      unfold Sit.text
      rw [e]
      rfl
    · refine Told.of_scan (by simp [q, Mode.simple]) ?_
      refine Eq.mp ?_ (Spec.Scan.escapeText (w := []) h (by simp [sitOf, hm, spotOf]) ho (by rw [← isAlpha_char]; exact hc) (by simpa using Ne.symm q))
      congr 1
      unfold Sit.text
      rw [e]
      simp only [q, if_false]
      rfl
  | ltFill hm ho hc =>
    have h := hi.scan (by rw [hm]; rfl)
    have e : (sitOf a).last = .hole := by simp [sitOf, hm, lastOf]
    by_cases q : c = '<'
    · subst q
      refine Told.of_scan rfl ?_
      refine Eq.mp ?_ (Spec.Scan.escape h (by simp [sitOf, hm, spotOf]) ho)
      congr 1
      unfold Sit.text
      rw [e]
      rfl
    · refine Told.of_scan (by simp [q, Mode.simple]) ?_
      refine Eq.mp ?_ (Spec.Scan.escapeText (w := []) h (by simp [sitOf, hm, spotOf]) ho (by rw [← isAlpha_char]; exact hc) (by simpa using Ne.symm q))
      congr 1
      unfold Sit.text
      rw [e]
      simp only [q, if_false]
      rfl
  | ltPush hm ho hc =>
    have h := hi.scan (by rw [hm]; rfl)
    have e : (sitOf a).last = .other := by simp [sitOf, hm, lastOf]
    by_cases q : c = '<'
    · subst q
      refine Told.of_scan rfl ?_
      refine Eq.mp ?_ (Spec.Scan.escape h (by simp [sitOf, hm, spotOf]) ho)
      congr 1
      unfold Sit.text
      rw [e]
      rfl
    · refine Told.of_scan (by simp [q, Mode.simple]) ?_
      refine Eq.mp ?_ (Spec.Scan.escapeText (w := []) h (by simp [sitOf, hm, spotOf]) ho (by rw [← isAlpha_char]; exact hc) (by simpa using Ne.symm q))
      congr 1
      unfold Sit.text
      rw [e]
      simp only [q, if_false]
      rfl
  | bangDash hm =>
    refine hi.next (by rw [hm]; rfl) rfl rfl rfl rfl rfl fun l v hv => ?_
    rw [hm] at hv
    rw [show v = ['!'] from hv]; rfl
  | bangD hm hc =>
    refine hi.next (by rw [hm]; rfl) rfl rfl rfl rfl rfl fun l v hv => ?_
    rw [hm] at hv
    rw [show v = ['!'] from hv]; rfl
  | bangC hm =>
    refine hi.next (by rw [hm]; rfl) rfl rfl rfl rfl rfl fun l v hv => ?_
    rw [hm] at hv
    rw [show v = ['!'] from hv]; rfl
  | bangMore hm hc hl =>
    rename_i D pc
    refine hi.next (by rw [hm]; rfl) rfl rfl rfl rfl rfl fun l v hv => ?_
    rw [hm] at hv
    rw [show v = '!' :: pc from hv]; rfl
  | commentOpen hm hc hl hover =>
    rename_i pc
    refine hi.next (by rw [hm]; rfl) rfl rfl rfl rfl rfl fun l v hv => ?_
    rw [hm] at hv hmo
    have hlen : pc.length = 1 := by
      have : pc.length < detectComment.length := by
        rcases Nat.lt_or_ge pc.length detectComment.length with h | h
        · exact h
        · rw [List.getElem?_eq_none h] at hc; cases hc
      simp only [detectComment] at this hl
      simp at this hl
      omega
    have hpc : pc = ['-'] := by
      match pc, hlen with
      | [x], _ =>
        have := hmo.2
        simp only [detectComment, List.map_cons, List.map_nil, List.length_cons, List.length_nil] at this
        have : toUpper x = '-' := by simpa using this
        rw [(toUpper_eq_dash x).1 this]
    have hcd : c = '-' := by
      rw [hlen] at hc
      have : toUpper c = '-' := by simpa [detectComment, eq_comm] using hc
      exact (toUpper_eq_dash c).1 this
    rw [show v = '!' :: pc from hv, hpc, hcd]; rfl
  | cdataOpen hm hc hl hover =>
    rename_i pc
    refine hi.next (by rw [hm]; rfl) rfl rfl rfl rfl rfl fun l v hv => ?_
    rw [hm] at hv hmo
    refine ⟨pc ++ [c], ?_, by rw [show v = '!' :: pc from hv]; simp⟩
    have hlen : pc.length = 6 := by
      have : pc.length < detectCdata.length := by
        rcases Nat.lt_or_ge pc.length detectCdata.length with h | h
        · exact h
        · rw [List.getElem?_eq_none h] at hc; cases hc
      simp only [detectCdata] at this hl
      simp at this hl
      omega
    have hup : (pc ++ [c]).map toUpper = detectCdata := by
      rw [List.map_append, hmo.2, hlen]
      rw [hlen] at hc
      simp only [detectCdata] at hc ⊢
      simp at hc ⊢
      exact hc.symm
    rw [fold_of_upper hup]; decide +kernel
  | doctypeOpen hm hd1 hd2 hc hl hover =>
    rename_i D pc
    refine hi.next (by rw [hm]; rfl) rfl rfl rfl rfl rfl fun l v hv => ?_
    rw [hm] at hv
    rw [show v = '!' :: pc from hv]; rfl
  | commentClose hm hb =>
    rename_i cd pc b
    refine hi.last (by rw [hm]; rfl) rfl fun t l v hS hv => ?_
    rw [hm] at hv hmo
    obtain ⟨h0, h1, h2⟩ := hmo
    obtain ⟨k1, k2⟩ := comment_early hb h2
    have hb := ((commentBody_iff _ _ _).1 hb).2
    cases cd with
    | false =>
      have := Spec.Scan.comment hS rfl h0 k1 k2
      have e : v ++ ['>'] = "!--".toList ++ b ++ "-->".toList := by rw [show v = "!--".toList ++ pc from hv, hb]; simp
      rw [e]
      exact this
    | true =>
      obtain ⟨k, q1, q2⟩ := hv
      obtain ⟨r1, s, n, r2, r3⟩ := h1 rfl
      have := Spec.Scan.cdata hS rfl h0 q1 ⟨n, by simp [sitOf, ctxOf, r2], r1, r3⟩ k1 k2
      have e : v ++ ['>'] = '!' :: k ++ b ++ "]]>".toList := by rw [q2, hb]; simp
      rw [e]
      exact this
  | commentMore hm hb =>
    rename_i cd pc
    refine hi.next (by rw [hm]; rfl) rfl rfl rfl rfl rfl fun l v hv => ?_
    rw [hm] at hv
    cases cd with
    | false => rw [show v = "!--".toList ++ pc from hv]; simp [Shape]
    | true =>
      obtain ⟨k, k1, k2⟩ := hv
      exact ⟨k, k1, by rw [k2]; simp⟩
  | doctypeName hm hc =>
    rename_i pc
    refine hi.next (by rw [hm]; rfl) rfl rfl rfl rfl rfl fun l v hv => ?_
    rw [hm] at hv
    refine ⟨c, [], a.mark, by rw [show v = '!' :: pc from hv]; simp, Or.inl ((isWs_mem c).1 hc), ?_⟩
    simp only [trun]
    rw [Waits.space (t := ⟨.tagWait, nameMeta pc, [], a.mark⟩) ⟨Or.inl rfl, rfl⟩ hc]
  | nameMore hm hc =>
    rename_i pc
    refine hi.next (by rw [hm]; rfl) rfl rfl rfl rfl rfl fun l v hv => ?_
    rw [hm] at hv
    rw [show v = pc from hv]; rfl
  | nameEnd hm hc =>
    rename_i pc
    refine hi.next (by rw [hm]; rfl) rfl rfl rfl rfl rfl fun l v hv => ?_
    rw [hm] at hv
    have hw : Waits ⟨.tagWait, nameMeta pc, [], a.mark⟩ := ⟨Or.inl rfl, rfl⟩
    refine ⟨c, [], a.mark, by rw [show v = pc from hv]; simp, ?_, ?_⟩
    · rcases hc.2 with h | h
      · exact Or.inr ⟨rfl, h⟩
      · exact Or.inl ((isWs_mem c).1 h)
    · rcases hc.2 with h | h
      · subst h
        simp only [trun]
        rw [show ({ name := pc, isVoid := isVoidTag (lowerAll pc) } : TagMeta) = nameMeta pc from rfl, hw.slash]
        rfl
      · have hne : c ≠ '/' := by rintro rfl; revert h; decide
        simp only [trun, hne, if_false]
        rw [show ({ name := pc, isVoid := isVoidTag (lowerAll pc) } : TagMeta) = nameMeta pc from rfl, hw.space h]
  | nameClose hm =>
    rename_i pc
    obtain ⟨t, v, l, he, hS, hv⟩ := hi.shape (by rw [hm]; rfl)
    rw [hm] at hv hmo
    have := Told.openTag (u := s ++ ['>']) (z := ['>']) (m := { name := pc, isVoid := isVoidTag (lowerAll pc) }) hmo.1 hS hmo.2 rfl
      ⟨'>', rfl, Or.inr (Or.inr rfl)⟩ (TagRest.close (g := []) isGap_nil)
      (by rw [he, show v = pc from hv]; simp) (a.openTag { name := pc, isVoid := isVoidTag (lowerAll pc) } []).mark
    exact this
  | tagMore hm ht =>
    rename_i isDoc t t' id
    refine hi.next (by rw [hm]; rfl) rfl rfl rfl rfl rfl fun l v hv => ?_
    rw [hm] at hv hmo
    obtain ⟨x, w, mk, e, k1, k2⟩ := hv
    have hn : t'.m.name = t.m.name := (tagChar_cont hmo.2.ok ht).2.1.name
    refine ⟨x, w ++ [c], mk, by rw [e, hn]; simp, k1, ?_⟩
    rw [hn]
    exact trun_snoc k2 ht
  | docClose hm ht =>
    rename_i t m pc mk id
    refine hi.last (by rw [hm]; rfl) rfl fun u l v hS hv => ?_
    rw [hm] at hv hmo
    obtain ⟨x, w, mk', e, k1, k2⟩ := hv
    obtain ⟨j1, j2, j3⟩ := tagChar_close hmo.2.ok ht
    have k3 := tag_over (c := c) (as := m.attrs) (sc := false) k2 (by simp only [tagEnds, ht, if_true])
    have k1 : x ∈ ws := by
      rcases k1 with h | ⟨h, _⟩
      · exact h
      · cases h
    have hn : fold m.name = "doctype".toList := by
      have := hmo.2.name
      rw [if_pos rfl, ← j1.name] at this
      rw [fold_of_upper this]; decide +kernel
    have := Spec.Scan.doctype hS rfl hmo.1 hn k1 k3
    have e : v ++ [c] = '!' :: m.name ++ x :: (w ++ [c]) := by rw [e, j1.name]; simp
    rw [e]
    exact this
  | tagClose hm ht =>
    rename_i t m pc mk id
    obtain ⟨u, v, l, he, hS, hv⟩ := hi.shape (by rw [hm]; rfl)
    rw [hm] at hv hmo
    obtain ⟨x, w, mk', e, k1, k2⟩ := hv
    obtain ⟨j1, j2, j3⟩ := tagChar_close hmo.2.ok ht
    subst j2
    have k3 := tag_over (c := c) (as := m.attrs) (sc := false) k2 (by simp only [tagEnds, ht, if_true])
    have hn := hmo.2.name
    rw [if_neg (by decide)] at hn
    refine Told.openTag hmo.1 hS (by rw [j1.name]; exact hn.1) (by rw [j1.name, j1.isVoid]; exact hn.2) (z := (x :: w) ++ [c]) ⟨x, rfl, ?_⟩ k3
      (by rw [he, e, j1.name]; simp) _
    rcases k1 with h | ⟨_, h⟩
    · exact Or.inl h
    · exact Or.inr (Or.inl h)
  | docSelf hm ht =>
    rename_i t
    refine hi.last (by rw [hm]; rfl) rfl fun u l v hS hv => ?_
    rw [hm] at hv hmo
    obtain ⟨x, w, mk', e, k1, k2⟩ := hv
    have k3 := tag_over (c := c) (as := t.m.attrs) (sc := true) k2 (by simp only [tagEnds, ht, if_true])
    have k1 : x ∈ ws := by
      rcases k1 with h | ⟨h, _⟩
      · exact h
      · cases h
    have hn : fold t.m.name = "doctype".toList := by
      have := hmo.2.name
      rw [if_pos rfl] at this
      rw [fold_of_upper this]; decide +kernel
    have := Spec.Scan.doctypeSelf hS rfl hmo.1 hn k1 k3
    have e : v ++ [c] = '!' :: t.m.name ++ x :: (w ++ [c]) := by rw [e]; simp
    rw [e]
    refine Eq.mp ?_ this
    congr 1
    have e1 : (sitOf { a with mode := .lt l }).rest = a.rest := rfl
    simp only [Sit.close, AState.pop, Sit.add, AState.push, e1]
    cases a.rest <;> rfl
  | tagSelf hm ht ho =>
    rename_i t
    refine hi.last (by rw [hm]; rfl) rfl fun u l v hS hv => ?_
    rw [hm] at hv hmo
    obtain ⟨x, w, mk', e, k1, k2⟩ := hv
    have k3 := tag_over (c := c) (as := t.m.attrs) (sc := true) k2 (by simp only [tagEnds, ht, if_true])
    have hn := hmo.2.name
    rw [if_neg (by decide)] at hn
    have := Spec.Scan.selfClosed hS rfl hmo.1 ((tagName_iff _).2 hn.1) (t := (x :: w) ++ [c]) ⟨x, rfl, by
      rcases k1 with h | ⟨_, h⟩
      · exact Or.inl h
      · exact Or.inr (Or.inl h)⟩ k3 (by
        rcases ho with q | q | q
        · exact Or.inl q
        · exact Or.inr (Or.inl ((isVoid_iff _).1 (hn.2 ▸ q)))
        · refine Or.inr (Or.inr ?_)
          show ctxOf a ≠ none
          unfold ctxOf
          simpa using q)
    have e : v ++ [c] = t.m.name ++ ((x :: w) ++ [c]) := by rw [e]; simp
    rw [e]
    exact this
  | endMore hm hc =>
    rename_i pc ret
    refine hi.next (by rw [hm]; rfl) rfl rfl rfl rfl rfl fun l v hv => ?_
    rw [hm] at hv
    obtain ⟨q1, q2, q3⟩ := hv
    exact ⟨by rw [q1]; simp, by simp [q2, Ne.symm hc], q3⟩
  | endMatch hm hr he hcase =>
    rename_i pc ret
    refine hi.last (by rw [hm]; rfl) rfl fun u l v hS hv => ?_
    rw [hm] at hv
    obtain ⟨q1, q2, q3⟩ := hv
    have := Spec.Scan.close hS rfl hr q2 ((endMatch_iff _ _ _).1 ⟨he, hcase⟩)
    have e : v ++ ['>'] = '/' :: pc ++ ">".toList := by rw [q1]; simp
    rw [e]
    refine Eq.mp ?_ this
    congr 1
    obtain ⟨t1, t2, t3⟩ := sit_close { a with mode := .lt l } a (some pc) rfl rfl rfl
    refine Eq.symm ?_
    exact sit_eq t1 t2 t3 (ctx_leave a.sp pc) rfl rfl
  | endStray hm he ho =>
    rename_i pc ret
    refine hi.last (by rw [hm]; rfl) rfl fun u l v hS hv => ?_
    rw [hm] at hv
    obtain ⟨q1, q2, q3⟩ := hv
    have := Spec.Scan.stray hS rfl q2 (fun q => he ⟨q.1, ownEnd_iff.2 q.2⟩) ho
    have e : v ++ ['>'] = '/' :: pc ++ ">".toList := by rw [q1]; simp
    rw [e, q3]
    exact this
  | rawClose hm hb =>
    rename_i m pc n
    refine hi.last (by rw [hm]; rfl) rfl fun u l v hS hv => ?_
    rw [hm] at hv hmo
    obtain ⟨t, k0, k1, k2⟩ := hv
    obtain ⟨h0, hr⟩ := hmo
    obtain ⟨x, k, rfl, h2, rfl⟩ := (rawBody_spec hr.tag.name.1).1 hb
    have e1 : (x ++ ['<', '/'] ++ k).take x.length = x := by rw [List.append_assoc, List.take_left]
    have e2 : (x ++ ['<', '/'] ++ k).drop (x.length + 2) = k := by
      have : x.length + 2 = (x ++ ['<', '/']).length := by simp
      rw [this, List.drop_left]
    rw [e1, e2]
    have := Spec.Scan.raw hS rfl h0 ((tagName_iff _).2 hr.tag.name.1) k0 k1 ((isRaw_iff _).1 hr.raw) h2 (x := x) (by
      rintro p q r rfl hk
      have := hr.early (p ++ ['<', '/'] ++ q) (r ++ ['<', '/'] ++ k) (by simp)
      rw [(rawBody_spec hr.tag.name.1).2 ⟨p, q, rfl, hk, rfl⟩] at this
      cases this)
    have e : v ++ ['>'] = m.name ++ t ++ x ++ "</".toList ++ k ++ ">".toList := by rw [k2]; simp
    rw [e]
    exact this
  | rawMore hm hb =>
    rename_i m pc
    refine hi.next (by rw [hm]; rfl) rfl rfl rfl rfl rfl fun l v hv => ?_
    rw [hm] at hv
    obtain ⟨t, k0, k1, k2⟩ := hv
    exact ⟨t, k0, k1, by rw [k2]; simp⟩

/-- What the machine has read. -/
theorem Told.run {o : ParseOptions} {s : Str} {a : AState} (h : arun o {} s = some a) : Told o s a :=
  (arun_inv (P := fun s a => WfInv o a ∧ Told o s a) (fun _ _ _ _ k st => ⟨k.1.step st, k.2.step k.1 st⟩) s [] {} a
    ⟨WfInv.init o, Told.of_scan rfl Spec.Scan.nil⟩ h).2

end Rphtml
