import Verif.Proofs.LastAt

/-!
# The characters that are refused, without the parser
-/

namespace Rphtml
open Spec

/-- The two kinds of tags with attributes. -/
def attrPart (isDoc : Bool) (n t : Str) : Spec.Part := if isDoc then .doctype n t else .tag n t

theorem inTag_state {o : ParseOptions} {u : Str} {d : Doc} (h : Ran o u d) (isDoc : Bool) :
    (∀ S n t, Spec.Inside o u S (attrPart isDoc n t) → t ≠ [] → ∃ mk t', d.cur.tmeta = some t'.m ∧ d.tagSt t'.m = t' ∧ d.handle.inTag = true ∧
      (isDoc = true ↔ d.codeIn = .htmlDoctype) ∧ trun isDoc o.allowAttrKeyStartsWithEqualSign ⟨.tagWait, nameMeta n, [], mk⟩ t = some t') ∧
    (d.handle.inTag = true → (isDoc = true ↔ d.codeIn = .htmlDoctype) → ∃ S n t, Spec.Inside o u S (attrPart isDoc n t) ∧ t ≠ []) := by
  obtain ⟨a, h1, h2, _⟩ := run_machine h
  have hm := h2.mode
  constructor
  · intro S n t hi hne
    obtain ⟨b, k1, k2, k3⟩ := Inside.run hi
    rw [h1, Option.some.injEq] at k1
    subst k1
    have : ∃ mk t', a.mode = .inTag isDoc t' ∧ trun isDoc o.allowAttrKeyStartsWithEqualSign ⟨.tagWait, nameMeta n, [], mk⟩ t = some t' := by
      cases isDoc <;> simp only [attrPart, partMode, if_neg hne, Bool.false_eq_true, if_false, if_true] at k2 <;> exact k2
    obtain ⟨mk, t', j1, j2⟩ := this
    rw [j1] at hm
    obtain ⟨g1, g2, ⟨m, g3, g4, _⟩, _⟩ := hm
    have e : t'.m = m := by rw [← g4]; rfl
    exact ⟨mk, t', by rw [e]; exact g3, by rw [e]; exact g4, g1, g2, j2⟩
  · intro hin hdoc
    have hs : a.mode.simple = false := by
      cases hmo : a.mode <;> rw [hmo] at hm <;> first | rfl | (rw [hm.1] at hin; cases hin)
    obtain ⟨S, p, k1, k2, _⟩ := inside_of h1 hs
    have hne : ∀ x, a.mode ≠ .tagName x ∧ a.mode ≠ .doctypeName x := by
      intro x
      constructor <;> intro q <;> rw [q] at hm <;> rw [hm.1] at hin <;> cases hin
    cases p with
    | tag n t =>
      simp only [partMode] at k2
      split at k2
      · exact absurd k2 (hne _).1
      · rename_i ht
        obtain ⟨mk, t', k2, _⟩ := k2
        rw [k2] at hm
        have : isDoc = false := by
          cases isDoc with
          | false => rfl
          | true => exact absurd (hm.2.1.2 (hdoc.1 rfl)) (by simp)
        subst this
        exact ⟨S, n, t, k1, ht⟩
    | doctype n t =>
      simp only [partMode] at k2
      split at k2
      · exact absurd k2 (hne _).2
      · rename_i ht
        obtain ⟨mk, t', k2, _⟩ := k2
        rw [k2] at hm
        have : isDoc = true := hdoc.2 (hm.2.1.1 rfl)
        subst this
        exact ⟨S, n, t, k1, ht⟩
    | bang w => obtain ⟨_, k2⟩ := k2; rw [k2] at hm; rw [hm.1] at hin; cases hin
    | comment w => rw [show a.mode = _ from k2] at hm; rw [hm.1] at hin; cases hin
    | cdata w => rw [show a.mode = _ from k2] at hm; rw [hm.1] at hin; cases hin
    | raw n w => obtain ⟨_, k2, _⟩ := k2; rw [k2] at hm; rw [hm.1] at hin; cases hin
    | endTag w => obtain ⟨_, k2⟩ := k2; rw [k2] at hm; rw [hm.1] at hin; cases hin

theorem tagChar_eq (isDoc q : Bool) (t : TagSt) (hin : t.handle.inTag = true) : (∃ t' id, tagChar isDoc q t '=' = .cont t' id) ↔
    ¬ ((t.handle = .tagWait ∨ t.handle = .tagSelfClosing) ∧ t.m.codeIn = .wait ∧ q = false) := by
  unfold tagChar
  cases hh : t.handle <;> rw [hh] at hin <;> first | (cases hin; done) | skip
  case attrValue =>
    simp only [reduceCtorEq, false_or, false_and, not_false_eq_true, iff_true]
    rw [if_neg (by rintro ⟨_, q⟩; exact absurd q (by decide))]
    repeat' split
    all_goals exact ⟨_, _, rfl⟩
  case attrKey => simp
  all_goals cases hc : t.m.codeIn <;> cases q <;> simp [tagWaitC, hc]

/-- A name of an open element. -/
theorem Sit.names_head {S : Sit} {n : Str} : (∃ ns, S.names = n :: ns) ↔ S.rest ≠ [] ∧ n = S.top.name := by
  unfold Sit.names
  split
  · rename_i h; simp [h]
  · rename_i h
    cases hr : S.rest with
    | nil => exact absurd hr h
    | cons g gs => simp [eq_comm]

/-- What a `[` behind `<!` needs. -/
theorem Scan.cdata_iff {o : ParseOptions} {u : Str} {S : Sit} {d : Doc} (h : Spec.Scan o u S) (hs : S.spot = .lt) (hr : Ran o u d) :
    (S.over = false ∧ cdataHere S) ↔ ∃ sp n t m, d.inSpecial = some (sp, n) ∧ d.chain.head? = some t ∧ (d.heap.cell t).tmeta = some m ∧ n ≠ m.name := by
  have hh := Scan.handle h hr
  rw [hs] at hh
  obtain ⟨g1, g2, g3, _⟩ := c53_scan h
  rw [hr.foreignName] at g2
  rw [hr.notClosed] at g3
  have ho : ∀ n, (∃ ns, openNames u o = n :: ns) ↔ _ := fun n => hr.open_head (n := n) (by rw [hh]; simp)
  rw [g1] at ho
  simp only [Sit.names_head] at ho
  constructor
  · rintro ⟨_, f, k1, k2, k3⟩
    obtain ⟨_, t, m, j1, j2, j3⟩ := (ho S.top.name).1 ⟨k2, rfl⟩
    rw [k1] at g2
    cases hi : d.inSpecial with
    | none => rw [hi] at g2; cases g2
    | some x =>
      obtain ⟨sp, n⟩ := x
      rw [hi] at g2
      simp at g2
      exact ⟨sp, n, t, m, rfl, j1, j2, by rw [g2, j3]; exact k3⟩
  · rintro ⟨sp, n, t, m, k1, k2, k3, k4⟩
    have hlen := hr.head_len k2 (by rw [k3]; simp)
    obtain ⟨j1, j2⟩ := (ho m.name).2 ⟨hlen, t, m, k2, k3, rfl⟩
    refine ⟨?_, n, by rw [← g2, k1]; rfl, j1, by rw [← j2]; exact k4⟩
    cases hc : d.chain with
    | nil => rw [hc] at k2; cases k2
    | cons a l => rw [hc] at g3; simpa using g3.symm

theorem Scan.readBang {o : ParseOptions} {t w D : Str} {S : Sit} (h : Spec.Scan o t S) (hs : S.spot = .lt) (hD : D ∈ keywords) (hw : w ≠ [])
    (hl : w.length < D.length) (hp : fold w <+: fold D) :
    readable (t ++ '!' :: w) o = true ↔ (D = "[CDATA[".toList → S.over = false ∧ cdataHere S) := by
  constructor
  · intro hr hDc
    subst hDc
    cases w with
    | nil => exact absurd rfl hw
    | cons c w =>
      have hc : c = '[' := by
        have : fold [c] <+: fold "[CDATA[".toList := by
          refine List.IsPrefix.trans ?_ hp
          exact ⟨fold w, by simp [fold]⟩
        have h2 := (fold_prefix_snoc (w := []) (c := c) (D := "[CDATA[".toList) (by decide) (by decide) rfl).1 this
        rw [← toUpper_eq_bracket]
        simpa [eq_comm] using h2
      subst hc
      obtain ⟨d, hd⟩ := ran_of_readable hr
      rw [show t ++ '!' :: '[' :: w = (t ++ ['!']) ++ ['['] ++ w by simp] at hd
      obtain ⟨d2, k2⟩ := hd.prefix
      obtain ⟨d1, d0, j0, j1, j2, j3, j4, j5, j6, j7, _⟩ := bang_ran (afterLt_scan.2 ⟨S, h, hs⟩)
      obtain ⟨d3, k3, rfl⟩ := j2.snoc_of k2
      rw [Scan.cdata_iff h hs j0]
      clear hd k2 j2
      cases k3 with
      | exclFirst hh hdt D hD' =>
        rcases hD' with q | q | ⟨_, _, sp, n, t, m, q1, q2, q3, q4⟩
        · exact absurd q.1 (by decide)
        · exact absurd q.1 (by decide)
        · exact ⟨sp, n, t, m, by rw [← j6]; exact q1, by rw [← j5]; exact q2, by rw [← j7]; exact q3, q4⟩
      | exclMore hh D hdt => rw [j4] at hdt; cases hdt
      | commentOpen hh hdt => rw [j4] at hdt; cases hdt
      | cdataOpen hh hdt => rw [j4] at hdt; cases hdt
      | doctypeOpen hh hdt => rw [j4] at hdt; cases hdt
      | tagMore hh' => rw [j3] at hh'; cases hh'
      | tagClose hh' => rw [j3] at hh'; cases hh'
      | ltExtend hh' => rw [j3] at hh'; cases hh'
      | ltNew hh' => rw [j3] at hh'; cases hh'
      | _ => clear j0 h; simp_all
  · intro hd
    refine (c53_reads _ _).2 (.inr ⟨S, _, .bang (D := fold D) h hs ?_ hp (by rw [fold_length]; exact hl) ?_⟩)
    · simp only [keywords, List.mem_cons, List.not_mem_nil, or_false] at hD
      rcases hD with rfl | rfl | rfl <;> decide
    · intro _ q
      apply hd
      simp only [keywords, List.mem_cons, List.not_mem_nil, or_false] at hD
      rcases hD with rfl | rfl | rfl
      · exact absurd q (by decide)
      · exact absurd q (by decide)
      · rfl

theorem Scan.readDoctype {o : ParseOptions} {t w : Str} {S : Sit} (h : Spec.Scan o t S) (hs : S.spot = .lt) (hw : fold w = "doctype".toList) :
    readable (t ++ '!' :: w) o = true ↔ S.over = false := by
  constructor
  · intro hr
    have hlt := afterLt_scan.2 ⟨S, h, hs⟩
    cases ho : S.over with
    | false => rfl
    | true =>
      exfalso
      have hn : notClosed t o = false := by rw [(c53_scan h).2.2.1, ho]; rfl
      obtain ⟨d0, h0, hh0⟩ := afterLt_iff.1 hlt
      obtain ⟨d, hd⟩ := ran_of_readable hr
      have hc : d0.chain = [] := by
        rw [h0.notClosed] at hn
        cases hc : d0.chain with
        | nil => rfl
        | cons a l => rw [hc] at hn; cases hn
      have hp := bang_panic (ctx := t ++ '!' :: w) (.inr rfl) h0.reach.ctl hh0 hc w [] (upper_doctype hw)
      unfold Ran at hd
      rw [run_append, h0.ctx] at hd
      rw [List.append_nil] at hp
      change d0.run _ _ = _ at hd
      rw [hp] at hd
      cases hd
  · intro ho
    refine (c53_reads _ _).2 (.inr ⟨S, .doctype w [], ?_⟩)
    have := Spec.Inside.doctype (t := []) h hs ho hw (by simp) (⟨['>'], by simp, [], false, .close (g := []) (by intro c hc; cases hc)⟩)
    simpa using this

theorem tagMark {o : ParseOptions} {n t : Str} {isDoc : Bool} {mk mk' : Char} : (∃ t', trun isDoc o.allowAttrKeyStartsWithEqualSign ⟨.tagWait, nameMeta n, [], mk⟩ t = some t') ↔
    ∃ t', trun isDoc o.allowAttrKeyStartsWithEqualSign ⟨.tagWait, nameMeta n, [], mk'⟩ t = some t' := by
  rw [← tagPart_iff, ← tagPart_iff]

/-- `=` in a tag. -/
theorem equals_iff {o : ParseOptions} {u n t : Str} {S : Sit} {isDoc : Bool} (h : Spec.Inside o u S (attrPart isDoc n t)) (ht : t ≠ []) :
    ¬ tagPart o.allowAttrKeyStartsWithEqualSign isDoc (t ++ ['=']) ↔ beforeAttr u o = true ∧ o.allowAttrKeyStartsWithEqualSign = false := by
  have hr : readable u o = true := (c53_reads _ _).2 (.inr ⟨_, _, h⟩)
  obtain ⟨d, hr⟩ := ran_of_readable hr
  obtain ⟨mk, t', h1, h2, h3, h4, h5⟩ := (inTag_state hr isDoc).1 S n t h ht
  have hb : beforeAttr u o = decide ((d.handle = .tagWait ∨ d.handle = .tagSelfClosing) ∧ (d.cur.tmeta.getD {}).codeIn = .wait) := by
    unfold beforeAttr
    rw [show (Doc.new o).run u u = .ok d from hr]
  have hth : t'.handle = d.handle := by rw [← h2]; rfl
  rw [hb, decide_eq_true_eq, h1, Option.getD_some, ← hth, and_assoc, tagPart_iff (n := n) (mk := mk), trun_append, h5]
  have := tagChar_eq isDoc o.allowAttrKeyStartsWithEqualSign t' (by rw [hth]; exact h3)
  rw [← not_iff_not, not_not, ← this]
  simp only [Option.bind_some, trun]
  cases tagChar isDoc o.allowAttrKeyStartsWithEqualSign t' '=' <;> simp

/-- `/>` in a tag. -/
theorem slash_iff {o : ParseOptions} {u n t : Str} {S : Sit} (h : Spec.Inside o u S (.tag n t)) :
    (∃ as, TagRest o.allowAttrKeyStartsWithEqualSign false as true (t ++ ['>'])) ↔ afterSlash u o = some n := by
  have hr : readable u o = true := (c53_reads _ _).2 (.inr ⟨_, _, h⟩)
  obtain ⟨d, hr⟩ := ran_of_readable hr
  have ha : afterSlash u o = if d.handle = .tagSelfClosing ∧ d.codeIn = .tag then d.cur.tmeta.map (·.name) else none := by
    unfold afterSlash
    rw [show (Doc.new o).run u u = .ok d from hr]
  by_cases ht : t = []
  · subst ht
    constructor
    · rintro ⟨as, k⟩
      have := tagEnds_of k ⟨.tagWait, nameMeta n, [], 'x'⟩ rfl rfl rfl
      simp [tagEnds, tagChar, tagWaitC] at this
    · intro k
      rw [ha] at k
      split at k
      · rename_i hc
        have : d.handle = .tagName := by
          obtain ⟨a, h1, h2, _⟩ := Inside.run h
          obtain ⟨b, k1, k2, _⟩ := run_machine hr
          rw [h1, Option.some.injEq] at k1
          subst k1
          have := k2.mode
          simp only [partMode, if_true] at h2
          rw [h2] at this
          exact this.1
        rw [this] at hc; cases hc.1
      · cases k
  · obtain ⟨mk, t', h1, h2, h3, h4, h5⟩ := (inTag_state hr false).1 S n t h ht
    have hth : t'.handle = d.handle := by rw [← h2]; rfl
    have hnm := (trun_ok2 t _ t' (ok2_name n mk) h5)
    have hcode : d.codeIn = .tag := by
      obtain ⟨_, _, _, _, _, _, q | q⟩ := inTag_hs hr.reach.ctl h3
      · exact q.1
      · exact absurd (h4.2 q.1) (by simp)
    rw [ha, h1]
    simp only [hcode, and_true, Option.map_some, hnm.2]
    rw [show (if d.handle = Handler.tagSelfClosing then some n else none) = some n ↔ d.handle = .tagSelfClosing by split <;> simp_all]
    have key : (∃ as, tagEnds false o.allowAttrKeyStartsWithEqualSign t' ['>'] = some (as, some true)) ↔ d.handle = .tagSelfClosing := by
      rw [← hth]
      simp only [tagEnds, tagChar]
      cases hq : t'.handle <;> simp [tagWaitC]
      split <;> rename_i q <;> (repeat' split at q) <;> first | (cases q; done) | (cases q; simp)
    rw [← key]
    constructor
    · rintro ⟨as, k⟩
      have := tagEnds_of k ⟨.tagWait, nameMeta n, [], mk⟩ rfl rfl rfl
      rw [tagEnds_trun t _ _ t' h5] at this
      exact ⟨_, this⟩
    · rintro ⟨as, k⟩
      obtain ⟨bs, e1, e2⟩ := tagEnds_sound _ _ _ _ (piece_name false _ n mk) ((tagEnds_trun t ['>'] _ t' h5).trans k)
      exact ⟨bs, e2⟩

/-- The characters that are refused. -/
theorem rejects_iff {o : ParseOptions} {u : Str} {c : Char} {k : ErrorKind} {i : Nat} : Rejects o u c k i ↔ Refused o u c k i := by
  have lt : ∀ {t : Str} {S : Sit}, Spec.Scan o t S → S.spot = .lt → afterLt t o = true := fun h hs => afterLt_scan.2 ⟨_, h, hs⟩
  constructor
  · intro h
    cases h with
    | lt h hs ho hc => exact .lt (lt h hs) ho hc.1 hc.2.1 hc.2.2
    | bang h hs hc => exact .bang (lt h hs) hc
    | keyword h hs hD hw hl hp hd hc => exact .keyword (lt h hs) ((Scan.readBang h hs hD hw hl hp).2 hd) hD hw hl hp hc
    | cdataOutside h hs hf => exact .cdataOutside (lt h hs) (by rw [(c53_scan h).2.1]; exact hf)
    | cdataDirect h hs hr hf =>
      obtain ⟨ns, hns⟩ := Sit.names_head.2 ⟨hr, rfl⟩
      exact .cdataDirect (lt h hs) (by rw [(c53_scan h).2.1]; exact hf) (by rw [(c53_scan h).1]; exact hns)
    | doctype h hs ho hw hc => exact .doctype (lt h hs) ((Scan.readDoctype h hs hw).2 ho) hw hc
    | equals h ht he =>
      have := (equals_iff (isDoc := false) h ht).1 he
      exact .equals this.1 this.2
    | equalsDoctype h ht he =>
      have := (equals_iff (isDoc := true) h ht).1 he
      exact .equals this.1 this.2
    | selfClosing h ho hv hf ht => exact .selfClosing ((slash_iff h).1 ⟨_, ht⟩) ho hv (by rw [(c53_inside h).2.1]; exact hf)
    | endCase h hs hgt ho he hn =>
      obtain ⟨ns, hns⟩ := Sit.names_head.2 ⟨he.1, rfl⟩
      exact .endCase (lt h hs) hgt ho (by rw [(c53_scan h).1]; exact hns) he.2 hn
    | endStray h hs hgt ho he =>
      refine .endStray (lt h hs) hgt ho fun n ns hn hsn => he ?_
      rw [(c53_scan h).1] at hn
      obtain ⟨k1, rfl⟩ := Sit.names_head.1 ⟨ns, hn⟩
      exact ⟨k1, hsn⟩
  · intro h
    cases h with
    | lt h ho h1 h2 h3 =>
      obtain ⟨S, k1, k2⟩ := afterLt_scan.1 h
      exact .lt k1 k2 ho ⟨h1, h2, h3⟩
    | bang h h1 =>
      obtain ⟨S, k1, k2⟩ := afterLt_scan.1 h
      exact .bang k1 k2 h1
    | keyword h hr hD hw hl hp hc =>
      obtain ⟨S, k1, k2⟩ := afterLt_scan.1 h
      exact .keyword k1 k2 hD hw hl hp ((Scan.readBang k1 k2 hD hw hl hp).1 hr) hc
    | cdataOutside h hf =>
      obtain ⟨S, k1, k2⟩ := afterLt_scan.1 h
      exact .cdataOutside k1 k2 (by rw [← (c53_scan k1).2.1]; exact hf)
    | cdataDirect h hf hn =>
      obtain ⟨S, k1, k2⟩ := afterLt_scan.1 h
      rw [(c53_scan k1).1] at hn
      obtain ⟨j1, rfl⟩ := Sit.names_head.1 ⟨_, hn⟩
      exact .cdataDirect k1 k2 j1 (by rw [← (c53_scan k1).2.1]; exact hf)
    | doctype h hr hw hc =>
      obtain ⟨S, k1, k2⟩ := afterLt_scan.1 h
      exact .doctype k1 k2 ((Scan.readDoctype k1 k2 hw).1 hr) hw hc
    | equals h ho =>
      have : ∃ d, Ran o u d ∧ d.handle.inTag = true := by
        unfold beforeAttr at h
        cases hr : (Doc.new o).run u u with
        | ok d =>
          rw [hr] at h
          simp only [decide_eq_true_eq] at h
          exact ⟨d, hr, by rcases h.1 with q | q <;> rw [q] <;> rfl⟩
        | err e => rw [hr] at h; cases h
        | panic p => rw [hr] at h; cases h
      obtain ⟨d, hr, hin⟩ := this
      by_cases hd : d.codeIn = .htmlDoctype
      · obtain ⟨S, n, t, k1, k2⟩ := (inTag_state hr true).2 hin (by simp [hd])
        exact .equalsDoctype k1 k2 ((equals_iff (isDoc := true) k1 k2).2 ⟨h, ho⟩)
      · obtain ⟨S, n, t, k1, k2⟩ := (inTag_state hr false).2 hin (by simp [hd])
        exact .equals k1 k2 ((equals_iff (isDoc := false) k1 k2).2 ⟨h, ho⟩)
    | @selfClosing _ n h ho hv hf =>
      have : ∃ d, Ran o u d ∧ d.handle = .tagSelfClosing ∧ d.codeIn = .tag := by
        unfold afterSlash at h
        cases hr : (Doc.new o).run u u with
        | ok d =>
          rw [hr] at h
          simp only at h
          split at h
          · rename_i q; exact ⟨d, hr, q⟩
          · cases h
        | err e => rw [hr] at h; cases h
        | panic p => rw [hr] at h; cases h
      obtain ⟨d, hr, hin, hd⟩ := this
      obtain ⟨S, n', t, k1, k2⟩ := (inTag_state hr false).2 (by rw [hin]; rfl) (by simp [hd])
      have k1 : Spec.Inside o u S (.tag n' t) := k1
      have e : n' = n := by
        obtain ⟨mk, t', h1, h2, h3, h4, h5⟩ := (inTag_state hr false).1 S n' t k1 k2
        have hnm := (trun_ok2 t _ t' (ok2_name n' mk) h5).2
        unfold afterSlash at h
        rw [show (Doc.new o).run u u = .ok d from hr] at h
        simp only [hin, hd, and_self, if_true, h1, Option.map_some, Option.some.injEq] at h
        rw [← h, hnm]
      subst e
      obtain ⟨as, j⟩ := (slash_iff k1).2 h
      exact .selfClosing k1 ho hv (by rw [← (c53_inside k1).2.1]; exact hf) j
    | endCase h hw ho hn h1 h2 =>
      obtain ⟨S, k1, k2⟩ := afterLt_scan.1 h
      rw [(c53_scan k1).1] at hn
      obtain ⟨j1, rfl⟩ := Sit.names_head.1 ⟨_, hn⟩
      exact .endCase k1 k2 hw ho ⟨j1, h1⟩ h2
    | endStray h hw ho hn =>
      obtain ⟨S, k1, k2⟩ := afterLt_scan.1 h
      refine .endStray k1 k2 hw ho fun q => ?_
      obtain ⟨ns, hns⟩ := Sit.names_head.2 ⟨q.1, rfl⟩
      exact hn _ ns (by rw [(c53_scan k1).1]; exact hns) q.2

end Rphtml
