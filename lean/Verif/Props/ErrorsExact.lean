import Verif.Spec.Errors
import Verif.Proofs.ErrExact
import Verif.Props.Viable
import Verif.Props.ErrorPos

/-!
# C52: the errors, exactly
-/

namespace Rphtml
open Spec

theorem Ran.snoc_of {o : ParseOptions} {u : Str} {c : Char} {d d' : Doc} (h : Ran o u d) (h' : Ran o (u ++ [c]) d') :
    ∃ d1, Step d c d1 ∧ d' = { d1 with position := d1.position + 1 } := by
  obtain ⟨d0, d1, k1, k2, k3⟩ := h'.snoc
  rw [k1.unique h] at k2
  exact ⟨d1, k2, k3⟩

theorem Ran.position {o : ParseOptions} {u : Str} {d : Doc} (h : Ran o u d) : d.position = u.length := h.reach.position

/-- Where a pending `<`, `<!`, doctype or end tag began. -/
def Orig2 (o : ParseOptions) (s : Str) (d : Doc) : Prop :=
  match d.handle with
  | .unkownTag => d.memPosition + 1 = s.length
  | .exclamationBegin => ∃ t d0, s = t ++ '!' :: d.prevChars ∧ Ran o t d0 ∧ d0.handle = .unkownTag ∧ d.memPosition + 1 = t.length ∧
      d.chain = d0.chain ∧ d.inSpecial = d0.inSpecial ∧ d.heap = d0.heap
  | .doctypeName => ∃ t d0, s = t ++ '!' :: d.prevChars ∧ Ran o t d0 ∧ d0.handle = .unkownTag
  | .tagEnd => ∃ t d0, s = t ++ '/' :: d.prevChars ∧ Ran o t d0 ∧ d0.handle = .unkownTag ∧ d.chain = d0.chain ∧
      (∀ i ∈ d.chain, d.heap.cell i = d0.heap.cell i)
  | _ => True

theorem Orig2.triv {o : ParseOptions} {s : Str} {d : Doc} (h0 : d.handle ≠ .unkownTag) (h1 : d.handle ≠ .exclamationBegin)
    (h2 : d.handle ≠ .doctypeName) (h3 : d.handle ≠ .tagEnd) : Orig2 o s d := by
  unfold Orig2
  split
  · rename_i h; exact absurd h h0
  · rename_i h; exact absurd h h1
  · rename_i h; exact absurd h h2
  · rename_i h; exact absurd h h3
  · trivial

theorem Orig2.step {o : ParseOptions} {s : Str} {d d1 : Doc} {c : Char} (hr : Ran o s d) (hs : Step d c d1) (ih : Orig2 o s d) :
    Orig2 o (s ++ [c]) { d1 with position := d1.position + 1 } := by
  have hd := hr.reach.ctl
  have hok := hd.hs
  have hp := hr.position
  cases hs with
  | lt hh hc =>
    unfold Orig2
    simp only
    rw [hp]; simp
  | textEnd hh hc =>
    unfold Orig2
    simp only [Doc.endText]
    rw [hp]; simp
  | bang hh hc =>
    unfold HandleOk at hok
    unfold Orig2 at ih ⊢
    simp only [hh] at hok ih ⊢
    exact ⟨s, d, by rw [hok.2.1, hc], hr, hh, ih, rfl, rfl, rfl⟩
  | exclFirst hh hdt D hD =>
    unfold Orig2 at ih ⊢
    unfold HandleOk at hok
    simp only [hh] at ih hok ⊢
    obtain ⟨u, d0, rfl, h1⟩ := ih
    have hpc : d.prevChars = [] := by
      rcases hok.2 with h | ⟨_, h, _⟩
      · exact h.2
      · rw [hdt] at h; cases h
    exact ⟨u, d0, by rw [hpc]; simp, h1⟩
  | exclMore hh D hdt hl hc =>
    unfold Orig2 at ih ⊢
    simp only [hh] at ih ⊢
    obtain ⟨u, d0, rfl, h1⟩ := ih
    exact ⟨u, d0, by simp, h1⟩
  | doctypeOpen hh hdt hl hc p hp =>
    unfold Orig2 at ih ⊢
    simp only [hh] at ih ⊢
    obtain ⟨u, d0, rfl, h1, h2, _⟩ := ih
    exact ⟨u, d0, by simp, h1, h2⟩
  | endOpen hh hc =>
    unfold HandleOk at hok
    unfold Orig2 at ih ⊢
    simp only [hh] at hok ih ⊢
    refine ⟨s, d, by rw [hok.2.1, hc], hr, hh, rfl, fun i hi => ?_⟩
    rw [Heap.push_cell]
    have := hd.chainLt i hi
    rw [if_neg (by omega)]
  | endMore hh hc =>
    unfold Orig2 at ih ⊢
    simp only [hh] at ih ⊢
    obtain ⟨u, d0, rfl, h1, h2, h3⟩ := ih
    exact ⟨u, d0, by simp, h1, h2, h3⟩
  | tagClose hh m hm m' pc mark id ht =>
    rcases closeTag_notag (d.putTag { handle := d.handle, m := m', pc := pc, mark := mark } id) m' with h | h
    · apply Orig2.triv <;> (simp only [h]; simp)
    · apply Orig2.triv <;> (simp only [h.1]; simp)
  | nameClose hh hc m hm =>
    rcases closeTag_notag (d.putTag { handle := d.handle, m := m, pc := [], mark := d.markChar } none) m with h | h
    · apply Orig2.triv <;> (simp only [h]; simp)
    · apply Orig2.triv <;> (simp only [h.1]; simp)
  | tagMore hh m hm t id ht =>
    have h1 := tagChar_handle (t := d.tagSt m) hh ht
    apply Orig2.triv
    all_goals
      intro h
      have h2 : t.handle = _ := h
      rw [h2] at h1; cases h1
  | ltExtend hh hf hc ht w hw d2 h1 =>
    subst h1
    by_cases q : c = '<'
    · unfold Orig2
      simp only [q, if_true, Doc.endText]
      rw [hp]; simp
    · apply Orig2.triv <;> simp [q]
  | ltNew hh hf hc ht p hp' d2 h1 =>
    subst h1
    by_cases q : c = '<'
    · unfold Orig2
      simp only [q, if_true, Doc.endText]
      rw [hp]; simp
    · apply Orig2.triv <;> simp [q]
  | nameEnd hh hc =>
    apply Orig2.triv <;> (simp only [Doc.putTag]; split <;> simp)
  | _ => apply Orig2.triv <;> simp_all [Doc.putTag]

theorem Ran.orig2 {o : ParseOptions} : ∀ (n : Nat) (s : Str) (d : Doc), s.length = n → Ran o s d → Orig2 o s d := by
  intro n
  induction n with
  | zero =>
    intro s d hl h
    have : s = [] := List.length_eq_zero_iff.1 hl
    subst this
    have : d = Doc.new o := by cases h; rfl
    subst this
    apply Orig2.triv <;> simp [Doc.new]
  | succ n ih =>
    intro s d hl h
    rcases List.eq_nil_or_concat s with rfl | ⟨u, c, rfl⟩
    · simp at hl
    · rw [List.concat_eq_append] at h hl ⊢
      obtain ⟨d0, d1, h1, h2, rfl⟩ := h.snoc
      exact (ih u d0 (by simpa using hl) h1).step h1 h2

/-- The state after `<!` and the beginning of a keyword. -/
theorem bang_state {o : ParseOptions} {t : Str} (ht : afterLt t o = true) {D : Str}
    (hD : D = detectComment ∨ D = detectDoctype ∨ D = detectCdata) :
    ∀ (n : Nat) (w : Str) (d : Doc), w.length = n → Ran o (t ++ '!' :: w) d → w.map toUpper = D.take w.length → w.length < D.length →
      d.handle = .exclamationBegin ∧ d.prevChars = w ∧ d.detect = (if w = [] then none else some D) := by
  obtain ⟨d0, h0, hh0⟩ := afterLt_iff.1 ht
  have hok0 := h0.reach.ctl.hs
  unfold HandleOk at hok0
  simp only [hh0] at hok0
  intro n
  induction n with
  | zero =>
    intro w d hl h _ _
    have : w = [] := List.length_eq_zero_iff.1 hl
    subst this
    obtain ⟨d1, k1, rfl⟩ := h0.snoc_of h
    clear h
    cases k1 <;> simp_all [Handler.inTag, isAlpha, isLower, isUpper]
  | succ n ih =>
    intro w d hl h hm hlt
    rcases List.eq_nil_or_concat w with rfl | ⟨w, c, rfl⟩
    · simp at hl
    · rw [List.concat_eq_append] at h hl hm hlt ⊢
      have e : t ++ '!' :: (w ++ [c]) = (t ++ '!' :: w) ++ [c] := by simp
      rw [e] at h
      obtain ⟨d1, -, k1, -⟩ := h.snoc
      obtain ⟨d2, k2, rfl⟩ := k1.snoc_of h
      simp only [List.length_append, List.length_cons, List.length_nil] at hl hlt hm
      have hm' : w.map toUpper ++ [toUpper c] = D.take (w.length + 1) := by simpa using hm
      rw [List.take_add_one] at hm'
      have hgs : D[w.length]? = some D[w.length] := List.getElem?_eq_getElem (by omega)
      rw [hgs] at hm'
      have hlen : (w.map toUpper).length = (D.take w.length).length := by simp; omega
      obtain ⟨e1, e2⟩ := List.append_inj hm' hlen
      simp only [Option.toList_some, List.cons.injEq, and_true] at e2
      rw [← e2] at hgs
      clear e2
      obtain ⟨g1, g2, g3⟩ := ih w d1 (by omega) k1 e1 (by omega)
      have hlt1 : ¬ d1.prevChars.length + 1 = D.length := by rw [g2]; omega
      by_cases hw : w = []
      · subst hw
        simp only [if_true] at g3
        clear h
        cases k2 with
        | exclFirst hh hdt D' hD' =>
          refine ⟨g1, by simp, ?_⟩
          simp only [List.nil_append, List.cons_ne_nil, if_false, Option.some.injEq]
          simp only [List.length_nil] at hgs
          rcases hD' with ⟨q, rfl⟩ | ⟨q, rfl⟩ | ⟨q, rfl, _⟩
          · subst q
            rcases hD with rfl | rfl | rfl
            · rfl
            · exact absurd hgs (by decide)
            · exact absurd hgs (by decide)
          · rcases hD with rfl | rfl | rfl
            · rcases q with rfl | rfl <;> exact absurd hgs (by decide)
            · rfl
            · rcases q with rfl | rfl <;> exact absurd hgs (by decide)
          · subst q
            rcases hD with rfl | rfl | rfl
            · exact absurd hgs (by decide)
            · exact absurd hgs (by decide)
            · rfl
        | _ => simp_all [Handler.inTag]
      · rw [if_neg hw] at g3
        clear h
        cases k2 with
        | exclMore hh D' hdt hl' hc' =>
          refine ⟨g1, by simp [g2], ?_⟩
          simp only [g3]
          simp
        | _ => simp_all [Handler.inTag]

theorem doctype_state {o : ParseOptions} {t w : Str} (ht : afterLt t o = true) {d : Doc} (h : Ran o (t ++ '!' :: w) d)
    (hw : w.map toUpper = detectDoctype) : d.handle = .doctypeName ∧ d.prevChars = w := by
  rcases List.eq_nil_or_concat w with rfl | ⟨w, c, rfl⟩
  · cases hw
  · rw [List.concat_eq_append] at h hw ⊢
    have hl : w.length + 1 = 7 := by
      have := congrArg List.length hw
      simpa [detectDoctype] using this
    have e : t ++ '!' :: (w ++ [c]) = (t ++ '!' :: w) ++ [c] := by simp
    rw [e] at h
    obtain ⟨d1, -, k1, -⟩ := h.snoc
    obtain ⟨d2, k2, rfl⟩ := k1.snoc_of h
    have hm : w.map toUpper = detectDoctype.take w.length := by
      rw [← hw]
      simp
    obtain ⟨g1, g2, g3⟩ := bang_state ht (.inr (.inl rfl)) _ w d1 rfl k1 hm (by simp [detectDoctype]; omega)
    have hne : w ≠ [] := by rintro rfl; simp at hl
    rw [if_neg hne] at g3
    have hdl : detectDoctype.length = 7 := rfl
    clear h
    cases k2 with
    | doctypeOpen hh hdt hl' hc p hp => exact ⟨rfl, by simp [g2]⟩
    | exclMore hh D hdt hl' hc =>
      rw [g3] at hdt; cases hdt
      rw [g2] at hl'; omega
    | commentOpen hh hdt => rw [g3] at hdt; cases hdt
    | cdataOpen hh hdt => rw [g3] at hdt; cases hdt
    | _ => simp_all [Handler.inTag]

theorem tagEnd_state {o : ParseOptions} {t : Str} (ht : afterLt t o = true) : ∀ (n : Nat) (w : Str), w.length = n → '>' ∉ w →
    ∃ d, Ran o (t ++ '/' :: w) d ∧ d.handle = .tagEnd ∧ d.prevChars = w := by
  obtain ⟨d0, h0, hh0⟩ := afterLt_iff.1 ht
  have hok0 := h0.reach.ctl.hs
  unfold HandleOk at hok0
  simp only [hh0] at hok0
  have ext : ∀ (u : Str) (d : Doc) (c : Char) (d1 : Doc), Ran o u d → (∀ ctx, runHandle d c ctx = .ok d1) →
      Ran o (u ++ [c]) { d1 with position := d1.position + 1 } := by
    intro u d c d1 h k
    unfold Ran
    rw [run_append, h.ctx]
    exact run_cons_ok [] (k _)
  intro n
  induction n with
  | zero =>
    intro w hl _
    have : w = [] := List.length_eq_zero_iff.1 hl
    subst this
    have hs := runHandle_sound '/' (t ++ ['/']) h0.reach.ctl
    cases hr : runHandle d0 '/' (t ++ ['/']) with
    | ok d1 =>
      refine ⟨{ d1 with position := d1.position + 1 }, ?_, ?_⟩
      · have hrun : (Doc.new o).run (t ++ ['/']) (t ++ ['/']) = .ok { d1 with position := d1.position + 1 } := by
          rw [run_append, h0.ctx]
          exact run_cons_ok [] hr
        exact hrun
      · have := hs.1 d1 hr
        clear hr
        cases this <;> simp_all [Handler.inTag, isAlpha, isLower, isUpper]
    | err e =>
      exfalso
      have := hs.2.2 e hr
      clear hr hs
      cases this <;> simp_all [Handler.inTag, isAlpha, isLower, isUpper]
    | panic p =>
      exfalso
      unfold runHandle parseUnkownTag at hr
      simp only [hh0] at hr
      rw [if_neg (by decide), if_pos trivial] at hr
      simp only [Res.bind_eq] at hr
      split at hr <;> rw [addNewNode_end] at hr <;> cases hr
  | succ n ih =>
    intro w hl hw
    rcases List.eq_nil_or_concat w with rfl | ⟨w, c, rfl⟩
    · simp at hl
    · rw [List.concat_eq_append] at hl hw ⊢
      obtain ⟨d, k1, k2, k3⟩ := ih w (by simpa using hl) (fun q => hw (by simp [q]))
      have hc : c ≠ '>' := by rintro rfl; simp at hw
      have := ext _ d c (d.pushChar c) k1 (fun ctx => by
        unfold runHandle parseTagEnd
        simp only [k2]
        rw [if_neg hc])
      have e : t ++ '/' :: (w ++ [c]) = (t ++ '/' :: w) ++ [c] := by simp
      rw [e]
      exact ⟨_, this, k2, by simp [Doc.pushChar, k3]⟩

theorem Ran.readable {o : ParseOptions} {u : Str} {d : Doc} (h : Ran o u d) : Spec.readable u o = true := by
  unfold Spec.readable Ran at *; rw [h]

theorem ran_of_readable {o : ParseOptions} {u : Str} (h : Spec.readable u o = true) : ∃ d, Ran o u d := by
  unfold Spec.readable at h
  unfold Ran
  cases hr : (Doc.new o).run u u with
  | ok d => exact ⟨d, rfl⟩
  | err e => rw [hr] at h; cases h
  | panic e => rw [hr] at h; cases h

theorem Ran.foreignName {o : ParseOptions} {u : Str} {d : Doc} (h : Ran o u d) : Spec.foreignName u o = d.inSpecial.map (·.2) := by
  unfold Spec.foreignName Ran at *; rw [h]

theorem Ran.openAt {o : ParseOptions} {u : Str} {d : Doc} (h : Ran o u d) :
    Spec.openAt u o = d.chain.dropLast.head?.map fun i => (d.heap.cell i).beginAt := by
  unfold Spec.openAt Ran at *; rw [h]

/-- The innermost open element. -/
theorem Ran.open_head {o : ParseOptions} {u n : Str} {d : Doc} (h : Ran o u d) (hh : d.handle ≠ .tagName) :
    (∃ ns, Spec.openNames u o = n :: ns) ↔
      d.chain.length > 1 ∧ ∃ t m, d.chain.head? = some t ∧ (d.heap.cell t).tmeta = some m ∧ m.name = n := by
  rw [h.openNames]
  have hd := h.reach.ctl
  constructor
  · rintro ⟨ns, e⟩
    cases hc : d.chain with
    | nil => rw [hc] at e; cases e
    | cons a l =>
      cases l with
      | nil => rw [hc] at e; cases e
      | cons b l =>
        rw [hc] at e
        simp only [List.dropLast_cons_cons, List.map_cons, List.cons.injEq] at e
        have hmem : a ∈ d.chain := by rw [hc]; simp
        have hs := hd.chainSorted
        rw [hc] at hs
        have h0 : a ≠ 0 := by
          have := (List.pairwise_cons.1 hs).1 b (by simp)
          omega
        have hm : (d.heap.cell a).tmeta ≠ none := by
          rcases hd.metaDone a (hd.chainLt a hmem) (hd.chainTag a hmem h0) with q | q
          · exact q
          · exact absurd q.1 hh
        cases hm' : (d.heap.cell a).tmeta with
        | none => exact absurd hm' hm
        | some m =>
          rw [hm'] at e
          exact ⟨by simp, a, m, rfl, hm', e.1⟩
  · rintro ⟨hl, t, m, h1, h2, h3⟩
    cases hc : d.chain with
    | nil => rw [hc] at h1; cases h1
    | cons a l =>
      cases l with
      | nil => rw [hc] at hl; simp at hl
      | cons b l =>
        rw [hc] at h1
        cases h1
        refine ⟨(List.map (fun i => ((d.heap.cell i).tmeta.getD {}).name) (b :: l).dropLast), ?_⟩
        simp only [List.dropLast_cons_cons, List.map_cons, h2, Option.getD_some, h3]

/-- Only elements below the document have a tag. -/
theorem Ran.head_len {o : ParseOptions} {u : Str} {d : Doc} (h : Ran o u d) {t : NodeId} (ht : d.chain.head? = some t)
    (hm : (d.heap.cell t).tmeta ≠ none) : d.chain.length > 1 := by
  have hl := h.reach.ctl.chainLast
  cases hc : d.chain with
  | nil => rw [hc] at ht; cases ht
  | cons a l =>
    cases l with
    | nil =>
      rw [hc] at ht hl
      cases ht
      have := hl (by simp)
      simp only [List.getLast?_singleton, Option.some.injEq] at this
      subst this
      exact absurd h.reach.ctl.rootMeta hm
    | cons b l => simp

theorem toLower_toUpper (c : Char) : toLower (toUpper c) = toLower c := by
  apply char_ext
  rw [toNat_toLower, toNat_toUpper, toNat_toLower]
  repeat' split
  all_goals omega

theorem fold_eq_upper (a b : Str) : fold a = fold b ↔ a.map toUpper = b.map toUpper := by
  rw [fold_eq_lowerAll, fold_eq_lowerAll]
  unfold lowerAll
  constructor
  · intro h
    have := congrArg (List.map toUpper) h
    rw [List.map_map, List.map_map, funext (f := toUpper ∘ toLower) (g := toUpper) toUpper_toLower] at this
    exact this
  · intro h
    have := congrArg (List.map toLower) h
    rw [List.map_map, List.map_map, funext (f := toLower ∘ toUpper) (g := toLower) toLower_toUpper] at this
    exact this

theorem fold_length (a : Str) : (fold a).length = a.length := by unfold fold; simp

theorem fold_prefix {a D : Str} (hD : D.map toUpper = D) :
    fold a <+: fold D ↔ a.map toUpper = D.take a.length := by
  have hf : (fold D).take a.length = fold (D.take a.length) := by unfold fold; rw [List.map_take]
  rw [List.prefix_iff_eq_take, fold_length, hf, fold_eq_upper, List.map_take, hD]

theorem kw_mem {D : Str} : D ∈ keywords ↔ D = detectComment ∨ D = detectDoctype ∨ D = detectCdata := by
  unfold keywords detectComment detectDoctype detectCdata
  simp

theorem kw_upper {D : Str} (h : D = detectComment ∨ D = detectDoctype ∨ D = detectCdata) : D.map toUpper = D := by
  rcases h with rfl | rfl | rfl <;> decide

theorem fold_prefix_snoc {w D : Str} {c : Char} (hD : D.map toUpper = D) (hl : w.length < D.length) (h : w.map toUpper = D.take w.length) :
    fold (w ++ [c]) <+: fold D ↔ D[w.length]? = some (toUpper c) := by
  rw [fold_prefix hD]
  simp only [List.map_append, List.map_cons, List.map_nil, List.length_append, List.length_cons, List.length_nil]
  rw [List.take_add_one, h, List.getElem?_eq_getElem hl]
  simp only [Option.toList_some, List.append_cancel_left_eq, List.cons.injEq, and_true, Option.some.injEq, eq_comm]

theorem kw_first {c : Char} : (∀ D ∈ keywords, ¬ fold [c] <+: fold D) ↔ c ≠ '-' ∧ c ≠ 'D' ∧ c ≠ 'd' ∧ c ≠ '[' := by
  have key : ∀ D, (D = detectComment ∨ D = detectDoctype ∨ D = detectCdata) → (fold [c] <+: fold D ↔ D[0]? = some (toUpper c)) := by
    intro D hD
    have := fold_prefix_snoc (w := []) (c := c) (kw_upper hD) (by rcases hD with rfl | rfl | rfl <;> decide) rfl
    exact this
  have e1 : detectComment[0]? = some (toUpper c) ↔ c = '-' := by
    rw [← toUpper_eq_dash]; simp [detectComment, eq_comm]
  have e2 : detectDoctype[0]? = some (toUpper c) ↔ c = 'D' ∨ c = 'd' := by
    rw [← toUpper_eq_D]; simp [detectDoctype, eq_comm]
  have e3 : detectCdata[0]? = some (toUpper c) ↔ c = '[' := by
    rw [← toUpper_eq_bracket]; simp [detectCdata, eq_comm]
  constructor
  · intro h
    have k1 := h detectComment (kw_mem.2 (.inl rfl))
    have k2 := h detectDoctype (kw_mem.2 (.inr (.inl rfl)))
    have k3 := h detectCdata (kw_mem.2 (.inr (.inr rfl)))
    rw [key _ (.inl rfl), e1] at k1
    rw [key _ (.inr (.inl rfl)), e2] at k2
    rw [key _ (.inr (.inr rfl)), e3] at k3
    exact ⟨k1, fun q => k2 (.inl q), fun q => k2 (.inr q), k3⟩
  · rintro ⟨h1, h2, h3, h4⟩ D hD
    rw [kw_mem] at hD
    rw [key D hD]
    rcases hD with rfl | rfl | rfl
    · rw [e1]; exact h1
    · rw [e2]; rintro (q | q); exact h2 q; exact h3 q
    · rw [e3]; exact h4

theorem endName {n w : Str} : (isEqualCharsIgnoreCase n (charsTrimEnd w)).1 = true ↔ sameName (trimEnd w) n := by
  rw [isEqualCharsIgnoreCase_spec, charsTrimEnd_eq]
  unfold sameName
  rw [lowerAll_eq_fold, lowerAll_eq_fold]
  by_cases q : fold n = fold (trimEnd w)
  · rw [if_pos q]; exact ⟨fun _ => q.symm, fun _ => rfl⟩
  · rw [if_neg q]; exact ⟨fun h => (Bool.noConfusion h), fun h => absurd (Eq.symm h) q⟩

theorem endName2 {n w : Str} (h : sameName (trimEnd w) n) : (isEqualCharsIgnoreCase n (charsTrimEnd w)).2 = false ↔ trimEnd w ≠ n := by
  unfold sameName at h
  rw [isEqualCharsIgnoreCase_spec, charsTrimEnd_eq, lowerAll_eq_fold, lowerAll_eq_fold, if_pos h.symm]
  simp only [decide_eq_false_iff_not, ne_eq]
  exact ⟨fun q e => q e.symm, fun q e => q e.symm⟩

/-- The elements open at `</`. -/
theorem tagEnd_names {o : ParseOptions} {t w : Str} {d : Doc} (hd : Ran o (t ++ '/' :: w) d) (hh : d.handle = .tagEnd)
    (hp : d.prevChars = w) : Spec.openNames (t ++ '/' :: w) o = Spec.openNames t o := by
  have h := hd.orig2 _ _ _ rfl
  unfold Orig2 at h
  simp only [hh] at h
  obtain ⟨t', d0, e, h1, _, h2, h3⟩ := h
  rw [hp] at e
  have := List.append_cancel_right e
  subst this
  rw [hd.openNames, h1.openNames, h2]
  apply List.map_congr_left
  intro i hi
  rw [h3 i (by rw [h2]; exact (List.dropLast_subset _ hi))]

/-- What a handler reports, in terms of the text. -/
theorem ErrIs.refused {o : ParseOptions} {u : Str} {d : Doc} {c : Char} {k : ErrorKind} {i : Nat} (h : Ran o u d) (he : ErrIs d c k i) :
    Refused o u c k i := by
  have hd := h.reach.ctl
  have hok := hd.hs
  have ho := h.reach.opts
  have hp := h.position
  have hg := h.orig2 _ _ _ rfl
  unfold HandleOk at hok
  unfold Orig2 at hg
  cases he with
  | lt hh hf h1 h2 h3 =>
    simp only [hh] at hg
    have e : d.memPosition = u.length - 1 := by omega
    rw [e]
    exact .lt (afterLt_iff.2 ⟨d, h, hh⟩) (by rw [← ho]; exact hf) (by rw [← isAlpha_eq]; exact h1) h2 h3
  | exclFirst hh hdt h1 h2 h3 h4 =>
    simp only [hh] at hg hok
    obtain ⟨t, d0, rfl, k1, k2, k3, _⟩ := hg
    have hpc : d.prevChars = [] := by
      rcases hok.2 with q | ⟨_, q, _⟩
      · exact q.2
      · rw [hdt] at q; cases q
    rw [hpc]
    have e : d.memPosition = t.length - 1 := by omega
    rw [e]
    exact .bang (afterLt_iff.2 ⟨d0, k1, k2⟩) (kw_first.2 ⟨h1, h2, h3, h4⟩)
  | cdataNone hh hdt hc hs =>
    subst hc
    simp only [hh] at hg hok
    obtain ⟨t, d0, rfl, k1, k2, k3, k4, k5, k6⟩ := hg
    have hpc : d.prevChars = [] := by
      rcases hok.2 with q | ⟨_, q, _⟩
      · exact q.2
      · rw [hdt] at q; cases q
    rw [hp, hpc]
    have e : (t ++ ['!']).length = t.length + 1 := by simp
    rw [e]
    exact .cdataOutside (afterLt_iff.2 ⟨d0, k1, k2⟩) (by rw [k1.foreignName, ← k5, hs]; rfl)
  | cdataSame hh hdt hc sp x m hs ht hm =>
    subst hc
    simp only [hh] at hg hok
    obtain ⟨t, d0, rfl, k1, k2, k3, k4, k5, k6⟩ := hg
    have hpc : d.prevChars = [] := by
      rcases hok.2 with q | ⟨_, q, _⟩
      · exact q.2
      · rw [hdt] at q; cases q
    rw [hp, hpc]
    have e : (t ++ ['!']).length = t.length + 1 := by simp
    rw [e]
    rw [k4] at ht
    rw [k6] at hm
    obtain ⟨ns, hns⟩ := (k1.open_head (n := m.name) (by rw [k2]; simp)).2
      ⟨k1.head_len ht (by rw [hm]; simp), x, m, ht, hm, rfl⟩
    exact .cdataDirect (afterLt_iff.2 ⟨d0, k1, k2⟩) (by rw [k1.foreignName, ← k5, hs]; rfl) hns
  | exclMore hh D hdt hc =>
    simp only [hh] at hg hok
    obtain ⟨t, d0, e, k1, k2, k3, _⟩ := hg
    rcases hok.2 with q | ⟨D', q, q1, q2, q3, q4⟩
    · rw [hdt] at q; cases q.1
    · rw [hdt] at q; cases q
      have e' : d.memPosition = t.length - 1 := by omega
      have hr := h.readable
      rw [e] at hr
      rw [e', e]
      refine .keyword (afterLt_iff.2 ⟨d0, k1, k2⟩) hr (kw_mem.2 q1) q2 q3 ?_ ?_
      · exact (fold_prefix (kw_upper q1)).2 q4
      · rw [fold_prefix_snoc (kw_upper q1) q3 q4]; exact hc
  | doctypeName hh hc =>
    simp only [hh] at hg hok
    obtain ⟨t, d0, e, k1, k2⟩ := hg
    have hr := h.readable
    rw [e] at hr
    rw [hp, e]
    exact .doctype (afterLt_iff.2 ⟨d0, k1, k2⟩) hr (fold_doctype hok.2.2.2.2) ((mem_ws_iff c).2 hc)
  | key hh hc m hm hi ha =>
    subst hc
    rw [hp]
    refine .equals ?_ (by rw [← ho]; exact ha)
    unfold Spec.beforeAttr
    have h' : (Doc.new o).run u u = .ok d := h
    rw [h']
    simp only [hm, Option.getD_some, hi, and_true, decide_eq_true_eq]
    exact hh
  | self hh hc m hm ha h1 h2 h3 =>
    subst hc
    rw [hp]
    simp only [hh] at hok
    obtain ⟨_, m', hm', _, _, hv, hty⟩ := hok
    rw [hm] at hm'; cases hm'
    have h' : (Doc.new o).run u u = .ok d := h
    have hci : d.codeIn = .tag := by
      rcases hty with q | q
      · exact q.1
      · exact absurd q.1 h1
    refine .selfClosing ?_ (by rw [← ho]; exact ha) ?_ (by rw [h.foreignName, h3]; rfl)
    · unfold Spec.afterSlash
      rw [h']
      simp only [hh, hci, hm, and_self, if_true, Option.map_some]
    · rw [hv, ← Bool.not_eq_true, isVoidTag_iff, lowerAll_eq_fold] at h2
      exact h2
  | endCase hh hc hf x m hl ht hm he hn =>
    subst hc
    rw [hp]
    have hg' := hg
    simp only [hh] at hg hok
    obtain ⟨t, d0, e, k1, k2, k3, k4⟩ := hg
    generalize hpc : d.prevChars = w at *
    subst e
    obtain ⟨ns, hns⟩ := (h.open_head (n := m.name) (by rw [hh]; simp)).2 ⟨hl, x, m, ht, hm, rfl⟩
    rw [tagEnd_names h hh hpc] at hns
    have he' := endName.1 he
    exact .endCase (afterLt_iff.2 ⟨d0, k1, k2⟩) hok.2.2.2.1 (by rw [← ho]; exact hf) hns he' ((endName2 he').1 hn)
  | endStray hh hc hf hm =>
    subst hc
    rw [hp]
    simp only [hh] at hg hok
    obtain ⟨t, d0, e, k1, k2, k3, k4⟩ := hg
    generalize hpc : d.prevChars = w at *
    subst e
    refine .endStray (afterLt_iff.2 ⟨d0, k1, k2⟩) hok.2.2.2.1 (by rw [← ho]; exact hf) ?_
    intro n ns hns hs
    rw [← tagEnd_names h hh hpc] at hns
    obtain ⟨hl, x, m, ht, hmm, rfl⟩ := (h.open_head (by rw [hh]; simp)).1 ⟨ns, hns⟩
    have := hm x m hl ht hmm
    rw [endName.2 hs] at this; cases this

/-- The state after `<!`. -/
theorem bang_ran {o : ParseOptions} {t : Str} (h : afterLt t o = true) : ∃ d d0, Ran o t d0 ∧ d0.handle = .unkownTag ∧
    Ran o (t ++ ['!']) d ∧ d.handle = .exclamationBegin ∧ d.detect = none ∧ d.chain = d0.chain ∧ d.inSpecial = d0.inSpecial ∧
    d.heap = d0.heap ∧ d.memPosition = t.length - 1 ∧ d.position = t.length + 1 := by
  obtain ⟨d0, h0, hh0⟩ := afterLt_iff.1 h
  obtain ⟨d, e, h1, h2, h3, h4, h5, h6⟩ := bang_run (ctx := t ++ ['!']) h0.reach.ctl hh0 []
  have hr : Ran o (t ++ ['!']) d := by
    unfold Ran
    rw [run_append, h0.ctx]
    exact e
  have hg := hr.orig2 _ _ _ rfl
  unfold Orig2 at hg
  simp only [h1, h3] at hg
  obtain ⟨t', _, e, _, _, k3, _⟩ := hg
  have := List.append_cancel_right e
  subst this
  exact ⟨d, d0, h0, hh0, hr, h1, h2, h4, h5, h6, by omega, by rw [hr.position]; simp⟩

theorem Refused_errIs {o : ParseOptions} {u : Str} {c : Char} {k : ErrorKind} {i : Nat} (h : Refused o u c k i) :
    ∃ d, Ran o u d ∧ ErrIs d c k i := by
  cases h with
  | lt h hf h1 h2 h3 =>
    obtain ⟨d, hr, hh⟩ := afterLt_iff.1 h
    have hg := hr.orig2 _ _ _ rfl
    unfold Orig2 at hg
    simp only [hh] at hg
    refine ⟨d, hr, ?_⟩
    have e : u.length - 1 = d.memPosition := by omega
    rw [e]
    exact .lt hh (by rw [hr.reach.opts]; exact hf) (by rw [isAlpha_eq]; exact h1) h2 h3
  | @bang t _ h h1 =>
    obtain ⟨d, d0, _, _, hr, g1, g2, _, _, _, g3, _⟩ := bang_ran h
    obtain ⟨k1, k2, k3, k4⟩ := kw_first.1 h1
    rw [← g3]
    exact ⟨d, hr, .exclFirst g1 g2 k1 k2 k3 k4⟩
  | @keyword t w D _ h hr hD hw hl hp hc =>
    obtain ⟨d, hr⟩ := ran_of_readable hr
    rw [kw_mem] at hD
    rw [fold_prefix (kw_upper hD)] at hp
    rw [fold_prefix_snoc (kw_upper hD) hl hp] at hc
    obtain ⟨g1, g2, g3⟩ := bang_state h hD _ w d rfl hr hp hl
    rw [if_neg hw] at g3
    have hg := hr.orig2 _ _ _ rfl
    unfold Orig2 at hg
    simp only [g1, g2] at hg
    obtain ⟨t', d0, e, _, _, k3, _⟩ := hg
    have := List.append_cancel_right e
    subst this
    refine ⟨d, hr, ?_⟩
    have e : t.length - 1 = d.memPosition := by omega
    have := ErrIs.exclMore g1 D g3 (c := c) (by rw [g2]; exact hc)
    rw [e]
    rw [g2] at this
    exact this
  | @cdataOutside t h hf =>
    obtain ⟨d, d0, k1, _, hr, g1, g2, _, g4, _, _, g3⟩ := bang_ran h
    rw [k1.foreignName] at hf
    rw [← g3]
    exact ⟨d, hr, .cdataNone g1 g2 rfl (by rw [g4]; simpa using hf)⟩
  | @cdataDirect t n ns h hf hn =>
    obtain ⟨d, d0, k1, k2, hr, g1, g2, g5, g4, g6, _, g3⟩ := bang_ran h
    obtain ⟨_, x, m, ht, hm, rfl⟩ := (k1.open_head (by rw [k2]; simp)).1 ⟨ns, hn⟩
    rw [k1.foreignName] at hf
    rw [← g3]
    cases hs : d0.inSpecial with
    | none => rw [hs] at hf; cases hf
    | some y =>
      obtain ⟨sp, n'⟩ := y
      rw [hs] at hf
      simp only [Option.map_some, Option.some.injEq] at hf
      exact ⟨d, hr, .cdataSame g1 g2 rfl sp x m (by rw [g4, hs, hf]) (by rw [g5]; exact ht) (by rw [g6]; exact hm)⟩
  | @doctype t w _ h hr hw hc =>
    obtain ⟨d, hr⟩ := ran_of_readable hr
    obtain ⟨g1, g2⟩ := doctype_state h hr (upper_doctype hw)
    refine ⟨d, hr, ?_⟩
    rw [← hr.position]
    exact .doctypeName g1 ((mem_ws_iff c).1 hc)
  | equals h hf =>
    unfold Spec.beforeAttr at h
    cases hr : (Doc.new o).run u u with
    | err e => rw [hr] at h; cases h
    | panic e => rw [hr] at h; cases h
    | ok d =>
      rw [hr] at h
      simp only [decide_eq_true_eq] at h
      have hran : Ran o u d := hr
      have hok := hran.reach.ctl.hs
      unfold HandleOk at hok
      have hm : ∃ m, d.cur.tmeta = some m := by
        rcases h.1 with q | q <;> simp only [q] at hok <;> exact ⟨_, hok.2.choose_spec.1⟩
      obtain ⟨m, hm⟩ := hm
      rw [hm] at h
      refine ⟨d, hran, ?_⟩
      rw [← hran.position]
      exact .key h.1 rfl m hm h.2 (by rw [hran.reach.opts]; exact hf)
  | @selfClosing _ n h hf hv hs =>
    unfold Spec.afterSlash at h
    cases hr : (Doc.new o).run u u with
    | err e => rw [hr] at h; cases h
    | panic e => rw [hr] at h; cases h
    | ok d =>
      rw [hr] at h
      simp only at h
      have hran : Ran o u d := hr
      split at h
      · rename_i hh
        have hok := hran.reach.ctl.hs
        unfold HandleOk at hok
        simp only [hh.1] at hok
        obtain ⟨_, m, hm, _, _, hvv, _⟩ := hok
        rw [hm] at h
        simp only [Option.map_some, Option.some.injEq] at h
        subst h
        refine ⟨d, hran, ?_⟩
        rw [← hran.position]
        refine .self hh.1 rfl m hm (by rw [hran.reach.opts]; exact hf) (by rw [hh.2]; simp) ?_ ?_
        · rw [hvv, ← Bool.not_eq_true, isVoidTag_iff, lowerAll_eq_fold]; exact hv
        · rw [hran.foreignName] at hs; simpa using hs
      · cases h
  | @endCase t w n ns h hw hf hn h1 h2 =>
    obtain ⟨d, hr, hh, hp⟩ := tagEnd_state h _ w rfl hw
    rw [← tagEnd_names hr hh hp] at hn
    obtain ⟨hl, x, m, ht, hm, rfl⟩ := (hr.open_head (by rw [hh]; simp)).1 ⟨ns, hn⟩
    refine ⟨d, hr, ?_⟩
    rw [← hr.position]
    have := ErrIs.endCase hh rfl (by rw [hr.reach.opts]; exact hf) x m hl ht hm (by rw [hp]; exact endName.2 h1)
      (by rw [hp]; exact (endName2 h1).2 h2)
    rw [hp] at this
    exact this
  | @endStray t w h hw hf hn =>
    obtain ⟨d, hr, hh, hp⟩ := tagEnd_state h _ w rfl hw
    rw [← tagEnd_names hr hh hp] at hn
    refine ⟨d, hr, ?_⟩
    rw [← hr.position]
    have := ErrIs.endStray hh rfl (by rw [hr.reach.opts]; exact hf) (fun x m hl ht hm => by
      obtain ⟨ns, hns⟩ := (hr.open_head (n := m.name) (by rw [hh]; simp)).2 ⟨hl, x, m, ht, hm, rfl⟩
      have := hn _ _ hns
      rw [← endName] at this
      rw [hp]
      simpa using this)
    rw [hp] at this
    exact this

/-! ## The end of the text -/

theorem fixHeap_begin (pos : Nat) : ∀ (ts : List NodeId) (h : Heap) (i : NodeId), i < h.size →
    ((fixHeap pos h ts).cell i).beginAt = (h.cell i).beginAt
  | [], h, i, _ => rfl
  | t :: ts, h, i, hi => by
    unfold fixHeap
    cases hm : (h.cell t).tmeta with
    | none => exact fixHeap_begin pos ts h i hi
    | some m =>
      simp only
      rw [fixHeap_begin pos ts _ i (by simp only [Heap.upd, Heap.push]; omega)]
      have hne : i ≠ h.size := by omega
      simp only [Heap.upd, Heap.push]
      split <;> simp_all

/-- What `eof` reports about the unfinished construct. -/
def CodeTypeIn.pending : CodeTypeIn → Option String
  | .unkownTag => some "UnkownTag"
  | .exclamationBegin => some "ExclamationBegin"
  | .tagEnd => some "TagEnd"
  | .comment => some "Comment"
  | .htmlDoctype => some "HTMLDOCTYPE"
  | .escapeableRawText => some "EscapeableRawText"
  | .htmlScript => some "HTMLScript"
  | .htmlStyle => some "HTMLStyle"
  | .xmlCdata => some "XMLCDATA"
  | .abstractRoot | .unkown | .tag | .textNode => none

theorem Ran.unfinishedAt {o : ParseOptions} {u : Str} {d : Doc} (h : Ran o u d) :
    Spec.unfinishedAt u o = d.codeIn.pending.map fun x => (x.toList, d.cur.beginAt) := by
  have h' : (Doc.new o).run u u = .ok d := h
  unfold Spec.unfinishedAt
  rw [h']
  simp only
  cases d.codeIn <;> rfl

theorem eofState_err {d : Doc} {ctx : Str} {e : ParseError} (ht : d.codeIn = .tag → d.opts.autoFixUnclosedTag = true) :
    d.eofState ctx = .err e ↔ ∃ x, d.codeIn.pending = some x ∧
      e = { region := CodeRegion.fromContextIndex ctx d.cur.beginAt, kind := .unclosedTag x.toList } := by
  have key : ∀ (x : String) (i : Nat), (createParseError (.unclosedTag x.toList) i ctx : Res Doc) = .err e ↔
      ∃ y, some x = some y ∧ e = { region := CodeRegion.fromContextIndex ctx i, kind := .unclosedTag y.toList } := by
    intro x i
    constructor
    · intro h; exact ⟨x, rfl, createParseError_inj h⟩
    · rintro ⟨y, q, rfl⟩; cases q; rfl
  have none' : ∀ d' : Doc, (Res.ok d' : Res Doc) = .err e ↔ ∃ y, (none : Option String) = some y ∧
      e = { region := CodeRegion.fromContextIndex ctx d.cur.beginAt, kind := .unclosedTag y.toList } := by
    intro d'
    constructor
    · intro h; cases h
    · rintro ⟨y, q, _⟩; cases q
  unfold Doc.eofState
  cases hc : d.codeIn
  case tag =>
    simp only [ht hc, Bool.not_true, Bool.false_eq_true, if_false]
    exact none' _
  all_goals first
    | exact none' _
    | exact key _ _

/-- Inside a start tag an element is open. -/
theorem Ran.tag_len {o : ParseOptions} {u : Str} {d : Doc} (h : Ran o u d) (hc : d.codeIn = .tag) : d.chain.length > 1 := by
  have hd := h.reach.ctl
  have key : d.cur.nodeType = .tag → d.chain.head? = some d.current → d.chain.length > 1 := by
    intro hty hh
    have hne : d.current ≠ 0 := by
      intro h0
      have := (hd.rootTy d.current hd.curLt).2 h0
      unfold Doc.cur at hty
      rw [hty] at this; cases this
    have := hd.tail_ne hh hne
    cases hl : d.chain with
    | nil => rw [hl] at hh; cases hh
    | cons a l =>
      rw [hl] at this
      cases l with
      | nil => exact absurd rfl this
      | cons b l => simp
  have hok := hd.hs
  unfold HandleOk at hok
  cases hh : d.handle <;> simp only [hh, hc] at hok
  case tagName => exact key hok.2.2.1 hok.2.2.2.2.1
  case contentTag =>
    obtain ⟨_, _, m, _, _, q, _⟩ := hok
    rcases rawCode_cases m.name with g | g | g <;> rw [g] at q <;> cases q
  case tagWait | tagSelfClosing | attrKey | attrValue =>
    obtain ⟨_, m, _, _, _, _, q⟩ := hok
    rcases q with q | q
    · exact key q.2.1 q.2.2.1
    · cases q.1
  all_goals simp at hok

theorem Ran.open_nil {o : ParseOptions} {u : Str} {d : Doc} (h : Ran o u d) : Spec.openNames u o = [] ↔ ¬ d.chain.length > 1 := by
  rw [h.openNames]
  cases d.chain with
  | nil => simp
  | cons a l => cases l <;> simp

theorem eof_iff {o : ParseOptions} {s : Str} {d : Doc} {e : ParseError} (h : Ran o s d) : d.eof s = .err e ↔
    ∃ k i, Unfinished o s k i ∧ e = { region := CodeRegion.fromContextIndex s i, kind := k } := by
  have hd := h.reach.ctl
  have ho := h.reach.opts
  have hin : inName s o ↔ d.handle = .tagName := by
    unfold inName
    rw [← inName_iff]
    exact ⟨fun ⟨d', k1, k2⟩ => by rw [h.unique k1]; exact k2, fun q => ⟨d, h, q⟩⟩
  have hst : ∀ d' : Doc, (do let d ← d'.eofState s; Res.ok { d with heap := d.heap.upd d.root fun n => { n with endAt := d.position } }) = Res.err e ↔
      d'.eofState s = .err e := by
    intro d'
    rw [Res.bind_eq]
    cases d'.eofState s <;> simp
  unfold Doc.eof
  rw [Res.bind_eq]
  by_cases hl : d.chain.length > 1
  · have hne : ¬ Spec.openNames s o = [] := by rw [h.open_nil]; exact fun q => q hl
    cases hf : o.autoFixUnclosedTag with
    | false =>
      have hch : d.chain.head? ≠ none := by
        intro q
        cases hc : d.chain with
        | nil => rw [hc] at hl; simp at hl
        | cons a l => rw [hc] at q; cases q
      cases ht : d.chain.head? with
      | none => exact absurd ht hch
      | some t =>
        have hdl : d.chain.dropLast.head? = some t := by
          cases hc : d.chain with
          | nil => rw [hc] at ht; cases ht
          | cons a l =>
            cases l with
            | nil => rw [hc] at hl; simp at hl
            | cons b l => rw [hc] at ht; simpa using ht
        cases hm : (d.heap.cell t).tmeta with
        | none =>
          have hpan : d.eofChain s = .panic .eofMeta := by
            unfold Doc.eofChain
            rw [if_pos hl, ho, hf]
            simp only [Bool.not_false, if_true, ht, hm]
          rw [hpan]
          constructor
          · intro q; cases q
          · rintro ⟨k, i, hu, _⟩
            exfalso
            cases hu with
            | element _ hn _ hi =>
              rw [hin] at hi
              obtain ⟨_, t', m, k1, k2, _⟩ := (h.open_head hi).1 ⟨_, hn⟩
              rw [ht] at k1; cases k1
              rw [hm] at k2; cases k2
            | construct hor _ =>
              rcases hor with q | q
              · rw [hf] at q; cases q
              · exact hne q
        | some m =>
          have herr : d.eofChain s = createParseError (.unclosedTag m.name) (d.heap.cell t).beginAt s := by
            unfold Doc.eofChain
            rw [if_pos hl, ho, hf]
            simp only [Bool.not_false, if_true, ht, hm]
          rw [herr]
          have hni : d.handle ≠ .tagName := by
            intro q
            have hok := hd.hs
            unfold HandleOk at hok
            simp only [q] at hok
            rw [hok.2.2.2.2.1] at ht; cases ht
            have := hok.2.2.2.1
            unfold Doc.cur at this
            rw [hm] at this; cases this
          constructor
          · intro q
            have q := createParseError_inj (e := e) (by simpa [createParseError, Res.bind] using q)
            obtain ⟨ns, hns⟩ := (h.open_head hni (n := m.name)).2 ⟨hl, t, m, ht, hm, rfl⟩
            exact ⟨_, _, .element hf hns (by rw [h.openAt, hdl]; rfl) (by rw [hin]; exact hni), q⟩
          · rintro ⟨k, i, hu, rfl⟩
            cases hu with
            | element _ hn hi _ =>
              obtain ⟨_, t', m', k1, k2, rfl⟩ := (h.open_head hni).1 ⟨_, hn⟩
              rw [ht] at k1; cases k1
              rw [hm] at k2; cases k2
              rw [h.openAt, hdl] at hi
              simp only [Option.map_some, Option.some.injEq] at hi
              subst hi
              rfl
            | construct hor _ =>
              exfalso
              rcases hor with q | q
              · rw [hf] at q; cases q
              · exact hne q
    | true =>
      have hok : d.eofChain s = .ok ({ d with chain := d.chain.drop (d.chain.length - 1) }.fixUnclosedTag d.chain.dropLast.reverse) := by
        unfold Doc.eofChain
        rw [if_pos hl, ho, hf]
        simp
      rw [hok]
      simp only [Res.bind]
      rw [hst, fixUnclosedTag_eq, eofState_err (fun _ => by simpa [ho] using hf)]
      simp only [Doc.cur]
      rw [fixHeap_begin _ _ _ _ hd.curLt]
      constructor
      · rintro ⟨x, hx, rfl⟩
        exact ⟨_, _, .construct (.inl hf) (by rw [h.unfinishedAt, hx]; rfl), rfl⟩
      · rintro ⟨k, i, hu, rfl⟩
        cases hu with
        | element q => rw [hf] at q; cases q
        | construct _ q =>
          rw [h.unfinishedAt] at q
          cases hx : d.codeIn.pending with
          | none => rw [hx] at q; cases q
          | some x =>
            rw [hx] at q
            simp only [Option.map_some, Option.some.injEq, Prod.mk.injEq] at q
            obtain ⟨rfl, rfl⟩ := q
            exact ⟨x, rfl, rfl⟩
  · have hnil := h.open_nil.2 hl
    have hok : d.eofChain s = .ok d := by
      unfold Doc.eofChain
      rw [if_neg hl]
    rw [hok]
    simp only [Res.bind]
    rw [hst, eofState_err (fun q => absurd (h.tag_len q) hl)]
    constructor
    · rintro ⟨x, hx, rfl⟩
      exact ⟨_, _, .construct (.inr hnil) (by rw [h.unfinishedAt, hx]; rfl), rfl⟩
    · rintro ⟨k, i, hu, rfl⟩
      cases hu with
      | element _ q => rw [hnil] at q; cases q
      | construct _ q =>
        rw [h.unfinishedAt] at q
        cases hx : d.codeIn.pending with
        | none => rw [hx] at q; cases q
        | some x =>
          rw [hx] at q
          simp only [Option.map_some, Option.some.injEq, Prod.mk.injEq] at q
          obtain ⟨rfl, rfl⟩ := q
          exact ⟨x, rfl, rfl⟩

/-- The first error while reading. -/
theorem run_err_iff {o : ParseOptions} {s : Str} {e : ParseError} : (Doc.new o).run s s = .err e ↔
    ∃ u c v d, s = u ++ c :: v ∧ Ran o u d ∧ runHandle d c s = .err e := by
  constructor
  · have key : ∀ (v u : Str) (d : Doc), s = u ++ v → Ran o u d → d.run s v = .err e →
        ∃ u c v d, s = u ++ c :: v ∧ Ran o u d ∧ runHandle d c s = .err e := by
      intro v
      induction v with
      | nil => intro u d _ _ h; cases h
      | cons c v ih =>
        intro u d hs hr h
        simp only [Doc.run, Res.bind_eq] at h
        cases hn : runHandle d c s with
        | err e' =>
          have : d.next c s = .err e' := by unfold Doc.next; rw [Res.bind_eq, hn]; rfl
          rw [this] at h
          cases h
          exact ⟨u, c, v, d, hs, hr, hn⟩
        | panic p =>
          have : d.next c s = .panic p := by unfold Doc.next; rw [Res.bind_eq, hn]; rfl
          rw [this] at h
          cases h
        | ok d1 =>
          have : d.next c s = .ok { d1 with position := d1.position + 1 } := by unfold Doc.next; rw [Res.bind_eq, hn]; rfl
          rw [this] at h
          refine ih (u ++ [c]) { d1 with position := d1.position + 1 } (by rw [hs]; simp) ?_ h
          refine Ran.of (ctx := s) ?_
          rw [run_append, hr.ctx]
          exact run_cons_ok [] hn
    intro h
    exact key s [] (Doc.new o) rfl (Ran.nil o) h
  · rintro ⟨u, c, v, d, hs, hr, he⟩
    have : (Doc.new o).run s (u ++ c :: v) = .err e := by
      rw [run_append, hr.ctx]
      simp only [Res.bind, Doc.run, Doc.next, Res.bind_eq, he]
    rw [← hs] at this
    exact this

/-- **C52** The errors, exactly: `parse` reports an error of kind `k` at index `i` if and only if the text has a beginning that is
read without complaint, followed by a character that is refused there with this kind and index; or the whole text is read, and its
end is refused in this way.  (`c25_positions` says what line and column belong to an index.) -/
theorem c52_errors (s : Str) (o : ParseOptions) (k : ErrorKind) (i : Nat) :
    (∃ e, Doc.parse s o = .err e ∧ e.kind = k ∧ e.region.index = i) ↔
      (∃ u c v, s = u ++ c :: v ∧ Refused o u c k i) ∨ (readable s o = true ∧ Unfinished o s k i) := by
  have hidx : ∀ i, (CodeRegion.fromContextIndex s i).index = i := fun i => by rw [c25_region_spec]
  constructor
  · rintro ⟨e, h, rfl, rfl⟩
    unfold Doc.parse at h
    simp only [Res.bind_eq] at h
    cases hr : (Doc.new o).run s s with
    | panic p => rw [hr] at h; cases h
    | err e' =>
      rw [hr] at h
      cases h
      obtain ⟨u, c, v, d, hs, h1, h2⟩ := run_err_iff.1 hr
      obtain ⟨k, i, h3, rfl⟩ := runHandle_errIs h1.reach.ctl h2
      exact .inl ⟨u, c, v, hs, by rw [hidx]; exact h3.refused h1⟩
    | ok d =>
      have hran : Ran o s d := hr
      rw [hr] at h
      simp only [Res.bind] at h
      cases he : d.eof s with
      | ok d' => rw [he] at h; cases h
      | panic p => rw [he] at h; cases h
      | err e' =>
        rw [he] at h
        cases h
        obtain ⟨k, i, h3, rfl⟩ := (eof_iff hran).1 he
        exact .inr ⟨hran.readable, by rw [hidx]; exact h3⟩
  · rintro (⟨u, c, v, hs, h⟩ | ⟨h1, h2⟩)
    · obtain ⟨d, h1, h2⟩ := (Refused_errIs h)
      refine ⟨{ region := CodeRegion.fromContextIndex s i, kind := k }, ?_, rfl, hidx i⟩
      have := run_err_iff.2 ⟨u, c, v, d, hs, h1, h2.runHandle h1.reach.ctl s⟩
      unfold Doc.parse
      rw [Res.bind_eq, this]
      rfl
    · obtain ⟨d, hran⟩ := ran_of_readable h1
      have hr : (Doc.new o).run s s = .ok d := hran
      refine ⟨{ region := CodeRegion.fromContextIndex s i, kind := k }, ?_, rfl, hidx i⟩
      have := (eof_iff hran).2 ⟨k, i, h2, rfl⟩
      unfold Doc.parse
      rw [Res.bind_eq, hr]
      simp only [Res.bind]
      rw [Res.bind_eq, this]
      rfl

/-! ## Where the errors at the end of the text point -/

theorem Tail.first {s w : Str} {b : Nat} {c : Char} (h : Tail s b (c :: w)) : s[b]? = some c := by
  obtain ⟨pre, rfl, rfl⟩ := h
  simp

/-- Elements, comments, CDATA sections and doctypes begin at a `<`. -/
theorem Reach.begins {o : ParseOptions} {s : Str} {d : Doc} (h : Reach o s d) : ∀ i, i < d.heap.size →
    ((d.heap.cell i).nodeType = .tag ∨ (d.heap.cell i).nodeType = .comment ∨ (d.heap.cell i).nodeType = .xmlCdata ∨
      (d.heap.cell i).nodeType = .htmlDoctype) → s[(d.heap.cell i).beginAt]? = some '<' := by
  induction h with
  | init =>
    intro i hi hty
    have : i = 0 := by simp only [Doc.new] at hi; exact Nat.lt_one_iff.1 (by simpa using hi)
    subst this
    have := (Reach.init (o := o)).ctl.rootTy 0 hi
    rw [this.2 rfl] at hty
    simp at hty
  | @step s c d d' hr hs ih =>
    intro i hi hty
    have hd := hr.ctl
    have he := hs.eff hd
    have hk := he.keep hd
    have hi : i < d'.heap.size := hi
    have hty : (d'.heap.cell i).nodeType = .tag ∨ (d'.heap.cell i).nodeType = .comment ∨ (d'.heap.cell i).nodeType = .xmlCdata ∨
      (d'.heap.cell i).nodeType = .htmlDoctype := hty
    show (s ++ [c])[(d'.heap.cell i).beginAt]? = some '<'
    by_cases hlt : i < d.heap.size
    · rw [(hk i hlt).beginAt]
      have := ih i hlt (by
        rcases (hk i hlt).ty with h1 | h1
        · rw [← h1]; exact hty
        · rw [h1.2.1] at hty; simp at hty)
      have hb := (List.getElem?_eq_some_iff.1 this).1
      rw [List.getElem?_append_left hb]
      exact this
    · have hsz := he.size_le
      have hi' : i = d.heap.size := by omega
      subst hi'
      cases he with
      | data ct m e hea hheap => rw [hheap] at hi; simp at hi
      | child p ty b oo hp hty' ho hb hheap =>
        rw [hheap, grown_cell hd p hp _ oo ho] at hty ⊢
        simp only [Cell.new] at hty
        show (s ++ [c])[b]? = some '<'
        rcases hb with ⟨_, _, h2, _⟩ | ⟨h1, h2, _⟩
        · rw [h2] at hty; simp at hty
        · have hsrc := hr.srcAt
          unfold SrcAt at hsrc
          have : s[b]? = some '<' := by
            rw [h2]
            rcases h1 with h1 | h1 <;> simp only [h1] at hsrc
            · exact hsrc.first
            · exact hsrc.first
          have hb := (List.getElem?_eq_some_iff.1 this).1
          rw [List.getElem?_append_left hb]
          exact this
      | ltChild p n hf hn hp hheap =>
        exfalso
        have hplt : p < d.heap.size := by
          rcases hp with h | h | h
          · rw [h.1]; exact hd.curLt
          · exact hd.chain_head h
          · rw [h.2, hd.root0]; exact hd.sizePos
        obtain ⟨ct, e, k, hn, _⟩ := hn
        rw [hheap, Heap.upd_cell, Heap.push_cell, hn] at hty
        have : ¬ d.heap.size = p := by omega
        simp only [this, if_false, if_true] at hty
        simp [Cell.new] at hty
      | endPush pv hpv hheap =>
        exfalso
        rw [hheap, Heap.push_cell] at hty
        simp [Cell.new] at hty
      | endLink t m hm hty' hheap => rw [hheap] at hi; simp at hi
      | rawEnd n hty' hp hheap =>
        exfalso
        rw [hheap, rawHeap_cell hd] at hty
        simp [Cell.new] at hty

/-- **C52**, the places: the error for an open element points at the `<` of its start tag, the one for an unfinished construct at
its `<`; except that for a text that ends in `<`, or in `<!` and a part of a keyword, it points at the beginning of the node
that was begun last. -/
theorem c52_places (s : Str) (o : ParseOptions) : (∀ i, openAt s o = some i → s[i]? = some '<') ∧
    ∀ x i, unfinishedAt s o = some (x, i) → x ≠ "UnkownTag".toList → x ≠ "ExclamationBegin".toList → s[i]? = some '<' := by
  cases hr : (Doc.new o).run s s with
  | err e => unfold openAt unfinishedAt; rw [hr]; simp
  | panic e => unfold openAt unfinishedAt; rw [hr]; simp
  | ok d =>
    have h : Ran o s d := hr
    have hd := h.reach.ctl
    constructor
    · intro i hi
      rw [h.openAt] at hi
      cases hc : d.chain.dropLast.head? with
      | none => rw [hc] at hi; cases hi
      | some t =>
        rw [hc] at hi
        simp only [Option.map_some, Option.some.injEq] at hi
        rw [← hi]
        have hmem : t ∈ d.chain.dropLast := List.mem_of_mem_head? hc
        have hmem' : t ∈ d.chain := List.dropLast_subset _ hmem
        have h0 : t ≠ 0 := by
          rintro rfl
          have hne : d.chain ≠ [] := by intro q; rw [q] at hmem'; cases hmem'
          have hl := hd.chainLast hne
          rw [List.getLast?_eq_some_getLast hne, Option.some.injEq] at hl
          have e := List.dropLast_concat_getLast hne
          have hs := hd.chainSorted
          rw [hl] at e
          rw [← e] at hs
          have := (List.pairwise_append.1 hs).2.2 0 hmem 0 (by simp)
          exact absurd this (Nat.lt_irrefl 0)
        exact h.reach.begins t (hd.chainLt t hmem') (.inl (hd.chainTag t hmem' h0))
    · intro x i hi h1 h2
      rw [h.unfinishedAt] at hi
      cases hp : d.codeIn.pending with
      | none => rw [hp] at hi; cases hi
      | some y =>
        rw [hp] at hi
        simp only [Option.map_some, Option.some.injEq, Prod.mk.injEq] at hi
        obtain ⟨rfl, rfl⟩ := hi
        have hok := hd.hs
        unfold HandleOk at hok
        have hsrc := h.reach.srcAt
        unfold SrcAt at hsrc
        cases hh : d.handle <;> simp only [hh] at hok hsrc
        case wait => rcases hok.1 with q | q <;> rw [q] at hp <;> cases hp
        case text => rw [hok.1] at hp; cases hp
        case unkownTag => rw [hok.1] at hp; cases hp; exact absurd rfl h1
        case exclamationBegin => rw [hok.1] at hp; cases hp; exact absurd rfl h2
        case commentOrCdata => exact h.reach.begins _ hd.curLt (by rcases hok.2 with q | q <;> [exact .inr (.inl q.2.2); exact .inr (.inr (.inl q.2.2))])
        case doctypeName => exact h.reach.begins _ hd.curLt (.inr (.inr (.inr hok.2.2.1)))
        case tagName => exact h.reach.begins _ hd.curLt (.inl hok.2.2.1)
        case tagEnd => exact hsrc.first
        case contentTag => exact h.reach.begins _ hd.curLt (.inl hok.1)
        case tagWait | tagSelfClosing | attrKey | attrValue =>
          obtain ⟨_, m, _, _, _, _, q⟩ := hok
          rcases q with q | q
          · exact h.reach.begins _ hd.curLt (.inl q.2.1)
          · exact h.reach.begins _ hd.curLt (.inr (.inr (.inr q.2.1)))

/-! Every case occurs: -/

example : Refused {} "<p><".toList '1' (.wrongTag ['1']) 3 := .lt (by decide +kernel) rfl (by decide) (by decide) (by decide)

example : Refused {} "<p><!".toList 'x' (.wrongTag []) 3 := .bang (t := "<p><".toList) (by decide +kernel) (kw_first.2 (by decide))

example : Refused {} "<p><!dOc".toList 'x' (.unrecognizedTag "dOc".toList "DOCTYPE".toList) 3 :=
  .keyword (t := "<p><".toList) (by decide +kernel) (by decide +kernel) (by decide) (by decide) (by decide)
    ⟨"type".toList, by decide⟩ (by rw [List.prefix_iff_eq_take]; decide)

example : Refused {} "<p><!".toList '[' (.commonError "wrong <![CDATA tag can only used in Svg or MathML".toList) 5 :=
  .cdataOutside (t := "<p><".toList) (by decide +kernel) (by decide +kernel)

example : Refused {} "<svg><!".toList '[' (.commonError "<![CDATA tag can in sub node".toList) 7 :=
  .cdataDirect (t := "<svg><".toList) (n := "svg".toList) (ns := []) (by decide +kernel) (by decide +kernel) (by decide +kernel)

example : Refused {} "<!DocType".toList '>' (.wrongHtmlDoctype '>') 9 :=
  .doctype (t := "<".toList) (w := "DocType".toList) (by decide +kernel) (by decide +kernel) (by decide) (by decide)

example : Refused {} "<p a=1 ".toList '=' (.wrongTag "'=' is not a valid attribute name".toList) 7 := .equals (by decide +kernel) rfl

example : Refused {} "<p a=1 /".toList '>' (.wrongSelfClosing ['p']) 8 := .selfClosing (by decide +kernel) rfl (by decide) (by decide +kernel)

example : Refused { caseSensitiveTagname := true } "<p></P ".toList '>' (.wrongCaseSensitive "P ".toList) 7 :=
  .endCase (t := "<p><".toList) (n := "p".toList) (ns := []) (by decide +kernel) (by decide) rfl (by decide +kernel) (by decide) (by decide)

example : Refused {} "<p></b".toList '>' (.wrongEndTag "b".toList) 6 :=
  .endStray (t := "<p><".toList) (by decide +kernel) (by decide) rfl (by
    intro n ns h
    have : openNames "<p><".toList {} = ["p".toList] := by decide +kernel
    rw [this] at h
    cases h
    decide)

example : Unfinished {} "<div>a<p>b".toList (.unclosedTag "p".toList) 6 :=
  .element (ns := ["div".toList]) rfl (by decide +kernel) (by decide +kernel) (fun h => by
    obtain ⟨d, h1, h2⟩ := inName_iff.2 h
    have : ∀ d, (Doc.new {}).run "<div>a<p>b".toList "<div>a<p>b".toList = .ok d → d.handle = .text := by
      intro d h
      have k : (match (Doc.new {}).run "<div>a<p>b".toList "<div>a<p>b".toList with | .ok d => decide (d.handle = .text) | _ => false) = true := by
        decide +kernel
      rw [h] at k
      simpa using k
    rw [this d h1] at h2; cases h2)

example : Unfinished {} "ab<!-- x".toList (.unclosedTag "Comment".toList) 2 := .construct (.inr (by decide +kernel)) (by decide +kernel)

/-- The error for a `<` at the end of the text does not point at the `<`, but at the node before it. -/
example : Unfinished {} "ab<p></p> <".toList (.unclosedTag "UnkownTag".toList) 9 := .construct (.inr (by decide +kernel)) (by decide +kernel)

example : Unfinished { autoFixUnclosedTag := true } "<p><script>x".toList (.unclosedTag "HTMLScript".toList) 3 :=
  .construct (.inl rfl) (by decide +kernel)

end Rphtml
