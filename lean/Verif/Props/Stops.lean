import Verif.Spec.Stops
import Verif.Props.Panics
import Verif.Props.Graph
import Verif.Proofs.Ctx
import Verif.Props.Fixes

/-!
# C01 and C02, exactly

The texts on which parsing panics, site by site; the accepted texts whose document cannot be rendered.
-/

namespace Rphtml
open Spec

/-- A text is read up to its end. -/
def Ran (o : ParseOptions) (u : Str) (d : Doc) : Prop := (Doc.new o).run u u = .ok d

theorem Ran.ctx {o : ParseOptions} {u : Str} {d : Doc} (h : Ran o u d) (ctx : Str) : (Doc.new o).run ctx u = .ok d :=
  run_ok_ctx h ctx

theorem Ran.of {o : ParseOptions} {u : Str} {d : Doc} {ctx : Str} (h : (Doc.new o).run ctx u = .ok d) : Ran o u d :=
  run_ok_ctx h u

theorem Ran.reach {o : ParseOptions} {u : Str} {d : Doc} (h : Ran o u d) : Reach o u d := by
  simpa using Reach.run u [] _ _ Reach.init h

theorem Ran.nil (o : ParseOptions) : Ran o [] (Doc.new o) := rfl

theorem Ran.snoc {o : ParseOptions} {u : Str} {c : Char} {d' : Doc} (h : Ran o (u ++ [c]) d') :
    ∃ d d1, Ran o u d ∧ Step d c d1 ∧ d' = { d1 with position := d1.position + 1 } := by
  have h1 : (Doc.new o).run (u ++ [c]) (u ++ [c]) = .ok d' := h
  rw [run_append] at h1
  cases hr : (Doc.new o).run (u ++ [c]) u with
  | err e => rw [hr] at h1; simp at h1
  | panic p => rw [hr] at h1; simp at h1
  | ok d =>
    rw [hr] at h1
    simp only [Res.bind, Doc.run, Res.bind_eq] at h1
    have hd := Ran.of hr
    cases hn : d.next c (u ++ [c]) with
    | err e => rw [hn] at h1; simp at h1
    | panic p => rw [hn] at h1; simp at h1
    | ok d2 =>
      rw [hn] at h1
      simp only [Res.ok.injEq] at h1
      subst h1
      obtain ⟨d1, k1, k2, _⟩ := hd.reach.next_step hn
      exact ⟨d, d1, hd, k1, k2⟩

/-- Where a pending start tag or `<!` began. -/
def Orig (o : ParseOptions) (s : Str) (d : Doc) : Prop :=
  match d.handle with
  | .exclamationBegin => ∃ u d0, s = u ++ '!' :: d.prevChars ∧ Ran o u d0 ∧ d0.handle = .unkownTag ∧ d.chain = d0.chain ∧
      d.inSpecial = d0.inSpecial ∧ (d.detect = some detectCdata → d.chain ≠ [])
  | .tagName => ∃ u d0, s = u ++ d.prevChars ∧ Ran o u d0 ∧ d0.handle = .unkownTag ∧ d0.chain ≠ []
  | _ => True

theorem Orig.triv {o : ParseOptions} {s : Str} {d : Doc} (h1 : d.handle ≠ .exclamationBegin) (h2 : d.handle ≠ .tagName) :
    Orig o s d := by
  unfold Orig
  split
  · rename_i h; exact absurd h h1
  · rename_i h; exact absurd h h2
  · trivial

theorem closeTag_orig (d : Doc) (m : TagMeta) : (d.closeTag m).handle ≠ .exclamationBegin ∧ (d.closeTag m).handle ≠ .tagName := by
  rcases closeTag_notag d m with h | h
  · rw [h]; simp
  · rw [h.1]; simp

theorem tagChar_handle {isDoc allowEq : Bool} {t t' : TagSt} {c : Char} {id : Option Str} (hin : t.handle.inTag = true)
    (h : tagChar isDoc allowEq t c = .cont t' id) : t'.handle.inTag = true := by
  unfold tagChar tagWaitC at h
  cases hh : t.handle <;> rw [hh] at hin <;> simp only [Handler.inTag, Bool.false_eq_true] at hin <;> simp only [hh] at h
  all_goals
    repeat' split at h
    all_goals first
      | (cases h; done)
      | skip
    all_goals
      simp only [TagOut.cont.injEq] at h
      obtain ⟨rfl, _⟩ := h
    all_goals simp_all [Handler.inTag]

theorem Orig.step {o : ParseOptions} {s : Str} {d d1 : Doc} {c : Char} (hr : Ran o s d) (hs : Step d c d1) (ih : Orig o s d) :
    Orig o (s ++ [c]) { d1 with position := d1.position + 1 } := by
  have hd := hr.reach.ctl
  have hok := hd.hs
  cases hs with
  | tagOpen hh hc p hp =>
    unfold Orig
    simp only
    refine ⟨s, d, rfl, hr, hh, ?_⟩
    intro h; rw [h] at hp; cases hp
  | bang hh hc =>
    unfold HandleOk at hok
    simp only [hh] at hok
    unfold Orig
    simp only
    refine ⟨s, d, by rw [hok.2.1, hc], hr, hh, rfl, rfl, ?_⟩
    intro h; rw [hok.2.2] at h; cases h
  | exclFirst hh hdt D hD =>
    unfold Orig at ih ⊢
    unfold HandleOk at hok
    simp only [hh] at ih hok ⊢
    obtain ⟨u, d0, rfl, h1, h2, h3, h4, _⟩ := ih
    have hpc : d.prevChars = [] := by
      rcases hok.2 with h | ⟨_, h, _⟩
      · exact h.2
      · rw [hdt] at h; cases h
    refine ⟨u, d0, by rw [hpc]; simp, h1, h2, h3, h4, ?_⟩
    intro hD2
    simp only [Option.some.injEq] at hD2
    rcases hD with h | h | ⟨_, _, _, _, t, _, _, h, _⟩
    · rw [hD2] at h; exact absurd h.2 (by decide)
    · rw [hD2] at h; exact absurd h.2 (by decide)
    · intro hc; rw [hc] at h; cases h
  | exclMore hh D hdt hl hc =>
    unfold Orig at ih ⊢
    simp only [hh] at ih ⊢
    obtain ⟨u, d0, rfl, h1, h2, h3, h4, h5⟩ := ih
    exact ⟨u, d0, by simp, h1, h2, h3, h4, h5⟩
  | nameMore hh hc =>
    unfold Orig at ih ⊢
    simp only [hh] at ih ⊢
    obtain ⟨u, d0, rfl, h1, h2, h3⟩ := ih
    exact ⟨u, d0, by simp, h1, h2, h3⟩
  | tagClose hh m hm m' pc mark id ht =>
    have := closeTag_orig (d.putTag { handle := d.handle, m := m', pc := pc, mark := mark } id) m'
    exact Orig.triv this.1 this.2
  | nameClose hh hc m hm =>
    have := closeTag_orig (d.putTag { handle := d.handle, m := m, pc := [], mark := d.markChar } none) m
    exact Orig.triv this.1 this.2
  | tagMore hh m hm t id ht =>
    have h1 := tagChar_handle (t := d.tagSt m) hh ht
    apply Orig.triv
    · intro h
      have h2 : t.handle = .exclamationBegin := h
      rw [h2] at h1; cases h1
    · intro h
      have h2 : t.handle = .tagName := h
      rw [h2] at h1; cases h1
  | ltExtend hh hf hc ht w hw d2 h1 =>
    subst h1
    apply Orig.triv <;> (simp only; split <;> simp [Doc.endText])
  | ltNew hh hf hc ht p hp d2 h1 =>
    subst h1
    apply Orig.triv <;> (simp only; split <;> simp [Doc.endText])
  | nameEnd hh hc =>
    apply Orig.triv <;> (simp only [Doc.putTag]; split <;> simp)
  | _ => apply Orig.triv <;> simp_all [Doc.endText, Doc.putTag]

theorem Ran.orig {o : ParseOptions} : ∀ (n : Nat) (s : Str) (d : Doc), s.length = n → Ran o s d → Orig o s d := by
  intro n
  induction n with
  | zero =>
    intro s d hl h
    have : s = [] := List.length_eq_zero_iff.1 hl
    subst this
    have : d = Doc.new o := by cases h; rfl
    subst this
    apply Orig.triv <;> simp [Doc.new]
  | succ n ih =>
    intro s d hl h
    rcases List.eq_nil_or_concat s with rfl | ⟨u, c, rfl⟩
    · simp at hl
    · rw [List.concat_eq_append] at h hl ⊢
      obtain ⟨d0, d1, h1, h2, rfl⟩ := h.snoc
      exact (ih u d0 (by simpa using hl) h1).step h1 h2

theorem afterLt_iff {o : ParseOptions} {u : Str} : afterLt u o = true ↔ ∃ d, Ran o u d ∧ d.handle = .unkownTag := by
  unfold afterLt Ran
  cases (Doc.new o).run u u <;> simp

theorem beforeText_iff {o : ParseOptions} {u : Str} : beforeText u o = true ↔
    ∃ d, Ran o u d ∧ d.handle = .wait ∧ ¬ (o.autoFixUnexpectedEndtag = true ∧ d.cur.nodeType = .text) := by
  unfold beforeText Ran
  cases h : (Doc.new o).run u u with
  | ok d =>
    simp only [decide_eq_true_eq, Res.ok.injEq]
    exact ⟨fun k => ⟨d, rfl, k⟩, fun ⟨_, e, k⟩ => e ▸ k⟩
  | err e => simp
  | panic p => simp

theorem Ran.notClosed {o : ParseOptions} {u : Str} {d : Doc} (h : Ran o u d) : Spec.notClosed u o = !d.chain.isEmpty := by
  unfold Spec.notClosed Ran at *; rw [h]

theorem Ran.inForeign {o : ParseOptions} {u : Str} {d : Doc} (h : Ran o u d) : Spec.inForeign u o = decide (d.inSpecial ≠ none) := by
  unfold Spec.inForeign Ran at *; rw [h]

theorem Ran.openNames {o : ParseOptions} {u : Str} {d : Doc} (h : Ran o u d) :
    Spec.openNames u o = d.chain.dropLast.map fun i => ((d.heap.cell i).tmeta.getD {}).name := by
  unfold Spec.openNames Ran at *; rw [h]

theorem Ran.unique {o : ParseOptions} {u : Str} {d d' : Doc} (h : Ran o u d) (h' : Ran o u d') : d = d' := by
  unfold Ran at *; rw [h] at h'; cases h'; rfl

/-- Reading on after a prefix. -/
theorem Ran.parse {o : ParseOptions} {u : Str} {d : Doc} (h : Ran o u d) (v : Str) {p : Site}
    (hp : ∀ ctx, d.run ctx v = .panic p) : Doc.parse (u ++ v) o = .panic p := by
  unfold Doc.parse
  simp only [Res.bind_eq]
  rw [run_append, h.ctx]
  simp only [Res.bind]
  rw [hp]

theorem run_cons_panic {d : Doc} {ctx : Str} {c : Char} {p : Site} (r : Str) (h : runHandle d c ctx = .panic p) :
    d.run ctx (c :: r) = .panic p := by
  simp only [Doc.run, Doc.next, Res.bind_eq, h, Res.bind]

theorem run_cons_ok {d d1 : Doc} {ctx : Str} {c : Char} (r : Str) (h : runHandle d c ctx = .ok d1) :
    d.run ctx (c :: r) = { d1 with position := d1.position + 1 }.run ctx r := by
  simp only [Doc.run, Doc.next, Res.bind_eq, h, Res.bind]

/-- A letter after `<`, with nothing to put the element into. -/
theorem alpha_panic {d : Doc} {ctx : Str} {c : Char} (hh : d.handle = .unkownTag) (hc : d.chain = []) (ha : isAlpha c = true) :
    runHandle d c ctx = .panic .chainLast := by
  have h1' : (isLower c || isUpper c) = true := ha
  unfold runHandle parseUnkownTag
  simp only [hh, h1', if_true]
  rw [addNewNode_empty _ _ (by simp [Cell.new]) (by rw [hc]; rfl)]
  rfl

theorem text_panic {d : Doc} {ctx : Str} {c : Char} (hd : Ctl d) (hh : d.handle = .wait) (hc : d.chain = [])
    (hn : ¬ (d.opts.autoFixUnexpectedEndtag = true ∧ d.cur.nodeType = .text)) (h1 : c ≠ '<') :
    runHandle d c ctx = .panic .chainLast := by
  have hs := runHandle_sound c ctx hd
  cases hr : runHandle d c ctx with
  | ok d1 =>
    exfalso
    have := hs.1 d1 hr
    cases this
    case textResume => exact hn ⟨by assumption, by assumption⟩
    all_goals simp_all [Handler.inTag]
  | err e =>
    exfalso
    have := hs.2.2 e hr
    cases this <;> simp_all [Handler.inTag]
  | panic p =>
    rcases hs.2.1 p hr with h | h | h
    · rw [h.1]
    · rw [hh] at h; exact absurd h.2.2.1 (by simp)
    · rw [hh] at h; exact absurd h.2.2.1 (by simp)

theorem toUpper_eq_D (c : Char) : toUpper c = 'D' ↔ c = 'D' ∨ c = 'd' := by
  simp only [char_eq_iff, toNat_toUpper]
  have : 'D'.toNat = 68 := by decide
  have h2 : 'd'.toNat = 100 := by decide
  rw [this, h2]; split <;> omega

/-- The rest of `<!--` or `<!doctype`, with nothing to put the node into. -/
theorem detect_panic {D : Str} (hD : D = detectComment ∨ D = detectDoctype) (ctx : Str) : ∀ (r : Str) (post : Str) (d : Doc),
    d.handle = .exclamationBegin → d.chain = [] → d.detect = some D → r ≠ [] → r.map toUpper = D.drop d.prevChars.length →
    d.run ctx (r ++ post) = .panic .chainLast := by
  intro r
  induction r with
  | nil => intro _ _ _ _ _ h; exact absurd rfl h
  | cons c r ih =>
    intro post d hh hch hdt _ hr
    have hlt : d.prevChars.length < D.length := by
      apply Nat.lt_of_not_le
      intro h
      rw [List.drop_eq_nil_of_le h] at hr
      cases hr
    have hlen : r.length + 1 + d.prevChars.length = D.length := by
      have := congrArg List.length hr
      simp at this; omega
    rw [List.drop_eq_getElem_cons hlt] at hr
    simp only [List.map_cons, List.cons.injEq] at hr
    obtain ⟨hc, hr⟩ := hr
    have hget : D[d.prevChars.length]? = some (toUpper c) := by rw [hc]; exact List.getElem?_eq_getElem hlt
    cases r with
    | nil =>
      apply run_cons_panic
      have hl : d.prevChars.length = D.length - 1 := by simp at hlen; omega
      unfold runHandle parseExclamationBegin
      simp only [hh, hdt, hlt, if_true, hget]
      rw [if_pos hl]
      rcases hD with rfl | rfl
      · have hc' : c = '-' := by
          rw [hl] at hget
          simp only [detectComment, List.length_cons, List.length_nil] at hget
          exact (toUpper_eq_dash c).1 (by simpa using hget.symm)
        simp only [hc', true_or, if_true]
        rw [addNewNode_empty _ _ (by simp [Cell.new]) (by simp [Doc.setCodeIn, hch])]
        rfl
      · have hc' : c = 'E' ∨ c = 'e' := by
          rw [hl] at hget
          simp only [detectDoctype, List.length_cons, List.length_nil] at hget
          exact (toUpper_eq_E c).1 (by simpa using hget.symm)
        have hn : ¬ (c = '-' ∨ c = '[') := by rcases hc' with rfl | rfl <;> decide
        simp only [hn, if_false, hc', if_true]
        rw [addNewNode_empty _ _ (by simp [Cell.new]) (by simp [Doc.setCodeIn, hch])]
        rfl
    | cons c2 r =>
      have hok : runHandle d c ctx = .ok (d.pushChar c) := by
        have hl : ¬ d.prevChars.length = D.length - 1 := by simp at hlen; omega
        unfold runHandle parseExclamationBegin
        simp only [hh, hdt, hlt, if_true, hget, hl, if_false]
      rw [List.cons_append, run_cons_ok _ hok]
      exact ih post _ hh hch hdt (by simp) (by simpa [Doc.pushChar] using hr)

theorem bang_run {d : Doc} {ctx : Str} (hd : Ctl d) (hh : d.handle = .unkownTag) (r : Str) :
    ∃ d1 : Doc, d.run ctx ('!' :: r) = d1.run ctx r ∧ d1.handle = .exclamationBegin ∧ d1.detect = none ∧ d1.prevChars = [] ∧
      d1.chain = d.chain ∧ d1.inSpecial = d.inSpecial ∧ d1.heap = d.heap := by
  have hs := hd.hs
  unfold HandleOk at hs
  simp only [hh] at hs
  refine ⟨_, run_cons_ok (d1 := d.setCodeIn .exclamationBegin) r ?_, rfl, hs.2.2, hs.2.1, rfl, rfl, rfl⟩
  unfold runHandle parseUnkownTag
  simp only [hh, show (isLower '!' || isUpper '!') = false from by decide]
  simp

/-- `<!--` or `<!doctype`, with nothing to put the node into. -/
theorem bang_panic {d : Doc} {ctx : Str} {D : Str} (hD : D = detectComment ∨ D = detectDoctype) (hd : Ctl d) (hh : d.handle = .unkownTag)
    (hch : d.chain = []) (r post : Str) (hr : r.map toUpper = D) : d.run ctx ('!' :: (r ++ post)) = .panic .chainLast := by
  obtain ⟨d1, e, h1, h2, h3, h4, _⟩ := bang_run (ctx := ctx) hd hh (r ++ post)
  rw [e]
  cases r with
  | nil => rcases hD with rfl | rfl <;> cases hr
  | cons c r =>
    have hok : ∀ d' : Doc, d'.handle = .exclamationBegin → d'.detect = none →
        runHandle d' c ctx = .ok ({ d' with detect := some D }.pushChar c) := by
      intro d' h1 h2
      unfold runHandle parseExclamationBegin
      simp only [h1, h2]
      rcases hD with rfl | rfl
      · have hc : c = '-' := by
          simp only [List.map_cons, detectComment, List.cons.injEq] at hr
          exact (toUpper_eq_dash c).1 hr.1
        rw [if_pos hc]
      · have hc : c = 'D' ∨ c = 'd' := by
          simp only [List.map_cons, detectDoctype, List.cons.injEq] at hr
          exact (toUpper_eq_D c).1 hr.1
        have hn : ¬ c = '-' := by rcases hc with rfl | rfl <;> decide
        rw [if_neg hn, if_pos hc]
    rw [List.cons_append, run_cons_ok _ (hok d1 h1 h2)]
    refine detect_panic hD ctx r post _ h1 (h4.trans hch) rfl ?_ ?_
    · rintro rfl
      rcases hD with rfl | rfl <;> simp [detectComment, detectDoctype] at hr
    · simp only [Doc.pushChar, h3, List.nil_append, List.length_cons, List.length_nil]
      rw [← hr]; simp

/-- `<![` where the parser looks for an open element and there is none, or where it finds the document itself. -/
theorem cdata_panic {d : Doc} {ctx : Str} (hd : Ctl d) (hh : d.handle = .unkownTag) (hsp : d.inSpecial ≠ none) (post : Str) :
    (d.chain = [] → d.run ctx ('!' :: '[' :: post) = .panic .cdataChainLast) ∧
    (d.chain = [0] → d.run ctx ('!' :: '[' :: post) = .panic .cdataChainMeta) := by
  obtain ⟨d1, e, h1, h2, h3, h4, h5, h6⟩ := bang_run (ctx := ctx) hd hh ('[' :: post)
  rw [e]
  cases hs : d.inSpecial with
  | none => exact absurd hs hsp
  | some x =>
    obtain ⟨k, n⟩ := x
    have hn : ¬ ('[' = '-') ∧ ¬ ('[' = 'D' ∨ '[' = 'd') := by decide
    constructor
    · intro hc
      apply run_cons_panic
      unfold runHandle parseExclamationBegin
      simp only [h1, h2, hn.1, hn.2, if_false, if_true, h5, hs, h4, hc, List.head?_nil]
    · intro hc
      apply run_cons_panic
      unfold runHandle parseExclamationBegin
      simp only [h1, h2, hn.1, hn.2, if_false, if_true, h5, hs, h4, hc, List.head?_cons, h6, hd.rootMeta]

theorem toUpper_toLower (c : Char) : toUpper (toLower c) = toUpper c := by
  apply char_ext
  rw [toNat_toUpper, toNat_toLower, toNat_toUpper]
  repeat' split
  all_goals omega

theorem upper_doctype {kw : Str} (h : fold kw = "doctype".toList) : kw.map toUpper = detectDoctype := by
  rw [fold_eq_lowerAll] at h
  have := congrArg (List.map toUpper) h
  rw [lowerAll, List.map_map] at this
  have e : (toUpper ∘ toLower) = toUpper := funext toUpper_toLower
  rw [e] at this
  rw [this]; decide

theorem mem_ws_iff (x : Char) : x ∉ ws ↔ isWs x = false := (not_isWs_mem x).symm

/-- Reading the rest of the name of a start tag. -/
theorem name_run {ctx : Str} : ∀ (r : Str) (d : Doc), d.handle = .tagName → (∀ x ∈ r, x ∉ ws ∧ x ≠ '/' ∧ x ≠ '>') →
    ∃ d', d.run ctx r = .ok d' ∧ d'.handle = .tagName := by
  intro r
  induction r with
  | nil => intro d hh _; exact ⟨d, rfl, hh⟩
  | cons c r ih =>
    intro d hh h
    obtain ⟨h1, h2, h3⟩ := h c (by simp)
    have hok : runHandle d c ctx = .ok (d.pushChar c) := by
      unfold runHandle parseTagName
      simp only [hh, (mem_ws_iff c).1 h1, h2, h3]
      simp
    rw [run_cons_ok _ hok]
    exact ih _ hh (fun x hx => h x (by simp [hx]))

theorem tagNameText_iff {n : Str} : tagNameText n ↔ TagNameOk n := by
  constructor
  · rintro ⟨c, r, rfl, h1, h2⟩
    exact ⟨c, r, rfl, by rw [isAlpha_eq]; exact h1, fun x hx => ⟨(mem_ws_iff x).1 (h2 x hx).1, (h2 x hx).2⟩⟩
  · rintro ⟨c, r, rfl, h1, h2⟩
    exact ⟨c, r, rfl, by rw [← isAlpha_eq]; exact h1, fun x hx => ⟨(mem_ws_iff x).2 (h2 x hx).1, (h2 x hx).2⟩⟩

/-- Being inside the name of a start tag, in terms of the text. -/
theorem inName_iff {o : ParseOptions} {s : Str} : (∃ d, Ran o s d ∧ d.handle = .tagName) ↔
    ∃ u n, s = u ++ n ∧ afterLt u o = true ∧ Spec.notClosed u o = true ∧ tagNameText n := by
  constructor
  · rintro ⟨d, hr, hh⟩
    have ho := hr.orig _ _ _ rfl
    have hs := hr.reach.ctl.hs
    unfold Orig at ho
    unfold HandleOk at hs
    simp only [hh] at ho hs
    obtain ⟨u, d0, e, h1, h2, h3⟩ := ho
    exact ⟨u, d.prevChars, e, afterLt_iff.2 ⟨d0, h1, h2⟩, by rw [h1.notClosed]; simpa using h3, tagNameText_iff.2 hs.2.2.2.2.2⟩
  · rintro ⟨u, n, rfl, h1, h2, c, r, rfl, h3, h4⟩
    obtain ⟨d0, k1, k2⟩ := afterLt_iff.1 h1
    rw [k1.notClosed] at h2
    have hp : ∃ p, d0.chain.head? = some p := by
      cases hc : d0.chain with
      | nil => rw [hc] at h2; cases h2
      | cons p l => exact ⟨p, rfl⟩
    obtain ⟨p, hp⟩ := hp
    have h1' : (isLower c || isUpper c) = true := by
      have : isAlpha c = true := by rw [isAlpha_eq]; exact h3
      exact this
    have hok : ∃ d1 : Doc, runHandle d0 c (u ++ c :: r) = .ok d1 ∧ d1.handle = .tagName := by
      unfold runHandle parseUnkownTag
      simp only [k2, h1', if_true]
      rw [addNewNode_child _ _ p (by simp [Cell.new]) hp]
      exact ⟨_, rfl, by simp [Doc.pushChar, Doc.setTextSpacesBetween, Doc.setCodeIn]; split <;> rfl⟩
    obtain ⟨d1, e1, e2⟩ := hok
    obtain ⟨d2, e3, e4⟩ := name_run (ctx := u ++ c :: r) r { d1 with position := d1.position + 1 } e2 (fun x hx => h4 x (by simp [hx]))
    refine ⟨d2, ?_, e4⟩
    unfold Ran
    rw [run_append, k1.ctx]
    simp only [Res.bind]
    rw [run_cons_ok _ e1, e3]

theorem chain_root {o : ParseOptions} {u : Str} {d : Doc} (h : Ran o u d) :
    d.chain = [0] ↔ Spec.notClosed u o = true ∧ Spec.openNames u o = [] := by
  rw [h.notClosed, h.openNames]
  have hl := h.reach.ctl.chainLast
  constructor
  · intro e; rw [e]; exact ⟨rfl, rfl⟩
  · rintro ⟨h1, h2⟩
    have hne : d.chain ≠ [] := by intro e; rw [e] at h1; cases h1
    have hl := hl hne
    cases hc : d.chain with
    | nil => exact absurd hc hne
    | cons a l =>
      rw [hc] at hl h2
      cases l with
      | nil => simp at hl; rw [hl]
      | cons b l => simp at h2

theorem tagName_len {d : Doc} (hd : Ctl d) (hh : d.handle = .tagName) : d.chain.length > 1 := by
  have hs := hd.hs
  unfold HandleOk at hs
  simp only [hh] at hs
  have hty := hs.2.2.1
  have hne : d.current ≠ 0 := by
    intro h0
    have := (hd.rootTy d.current hd.curLt).2 h0
    unfold Doc.cur at hty
    rw [hty] at this; cases this
  have := hd.tail_ne hs.2.2.2.2.1 hne
  cases hc : d.chain with
  | nil => rw [hc] at this; exact absurd rfl this
  | cons a l =>
    rw [hc] at this
    cases l with
    | nil => exact absurd rfl this
    | cons b l => simp

/-- **C01**, exactly: the texts on which parsing panics, for each of the panic sites and all options.
* `eof` unwraps the metadata of the innermost open tag: the text ends inside the name of a start tag, and
  `auto_fix_unclosed_tag` is off.
* `add_new_node` unwraps the innermost open node: the document has been closed (by a self-closed doctype at its top level),
  and a start tag, a comment, a doctype or a text comes after it.
* `parse_exclamation_begin` unwraps the innermost open node: the document has been closed, an `svg` or `math` element is still
  remembered, and `<![` comes.
* It unwraps its metadata: no element is open, an `svg` or `math` element is still remembered, and `<![` comes. -/
theorem c01_exact (s : Str) (o : ParseOptions) (p : Site) : Doc.parse s o = .panic p ↔
    (p = .eofMeta ∧ o.autoFixUnclosedTag = false ∧
      ∃ u n, s = u ++ n ∧ afterLt u o = true ∧ notClosed u o = true ∧ tagNameText n) ∨
    (p = .chainLast ∧ ∃ u v, s = u ++ v ∧ notClosed u o = false ∧
      (afterLt u o = true ∧ opensNode v ∨ beforeText u o = true ∧ ∃ c r, v = c :: r ∧ c ≠ '<')) ∨
    (p = .cdataChainLast ∧
      ∃ u v, s = u ++ '!' :: '[' :: v ∧ afterLt u o = true ∧ inForeign u o = true ∧ notClosed u o = false) ∨
    (p = .cdataChainMeta ∧
      ∃ u v, s = u ++ '!' :: '[' :: v ∧ afterLt u o = true ∧ inForeign u o = true ∧ notClosed u o = true ∧ openNames u o = []) := by
  constructor
  · intro h
    unfold Doc.parse at h
    simp only [Res.bind_eq] at h
    cases hr : (Doc.new o).run s s with
    | err e => rw [hr] at h; simp at h
    | ok d =>
      rw [hr] at h
      simp only [Res.bind] at h
      have hran : Ran o s d := hr
      have he : d.eof s = .panic p := by
        cases hq : d.eof s <;> rw [hq] at h <;> simp at h
        rw [h]
      obtain ⟨h1, h2, h3⟩ := eof_panic hran.reach.ctl he
      rw [hran.reach.opts] at h2
      exact Or.inl ⟨h1, h2, inName_iff.1 ⟨d, hran, h3⟩⟩
    | panic q =>
      rw [hr] at h
      simp only [Res.bind, Res.panic.injEq] at h
      subst h
      obtain ⟨pre, c, post, d1, e, hre, hp, _, hrun⟩ := Reach.run_panic s [] _ Reach.init hr
      have hran : Ran o pre d1 := Ran.of hrun
      have hd := hran.reach.ctl
      have hopts := hran.reach.opts
      have ho := hran.orig _ _ _ rfl
      have hs := hd.hs
      have hclosed : d1.chain = [] → Spec.notClosed pre o = false := by
        intro hc; rw [hran.notClosed, hc]; rfl
      rcases hp with ⟨rfl, hch, hp⟩ | ⟨rfl, hch, hh, hdt, hsp, rfl⟩ | ⟨rfl, hch, hh, hdt, hsp, rfl⟩
      · refine Or.inr (Or.inl ⟨rfl, ?_⟩)
        rcases hp with ⟨h1, h2, h3⟩ | ⟨h1, h2⟩ | ⟨h1, D, h2, h3, h4⟩
        · rw [hopts] at h3
          exact ⟨pre, c :: post, e, hclosed hch, Or.inr ⟨beforeText_iff.2 ⟨d1, hran, h1, h3⟩, c, post, rfl, h2⟩⟩
        · exact ⟨pre, c :: post, e, hclosed hch,
            Or.inl ⟨afterLt_iff.2 ⟨d1, hran, h1⟩, Or.inl ⟨c, post, rfl, by rw [← isAlpha_eq]; exact h2⟩⟩⟩
        · unfold Orig at ho
          unfold HandleOk at hs
          simp only [h1] at ho hs
          obtain ⟨u, d0, e1, k1, k2, k3, k4, k5⟩ := ho
          have hmap : (d1.prevChars ++ [c]).map toUpper = D := by
            rcases hs.2 with g | ⟨D', g1, g2, g3, g4, g5⟩
            · rw [h2] at g; exact absurd g.1 (by simp)
            · rw [h2] at g1
              cases g1
              rw [List.map_append, g5]
              simp only [List.map_cons, List.map_nil]
              have hlt : d1.prevChars.length < D.length := by omega
              have : D.take (d1.prevChars.length + 1) = D.take d1.prevChars.length ++ [toUpper c] := by
                rw [List.take_add_one, h3]; rfl
              rw [← this, h4, List.take_length]
          have hcl : Spec.notClosed u o = false := by rw [k1.notClosed, ← k3, hch]; rfl
          refine ⟨u, '!' :: (d1.prevChars ++ [c] ++ post), by rw [e, e1]; simp, hcl,
            Or.inl ⟨afterLt_iff.2 ⟨d0, k1, k2⟩, Or.inr ?_⟩⟩
          rcases hs.2 with g | ⟨D', g1, g2, g3, g4, g5⟩
          · rw [h2] at g; exact absurd g.1 (by simp)
          · rw [h2] at g1
            cases g1
            rcases g2 with rfl | rfl | rfl
            · refine Or.inl ⟨post, ?_⟩
              generalize hq : d1.prevChars ++ [c] = q at hmap
              have hlq : q.length = 2 := by
                have := congrArg List.length hmap
                simpa [detectComment] using this
              match q, hlq, hmap with
              | [a, b], _, hm =>
                simp only [List.map_cons, List.map_nil, detectComment, List.cons.injEq, and_true] at hm
                rw [(toUpper_eq_dash a).1 hm.1, (toUpper_eq_dash b).1 hm.2]; rfl
            · exact Or.inr ⟨d1.prevChars ++ [c], post, rfl, fold_doctype hmap⟩
            · exact absurd hch (k5 h2)
      all_goals
        unfold Orig at ho
        unfold HandleOk at hs
        simp only [hh] at ho hs
        obtain ⟨u, d0, e1, k1, k2, k3, k4, k5⟩ := ho
        have hpc : d1.prevChars = [] := by
          rcases hs.2 with g | ⟨D', g1, _⟩
          · exact g.2
          · rw [hdt] at g1; cases g1
        have hfor : Spec.inForeign u o = true := by rw [k1.inForeign, ← k4]; exact decide_eq_true hsp
        have hlt := afterLt_iff.2 ⟨d0, k1, k2⟩
        have es : s = u ++ '!' :: '[' :: post := by rw [e, e1, hpc]; simp
      · exact Or.inr (Or.inr (Or.inl ⟨rfl, u, post, es, hlt, hfor, by rw [k1.notClosed, ← k3, hch]; rfl⟩))
      · have := (chain_root k1).1 (k3 ▸ hch)
        exact Or.inr (Or.inr (Or.inr ⟨rfl, u, post, es, hlt, hfor, this⟩))
  · rintro (⟨rfl, ho, h⟩ | ⟨rfl, u, v, rfl, hc, h⟩ | ⟨rfl, u, v, rfl, h1, h2, h3⟩ | ⟨rfl, u, v, rfl, h1, h2, h3⟩)
    · obtain ⟨d, hr, hh⟩ := inName_iff.2 h
      have hd := hr.reach.ctl
      have hopts := hr.reach.opts
      have hlen := tagName_len hd hh
      have hs := hd.hs
      unfold HandleOk at hs
      simp only [hh] at hs
      unfold Doc.parse
      simp only [Res.bind_eq]
      have hr' : (Doc.new o).run s s = .ok d := hr
      rw [hr']
      simp only [Res.bind]
      have hm : (d.heap.cell d.current).tmeta = none := hs.2.2.2.1
      unfold Doc.eof Doc.eofChain
      simp only [if_pos hlen, hopts, ho, Bool.not_false, if_true, hs.2.2.2.2.1, hm, Res.bind_eq, Res.bind]
    · have hch : ∀ d, Ran o u d → d.chain = [] := by
        intro d hr
        rw [hr.notClosed] at hc
        cases hl : d.chain with
        | nil => rfl
        | cons a l => rw [hl] at hc; cases hc
      rcases h with ⟨hlt, hop⟩ | ⟨hb, c, r, rfl, hne⟩
      · obtain ⟨d, hr, hh⟩ := afterLt_iff.1 hlt
        refine hr.parse v fun ctx => ?_
        rcases hop with ⟨c, r, rfl, ha⟩ | ⟨r, rfl⟩ | ⟨kw, r, rfl, hk⟩
        · exact run_cons_panic _ (alpha_panic hh (hch d hr) (by rw [isAlpha_eq]; exact ha))
        · exact bang_panic (Or.inl rfl) hr.reach.ctl hh (hch d hr) ['-', '-'] r (by decide)
        · exact bang_panic (Or.inr rfl) hr.reach.ctl hh (hch d hr) kw r (upper_doctype hk)
      · obtain ⟨d, hr, hh, hn⟩ := beforeText_iff.1 hb
        refine hr.parse _ fun ctx => ?_
        exact run_cons_panic _ (text_panic hr.reach.ctl hh (hch d hr) (by rw [hr.reach.opts]; exact hn) hne)
    · obtain ⟨d, hr, hh⟩ := afterLt_iff.1 h1
      refine hr.parse _ fun ctx => ?_
      rw [hr.inForeign] at h2
      refine (cdata_panic hr.reach.ctl hh (of_decide_eq_true h2) v).1 ?_
      rw [hr.notClosed] at h3
      cases hl : d.chain with
      | nil => rfl
      | cons a l => rw [hl] at h3; cases h3
    · obtain ⟨d, hr, hh⟩ := afterLt_iff.1 h1
      refine hr.parse _ fun ctx => ?_
      rw [hr.inForeign] at h2
      exact (cdata_panic hr.reach.ctl hh (of_decide_eq_true h2) v).2 ((chain_root hr).2 h3)

/-- Each of the four conditions is met by some text. -/
example : afterLt "<".toList {} = true ∧ notClosed "<".toList {} = true ∧ tagNameText "div".toList :=
  ⟨by decide +kernel, by decide +kernel, 'd', "iv".toList, rfl, by decide, by decide⟩

example : notClosed "<!DOCTYPE a/>".toList {} = false ∧ beforeText "<!DOCTYPE a/>".toList {} = true ∧
    afterLt "<!DOCTYPE a/><".toList {} = true ∧ notClosed "<!DOCTYPE a/><".toList {} = false := by decide +kernel

example : afterLt "<svg><!DOCTYPE a/><!DOCTYPE a/><".toList {} = true ∧ inForeign "<svg><!DOCTYPE a/><!DOCTYPE a/><".toList {} = true ∧
    notClosed "<svg><!DOCTYPE a/><!DOCTYPE a/><".toList {} = false := by decide +kernel

example : afterLt "<svg></SVG><".toList {} = true ∧ inForeign "<svg></SVG><".toList {} = true ∧
    notClosed "<svg></SVG><".toList {} = true ∧ openNames "<svg></SVG><".toList {} = [] := by decide +kernel

/-- A `<` that turned out to be text leaves room for one that opens markup. -/
example : afterLt "<!DOCTYPE a/><<".toList { autoFixUnescapedLt := true } = true := by decide +kernel

/-! ## Rendering -/

/-- A tree that was rendered has the metadata of every tag. -/
theorem buildTree_meta (lib : EntityLib) (o : RenderOptions) :
    (∀ t : Tree, ∀ st r, buildTree lib o t st = .ok r → allNodes (fun n => n.nodeType = .tag → n.tmeta ≠ none) t) ∧
    (∀ ts : List Tree, ∀ st r, buildForest lib o ts st = .ok r → allForest (fun n => n.nodeType = .tag → n.tmeta ≠ none) ts) := by
  have hn : ∀ (n : NodeD) st r, buildNode lib o n st = .ok r → (n.nodeType = .tag → n.tmeta ≠ none) := by
    intro n st r h ht hm
    unfold buildNode at h
    simp only [ht, hm] at h
    cases h
  have he : ∀ (e : Option NodeD) st r, buildEnd lib o e st = .ok r → ∀ x, e = some x → (x.nodeType = .tag → x.tmeta ≠ none) := by
    intro e st r h x hx
    subst hx
    exact hn x st r h
  apply Tree.induct
  · intro d e st r h
    simp only [buildTree] at h
    simp only [allNodes]
    cases h1 : buildNode lib o d st with
    | error x => rw [h1] at h; cases h
    | ok r1 =>
      rw [h1] at h
      simp only [Except.bind_ok'] at h
      cases h2 : buildEnd lib o e r1.1 with
      | error x => rw [h2] at h; cases h
      | ok r2 => exact ⟨hn d st r1 h1, he e _ _ h2⟩
  · intro d e ts ih st r h
    simp only [buildTree] at h
    simp only [allNodes]
    cases h1 : buildNode lib o d st with
    | error x => rw [h1] at h; cases h
    | ok r1 =>
      rw [h1] at h
      simp only [Except.bind_ok'] at h
      by_cases hr : r1.1.root = true
      · simp only [hr, if_true] at h
        cases h3 : buildForest lib o ts { r1.1 with root := false } with
        | error x => rw [h3] at h; cases h
        | ok r3 =>
          rw [h3] at h
          simp only [Except.bind_ok'] at h
          cases h2 : buildEnd lib o e r1.1 with
          | error x => rw [h2] at h; cases h
          | ok r2 => exact ⟨hn d st r1 h1, he e _ _ h2, ih _ _ h3⟩
      · simp only [hr] at h
        cases h3 : buildForest lib o ts r1.1 with
        | error x => simp [h3] at h; cases h
        | ok r3 =>
          simp only [h3, Except.bind_ok'] at h
          cases h2 : buildEnd lib o e r3.1 with
          | error x => simp [h2] at h; cases h
          | ok r2 => exact ⟨hn d st r1 h1, he e _ _ h2, ih _ _ h3⟩
  · intro st r _; simp [allForest]
  · intro t ts h1 h2 st r h
    simp only [buildForest] at h
    simp only [allForest]
    cases k1 : buildTree lib o t st with
    | error x => rw [k1] at h; cases h
    | ok r1 =>
      rw [k1] at h
      simp only [Except.bind_ok'] at h
      cases k2 : buildForest lib o ts r1.1 with
      | error x => rw [k2] at h; cases h
      | ok r2 => exact ⟨h1 _ _ k1, h2 _ _ k2⟩

/-- Rendering a tree in which only the metadata of tags can be missing. -/
theorem buildTree_but (lib : EntityLib) (o : RenderOptions) :
    (∀ t : Tree, allNodes (fun n => printable n ∨ (n.nodeType = .tag ∧ n.tmeta = none)) t → ∀ st,
      (∃ r, buildTree lib o t st = .ok r) ∨ buildTree lib o t st = .error .tagMeta) ∧
    (∀ ts : List Tree, allForest (fun n => printable n ∨ (n.nodeType = .tag ∧ n.tmeta = none)) ts → ∀ st,
      (∃ r, buildForest lib o ts st = .ok r) ∨ buildForest lib o ts st = .error .tagMeta) := by
  have hn : ∀ (n : NodeD) st, printable n ∨ (n.nodeType = .tag ∧ n.tmeta = none) →
      (∃ r, buildNode lib o n st = .ok r) ∨ buildNode lib o n st = .error .tagMeta := by
    intro n st h
    rcases h with h | ⟨h1, h2⟩
    · exact Or.inl (buildNode_printable lib o n st h)
    · right; unfold buildNode; simp only [h1, h2]
  have he : ∀ (e : Option NodeD) st, (∀ x, e = some x → printable x ∨ (x.nodeType = .tag ∧ x.tmeta = none)) →
      (∃ r, buildEnd lib o e st = .ok r) ∨ buildEnd lib o e st = .error .tagMeta := by
    intro e st h
    cases e with
    | none => exact Or.inl ⟨_, rfl⟩
    | some e => exact hn e st (h e rfl)
  apply Tree.induct
  · intro d e h st
    simp only [allNodes] at h
    rcases hn d st h.1 with ⟨r1, h1⟩ | h1
    · rcases he e r1.1 h.2 with ⟨r2, h2⟩ | h2
      · exact Or.inl ⟨_, by simp only [buildTree, h1, h2, Except.bind_ok']; rfl⟩
      · right; simp only [buildTree, h1, h2, Except.bind_ok']; rfl
    · right; simp only [buildTree, h1]; rfl
  · intro d e ts ih h st
    simp only [allNodes] at h
    rcases hn d st h.1 with ⟨r1, h1⟩ | h1
    · by_cases hr : r1.1.root = true
      · rcases ih h.2.2 { r1.1 with root := false } with ⟨r2, h2⟩ | h2
        · rcases he e r1.1 h.2.1 with ⟨r3, h3⟩ | h3
          · exact Or.inl ⟨_, by simp only [buildTree, h1, hr, if_true, h2, h3, Except.bind_ok']; rfl⟩
          · right; simp only [buildTree, h1, hr, if_true, h2, h3, Except.bind_ok']; rfl
        · right; simp only [buildTree, h1, hr, if_true, h2, Except.bind_ok']; rfl
      · rcases ih h.2.2 r1.1 with ⟨r2, h2⟩ | h2
        · rcases he e r2.1 h.2.1 with ⟨r3, h3⟩ | h3
          · exact Or.inl ⟨_, by simp only [buildTree, h1, hr, h2, h3, Except.bind_ok']; rfl⟩
          · right; simp only [buildTree, h1, hr, h2, h3, Except.bind_ok']; rfl
        · right; simp only [buildTree, h1, hr, h2, Except.bind_ok']; rfl
    · right; simp only [buildTree, h1]; rfl
  · intro _ st; exact Or.inl ⟨_, rfl⟩
  · intro t ts h1 h2 h st
    simp only [allForest] at h
    rcases h1 h.1 st with ⟨r1, e1⟩ | e1
    · rcases h2 h.2 r1.1 with ⟨r2, e2⟩ | e2
      · exact Or.inl ⟨_, by simp only [buildForest, e1, e2, Except.bind_ok']; rfl⟩
      · right; simp only [buildForest, e1, e2, Except.bind_ok']; rfl
    · right; simp only [buildForest, e1]; rfl

theorem optAll_mem {α β : Type} {f : α → Option β} : ∀ {l : List α} {bs : List β}, optAll f l = some bs → ∀ a ∈ l, ∃ b ∈ bs, f a = some b
  | [], _, _, a, ha => by cases ha
  | x :: l, bs, h, a, ha => by
    simp only [optAll] at h
    cases hx : f x with
    | none => rw [hx] at h; simp at h
    | some b =>
      cases hl : optAll f l with
      | none => rw [hx, hl] at h; simp at h
      | some cs =>
        rw [hx, hl] at h
        simp only [Option.some.injEq] at h
        subst h
        rcases List.mem_cons.1 ha with rfl | ha
        · exact ⟨b, by simp, hx⟩
        · obtain ⟨y, h1, h2⟩ := optAll_mem hl a ha
          exact ⟨y, by simp [h1], h2⟩

theorem allNodes_root {P : NodeD → Prop} {t : Tree} (h : allNodes P t) : P t.data := by
  obtain ⟨d, e, c⟩ := t
  cases c <;> (simp only [allNodes] at h; exact h.1)

/-- What holds for the nodes of the tree of a heap holds for the cells. -/
theorem toTree_cells {lt : Bool} {h : Heap} (g : Owns lt h) {P : NodeD → Prop} {t : Tree} {fuel : Nat} 
    (ht : h.toTree? fuel 0 = some t) (hp : allNodes P t) : ∀ n x, x ≤ n → x < h.size → (h.cell x).nodeType ≠ .tagEnd →
      ∃ f t', h.toTree? f x = some t' ∧ allNodes P t' := by
  intro n
  induction n with
  | zero =>
    intro x hx _ _
    have : x = 0 := by omega
    subst this
    exact ⟨fuel, t, ht, hp⟩
  | succ n ih =>
    intro x hx hlt hty
    by_cases hz : x = 0
    · subst hz; exact ⟨fuel, t, ht, hp⟩
    · obtain ⟨p, hp1, hp2⟩ := g.owned x hlt (by omega) hty
      have hr := g.range p x hp1 hp2
      have hpt : (h.cell p).nodeType ≠ .tagEnd := by
        have hch : (h.cell p).childs ≠ none := by
          intro hc; unfold Heap.kids at hp2; rw [hc] at hp2; simp at hp2
        rcases g.inner p hp1 hch with h1 | h1 <;> rw [h1] <;> simp
      obtain ⟨f, t', k1, k2⟩ := ih p (by omega) hp1 hpt
      cases f with
      | zero => simp [Heap.toTree?] at k1
      | succ f =>
        simp only [Heap.toTree?] at k1
        cases hc : (h.cell p).childs with
        | none => unfold Heap.kids at hp2; rw [hc] at hp2; simp at hp2
        | some ids =>
          rw [kids_some hc] at hp2
          rw [hc] at k1
          simp only at k1
          cases ha : optAll (h.toTree? f) ids with
          | none => rw [ha] at k1; simp at k1
          | some ts =>
            rw [ha] at k1
            simp only [Option.some.injEq] at k1
            subst k1
            simp only [allNodes] at k2
            obtain ⟨b, hb, hb2⟩ := optAll_mem ha x hp2
            exact ⟨f, b, hb2, allForest_mem ts b hb k2.2.2⟩

theorem toTree_data {h : Heap} {f : Nat} {x : NodeId} {t : Tree} (ht : h.toTree? f x = some t) : t.data = (h.cell x).toNodeD := by
  cases f with
  | zero => simp [Heap.toTree?] at ht
  | succ f =>
    simp only [Heap.toTree?] at ht
    cases hc : (h.cell x).childs with
    | none => rw [hc] at ht; simp only [Option.some.injEq] at ht; rw [← ht]; rfl
    | some ids =>
      rw [hc] at ht
      simp only at ht
      cases ha : optAll (h.toTree? f) ids with
      | none => rw [ha] at ht; simp at ht
      | some ts => rw [ha] at ht; simp only [Option.some.injEq] at ht; rw [← ht]; rfl

/-- **C02**, exactly: for every accepted text, every combination of render options with `inner_html = false` and every codec,
rendering the document panics, on the missing metadata of a tag, if the text ends inside the name of a start tag; otherwise it
gives a text.  (Such a text is accepted only with `auto_fix_unclosed_tag`.) -/
theorem c02_exact {s : Str} {o : ParseOptions} {d : Doc} (h : Doc.parse s o = .ok d) (lib : EntityLib) (r : RenderOptions)
    (hi : r.innerHtml = false) :
    ((∃ u n, s = u ++ n ∧ afterLt u o = true ∧ notClosed u o = true ∧ tagNameText n) ∧ o.autoFixUnclosedTag = true ∧
      d.render lib r = .error .tagMeta) ∨
    ((¬ ∃ u n, s = u ++ n ∧ afterLt u o = true ∧ notClosed u o = true ∧ tagNameText n) ∧ ∃ out, d.render lib r = .ok out) := by
  rw [← inName_iff]
  obtain ⟨hroot, h0, ht0, g, ge, hord⟩ := parse_graph h
  obtain ⟨d0, t, hrun, ht, hp⟩ := parse_printable_but h
  obtain ⟨d0', hrun', hr, he, hheap, _⟩ := parse_run h
  rw [hrun] at hrun'
  cases hrun'
  have hb : d.render lib r = (buildTree lib r t { innerType := .none, root := true }).map (·.2) := by
    unfold Doc.render
    rw [ht]
    simp [build, innerTypeOf, buildTarget, hi]
  by_cases hh : d0.handle = .tagName
  · left
    have hd := hr.ctl
    have hs := hd.hs
    unfold HandleOk at hs
    simp only [hh] at hs
    refine ⟨⟨d0, hrun, hh⟩, ?_, ?_⟩
    · rcases he.code with h2 | h2 | h2 | h2
      · rw [hs.1] at h2; cases h2
      · rw [hs.1] at h2; cases h2
      · rw [hs.1] at h2; cases h2
      · rw [← hr.opts]; exact h2.2
    · have hp' := (allNodes_imp (Q := fun n => printable n ∨ (n.nodeType = .tag ∧ n.tmeta = none))
        (fun n hn => hn.elim Or.inl (fun k => Or.inr k.2))).1 t hp
      rcases (buildTree_but lib r).1 t hp' { innerType := .none, root := true } with ⟨x, hx⟩ | hx
      · exfalso
        have hall := (buildTree_meta lib r).1 t _ _ hx
        have hlt : d0.current < d.heap.size := by
          rw [hheap, finalHeap_size]
          exact Nat.lt_of_lt_of_le hd.curLt (fixedHeap_size d0)
        have hc := eofCell hd he d0.current hd.curLt
        have hty0 : (d0.heap.cell d0.current).nodeType = .tag := hs.2.2.1
        have hm0 : (d0.heap.cell d0.current).tmeta = none := hs.2.2.2.1
        rw [← hheap] at hc
        have hty : (d.heap.cell d0.current).nodeType = .tag := by
          rcases hc.ty with k | k
          · rw [k, hty0]
          · rw [hty0] at k; exact absurd k.1 (by simp)
        have hm : (d.heap.cell d0.current).tmeta = none := by
          rcases hc.tmeta with k | ⟨_, _, _, m, k, _⟩
          · rw [k, hm0]
          · rw [hm0] at k; cases k
        unfold Doc.tree? at ht
        rw [hroot] at ht
        obtain ⟨f, t', k1, k2⟩ := toTree_cells g ht hall _ _ (Nat.le_refl _) hlt (by rw [hty]; simp)
        have := allNodes_root k2
        rw [toTree_data k1] at this
        exact this hty hm
      · rw [hb, hx]; rfl
  · right
    refine ⟨?_, ?_⟩
    · rintro ⟨d1, h1, h2⟩
      have := Ran.unique h1 (show Ran o s d0 from hrun)
      subst this
      exact hh h2
    · have hp' := (allNodes_imp (Q := printable) (fun n hn => hn.elim id (fun k => absurd k.1 hh))).1 t hp
      obtain ⟨x, hx⟩ := (buildTree_printable lib r).1 t hp' { innerType := .none, root := true }
      exact ⟨x.2, by rw [hb, hx]; rfl⟩

/-- Both cases happen: the end of a tag name is cut off, or everything is there. -/
example : (Doc.parse "a<b".toList { autoFixUnclosedTag := true }).isOk = true ∧
    afterLt "a<".toList { autoFixUnclosedTag := true } = true ∧ notClosed "a<".toList { autoFixUnclosedTag := true } = true := by
  decide +kernel

/-- A `<b` at the end that is not a tag: `endsInTagName` is not the exact condition. -/
example : rendersTo "<!--<b--><a title='<b" "<!--<b--><a title></a>" { autoFixUnclosedTag := true } = true ∧ endsInTagName "<a title='<b".toList :=
  ⟨by decide +kernel, "<a title='".toList, 'b', [], rfl, by decide, by decide⟩

end Rphtml
