import Verif.Proofs.Source
import Verif.Proofs.Effect
import Verif.Proofs.TextLemmas
import Verif.Spec.Input
import Verif.Spec.Samples

/-!
# C01: when parsing panics

The parser can panic at four places only, and each of them needs a specific pattern in the input.
-/

namespace Rphtml
open Spec

theorem unusualDoctype_append {s : Str} (h : unusualDoctype s) (t : Str) : unusualDoctype (s ++ t) := by
  obtain ⟨pre, kw, mid, x, post, rfl, h2, h3, h4⟩ := h
  exact ⟨pre, kw, mid, x, post ++ t, by simp, h2, h3, h4⟩

/-- What is known about the doctype being read and about an empty chain. -/
structure DocInv (s : Str) (d : Doc) : Prop where
  empty : d.chain = [] → unusualDoctype s ∧ ∃ i m, i < d.heap.size ∧ (d.heap.cell i).nodeType = .htmlDoctype ∧
    (d.heap.cell i).tmeta = some m ∧ m.selfClosed = true
  inDoc : d.handle.inTag = true → d.codeIn = .htmlDoctype → unusualDoctype s ∨
    ∃ pre kw mid, s = pre ++ '<' :: '!' :: (kw ++ mid) ∧ fold kw = "doctype".toList ∧ '>' ∉ mid ∧
      d.handle ≠ .tagSelfClosing ∧ (d.handle = .attrValue → d.markChar = ' ')

theorem Ctl.tail_ne {d : Doc} (hd : Ctl d) {t : NodeId} (ht : d.chain.head? = some t) (h0 : t ≠ 0) :
    d.chain.tail ≠ [] := by
  cases hc : d.chain with
  | nil => rw [hc] at ht; simp at ht
  | cons a as =>
    rw [hc] at ht
    have hl := hd.chainLast (by rw [hc]; simp)
    rw [hc] at hl
    cases as with
    | nil => simp at ht hl; omega
    | cons b bs => simp

theorem fold_eq_lowerAll (s : Str) : fold s = lowerAll s := by
  unfold fold lowerAll
  apply List.map_congr_left
  intro c _
  exact (toLower_eq_core c).symm

theorem fold_doctype {kw : Str} (h : kw.map toUpper = detectDoctype) : fold kw = "doctype".toList := by
  rw [fold_eq_lowerAll, lower_of_upper_doctype h]; rfl

/-- How the doctype invariant survives a character inside the doctype. -/
theorem tagChar_doc {allowEq : Bool} {t t' : TagSt} {c : Char} {id : Option Str}
    (h : tagChar true allowEq t c = .cont t' id) (hc : c ∉ ['/', '"', '\''])
    (h1 : t.handle.inTag = true) (h2 : t.handle ≠ .tagSelfClosing) (h3 : t.handle = .attrValue → t.mark = ' ') :
    c ≠ '>' ∧ t'.handle ≠ .tagSelfClosing ∧ (t'.handle = .attrValue → t'.mark = ' ') := by
  simp only [List.mem_cons, List.not_mem_nil, or_false, not_or] at hc
  unfold tagChar tagWaitC at h
  cases hh : t.handle <;> rw [hh] at h1 h2 h3 <;> simp only [Handler.inTag, Bool.false_eq_true] at h1 <;>
    simp only [hh] at h
  · exact absurd rfl h2
  all_goals
    repeat' split at h
    all_goals first
      | (cases h; done)
      | skip
    all_goals
      simp only [TagOut.cont.injEq] at h
      obtain ⟨rfl, _⟩ := h
    all_goals simp_all

theorem DocInv.step {s : Str} {d d' : Doc} {c : Char} (hd : Ctl d) (hsrc : SrcAt s d) (hs : Step d c d')
    (ih : DocInv s d) : DocInv (s ++ [c]) d' := by
  have heff := hs.eff hd
  have hkeep : ∀ i m, i < d.heap.size → (d.heap.cell i).nodeType = .htmlDoctype → (d.heap.cell i).tmeta = some m →
      m.selfClosed = true → i < d'.heap.size ∧ (d'.heap.cell i).nodeType = .htmlDoctype ∧
        (d'.heap.cell i).tmeta = some m := by
    intro i m h1 h2 h3 h4
    have hk := heff.keep hd i h1
    have hty : (d'.heap.cell i).nodeType = .htmlDoctype := by
      rcases hk.ty with h | h
      · rw [h]; exact h2
      · rw [h2] at h; cases h.1
    refine ⟨by have := heff.size_le; omega, hty, ?_⟩
    by_cases hc : i = d.current
    · have hcm : d.cur.tmeta = some m := by unfold Doc.cur; rw [← hc]; exact h3
      have e1 : d.handle ≠ .tagName := by
        intro hh
        have := hd.hs; unfold HandleOk at this; simp only [hh] at this
        rw [hcm] at this; exact absurd this.2.2.2.1 (by simp)
      have e2 : d.handle ≠ .doctypeName := by
        intro hh
        have := hd.hs; unfold HandleOk at this; simp only [hh] at this
        rw [hcm] at this; exact absurd this.2.2.2.1 (by simp)
      have e3 : d.handle.inTag = false := by
        cases hh : d.handle.inTag with
        | false => rfl
        | true =>
          have := (hd.inTag hh hcm).2.1
          rw [h4] at this; cases this
      rw [hk.tmeta e1 e2 e3]; exact h3
    · rw [(hk.other hc).2.1]; exact h3
  have hbase : d.chain = [] → unusualDoctype (s ++ [c]) ∧ ∃ i m, i < d'.heap.size ∧
      (d'.heap.cell i).nodeType = .htmlDoctype ∧ (d'.heap.cell i).tmeta = some m ∧ m.selfClosed = true := by
    intro h
    obtain ⟨h1, i, m, h2, h3, h4, h5⟩ := ih.empty h
    obtain ⟨k1, k2, k3⟩ := hkeep i m h2 h3 h4 h5
    exact ⟨unusualDoctype_append h1 _, i, m, k1, k2, k3, h5⟩
  have h0 : d.cur.nodeType = .tag → d.current ≠ 0 := by
    intro h h0
    have := (hd.rootTy d.current hd.curLt).2 h0
    unfold Doc.cur at h
    rw [h] at this; cases this
  refine ⟨?_, ?_⟩
  · intro he
    cases heff with
    | data ct m e hea hheap hm hchain hct hend =>
      rcases hchain with h | ⟨h, h1 | h1⟩
      · rw [h] at he; exact hbase he
      · rw [h] at he
        exact absurd he (hd.tail_ne h1.1 (h0 h1.2))
      · have hin : d.handle.inTag = true := by rw [h1.1]; rfl
        have hun : unusualDoctype s := by
          rcases ih.inDoc hin h1.2 with h2 | ⟨_, _, _, _, _, _, h2, _⟩
          · exact h2
          · exact absurd h1.1 h2
        refine ⟨unusualDoctype_append hun _, ?_⟩
        have hty : d.cur.nodeType = .htmlDoctype := by
          obtain ⟨_, m, hm, _, _, _, h2⟩ := inTag_hs hd hin
          rcases h2 with h2 | h2
          · rw [h1.2] at h2; cases h2.1
          · exact h2.2.1
        cases hs with
        | tagSelf hh hc m hm ha =>
          refine ⟨d.current, { m with selfClosed := true }, hd.curLt, ?_, ?_, rfl⟩
          · simpa [Doc.cur] using hty
          · simp
        | tagMore hh m hm t id ht =>
          by_cases hc : d.chain = []
          · obtain ⟨_, i, m, g⟩ := hbase hc; exact ⟨i, m, g⟩
          · exact absurd he hc
        | tagClose hh m hm m' pc mark id ht =>
          by_cases hc : d.chain = []
          · obtain ⟨_, i, m, g⟩ := hbase hc; exact ⟨i, m, g⟩
          · exfalso
            rw [closeTag_chain] at he
            split at he
            · rename_i hv
              obtain ⟨hok, _, hv', hor⟩ := hd.inTag hh hm
              obtain ⟨k1, _, _⟩ := tagChar_close hok ht
              have hv1 : m.isVoid = true := by rw [← hv]; exact k1.isVoid.symm
              rcases hor with h2 | h2
              · rw [h1.2] at h2; cases h2.1
              · rw [hv', (doctype_plain h2.2.2).1] at hv1; cases hv1
            · exact hc he
        | _ => simp_all
    | child p ty b o hp hty ho hb hheap hchain hcur hend =>
      rw [hchain] at he
      split at he
      · cases he
      · exact hbase he
    | ltChild p n hf hn hp hheap hchain hcur hend => rw [hchain] at he; exact hbase he
    | endPush pv hpv hheap hchain hcur hend => rw [hchain] at he; exact hbase he
    | endLink t m hm hty hheap hchain hcur hend =>
      rw [hchain] at he
      have := hm.1
      have h2 := congrArg List.length he
      simp at h2; omega
    | rawEnd n hty hp hheap hchain hcur hend =>
      rw [hchain] at he
      exact absurd he (hd.tail_ne hp (h0 hty))
  · intro hin hci
    cases hs with
    | doctypeName hh hc =>
      have hHs := hd.hs
      unfold HandleOk at hHs
      simp only [hh] at hHs
      unfold SrcAt at hsrc
      simp only [hh] at hsrc
      obtain ⟨pre, rfl, _⟩ := hsrc
      refine Or.inr ⟨pre, d.prevChars, [c], by simp, fold_doctype hHs.2.2.2.2, ?_, by simp [Doc.putTag], by simp [Doc.putTag]⟩
      intro h
      have : '>' = c := by simpa using h
      rw [← this] at hc; exact absurd hc (by decide)
    | tagMore hh m hm t id ht =>
      have hci : d.codeIn = .htmlDoctype := hci
      rcases ih.inDoc hh hci with h1 | ⟨pre, kw, mid, rfl, h2, h3, h4, h5⟩
      · exact Or.inl (unusualDoctype_append h1 _)
      · by_cases hc : c ∈ ['/', '"', '\'']
        · exact Or.inl ⟨pre, kw, mid, c, [], by simp, h2, h3, hc⟩
        · have ht' : tagChar true d.opts.allowAttrKeyStartsWithEqualSign (d.tagSt m) c = .cont t id := by
            rw [← ht, decide_eq_true hci]
          obtain ⟨g1, g2, g3⟩ := tagChar_doc ht' hc hh h4 h5
          exact Or.inr ⟨pre, kw, mid ++ [c], by simp, h2, by simpa [Ne.symm g1] using h3, g2, g3⟩
    | nameEnd hh hc =>
      have := hd.hs
      unfold HandleOk at this
      simp only [hh] at this
      have hci : d.codeIn = .htmlDoctype := hci
      rw [this.1] at hci; cases hci
    | tagClose hh m hm m' pc mark id ht =>
      exfalso
      rcases closeTag_notag (d.putTag { handle := d.handle, m := m', pc := pc, mark := mark } id) m' with h | h
      · rw [h] at hin; cases hin
      · rw [h.1] at hin; cases hin
    | nameClose hh hc m hm =>
      exfalso
      rcases closeTag_notag (d.putTag { handle := d.handle, m := m, pc := [], mark := d.markChar } none) m with h | h
      · rw [h] at hin; cases hin
      · rw [h.1] at hin; cases hin
    | ltExtend hh hf hc ht w hw d1 h1 =>
      exfalso
      subst h1; split at hin <;> cases hin
    | ltNew hh hf hc ht p hp d1 h1 =>
      exfalso
      subst h1; split at hin <;> cases hin
    | _ => simp_all [Handler.inTag, Doc.endText]

theorem Reach.docInv {o : ParseOptions} {s : Str} {d : Doc} (h : Reach o s d) : DocInv s d := by
  induction h with
  | init => exact ⟨fun h => (by cases h), fun h => (by cases h)⟩
  | step hr hs ih =>
    have := DocInv.step hr.ctl hr.srcAt hs ih
    exact ⟨this.empty, this.inDoc⟩

theorem tagNameOk_spec {w : Str} (h : TagNameOk w) : ∃ c name, w = c :: name ∧ c.isAlpha = true ∧
    ∀ x ∈ c :: name, x ∉ ws ∧ x ≠ '/' ∧ x ≠ '>' := by
  obtain ⟨c, cs, rfl, h1, h2⟩ := h
  refine ⟨c, cs, rfl, ?_, fun x hx => ⟨(not_isWs_mem x).1 (h2 x hx).1, (h2 x hx).2⟩⟩
  have e : ∀ a : Char, a.val.toNat = a.toNat := fun _ => rfl
  unfold isAlpha isLower isUpper at h1
  unfold Char.isAlpha Char.isUpper Char.isLower
  simp only [Bool.or_eq_true, Bool.and_eq_true, decide_eq_true_eq, ge_iff_le, UInt32.le_iff_toNat_le, e] at h1 ⊢
  exact h1.symm

theorem eof_panic {d : Doc} {ctx : Str} {p : Site} (hd : Ctl d) (h : d.eof ctx = .panic p) :
    p = .eofMeta ∧ d.opts.autoFixUnclosedTag = false ∧ d.handle = .tagName := by
  unfold Doc.eof at h
  simp only [Res.bind_eq] at h
  have hst : ∀ d1 : Doc, d1.eofState ctx ≠ .panic p := by
    intro d1
    unfold Doc.eofState
    split
    · simp
    · simp
    · simp
    · split
      · simp [createParseError]
      · simp
    · simp [createParseError]
  cases hc : d.eofChain ctx with
  | ok d1 =>
    rw [hc] at h
    simp only [Res.bind] at h
    cases hs : d1.eofState ctx with
    | ok d2 => rw [hs] at h; simp at h
    | err e => rw [hs] at h; simp at h
    | panic q => rw [hs] at h; simp at h; exact absurd (h ▸ hs) (hst d1)
  | err e => rw [hc] at h; simp at h
  | panic q =>
    rw [hc] at h
    simp only [Res.bind, Res.panic.injEq] at h
    subst h
    unfold Doc.eofChain at hc
    split at hc
    · rename_i hl
      split at hc
      · rename_i hf
        cases ht : d.chain.head? with
        | none => rw [ht] at hc; simp at hc
        | some t =>
          rw [ht] at hc
          simp only at hc
          cases hm : (d.heap.cell t).tmeta with
          | none =>
            rw [hm] at hc
            simp only [Res.panic.injEq] at hc
            refine ⟨hc.symm, by simpa using hf, ?_⟩
            by_cases hh : d.handle = .tagName
            · exact hh
            · obtain ⟨m, hm'⟩ := chain_meta hd hh t ht hl
              rw [hm] at hm'; cases hm'
          | some m =>
            rw [hm] at hc
            simp [createParseError] at hc
      · simp at hc
    · simp at hc

/-- The causes of a panic: every panic of `Doc::parse` is one of these four, with the pattern in the input that
it needs. -/
theorem parse_panic_cause {s : Str} {o : ParseOptions} {p : Site} (h : Doc.parse s o = .panic p) :
    (p = .eofMeta ∧ o.autoFixUnclosedTag = false ∧ endsInTagName s) ∨
    ((p = .chainLast ∨ p = .cdataChainLast) ∧ unusualDoctype s ∧
      ∃ pre post d i m, s = pre ++ post ∧ (Doc.new o).run s pre = .ok d ∧ i < d.heap.size ∧
        (d.heap.cell i).nodeType = .htmlDoctype ∧ (d.heap.cell i).tmeta = some m ∧ m.selfClosed = true) ∨
    (p = .cdataChainMeta ∧ hasMarkedSection s) := by
  unfold Doc.parse at h
  simp only [Res.bind_eq] at h
  cases hr : (Doc.new o).run s s with
  | ok d =>
    rw [hr] at h
    simp only [Res.bind] at h
    have hreach : Reach o s d := by simpa using Reach.run s [] _ _ Reach.init hr
    cases he : d.eof s with
    | ok d1 => rw [he] at h; simp at h
    | err e => rw [he] at h; simp at h
    | panic q =>
      rw [he] at h
      simp only [Res.panic.injEq] at h
      subst h
      obtain ⟨h1, h2, h3⟩ := eof_panic hreach.ctl he
      rw [hreach.opts] at h2
      refine Or.inl ⟨h1, h2, ?_⟩
      have hsrc := hreach.srcAt
      have hh := hreach.ctl.hs
      unfold SrcAt at hsrc
      unfold HandleOk at hh
      simp only [h3] at hsrc hh
      obtain ⟨pre, e, _⟩ := hsrc
      obtain ⟨c, name, e2, h4, h5⟩ := tagNameOk_spec hh.2.2.2.2.2
      exact ⟨pre, c, name, by rw [e, e2], h4, h5⟩
  | err e => rw [hr] at h; simp at h
  | panic q =>
    rw [hr] at h
    simp only [Res.bind, Res.panic.injEq] at h
    subst h
    obtain ⟨pre, c, post, d1, e, hre, hp, _, hrun⟩ := Reach.run_panic s [] _ Reach.init hr
    simp only [List.nil_append] at hre
    right
    have hchain : d1.chain = [] → unusualDoctype s ∧ ∃ pre post d i m, s = pre ++ post ∧
        (Doc.new o).run s pre = .ok d ∧ i < d.heap.size ∧
        (d.heap.cell i).nodeType = .htmlDoctype ∧ (d.heap.cell i).tmeta = some m ∧ m.selfClosed = true := by
      intro hc
      obtain ⟨h1, i, m, h2⟩ := hre.docInv.empty hc
      exact ⟨by rw [e]; exact unusualDoctype_append h1 _, pre, c :: post, d1, i, m, e, hrun, h2⟩
    rcases hp with h | h | h
    · exact Or.inl ⟨Or.inl h.1, hchain h.2.1⟩
    · exact Or.inl ⟨Or.inr h.1, hchain h.2.1⟩
    · refine Or.inr ⟨h.1, ?_⟩
      have hsrc := hre.srcAt
      have hh := hre.ctl.hs
      unfold SrcAt at hsrc
      unfold HandleOk at hh
      simp only [h.2.2.1] at hsrc hh
      obtain ⟨pre', e', _⟩ := hsrc
      rcases hh.2 with h6 | ⟨D, h6, _⟩
      · rw [h6.2] at e'
        refine ⟨pre', post, ?_⟩
        rw [e, e', h.2.2.2.2.2]; simp
      · rw [h.2.2.2.1] at h6; cases h6

/-- **C01** (which panics exist): parsing can panic at four sites only.  `Findings` shows an input for each. -/
theorem c01_panic_sites (s : Str) (o : ParseOptions) (p : Site) (h : Doc.parse s o = .panic p) :
    p ∈ [Site.eofMeta, .chainLast, .cdataChainLast, .cdataChainMeta] := by
  rcases parse_panic_cause h with h | h | h
  · simp [h.1]
  · rcases h.1 with h | h <;> simp [h]
  · simp [h.1]

/-- **C01** (which panics exist), both ways: these four sites, and no other, can be reached by parsing some text. -/
theorem c01_sites_exact (p : Site) :
    (∃ s o, Doc.parse s o = .panic p) ↔ p ∈ [Site.eofMeta, .chainLast, .cdataChainLast, .cdataChainMeta] := by
  constructor
  · rintro ⟨s, o, h⟩
    exact c01_panic_sites s o p h
  · have key : ∀ s q, panicOf s = some q → ∃ s o, Doc.parse s o = .panic q := by
      intro s q h
      unfold panicOf at h
      cases hd : Doc.parse s.toList {} with
      | ok d => rw [hd] at h; cases h
      | err e => rw [hd] at h; cases h
      | panic r =>
        rw [hd] at h
        simp only [Option.some.injEq] at h
        exact ⟨_, _, by rw [hd, h]⟩
    intro h
    simp only [List.mem_cons, List.not_mem_nil, or_false] at h
    rcases h with rfl | rfl | rfl | rfl
    · exact key "<div" _ (by decide +kernel)
    · exact key "<!DOCTYPE html/><a>" _ (by decide +kernel)
    · exact key "<svg><!DOCTYPE a/><!DOCTYPE a/><![" _ (by decide +kernel)
    · exact key "<svg></SVG><![CDATA[a]]>" _ (by decide +kernel)

/-- **C01** (partial): the full claim, `∀ s o p, Doc.parse s o ≠ .panic p`, is false for the pinned code.  Parsing does
not panic on any input that
* does not end inside the name of a start tag (unless `auto_fix_unclosed_tag` is on),
* has no `/` or quote in a doctype, and
* has no `<![`. -/
theorem c01_no_panic_partial (s : Str) (o : ParseOptions)
    (h1 : o.autoFixUnclosedTag = true ∨ ¬ endsInTagName s) (h2 : ¬ unusualDoctype s) (h3 : ¬ hasMarkedSection s) :
    ∀ p, Doc.parse s o ≠ .panic p := by
  intro p h
  rcases parse_panic_cause h with h | h | h
  · rcases h1 with h1 | h1
    · rw [h1] at h; exact absurd h.2.1 (by simp)
    · exact h1 h.2.2
  · exact h2 h.2.1
  · exact h3 h.2

/-- **C01**: the two panics about an empty chain happen only after a self-closed doctype was accepted. -/
theorem c01_chain_panic_needs_selfclosed_doctype (s : Str) (o : ParseOptions) (p : Site)
    (h : Doc.parse s o = .panic p) (hp : p = .chainLast ∨ p = .cdataChainLast) :
    ∃ pre post d i m, s = pre ++ post ∧ (Doc.new o).run s pre = .ok d ∧ i < d.heap.size ∧
      (d.heap.cell i).nodeType = .htmlDoctype ∧ (d.heap.cell i).tmeta = some m ∧ m.selfClosed = true := by
  rcases parse_panic_cause h with h | h | h
  · rcases hp with rfl | rfl <;> cases h.1
  · exact h.2.2
  · rcases hp with rfl | rfl <;> cases h.1

/-- The hypotheses of `c01_no_panic_partial` hold for a document with a doctype. -/
example : ∀ p, Doc.parse "<!DOCTYPE html><br>a > b".toList {} ≠ .panic p := by
  have hmem : ∀ x : Char, x ∈ "<!DOCTYPE html><br>a > b".toList → x ∉ ['/', '"', '\'', '['] := by decide
  refine c01_no_panic_partial _ _ (Or.inr ?_) ?_ ?_
  · rintro ⟨pre, c, name, e, -, h⟩
    have e2 := congrArg List.reverse e
    simp only [List.reverse_append, List.reverse_cons, List.append_assoc, List.cons_append, List.nil_append] at e2
    have hx : ∀ x ∈ name.reverse ++ [c], x ∉ ws := by
      intro x hx
      exact (h x (by simpa [or_comm] using hx)).1
    cases hn : name.reverse ++ [c] with
    | nil => simp at hn
    | cons a l =>
      have e3 : "b ".toList ++ "> a>rb<>lmth EPYTCOD!<".toList = (a :: l) ++ '<' :: pre.reverse := by
        rw [← hn, List.append_assoc]; exact e2
      cases l with
      | nil => simp at e3
      | cons b l =>
        have : b = ' ' := by simp at e3; exact e3.2.1.symm
        exact hx b (by rw [hn]; simp) (by rw [this]; decide)
  · rintro ⟨pre, kw, mid, x, post, e, -, -, h⟩
    have := hmem x (by rw [e]; simp)
    simp only [List.mem_cons, List.not_mem_nil, or_false, not_or] at this h
    rcases h with h | h | h
    · exact this.1 h
    · exact this.2.1 h
    · exact this.2.2.1 h
  · rintro ⟨pre, post, e⟩
    exact hmem '[' (by rw [e]; simp) (by decide)

end Rphtml
