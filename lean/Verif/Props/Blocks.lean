import Verif.Proofs.Plug
import Verif.Proofs.Outside
import Verif.Props.Accepted
import Verif.Proofs.WfDec

/-!
# C15, C16: raw text, comments and CDATA sections end at the first terminator

The body of such a block is read up to the first terminator and becomes one node of the document; what it says has no influence
on anything else.  "No influence" is stated with a document with a gap: for every text before and after the block there is one
document with a gap, such that whatever the body is, the document read is that one with the block's node in the gap.
-/

namespace Rphtml
open Spec

theorem block_gap {ι : Type} {k : PNode → Bool} (hk : IsMark k) {o : ParseOptions} {s post : Str} {x : PNode} (hx : k x = true)
    (hx' : ∃ w, x = .comment w ∨ x = .cdata w ∨ ∃ n as s ct e, x = .elem n as s ct [] e)
    {valid : ι → Prop} {body : ι → Str} {g : ι → PNode → PNode} (hg : ∀ i, Change k (g i)) {mode : Mode} {mk : AState → Char}
    (hb : ∀ a, arun o {} s = some a → ∀ i, valid i → arun o a (body i) = some { a.push (g i x) with mode := mode, mark := mk a }) :
    ∃ D : Option (Gap × PNode), (∀ C m, D = some (C, m) → k m = true) ∧ ∀ i, valid i → complete (s ++ body i ++ post) o →
      docOf (s ++ body i ++ post) o = D.map fun q => q.1.put (g i q.2) := by
  cases ha : arun o {} s with
  | none =>
    refine ⟨none, by simp, fun i _ _ => ?_⟩
    apply docOf_stop
    rw [List.append_assoc, arun_append, ha]; rfl
  | some a =>
    obtain ⟨D, h1, h2⟩ := gap_run hk (WfInv.run ha).stack hx hx' mode (mk a) post
    refine ⟨D, h1, fun i hi hc => ?_⟩
    have hrun : arun o {} (s ++ body i ++ post) = arun o { a.push (g i x) with mode := mode, mark := mk a } post := by
      rw [arun_append, arun_append, ha, Option.bind_some, hb a ha i hi, Option.bind_some]
    obtain ⟨h3, h4⟩ := h2 (g i) (hg i)
    cases hr : arun o { a.push (g i x) with mode := mode, mark := mk a } post with
    | none => rw [docOf_stop (hrun.trans hr), h4 (.inl hr)]; rfl
    | some b =>
      cases hf : b.final o with
      | true => rw [docOf_machine (hrun.trans hr) hf, h3 b hr hf]
      | false =>
        rw [h4 (.inr ⟨b, hr, hf⟩)]
        refine docOf_none hc fun c hc => ?_
        rw [hrun, hr] at hc; cases hc; exact hf

/-! ## Comments and CDATA sections -/

/-- The mark for comments. -/
def markComment : PNode → Bool
  | .comment w => w.isEmpty
  | _ => false

/-- The mark for CDATA sections. -/
def markCdata : PNode → Bool
  | .cdata w => w.isEmpty
  | _ => false

theorem markComment_isMark : IsMark markComment where
  text := fun _ => rfl
  kids := by intro f p; cases p <;> rfl
  new := by intro p h; cases p <;> simp_all [markComment, NewNode]
  plain := fun _ _ _ _ => rfl
  ok := by intro o ctx parent p h; cases p <;> simp_all [markComment, okNode]

theorem markCdata_isMark : IsMark markCdata where
  text := fun _ => rfl
  kids := by intro f p; cases p <;> rfl
  new := by intro p h; cases p <;> simp_all [markCdata, NewNode]
  plain := fun _ _ _ _ => rfl
  ok := by intro o ctx parent p h; cases p <;> simp_all [markCdata, okNode]

/-- Put a body into the marked comment. -/
def putComment (b : Str) : PNode → PNode
  | .comment [] => .comment b
  | p => p

/-- Put a body into the marked CDATA section. -/
def putCdata (b : Str) : PNode → PNode
  | .cdata [] => .cdata b
  | p => p

theorem putComment_change (b : Str) : Change markComment (putComment b) where
  keep := by
    intro p h
    cases p with
    | comment w => cases w <;> simp_all [markComment, putComment]
    | _ => rfl
  addText := by
    intro s p
    cases p with
    | comment w => cases w <;> rfl
    | _ => rfl
  modKids := by
    intro f p
    cases p with
    | comment w => cases w <;> rfl
    | _ => rfl

theorem putCdata_change (b : Str) : Change markCdata (putCdata b) where
  keep := by
    intro p h
    cases p with
    | cdata w => cases w <;> simp_all [markCdata, putCdata]
    | _ => rfl
  addText := by
    intro s p
    cases p with
    | cdata w => cases w <;> rfl
    | _ => rfl
  modKids := by
    intro f p
    cases p with
    | cdata w => cases w <;> rfl
    | _ => rfl

theorem comment_open {o : ParseOptions} {a : AState} (h : a.mode.outside = true) :
    arun o a ['<', '!', '-', '-'] = if a.over then none else some { a with mode := .comment false [], mark := '-' } := by
  rw [read_bang h]
  have h1 : toUpper '-' = '-' := by decide
  cases a.over <;> simp [arun, astep, detectComment, h1]

theorem cdata_open {o : ParseOptions} {a b : AState} (h : a.mode.outside = true)
    (hb : arun o a ['<', '!', '[', 'C', 'D', 'A', 'T', 'A', '['] = some b) : b.mode = .comment true [] := by
  rw [read_bang h] at hb
  have h1 : arun o { a with mode := .bang none [] } (['['] ++ ['C', 'D', 'A', 'T', 'A', '[']) = some b := hb
  rw [arun_append] at h1
  cases h2 : arun o { a with mode := .bang none [] } ['['] with
  | none => rw [h2] at h1; cases h1
  | some c =>
    rw [h2, Option.bind_some] at h1
    have b1 : ('[' : Char) ≠ '-' := by decide
    have b2 : ¬ (('[' : Char) = 'D' ∨ ('[' : Char) = 'd') := by decide
    simp only [arun, astep, b1, b2, if_true, if_false] at h2
    cases hsp : a.sp with
    | none => simp [hsp] at h2
    | some x =>
      obtain ⟨s, n⟩ := x
      simp only [hsp] at h2
      by_cases hc : a.over = true ∨ a.rest.isEmpty = true ∨ n = a.top.name
      · simp only [if_pos hc] at h2; cases h2
      · simp only [if_neg hc, Option.some.injEq] at h2
        have ho : a.over = false := by
          cases q : a.over with
          | false => rfl
          | true => exact absurd (.inl q) hc
        have k := arun_keyword (o := o) (D := detectCdata) ['C', 'D', 'A', 'T', 'A', '['] ['['] c (by rw [← h2]) (by rw [← h2]; exact ho)
          (by simp) (by decide)
        rw [k] at h1
        injection h1 with h1
        rw [← h1]; rfl

/-- **C16.**  After a text that ends outside of markup: a comment ends at the first `-->` after its first character, and its
body has no influence on the rest of the document. -/
theorem c16_comment {o : ParseOptions} {pre : Str} (hp : outside pre o = true) (post : Str) :
    ∃ D : Option Gap, ∀ b : Str, b ≠ [] → ¬ ['-', '-', '>'] <:+: b.tail →
      complete (pre ++ ['<', '!', '-', '-'] ++ (b ++ ['-', '-', '>']) ++ post) o →
      docOf (pre ++ ['<', '!', '-', '-'] ++ (b ++ ['-', '-', '>']) ++ post) o = D.map fun g => g.put (.comment b) := by
  obtain ⟨a0, ha0, hm0⟩ := outside_iff.1 hp
  obtain ⟨D, h1, h2⟩ := block_gap markComment_isMark (o := o) (s := pre ++ ['<', '!', '-', '-']) (post := post) (x := .comment []) rfl
    ⟨[], .inl rfl⟩ (ι := Str) (valid := fun b => b ≠ [] ∧ ¬ ['-', '-', '>'] <:+: b.tail) (body := fun b => b ++ ['-', '-', '>'])
    (g := putComment) putComment_change (mode := .wait .other) (mk := fun _ => '\x00') (by
      rintro a ha b ⟨hb1, hb2⟩
      rw [arun_append, ha0, Option.bind_some, comment_open hm0] at ha
      have hm : a.mode = .comment false [] := by
        split at ha
        · cases ha
        · injection ha with ha; rw [← ha]
      exact read_comment (cd := false) '-' rfl hm hb1 hb2)
  refine ⟨D.map Prod.fst, fun b hb1 hb2 hc => ?_⟩
  rw [h2 b ⟨hb1, hb2⟩ hc]
  cases hD : D with
  | none => rfl
  | some q =>
    obtain ⟨C, m⟩ := q
    have := h1 C m hD
    cases m with
    | comment w => cases w with
      | nil => rfl
      | cons => cases this
    | _ => cases this

/-- **C16.**  Without such a terminator there is no document. -/
theorem c16_unterminated {o : ParseOptions} {pre b : Str} (hp : outside pre o = true) (hb : ¬ ['-', '-', '>'] <:+: b.tail) :
    docOf (pre ++ ['<', '!', '-', '-'] ++ b) o = none := by
  obtain ⟨a0, ha0, hm0⟩ := outside_iff.1 hp
  cases ho : a0.over with
  | true =>
    apply docOf_stop
    rw [arun_append, arun_append, ha0, Option.bind_some, comment_open hm0, ho]; rfl
  | false =>
    refine docOf_pending (a := { a0 with mode := .comment false b, mark := '-' }) ?_ rfl rfl
    rw [arun_append, arun_append, ha0, Option.bind_some, comment_open hm0, if_neg (by rw [ho]; simp)]
    show arun o { a0 with mode := .comment false [], mark := '-' } b = _
    rw [arun_comment b [] { a0 with mode := .comment false [], mark := '-' } rfl]
    · rfl
    · intro x y hxy
      cases hc : commentBody (if false then ']' else '-') ([] ++ x) with
      | none => rfl
      | some w =>
        exfalso
        obtain ⟨w1, w2⟩ := (commentBody_iff '-' x w).1 (by simpa using hc)
        apply hb
        cases w with
        | nil => exact absurd rfl w1
        | cons w0 w => exact ⟨w, y, by rw [hxy, w2]; simp⟩

/-- **C16** for CDATA sections (which the library reads the same way, inside of svg and math). -/
theorem c16_cdata {o : ParseOptions} {pre : Str} (hp : outside pre o = true) (post : Str) :
    ∃ D : Option Gap, ∀ b : Str, b ≠ [] → ¬ [']', ']', '>'] <:+: b.tail →
      complete (pre ++ ['<', '!', '[', 'C', 'D', 'A', 'T', 'A', '['] ++ (b ++ [']', ']', '>']) ++ post) o →
      docOf (pre ++ ['<', '!', '[', 'C', 'D', 'A', 'T', 'A', '['] ++ (b ++ [']', ']', '>']) ++ post) o =
        D.map fun g => g.put (.cdata b) := by
  obtain ⟨a0, ha0, hm0⟩ := outside_iff.1 hp
  obtain ⟨D, h1, h2⟩ := block_gap markCdata_isMark (o := o) (s := pre ++ ['<', '!', '[', 'C', 'D', 'A', 'T', 'A', '[']) (post := post)
    (x := .cdata []) rfl ⟨[], .inr (.inl rfl)⟩ (ι := Str) (valid := fun b => b ≠ [] ∧ ¬ [']', ']', '>'] <:+: b.tail)
    (body := fun b => b ++ [']', ']', '>']) (g := putCdata) putCdata_change (mode := .wait .other) (mk := fun _ => '\x00') (by
      rintro a ha b ⟨hb1, hb2⟩
      rw [arun_append, ha0, Option.bind_some] at ha
      exact read_comment (cd := true) ']' rfl (cdata_open hm0 ha) hb1 hb2)
  refine ⟨D.map Prod.fst, fun b hb1 hb2 hc => ?_⟩
  rw [h2 b ⟨hb1, hb2⟩ hc]
  cases hD : D with
  | none => rfl
  | some q =>
    obtain ⟨C, m⟩ := q
    have := h1 C m hD
    cases m with
    | cdata w => cases w with
      | nil => rfl
      | cons => cases this
    | _ => cases this

/-! ## Raw text -/

/-- The mark for raw-text elements. -/
def markRaw (n : Str) (as : List Attr) : PNode → Bool
  | .elem n' as' s ct _ e => decide (n' = n ∧ as' = as ∧ s = false ∧ ct = some [] ∧ e = none)
  | _ => false

/-- Put a content and an end tag into the marked element. -/
def putRaw (n : Str) (as : List Attr) (w e : Str) (p : PNode) : PNode :=
  if markRaw n as p then
    match p with
    | .elem n' as' s _ ks _ => .elem n' as' s (some w) ks (some e)
    | p => p
  else p

theorem markRaw_isMark (n : Str) (as : List Attr) : IsMark (markRaw n as) where
  text := fun _ => rfl
  kids := by intro f p; cases p <;> rfl
  new := by
    intro p h
    cases p with
    | elem n' as' s ct ks e =>
      obtain ⟨_, h⟩ := h
      simp only [markRaw, decide_eq_false_iff_not]
      rintro ⟨_, _, _, rfl, rfl⟩
      cases h
    | _ => rfl
  plain := by intros; simp [markRaw]
  ok := by
    intro o ctx parent p h
    cases p with
    | elem n' as' s ct ks e =>
      simp only [markRaw, decide_eq_false_iff_not]
      rintro ⟨rfl, rfl, rfl, rfl, rfl⟩
      simp [okNode] at h
    | _ => rfl

theorem putRaw_change (n : Str) (as : List Attr) (w e : Str) : Change (markRaw n as) (putRaw n as w e) where
  keep := by intro p h; unfold putRaw; rw [h]; rfl
  addText := by
    intro s p
    cases p with
    | elem n' as' st ct ks e' =>
      by_cases h : markRaw n as (.elem n' as' st ct ks e') = true
      · simp only [PNode.addText, putRaw, if_pos h]; exact if_pos h
      · simp only [PNode.addText, putRaw, if_neg h]; exact if_neg h
    | _ => rfl
  modKids := by
    intro f p
    cases p with
    | elem n' as' st ct ks e' =>
      by_cases h : markRaw n as (.elem n' as' st ct ks e') = true
      · have h' : markRaw n as (.elem n' as' st ct (f ks) e') = true := h
        simp only [PNode.modKids, putRaw, if_pos h]; exact if_pos h'
      · have h' : ¬ markRaw n as (.elem n' as' st ct (f ks) e') = true := h
        simp only [PNode.modKids, putRaw, if_neg h]; exact if_neg h'
    | _ => rfl

theorem raw_not_void {n : Str} (h : isRaw n) : ¬ isVoid n := by
  unfold isRaw at h
  unfold isVoid
  simp only [List.mem_cons, List.not_mem_nil, or_false] at h
  rcases h with h | h | h | h <;> rw [h] <;> decide

theorem Gap.put_occurs (p : PNode) : ∀ g : Gap, Occurs p (g.put p)
  | .here l r => ⟨_, ⟨[], .root⟩, by simp [Gap.put]⟩
  | .inside l n as s ct g e r => by
    obtain ⟨ks, ⟨anc, h1⟩, h2⟩ := Gap.put_occurs p g
    refine ⟨ks, ?_, h2⟩
    have : ∀ anc ks qs, At anc ks qs → qs = g.put p → Siblings ks (Gap.put p (.inside l n as s ct g e r)) := by
      intro anc ks qs h
      induction h with
      | root => rintro rfl; exact ⟨[n], .child (as := as) (s := s) (ct := ct) (e := e) .root (by simp [Gap.put])⟩
      | child h hp ih =>
        intro e
        obtain ⟨anc', k⟩ := ih e
        exact ⟨_, .child k hp⟩
    exact this _ _ _ h1 rfl

/-- After the start tag of a raw-text element. -/
theorem raw_open {o : ParseOptions} {a : AState} (h : a.mode.outside = true) {n : Str} {as : List Attr} (hn : tagName n) (hr : isRaw n)
    (hl : legalAttrs o.allowAttrKeyStartsWithEqualSign false as) :
    (a.over = true → arun o a (printOpen n as false) = none) ∧
    (a.over = false → ∃ m mk, arun o a (printOpen n as false) = some { a with mode := .raw m [], mark := mk } ∧ m.name = n ∧ m.attrs = as) := by
  have hn' := (tagName_iff n).1 hn
  constructor
  · intro ho
    obtain ⟨c, cs, rfl, h1, h2⟩ := hn'
    have e : printOpen (c :: cs) as false = '<' :: (c :: (cs ++ printAttrs as ++ ['>'])) := by simp [printOpen]
    obtain ⟨l, hl⟩ := arun_lt (o := o) h (c :: (cs ++ printAttrs as ++ ['>']))
    rw [e, hl]
    have h1' : isAlpha c = true := h1
    simp [arun, astep, h1', ho]
  · intro ho
    obtain ⟨m, mk, mode, h1, h2, h3, h4⟩ := read_open (o := o) h ho hn' hl
    refine ⟨m, mk, ?_, h2, h3⟩
    rw [h1]
    have hv : m.isVoid = false := by
      rw [h4]
      cases q : isVoidTag (lowerAll n) with
      | false => rfl
      | true => exact absurd ((isVoid_iff n).1 q) (raw_not_void hr)
    have hc : isContentTag (lowerAll m.name) none = true := by rw [h2]; exact (isRaw_iff n).2 hr
    simp only [AState.openTag, hv, hc, if_true, Bool.false_eq_true, if_false]

/-- **C15.**  After a text that ends outside of markup and the start tag of a raw-text element: the content ends at the first
end tag of that name, and neither the content nor the spelling of the end tag has an influence on the rest of the document.
(The element has no children, except that `auto_fix_unescaped_lt` may put a `<` that follows the element into it.) -/
theorem c15_raw {o : ParseOptions} {pre n : Str} {as : List Attr} (hp : outside pre o = true) (hn : tagName n) (hr : isRaw n)
    (hl : legalAttrs o.allowAttrKeyStartsWithEqualSign false as) (post : Str) :
    ∃ (D : Option Gap) (ks : List PNode), (o.autoFixUnescapedLt = false → ks = []) ∧
      ∀ w e : Str, closes o.caseSensitiveTagname n e →
        (∀ u k v, w = u ++ ['<', '/'] ++ k ++ ['>'] ++ v → ¬ closes o.caseSensitiveTagname n k) →
        complete (pre ++ printOpen n as false ++ (w ++ ['<', '/'] ++ e ++ ['>']) ++ post) o →
        docOf (pre ++ printOpen n as false ++ (w ++ ['<', '/'] ++ e ++ ['>']) ++ post) o =
          D.map fun g => g.put (.elem n as false (some w) ks (some e)) := by
  obtain ⟨a0, ha0, hm0⟩ := outside_iff.1 hp
  obtain ⟨k1, k2⟩ := raw_open (o := o) hm0 hn hr hl
  obtain ⟨D, h1, h2⟩ := block_gap (markRaw_isMark n as) (o := o) (s := pre ++ printOpen n as false) (post := post)
    (x := .elem n as false (some []) [] none) (by simp [markRaw]) ⟨[], .inr (.inr ⟨_, _, _, _, _, rfl⟩)⟩ (ι := Str × Str)
    (valid := fun q => closes o.caseSensitiveTagname n q.2 ∧
      ∀ u k v, q.1 = u ++ ['<', '/'] ++ k ++ ['>'] ++ v → ¬ closes o.caseSensitiveTagname n k)
    (body := fun q => q.1 ++ ['<', '/'] ++ q.2 ++ ['>']) (g := fun q => putRaw n as q.1 q.2) (fun q => putRaw_change n as q.1 q.2)
    (mode := .wait .hole) (mk := fun a => a.mark) (by
      rintro a ha ⟨w, e⟩ ⟨he, hw⟩
      rw [arun_append, ha0, Option.bind_some] at ha
      cases ho : a0.over with
      | true => rw [k1 ho] at ha; cases ha
      | false =>
        obtain ⟨m, mk, q1, rfl, rfl⟩ := k2 ho
        rw [q1] at ha
        injection ha with ha
        rw [read_raw (m := m) (by rw [← ha]) ((tagName_iff _).1 hn) he hw]
        simp [putRaw, markRaw, AState.push])
  have hput : ∀ ks w e, putRaw n as w e (.elem n as false (some []) ks none) = .elem n as false (some w) ks (some e) := by
    intros; simp [putRaw, markRaw]
  cases hD : D with
  | none =>
    refine ⟨none, [], fun _ => rfl, fun w e he hw hc => ?_⟩
    rw [h2 (w, e) ⟨he, hw⟩ hc, hD]; rfl
  | some q =>
    obtain ⟨C, m⟩ := q
    have hm := h1 C m hD
    cases m with
    | elem n' as' s' ct ks e' =>
      simp only [markRaw, decide_eq_true_eq] at hm
      obtain ⟨rfl, rfl, rfl, rfl, rfl⟩ := hm
      have h3 : ∀ w e : Str, closes o.caseSensitiveTagname n' e →
          (∀ u k v, w = u ++ ['<', '/'] ++ k ++ ['>'] ++ v → ¬ closes o.caseSensitiveTagname n' k) →
          complete (pre ++ printOpen n' as' false ++ (w ++ ['<', '/'] ++ e ++ ['>']) ++ post) o →
          docOf (pre ++ printOpen n' as' false ++ (w ++ ['<', '/'] ++ e ++ ['>']) ++ post) o =
            some (C.put (.elem n' as' false (some w) ks (some e))) := by
        intro w e he hw hc
        rw [h2 (w, e) ⟨he, hw⟩ hc, hD]
        simp only [Option.map_some, hput]
      by_cases hks : o.autoFixUnescapedLt = false → ks = []
      · exact ⟨some C, ks, hks, h3⟩
      · refine ⟨none, [], fun _ => rfl, fun w e he hw hc => ?_⟩
        exfalso
        apply hks
        intro hlt
        obtain ⟨ctx, parent, hok⟩ := okNode_occurs (docOf_ok hc (h3 w e he hw hc)) (Gap.put_occurs _ C)
        simp only [okNode, Bool.false_eq_true, if_false, if_neg (raw_not_void hr), if_pos hr] at hok
        rcases hok.2.2.1 with q | q
        · exact q
        · rw [hlt] at q; cases q.1
    | _ => cases hm

/-- **C15.**  Without such an end tag there is no document (not even with `auto_fix_unclosed_tag`). -/
theorem c15_unterminated {o : ParseOptions} {pre n w : Str} {as : List Attr} (hp : outside pre o = true) (hn : tagName n) (hr : isRaw n)
    (hl : legalAttrs o.allowAttrKeyStartsWithEqualSign false as)
    (hw : ∀ u k v, w = u ++ ['<', '/'] ++ k ++ ['>'] ++ v → ¬ closes o.caseSensitiveTagname n k) :
    docOf (pre ++ printOpen n as false ++ w) o = none := by
  obtain ⟨a0, ha0, hm0⟩ := outside_iff.1 hp
  obtain ⟨k1, k2⟩ := raw_open (o := o) hm0 hn hr hl
  cases ho : a0.over with
  | true =>
    apply docOf_stop
    rw [arun_append, arun_append, ha0, Option.bind_some, k1 ho]; rfl
  | false =>
    obtain ⟨m, mk, q1, rfl, rfl⟩ := k2 ho
    refine docOf_pending (a := { a0 with mode := .raw m w, mark := mk }) ?_ rfl rfl
    rw [arun_append, arun_append, ha0, Option.bind_some, q1, Option.bind_some,
      arun_raw w [] { a0 with mode := .raw m [], mark := mk } rfl]
    · rfl
    · intro x y hxy
      cases hc : rawBody o.caseSensitiveTagname m.name ([] ++ x) with
      | none => rfl
      | some k =>
        exfalso
        obtain ⟨u, e, z1, z2, _⟩ := (rawBody_spec ((tagName_iff _).1 hn)).1 hc
        rw [List.nil_append] at z1
        exact hw u e y (by rw [hxy, z1]; simp) z2

/-! ## After a finished document -/

/-- The state after a finished document. -/
theorem docOf_state {o : ParseOptions} {s : Str} {ps : List PNode} (h1 : o.autoFixUnclosedTag = false) (hs : docOf s o = some ps)
    (hd : ∀ n as, .doctype n as true ∉ ps) :
    ∃ a, arun o {} s = some a ∧ a.mode.outside = true ∧ a.rest = [] ∧ a.top.kids = ps ∧ a.over = false := by
  obtain ⟨a, ha, hf, hr⟩ := (docOf_iff (complete_of h1)).1 hs
  obtain ⟨hout, hrest⟩ := (final_iff o a).1 hf
  have hrest : a.rest = [] := by
    rcases hrest with q | q
    · exact q
    · rw [h1] at q; cases q
  have hk : a.top.kids = ps := by
    rw [← hr, result_eq, hrest]; rfl
  refine ⟨a, ha, hout, hrest, hk, ?_⟩
  cases q : a.over with
  | false => rfl
  | true =>
    obtain ⟨_, n, as, k⟩ := OverInv.run ha q
    rw [hk] at k
    exact absurd k (hd n as)

theorem docOf_push {o : ParseOptions} {s : Str} {a : AState} {p : PNode} {l : Last} {mk : Char}
    (h : arun o {} s = some { a.push p with mode := .wait l, mark := mk }) (hr : a.rest = []) :
    docOf s o = some (a.top.kids ++ [p]) := by
  have hf : ({ a.push p with mode := .wait l, mark := mk } : AState).final o = true := by simp [AState.final, AState.push, hr]
  rw [docOf_machine h hf, result_eq]
  simp [AState.push, hr, closeKids]

/-- **C16** after a finished document: the comment becomes its last node. -/
theorem c16_last {o : ParseOptions} {s b : Str} {ps : List PNode} (h1 : o.autoFixUnclosedTag = false) (hs : docOf s o = some ps)
    (hd : ∀ n as, .doctype n as true ∉ ps) (hb : b ≠ []) (hb' : ¬ ['-', '-', '>'] <:+: b.tail) :
    docOf (s ++ ['<', '!', '-', '-'] ++ (b ++ ['-', '-', '>'])) o = some (ps ++ [.comment b]) := by
  obtain ⟨a, k1, k2, k3, k4, k5⟩ := docOf_state h1 hs hd
  rw [← k4]
  refine docOf_push (l := .other) (mk := '\x00') ?_ k3
  rw [arun_append, arun_append, k1, Option.bind_some, comment_open k2, if_neg (by rw [k5]; simp), Option.bind_some]
  exact read_comment (cd := false) (a := { a with mode := .comment false [], mark := '-' }) '-' rfl rfl hb hb'

/-- **C15** after a finished document: the element becomes its last node. -/
theorem c15_last {o : ParseOptions} {s n w e : Str} {as : List Attr} {ps : List PNode} (h1 : o.autoFixUnclosedTag = false)
    (hs : docOf s o = some ps) (hd : ∀ n as, .doctype n as true ∉ ps) (hn : tagName n) (hr : isRaw n)
    (hl : legalAttrs o.allowAttrKeyStartsWithEqualSign false as) (he : closes o.caseSensitiveTagname n e)
    (hw : ∀ u k v, w = u ++ ['<', '/'] ++ k ++ ['>'] ++ v → ¬ closes o.caseSensitiveTagname n k) :
    docOf (s ++ printOpen n as false ++ (w ++ ['<', '/'] ++ e ++ ['>'])) o = some (ps ++ [.elem n as false (some w) [] (some e)]) := by
  obtain ⟨a, k1, k2, k3, k4, k5⟩ := docOf_state h1 hs hd
  obtain ⟨m, mk, q1, rfl, rfl⟩ := (raw_open (o := o) k2 hn hr hl).2 k5
  rw [← k4]
  refine docOf_push (l := .hole) (mk := mk) ?_ k3
  rw [arun_append, arun_append, k1, Option.bind_some, q1, Option.bind_some]
  exact read_raw (a := { a with mode := .raw m [], mark := mk }) rfl ((tagName_iff _).1 hn) he hw

/-! ## Concrete cases -/

/-- Inside an element; tags in the comment are not read. -/
example : outside "<p>a".toList {} = true ∧
    docOf "<p>a<!--</p>-- ><b>-->c</p>".toList {} =
      some (Gap.put (.comment "</p>-- ><b>".toList)
        (.inside [] ['p'] [] false none (.here [.text ['a']] [.text ['c']]) (some ['p']) [])) := by decide +kernel

example : ∃ D : Option Gap, ∀ b : Str, b ≠ [] → ¬ ['-', '-', '>'] <:+: b.tail →
    docOf ("<p>a".toList ++ ['<', '!', '-', '-'] ++ (b ++ ['-', '-', '>']) ++ "c</p>".toList) {} = D.map fun g => g.put (.comment b) := by
  obtain ⟨D, h⟩ := c16_comment (o := {}) (pre := "<p>a".toList) (by decide +kernel) "c</p>".toList
  exact ⟨D, fun b h1 h2 => h b h1 h2 (complete_of rfl)⟩

/-- The body is at least one character long: this comment goes on. -/
example : docOf "<!---->".toList {} = none := c16_unterminated (pre := []) (b := "-->".toList) (by decide +kernel) (by decide +kernel)

/-- A CDATA section. -/
example : outside "<svg><a>".toList {} = true ∧
    docOf "<svg><a><![CDATA[</svg>]]></a></svg>".toList {} =
      some (Gap.put (.cdata "</svg>".toList)
        (.inside [] "svg".toList [] false none (.inside [] ['a'] [] false none (.here [] []) (some ['a']) []) (some "svg".toList) [])) := by
  decide +kernel

/-- A script; the first end tag counts, in other letters and with whitespace. -/
example : isRaw "Script".toList ∧ closes false "Script".toList "sCRIPT \n".toList ∧
    docOf "<b><Script>if (a </b> <!--) </script2></sCRIPT \n></b>".toList {} =
      some (Gap.put (.elem "Script".toList [] false (some "if (a </b> <!--) </script2>".toList) [] (some "sCRIPT \n".toList))
        (.inside [] ['b'] [] false none (.here [] []) (some ['b']) [])) := by decide +kernel

example : docOf "<script>a</b>".toList { autoFixUnclosedTag := true } = none :=
  c15_unterminated (pre := []) (n := "script".toList) (as := []) (w := "a</b>".toList) (by decide +kernel) (by decide +kernel)
    (by decide +kernel) (by decide +kernel) (by decide +kernel)

example : ∃ (D : Option Gap) (ks : List PNode), ks = [] ∧ ∀ w e : Str, closes false "style".toList e →
    (∀ u k v, w = u ++ ['<', '/'] ++ k ++ ['>'] ++ v → ¬ closes false "style".toList k) →
    docOf ("<i>".toList ++ "<style a=b>".toList ++ (w ++ ['<', '/'] ++ e ++ ['>']) ++ "</i>".toList) {} =
      D.map fun g => g.put (.elem "style".toList [{ key := some ['a'], value := some ['b'] }] false (some w) ks (some e)) := by
  obtain ⟨D, ks, h1, h2⟩ := c15_raw (o := {}) (pre := "<i>".toList) (n := "style".toList)
    (as := [{ key := some ['a'], value := some ['b'] }]) (by decide +kernel) (by decide +kernel) (by decide +kernel) (by decide +kernel)
    "</i>".toList
  exact ⟨D, ks, h1 rfl, fun w e he hw => h2 w e he hw (complete_of rfl)⟩

end Rphtml
