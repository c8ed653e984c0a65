import Verif.Proofs.ModeOk
import Verif.Proofs.DocOf

/-!
# What the parser accepts

The documents read are well-formed, except that a doctype may have no attributes, that a self-closed doctype closes the
element it is in, that `auto_fix_unescaped_lt` may put a text into a void or raw-text element, and that
`auto_fix_unexpected_endtag` may split a text.
-/

namespace Rphtml
open Spec

/-- A text. -/
def textOk (w : Str) : Prop := w ≠ [] ∧ '<' ∉ w

/-- The children of a void or raw-text element. -/
def holeOk (o : ParseOptions) (ks : List PNode) : Prop :=
  ks = [] ∨ (o.autoFixUnescapedLt = true ∧ ∃ w, ks = [.text w] ∧ textOk w ∧ ['&', 'l', 't', ';'] <+: w)

/-- Texts are maximal under these options. -/
def Adj (o : ParseOptions) : Prop := o.autoFixUnexpectedEndtag = false ∨ o.autoFixUnclosedTag = true

mutual
/-- An accepted node inside the foreign element `ctx` and the element `parent`. -/
def okNode (o : ParseOptions) (ctx parent : Option Str) : PNode → Prop
  | .text w => textOk w
  | .comment w => w ≠ [] ∧ ¬ ['-', '-', '>'] <:+: w.tail
  | .cdata w => w ≠ [] ∧ ¬ [']', ']', '>'] <:+: w.tail ∧ ctx ≠ none ∧ parent ≠ none ∧ ctx ≠ parent
  | .doctype n as _ => fold n = ['d', 'o', 'c', 't', 'y', 'p', 'e'] ∧
      ∀ a ∈ as, legalAttr o.allowAttrKeyStartsWithEqualSign true a
  | .elem n as s ct ks e =>
    tagName n ∧ (∀ a ∈ as, legalAttr o.allowAttrKeyStartsWithEqualSign false a) ∧
    (if s = true then ct = none ∧ ks = [] ∧ e = none ∧ (o.allowSelfClosing = true ∨ isVoid n ∨ ctx ≠ none)
     else if isVoid n then ct = none ∧ holeOk o ks ∧ e = none
     else if isRaw n then
       holeOk o ks ∧ ∃ w e', ct = some w ∧ e = some e' ∧ closes o.caseSensitiveTagname n e' ∧
         ∀ u k v, w = u ++ ['<', '/'] ++ k ++ ['>'] ++ v → ¬ closes o.caseSensitiveTagname n k
     else
       ct = none ∧ ((∃ e', e = some e' ∧ closes o.caseSensitiveTagname n e') ∨
         (e = none ∧ ∃ n' as', ks.getLast? = some (.doctype n' as' true))) ∧ okNodes o (enter ctx n) (some n) ks)

/-- An accepted list of nodes. -/
def okNodes (o : ParseOptions) (ctx parent : Option Str) : List PNode → Prop
  | [] => True
  | p :: ps => okNode o ctx parent p ∧ (Adj o → isText p = true → ∀ q, ps.head? = some q → isText q = false) ∧
      okNodes o (ctxNode ctx p) parent ps
end

/-- The last node is not a text. -/
def noTextLast (ps : List PNode) : Prop := ∀ q, ps.getLast? = some q → isText q = false

theorem ctxNodes_append (ps qs : List PNode) : ∀ ctx, ctxNodes ctx (ps ++ qs) = ctxNodes (ctxNodes ctx ps) qs := by
  induction ps with
  | nil => intro ctx; simp only [List.nil_append, ctxNodes]
  | cons p ps ih => intro ctx; simp only [List.cons_append, ctxNodes, ih]

theorem okNodes_snoc {o : ParseOptions} {parent : Option Str} {p : PNode} : ∀ {ps : List PNode} {ctx : Option Str},
    okNodes o ctx parent (ps ++ [p]) ↔
      okNodes o ctx parent ps ∧ (Adj o → isText p = true → noTextLast ps) ∧ okNode o (ctxNodes ctx ps) parent p
  | [], ctx => by simp [okNodes, ctxNodes, noTextLast]
  | q :: ps, ctx => by
    simp only [List.cons_append, okNodes, ctxNodes, okNodes_snoc (ps := ps)]
    cases ps with
    | nil =>
      simp only [List.nil_append, List.head?_cons, okNodes, noTextLast, List.head?_nil, List.getLast?_singleton,
        Option.some.injEq, List.getLast?_nil]
      constructor
      · rintro ⟨a, b, _, _, d⟩
        refine ⟨⟨a, by simp, trivial⟩, ?_, d⟩
        rintro ha h r rfl
        cases hr : isText q with
        | false => rfl
        | true => rw [b ha hr p rfl] at h; cases h
      · rintro ⟨⟨a, _, _⟩, b, d⟩
        refine ⟨a, ?_, trivial, by simp, d⟩
        rintro ha h r rfl
        cases hr : isText p with
        | false => rfl
        | true => rw [b ha hr q rfl] at h; cases h
    | cons r ps =>
      have : (q :: r :: ps).getLast? = (r :: ps).getLast? := List.getLast?_cons_cons
      simp only [noTextLast, this, List.cons_append, List.head?_cons]
      constructor
      · rintro ⟨a, b, c, d, e⟩; exact ⟨⟨a, b, c⟩, d, e⟩
      · rintro ⟨⟨a, b, c⟩, d, e⟩; exact ⟨a, b, c, d, e⟩

/-- The foreign element one is in at the beginning of a frame, and after its finished children. -/
def ctxEnd : List Frame → Option Str
  | [] => none
  | [f] => ctxNodes none f.kids
  | f :: g :: fs => ctxNodes (enter (ctxEnd (g :: fs)) f.name) f.kids

/-- The open elements and their finished children. -/
def StackOk (o : ParseOptions) : List Frame → Prop
  | [] => False
  | [f] => okNodes o none none f.kids
  | f :: g :: fs => TagNameOk f.name ∧ ¬ isVoid f.name ∧ ¬ isRaw f.name ∧
      (∀ a ∈ f.attrs, legalAttr o.allowAttrKeyStartsWithEqualSign false a) ∧
      okNodes o (enter (ctxEnd (g :: fs)) f.name) (some f.name) f.kids ∧ StackOk o (g :: fs)

/-- A child is added. -/
theorem StackOk.push {o : ParseOptions} {f : Frame} {fs : List Frame} {p : PNode} (h : StackOk o (f :: fs))
    (hp : okNode o (ctxEnd (f :: fs)) (if fs = [] then none else some f.name) p) (ht : Adj o → isText p = true → noTextLast f.kids) :
    StackOk o ({ f with kids := f.kids ++ [p] } :: fs) ∧
    ctxEnd ({ f with kids := f.kids ++ [p] } :: fs) = ctxNode (ctxEnd (f :: fs)) p := by
  cases fs with
  | nil =>
    simp only [StackOk, ctxEnd] at h ⊢
    exact ⟨okNodes_snoc.2 ⟨h, ht, hp⟩, by rw [ctxNodes_append]; simp only [ctxNodes]⟩
  | cons g gs =>
    simp only [StackOk, ctxEnd] at h ⊢
    obtain ⟨h1, h2, h3, h4, h5, h6⟩ := h
    exact ⟨⟨h1, h2, h3, h4, okNodes_snoc.2 ⟨h5, ht, hp⟩, h6⟩, by rw [ctxNodes_append]; simp only [ctxNodes]⟩

/-- The last child is changed. -/
theorem StackOk.mod {o : ParseOptions} {f : Frame} {fs : List Frame} {ks : List PNode} {p p' : PNode} (h : StackOk o (f :: fs))
    (hk : f.kids = ks ++ [p]) (hp : ∀ ctx parent, okNode o ctx parent p → okNode o ctx parent p') (ht : isText p' = isText p)
    (hc : ∀ ctx, ctxNode ctx p' = ctxNode ctx p) :
    StackOk o ({ f with kids := ks ++ [p'] } :: fs) ∧ ctxEnd ({ f with kids := ks ++ [p'] } :: fs) = ctxEnd (f :: fs) := by
  have key : ∀ ctx parent, okNodes o ctx parent (ks ++ [p]) →
      okNodes o ctx parent (ks ++ [p']) ∧ ctxNodes ctx (ks ++ [p']) = ctxNodes ctx (ks ++ [p]) := by
    intro ctx parent q
    rw [okNodes_snoc] at q ⊢
    refine ⟨⟨q.1, ?_, hp _ _ q.2.2⟩, by rw [ctxNodes_append, ctxNodes_append]; simp only [ctxNodes, hc]⟩
    rw [ht]; exact q.2.1
  cases fs with
  | nil =>
    simp only [StackOk, ctxEnd, hk] at h ⊢
    exact key _ _ h
  | cons g gs =>
    simp only [StackOk, ctxEnd, hk] at h ⊢
    obtain ⟨h1, h2, h3, h4, h5, h6⟩ := h
    exact ⟨⟨h1, h2, h3, h4, (key _ _ h5).1, h6⟩, (key _ _ h5).2⟩

/-- What the last child is. -/
def Fits (o : ParseOptions) (l : Last) (ks : List PNode) : Prop :=
  match l with
  | .text .top => ∃ xs w, ks = xs ++ [.text w]
  | .text .nested => o.autoFixUnescapedLt = true ∧
      ∃ xs n as ct w e, ks = xs ++ [.elem n as false ct [.text w] e] ∧ (isVoid n ∨ isRaw n)
  | .hole => ∃ xs n as ct e, ks = xs ++ [.elem n as false ct [] e] ∧ (isVoid n ∨ isRaw n)
  | .other => Adj o → noTextLast ks

/-- What the last child is, in each mode. -/
def LastFits (o : ParseOptions) (a : AState) : Prop :=
  match a.mode with
  | .text p => Fits o (.text p) a.top.kids
  | .wait l => Fits o l a.top.kids ∧ ∀ p, l = .text p → o.autoFixUnexpectedEndtag = true
  | .lt l => Fits o l a.top.kids
  | .tagEnd _ l => o.autoFixUnexpectedEndtag = true → Fits o l a.top.kids
  | _ => True

/-- The invariant of the machine. -/
structure WfInv (o : ParseOptions) (a : AState) : Prop where
  mode : ModeOk o a
  stack : StackOk o (a.top :: a.rest)
  ctx : ctxOf a = ctxEnd (a.top :: a.rest)
  last : LastFits o a

/-- The innermost element is closed. -/
theorem StackOk.pop {o : ParseOptions} {f g : Frame} {fs : List Frame} {e : Option Str} (h : StackOk o (f :: g :: fs))
    (he : (∃ e', e = some e' ∧ closes o.caseSensitiveTagname f.name e') ∨
      (e = none ∧ ∃ n' as', f.kids.getLast? = some (.doctype n' as' true))) :
    StackOk o ({ g with kids := g.kids ++ [.elem f.name f.attrs false none f.kids e] } :: fs) ∧
    ctxEnd ({ g with kids := g.kids ++ [.elem f.name f.attrs false none f.kids e] } :: fs) =
      (match e with
        | some e => leave (ctxEnd (f :: g :: fs)) e
        | none => ctxEnd (f :: g :: fs)) := by
  simp only [StackOk] at h
  obtain ⟨h1, h2, h3, h4, h5, h6⟩ := h
  obtain ⟨k1, k2⟩ := h6.push (p := .elem f.name f.attrs false none f.kids e) (by
    simp only [okNode]
    refine ⟨(tagName_iff _).2 h1, h4, ?_⟩
    rw [if_neg (by decide), if_neg h2, if_neg h3]
    exact ⟨trivial, he, h5⟩) (by intro _ q; cases q)
  refine ⟨k1, k2.trans ?_⟩
  simp only [ctxNode, Bool.false_eq_true, h2, h3, or_self, if_false, ctxEnd]
  cases e <;> rfl

theorem upper_fold {n : Str} (h : n.map toUpper = detectDoctype) : fold n = ['d', 'o', 'c', 't', 'y', 'p', 'e'] := by
  have h1 : lowerAll (n.map toUpper) = lowerAll n := by
    unfold lowerAll
    rw [List.map_map]
    congr 1
    funext c
    apply char_ext
    simp only [Function.comp, toNat_toUpper, toNat_toLower]
    repeat' split
    all_goals omega
  rw [← lowerAll_eq_fold, ← h1, h]
  decide

theorem comment_early {k : Char} {pc b : Str} (hb : commentBody k pc = some b)
    (h : ∀ x y, pc = x ++ '>' :: y → commentBody k x = none) : b ≠ [] ∧ ¬ [k, k, '>'] <:+: b.tail := by
  obtain ⟨h1, h2⟩ := (commentBody_iff k pc b).1 hb
  refine ⟨h1, ?_⟩
  rintro ⟨s, t, e⟩
  cases b with
  | nil => exact h1 rfl
  | cons b0 b =>
    simp only [List.tail_cons] at e
    have := h (b0 :: s ++ [k, k]) (t ++ [k, k]) (by rw [h2, ← e]; simp)
    rw [(commentBody_iff k _ (b0 :: s)).2 ⟨by simp, rfl⟩] at this
    cases this

theorem not_true {b : Bool} (h : ¬ b = true) : b = false := by simpa using h

/-- A start tag ends. -/
theorem WfInv.openTag {o : ParseOptions} {a : AState} {m : TagMeta} (h : WfInv o a) (hm : MetaOk o false m)
    (hmode : ModeOk o (a.openTag m [])) : WfInv o (a.openTag m []) := by
  have hv : m.isVoid = true ↔ isVoid m.name := by rw [hm.name.2, isVoid_iff]
  refine ⟨hmode, ?_, ?_, ?_⟩ <;> unfold AState.openTag
  · split
    · rename_i h1
      exact (h.stack.push (p := .elem m.name m.attrs false none [] none) (by
        simp only [okNode]
        refine ⟨(tagName_iff _).2 hm.name.1, hm.attrs, ?_⟩
        rw [if_neg (by decide), if_pos (hv.1 h1)]
        exact ⟨trivial, .inl rfl, trivial⟩) (by intro _ q; cases q)).1
    · split
      · exact h.stack
      · rename_i h1 h2
        simp only [StackOk]
        exact ⟨hm.name.1, fun q => h1 (hv.2 q), fun q => h2 ((isRaw_iff _).2 q), hm.attrs, trivial, h.stack⟩
  · split
    · rename_i h1
      have k := (h.stack.push (p := .elem m.name m.attrs false none [] none) (by
        simp only [okNode]
        refine ⟨(tagName_iff _).2 hm.name.1, hm.attrs, ?_⟩
        rw [if_neg (by decide), if_pos (hv.1 h1)]
        exact ⟨trivial, .inl rfl, trivial⟩) (by intro _ q; cases q)).2
      refine Eq.trans ?_ k.symm
      simp only [ctxNode, hv.1 h1, true_or, or_true, if_true]
      exact h.ctx
    · split
      · exact h.ctx
      · simp only [ctxEnd, ctxNodes, ← h.ctx, ctxOf, enter]
        cases hsp : a.sp with
        | some x => simp
        | none =>
          simp only [Option.map_none]
          by_cases hf : isForeign m.name
          · rw [if_pos hf]
            have := (foreign_iff m.name).2 hf
            cases hx : specialTag (lowerAll m.name) with
            | none => rw [hx] at this; cases this
            | some x => rfl
          · rw [if_neg hf]
            cases hx : specialTag (lowerAll m.name) with
            | none => rfl
            | some x => exact absurd ((foreign_iff m.name).1 (by rw [hx]; rfl)) hf
  · split
    · rename_i h1
      exact ⟨⟨a.top.kids, m.name, m.attrs, none, none, rfl, .inl (hv.1 h1)⟩, by simp⟩
    · split
      · trivial
      · exact ⟨fun _ => by simp [noTextLast], by simp⟩

theorem noTextLast_snoc {ks : List PNode} {p : PNode} (hp : isText p = false) : noTextLast (ks ++ [p]) := by
  intro q hq
  simp only [List.getLast?_append, List.getLast?_singleton, Option.some_or, Option.some.injEq] at hq
  subst hq; exact hp

/-- A leaf is added. -/
theorem WfInv.leaf {o : ParseOptions} {a : AState} {p : PNode} (h : WfInv o a) (hp : okNode o (ctxOf a) (parentOf a) p)
    (ht : isText p = false) (hc : ctxNode (ctxOf a) p = ctxOf a) (l : Last) (hl : ∀ q, l ≠ .text q)
    (hf : Fits o l (a.top.kids ++ [p])) (mk : Char) :
    WfInv o { a.push p with mode := .wait l, mark := mk } := by
  rw [h.ctx] at hp hc
  obtain ⟨k1, k2⟩ := h.stack.push hp (by rw [ht]; intro _ q; cases q)
  exact ⟨trivial, k1, h.ctx.trans (k2.trans hc).symm, hf, fun p hp => absurd hp (hl p)⟩

/-- A text is added. -/
theorem WfInv.text {o : ParseOptions} {a : AState} {w : Str} (h : WfInv o a) (hw : textOk w)
    (hl : Adj o → noTextLast a.top.kids) {m : Mode} (hm : m = .text .top ∨ m = .lt (.text .top)) :
    WfInv o { a.push (.text w) with mode := m } := by
  obtain ⟨k1, k2⟩ := h.stack.push (p := .text w) (by simp only [okNode]; exact hw) (fun q _ => hl q)
  refine ⟨?_, k1, h.ctx.trans (k2.trans (by simp only [ctxNode])).symm, ?_⟩
  · rcases hm with rfl | rfl <;> trivial
  · rcases hm with rfl | rfl <;> exact ⟨a.top.kids, w, rfl⟩

/-- A text is continued. -/
theorem WfInv.moreText {o : ParseOptions} {a : AState} {p : Place} {w : Str} (h : WfInv o a) (hw : '<' ∉ w)
    (hl : Fits o (.text p) a.top.kids) {m : Mode} (hm : m = .text p ∨ m = .lt (.text p)) :
    WfInv o { a.more p w with mode := m } := by
  have hmode : ModeOk o { a.more p w with mode := m } := by rcases hm with rfl | rfl <;> trivial
  have hmore : ∀ v, textOk v → textOk (v ++ w) := by
    rintro v ⟨h1, h2⟩
    exact ⟨by simp [h1], by simp only [List.mem_append, not_or]; exact ⟨h2, hw⟩⟩
  cases p with
  | top =>
    obtain ⟨xs, v, hk⟩ := hl
    have e : addTextAt .top w a.top.kids = xs ++ [.text (v ++ w)] := by
      simp only [addTextAt, hk, modLast_snoc, PNode.addText]
    obtain ⟨k1, k2⟩ := h.stack.mod (p' := .text (v ++ w)) hk (by
      intro ctx parent q; simp only [okNode] at q ⊢; exact hmore v q) rfl (by intro ctx; simp only [ctxNode])
    refine ⟨hmode, ?_, ?_, ?_⟩
    · simp only [AState.more, e]; exact k1
    · simp only [AState.more, e]; exact h.ctx.trans k2.symm
    · rcases hm with rfl | rfl <;> simp only [LastFits, AState.more, e] <;> exact ⟨xs, v ++ w, rfl⟩
  | nested =>
    obtain ⟨ho, xs, n, as, ct, v, ed, hk, hv⟩ := hl
    have e : addTextAt .nested w a.top.kids = xs ++ [.elem n as false ct [.text (v ++ w)] ed] := by
      simp only [addTextAt, hk, modLast_snoc, PNode.modKids, modLast, PNode.addText]
    have hole : holeOk o [.text v] → holeOk o [.text (v ++ w)] := by
      rintro (q | ⟨q, x, hx, q'⟩)
      · cases q
      · simp only [List.cons.injEq, PNode.text.injEq, and_true] at hx
        exact .inr ⟨q, _, rfl, hmore v (hx ▸ q'.1), (hx ▸ q'.2 : _ <+: v).trans (List.prefix_append _ _)⟩
    obtain ⟨k1, k2⟩ := h.stack.mod (p' := .elem n as false ct [.text (v ++ w)] ed) hk (by
      intro ctx parent q
      simp only [okNode] at q ⊢
      refine ⟨q.1, q.2.1, ?_⟩
      have q3 := q.2.2
      rw [if_neg (by decide)] at q3 ⊢
      by_cases hv' : isVoid n
      · rw [if_pos hv'] at q3 ⊢; exact ⟨q3.1, hole q3.2.1, q3.2.2⟩
      · rw [if_neg hv', if_pos (hv.resolve_left hv')] at q3 ⊢; exact ⟨hole q3.1, q3.2⟩) rfl (by
      intro ctx; simp only [ctxNode]
      rw [if_pos (.inr hv), if_pos (.inr hv)])
    refine ⟨hmode, ?_, ?_, ?_⟩
    · simp only [AState.more, e]; exact k1
    · simp only [AState.more, e]; exact h.ctx.trans k2.symm
    · rcases hm with rfl | rfl <;> simp only [LastFits, AState.more, e] <;> exact ⟨ho, xs, n, as, ct, v ++ w, ed, rfl, hv⟩

/-- A void or raw-text element gets a text. -/
theorem WfInv.fillText {o : ParseOptions} {a : AState} {w : Str} (h : WfInv o a) (hw : textOk w ∧ ['&', 'l', 't', ';'] <+: w) (ho : o.autoFixUnescapedLt = true)
    (hl : Fits o .hole a.top.kids) {m : Mode} (hm : m = .text .nested ∨ m = .lt (.text .nested)) :
    WfInv o { a.fill w with mode := m } := by
  have hmode : ModeOk o { a.fill w with mode := m } := by rcases hm with rfl | rfl <;> trivial
  obtain ⟨xs, n, as, ct, ed, hk, hv⟩ := hl
  have e : modLast (PNode.modKids fun ks => ks ++ [.text w]) a.top.kids = xs ++ [.elem n as false ct [.text w] ed] := by
    simp only [hk, modLast_snoc, PNode.modKids, List.nil_append]
  have hole : holeOk o [.text w] := .inr ⟨ho, _, rfl, hw⟩
  obtain ⟨k1, k2⟩ := h.stack.mod (p' := .elem n as false ct [.text w] ed) hk (by
    intro ctx parent q
    simp only [okNode] at q ⊢
    refine ⟨q.1, q.2.1, ?_⟩
    have q3 := q.2.2
    rw [if_neg (by decide)] at q3 ⊢
    by_cases hv' : isVoid n
    · rw [if_pos hv'] at q3 ⊢; exact ⟨q3.1, hole, q3.2.2⟩
    · rw [if_neg hv', if_pos (hv.resolve_left hv')] at q3 ⊢; exact ⟨hole, q3.2⟩) rfl (by
    intro ctx; simp only [ctxNode]
    rw [if_pos (.inr hv), if_pos (.inr hv)])
  refine ⟨hmode, ?_, ?_, ?_⟩
  · simp only [AState.fill, e]; exact k1
  · simp only [AState.fill, e]; exact h.ctx.trans k2.symm
  · rcases hm with rfl | rfl <;> simp only [LastFits, AState.fill, e] <;> exact ⟨ho, xs, n, as, ct, w, ed, rfl, hv⟩

theorem ltText_start (c : Char) : ['&', 'l', 't', ';'] <+: (if c = '<' then ['&', 'l', 't', ';'] else ['&', 'l', 't', ';', c]) := by
  by_cases hc : c = '<'
  · rw [if_pos hc]; exact List.prefix_refl _
  · rw [if_neg hc]; exact ⟨[c], rfl⟩

theorem ltText_ok (c : Char) : textOk (if c = '<' then ['&', 'l', 't', ';'] else ['&', 'l', 't', ';', c]) := by
  by_cases hc : c = '<'
  · rw [if_pos hc]; exact ⟨by simp, by decide⟩
  · rw [if_neg hc]
    refine ⟨by simp, ?_⟩
    simp only [List.mem_cons, List.not_mem_nil, or_false, not_or]
    exact ⟨by decide, by decide, by decide, by decide, fun q => hc q.symm⟩

theorem ltMode_or (c : Char) (p : Place) : (if c = '<' then Mode.lt (.text p) else .text p) = .text p ∨
    (if c = '<' then Mode.lt (.text p) else .text p) = .lt (.text p) := by
  by_cases hc : c = '<'
  · rw [if_pos hc]; exact .inr rfl
  · rw [if_neg hc]; exact .inl rfl

theorem WfInv.step {o : ParseOptions} {a a' : AState} {c : Char} (h : WfInv o a) (s : AStep o a c a') : WfInv o a' := by
  have hmo := s.modeOk h.mode
  have hm0 := h.mode
  unfold ModeOk at hm0
  have hlast := h.last
  unfold LastFits at hlast
  cases s with
  | lt hm =>
    refine ⟨hmo, h.stack, h.ctx, ?_⟩
    rcases hm with hm | ⟨p, rfl, hm⟩
    · simp only [hm] at hlast; exact hlast.1
    · simp only [hm] at hlast; exact hlast
  | resume hm ho hc =>
    simp only [hm] at hlast
    exact h.moreText (by simpa using hc.symm) hlast.1 (.inl rfl)
  | start hm hl hover hc =>
    rename_i l
    simp only [hm] at hlast
    refine h.text ⟨by simp, by simpa using hc.symm⟩ ?_ (.inl rfl)
    cases l with
    | other => exact hlast.1
    | text p => have := hl p rfl; rw [hlast.2 p rfl] at this; cases this
    | hole =>
      obtain ⟨xs, n, as, ct, ed, hk, _⟩ := hlast.1
      intro _
      rw [hk]; exact noTextLast_snoc rfl
  | more hm hc =>
    simp only [hm] at hlast
    have := h.moreText (w := [c]) (by simpa using hc.symm) hlast (.inl rfl)
    simpa only [AState.more, hm] using this
  | tagOpen => exact ⟨hmo, h.stack, h.ctx, trivial⟩
  | endOpen hm =>
    simp only [hm] at hlast
    refine ⟨hmo, h.stack, h.ctx, ?_⟩
    intro hu
    by_cases hc : o.autoFixUnclosedTag = true
    · rw [if_pos hc]; exact hlast
    · rw [if_neg hc]
      rintro (q | q)
      · rw [hu] at q; cases q
      · exact absurd q hc
  | bangOpen => exact ⟨hmo, h.stack, h.ctx, trivial⟩
  | ltMore hm ho hc =>
    simp only [hm] at hlast
    exact h.moreText (ltText_ok c).2 hlast (ltMode_or c _)
  | ltFill hm ho hc =>
    simp only [hm] at hlast
    exact h.fillText ⟨ltText_ok c, ltText_start c⟩ ho hlast (ltMode_or c _)
  | ltPush hm ho hc =>
    simp only [hm] at hlast
    exact h.text (ltText_ok c) hlast (ltMode_or c _)
  | bangDash => exact ⟨hmo, h.stack, h.ctx, trivial⟩
  | bangD => exact ⟨hmo, h.stack, h.ctx, trivial⟩
  | bangC => exact ⟨hmo, h.stack, h.ctx, trivial⟩
  | bangMore => exact ⟨hmo, h.stack, h.ctx, trivial⟩
  | commentOpen => exact ⟨hmo, h.stack, h.ctx, trivial⟩
  | cdataOpen => exact ⟨hmo, h.stack, h.ctx, trivial⟩
  | doctypeOpen => exact ⟨hmo, h.stack, h.ctx, trivial⟩
  | commentClose hm hb =>
    rename_i cd pc b
    simp only [hm] at hm0
    obtain ⟨h0, h1, h2⟩ := hm0
    obtain ⟨k1, k2⟩ := comment_early hb h2
    refine h.leaf ?_ (by cases cd <;> rfl) (by cases cd <;> simp only [if_true, if_false, Bool.false_eq_true, ctxNode]) Last.other (by simp)
      (fun _ => noTextLast_snoc (by cases cd <;> rfl)) _
    cases cd with
    | false => simp only [if_false, Bool.false_eq_true, okNode]; exact ⟨k1, k2⟩
    | true =>
      simp only [if_true, okNode]
      obtain ⟨r1, k, n, r2, r3⟩ := h1 rfl
      refine ⟨k1, k2, by simp [ctxOf, r2], by simp [parentOf, r1], ?_⟩
      simp only [ctxOf, r2, parentOf, r1, if_false, Option.map_some, ne_eq, Option.some.injEq]
      exact r3
  | commentMore => exact ⟨hmo, h.stack, h.ctx, trivial⟩
  | doctypeName => exact ⟨hmo, h.stack, h.ctx, trivial⟩
  | nameMore => exact ⟨hmo, h.stack, h.ctx, trivial⟩
  | nameEnd => exact ⟨hmo, h.stack, h.ctx, trivial⟩
  | nameClose hm =>
    simp only [hm] at hm0
    exact h.openTag ⟨by simp, hm0.2, rfl⟩ hmo
  | tagMore => exact ⟨hmo, h.stack, h.ctx, trivial⟩
  | docClose hm ht =>
    simp only [hm] at hm0
    obtain ⟨k1, _, _⟩ := hm0.2.close ht
    exact h.leaf (by simp only [okNode]; exact ⟨upper_fold k1.name, k1.attrs⟩) rfl (by simp only [ctxNode]) Last.other (by simp)
      (fun _ => noTextLast_snoc rfl) _
  | tagClose hm ht =>
    simp only [hm] at hm0
    obtain ⟨k1, rfl, _⟩ := hm0.2.close ht
    have := h.openTag k1 (openTag_modeOk k1 hm0.1 '\x00').2
    refine ⟨hmo, this.stack, this.ctx, this.last⟩
  | docSelf hm ht =>
    rename_i t
    simp only [hm] at hm0
    have k1 := hm0.2.self ht
    have hl := h.leaf (p := .doctype t.m.name t.m.attrs true) (by simp only [okNode]; exact ⟨upper_fold k1.name, k1.attrs⟩) rfl
      (by simp only [ctxNode]) .other (by simp) (fun _ => noTextLast_snoc rfl) a.mark
    have s1 := hl.stack
    have s2 := hl.ctx
    have s3 := hl.last
    cases hr : a.rest with
    | nil =>
      refine ⟨hmo, ?_, ?_, ?_⟩
      · simp only [AState.pop, AState.push, hr]
        simpa only [AState.push, hr] using s1
      · simp only [AState.pop, AState.push, hr]
        simpa only [AState.push, hr, ctxOf] using s2
      · simp only [AState.pop, AState.push, hr]
        simpa only [AState.push, hr, LastFits] using s3
    | cons g gs =>
      simp only [AState.push, hr] at s1 s2
      obtain ⟨p1, p2⟩ := s1.pop (e := none) (.inr ⟨rfl, t.m.name, t.m.attrs, by simp⟩)
      refine ⟨hmo, ?_, ?_, ?_⟩
      · simp only [AState.pop, AState.push, hr]
        exact p1
      · simp only [AState.pop, AState.push, hr]
        exact s2.trans p2.symm
      · simp only [AState.pop, AState.push, hr]
        exact ⟨fun _ => noTextLast_snoc rfl, by simp⟩
  | tagSelf hm ht ho =>
    rename_i t
    simp only [hm] at hm0
    have k1 := hm0.2.self ht
    refine h.leaf ?_ rfl (by simp only [ctxNode, true_or, if_true]) Last.other (by simp)
      (fun _ => noTextLast_snoc rfl) _
    simp only [okNode]
    refine ⟨(tagName_iff _).2 k1.name.1, k1.attrs, ?_⟩
    rw [if_pos trivial]
    refine ⟨trivial, trivial, trivial, ?_⟩
    rcases ho with q | q | q
    · exact .inl q
    · rw [k1.name.2, isVoid_iff] at q; exact .inr (.inl q)
    · refine .inr (.inr ?_)
      intro e
      cases hsp : a.sp with
      | none => exact q hsp
      | some x => rw [ctxOf, hsp] at e; cases e
  | endMore hm =>
    simp only [hm] at hlast
    exact ⟨hmo, h.stack, h.ctx, hlast⟩
  | endMatch hm hr he hcase =>
    rename_i pc ret
    have hcl := (endMatch_iff o.caseSensitiveTagname a.top.name pc).1 ⟨he, hcase⟩
    have hst := h.stack
    have hct := h.ctx
    cases hr' : a.rest with
    | nil => exact absurd hr' hr
    | cons g gs =>
      rw [hr'] at hst hct
      obtain ⟨p1, p2⟩ := hst.pop (e := some pc) (.inl ⟨pc, rfl, hcl⟩)
      refine ⟨hmo, ?_, ?_, ?_⟩
      · simp only [AState.pop, hr']
        exact p1
      · simp only [AState.pop, hr']
        refine Eq.trans ?_ (p2.trans (show _ = leave (ctxOf a) pc by rw [hct])).symm
        unfold ctxOf leave
        rw [← charsTrimEnd_eq]
        cases hsp : a.sp with
        | none => simp
        | some x =>
          obtain ⟨s, n⟩ := x
          by_cases hx : n = charsTrimEnd pc
          · simp [hx]
          · simp [hx]
      · simp only [AState.pop, hr']
        exact ⟨fun _ => noTextLast_snoc rfl, by simp⟩
  | endStray hm he ho =>
    simp only [hm] at hlast
    exact ⟨hmo, h.stack, h.ctx, hlast ho, fun _ _ => ho⟩
  | rawClose hm hb =>
    rename_i m pc n
    simp only [hm] at hm0
    obtain ⟨h0, hr⟩ := hm0
    obtain ⟨u, k, rfl, h2, rfl⟩ := (rawBody_spec hr.tag.name.1).1 hb
    have hraw := (isRaw_iff _).1 hr.raw
    have hnv : ¬ isVoid m.name := by rw [← isVoid_iff, ← hr.tag.name.2, hr.void]; simp
    have e1 : (u ++ ['<', '/'] ++ k).take u.length = u := by rw [List.append_assoc, List.take_left]
    have e2 : (u ++ ['<', '/'] ++ k).drop (u.length + 2) = k := by
      have : u.length + 2 = (u ++ ['<', '/']).length := by simp
      rw [this, List.drop_left]
    rw [e1, e2]
    refine h.leaf ?_ rfl (by simp only [ctxNode, hraw, or_true, if_true]) Last.hole (by simp)
      ⟨a.top.kids, m.name, m.attrs, some u, some k, rfl, .inr hraw⟩ _
    simp only [okNode]
    refine ⟨(tagName_iff _).2 hr.tag.name.1, hr.tag.attrs, ?_⟩
    rw [if_neg (by decide), if_neg hnv, if_pos hraw]
    refine ⟨.inl rfl, u, k, rfl, rfl, h2, ?_⟩
    rintro x y z rfl hk
    have := hr.early (x ++ ['<', '/'] ++ y) (z ++ ['<', '/'] ++ k) (by simp)
    rw [(rawBody_spec hr.tag.name.1).2 ⟨x, y, rfl, hk, rfl⟩] at this
    cases this
  | rawMore => exact ⟨hmo, h.stack, h.ctx, trivial⟩

theorem WfInv.init (o : ParseOptions) : WfInv o {} :=
  ⟨trivial, by simp only [StackOk]; trivial, rfl, fun _ => by simp [noTextLast], by simp⟩

theorem WfInv.run {o : ParseOptions} {s : Str} {a : AState} (h : arun o {} s = some a) : WfInv o a :=
  arun_inv (P := fun _ a => WfInv o a) (fun _ _ _ _ k st => k.step st) s [] {} a (WfInv.init o) h

theorem closes_self {b : Bool} {n : Str} (hn : TagNameOk n) : closes b n n := by
  rw [closes_iff]
  have := trimEnd_append (a := n) (w := []) (by simp) (sameText_last (sameText_refl false n) hn)
  rw [List.append_nil] at this
  rw [this]
  exact sameText_refl _ _

theorem StackOk.closeKids {o : ParseOptions} : ∀ (fs : List Frame) (f : Frame), StackOk o (f :: fs) →
    okNodes o none none (closeKids f.kids f fs)
  | [], f, h => by
    simp only [StackOk] at h
    exact h
  | g :: gs, f, h => by
    have hn : TagNameOk f.name := by simp only [StackOk] at h; exact h.1
    have := StackOk.closeKids gs _ (h.pop (e := some f.name) (.inl ⟨_, rfl, closes_self hn⟩)).1
    unfold Rphtml.closeKids
    cases gs <;> exact this

/-- **What the parser accepts.** -/
theorem result_ok {o : ParseOptions} {s : Str} {a : AState} (h : arun o {} s = some a) : okNodes o none none a.result := by
  rw [result_eq]
  exact StackOk.closeKids _ _ (WfInv.run h).stack

end Rphtml
