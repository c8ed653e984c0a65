import Verif.Proofs.RawEnd
import Verif.Proofs.Position
import Verif.Proofs.TextInv
import Verif.Proofs.Alive
import Verif.Proofs.Scan
import Verif.Spec.Span

/-! # The source text of every node -/

namespace Rphtml
open Spec

/-- `w` occurs in `s` at `b`. -/
def At (s : Str) (b : Nat) (w : Str) : Prop := ∃ pre post, s = pre ++ w ++ post ∧ pre.length = b

theorem Tail.at {s w : Str} {b : Nat} (h : Tail s b w) : At s b w := by
  obtain ⟨pre, h1, h2⟩ := h
  exact ⟨pre, [], by simpa using h1, h2⟩

theorem At.mono {s w : Str} {b : Nat} (h : At s b w) (t : Str) : At (s ++ t) b w := by
  obtain ⟨pre, post, rfl, h2⟩ := h
  exact ⟨pre, post ++ t, by simp, h2⟩

theorem At.prefix {s w v : Str} {b : Nat} (h : At s b (w ++ v)) : At s b w := by
  obtain ⟨pre, post, rfl, h2⟩ := h
  exact ⟨pre, v ++ post, by simp, h2⟩

theorem At.slice {s w : Str} {b e : Nat} (h : At s b w) (he : e = b + w.length) : Spec.slice s b e = w := by
  obtain ⟨pre, post, rfl, h2⟩ := h
  unfold Spec.slice
  subst he
  rw [← h2]
  simp

/-! ## Texts -/

theorem mended_app {o : ParseOptions} {x w y v : Str} (h : Mended o x w) (hy : Mended o y v)
    (hn : x.getLast? = some '<' → ∀ c, y.head? = some c → c.isAlpha = false ∧ c ≠ '/' ∧ c ≠ '!') : Mended o (x ++ y) (w ++ v) := by
  induction h with
  | nil => simpa using hy
  | @char c s w hc h ih =>
    refine .char hc (ih ?_)
    intro q; refine hn ?_
    cases s with
    | nil => cases q
    | cons => simpa using q
  | @lt s w ho hs h ih =>
    rw [List.cons_append, List.append_assoc]
    refine .lt ho ?_ (ih ?_)
    · cases s with
      | nil => exact hn rfl
      | cons => exact hs
    · intro q; refine hn ?_
      cases s with
      | nil => cases q
      | cons => simpa using q
  | @dropped e s w h1 h2 he h ih =>
    rw [List.append_assoc]
    refine .dropped h1 h2 he (ih ?_)
    intro q; refine hn ?_
    rw [List.getLast?_append, q]; rfl

theorem mended_char {o : ParseOptions} {x w : Str} {c : Char} (h : Mended o x w) (hl : x.getLast? ≠ some '<') (hc : c ≠ '<') :
    Mended o (x ++ [c]) (w ++ [c]) := mended_app h (.char hc .nil) (fun q => absurd q hl)

/-- A `<` that is read as `&lt;`, and the character behind it. -/
theorem mended_lt {o : ParseOptions} {x w : Str} {c : Char} (h : Mended o x w) (ho : o.autoFixUnescapedLt = true)
    (hc : isAlpha c = false ∧ c ≠ '/' ∧ c ≠ '!') :
    if c = '<' then Mended o (x ++ ['<']) (w ++ ['&', 'l', 't', ';']) else Mended o (x ++ ['<', c]) (w ++ ['&', 'l', 't', ';', c]) := by
  have k : ∀ d, some '<' = some d → d.isAlpha = false ∧ d ≠ '/' ∧ d ≠ '!' := by intro d q; cases q; decide
  split
  · exact mended_app h (.lt (s := []) ho (by simp) .nil) (fun _ => k)
  · rename_i h1
    refine mended_app h (.lt (s := [c]) ho ?_ (.char h1 .nil)) (fun _ => k)
    intro d q; cases q; rw [← isAlpha_char]; exact hc

theorem mended_dropped {o : ParseOptions} {x w e : Str} (h : Mended o x w) (h1 : o.autoFixUnexpectedEndtag = true)
    (h2 : o.autoFixUnclosedTag = true) (he : '>' ∉ e) : Mended o (x ++ (['<', '/'] ++ e ++ ['>'])) w := by
  have := mended_app h (.dropped h1 h2 he .nil) (fun _ d q => by cases q; decide)
  simpa using this

/-- Without repairs. -/
theorem mended_plain {o : ParseOptions} {x w : Str} (h1 : o.autoFixUnescapedLt = false) (h2 : o.autoFixUnexpectedEndtag = false)
    (h : Mended o x w) : w = x := by
  induction h with
  | nil => rfl
  | char hc h ih => rw [ih]
  | lt ho => rw [h1] at ho; cases ho
  | dropped ho => rw [h2] at ho; cases ho

/-- A text begins here. -/
def Edge (s : Str) (b : Nat) : Prop := b = 0 ∨ ∃ a, b = a + 1 ∧ At s a ['>']

theorem Edge.mono {s : Str} {b : Nat} (h : Edge s b) (t : Str) : Edge (s ++ t) b := by
  rcases h with h | ⟨a, h1, h2⟩
  · exact .inl h
  · exact .inr ⟨a, h1, h2.mono t⟩

theorem Edge.of {s : Str} (h : s = [] ∨ ∃ t, s = t ++ ['>']) (v : Str) : Edge (s ++ v) s.length := by
  rcases h with rfl | ⟨t, rfl⟩
  · exact .inl rfl
  · exact .inr ⟨t.length, by simp, t, v, by simp, rfl⟩

/-- What is known about a finished node. -/
def Good (o : ParseOptions) (s : Str) (c : Cell) : Prop :=
  match c.nodeType with
  | .abstractRoot => True
  | .text | .spacesBetweenTag => ∃ w x, c.content = some w ∧ At s c.beginAt x ∧ c.endAt = c.beginAt + x.length ∧ Mended o x w ∧
      Edge s c.beginAt ∧ At s c.endAt ['<']
  | .comment => ∃ w, c.content = some w ∧ At s c.beginAt (['<', '!', '-', '-'] ++ w ++ ['-', '-', '>']) ∧
      c.endAt = c.beginAt + w.length + 7
  | .xmlCdata => ∃ w k, c.content = some w ∧ k.map toUpper = detectCdata ∧
      At s c.beginAt (['<', '!'] ++ k ++ w ++ [']', ']', '>']) ∧ c.endAt = c.beginAt + w.length + 12
  | .tag => ∃ m, c.tmeta = some m ∧ At s c.beginAt ('<' :: m.name)
  | .htmlDoctype => ∃ m, c.tmeta = some m ∧ m.name.map toUpper = detectDoctype ∧ At s c.beginAt ('<' :: '!' :: m.name)
  | .tagEnd => (o.autoFixUnexpectedEndtag = true ∧ c.content = none) ∨ ∃ w, c.content = some w ∧
      ((At s c.beginAt (['<', '/'] ++ w ++ ['>']) ∧ c.endAt = c.beginAt + w.length + 3) ∨
       (c.endAt = c.beginAt ∧ ∃ b, c.beginAt = b + w.length + 3 ∧ At s b (['<', '/'] ++ w ++ ['>'])))

theorem Good.mono {o : ParseOptions} {s : Str} {c : Cell} (h : Good o s c) (t : Str) : Good o (s ++ t) c := by
  unfold Good at h ⊢
  split at h
  · trivial
  · obtain ⟨w, x, h1, h2, h3, h4, h5, h6⟩ := h; exact ⟨w, x, h1, h2.mono t, h3, h4, h5.mono t, h6.mono t⟩
  · obtain ⟨w, x, h1, h2, h3, h4, h5, h6⟩ := h; exact ⟨w, x, h1, h2.mono t, h3, h4, h5.mono t, h6.mono t⟩
  · obtain ⟨w, h1, h2, h3⟩ := h; exact ⟨w, h1, h2.mono t, h3⟩
  · obtain ⟨w, k, h1, h2, h3, h4⟩ := h; exact ⟨w, k, h1, h2, h3.mono t, h4⟩
  · obtain ⟨m, h1, h2⟩ := h; exact ⟨m, h1, h2.mono t⟩
  · obtain ⟨m, h1, h2, h3⟩ := h; exact ⟨m, h1, h2, h3.mono t⟩
  · rcases h with h | ⟨w, h1, h2⟩
    · exact .inl h
    · refine .inr ⟨w, h1, ?_⟩
      rcases h2 with ⟨h2, h3⟩ | ⟨h2, b, h3, h4⟩
      · exact Or.inl ⟨h2.mono t, h3⟩
      · exact Or.inr ⟨h2, b, h3, h4.mono t⟩

theorem Good.same {o : ParseOptions} {s : Str} {a b : Cell} (h : Good o s a) (h1 : b.beginAt = a.beginAt) (h2 : b.endAt = a.endAt)
    (h3 : b.content = a.content) (h4 : b.tmeta = a.tmeta)
    (h5 : b.nodeType = a.nodeType ∨ (a.nodeType = .text ∧ b.nodeType = .spacesBetweenTag)) : Good o s b := by
  unfold Good at h ⊢
  rw [h1, h2, h3, h4]
  rcases h5 with h5 | ⟨h5, h6⟩
  · rw [h5]; exact h
  · rw [h5] at h; rw [h6]; exact h

/-- The handlers that have not yet filled in the current node. -/
def Handler.filling : Handler → Bool
  | .text | .commentOrCdata | .tagName | .doctypeName | .tagEnd => true
  | _ => false

/-- What is read for a text that could go on. -/
def Known (o : ParseOptions) (s : Str) (c : Cell) (v : Str) : Prop :=
  ∃ x w, c.content = some w ∧ Tail s c.beginAt (x ++ v) ∧ Mended o x w

/-- The text that is being read or could go on. -/
structure Side (o : ParseOptions) (s : Str) (d : Doc) : Prop where
  pend : d.handle = .text → ∃ x, Tail s d.cur.beginAt x ∧ Mended o x d.prevChars ∧ x.getLast? ≠ some '<' ∧ Edge s d.cur.beginAt
  rest : d.handle = .wait → d.cur.nodeType = .text → Known o s d.cur []
  lt : d.handle = .unkownTag → d.cur.nodeType = .text → Known o s d.cur ['<']
  stray : d.handle = .tagEnd → ∀ p, d.cur.prev = some p → (d.heap.cell p).nodeType = .text →
    Known o s (d.heap.cell p) (['<', '/'] ++ d.prevChars)
  empty : d.handle = .tagEnd → d.cur.content = none
  edge : d.handle = .wait → s = [] ∨ ∃ t, s = t ++ ['>']
  edgeLt : d.handle = .unkownTag → d.cur.nodeType ≠ .text → ∃ t, s = t ++ ['<'] ∧ (t = [] ∨ ∃ u, t = u ++ ['>'])

/-- Every finished node stands for its source. -/
structure SpanInv (o : ParseOptions) (s : Str) (d : Doc) : Prop extends Side o s d where
  done : ∀ i, i < d.heap.size → (i = d.current ∧ d.handle.filling = true) ∨ Good o s (d.heap.cell i)

/-- The handlers that say something about texts. -/
def Handler.sides : Handler → Bool
  | .text | .wait | .unkownTag | .tagEnd => true
  | _ => false

theorem Side.other {o : ParseOptions} {s : Str} {d : Doc} (h : d.handle.sides = false) : Side o s d := by
  constructor <;> intro q <;> rw [q] at h <;> cases h

theorem Side.closed {o : ParseOptions} {s : Str} {d : Doc} {c : Char} (h : d.handle = .wait ∨ d.handle = .contentTag) (hc : c = '>')
    (ht : d.cur.nodeType ≠ .text) : Side o (s ++ [c]) d := by
  rcases h with h | h
  · constructor
    · intro q; rw [h] at q; cases q
    · intro _ q; exact absurd q ht
    · intro q; rw [h] at q; cases q
    · intro q; rw [h] at q; cases q
    · intro q; rw [h] at q; cases q
    · intro _; exact .inr ⟨s, by rw [hc]⟩
    · intro q; rw [h] at q; cases q
  · exact .other (by rw [h]; rfl)

theorem Side.pending {o : ParseOptions} {s : Str} {d : Doc} (h : d.handle = .text)
    (hp : ∃ x, Tail s d.cur.beginAt x ∧ Mended o x d.prevChars ∧ x.getLast? ≠ some '<' ∧ Edge s d.cur.beginAt) : Side o s d := by
  constructor
  · intro _; exact hp
  all_goals intro q; rw [h] at q; cases q

theorem Side.ltText {o : ParseOptions} {s : Str} {d : Doc} (h : d.handle = .unkownTag) (ht : d.cur.nodeType = .text)
    (hk : Known o s d.cur ['<']) : Side o s d := by
  constructor
  · intro q; rw [h] at q; cases q
  · intro q; rw [h] at q; cases q
  · intro _ _; exact hk
  · intro q; rw [h] at q; cases q
  · intro q; rw [h] at q; cases q
  · intro q; rw [h] at q; cases q
  · intro _ q; exact absurd ht q

theorem SpanInv.cur {o : ParseOptions} {s : Str} {d : Doc} (g : SpanInv o s d) (hd : Ctl d) (h : d.handle.filling = false) :
    Good o s d.cur := by
  rcases g.done d.current hd.curLt with h1 | h1
  · rw [h] at h1; cases h1.2
  · exact h1

theorem SpanInv.grow {o : ParseOptions} {s : Str} {d d' : Doc} {c : Char} (hd : Ctl d) (g : SpanInv o s d) (he : Eff d d')
    (hcur : (d'.current = d.current ∧ d'.handle.filling = true) ∨ Good o (s ++ [c]) (d'.heap.cell d.current))
    (hnew : d.heap.size < d'.heap.size → (d'.current = d.heap.size ∧ d'.handle.filling = true) ∨ Good o (s ++ [c]) (d'.heap.cell d.heap.size))
    (hside : Side o (s ++ [c]) d') : SpanInv o (s ++ [c]) d' := by
  have hk := he.keep hd
  have hsz := he.size_le
  refine ⟨hside, ?_⟩
  intro i hi
  by_cases h1 : i < d.heap.size
  · by_cases h2 : i = d.current
    · rcases hcur with h | h
      · exact Or.inl ⟨by rw [h.1, h2], h.2⟩
      · rw [h2]; exact Or.inr h
    · right
      rcases g.done i h1 with h | h
      · exact absurd h.1 h2
      · obtain ⟨k1, k2, k3, _⟩ := (hk i h1).other h2
        refine (h.mono [c]).same (hk i h1).beginAt k3 k1 k2 ?_
        rcases (hk i h1).ty with h3 | h3
        · exact Or.inl h3
        · exact Or.inr ⟨h3.1, h3.2.1⟩
  · have h3 : i = d.heap.size := by omega
    subst h3
    rcases hnew hi with h | h
    · exact Or.inl ⟨h.1.symm, h.2⟩
    · exact Or.inr h

/-- A new child: the node before it is as it was. -/
theorem good_addChild {o0 : ParseOptions} {s : Str} {d : Doc} {c : Char} (hd : Ctl d) (g : SpanInv o0 s d) (hf : d.handle.filling = false) (p : NodeId)
    (hp : d.chain.head? = some p) (n : Cell) (o : Option NodeId) (ho : o = d.checkTextnode ∨ o = none) :
    Good o0 (s ++ [c]) (((d.addChild p n).heap.markSpaces o).cell d.current) := by
  have hne : d.current ≠ d.heap.size := by have := hd.curLt; omega
  have hg := (g.cur hd hf).mono [c]
  rw [markSpaces_cell, addChild_cell d p n (hd.chain_head hp), if_neg hne]
  have hty : o = some d.current → d.cur.nodeType = .text := by
    intro h
    rcases ho with h1 | h1
    · rw [h1] at h; exact (hd.check _ h).2
    · rw [h1] at h; cases h
  unfold Doc.cur at hg hty
  by_cases h2 : d.current = p
  · rw [if_pos h2, ← h2]
    split
    · rename_i h; exact hg.same rfl rfl rfl rfl (Or.inr ⟨hty h, rfl⟩)
    · exact hg.same rfl rfl rfl rfl (Or.inl rfl)
  · rw [if_neg h2]
    split
    · rename_i h; exact hg.same rfl rfl rfl rfl (Or.inr ⟨hty h, rfl⟩)
    · exact hg.same rfl rfl rfl rfl (Or.inl rfl)

/-- A step inside or at the end of a start tag. -/
theorem good_putTag {o0 : ParseOptions} {s : Str} {d : Doc} {c : Char} {m m' : TagMeta} (hd : Ctl d) (g : SpanInv o0 s d) (hh : d.handle.inTag = true)
    (hm : d.cur.tmeta = some m) (hn : m'.name = m.name) (b : Cell) (hb : b = { d.cur with tmeta := some m' }) : Good o0 (s ++ [c]) b := by
  have hf : d.handle.filling = false := by cases hq : d.handle <;> rw [hq] at hh <;> first | rfl | cases hh
  have hg := (g.cur hd hf).mono [c]
  subst hb
  rcases (hd.inTag hh hm).2.2.2 with h | h
  · unfold Good at hg ⊢
    simp only [h.2.1] at hg ⊢
    obtain ⟨m1, h1, h2⟩ := hg
    rw [hm] at h1; cases h1
    exact ⟨m', rfl, by rw [hn]; exact h2⟩
  · unfold Good at hg ⊢
    simp only [h.2.1] at hg ⊢
    obtain ⟨m1, h1, h2, h3⟩ := hg
    rw [hm] at h1; cases h1
    exact ⟨m', rfl, by rw [hn]; exact h2, by rw [hn]; exact h3⟩

theorem SpanInv.new (o : ParseOptions) : SpanInv o [] (Doc.new o) := by
  refine ⟨⟨?_, ?_, ?_, ?_, ?_, ?_, ?_⟩, ?_⟩
  · intro h; cases h
  · intro _ h; cases h
  · intro h; cases h
  · intro h; cases h
  · intro h; cases h
  · intro _; exact .inl rfl
  · intro h; cases h
  · intro i hi
    have : i < 1 := hi
    have : i = 0 := by omega
    subst this
    exact Or.inr trivial

theorem inTag_not_filling {h : Handler} (hh : h.inTag = true) : h.filling = false := by
  cases h <;> first | rfl | cases hh

theorem Good.text {o : ParseOptions} {s : Str} {c : Cell} (h : Good o s c) (ht : c.nodeType = .text) : ∃ w x, c.content = some w ∧
    At s c.beginAt x ∧ c.endAt = c.beginAt + x.length ∧ Mended o x w ∧ Edge s c.beginAt ∧ At s c.endAt ['<'] := by
  unfold Good at h; rw [ht] at h; exact h

/-- The end of a text. -/
theorem good_endText {o : ParseOptions} {s : Str} {d : Doc} {x : Str} (ht : d.cur.nodeType = .text) (hpos : d.position = s.length)
    (h1 : Tail s d.cur.beginAt x) (h2 : Mended o x d.prevChars) (h3 : Edge s d.cur.beginAt) :
    Good o (s ++ ['<']) (d.endText.heap.cell d.current) ∧ Side o (s ++ ['<']) d.endText := by
  have hcell : d.endText.heap.cell d.current = { d.cur with content := some d.prevChars, endAt := d.position } := by
    unfold Doc.endText Doc.cur; simp
  constructor
  · rw [hcell]
    unfold Good
    simp only [ht]
    refine ⟨d.prevChars, x, rfl, h1.at.mono _, by rw [hpos]; exact h1.len, h2, h3.mono _, s, [], by simp, hpos.symm⟩
  · refine .ltText rfl ?_ ⟨x, d.prevChars, ?_, ?_, h2⟩
    · show (d.endText.heap.cell d.current).nodeType = _
      rw [hcell]; exact ht
    · show (d.endText.heap.cell d.current).content = _
      rw [hcell]
    · show Tail _ (d.endText.heap.cell d.current).beginAt _
      rw [hcell]; exact h1.snoc '<'

theorem closed_handle (d : Doc) (m : TagMeta) : (d.closeTag m).handle = .wait ∨ (d.closeTag m).handle = .contentTag := by
  rw [closeTag_handle]; split
  · exact .inr rfl
  · exact .inl rfl

theorem inTag_not_sides {h : Handler} (hh : h.inTag = true) : h.sides = false := by
  cases h <;> first | rfl | cases hh

theorem Ctl.inTag_ty {d : Doc} (hd : Ctl d) (hh : d.handle.inTag = true) : d.cur.nodeType ≠ .text := by
  have hs := hd.hs
  unfold HandleOk at hs
  cases hq : d.handle <;> rw [hq] at hh <;> simp only [Handler.inTag, Bool.false_eq_true] at hh <;>
    simp only [hq] at hs <;> obtain ⟨_, m, _, _, _, _, h | h⟩ := hs <;> rw [h.2.1] <;> simp

theorem SpanInv.step {o : ParseOptions} {s : Str} {d d' : Doc} {c : Char} (hr : Reach o s d) (g : SpanInv o s d)
    (h : Step d c d') : SpanInv o (s ++ [c]) d' := by
  have hd := hr.ctl
  have he := h.eff hd
  have hs := hd.hs
  have hsrc := hr.srcAt
  have hpos := hr.position
  cases h with
  | lt hh hc =>
    refine g.grow hd he (Or.inr ((g.cur hd (by rw [hh]; rfl)).mono _)) (fun h => absurd h (Nat.lt_irrefl _)) ?_
    by_cases ht : d.cur.nodeType = .text
    · refine .ltText rfl ht ?_
      obtain ⟨x, w, k1, k2, k3⟩ := g.rest hh ht
      have := k2.snoc '<'
      rw [List.append_nil] at this
      exact ⟨x, w, k1, by rw [hc]; exact this, k3⟩
    · constructor
      · intro q; cases q
      · intro q; cases q
      · intro _ q; exact absurd q ht
      · intro q; cases q
      · intro q; cases q
      · intro q; cases q
      · intro _ _; exact ⟨s, by rw [hc], g.edge hh⟩
  | textResume hh hc hf ht w hw =>
    refine g.grow hd he (Or.inl ⟨rfl, rfl⟩) (fun h => absurd h (Nat.lt_irrefl _)) (.pending rfl ?_)
    obtain ⟨x, w', k1, k2, k3⟩ := g.rest hh ht
    rw [hw] at k1; cases k1
    obtain ⟨_, _, _, _, _, _, k4, _⟩ := (g.cur hd (by rw [hh]; rfl)).text ht
    have hl : x.getLast? ≠ some '<' := by
      intro hl
      obtain ⟨pre, k5, _⟩ := k2
      rcases g.edge hh with k6 | ⟨t, k6⟩
      · rw [k6] at k5
        cases x with
        | nil => cases hl
        | cons => simp at k5
      · have : s.getLast? = some '<' := by rw [k5]; simp [hl]
        rw [k6] at this; simp at this
    refine ⟨x ++ [c], ?_, mended_char k3 hl hc, by simpa using hc, ?_⟩
    · have := k2.snoc c
      simp only [List.append_nil] at this
      unfold Doc.cur at this ⊢
      simpa using this
    · have := k4.mono [c]
      unfold Doc.cur at this ⊢
      simpa using this
  | textStart hh hc hf p hp =>
    refine g.grow hd he (Or.inr ?_) (fun _ => Or.inl ⟨rfl, rfl⟩) (.pending rfl ?_)
    · exact good_addChild hd g (by rw [hh]; rfl) p hp (Cell.new .text d.position) none (Or.inr rfl)
    · have := grown_cell hd p hp (Cell.new .text d.position) none (Or.inr rfl)
      have hb : ((d.addChild p (Cell.new .text d.position)).heap.cell d.heap.size).beginAt = s.length := by
        rw [← hpos]; exact congrArg (fun x => x.beginAt) this
      refine ⟨[c], (congrArg (fun b => Tail (s ++ [c]) b [c]) hb).mpr (Tail.begin s c), .char hc .nil, by simpa using hc, ?_⟩
      exact (congrArg (fun b => Edge (s ++ [c]) b) hb).mpr (Edge.of (g.edge hh) [c])
  | textMore hh hc =>
    refine g.grow hd he (Or.inl ⟨rfl, by show d.handle.filling = true; rw [hh]; rfl⟩) (fun h => absurd h (Nat.lt_irrefl _)) (.pending hh ?_)
    obtain ⟨x, k1, k2, k3, k4⟩ := g.pend hh
    exact ⟨x ++ [c], k1.snoc c, mended_char k2 k3 hc, by simpa using hc, k4.mono _⟩
  | textEnd hh hc =>
    unfold HandleOk at hs
    simp only [hh] at hs
    obtain ⟨x, k1, k2, k3, k4⟩ := g.pend hh
    have hg := good_endText hs.2.2.1 hpos k1 k2 k4
    rw [hc]
    exact g.grow hd he (Or.inr hg.1) (fun h => absurd h (Nat.lt_irrefl _)) hg.2
  | ltExtend hh hf hc ht w hw d1 h1 =>
    obtain ⟨x, w', k1, k2, k3⟩ := g.lt hh ht
    rw [hw] at k1; cases k1
    obtain ⟨_, _, _, _, _, _, k4, _⟩ := (g.cur hd (by rw [hh]; rfl)).text ht
    have hl := mended_lt k3 (by rw [← hr.opts]; exact hf) hc
    have hb : d1.cur.beginAt = d.cur.beginAt := by rw [h1]; simp [Doc.cur]
    have hty : d1.cur.nodeType = .text := by rw [← ht, h1]; simp [Doc.cur]
    have hsz : d1.heap.size = d.heap.size := by rw [h1]; rfl
    have hcu : d1.current = d.current := by rw [h1]
    have hp1 : d1.position = s.length := by rw [h1]; exact hpos
    have hpc : d1.prevChars = w ++ (if c = '<' then ['&', 'l', 't', ';'] else ['&', 'l', 't', ';', c]) := by rw [h1]
    have hh1 : d1.handle = .text := by rw [h1]
    by_cases h2 : c = '<'
    · simp only [h2, if_true] at hl he hpc ⊢
      have hg := good_endText (o := o) (x := x ++ ['<']) hty hp1 (by rw [hb]; exact k2) (by rw [hpc]; exact hl) (by rw [hb]; exact k4)
      refine g.grow hd he (Or.inr ?_) (fun h => ?_) hg.2
      · rw [← hcu]; exact hg.1
      · have h : d.heap.size < d1.heap.size := h
        omega
    · simp only [h2, if_false] at hl he hpc ⊢
      refine g.grow hd he (Or.inl ⟨hcu, by rw [hh1]; rfl⟩) (fun h => by omega) (.pending hh1 ?_)
      refine ⟨x ++ ['<', c], ?_, by rw [hpc]; exact hl, by simpa using h2, by rw [hb]; exact k4.mono _⟩
      rw [hb]; simpa using k2.snoc c
  | ltNew hh hf hc ht p hp d1 h1 =>
    obtain ⟨t, k1, k2⟩ := g.edgeLt hh ht
    unfold SrcAt at hsrc
    simp only [hh] at hsrc
    have hl := mended_lt (o := o) .nil (by rw [← hr.opts]; exact hf) hc
    simp only [List.nil_append] at hl
    have hmp : d.memPosition = t.length := by
      have := hsrc.len
      rw [k1] at this
      simp at this; omega
    have hpl : p < d.heap.size := by
      rw [hp]
      split
      · exact hd.curLt
      · cases hq : d.chain.head? with
        | none => simp only [Option.getD_none, hd.root0]; exact hd.sizePos
        | some q => exact hd.chain_head hq
    have hne : d.heap.size ≠ p := by omega
    have hcell : d1.cur = { Cell.new .text d.memPosition with index := ((d.heap.cell p).childs.getD []).length } := by
      rw [h1]; unfold Doc.cur
      simp only [Heap.upd_cell, if_neg hne, Heap.push_cell, if_true]
    have hb : d1.cur.beginAt = d.memPosition := by rw [hcell]; rfl
    have hty : d1.cur.nodeType = .text := by rw [hcell]; rfl
    have hcu : d1.current = d.heap.size := by rw [h1]
    have hp1 : d1.position = s.length := by rw [h1]; exact hpos
    have hpc : d1.prevChars = (if c = '<' then ['&', 'l', 't', ';'] else ['&', 'l', 't', ';', c]) := by rw [h1]
    have hh1 : d1.handle = .text := by rw [h1]
    have hedge : Edge s d.memPosition := by rw [hmp, k1]; exact Edge.of k2 _
    have hold : Good o (s ++ [c]) (d1.heap.cell d.current) := by
      have hg := (g.cur hd (by rw [hh]; rfl)).mono [c]
      have hnc : d.current ≠ d.heap.size := by have := hd.curLt; omega
      rw [h1]
      simp only [Heap.upd_cell, Heap.push_cell, if_neg hnc]
      split
      · exact hg.same rfl rfl rfl rfl (Or.inl rfl)
      · exact hg
    by_cases h2 : c = '<'
    · simp only [h2, if_true] at hl he hpc hold ⊢
      have hg := good_endText (o := o) (x := ['<']) hty hp1 (by rw [hb]; exact hsrc) (by rw [hpc]; exact hl) (by rw [hb]; exact hedge)
      refine g.grow hd he (Or.inr ?_) (fun _ => Or.inr ?_) hg.2
      · have hnc : d.current ≠ d1.current := by have := hd.curLt; omega
        unfold Doc.endText
        simp only [Heap.upd_cell, if_neg hnc]; exact hold
      · rw [← hcu]; exact hg.1
    · simp only [h2, if_false] at hl he hpc ⊢
      refine g.grow hd he (Or.inr hold) (fun _ => Or.inl ⟨hcu, by rw [hh1]; rfl⟩) (.pending hh1 ?_)
      exact ⟨['<', c], by rw [hb]; exact hsrc.snoc c, by rw [hpc]; exact hl, by simpa using h2, by rw [hb]; exact hedge.mono _⟩
  | endStray hh hc hf hm =>
    unfold HandleOk at hs
    simp only [hh] at hs
    have hf' : o.autoFixUnexpectedEndtag = true := by rw [← hr.opts]; exact hf
    refine g.grow hd he (Or.inr ?_) (fun h => absurd h (Nat.lt_irrefl _)) ?_
    · unfold Good
      have k3' : (d.heap.cell d.current).nodeType = .tagEnd := hs.2.2.1
      simp only [k3']
      exact .inl ⟨hf', g.empty hh⟩
    · constructor
      · intro q; cases q
      · intro _ q
        cases hp : d.cur.prev with
        | none =>
          unfold Doc.cur at q hp
          simp only [hp, Option.getD_none] at q
          have k3' : (d.heap.cell d.current).nodeType = .tagEnd := hs.2.2.1
          rw [k3'] at q; cases q
        | some p =>
          have h2 : o.autoFixUnclosedTag = true := by
            cases h : o.autoFixUnclosedTag with
            | true => rfl
            | false =>
              have := hr.alive.off (by rw [hr.opts]; exact h) hh
              rw [hp] at this; cases this
          have hp' := hp
          unfold Doc.cur at q ⊢
          unfold Doc.cur at hp'
          simp only [hp', Option.getD_some] at q ⊢
          obtain ⟨x, w, k1, k2, k3⟩ := g.stray hh p hp q
          refine ⟨_, w, k1, ?_, mended_dropped k3 hf' h2 hs.2.2.2.1⟩
          rw [hc]; simpa using k2.snoc '>'
      · intro q; cases q
      · intro q; cases q
      · intro q; cases q
      · intro _; exact .inr ⟨s, by rw [hc]⟩
      · intro q; cases q
  | tagOpen hh hc p hp =>
    exact g.grow hd he (Or.inr (good_addChild hd g (by rw [hh]; rfl) p hp _ _ (Or.inl rfl))) (fun _ => Or.inl ⟨rfl, rfl⟩) (.other rfl)
  | endOpen hh hc =>
    have hne : d.current ≠ d.heap.size := by have := hd.curLt; omega
    refine g.grow hd he (Or.inr ?_) (fun _ => Or.inl ⟨rfl, rfl⟩) ?_
    · show Good _ _ ((d.heap.push _).cell d.current)
      rw [Heap.push_cell, if_neg hne]
      exact (g.cur hd (by rw [hh]; rfl)).mono _
    · unfold HandleOk at hs
      simp only [hh] at hs
      constructor
      · intro q; cases q
      · intro q; cases q
      · intro q; cases q
      · intro _ p q1 q2
        unfold Doc.cur at q1
        simp only [Heap.push_cell, if_true] at q1
        split at q1
        · cases q1
          simp only [Heap.push_cell, if_neg hne] at q2 ⊢
          obtain ⟨x, w, k1, k2, k3⟩ := g.lt hh q2
          refine ⟨x, w, k1, ?_, k3⟩
          have := k2.snoc c
          simp only [hc, hs.2.1] at this ⊢
          simpa [Doc.cur] using this
        · cases q1
      · intro _
        unfold Doc.cur
        simp only [Heap.push_cell, if_true]
        rfl
      · intro q; cases q
      · intro q; cases q
  | bang hh hc =>
    exact g.grow hd he (Or.inr ((g.cur hd (by rw [hh]; rfl)).mono _)) (fun h => absurd h (Nat.lt_irrefl _)) (.other rfl)
  | exclFirst hh hdt D hD =>
    exact g.grow hd he (Or.inr ((g.cur hd (by rw [hh]; rfl)).mono _)) (fun h => absurd h (Nat.lt_irrefl _))
      (.other (by show d.handle.sides = false; rw [hh]; rfl))
  | exclMore hh D hdt hl hc =>
    exact g.grow hd he (Or.inr ((g.cur hd (by rw [hh]; rfl)).mono _)) (fun h => absurd h (Nat.lt_irrefl _))
      (.other (by show d.handle.sides = false; rw [hh]; rfl))
  | commentOpen hh hdt hl hc p hp =>
    exact g.grow hd he (Or.inr (good_addChild hd g (by rw [hh]; rfl) p hp _ _ (Or.inl rfl))) (fun _ => Or.inl ⟨rfl, rfl⟩) (.other rfl)
  | cdataOpen hh hdt hl hc p hp =>
    exact g.grow hd he (Or.inr (good_addChild hd g (by rw [hh]; rfl) p hp _ _ (Or.inl rfl))) (fun _ => Or.inl ⟨rfl, rfl⟩) (.other rfl)
  | doctypeOpen hh hdt hl hc p hp =>
    exact g.grow hd he (Or.inr (good_addChild hd g (by rw [hh]; rfl) p hp _ _ (Or.inl rfl))) (fun _ => Or.inl ⟨rfl, rfl⟩) (.other rfl)
  | commentMore hh hc =>
    exact g.grow hd he (Or.inl ⟨rfl, by show d.handle.filling = true; rw [hh]; rfl⟩) (fun h => absurd h (Nat.lt_irrefl _))
      (.other (by show d.handle.sides = false; rw [hh]; rfl))
  | commentClose hh hc b hb hp =>
    unfold HandleOk at hs
    simp only [hh] at hs
    unfold SrcAt at hsrc
    simp only [hh] at hsrc
    refine g.grow hd he (Or.inr ?_) (fun h => absurd h (Nat.lt_irrefl _)) (.closed (.inl rfl) hc ?_)
    rotate_right
    · unfold Doc.cur at hs ⊢
      simp only [Heap.upd_cell_self]
      rcases hs.2 with k | k <;> rw [k.2.2] <;> simp
    simp only [Heap.upd_cell_self]
    rcases hs.2 with ⟨k1, k2, k3⟩ | ⟨k1, k2, k3⟩
    · rw [if_pos k1, hp, k2] at hsrc
      have hl := hsrc.len
      have hn := (hsrc.snoc c).at
      unfold Good
      have k3' : (d.heap.cell d.current).nodeType = .comment := k3
      simp only [k3']
      refine ⟨b, rfl, ?_, ?_⟩
      · rw [hc] at hn ⊢; simpa [Doc.cur] using hn
      · rw [hpos, hl]; simp only [List.length_append, List.length_cons, List.length_nil, Doc.cur]; omega
    · rw [if_neg (by rw [k1]; simp), hp, k2] at hsrc
      obtain ⟨k, hk, hsrc⟩ := hsrc
      have hl := hsrc.len
      have hn := (hsrc.snoc c).at
      have hkl : k.length = 7 := by
        have := congrArg List.length hk
        rw [List.length_map] at this; exact this
      unfold Good
      have k3' : (d.heap.cell d.current).nodeType = .xmlCdata := k3
      simp only [k3']
      refine ⟨b, k, rfl, hk, ?_, ?_⟩
      · rw [hc] at hn ⊢; simpa [Doc.cur] using hn
      · rw [hpos, hl]; simp only [List.length_append, List.length_cons, List.length_nil, Doc.cur]; omega
  | doctypeName hh hc =>
    unfold HandleOk at hs
    simp only [hh] at hs
    unfold SrcAt at hsrc
    simp only [hh] at hsrc
    refine g.grow hd he (Or.inr ?_) (fun h => absurd h (Nat.lt_irrefl _)) (.other rfl)
    rw [putTag_curcell]
    unfold Good
    simp only [hs.2.2.1]
    exact ⟨_, rfl, hs.2.2.2.2, hsrc.at.mono _⟩
  | nameMore hh hc =>
    exact g.grow hd he (Or.inl ⟨rfl, by show d.handle.filling = true; rw [hh]; rfl⟩) (fun h => absurd h (Nat.lt_irrefl _))
      (.other (by show d.handle.sides = false; rw [hh]; rfl))
  | nameEnd hh hc =>
    unfold HandleOk at hs
    simp only [hh] at hs
    unfold SrcAt at hsrc
    simp only [hh] at hsrc
    refine g.grow hd he (Or.inr ?_) (fun h => absurd h (Nat.lt_irrefl _)) ?_
    · rw [putTag_curcell]
      unfold Good
      simp only [hs.2.2.1]
      exact ⟨_, rfl, hsrc.at.mono _⟩
    · refine .other ?_
      show Handler.sides (if c = '/' then Handler.tagSelfClosing else .tagWait) = false
      split <;> rfl
  | nameClose hh hc m hm =>
    unfold HandleOk at hs
    simp only [hh] at hs
    unfold SrcAt at hsrc
    simp only [hh] at hsrc
    refine g.grow hd he (Or.inr ?_) (fun h => by rw [closeTag_heap] at h; exact absurd h (Nat.lt_irrefl _))
      (.closed (closed_handle _ _) hc (by unfold Doc.cur; rw [closeTag_heap, closeTag_current]; show ((d.putTag _ _).heap.cell d.current).nodeType ≠ _; rw [putTag_curcell]; simp [hs.2.2.1]))
    rw [closeTag_heap, putTag_curcell]
    unfold Good
    simp only [hs.2.2.1]
    exact ⟨_, rfl, by rw [hm]; exact hsrc.at.mono _⟩
  | tagMore hh m hm t id ht =>
    obtain ⟨_, k2, k3⟩ := tagChar_cont (hd.inTag hh hm).1 ht
    refine g.grow hd he (Or.inr ?_) (fun h => absurd h (Nat.lt_irrefl _)) ?_
    · exact good_putTag hd g hh hm k2.name _ (putTag_curcell d _ _)
    · exact .other (inTag_not_sides k3)
  | tagClose hh m hm m' pc mark id ht =>
    obtain ⟨k1, _, hc⟩ := tagChar_close (hd.inTag hh hm).1 ht
    refine g.grow hd he (Or.inr ?_) (fun h => by rw [closeTag_heap] at h; exact absurd h (Nat.lt_irrefl _))
      (.closed (closed_handle _ _) hc (by unfold Doc.cur; rw [closeTag_heap, closeTag_current]; show ((d.putTag _ _).heap.cell d.current).nodeType ≠ _; rw [putTag_curcell]; exact hd.inTag_ty hh))
    rw [closeTag_heap]
    exact good_putTag hd g hh hm k1.name _ (putTag_curcell d _ _)
  | tagSelf hh hc m hm ha =>
    refine g.grow hd he (Or.inr ?_) (fun h => absurd h (Nat.lt_irrefl _)) (.closed (.inl rfl) hc ?_)
    rotate_right
    · unfold Doc.cur
      simp only [Heap.upd_cell_self]
      exact hd.inTag_ty (by rw [hh]; rfl)
    refine good_putTag hd g (by rw [hh]; rfl) hm (m' := { m with selfClosed := true }) rfl _ ?_
    simp only [Heap.upd_cell_self]; rfl
  | endMore hh hc =>
    exact g.grow hd he (Or.inl ⟨rfl, by show d.handle.filling = true; rw [hh]; rfl⟩) (fun h => absurd h (Nat.lt_irrefl _))
      (by
        have n1 : ∀ z, d.handle = z → z = .tagEnd := fun z q => by rw [← q, hh]
        constructor
        · intro q; cases n1 _ q
        · intro q; cases n1 _ q
        · intro q; cases n1 _ q
        · intro _ p q1 q2
          obtain ⟨x, w, k1, k2, k3⟩ := g.stray hh p q1 q2
          exact ⟨x, w, k1, by simpa using k2.snoc c, k3⟩
        · intro _; exact g.empty hh
        · intro q; cases n1 _ q
        · intro q; cases n1 _ q)
  | endMatch hh hc t m hm =>
    unfold HandleOk at hs
    simp only [hh] at hs
    unfold SrcAt at hsrc
    simp only [hh] at hsrc
    refine g.grow hd he (Or.inr ?_) (fun h => ?_) (.closed (.inl rfl) hc ?_)
    rotate_right
    · show ((d.endHeap t d.prevChars).cell d.current).nodeType ≠ _
      rw [endHeap_cell hd t _ hm.2.1 hs.2.2.1, if_pos rfl]
      have k3' : (d.heap.cell d.current).nodeType = .tagEnd := hs.2.2.1
      simp [k3']
    · show Good _ _ ((d.endHeap t d.prevChars).cell d.current)
      rw [endHeap_cell hd t _ hm.2.1 hs.2.2.1, if_pos rfl]
      have hl := hsrc.len
      have hn := (hsrc.snoc c).at
      unfold Good
      have k3' : (d.heap.cell d.current).nodeType = .tagEnd := hs.2.2.1
      simp only [k3']
      refine .inr ⟨d.prevChars, rfl, Or.inl ⟨?_, ?_⟩⟩
      · rw [hc] at hn ⊢; exact hn
      · rw [hpos, hl]; simp only [List.length_append, List.length_cons, List.length_nil, Doc.cur]; omega
    · have h : d.heap.size < (d.endHeap t d.prevChars).size := h
      rw [endHeap_size] at h; exact absurd h (Nat.lt_irrefl _)
  | rawMore hh hc =>
    exact g.grow hd he (Or.inr ((g.cur hd (by rw [hh]; rfl)).mono _)) (fun h => absurd h (Nat.lt_irrefl _))
      (.other (by show d.handle.sides = false; rw [hh]; rfl))
  | rawClose hh hc e he' n hn =>
    unfold HandleOk at hs
    simp only [hh] at hs
    obtain ⟨k1, k2, m, k3, k4, k5, k6, k7, _⟩ := hs
    unfold SrcAt at hsrc
    simp only [hh] at hsrc
    rw [he'] at k4; cases k4
    have hb : rawBody d.opts.caseSensitiveTagname m.name d.prevChars = some n := hn
    obtain ⟨u, k, e1, _, e2⟩ := (rawBody_spec k7).1 hb
    refine g.grow hd he (Or.inr ?_) (fun _ => Or.inr ?_) (.closed (.inl rfl) hc ?_)
    rotate_right
    · show ((d.rawHeap n).cell d.current).nodeType ≠ _
      have hne : d.current ≠ d.heap.size := by have := hd.curLt; omega
      rw [rawHeap_cell hd, if_neg hne, if_pos rfl]
      have k3' : (d.heap.cell d.current).nodeType = .tag := k1
      simp [k3']
    · show Good _ _ ((d.rawHeap n).cell d.current)
      have hne : d.current ≠ d.heap.size := by have := hd.curLt; omega
      have hg := (g.cur hd (by rw [hh]; rfl)).mono [c]
      rw [rawHeap_cell hd, if_neg hne, if_pos rfl]
      unfold Good at hg ⊢
      have k1' : (d.heap.cell d.current).nodeType = .tag := k1
      simp only [k1] at hg
      simp only [k1']
      exact hg
    · show Good _ _ ((d.rawHeap n).cell d.heap.size)
      rw [rawHeap_cell hd, if_pos rfl]
      have hdrop : d.prevChars.drop (n + 2) = k := by
        rw [e1, ← e2]; simp
      unfold Good
      simp only [Cell.new, hdrop]
      obtain ⟨pre, hpre, _⟩ := hsrc
      refine .inr ⟨k, rfl, Or.inr ⟨trivial, pre.length + 1 + u.length, ?_, pre ++ '>' :: u, [], ?_, ?_⟩⟩
      · rw [hpos, hpre, e1]; simp only [List.length_append, List.length_cons, List.length_nil]; omega
      · rw [hpre, e1, hc]; simp
      · simp only [List.length_append, List.length_cons]; omega

theorem Reach.spans {o : ParseOptions} {s : Str} {d : Doc} (h : Reach o s d) : SpanInv o s d := by
  induction h with
  | init => exact SpanInv.new o
  | step hr hs ih =>
    have g := ih.step hr hs
    exact ⟨⟨g.pend, g.rest, g.lt, g.stray, g.empty, g.edge, g.edgeLt⟩, g.done⟩

theorem toLower_toUpper (c : Char) : toLower (toUpper c) = toLower c := by
  apply char_ext
  rw [toNat_toLower, toNat_toUpper, toNat_toLower]
  repeat' split
  all_goals omega

theorem fold_of_upper {k w : Str} (h : k.map toUpper = w) : fold k = fold w := by
  rw [← h]
  unfold fold
  rw [List.map_map]
  apply List.map_congr_left
  intro x _
  simp only [Function.comp, ← toLower_eq_core]
  exact (toLower_toUpper x).symm

theorem At.get {s : Str} {a : Nat} {c : Char} (h : At s a [c]) : s[a]? = some c ∧ a < s.length := by
  obtain ⟨pre, post, rfl, rfl⟩ := h
  simp

theorem At.le {s w : Str} {a : Nat} (h : At s a w) : a + w.length ≤ s.length := by
  obtain ⟨pre, post, rfl, rfl⟩ := h
  simp

theorem Edge.get {s : Str} {b : Nat} (h : Edge s b) : b = 0 ∨ s[b - 1]? = some '>' := by
  rcases h with h | ⟨a, h1, h2⟩
  · exact .inl h
  · right; rw [h1]; exact h2.get.1

theorem Good.span {o : ParseOptions} {s : Str} {c : Cell} (hg : Good o s c) (h0 : c.nodeType ≠ .abstractRoot)
    (hl : c.nodeType = .tagEnd → c.content = none → o.autoFixUnexpectedEndtag = false) : Spec.mendedSpan o s c.toNodeD := by
  unfold Good at hg
  unfold Spec.mendedSpan Spec.nodeSpan
  split at hg <;> rename_i hty <;> simp only [hty]
  · exact absurd hty h0
  · obtain ⟨w, x, k1, k2, k3, k4, k5, k6⟩ := hg
    exact ⟨w, k1, by rw [k2.slice k3]; exact k4, Nat.le_of_lt k6.get.2, k5.get, .inr k6.get.1⟩
  · obtain ⟨w, x, k1, k2, k3, k4, k5, k6⟩ := hg
    exact ⟨w, k1, by rw [k2.slice k3]; exact k4, Nat.le_of_lt k6.get.2, k5.get, .inr k6.get.1⟩
  · obtain ⟨w, k1, k2, k3⟩ := hg
    exact ⟨w, k1, k2.slice (by simp only [k3, List.length_append, List.length_cons, List.length_nil]; omega)⟩
  · obtain ⟨w, k, k1, k2, k3, k4⟩ := hg
    have hkl : k.length = 7 := by
      have := congrArg List.length k2
      rw [List.length_map] at this; exact this
    refine ⟨w, k, k1, by rw [fold_of_upper k2]; decide +kernel, k3.slice ?_⟩
    simp only [k4, List.length_append, List.length_cons, List.length_nil]; omega
  · obtain ⟨m, k1, k2⟩ := hg
    exact .inl ⟨m, k1, k2.slice (by simp only [List.length_cons]; omega)⟩
  · obtain ⟨m, k1, k2, k3⟩ := hg
    exact ⟨m, k1, by rw [fold_of_upper k2]; decide +kernel, k3.slice (by simp only [List.length_cons]; omega)⟩
  · rcases hg with ⟨k1, k2⟩ | ⟨w, k1, k2⟩
    · rw [hl hty k2] at k1; cases k1
    · refine .inl ⟨w, k1, ?_⟩
      rcases k2 with ⟨k2, k3⟩ | ⟨k2, b, k3, k4⟩
      · exact Or.inl (k2.slice (by simp only [k3, List.length_append, List.length_cons, List.length_nil]; omega))
      · refine Or.inr ⟨k2.symm, ?_⟩
        have hb : c.endAt - (w.length + 3) = b := by omega
        rw [hb]
        exact k4.slice (by simp only [List.length_append, List.length_cons, List.length_nil]; omega)

/-- The nodes of the finished document. -/
theorem Reach.finalSpans {o : ParseOptions} {s : Str} {d : Doc} (hr : Reach o s d) (he : EofOk d) (i : NodeId)
    (hi : i < d.finalHeap.size) (hl : (d.finalHeap.cell i).nodeType = .tagEnd → (d.finalHeap.cell i).content = none →
      o.autoFixUnexpectedEndtag = false) : Spec.mendedSpan o s (d.finalHeap.cell i).toNodeD := by
  have hd := hr.ctl
  have g := hr.spans
  have hpf := hr.posFinal he
  rcases Nat.lt_or_ge i d.heap.size with hil | hil
  · have hc := eofCell hd he i hil
    by_cases h0 : i = 0
    · have hty : (d.finalHeap.cell i).nodeType = .abstractRoot := by
        have h4 := (hd.rootTy i hil).2 h0
        rcases hc.ty with h5 | h5
        · rw [h5]; exact h4
        · rw [h4] at h5; cases h5.1
      unfold Spec.mendedSpan Spec.nodeSpan
      simp only [hty]
      subst h0
      exact ⟨hpf.root, hpf.rootEnd⟩
    · have hroot : (d.finalHeap.cell i).nodeType ≠ .abstractRoot := by
        intro hty
        refine absurd ((hd.rootTy i hil).1 ?_) h0
        rcases hc.ty with h6 | h6
        · rw [← h6]; exact hty
        · rw [h6.2.1] at hty; cases hty
      by_cases h5 : d.codeIn = .textNode ∧ i = d.current
      · have hh := hd.codeIn_text h5.1
        obtain ⟨x, k1, k2, _, k4⟩ := g.pend hh
        have hty := hd.cur_text h5.1
        have hc1 := hc.content
        rw [if_pos h5] at hc1
        have hc2 := hc.endAt
        rw [if_pos (Or.inr h5), hr.position] at hc2
        have hb : (d.finalHeap.cell i).beginAt = d.cur.beginAt := by rw [hc.beginAt, h5.2]; rfl
        have hsl : Spec.slice s (d.finalHeap.cell i).beginAt (d.finalHeap.cell i).endAt = x := by
          rw [hb]; exact k1.at.slice (by rw [hc2]; exact k1.len)
        have key : ∃ w, (d.finalHeap.cell i).content = some w ∧
            Spec.Mended o (Spec.slice s (d.finalHeap.cell i).beginAt (d.finalHeap.cell i).endAt) w ∧
            (d.finalHeap.cell i).endAt ≤ s.length ∧
            ((d.finalHeap.cell i).beginAt = 0 ∨ s[(d.finalHeap.cell i).beginAt - 1]? = some '>') ∧
            ((d.finalHeap.cell i).endAt = s.length ∨ s[(d.finalHeap.cell i).endAt]? = some '<') :=
          ⟨d.prevChars, hc1, by rw [hsl]; exact k2, by rw [hc2]; exact Nat.le_refl _, by rw [hb]; exact k4.get, .inl hc2⟩
        unfold Spec.mendedSpan
        rcases hc.ty with h6 | h6
        · have : (d.finalHeap.cell i).nodeType = .text := by rw [h6, h5.2]; exact hty
          simp only [this]; exact key
        · simp only [h6.2.1]; exact key
      · rcases g.done i hil with h6 | h6
        · have hs := hd.hs
          unfold HandleOk at hs
          cases hq : d.handle <;> rw [hq] at h6 <;> simp only [Handler.filling, Bool.false_eq_true, and_false] at h6 <;>
            simp only [hq] at hs
          · exact absurd ⟨hs.1, h6.1⟩ h5
          · rcases he.code with h7 | h7 | h7 | h7
            · rw [hs.1] at h7; cases h7
            · rw [hs.1] at h7; cases h7
            · rw [hs.1] at h7; cases h7
            · rw [hs.1] at h7; cases h7.1
          · rcases he.code with h7 | h7 | h7 | h7
            · rw [hs.1] at h7; cases h7
            · rw [hs.1] at h7; cases h7
            · rw [hs.1] at h7; cases h7
            · have hsrc := hr.srcAt
              unfold SrcAt at hsrc
              simp only [hq] at hsrc
              have hii : i = d.current := h6.1
              have hty : (d.finalHeap.cell i).nodeType = .tag := by
                rcases hc.ty with h8 | h8
                · rw [h8, hii]; exact hs.2.2.1
                · exact absurd ⟨h8.2.2.2.1, h8.2.2.1⟩ h5
              have hcur : (d.heap.cell i).tmeta = none := by rw [hii]; exact hs.2.2.2.1
              have hmeta : (d.finalHeap.cell i).tmeta = none := by
                rcases hc.tmeta with h8 | ⟨_, _, _, m, h8, _⟩
                · rw [h8]; exact hcur
                · rw [hcur] at h8; cases h8
              have hb : (d.finalHeap.cell i).beginAt = d.cur.beginAt := by rw [hc.beginAt, hii]; rfl
              unfold Spec.mendedSpan
              simp only [hty]
              exact .inr ⟨by rw [← hr.opts]; exact h7.2, hmeta, d.prevChars, by rw [hb]; exact hsrc.at.slice hsrc.len,
                (tagName_iff _).2 hs.2.2.2.2.2⟩
          · rcases he.code with h7 | h7 | h7 | h7
            · rw [hs.1] at h7; cases h7
            · rw [hs.1] at h7; cases h7
            · rw [hs.1] at h7; cases h7
            · rw [hs.1] at h7; cases h7.1
          · rcases hs.2 with hs | hs <;> rcases he.code with h7 | h7 | h7 | h7 <;> rw [hs.1] at h7 <;>
              first | (cases h7; done) | (cases h7.1)
        · have hend : (d.finalHeap.cell i).endAt = (d.heap.cell i).endAt := by
            rw [hc.endAt, if_neg]; rintro (h | h)
            · exact h0 h
            · exact h5 h
          have hcont : (d.finalHeap.cell i).content = (d.heap.cell i).content := by rw [hc.content, if_neg h5]
          have hty : (d.finalHeap.cell i).nodeType = (d.heap.cell i).nodeType := by
            rcases hc.ty with h7 | h7
            · exact h7
            · exact absurd ⟨h7.2.2.2.1, h7.2.2.1⟩ h5
          refine Good.span ?_ hroot hl
          rcases hc.tmeta with h7 | ⟨_, _, _, m, h7, h8⟩
          · exact h6.same hc.beginAt hend hcont h7 (Or.inl hty)
          · unfold Good at h6 ⊢
            rw [hc.beginAt, hend, hcont, hty, h8]
            split at h6
            · trivial
            · exact h6
            · exact h6
            · exact h6
            · exact h6
            · obtain ⟨m', k1, k2⟩ := h6
              rw [h7] at k1; cases k1
              exact ⟨_, rfl, k2⟩
            · obtain ⟨m', k1, k2⟩ := h6
              rw [h7] at k1; cases k1
              exact ⟨_, rfl, k2⟩
            · exact h6
  · rw [finalHeap_size] at hi
    obtain ⟨k1, t, m, _, _, _, k2⟩ := fixedHeap_new hd i hil hi
    have hopt : o.autoFixUnclosedTag = true := by
      rw [← hr.opts]
      rcases he.closed with h4 | h4
      · omega
      · exact h4
    have hcell : d.finalHeap.cell i = d.fixedHeap.cell i := by
      have h1 : i ≠ 0 := by have := hd.sizePos; omega
      have h2 : i ≠ d.current := by have := hd.curLt; omega
      unfold Doc.finalHeap
      split <;> simp only [Heap.upd_cell, h1, h2, if_false]
    rw [hcell, k2]
    unfold Spec.mendedSpan
    simp only [Cell.new]
    exact .inr ⟨hopt, hr.position, hr.position⟩

/-- Without repairs. -/
theorem nodeSpan_of_mended {o : ParseOptions} {s : Str} {n : NodeD} (h1 : o.autoFixUnescapedLt = false)
    (h2 : o.autoFixUnexpectedEndtag = false) (h3 : o.autoFixUnclosedTag = false) (h : Spec.mendedSpan o s n) : Spec.nodeSpan s n := by
  unfold Spec.mendedSpan at h
  unfold Spec.nodeSpan
  cases hty : n.nodeType <;> simp only [hty] at h ⊢
  case text => obtain ⟨w, k1, k2, _⟩ := h; rw [k1, mended_plain h1 h2 k2]
  case spacesBetweenTag => obtain ⟨w, k1, k2, _⟩ := h; rw [k1, mended_plain h1 h2 k2]
  case tag =>
    rcases h with h | h
    · exact h
    · rw [h3] at h; cases h.1
  case tagEnd =>
    rcases h with h | h
    · unfold Spec.nodeSpan at h; simp only [hty] at h; exact h
    · rw [h3] at h; cases h.1
  all_goals unfold Spec.nodeSpan at h; simp only [hty] at h; exact h

end Rphtml
