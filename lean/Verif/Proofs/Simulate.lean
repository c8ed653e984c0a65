import Verif.Proofs.Rep
import Verif.Proofs.Reach

/-!
# The parser is the machine of `Proofs/Abs.lean`

`Abs d a`: the parser state `d` represents the machine state `a`.  Every transition of the parser is one
of the machine (`Abs.fwd`), and whenever the machine goes on, so does the parser (`Abs.bwd`).
-/

namespace Rphtml

/-- What the node `x` means for the characters that follow. -/
def LastOk (h : Heap) (c x : NodeId) : Last → Prop
  | .other => (h.cell x).nodeType.core ≠ .text ∧
      ((h.cell x).nodeType = .tag → ∀ m, (h.cell x).tmeta = some m → m.selfClosed = false → x = c)
  | .text p => (h.cell x).nodeType.core = .text ∧ TextAt h c x p
  | .hole => (h.cell x).nodeType = .tag ∧ (∃ m, (h.cell x).tmeta = some m ∧ m.selfClosed = false ∧ m.autoFix = false) ∧
      (h.kids c).getLast? = some x ∧ h.kids x = []

/-- The open elements; a self-closed doctype may have closed the document itself. -/
def Stk (d : Doc) (over : Bool) (st : List NodeId) : Prop :=
  (over = false ∧ d.chain = st ∧ st ≠ []) ∨ (over = true ∧ d.chain = [] ∧ st = [0])

/-- A node without content, end tag or children. -/
def Fresh (h : Heap) (x : NodeId) : Prop :=
  (h.cell x).endTag = none ∧ (h.cell x).childs = none ∧ (h.cell x).content = none

/-- The heap with the text read so far. -/
def Doc.withText (d : Doc) : Heap := d.heap.upd d.current fun n => { n with content := some d.prevChars }

/-- Between two constructs. -/
def AtRest (d : Doc) (fs : List Frame) (over : Bool) (l : Last) : Prop :=
  ∃ c cs, Stk d over (c :: cs) ∧ Zip d.heap (c :: cs) fs [] d.heap.size ∧ LastOk d.heap c d.current l

/-- Inside a construct whose node is the current one. -/
def Pending (d : Doc) (st : List NodeId) (fs : List Frame) (over : Bool) : Prop :=
  over = false ∧ Zip d.heap st fs [d.current] d.current ∧ Fresh d.heap d.current

/-- The parser state behind each mode. -/
def AbsMode (d : Doc) (fs : List Frame) (over : Bool) : Mode → Prop
  | .wait l => d.handle = .wait ∧ AtRest d fs over l
  | .text p => d.handle = .text ∧ ∃ c cs, Stk d over (c :: cs) ∧ Zip d.withText (c :: cs) fs [] d.heap.size ∧
      TextAt d.withText c d.current p
  | .lt l => d.handle = .unkownTag ∧ AtRest d fs over l
  | .bang det pc => d.handle = .exclamationBegin ∧ d.detect = det ∧ d.prevChars = pc ∧
      ∃ st, Stk d over st ∧ Zip d.heap st fs [] d.heap.size
  | .comment cd pc => d.handle = .commentOrCdata ∧ d.prevChars = pc ∧
      d.cur.nodeType = (if cd then .xmlCdata else .comment) ∧ Pending d d.chain fs over
  | .doctypeName pc => d.handle = .doctypeName ∧ d.prevChars = pc ∧ Pending d d.chain fs over
  | .tagName pc => d.handle = .tagName ∧ d.prevChars = pc ∧ Pending d d.chain.tail fs over
  | .inTag isDoc t => d.handle.inTag = true ∧ (isDoc = true ↔ d.codeIn = .htmlDoctype) ∧
      (∃ m, d.cur.tmeta = some m ∧ d.tagSt m = t ∧ m.autoFix = false) ∧
      Pending d (if isDoc then d.chain else d.chain.tail) fs over
  | .tagEnd pc ret => d.handle = .tagEnd ∧ d.prevChars = pc ∧
      ∃ c cs, Stk d over (c :: cs) ∧ Zip d.heap (c :: cs) fs [] d.current ∧
        LastOk d.heap c (d.cur.prev.getD d.current) ret
  | .raw m pc => d.handle = .contentTag ∧ d.prevChars = pc ∧ d.cur.tmeta = some m ∧ m.autoFix = false ∧
      Pending d d.chain.tail fs over

/-- The parser state `d` represents the machine state `a`. -/
structure Abs (d : Doc) (a : AState) : Prop where
  sp : a.sp = d.inSpecial
  mark : a.mark = d.markChar
  mode : AbsMode d (a.top :: a.rest) a.over a.mode

theorem Abs.new (o : ParseOptions) : Abs (Doc.new o) {} := by
  refine ⟨rfl, rfl, ?_⟩
  refine ⟨rfl, 0, [], Or.inl ⟨rfl, rfl, by simp⟩, ?_, ?_⟩
  · simp only [Zip]
    refine ⟨trivial, rfl, rfl, [], rfl, ?_⟩
    simp only [Reps]
    exact ⟨trivial, Nat.le_refl _⟩
  · refine ⟨?_, ?_⟩
    · simp [Doc.new, Cell.new, NodeType.core]
    · simp [Doc.new, Cell.new]

theorem Abs.setPos {d : Doc} {a : AState} (h : Abs d a) (p : Nat) : Abs { d with position := p } a := by
  refine ⟨h.sp, h.mark, ?_⟩
  have := h.mode
  revert this
  cases a.mode <;> exact id

theorem AtRest.frame {d d' : Doc} {fs : List Frame} {over : Bool} {l : Last} (h : AtRest d fs over l)
    (hh : d'.heap = d.heap) (hc : d'.chain = d.chain) (hu : d'.current = d.current) : AtRest d' fs over l := by
  obtain ⟨c, cs, h1, h2, h3⟩ := h
  refine ⟨c, cs, ?_, ?_, ?_⟩
  · unfold Stk at h1 ⊢; rw [hc]; exact h1
  · rw [hh]; exact h2
  · rw [hh, hu]; exact h3

theorem Pending.frame {d d' : Doc} {st : List NodeId} {fs : List Frame} {over : Bool} (h : Pending d st fs over)
    (hh : d'.heap = d.heap) (hu : d'.current = d.current) : Pending d' st fs over := by
  unfold Pending at h ⊢; rw [hh, hu]; exact h

theorem Stk.cons {d : Doc} {over : Bool} {st : List NodeId} (h : Stk d over st) {p : NodeId}
    (hp : d.chain.head? = some p) : over = false ∧ d.chain = st ∧ ∃ cs, st = p :: cs := by
  rcases h with ⟨h1, h2, _⟩ | ⟨_, h2, _⟩
  · refine ⟨h1, h2, ?_⟩
    rw [h2] at hp
    cases st with
    | nil => simp at hp
    | cons a as => simp at hp; subst hp; exact ⟨as, rfl⟩
  · rw [h2] at hp; simp at hp

theorem Stk.over_of {d : Doc} {over : Bool} {st : List NodeId} (h : Stk d over st) : over = true ↔ d.chain = [] := by
  rcases h with ⟨h1, h2, h3⟩ | ⟨h1, h2, h3⟩
  · rw [h1, h2]; simp [h3]
  · rw [h1, h2]; simp

/-- A new node below the innermost open element. -/
theorem grown_core {d : Doc} (hd : Ctl d) {p : NodeId} (hp : d.chain.head? = some p) (ty : NodeType) (b : Nat)
    (o : Option NodeId) (ho : o = d.checkTextnode ∨ o = none) {h' : Heap}
    (hh : h' = (d.addChild p (Cell.new ty b)).heap.markSpaces o) :
    (∀ k, k < d.heap.size → k ≠ p → SameCore (d.heap.cell k) (h'.cell k)) ∧
    SameCore { d.heap.cell p with childs := some (d.heap.kids p ++ [d.heap.size]) } (h'.cell p) ∧
    Fresh h' d.heap.size ∧ (h'.cell d.heap.size).nodeType = ty ∧ (h'.cell d.heap.size).tmeta = none ∧
    h'.size = d.heap.size + 1 := by
  have hplt := hd.chain_head hp
  have hmark : ∀ x : NodeId, o = some x → x < d.heap.size ∧ (d.heap.cell x).nodeType = .text := by
    intro x hx
    rcases ho with h | h
    · exact hd.check x (by rw [← h, hx])
    · rw [h] at hx; cases hx
  have hnew : h'.cell d.heap.size = { Cell.new ty b with parent := some p, index := ((d.heap.cell p).childs.getD []).length, root := some d.root } := by
    rw [hh, markSpaces_cell, if_neg (fun h => by have := (hmark _ h).1; omega), addChild_cell _ _ _ hplt, if_pos rfl]
  refine ⟨?_, ?_, ?_, ?_, ?_, ?_⟩
  · intro k hk hkp
    have hadd : (d.addChild p (Cell.new ty b)).heap.cell k = d.heap.cell k := by
      rw [addChild_cell _ _ _ hplt, if_neg (by omega), if_neg hkp]
    rw [hh, markSpaces_cell, hadd]
    split
    · rename_i h
      exact ⟨by rw [(hmark k h).2]; rfl, rfl, rfl, rfl, rfl⟩
    · exact SameCore.refl _
  · rw [hh, markSpaces_cell, if_neg, addChild_cell _ _ _ hplt, if_neg (by omega), if_pos rfl]
    · exact SameCore.refl _
    · intro h
      have := chain_not_text hd (List.mem_of_mem_head? hp)
      rw [(hmark p h).2] at this
      rcases this with h | h <;> cases h
  · unfold Fresh; rw [hnew]; exact ⟨rfl, rfl, rfl⟩
  · rw [hnew]; rfl
  · rw [hnew]; rfl
  · rw [hh, markSpaces_size]; rfl

theorem upd_core_ne (h : Heap) (i : NodeId) (f : Cell → Cell) (k : NodeId) (hk : k ≠ i) :
    SameCore (h.cell k) ((h.upd i f).cell k) := by
  rw [Heap.upd_cell_ne _ _ hk]; exact SameCore.refl _

/-- Opening a construct: the new node is pending. -/
theorem Pending.start {d d' : Doc} (hd : Ctl d) {fs : List Frame} {over : Bool} {st : List NodeId} (hs : Stk d over st)
    (hz : Zip d.heap st fs [] d.heap.size) {p : NodeId} (hp : d.chain.head? = some p) (ty : NodeType) (b : Nat)
    (o : Option NodeId) (ho : o = d.checkTextnode ∨ o = none)
    (hh : d'.heap = (d.addChild p (Cell.new ty b)).heap.markSpaces o) (hc : d'.current = d.heap.size) :
    Pending d' d.chain fs over ∧ d'.cur.nodeType = ty ∧ d'.cur.tmeta = none := by
  obtain ⟨h1, h2, cs, h3⟩ := hs.cons hp
  obtain ⟨g1, g2, g3, g4, g5, g6⟩ := grown_core hd hp ty b o ho hh
  subst h3
  refine ⟨⟨h1, ?_, ?_⟩, ?_, ?_⟩
  · rw [hc, h2]; exact hz.link rfl g1 g2
  · rw [hc]; exact g3
  · unfold Doc.cur; rw [hc]; exact g4
  · unfold Doc.cur; rw [hc]; exact g5

/-! ## From the handler to the mode -/

theorem Abs.mode_of {d : Doc} {a : AState} (h : Abs d a) :
    match d.handle with
    | .noop => False
    | .wait => ∃ l, a.mode = .wait l
    | .text => ∃ p, a.mode = .text p
    | .unkownTag => ∃ l, a.mode = .lt l
    | .exclamationBegin => ∃ det pc, a.mode = .bang det pc
    | .commentOrCdata => ∃ cd pc, a.mode = .comment cd pc
    | .doctypeName => ∃ pc, a.mode = .doctypeName pc
    | .tagName => ∃ pc, a.mode = .tagName pc
    | .tagWait | .tagSelfClosing | .attrKey | .attrValue => ∃ isDoc t, a.mode = .inTag isDoc t
    | .tagEnd => ∃ pc ret, a.mode = .tagEnd pc ret
    | .contentTag => ∃ m pc, a.mode = .raw m pc := by
  have hm := h.mode
  cases ha : a.mode with
  | inTag isDoc t =>
    rw [ha] at hm
    have := hm.1
    cases hh : d.handle <;> rw [hh] at this <;> first | (cases this; done) | exact ⟨_, _, rfl⟩
  | _ =>
    rw [ha] at hm
    rw [hm.1]
    first
      | exact ⟨_, rfl⟩
      | exact ⟨_, _, rfl⟩

theorem Abs.inTag_of {d : Doc} {a : AState} (h : Abs d a) (hh : d.handle.inTag = true) :
    ∃ isDoc t, a.mode = .inTag isDoc t := by
  have := h.mode_of
  cases hd : d.handle <;> rw [hd] at hh this <;> first | (cases hh; done) | exact this

/-! ## Texts -/

theorem LastOk.is_text {h : Heap} {c x : NodeId} {l : Last} (g : LastOk h c x l) (ht : (h.cell x).nodeType = .text) :
    ∃ p, l = .text p ∧ TextAt h c x p := by
  cases l with
  | other => rw [LastOk, ht] at g; exact absurd rfl g.1
  | text p => exact ⟨p, rfl, g.2⟩
  | hole => rw [LastOk, ht] at g; cases g.1

theorem LastOk.not_text {h : Heap} {c x : NodeId} {l : Last} (g : LastOk h c x l) (ht : (h.cell x).nodeType ≠ .text)
    (hs : (h.cell x).nodeType ≠ .spacesBetweenTag) : ∀ p, l ≠ .text p := by
  rintro p rfl
  have := g.1
  revert this ht hs
  cases (h.cell x).nodeType <;> simp [NodeType.core]

/-- A text is added below the innermost element. -/
theorem Zip.addText {h h' : Heap} {c n : NodeId} {cs : List NodeId} {f : Frame} {fs : List Frame} {w : Str}
    (z : Zip h (c :: cs) (f :: fs) [] n) (hn : n = h.size)
    (hcell : ∀ k, k < n → k ≠ c → SameCore (h.cell k) (h'.cell k))
    (hc : SameCore { h.cell c with childs := some (h.kids c ++ [n]) } (h'.cell c))
    (hnew : (h'.cell n).nodeType = .text ∧ (h'.cell n).endTag = none ∧ (h'.cell n).childs = none ∧
      (h'.cell n).content = some w) :
    Zip h' (c :: cs) ({ f with kids := f.kids ++ [.text w] } :: fs) [] (n + 1) ∧ TextAt h' c n .top := by
  have hz := z.link hn hcell hc
  constructor
  · refine hz.done ?_
    simp only [Rep, LeafRep]
    exact ⟨⟨Nat.lt_succ_self _, by rw [hnew.1]; rfl, hnew.2.1, hnew.2.2.1⟩, hnew.2.2.2⟩
  · obtain ⟨ids, h1, _⟩ := hz.cons.1
    unfold TextAt
    rw [h1]; simp

theorem withText_kids (d : Doc) (k : NodeId) : d.withText.kids k = d.heap.kids k := by
  unfold Heap.kids Doc.withText
  rw [Heap.upd_cell]
  split <;> rfl

theorem TextAt.congr {h h' : Heap} {c x : NodeId} {p : Place} (g : TextAt h c x p) (hk : ∀ k, h'.kids k = h.kids k) :
    TextAt h' c x p := by
  cases p with
  | top => unfold TextAt at g ⊢; rw [hk]; exact g
  | nested =>
    obtain ⟨e, h1, h2⟩ := g
    exact ⟨e, by rw [hk]; exact h1, by rw [hk]; exact h2⟩

theorem upd_kids {h : Heap} {i : NodeId} {f : Cell → Cell} (hf : (f (h.cell i)).childs = (h.cell i).childs) (k : NodeId) :
    (h.upd i f).kids k = h.kids k := by
  unfold Heap.kids
  rw [Heap.upd_cell]
  split
  · rename_i h; subst h; rw [hf]
  · rfl

theorem push_cell_ne {h : Heap} (n : Cell) {k : NodeId} (hk : k ≠ h.size) : (h.push n).cell k = h.cell k := by
  rw [Heap.push_cell, if_neg hk]

theorem push_cell_self (h : Heap) (n : Cell) : (h.push n).cell h.size = n := by
  rw [Heap.push_cell, if_pos rfl]

theorem Stk.congr {d d' : Doc} {over : Bool} {st : List NodeId} (h : Stk d over st) (hc : d'.chain = d.chain) :
    Stk d' over st := by unfold Stk at h ⊢; rw [hc]; exact h

/-- The last text is extended and the parser goes on reading it. -/
theorem Abs.extend {d d' : Doc} {a : AState} {c : NodeId} {cs : List NodeId} {pl : Place} {w s : Str} {h' : Heap}
    (hst : Stk d a.over (c :: cs)) (hz : Zip d.heap (c :: cs) (a.top :: a.rest) [] d.heap.size)
    (hat : TextAt d.heap c d.current pl) (ht : d.cur.nodeType = .text) (hw : d.cur.content = some w)
    (hh : ∃ e, h' = d.heap.upd d.current fun n => { n with content := some (w ++ s), endAt := e })
    (hchain : d'.chain = d.chain) :
    Stk d' a.over (c :: cs) ∧
      Zip h' (c :: cs) ((a.more pl s).top :: (a.more pl s).rest) [] d.heap.size ∧
      (h'.cell d.current).nodeType = .text ∧ TextAt h' c d.current pl := by
  obtain ⟨e, rfl⟩ := hh
  refine ⟨hst.congr hchain, ?_, ?_, hat.congr fun k => upd_kids rfl k⟩
  · refine hz.setText hat (by unfold Doc.cur at ht; rw [ht]; rfl) hw (fun k _ hk => upd_core_ne _ _ _ _ hk) ?_
    rw [Heap.upd_cell_self]
    exact ⟨rfl, rfl, rfl, rfl, rfl⟩
  · rw [Heap.upd_cell_self]; exact ht

/-! ## The transitions -/

theorem Abs.fwd_wait {d d' : Doc} {a : AState} {c : Char} (hd : Ctl d) (h : Abs d a) (hs : Step d c d')
    (hh : d.handle = .wait) : ∃ a', astep d.opts a c = some a' ∧ Abs d' a' := by
  obtain ⟨l, hl⟩ : ∃ l, a.mode = .wait l := by have := h.mode_of; rw [hh] at this; exact this
  have hm := h.mode
  rw [hl] at hm
  have hr := hm.2
  cases hs <;> first | (exfalso; simp_all only [reduceCtorEq, Handler.inTag, Bool.false_eq_true]; done) | skip
  case lt _ hc =>
    subst hc
    refine ⟨{ a with mode := .lt l }, ?_, h.sp, h.mark, rfl, hr.frame rfl rfl rfl⟩
    unfold astep; simp only [hl, if_true]
  case textResume _ hc hf ht w hw =>
    obtain ⟨x, cs, h1, h2, h3⟩ := hr
    obtain ⟨p, rfl, hat⟩ := h3.is_text ht
    refine ⟨{ a.more p [c] with mode := .text p }, ?_, h.sp, h.mark, rfl, x, cs, ?_⟩
    · unfold astep; simp only [hl, hc, if_false, hf]
    · obtain ⟨g1, g2, g3, g4⟩ := Abs.extend (s := [c]) (h' := d.heap.upd d.current fun n => { n with content := some (w ++ [c]) })
        (d' := d) h1 h2 hat ht hw ⟨d.cur.endAt, Heap.upd_congr rfl⟩ rfl
      have he : Doc.withText { d with prevChars := w ++ [c], heap := d.heap.upd d.current fun n => { n with content := some [] }, repeatWhitespace := false, codeIn := .textNode, handle := .text } =
          d.heap.upd d.current fun n => { n with content := some (w ++ [c]) } := by
        unfold Doc.withText; simp only [Heap.upd_upd]
      rw [he]
      exact ⟨g1, g2, g4⟩
  case textStart _ hc hf p hp =>
    obtain ⟨x, cs, h1, h2, h3⟩ := hr
    have hov := (h1.cons hp).1
    obtain ⟨cs', hcs⟩ := (h1.cons hp).2.2
    simp only [List.cons.injEq] at hcs
    obtain ⟨rfl, rfl⟩ := hcs
    obtain ⟨g1, g2, g3, g4, g5, g6⟩ := grown_core hd hp .text d.position none (Or.inr rfl) rfl
    refine ⟨{ a.push (.text [c]) with mode := .text .top }, ?_, h.sp, h.mark, rfl, x, cs, h1.congr rfl, ?_⟩
    · unfold astep
      simp only [hl, hc, if_false, hov, Bool.false_eq_true]
      cases l with
      | text p =>
        cases hu : d.opts.autoFixUnexpectedEndtag with
        | true =>
          have := hf hu
          have h4 := hd.curTy
          exact absurd rfl (h3.not_text this h4 p)
        | false => rfl
      | other => rfl
      | hole => rfl
    · have hlt := hd.chain_head hp
      refine Zip.addText (h := d.heap) h2 rfl ?_ ?_ ?_
      · intro k hk hkc
        refine (g1 k hk hkc).trans ?_
        exact upd_core_ne _ _ _ _ (Nat.ne_of_lt hk)
      · refine g2.trans ?_
        exact upd_core_ne _ _ _ _ (Nat.ne_of_lt hlt)
      · unfold Doc.withText
        simp only [Doc.addChild]
        rw [Heap.upd_cell_self]
        exact ⟨g4, g3.1, g3.2.1, rfl⟩

theorem Abs.fwd_text {d d' : Doc} {a : AState} {c : Char} (hd : Ctl d) (h : Abs d a) (hs : Step d c d')
    (hh : d.handle = .text) : ∃ a', astep d.opts a c = some a' ∧ Abs d' a' := by
  obtain ⟨p, hl⟩ : ∃ l, a.mode = .text l := by have := h.mode_of; rw [hh] at this; exact this
  have hm := h.mode
  rw [hl] at hm
  obtain ⟨x, cs, h1, h2, h3⟩ := hm.2
  have hty : d.cur.nodeType = .text := by
    have := hd.hs; unfold HandleOk at this; rw [hh] at this; exact this.2.2.1
  cases hs <;> first | (exfalso; simp_all only [reduceCtorEq, Handler.inTag, Bool.false_eq_true]; done) | skip
  case textMore _ hc =>
    refine ⟨a.more p [c], ?_, h.sp, h.mark, ?_⟩
    · unfold astep; simp only [hl, hc, if_false]
    · have : (a.more p [c]).mode = .text p := hl
      rw [this]
      have he : Doc.withText { d with prevChars := d.prevChars ++ [c], repeatWhitespace := d.repeatWhitespace && isWs c } =
          d.withText.upd d.current fun n => { n with content := some (d.prevChars ++ [c]) } := by
        unfold Doc.withText; simp only [Heap.upd_upd]
      refine ⟨hh, x, cs, h1.congr rfl, ?_, ?_⟩
      · rw [he]
        refine h2.setText (w := d.prevChars) h3 ?_ ?_ (fun k _ hk => upd_core_ne _ _ _ _ hk) ?_
        · unfold Doc.withText; rw [Heap.upd_cell_self]; unfold Doc.cur at hty; simp only [hty]; rfl
        · unfold Doc.withText; rw [Heap.upd_cell_self]
        · rw [Heap.upd_cell_self]; exact ⟨rfl, rfl, rfl, rfl, rfl⟩
      · rw [he]
        exact h3.congr fun k => upd_kids rfl k
  case textEnd _ hc =>
    subst hc
    refine ⟨{ a with mode := .lt (.text p) }, ?_, h.sp, h.mark, rfl, x, cs, h1.congr rfl, ?_, ?_, ?_⟩
    · unfold astep; simp only [hl, if_true]
    · refine h2.frame fun k _ => ?_
      unfold Doc.endText Doc.withText
      simp only [Heap.upd_cell]
      split
      · exact ⟨rfl, rfl, rfl, rfl, rfl⟩
      · exact SameCore.refl _
    · unfold Doc.endText
      simp only [Heap.upd_cell_self]
      unfold Doc.cur at hty; rw [hty]; rfl
    · refine h3.congr fun k => ?_
      rw [withText_kids]
      exact upd_kids (h := d.heap) (i := d.current) (f := fun n => { n with content := some d.prevChars, endAt := d.position }) rfl k

theorem withText_endText (d : Doc) : d.endText.heap = d.withText.upd d.current fun n => { n with endAt := d.position } := by
  unfold Doc.endText Doc.withText
  simp only [Heap.upd_upd]

/-- A text that is being read or, at `<`, is finished. -/
theorem Abs.textOr {d1 : Doc} {a : AState} {c : Char} {x : NodeId} {cs : List NodeId} {p : Place}
    (hsp : a.sp = d1.inSpecial) (hmk : a.mark = d1.markChar) (hh : d1.handle = .text) (h1 : Stk d1 a.over (x :: cs))
    (h2 : Zip d1.withText (x :: cs) (a.top :: a.rest) [] d1.heap.size) (h3 : TextAt d1.withText x d1.current p)
    (hty : (d1.heap.cell d1.current).nodeType = .text) :
    Abs (if c = '<' then d1.endText else d1) { a with mode := if c = '<' then .lt (.text p) else .text p } := by
  by_cases hc : c = '<'
  · simp only [hc, if_true]
    refine ⟨hsp, hmk, rfl, x, cs, h1.congr rfl, ?_, ?_, ?_⟩
    · rw [withText_endText]
      refine h2.frame fun k _ => ?_
      rw [Heap.upd_cell]
      split
      · rename_i h; subst h; exact ⟨rfl, rfl, rfl, rfl, rfl⟩
      · exact SameCore.refl _
    · unfold Doc.endText
      simp only [Heap.upd_cell_self]
      rw [hty]; rfl
    · rw [withText_endText]
      exact h3.congr fun k => upd_kids rfl k
  · simp only [hc, if_false]
    exact ⟨hsp, hmk, hh, x, cs, h1, h2, h3⟩

theorem push_core (h : Heap) (n : Cell) {k : NodeId} (hk : k < h.size) : SameCore (h.cell k) ((h.push n).cell k) := by
  rw [push_cell_ne _ (by omega)]; exact SameCore.refl _

theorem Abs.fwd_lt {d d' : Doc} {a : AState} {c : Char} (hd : Ctl d) (h : Abs d a) (hs : Step d c d')
    (hh : d.handle = .unkownTag) : ∃ a', astep d.opts a c = some a' ∧ Abs d' a' := by
  obtain ⟨l, hl⟩ : ∃ l, a.mode = .lt l := by have := h.mode_of; rw [hh] at this; exact this
  have hm := h.mode
  rw [hl] at hm
  obtain ⟨x, cs, h1, h2, h3⟩ := hm.2
  cases hs <;> first | (exfalso; simp_all only [reduceCtorEq, Handler.inTag, Bool.false_eq_true]; done) | skip
  case tagOpen _ hc p hp =>
    have hov := (h1.cons hp).1
    have hpd := Pending.start (d' := { d.addChild p (Cell.new .tag d.memPosition) with heap := (d.addChild p (Cell.new .tag d.memPosition)).heap.markSpaces d.checkTextnode, checkTextnode := none, prevChars := [c], codeIn := .tag, handle := .tagName })
      hd h1 h2 hp .tag d.memPosition d.checkTextnode (Or.inl rfl) rfl rfl
    refine ⟨{ a with mode := .tagName [c] }, ?_, h.sp, h.mark, rfl, rfl, hpd.1⟩
    unfold astep; simp only [hl, hc, if_true, hov, Bool.false_eq_true, if_false]
  case endOpen _ hc =>
    subst hc
    refine ⟨{ a with mode := .tagEnd [] (if d.opts.autoFixUnclosedTag then l else .other) }, ?_, h.sp, h.mark, rfl, ?_,
      x, cs, h1.congr rfl, ?_, ?_⟩
    · unfold astep; simp only [hl, show isAlpha '/' = false from rfl, Bool.false_eq_true, if_false, if_true]
    · have := hd.hs; unfold HandleOk at this; rw [hh] at this; exact this.2.1
    · exact h2.frame fun k hk => push_core _ _ hk
    · unfold Doc.cur
      simp only [push_cell_self]
      have hkids : ∀ (n : Cell) (k : NodeId), k < d.heap.size → (d.heap.push n).kids k = d.heap.kids k :=
        fun n k hk => (push_core _ _ hk).kids
      by_cases hf : d.opts.autoFixUnclosedTag = true
      · simp only [hf, if_true, Option.getD_some]
        have hx := h2.cons.1.lt
        have hcur := hd.curLt
        cases l with
        | other =>
          unfold LastOk
          rw [push_cell_ne _ (by omega)]
          exact h3
        | text p =>
          unfold LastOk
          rw [push_cell_ne _ (by omega)]
          refine ⟨h3.1, ?_⟩
          cases p with
          | top => unfold TextAt; rw [hkids _ _ hx]; exact h3.2
          | nested =>
            obtain ⟨e, e1, e2⟩ := h3.2
            have he : e < d.heap.size := by
              obtain ⟨ids, g1, g2⟩ := h2.cons.1
              obtain ⟨l', g3⟩ := getLast?_snoc e1
              simp only [List.append_nil] at g1
              rw [g1] at g3; subst g3
              obtain ⟨_, _, _, _, _, _, _, k3, k4⟩ := g2.unsnoc
              have := k3.lt
              omega
            exact ⟨e, by rw [hkids _ _ hx]; exact e1, by rw [hkids _ _ he]; exact e2⟩
        | hole =>
          unfold LastOk
          rw [push_cell_ne _ (by omega), hkids _ _ hx, hkids _ _ hcur]
          exact h3
      · simp only [hf, Bool.false_eq_true, if_false, Option.getD_none]
        unfold LastOk
        rw [push_cell_self]
        refine ⟨by simp [Cell.new, NodeType.core], ?_⟩
        intro h; cases h
  case bang _ hc =>
    subst hc
    refine ⟨{ a with mode := .bang none [] }, ?_, h.sp, h.mark, rfl, ?_, ?_, x :: cs, h1.congr rfl, h2⟩
    · unfold astep
      simp only [hl, show isAlpha '!' = false from rfl, Bool.false_eq_true, if_false, if_true, show ¬ '!' = '/' by decide]
    · have := hd.hs; unfold HandleOk at this; rw [hh] at this; exact this.2.2
    · have := hd.hs; unfold HandleOk at this; rw [hh] at this; exact this.2.1
  case ltExtend _ hf hc ht w hw d1 e1 =>
    obtain ⟨p, rfl, hat⟩ := h3.is_text ht
    generalize hs : (if c = '<' then ['&', 'l', 't', ';'] else ['&', 'l', 't', ';', c]) = s at e1
    refine ⟨{ a.more p s with mode := if c = '<' then .lt (.text p) else .text p }, ?_, ?_⟩
    · unfold astep; simp only [hl, hc, hf, Bool.false_eq_true, if_false, Bool.true_eq_false, hs]
    · obtain ⟨g1, g2, g3, g4⟩ := Abs.extend (s := s) (h' := d.heap.upd d.current fun n => { n with content := some (w ++ s) })
        (d' := d1) h1 h2 hat ht hw ⟨d.cur.endAt, Heap.upd_congr rfl⟩ (by rw [e1])
      have he : d1.withText = d.heap.upd d.current fun n => { n with content := some (w ++ s) } := by
        subst e1; unfold Doc.withText; simp only [Heap.upd_upd]
      refine Abs.textOr (a := a.more p s) (x := x) (cs := cs) (by rw [e1]; exact h.sp) (by rw [e1]; exact h.mark) (by rw [e1]) g1 ?_ ?_ ?_
      · rw [he, show d1.heap.size = d.heap.size by rw [e1]; rfl]; exact g2
      · rw [he, show d1.current = d.current by rw [e1]]; exact g4
      · rw [e1]; simp only [Heap.upd_cell_self]; exact ht
  case ltNew _ hf hc ht p hp d1 e1 =>
    generalize hs : (if c = '<' then ['&', 'l', 't', ';'] else ['&', 'l', 't', ';', c]) = s at e1
    have hnt := h3.not_text ht hd.curTy
    have hcur := hd.curLt
    have hx := h2.cons.1.lt
    have hplt : p < d.heap.size := by
      rw [hp]
      split
      · exact hcur
      · cases hc : d.chain.head? with
        | none => simp only [Option.getD_none, hd.root0]; exact hd.sizePos
        | some q => simp only [Option.getD_some]; exact hd.chain_head hc
    have hce : ∀ k, k < d.heap.size → k ≠ p → SameCore (d.heap.cell k) (d1.withText.cell k) := by
      intro k hk hkp
      rw [e1]; unfold Doc.withText
      simp only
      rw [Heap.upd_cell_ne _ _ (Nat.ne_of_lt hk), Heap.upd_cell_ne _ _ hkp]
      exact push_core _ _ hk
    have hcp : SameCore { d.heap.cell p with childs := some (d.heap.kids p ++ [d.heap.size]) } (d1.withText.cell p) := by
      rw [e1]; unfold Doc.withText
      simp only
      rw [Heap.upd_cell_ne _ _ (Nat.ne_of_lt hplt), Heap.upd_cell_self, push_cell_ne _ (by omega)]
      exact SameCore.refl _
    have hnew : (d1.withText.cell d.heap.size).nodeType = .text ∧ (d1.withText.cell d.heap.size).endTag = none ∧
        (d1.withText.cell d.heap.size).childs = none ∧ (d1.withText.cell d.heap.size).content = some s := by
      rw [e1]; unfold Doc.withText
      simp only
      rw [Heap.upd_cell_self, Heap.upd_cell_ne _ _ (Nat.ne_of_gt hplt), push_cell_self]
      exact ⟨rfl, rfl, rfl, rfl⟩
    have hty : (d1.heap.cell d1.current).nodeType = .text := by
      rw [e1]
      simp only
      rw [Heap.upd_cell_ne _ _ (Nat.ne_of_gt hplt), push_cell_self]
      rfl
    have hsz : d1.heap.size = d.heap.size + 1 := by rw [e1]; rfl
    have hcu : d1.current = d.heap.size := by rw [e1]
    have hst : Stk d1 a.over (x :: cs) := h1.congr (by rw [e1])
    cases l with
    | text p => exact absurd rfl (hnt p)
    | other =>
      have hpx : p = x := by
        have hroot : d.chain.head?.getD d.root = x := by
          rcases h1 with ⟨_, k2, _⟩ | ⟨_, k2, k3⟩
          · rw [k2]; rfl
          · rw [k2, hd.root0]; simp only [List.cons.injEq] at k3; rw [k3.1]; rfl
        rw [hp]
        split
        · rename_i hq
          have hmd := hd.metaDone d.current hcur hq.1
          rw [hh] at hmd
          simp only [reduceCtorEq, false_and, or_false] at hmd
          cases hmm : (d.heap.cell d.current).tmeta with
          | none => exact absurd hmm hmd
          | some m =>
            have := hq.2 m hmm
            simp only [Bool.or_eq_false_iff] at this
            exact h3.2 hq.1 m hmm this.1
        · exact hroot
      rw [hpx] at hce hcp
      obtain ⟨g1, g2⟩ := Zip.addText h2 rfl hce hcp hnew
      refine ⟨{ a.push (.text s) with mode := if c = '<' then .lt (.text .top) else .text .top }, ?_, ?_⟩
      · unfold astep; simp only [hl, hc, hf, Bool.false_eq_true, if_false, Bool.true_eq_false, hs]
      · refine Abs.textOr (a := a.push (.text s)) (x := x) (cs := cs) (by rw [e1]; exact h.sp) (by rw [e1]; exact h.mark) (by rw [e1]) hst ?_ ?_ hty
        · rw [hsz]; exact g1
        · rw [hcu]; exact g2
    | hole =>
      obtain ⟨k1, ⟨m, k2, k3, k4⟩, k5, k6⟩ := h3
      have hpx : p = d.current := by
        rw [hp, if_pos]
        refine ⟨k1, fun m' hm' => ?_⟩
        unfold Doc.cur at hm'
        rw [k2] at hm'; cases hm'
        rw [k3, k4]; rfl
      rw [hpx] at hce hcp
      rw [k6] at hcp
      have hxc : x ≠ d.current := by
        obtain ⟨ids, g1, g2⟩ := h2.cons.1
        obtain ⟨l', g3⟩ := getLast?_snoc k5
        simp only [List.append_nil] at g1
        rw [g1] at g3; subst g3
        obtain ⟨_, _, _, _, _, b1, b2, b3, b4⟩ := g2.unsnoc
        have := b1.le
        omega
      have g1 := Zip.fill (w := s) h2 rfl k5 k6 k1 hce hcp (by
        simp only [Rep, LeafRep]
        exact ⟨⟨Nat.lt_succ_self _, by rw [hnew.1]; rfl, hnew.2.1, hnew.2.2.1⟩, hnew.2.2.2⟩)
      refine ⟨{ a.fill s with mode := if c = '<' then .lt (.text .nested) else .text .nested }, ?_, ?_⟩
      · unfold astep; simp only [hl, hc, hf, Bool.false_eq_true, if_false, Bool.true_eq_false, hs]
      · refine Abs.textOr (a := a.fill s) (x := x) (cs := cs) (by rw [e1]; exact h.sp) (by rw [e1]; exact h.mark) (by rw [e1]) hst ?_ ?_ hty
        · rw [hsz]; exact g1
        · rw [hcu]
          refine ⟨d.current, ?_, ?_⟩
          · rw [(hce x hx hxc).kids]; exact k5
          · unfold Heap.kids; rw [hcp.childs]; rfl

/-! ## Comments, CDATA sections and doctypes -/

theorem commentBody_iff (k : Char) (pc b : Str) : commentBody k pc = some b ↔ b ≠ [] ∧ pc = b ++ [k, k] := by
  unfold commentBody
  constructor
  · intro h
    split at h
    · rename_i hc
      obtain ⟨h1, h2, h3⟩ := hc
      simp only [Option.some.injEq] at h
      subst h
      refine ⟨by intro h; have := congrArg List.length h; simp at this; omega, ?_⟩
      have e : pc.drop (pc.length - 2) = [k, k] := by
        apply List.ext_getElem?
        intro i
        rw [List.getElem?_drop]
        match i with
        | 0 => simpa using h3
        | 1 => rw [show pc.length - 2 + 1 = pc.length - 1 by omega]; simpa using h2
        | i + 2 => simp; omega
      rw [← e, List.take_append_drop]
    · cases h
  · rintro ⟨h1, rfl⟩
    have hl : b.length ≠ 0 := by simpa using h1
    have h2 : (b ++ [k, k])[(b ++ [k, k]).length - 1]? = some k := by
      rw [List.getElem?_append_right (by simp)]
      have : (b ++ [k, k]).length - 1 - b.length = 1 := by simp
      rw [this]; rfl
    have h3 : (b ++ [k, k])[(b ++ [k, k]).length - 2]? = some k := by
      rw [List.getElem?_append_right (by simp)]
      have : (b ++ [k, k]).length - 2 - b.length = 0 := by simp
      rw [this]; rfl
    rw [if_pos ⟨by simp; omega, h2, h3⟩]
    simp

/-- The pending node is finished. -/
theorem Pending.finish {d : Doc} {st : List NodeId} {f : Frame} {fs : List Frame} {over : Bool} {p : PNode} {hi : NodeId}
    {h' : Heap} (h : Pending d st (f :: fs) over) (hcell : ∀ k, k < d.current → SameCore (d.heap.cell k) (h'.cell k))
    (hp : Rep h' p d.current hi) :
    ∃ c cs, st = c :: cs ∧ Zip h' (c :: cs) ({ f with kids := f.kids ++ [p] } :: fs) [] hi ∧
      (h'.kids c).getLast? = some d.current := by
  obtain ⟨_, h2, _⟩ := h
  cases st with
  | nil => simp [Zip] at h2
  | cons c cs =>
    have hz := h2.frame hcell
    refine ⟨c, cs, rfl, hz.done hp, ?_⟩
    obtain ⟨ids, g, _⟩ := hz.cons.1
    rw [g]; simp

theorem Abs.fwd_bang {d d' : Doc} {a : AState} {c : Char} (hd : Ctl d) (h : Abs d a) (hs : Step d c d')
    (hh : d.handle = .exclamationBegin) : ∃ a', astep d.opts a c = some a' ∧ Abs d' a' := by
  obtain ⟨det, pc, hl⟩ : ∃ det pc, a.mode = .bang det pc := by have := h.mode_of; rw [hh] at this; exact this
  have hm := h.mode
  rw [hl] at hm
  obtain ⟨_, h1, h2, st, h3, h4⟩ := hm
  have hs0 := hd.hs
  unfold HandleOk at hs0
  simp only [hh] at hs0
  cases hs <;> first | (exfalso; simp_all only [reduceCtorEq, Handler.inTag, Bool.false_eq_true]; done) | skip
  case exclFirst _ hdet D hD =>
    rw [hdet] at h1; subst h1
    refine ⟨{ a with mode := .bang (some D) [c] }, ?_, h.sp, h.mark, hh, rfl, rfl, st, h3.congr rfl, h4⟩
    unfold astep
    simp only [hl]
    rcases hD with ⟨rfl, rfl⟩ | ⟨hc, rfl⟩ | ⟨rfl, rfl, sp, n, t, m, k1, k2, k3, k4⟩
    · simp only [if_true]
    · have : ¬ c = '-' := by rcases hc with rfl | rfl <;> decide
      simp only [this, if_false, hc, if_true]
    · simp only [show ¬ '[' = '-' by decide, show ¬ ('[' = 'D' ∨ '[' = 'd') by decide, if_false, if_true, h.sp, k1]
      obtain ⟨e1, e2, cs, e3⟩ := h3.cons k2
      subst e3
      rw [if_neg]
      rintro (k | k | k)
      · rw [e1] at k; cases k
      · rcases h4.cons.2 with ⟨rfl, _⟩ | ⟨_, _, k5, _⟩
        · rw [hd.rootMeta] at k3; cases k3
        · simp only [List.isEmpty_iff] at k; exact k5 k
      · rcases h4.cons.2 with ⟨rfl, _⟩ | ⟨⟨_, _, _, m', b1, b2, _⟩, _⟩
        · rw [hd.rootMeta] at k3; cases k3
        · rw [k3] at b1; cases b1; rw [b2] at k4; exact k4 k
  case exclMore _ D hdet hlt hc =>
    rw [hdet] at h1; subst h1; subst h2
    refine ⟨{ a with mode := .bang (some D) (d.prevChars ++ [c]) }, ?_, h.sp, h.mark, hh, hdet, rfl, st, h3.congr rfl, h4⟩
    unfold astep
    simp only [hl, hc, if_true, hlt]
  case commentOpen _ hdet hlen hc p hp =>
    rw [hdet] at h1; subst h1; subst h2; subst hc
    have hov := (h3.cons hp).1
    have hpd := Pending.start (d' := { d.addChild p (Cell.new .comment d.memPosition) with heap := (d.addChild p (Cell.new .comment d.memPosition)).heap.markSpaces d.checkTextnode, checkTextnode := none, markChar := '-', prevChars := [], detect := none, codeIn := .comment, handle := .commentOrCdata })
      hd h3 h4 hp .comment d.memPosition d.checkTextnode (Or.inl rfl) rfl rfl
    refine ⟨{ a with mode := .comment false [], mark := '-' }, ?_, h.sp, rfl, rfl, rfl, hpd.2.1, hpd.1⟩
    have hl1 : d.prevChars.length = 1 := by simpa [detectComment] using hlen
    unfold astep
    simp only [hl, hl1, hov, show detectComment[1]? = some (toUpper '-') by decide, show ¬ 1 + 1 < detectComment.length by decide, Bool.false_eq_true, if_true, if_false]
  case cdataOpen _ hdet hlen hc p hp =>
    rw [hdet] at h1; subst h1; subst h2; subst hc
    have hov := (h3.cons hp).1
    have hpd := Pending.start (d' := { d.addChild p (Cell.new .xmlCdata d.memPosition) with heap := (d.addChild p (Cell.new .xmlCdata d.memPosition)).heap.markSpaces d.checkTextnode, checkTextnode := none, markChar := ']', prevChars := [], detect := none, codeIn := .xmlCdata, handle := .commentOrCdata })
      hd h3 h4 hp .xmlCdata d.memPosition d.checkTextnode (Or.inl rfl) rfl rfl
    refine ⟨{ a with mode := .comment true [], mark := ']' }, ?_, h.sp, rfl, rfl, rfl, hpd.2.1, hpd.1⟩
    have hl1 : d.prevChars.length = 6 := by simpa [detectCdata] using hlen
    unfold astep
    simp only [hl, hl1, hov, show detectCdata[6]? = some (toUpper '[') by decide, show ¬ 6 + 1 < detectCdata.length by decide, Bool.false_eq_true, if_true, if_false,
      show ¬ detectCdata = detectComment by decide]
  case doctypeOpen _ hdet hlen hc p hp =>
    rw [hdet] at h1; subst h1; subst h2
    have hov := (h3.cons hp).1
    have hpd := Pending.start (d' := { d.addChild p (Cell.new .htmlDoctype d.memPosition) with heap := (d.addChild p (Cell.new .htmlDoctype d.memPosition)).heap.markSpaces d.checkTextnode, checkTextnode := none, prevChars := d.prevChars ++ [c], detect := none, codeIn := .htmlDoctype, handle := .doctypeName })
      hd h3 h4 hp .htmlDoctype d.memPosition d.checkTextnode (Or.inl rfl) rfl rfl
    refine ⟨{ a with mode := .doctypeName (d.prevChars ++ [c]) }, ?_, h.sp, h.mark, rfl, rfl, hpd.1⟩
    have hl1 : d.prevChars.length = 6 := by simpa [detectDoctype] using hlen
    have hcu : detectDoctype[6]? = some (toUpper c) := by rcases hc with rfl | rfl <;> decide
    unfold astep
    simp only [hl, hl1, hov, hcu, if_true, show ¬ 6 + 1 < detectDoctype.length by decide, if_false, Bool.false_eq_true,
      show ¬ detectDoctype = detectComment by decide, show ¬ detectDoctype = detectCdata by decide]

theorem Abs.fwd_comment {d d' : Doc} {a : AState} {c : Char} (hd : Ctl d) (h : Abs d a) (hs : Step d c d')
    (hh : d.handle = .commentOrCdata) : ∃ a', astep d.opts a c = some a' ∧ Abs d' a' := by
  obtain ⟨cd, pc, hl⟩ : ∃ cd pc, a.mode = .comment cd pc := by have := h.mode_of; rw [hh] at this; exact this
  have hm := h.mode
  rw [hl] at hm
  obtain ⟨_, h1, h2, h3⟩ := hm
  subst h1
  have hs0 := hd.hs
  unfold HandleOk at hs0
  simp only [hh] at hs0
  have hmk : d.markChar = if cd then ']' else '-' := by
    rcases hs0.2 with k | k <;> rw [k.2.2] at h2 <;> rw [k.2.1] <;> cases cd <;> first | rfl | cases h2
  cases hs <;> first | (exfalso; simp_all only [reduceCtorEq, Handler.inTag, Bool.false_eq_true]; done) | skip
  case commentMore _ hc =>
    refine ⟨{ a with mode := .comment cd (d.prevChars ++ [c]) }, ?_, h.sp, h.mark, hh, rfl, h2, h3.frame rfl rfl⟩
    unfold astep
    simp only [hl]
    have : (if c = '>' then commentBody (if cd then ']' else '-') d.prevChars else none) = none := by
      split
      · rename_i hcc
        cases hb : commentBody (if cd then ']' else '-') d.prevChars with
        | none => rfl
        | some b =>
          rw [commentBody_iff, ← hmk] at hb
          exact absurd ⟨hcc, b, hb⟩ hc
      · rfl
    rw [this]
  case commentClose _ hc b hb hp =>
    subst hc
    have hbody : commentBody (if cd then ']' else '-') d.prevChars = some b := by
      rw [commentBody_iff, ← hmk]; exact ⟨hb, hp⟩
    have hov := h3.1
    refine ⟨{ a.push (if cd then .cdata b else .comment b) with mode := .wait .other, mark := '\x00' }, ?_, h.sp, rfl, rfl, ?_⟩
    · unfold astep
      simp only [hl, if_true, hbody]
    · have hf := h3.2.2
      obtain ⟨x, cs, e1, e2, _⟩ := Pending.finish (p := if cd then .cdata b else .comment b) (hi := d.heap.size)
        (h' := d.heap.upd d.current fun n => { n with content := some b, endAt := d.position + 1 })
        h3 (fun k hk => upd_core_ne _ _ _ _ (Nat.ne_of_lt hk)) (by
          unfold Doc.cur at h2
          cases cd
          · simp only [Bool.false_eq_true, if_false, Rep, LeafRep] at h2 ⊢
            rw [Heap.upd_cell_self]
            exact ⟨⟨hd.curLt, by simp only [h2]; rfl, hf.1, hf.2.1⟩, rfl⟩
          · simp only [if_true, Rep, LeafRep] at h2 ⊢
            rw [Heap.upd_cell_self]
            exact ⟨⟨hd.curLt, by simp only [h2]; rfl, hf.1, hf.2.1⟩, rfl⟩)
      refine ⟨x, cs, Or.inl ⟨hov, e1, by simp⟩, ?_, ?_, ?_⟩
      · exact e2
      · simp only [Heap.upd_cell_self]
        unfold Doc.cur at h2
        rw [h2]; cases cd <;> simp [NodeType.core]
      · simp only [Heap.upd_cell_self]
        unfold Doc.cur at h2
        rw [h2]; cases cd <;> simp

theorem Pending.put {d : Doc} {st : List NodeId} {fs : List Frame} {over : Bool} {t : TagSt} {id : Option Str}
    (h : Pending d st fs over) : Pending (d.putTag t id) st fs over := by
  obtain ⟨h1, h2, h3⟩ := h
  refine ⟨h1, ?_, ?_⟩
  · exact h2.frame fun k hk => upd_core_ne d.heap d.current (fun c => { c with tmeta := some t.m }) _ (Nat.ne_of_lt hk)
  · unfold Fresh Doc.putTag at *
    simp only [Heap.upd_cell_self]
    exact h3

theorem Abs.fwd_doctypeName {d d' : Doc} {a : AState} {c : Char} (hd : Ctl d) (h : Abs d a) (hs : Step d c d')
    (hh : d.handle = .doctypeName) : ∃ a', astep d.opts a c = some a' ∧ Abs d' a' := by
  obtain ⟨pc, hl⟩ : ∃ pc, a.mode = .doctypeName pc := by have := h.mode_of; rw [hh] at this; exact this
  have hm := h.mode
  rw [hl] at hm
  obtain ⟨_, h1, h2⟩ := hm
  subst h1
  have hs0 := hd.hs
  unfold HandleOk at hs0
  simp only [hh] at hs0
  cases hs <;> first | (exfalso; simp_all only [reduceCtorEq, Handler.inTag, Bool.false_eq_true]; done) | skip
  case doctypeName _ hc =>
    refine ⟨{ a with mode := .inTag true ⟨.tagWait, { name := d.prevChars, isVoid := isVoidTag (lowerAll d.prevChars) }, [], a.mark⟩ }, ?_,
      h.sp, h.mark, rfl, ?_, ⟨{ name := d.prevChars, isVoid := isVoidTag (lowerAll d.prevChars) }, ?_, ?_, rfl⟩, ?_⟩
    · unfold astep; simp only [hl, hc, if_true]
    · simp only [true_iff]; exact hs0.1
    · exact Doc.cur_putTag _ _ _
    · unfold Doc.tagSt; rw [h.mark]; rfl
    · simp only [if_true]; exact h2.put

/-! ## Start tags -/

/-- The `>` of a start tag. -/
theorem Abs.open {d : Doc} {a : AState} {m : TagMeta} (hcur : d.current < d.heap.size) (hty : d.cur.nodeType = .tag)
    (hm : d.cur.tmeta = some m) (hsc : m.selfClosed = false) (haf : m.autoFix = false)
    (hch : d.chain.head? = some d.current) (hp : Pending d d.chain.tail (a.top :: a.rest) a.over)
    (hsp : a.sp = d.inSpecial) (hmk : a.mark = d.markChar) : Abs (d.closeTag m) (a.openTag m d.prevChars) := by
  unfold Doc.cur at hty hm
  obtain ⟨hov, hz, hf1, hf2, hf3⟩ := hp
  have hkids : d.heap.kids d.current = [] := by unfold Heap.kids; rw [hf2]; rfl
  unfold Doc.closeTag AState.openTag
  by_cases hv : m.isVoid = true
  · simp only [hv, if_true]
    obtain ⟨x, cs, e1, e2, e3⟩ := Pending.finish (p := .elem m.name m.attrs false none [] none) (hi := d.heap.size)
      (h' := d.heap) ⟨hov, hz, hf1, hf2, hf3⟩ (fun k hk => SameCore.refl _) (by
        simp only [Rep, EndRep, Reps]
        exact ⟨hcur, hty, hf3, ⟨m, hm, rfl, rfl, hsc⟩, hf1, hkids, hcur⟩)
    exact ⟨hsp, hmk, rfl, x, cs, Or.inl ⟨hov, e1, by simp⟩, e2, hty, ⟨m, hm, hsc, haf⟩, e3, hkids⟩
  · simp only [hv, Bool.false_eq_true, if_false]
    by_cases hc : isContentTag (lowerAll m.name) none = true
    · simp only [hc, if_true]
      refine ⟨hsp, hmk, ?_, rfl, hm, haf, hov, hz, hf1, hf2, hf3⟩
      have := rawCode_cases m.name
      unfold rawCode at this
      rcases this with h | h | h <;> simp only [Doc.setCodeIn, h]
    · simp only [hc, Bool.false_eq_true, if_false]
      have hst : d.chain = d.current :: d.chain.tail := by
        cases hd : d.chain with
        | nil => rw [hd] at hch; cases hch
        | cons y ys => rw [hd] at hch; simp only [List.head?_cons, Option.some.injEq] at hch; subst hch; rfl
      refine ⟨?_, hmk, rfl, d.current, d.chain.tail, Or.inl ⟨hov, hst, by simp⟩, ?_, ?_, fun _ _ _ _ => rfl⟩
      · show _ = (Doc.setCodeIn _ _).inSpecial
        simp only [Doc.setCodeIn, hsp]
        cases d.inSpecial <;> rfl
      · have := hz.enter (f := { name := m.name, attrs := m.attrs }) ⟨hty, hf3, hf1, m, hm, rfl, rfl, hsc⟩ hkids rfl
        exact this.mono hcur
      · show ((d.heap.cell d.current).nodeType).core ≠ _
        rw [hty]; simp [NodeType.core]

theorem Abs.fwd_tagName {d d' : Doc} {a : AState} {c : Char} (hd : Ctl d) (h : Abs d a) (hs : Step d c d')
    (hh : d.handle = .tagName) : ∃ a', astep d.opts a c = some a' ∧ Abs d' a' := by
  obtain ⟨pc, hl⟩ : ∃ pc, a.mode = .tagName pc := by have := h.mode_of; rw [hh] at this; exact this
  have hm := h.mode
  rw [hl] at hm
  obtain ⟨_, h1, h2⟩ := hm
  subst h1
  have hs0 := hd.hs
  unfold HandleOk at hs0
  simp only [hh] at hs0
  cases hs <;> first | (exfalso; simp_all only [reduceCtorEq, Handler.inTag, Bool.false_eq_true]; done) | skip
  case nameMore _ hc =>
    refine ⟨{ a with mode := .tagName (d.prevChars ++ [c]) }, ?_, h.sp, h.mark, hh, rfl, h2.frame rfl rfl⟩
    unfold astep
    simp only [hl, hc.1, hc.2.1, hc.2.2, if_false, Bool.false_eq_true]
  case nameEnd _ hc =>
    refine ⟨{ a with mode := .inTag false ⟨if c = '/' then .tagSelfClosing else .tagWait, { name := d.prevChars, isVoid := isVoidTag (lowerAll d.prevChars) }, [], a.mark⟩ }, ?_,
      h.sp, h.mark, ?_, ?_, ⟨{ name := d.prevChars, isVoid := isVoidTag (lowerAll d.prevChars) }, ?_, ?_, rfl⟩, ?_⟩
    · unfold astep
      have hgt : c ≠ '>' := by
        rcases hc with hc | hc
        · rintro rfl; exact absurd hc (by decide)
        · rw [hc]; decide
      simp only [hl, hgt, if_false]
      by_cases hsl : c = '/'
      · simp only [hsl, if_true]
      · have : isWs c = true := hc.resolve_right hsl
        simp only [hsl, if_false, this, if_true]
    · show (if c = '/' then Handler.tagSelfClosing else Handler.tagWait).inTag = true
      split <;> rfl
    · simp only [Bool.false_eq_true, false_iff]
      show d.codeIn ≠ _
      rw [hs0.1]; simp
    · exact Doc.cur_putTag _ _ _
    · unfold Doc.tagSt; rw [h.mark]; rfl
    · simp only [Bool.false_eq_true, if_false]; exact h2.put
  case nameClose _ hc m hmm =>
    subst hc
    refine ⟨a.openTag m [], ?_, ?_⟩
    · unfold astep
      simp only [hl, if_true, hmm]
    · refine Abs.open (d := d.putTag { handle := d.handle, m := m, pc := [], mark := d.markChar } none)
        hd.curLt ?_ (Doc.cur_putTag _ _ _) (by rw [hmm]) (by rw [hmm]) hs0.2.2.2.2.1 h2.put h.sp h.mark
      rw [putTag_cur]; exact hs0.2.2.1

theorem AState.openTag_mark (a : AState) (m : TagMeta) (pc : Str) (k : Char) :
    ({ a.openTag m pc with mark := k } : AState) = ({ a with mark := k } : AState).openTag m pc := by
  unfold AState.openTag
  split
  · rfl
  · split <;> rfl

theorem Abs.fwd_inTag {d d' : Doc} {a : AState} {c : Char} (hd : Ctl d) (h : Abs d a) (hs : Step d c d')
    (hh : d.handle.inTag = true) : ∃ a', astep d.opts a c = some a' ∧ Abs d' a' := by
  obtain ⟨isDoc, t, hl⟩ := h.inTag_of hh
  have hm := h.mode
  rw [hl] at hm
  obtain ⟨_, h1, ⟨m0, h2, h3, h4⟩, h5⟩ := hm
  obtain ⟨hok, hsc, hv, hor⟩ := hd.inTag hh h2
  have hdoc : decide (d.codeIn = .htmlDoctype) = isDoc := by
    cases isDoc
    · simp only [Bool.false_eq_true, false_iff] at h1; simp [h1]
    · simp only [true_iff] at h1; simp [h1]
  cases hs <;> first | (exfalso; simp_all only [reduceCtorEq, Handler.inTag, Bool.false_eq_true]; done) | skip
  case tagMore _ m hmm t' id ht =>
    rw [h2] at hmm; cases hmm
    obtain ⟨k1, k2, k3⟩ := tagChar_cont hok ht
    rw [hdoc, h3] at ht
    refine ⟨{ a with mode := .inTag isDoc t', mark := t'.mark }, ?_, h.sp, rfl, k3, h1, ⟨t'.m, Doc.cur_putTag _ _ _, rfl, k2.autoFix.trans h4⟩, ?_⟩
    · unfold astep; simp only [hl, ht]
    · cases isDoc
      · exact h5.put
      · exact h5.put
  case tagClose _ m hmm m' pc mark id ht =>
    rw [h2] at hmm; cases hmm
    obtain ⟨k1, k2, k3⟩ := tagChar_close hok ht
    rw [hdoc, h3] at ht
    cases isDoc with
    | false =>
      simp only [Bool.false_eq_true, if_false, false_iff] at h1 h5
      rcases hor with ho | ho
      · refine ⟨{ a.openTag m' pc with mark := mark }, ?_, ?_⟩
        · unfold astep; simp only [hl, ht, Bool.false_eq_true, if_false]
        · rw [AState.openTag_mark]
          refine Abs.open (a := { a with mark := mark }) (d := d.putTag { handle := d.handle, m := m', pc := pc, mark := mark } id)
            hd.curLt ?_ (Doc.cur_putTag _ _ _) (k1.selfClosed.trans hsc) (k1.autoFix.trans h4) ho.2.2.1 h5.put h.sp rfl
          rw [putTag_cur]; exact ho.2.1
      · exact absurd ho.1 h1
    | true =>
      simp only [if_true, true_iff] at h1 h5
      rcases hor with ho | ho
      · rw [ho.1] at h1; cases h1
      · have hpl := doctype_plain (s := m'.name) (by rw [k1.name]; exact ho.2.2)
        have hvoid : m'.isVoid = false := by
          have : m'.isVoid = isVoidTag (lowerAll m'.name) := k1.isVoid.trans (by rw [k1.name]; exact hv)
          rw [this]; exact hpl.1
        refine ⟨{ a.push (.doctype m'.name m'.attrs false) with mode := .wait .other, mark := mark }, ?_, ?_⟩
        · unfold astep; simp only [hl, ht, if_true]
        · have hct : (d.putTag { handle := d.handle, m := m', pc := pc, mark := mark } id).closeTag m' =
              (d.putTag { handle := d.handle, m := m', pc := pc, mark := mark } id).setCodeIn .unkown := by
            unfold Doc.closeTag
            simp only [hvoid, hpl.2.1, hpl.2.2, Bool.false_eq_true, if_false, Option.map_none]
            congr 1
            cases hsp : d.inSpecial <;> simp [Doc.putTag, hsp]
          rw [hct]
          have hcell : (d.putTag { handle := d.handle, m := m', pc := pc, mark := mark } id).heap.cell d.current = { d.cur with tmeta := some m' } := by
            unfold Doc.putTag Doc.cur; simp only [Heap.upd_cell_self]
          have hf := h5.2.2
          obtain ⟨x, cs, e1, e2, e3⟩ := Pending.finish (p := .doctype m'.name m'.attrs false) (hi := d.heap.size)
            (h' := (d.putTag { handle := d.handle, m := m', pc := pc, mark := mark } id).heap)
            h5 (fun k hk => upd_core_ne d.heap d.current (fun c => { c with tmeta := some m' }) _ (Nat.ne_of_lt hk)) (by
              simp only [Rep, LeafRep]
              rw [hcell]
              exact ⟨⟨hd.curLt, by simp only [ho.2.1]; rfl, hf.1, hf.2.1⟩, m', rfl, rfl, rfl, k1.selfClosed.trans hsc⟩)
          refine ⟨h.sp, rfl, rfl, x, cs, Or.inl ⟨h5.1, e1, by simp⟩, e2, ?_⟩
          show LastOk (d.putTag _ id).heap x d.current .other
          unfold LastOk
          rw [hcell]
          simp [ho.2.1, NodeType.core]
  case tagSelf hh' hc m hmm ha =>
    rw [h2] at hmm; cases hmm
    subst hc
    have htm : t.m = m0 := by rw [← h3]; rfl
    have hth : t.handle = .tagSelfClosing := by rw [← h3]; exact hh'
    have ht : tagChar isDoc d.opts.allowAttrKeyStartsWithEqualSign t '>' = .selfClose := by
      unfold tagChar; simp only [hth, if_true]
    have hf := h5.2.2
    have hcell : (d.heap.upd d.current fun n => { n with tmeta := some { m0 with selfClosed := true } }).cell d.current = { d.cur with tmeta := some { m0 with selfClosed := true } } := by
      unfold Doc.cur; simp only [Heap.upd_cell_self]
    cases isDoc with
    | false =>
      simp only [Bool.false_eq_true, if_false, false_iff] at h1 h5
      rcases hor with ho | ho
      · refine ⟨{ a.push (.elem t.m.name t.m.attrs true none [] none) with mode := .wait .other }, ?_, ?_⟩
        · unfold astep
          simp only [hl, ht, Bool.false_eq_true, if_false]
          rw [if_pos]
          rw [htm, h.sp]
          rcases ha with k | k | k | k
          · exact Or.inl k
          · exact absurd k h1
          · exact Or.inr (Or.inl k)
          · exact Or.inr (Or.inr k)
        · obtain ⟨x, cs, e1, e2, e3⟩ := Pending.finish (p := .elem t.m.name t.m.attrs true none [] none) (hi := d.heap.size)
            (h' := d.heap.upd d.current fun n => { n with tmeta := some { m0 with selfClosed := true } })
            h5 (fun k hk => upd_core_ne _ _ _ _ (Nat.ne_of_lt hk)) (by
              have hk : (d.heap.upd d.current fun n => { n with tmeta := some { m0 with selfClosed := true } }).kids d.current = [] := by
                unfold Heap.kids; rw [hcell]; show (d.heap.cell d.current).childs.getD [] = []; rw [hf.2.1]; rfl
              simp only [Rep, EndRep, Reps]
              rw [hk, hcell]
              exact ⟨hd.curLt, ho.2.1, hf.2.2, ⟨_, rfl, by rw [htm], by rw [htm], rfl⟩, hf.1, rfl, hd.curLt⟩)
          refine ⟨h.sp, h.mark, rfl, x, cs, Or.inl ⟨h5.1, e1, by simp⟩, e2, ?_⟩
          unfold LastOk
          simp only
          rw [hcell]
          simp [ho.2.1, NodeType.core]
      · exact absurd ho.1 h1
    | true =>
      simp only [if_true, true_iff] at h1 h5
      rcases hor with ho | ho
      · rw [ho.1] at h1; cases h1
      · refine ⟨{ (a.push (.doctype t.m.name t.m.attrs true)).pop none with mode := .wait .other }, ?_, ?_⟩
        · unfold astep; simp only [hl, ht, if_true]
        · obtain ⟨x, cs, e1, e2, e3⟩ := Pending.finish (p := .doctype t.m.name t.m.attrs true) (hi := d.heap.size)
            (h' := d.heap.upd d.current fun n => { n with tmeta := some { m0 with selfClosed := true } })
            h5 (fun k hk => upd_core_ne _ _ _ _ (Nat.ne_of_lt hk)) (by
              simp only [Rep, LeafRep]
              rw [hcell]
              exact ⟨⟨hd.curLt, by simp only [ho.2.1]; rfl, hf.1, hf.2.1⟩, _, rfl, by rw [htm], by rw [htm], rfl⟩)
          have hlast : ∀ y, LastOk (d.heap.upd d.current fun n => { n with tmeta := some { m0 with selfClosed := true } }) y d.current .other := by
            intro y
            unfold LastOk
            rw [hcell]
            simp [ho.2.1, NodeType.core]
          unfold AState.pop
          cases hr : a.rest with
          | nil =>
            rw [hr] at e2
            have hcs : x = 0 ∧ cs = [] := by
              rcases e2.cons.2 with k | k
              · exact ⟨k.1, k.2.1⟩
              · exact absurd rfl k.2.2.1
            obtain ⟨rfl, rfl⟩ := hcs
            simp only [AState.push, hr]
            refine ⟨h.sp, h.mark, rfl, 0, [], Or.inr ⟨rfl, ?_, rfl⟩, e2, hlast _⟩
            show d.chain.tail = []
            rw [e1]; rfl
          | cons g gs =>
            rw [hr] at e2
            have hcs : cs ≠ [] := by
              rcases e2.cons.2 with k | k
              · cases k.2.2.1
              · exact k.2.1
            cases cs with
            | nil => exact absurd rfl hcs
            | cons y ys =>
              simp only [AState.push, hr]
              refine ⟨h.sp, h.mark, rfl, y, ys, Or.inl ⟨h5.1, ?_, by simp⟩, ?_, hlast _⟩
              · show d.chain.tail = _
                rw [e1]; rfl
              · have hendt : ((d.heap.upd d.current fun n => { n with tmeta := some { m0 with selfClosed := true } }).cell x).endTag = none := by
                  rcases e2.cons.2 with k | k
                  · cases k.2.2.1
                  · exact k.1.2.2.1
                refine Zip.leave (e := none) e2 (fun k _ _ => SameCore.refl _) ⟨none, ?_, rfl⟩ (Nat.le_refl _)
                exact ⟨rfl, rfl, rfl, hendt, rfl⟩

/-! ## End tags and raw texts -/

theorem Abs.fwd_tagEnd {d d' : Doc} {a : AState} {c : Char} (hd : Ctl d) (h : Abs d a) (hs : Step d c d')
    (hh : d.handle = .tagEnd) : ∃ a', astep d.opts a c = some a' ∧ Abs d' a' := by
  obtain ⟨pc, ret, hl⟩ : ∃ pc ret, a.mode = .tagEnd pc ret := by have := h.mode_of; rw [hh] at this; exact this
  have hm := h.mode
  rw [hl] at hm
  obtain ⟨_, h1, x, cs, h2, h3, h4⟩ := hm
  subst h1
  have hs0 := hd.hs
  unfold HandleOk at hs0
  simp only [hh] at hs0
  have hcur := hd.curLt
  cases hs <;> first | (exfalso; simp_all only [reduceCtorEq, Handler.inTag, Bool.false_eq_true]; done) | skip
  case endMore _ hc =>
    refine ⟨{ a with mode := .tagEnd (d.prevChars ++ [c]) ret }, ?_, h.sp, h.mark, hh, rfl, x, cs, h2.congr rfl, h3, h4⟩
    unfold astep
    simp only [hl, hc, if_false]
  case endMatch _ hc t m hmm =>
    subst hc
    obtain ⟨k1, k2, k3, k4, k5⟩ := hmm
    obtain ⟨e1, e2, cs', e3⟩ := h2.cons k2
    simp only [List.cons.injEq] at e3
    obtain ⟨rfl, rfl⟩ := e3
    rw [e2] at k1
    have hcs : cs ≠ [] := by rintro rfl; simp at k1
    rcases h3.cons.2 with b | ⟨b, _, hrest, _⟩
    · exact absurd b.2.1 hcs
    · have b' := b
      obtain ⟨b1, b2, b3, m', b4, b5, b6, b7⟩ := b
      rw [k3] at b4; cases b4
      cases hr : a.rest with
      | nil => exact absurd hr hrest
      | cons g gs =>
        cases cs with
        | nil => exact absurd rfl hcs
        | cons y ys =>
          rw [hr] at h3
          have hxc : x < d.current := h3.cons.1.lt
          have hcell := endHeap_cell hd x d.prevChars k2 hs0.2.2.1
          refine ⟨{ a.pop (some d.prevChars) with
            sp := match a.sp with
              | some (s, n) => if n = charsTrimEnd d.prevChars then none else some (s, n)
              | none => none
            mode := .wait .other }, ?_, ?_⟩
          · unfold astep
            have hne : a.rest ≠ [] := hrest
            rw [b5] at k4 k5
            simp only [hl, if_true]
            rw [if_pos ⟨hne, k4⟩, if_neg (fun q => by have := q.2; rw [k5 q.1] at this; cases this)]
            cases a.sp <;> rfl
          · simp only [AState.pop, hr]
            refine ⟨?_, h.mark, rfl, y, ys, Or.inl ⟨e1, ?_, by simp⟩, ?_, ?_⟩
            · show (match a.sp with
                | some (s, n) => if n = charsTrimEnd d.prevChars then none else some (s, n)
                | none => none) = _
              rw [h.sp]
              cases d.inSpecial <;> rfl
            · show d.chain.tail = _
              rw [e2]; rfl
            · show Zip (d.endHeap x d.prevChars) _ _ [] (d.endHeap x d.prevChars).size
              rw [endHeap_size]
              refine Zip.leave (e := some d.prevChars) h3 ?_ ⟨some d.current, ?_, d.current, rfl, hxc, hcur, ?_⟩
                (Nat.le_of_lt hcur)
              · intro k k6 k7
                rw [hcell, if_neg (by omega), if_neg k7]
                split
                · rename_i hmt
                  refine ⟨?_, rfl, rfl, rfl, rfl⟩
                  rw [(markTarget_text hd hmt).2]; rfl
                · exact SameCore.refl _
              · rw [hcell, if_neg (by omega), if_pos rfl]
                exact SameCore.refl _
              · rw [hcell, if_pos rfl]
                exact ⟨hs0.2.2.1, rfl⟩
            · show LastOk (d.endHeap x d.prevChars) y d.current .other
              have hty : (d.heap.cell d.current).nodeType = .tagEnd := hs0.2.2.1
              unfold LastOk
              rw [hcell, if_pos rfl]
              simp [hty, NodeType.core]
  case endStray _ hc hf hno =>
    subst hc
    refine ⟨{ a with mode := .wait ret }, ?_, h.sp, h.mark, rfl, x, cs, h2.congr rfl, ?_, h4⟩
    · unfold astep
      simp only [hl, if_true]
      rw [if_neg, if_pos hf]
      rintro ⟨q1, q2⟩
      rcases h3.cons.2 with b | ⟨b, hcs, hrest, _⟩
      · exact q1 b.2.2.1
      · obtain ⟨b1, b2, b3, m', b4, b5, b6, b7⟩ := b
        rcases h2 with ⟨_, c2, _⟩ | ⟨_, _, c3⟩
        · refine hno x m' ⟨?_, by rw [c2]; rfl, b4, by rw [b5]; exact q2⟩
          rw [c2]
          cases cs with
          | nil => exact absurd rfl hcs
          | cons y ys => simp
        · simp only [List.cons.injEq] at c3; exact hcs c3.2
    · exact h3.mono (Nat.le_of_lt hcur)

theorem Abs.fwd_raw {d d' : Doc} {a : AState} {c : Char} (hd : Ctl d) (h : Abs d a) (hs : Step d c d')
    (hh : d.handle = .contentTag) : ∃ a', astep d.opts a c = some a' ∧ Abs d' a' := by
  obtain ⟨m, pc, hl⟩ : ∃ m pc, a.mode = .raw m pc := by have := h.mode_of; rw [hh] at this; exact this
  have hm := h.mode
  rw [hl] at hm
  obtain ⟨_, h1, h2, h3, h4⟩ := hm
  subst h1
  have hs0 := hd.hs
  unfold HandleOk at hs0
  simp only [hh] at hs0
  obtain ⟨hty, hch, m', g1, g2, g3, g4, g5, g6, g7⟩ := hs0
  rw [h2] at g1; cases g1
  have hcur := hd.curLt
  cases hs <;> first | (exfalso; simp_all only [reduceCtorEq, Handler.inTag, Bool.false_eq_true]; done) | skip
  case rawMore _ hc =>
    refine ⟨{ a with mode := .raw m (d.prevChars ++ [c]) }, ?_, h.sp, h.mark, hh, rfl, h2, h3, h4.frame rfl rfl⟩
    unfold astep
    simp only [hl]
    have : (if c = '>' then rawBody d.opts.caseSensitiveTagname m.name d.prevChars else none) = none := by
      split
      · rename_i hcc
        rcases hc with hc | ⟨e, he1, he2⟩
        · exact absurd hcc hc
        · rw [g2] at he1; cases he1; exact he2
      · rfl
    rw [this]
  case rawClose _ hc e he n hn =>
    subst hc
    rw [g2] at he; cases he
    have hn' : rawBody d.opts.caseSensitiveTagname m.name d.prevChars = some n := hn
    have hf := h4.2.2
    have hcell := rawHeap_cell hd n
    have hcc : (d.rawHeap n).cell d.current = { d.heap.cell d.current with endTag := some d.heap.size, content := some (d.prevChars.take n) } := by
      rw [hcell, if_neg (by omega), if_pos rfl]
    have hk : (d.rawHeap n).kids d.current = [] := by
      unfold Heap.kids; rw [hcc]; show (d.heap.cell d.current).childs.getD [] = []; rw [hf.2.1]; rfl
    refine ⟨{ a.push (.elem m.name m.attrs false (some (d.prevChars.take n)) [] (some (d.prevChars.drop (n + 2)))) with mode := .wait .hole }, ?_, ?_⟩
    · unfold astep
      simp only [hl, if_true, hn']
    · obtain ⟨x, cs, e1, e2, e3⟩ := Pending.finish (p := .elem m.name m.attrs false (some (d.prevChars.take n)) [] (some (d.prevChars.drop (n + 2))))
        (hi := d.heap.size + 1) (h' := d.rawHeap n)
        h4 (fun k hk => by rw [hcell, if_neg (by omega), if_neg (by omega)]; exact SameCore.refl _) (by
          simp only [Rep, EndRep, Reps]
          rw [hk, hcc]
          refine ⟨by omega, hty, rfl, ⟨m, h2, rfl, rfl, g6⟩, ⟨d.heap.size, rfl, hcur, Nat.lt_succ_self _, ?_⟩, rfl, by omega⟩
          rw [hcell, if_pos rfl]
          exact ⟨rfl, rfl⟩)
      refine ⟨h.sp, h.mark, rfl, x, cs, Or.inl ⟨h4.1, e1, by simp⟩, e2, ?_⟩
      show LastOk (d.rawHeap n) x d.current .hole
      refine ⟨?_, ⟨m, ?_, g6, h3⟩, e3, hk⟩
      · rw [hcc]; exact hty
      · rw [hcc]; exact h2

/-- Every transition of the parser is a transition of the machine. -/
theorem Abs.fwd {d d' : Doc} {a : AState} {c : Char} (hd : Ctl d) (h : Abs d a) (hs : Step d c d') :
    ∃ a', astep d.opts a c = some a' ∧ Abs d' a' := by
  cases hh : d.handle with
  | noop => have := hd.hs; unfold HandleOk at this; rw [hh] at this; exact this.elim
  | wait => exact h.fwd_wait hd hs hh
  | text => exact h.fwd_text hd hs hh
  | unkownTag => exact h.fwd_lt hd hs hh
  | exclamationBegin => exact h.fwd_bang hd hs hh
  | commentOrCdata => exact h.fwd_comment hd hs hh
  | doctypeName => exact h.fwd_doctypeName hd hs hh
  | tagName => exact h.fwd_tagName hd hs hh
  | tagWait => exact h.fwd_inTag hd hs (by rw [hh]; rfl)
  | tagSelfClosing => exact h.fwd_inTag hd hs (by rw [hh]; rfl)
  | attrKey => exact h.fwd_inTag hd hs (by rw [hh]; rfl)
  | attrValue => exact h.fwd_inTag hd hs (by rw [hh]; rfl)
  | tagEnd => exact h.fwd_tagEnd hd hs hh
  | contentTag => exact h.fwd_raw hd hs hh

/-! ## The other direction -/

theorem Abs.over_of {d : Doc} {a : AState} (h : Abs d a) (hc : d.chain = [])
    (hh : d.handle = .wait ∨ d.handle = .unkownTag ∨ d.handle = .exclamationBegin) : a.over = true := by
  have hm := h.mode
  have h0 := h.mode_of
  rcases hh with hh | hh | hh <;> rw [hh] at h0
  · obtain ⟨l, hl⟩ := h0
    rw [hl] at hm
    obtain ⟨_, x, cs, h1, _⟩ := hm
    exact h1.over_of.2 hc
  · obtain ⟨l, hl⟩ := h0
    rw [hl] at hm
    obtain ⟨_, x, cs, h1, _⟩ := hm
    exact h1.over_of.2 hc
  · obtain ⟨det, pc, hl⟩ := h0
    rw [hl] at hm
    obtain ⟨_, _, _, st, h1, _⟩ := hm
    exact h1.over_of.2 hc

/-- Where the machine goes on, the parser reports no error. -/
theorem Abs.no_err {d : Doc} {a a' : AState} {c : Char} (hd : Ctl d) (h : Abs d a) (hs : astep d.opts a c = some a') :
    ¬ ErrOk d c := by
  intro he
  have hm := h.mode
  have h0 := h.mode_of
  cases he with
  | lt hh hf hc =>
    rw [hh] at h0
    obtain ⟨l, hl⟩ := h0
    unfold astep at hs
    simp [hl, hf, hc] at hs
  | exclFirst hh hdet h1 h2 h3 h4 =>
    rw [hh] at h0
    obtain ⟨det, pc, hl⟩ := h0
    rw [hl] at hm
    obtain ⟨_, k1, _, st, k3, k4⟩ := hm
    rw [hdet] at k1; subst k1
    unfold astep at hs
    simp only [hl, h1, h2, h3, if_false, or_self] at hs
    by_cases hc : c = '['
    · simp only [hc, if_true] at hs
      rcases h4 hc with k | ⟨sp, n, t, m, e1, e2, e3, e4⟩
      · rw [h.sp, k] at hs; cases hs
      · rw [h.sp, e1] at hs
        simp only at hs
        obtain ⟨_, _, cs, rfl⟩ := k3.cons e2
        rw [if_pos] at hs
        · cases hs
        · right; right
          rcases k4.cons.2 with ⟨rfl, _⟩ | ⟨⟨_, _, _, m', b1, b2, _⟩, _⟩
          · rw [hd.rootMeta] at e3; cases e3
          · rw [e3] at b1; cases b1; rw [e4, b2]
    · simp only [hc, if_false] at hs; cases hs
  | exclMore hh D hdet hc =>
    rw [hh] at h0
    obtain ⟨det, pc, hl⟩ := h0
    rw [hl] at hm
    obtain ⟨_, k1, k2, _⟩ := hm
    rw [hdet] at k1; subst k1; subst k2
    unfold astep at hs
    simp only [hl, hc, if_false] at hs
    cases hs
  | doctypeName hh hc =>
    rw [hh] at h0
    obtain ⟨pc, hl⟩ := h0
    unfold astep at hs
    simp [hl, hc] at hs
  | tag hh m hmm k ht =>
    obtain ⟨isDoc, t, hl⟩ := h.inTag_of hh
    rw [hl] at hm
    obtain ⟨_, h1, ⟨m0, h2, h3, h4⟩, h5⟩ := hm
    rw [hmm] at h2; cases h2
    have hdoc : decide (d.codeIn = .htmlDoctype) = isDoc := by
      cases isDoc
      · simp only [Bool.false_eq_true, false_iff] at h1; simp [h1]
      · simp only [true_iff] at h1; simp [h1]
    rw [hdoc, h3] at ht
    unfold astep at hs
    simp only [hl, ht] at hs
    cases hs
  | tagSelf hh hc m hmm ha h1' h2' h3' =>
    obtain ⟨isDoc, t, hl⟩ := h.inTag_of (by rw [hh]; rfl)
    rw [hl] at hm
    obtain ⟨_, h1, ⟨m0, h2, h3, h4⟩, h5⟩ := hm
    rw [hmm] at h2; cases h2
    have hdoc : isDoc = false := by
      cases isDoc
      · rfl
      · simp only [true_iff] at h1; exact absurd h1 h1'
    have htm : t.m = m := by rw [← h3]; rfl
    have ht : tagChar isDoc d.opts.allowAttrKeyStartsWithEqualSign t c = .selfClose := by
      unfold tagChar; rw [← h3]; simp only [Doc.tagSt, hh, hc, if_true]
    subst hdoc
    unfold astep at hs
    simp [hl, ht, ha, htm, h2', h.sp, h3'] at hs
  | endCase hh hc hf t m hlen ht hmm he hn =>
    rw [hh] at h0
    obtain ⟨pc, ret, hl⟩ := h0
    rw [hl] at hm
    obtain ⟨_, k1, x, cs, k2, k3, _⟩ := hm
    subst k1
    obtain ⟨e1, e2, cs', e3⟩ := k2.cons ht
    simp only [List.cons.injEq] at e3
    obtain ⟨rfl, rfl⟩ := e3
    rw [e2] at hlen
    unfold astep at hs
    simp only [hl, hc, if_true] at hs
    rcases k3.cons.2 with b | ⟨b, hcs, hrest, _⟩
    · rw [b.2.1] at hlen; simp at hlen
    · obtain ⟨b1, b2, b3, m', b4, b5, b6, b7⟩ := b
      rw [hmm] at b4; cases b4
      rw [b5] at he hn
      rw [if_pos ⟨hrest, he⟩, if_pos ⟨hf, hn⟩] at hs
      cases hs
  | endStray hh hc hf hno =>
    rw [hh] at h0
    obtain ⟨pc, ret, hl⟩ := h0
    rw [hl] at hm
    obtain ⟨_, k1, x, cs, k2, k3, _⟩ := hm
    subst k1
    unfold astep at hs
    simp only [hl, hc, if_true, hf, Bool.false_eq_true, if_false] at hs
    rw [if_neg] at hs
    · cases hs
    · rintro ⟨q1, q2⟩
      rcases k3.cons.2 with b | ⟨b, hcs, hrest, _⟩
      · exact q1 b.2.2.1
      · obtain ⟨b1, b2, b3, m', b4, b5, b6, b7⟩ := b
        rcases k2 with ⟨_, c2, _⟩ | ⟨_, _, c3⟩
        · refine hno x m' ⟨?_, by rw [c2]; rfl, b4, by rw [b5]; exact q2⟩
          rw [c2]
          cases cs with
          | nil => exact absurd rfl hcs
          | cons y ys => simp
        · simp only [List.cons.injEq] at c3; exact hcs c3.2

/-- Where the machine goes on, the parser does not panic. -/
theorem Abs.no_panic {d : Doc} {a a' : AState} {c : Char} (hd : Ctl d) (h : Abs d a) (hs : astep d.opts a c = some a')
    (p : Site) : ¬ PanicOk d c p := by
  intro he
  have hm := h.mode
  have h0 := h.mode_of
  rcases he with ⟨_, hc, hn⟩ | ⟨_, hc, hh, hdet, hsp, rfl⟩ | ⟨_, hc, hh, hdet, hsp, rfl⟩
  · rcases hn with ⟨hh, h1, h2⟩ | ⟨hh, h1⟩ | ⟨hh, D, hdet, h1, h2⟩
    · have hov := h.over_of hc (Or.inl hh)
      rw [hh] at h0
      obtain ⟨l, hl⟩ := h0
      unfold astep at hs
      simp only [hl, h1, if_false, hov, if_true] at hs
      split at hs
      · rename_i p _ hau
        rw [hl] at hm
        obtain ⟨_, x, cs, _, _, k3⟩ := hm
        refine h2 ⟨hau, ?_⟩
        have hcore := k3.1
        have := hd.curTy
        unfold Doc.cur at this ⊢
        revert hcore this
        cases (d.heap.cell d.current).nodeType <;> simp [NodeType.core]
      · cases hs
    · have hov := h.over_of hc (Or.inr (Or.inl hh))
      rw [hh] at h0
      obtain ⟨l, hl⟩ := h0
      unfold astep at hs
      simp [hl, h1, hov] at hs
    · have hov := h.over_of hc (Or.inr (Or.inr hh))
      rw [hh] at h0
      obtain ⟨det, pc, hl⟩ := h0
      rw [hl] at hm
      obtain ⟨_, k1, k2, _⟩ := hm
      rw [hdet] at k1; subst k1; subst k2
      unfold astep at hs
      simp only [hl, h1, if_true, hov] at hs
      rw [if_neg (by omega)] at hs
      cases hs
  · have hov := h.over_of hc (Or.inr (Or.inr hh))
    rw [hh] at h0
    obtain ⟨det, pc, hl⟩ := h0
    rw [hl] at hm
    obtain ⟨_, k1, _⟩ := hm
    rw [hdet] at k1; subst k1
    unfold astep at hs
    simp only [hl, show ¬ '[' = '-' by decide, show ¬ ('[' = 'D' ∨ '[' = 'd') by decide, if_false, if_true, hov, true_or] at hs
    split at hs <;> cases hs
  · rw [hh] at h0
    obtain ⟨det, pc, hl⟩ := h0
    rw [hl] at hm
    obtain ⟨_, k1, _, st, k3, k4⟩ := hm
    rw [hdet] at k1; subst k1
    obtain ⟨_, e2, _⟩ := k3.cons (by rw [hc]; rfl)
    rw [hc] at e2; subst e2
    have hr : a.rest = [] := by
      rcases k4.cons.2 with b | b
      · exact b.2.2.1
      · exact absurd rfl b.2.1
    unfold astep at hs
    simp only [hl, show ¬ '[' = '-' by decide, show ¬ ('[' = 'D' ∨ '[' = 'd') by decide, if_false, if_true, hr,
      List.isEmpty_nil, true_or, or_true] at hs
    split at hs <;> cases hs

/-- A run of the parser is a run of the machine. -/
theorem Abs.run {o : ParseOptions} {ctx : Str} : ∀ (cs s : Str) (d : Doc) (a : AState), Reach o s d → Abs d a →
    (∀ d', d.run ctx cs = .ok d' → ∃ a', arun o a cs = some a' ∧ Abs d' a') ∧
    (∀ a', arun o a cs = some a' → ∃ d', d.run ctx cs = .ok d' ∧ Abs d' a' ∧ Reach o (s ++ cs) d')
  | [], s, d, a, hr, h => by
    constructor
    · intro d' hd
      simp only [Doc.run, Res.ok.injEq] at hd
      subst hd
      exact ⟨a, rfl, h⟩
    · intro a' ha
      simp only [arun, Option.some.injEq] at ha
      subst ha
      exact ⟨d, rfl, h, by simpa using hr⟩
  | c :: cs, s, d, a, hr, h => by
    have hopt : d.opts = o := hr.opts
    constructor
    · intro d' hd
      simp only [Doc.run, Res.bind_eq] at hd
      cases hn : d.next c ctx with
      | ok d1 =>
        rw [hn] at hd
        simp only [Res.bind] at hd
        obtain ⟨d2, hst, he, hr'⟩ := hr.next_step hn
        obtain ⟨a1, ha1, hab⟩ := h.fwd hr.ctl hst
        obtain ⟨a', k1, k2⟩ := (Abs.run cs _ d1 a1 hr' (by rw [he]; exact hab.setPos _)).1 d' hd
        refine ⟨a', ?_, k2⟩
        simp only [arun, ← hopt, ha1]
        rw [hopt]; exact k1
      | err e => rw [hn] at hd; cases hd
      | panic p => rw [hn] at hd; cases hd
    · intro a' ha
      simp only [arun] at ha
      cases hs : astep o a c with
      | none => rw [hs] at ha; cases ha
      | some a1 =>
        rw [hs] at ha
        simp only at ha
        have hs' : astep d.opts a c = some a1 := by rw [hopt]; exact hs
        obtain ⟨d2, hst, hn⟩ := hr.next_ok ctx (h.no_err hr.ctl hs') (h.no_panic hr.ctl hs')
        obtain ⟨a2, ha2, hab⟩ := h.fwd hr.ctl hst
        rw [hs'] at ha2; cases ha2
        obtain ⟨d', k1, k2, k3⟩ := (Abs.run cs (s ++ [c]) _ a1 (hr.step hst) (hab.setPos _)).2 a' ha
        refine ⟨d', ?_, k2, by simpa using k3⟩
        simp only [Doc.run, Res.bind_eq, hn, Res.bind]
        exact k1

end Rphtml
