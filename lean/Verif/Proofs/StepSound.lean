import Verif.Proofs.Step

/-! # Every successful transition is a `Step`, and which panics remain -/

namespace Rphtml

/-- Soundness of `Step` for one handler result. -/
def Sound (d : Doc) (c : Char) (x : Res Doc) : Prop :=
  (∀ d', x = .ok d' → Step d c d') ∧ (∀ s, x = .panic s → PanicOk d c s) ∧ (∀ e, x = .err e → ErrOk d c)

theorem Sound.okk {d : Doc} {c : Char} {d' : Doc} (h : Step d c d') : Sound d c (.ok d') :=
  ⟨fun _ e => (by cases e; exact h), fun _ e => (by cases e), fun _ e => (by cases e)⟩

theorem Sound.err {d : Doc} {c : Char} {e : ParseError} (h : ErrOk d c) : Sound d c (.err e) :=
  ⟨fun _ h => (by cases h), fun _ h => (by cases h), fun _ _ => h⟩

theorem Sound.cpe {d : Doc} {c : Char} {k : ErrorKind} {i : Nat} {ctx : Str} (h : ErrOk d c) :
    Sound d c (createParseError k i ctx) := Sound.err h

theorem Sound.panic {d : Doc} {c : Char} {s : Site} (h : PanicOk d c s) : Sound d c (.panic s) :=
  ⟨fun _ h => (by cases h), fun _ e => (by cases e; exact h), fun _ h => (by cases h)⟩

theorem Sound.of_eq {d : Doc} {c : Char} {d' d'' : Doc} (h : Step d c d') (e : d'' = d') :
    Sound d c (.ok d'') := by subst e; exact Sound.okk h

theorem addNewNode_child (d : Doc) (n : Cell) (p : NodeId) (hn : n.nodeType ≠ .tagEnd)
    (hp : d.chain.head? = some p) : d.addNewNode n = .ok (d.addChild p n) := by
  unfold Doc.addNewNode Doc.addChild
  simp only [ne_eq, hn, not_false_eq_true, if_true, hp]

theorem addNewNode_empty (d : Doc) (n : Cell) (hn : n.nodeType ≠ .tagEnd)
    (hp : d.chain.head? = none) : d.addNewNode n = .panic .chainLast := by
  unfold Doc.addNewNode
  simp only [ne_eq, hn, not_false_eq_true, if_true, hp]

theorem head?_none {d : Doc} (h : d.chain.head? = none) : d.chain = [] := by
  simpa using h

theorem wait_sound {d : Doc} (c : Char) (hd : Ctl d) (hh : d.handle = .wait) :
    Sound d c (parseWait d c) := by
  have hs := hd.hs
  unfold HandleOk at hs
  simp only [hh] at hs
  unfold parseWait
  by_cases h1 : c = '<'
  · simp only [h1, if_true]
    exact Sound.okk (Step.lt hh rfl)
  · simp only [h1, if_false]
    have hnt := hd.curTy
    by_cases h2 : d.opts.autoFixUnexpectedEndtag = true ∧ d.cur.nodeType = .text
    · obtain ⟨h2, h3⟩ := h2
      have hc : d.cur.content ≠ none := by
        rcases hd.textDone d.current hd.curLt (Or.inl h3) with h | h
        · exact h
        · rw [hh] at h; cases h.1
      cases hw : d.cur.content with
      | none => exact absurd hw hc
      | some w =>
        have hcond : (d.opts.autoFixUnexpectedEndtag &&
            (decide (d.cur.nodeType = .text) || decide (d.cur.nodeType = .spacesBetweenTag))) = true := by
          simp [h2, h3]
        rw [if_pos hcond]
        refine Sound.of_eq (Step.textResume hh h1 h2 h3 w hw) ?_
        simp only [h3, if_true, Doc.pushChar, Doc.setCodeIn, Doc.modCur, hs.2.1, List.nil_append]
    · have hcond : ¬ (d.opts.autoFixUnexpectedEndtag &&
            (decide (d.cur.nodeType = .text) || decide (d.cur.nodeType = .spacesBetweenTag))) = true := by
        simp only [hnt, decide_false, Bool.or_false, Bool.and_eq_true, decide_eq_true_eq]
        exact h2
      rw [if_neg hcond]
      cases hp : d.chain.head? with
      | none =>
        rw [addNewNode_empty _ _ (by simp [Cell.new]) hp]
        exact Sound.panic (Or.inl ⟨rfl, head?_none hp, Or.inl ⟨hh, h1, h2⟩⟩)
      | some p =>
        rw [addNewNode_child _ _ p (by simp [Cell.new]) hp]
        simp only [Res.bind_eq, Res.bind]
        refine Sound.of_eq (Step.textStart hh h1 (fun a b => h2 ⟨a, b⟩) p hp) ?_
        simp only [Doc.pushChar, Doc.setCodeIn, Doc.addChild, hs.2.1, List.nil_append]

theorem parseText_lt {d : Doc} (ht : d.cur.nodeType = .text) : parseText d '<' = .ok d.endText := by
  unfold parseText
  simp only [if_true]
  congr 1
  unfold Doc.setCodeIn Doc.setTagEndInfo Doc.cleanChars Doc.modCur Doc.endText
  simp only [Heap.upd_upd]
  congr 1
  apply Heap.upd_congr
  unfold Doc.cur at ht
  simp only [ht, if_true]

theorem text_sound {d : Doc} (c : Char) (hd : Ctl d) (hh : d.handle = .text) :
    Sound d c (parseText d c) := by
  have hs := hd.hs
  unfold HandleOk at hs
  simp only [hh] at hs
  by_cases h1 : c = '<'
  · subst h1
    rw [parseText_lt hs.2.2.1]
    exact Sound.okk (Step.textEnd hh rfl)
  · unfold parseText
    simp only [h1, if_false]
    refine Sound.of_eq (Step.textMore hh h1) ?_
    cases hr : d.repeatWhitespace
    · simp only [Bool.false_eq_true, if_false, Bool.false_and, Doc.pushChar, hr]
    · simp only [if_true, Bool.true_and, Doc.pushChar]

theorem addNewNode_end (d : Doc) (n : Cell) (hn : n.nodeType = .tagEnd) :
    d.addNewNode n = .ok { d with heap := d.heap.push n, current := d.heap.size } := by
  unfold Doc.addNewNode
  simp only [ne_eq, hn, not_true_eq_false, if_false]

theorem upd_push (h : Heap) (n : Cell) (f : Cell → Cell) : (h.push n).upd h.size f = h.push (f n) := by
  unfold Heap.upd Heap.push
  congr 1
  funext j
  simp only
  split <;> simp_all

theorem unkown_sound {d : Doc} (c : Char) (ctx : Str) (hd : Ctl d) (hh : d.handle = .unkownTag) :
    Sound d c (parseUnkownTag d c ctx) := by
  have hs := hd.hs
  unfold HandleOk at hs
  simp only [hh] at hs
  unfold parseUnkownTag
  by_cases h1 : isAlpha c = true
  · have h1' : (isLower c || isUpper c) = true := h1
    simp only [h1', if_true]
    cases hp : d.chain.head? with
    | none =>
      rw [addNewNode_empty _ _ (by simp [Cell.new]) hp]
      exact Sound.panic (Or.inl ⟨rfl, head?_none hp, Or.inr (Or.inl ⟨hh, h1⟩)⟩)
    | some p =>
      rw [addNewNode_child _ _ p (by simp [Cell.new]) hp]
      simp only [Res.bind_eq, Res.bind]
      refine Sound.of_eq (Step.tagOpen hh h1 p hp) ?_
      rw [setTextSpacesBetween_eq]
      simp only [Doc.pushChar, Doc.setCodeIn, Doc.addChild, hs.2.1, List.nil_append]
  · have h1' : ¬ (isLower c || isUpper c) = true := h1
    simp only [h1', if_false, Bool.false_eq_true]
    by_cases h2 : c = '/'
    · simp only [h2, if_true]
      cases hf : d.opts.autoFixUnclosedTag
      · simp only [Bool.not_false, if_true]
        rw [addNewNode_end _ _ (by simp [Cell.new])]
        simp only [Res.bind_eq, Res.bind]
        rw [← h2]
        refine Sound.of_eq (Step.endOpen hh h2) ?_
        simp only [Doc.setCodeIn, hf, Bool.false_eq_true, if_false, Cell.new]
      · simp only [Bool.not_true, Bool.false_eq_true, if_false]
        rw [addNewNode_end _ _ (by simp [Cell.new])]
        simp only [Res.bind_eq, Res.bind]
        rw [← h2]
        refine Sound.of_eq (Step.endOpen hh h2) ?_
        simp only [Doc.setCodeIn, hf, if_true, Cell.new, Doc.modCur, upd_push]
    · simp only [h2, if_false]
      by_cases h3 : c = '!'
      · simp only [h3, if_true]
        exact Sound.okk (Step.bang hh rfl)
      · simp only [h3, if_false]
        cases hf : d.opts.autoFixUnescapedLt
        · simp only [Bool.not_false, if_true]; exact Sound.cpe (.lt hh hf ⟨by simpa using h1, h2, h3⟩)
        · simp only [Bool.not_true, Bool.false_eq_true, if_false]
          have hca : isAlpha c = false ∧ c ≠ '/' ∧ c ≠ '!' := ⟨by simpa using h1, h2, h3⟩
          have hnt := hd.curTy
          unfold fixUnescapedLt
          by_cases ht : d.cur.nodeType = .text
          · have hc : d.cur.content ≠ none := by
              rcases hd.textDone d.current hd.curLt (Or.inl ht) with h | h
              · exact h
              · rw [hh] at h; cases h.1
            cases hw : d.cur.content with
            | none => exact absurd hw hc
            | some w =>
              have hst := Step.ltExtend hh hf hca ht w hw _ rfl
              simp only [ht, reduceCtorEq, if_false]
              by_cases h4 : c = '<'
              · simp only [h4, if_true] at hst ⊢
                rw [parseText_lt]
                · exact Sound.of_eq hst (by rfl)
                · simp [Doc.cur, Doc.setCodeIn, Doc.modCur] ; exact ht
              · simp only [h4, if_false] at hst ⊢
                exact Sound.of_eq hst (by rfl)
          · have hst := Step.ltNew hh hf hca ht _ rfl _ rfl
            have hne : d.heap.size ≠ d.chain.head?.getD d.root := by
              cases hch : d.chain.head? with
              | none => have := hd.sizePos; rw [Option.getD_none, hd.root0]; omega
              | some q =>
                have := hd.chainLt q (List.mem_of_mem_head? hch)
                rw [Option.getD_some]; exact Nat.ne_of_gt this
            have hfin : ∀ d1 : Doc, d1.cur.nodeType = .text →
                Step d c (if c = '<' then d1.endText else d1) →
                Sound d c (if c = '<' then parseText d1 c else .ok d1) := by
              intro d1 hd1 hst
              by_cases h4 : c = '<'
              · subst h4
                simp only [if_true] at hst ⊢
                rw [parseText_lt hd1]
                exact Sound.okk hst
              · simp only [h4, if_false] at hst ⊢
                exact Sound.okk hst
            by_cases htag : d.cur.nodeType = .tag
            · simp only [htag]
              simp only [htag, true_and] at hst
              cases hm : d.cur.tmeta with
              | none =>
                simp only [hm, reduceCtorEq, false_implies, implies_true, if_true, Bool.not_false] at hst ⊢
                refine hfin _ ?_ hst
                simp [Doc.setCodeIn, Doc.cur, Heap.upd, Heap.push, (Nat.ne_of_gt hd.curLt), Cell.new]
              | some m =>
                simp only [hm, Option.some.injEq, forall_eq'] at hst ⊢
                rcases Bool.eq_false_or_eq_true (m.selfClosed || m.autoFix) with hcl | hcl
                rotate_left
                · simp only [hcl, Bool.not_false, if_true] at hst ⊢
                  refine hfin _ ?_ hst
                  simp [Doc.setCodeIn, Doc.cur, Heap.upd, Heap.push, (Nat.ne_of_gt hd.curLt), Cell.new]
                · simp only [hcl, Bool.not_true, Bool.false_eq_true, Bool.true_eq_false, if_false] at hst ⊢
                  cases hch : d.chain.head? <;> simp only [hch, Option.getD_some, Option.getD_none] at hst hne ⊢ <;>
                  · refine hfin _ ?_ hst
                    simp [Doc.setCodeIn, Doc.cur, Heap.upd, Heap.push, hne, Cell.new]
            · simp only [htag, false_and, if_false] at hst
              cases hch : d.chain.head? <;> simp only [hch, Option.getD_some, Option.getD_none] at hst hne ⊢ <;>
              cases hty : d.cur.nodeType <;>
              first
                | exact absurd hty ht
                | exact absurd hty htag
                | exact absurd hty hnt
                | (refine hfin _ ?_ hst
                   simp [Doc.setCodeIn, Doc.cur, Heap.upd, Heap.push, hne, Cell.new])

/-- The test of `parse_comment_or_cdata` for a terminator. -/
theorem terminator_iff (pc : Str) (k : Char) :
    (pc.length > 2 ∧ pc[pc.length - 1]? = some k ∧ pc[pc.length - 2]? = some k) ↔
      ∃ b, b ≠ [] ∧ pc = b ++ [k, k] := by
  constructor
  · rintro ⟨h1, h2, h3⟩
    refine ⟨pc.take (pc.length - 2), ?_, ?_⟩
    · intro h
      have := congrArg List.length h
      simp at this
      omega
    · apply List.ext_getElem?
      intro i
      by_cases hi : i < pc.length - 2
      · rw [List.getElem?_append_left (by simp; omega), List.getElem?_take_of_lt hi]
      · rw [List.getElem?_append_right (by simp; omega)]
        have hl : (pc.take (pc.length - 2)).length = pc.length - 2 := by simp
        rw [hl]
        by_cases h4 : i = pc.length - 2
        · subst h4; rw [h3]; simp
        · by_cases h5 : i = pc.length - 1
          · subst h5
            rw [h2]
            have : pc.length - 1 - (pc.length - 2) = 1 := by omega
            rw [this]; rfl
          · rw [List.getElem?_eq_none (by omega), List.getElem?_eq_none (by simp; omega)]
  · rintro ⟨b, hb, rfl⟩
    have hl : (b ++ [k, k]).length = b.length + 2 := by simp
    have hp : 0 < b.length := List.length_pos_iff.2 hb
    rw [hl]
    refine ⟨by omega, ?_, ?_⟩
    · rw [List.getElem?_append_right (by omega)]
      have : b.length + 2 - 1 - b.length = 1 := by omega
      rw [this]; rfl
    · rw [List.getElem?_append_right (by omega)]
      have : b.length + 2 - 2 - b.length = 0 := by omega
      rw [this]; rfl

theorem comment_sound {d : Doc} (c : Char) (hd : Ctl d) (hh : d.handle = .commentOrCdata) :
    Sound d c (parseCommentOrCdata d c) := by
  have hs := hd.hs
  unfold HandleOk at hs
  simp only [hh] at hs
  have hty : d.cur.nodeType ≠ .text := by
    rcases hs.2 with ⟨_, _, h⟩ | ⟨_, _, h⟩ <;> rw [h] <;> simp
  unfold parseCommentOrCdata
  have key := terminator_iff d.prevChars d.markChar
  by_cases h1 : c = '>' ∧ ∃ b, b ≠ [] ∧ d.prevChars = b ++ [d.markChar, d.markChar]
  · have h1' := h1
    rw [← key] at h1'
    simp only [h1', and_self, if_true]
    obtain ⟨hc, b, hb, hpc⟩ := h1
    subst hc
    refine Sound.of_eq (Step.commentClose hh rfl b hb hpc) ?_
    unfold Doc.setCodeIn Doc.setTagEndInfo Doc.cleanChars Doc.modCur
    simp only [Heap.upd_upd]
    congr 1
    apply Heap.upd_congr
    unfold Doc.cur at hty
    simp only [hty, if_false]
    have : d.prevChars.take (d.prevChars.length - 2) = b := by
      rw [hpc]; simp
    rw [this]
  · have h1' := h1
    rw [← key] at h1'
    have : ¬ (c = '>' ∧ d.prevChars.length > 2 ∧ d.prevChars[d.prevChars.length - 1]? = some d.markChar ∧
      d.prevChars[d.prevChars.length - 2]? = some d.markChar) := h1'
    rw [if_neg this]
    exact Sound.okk (Step.commentMore hh h1)

theorem doctypeName_sound {d : Doc} (c : Char) (ctx : Str) (hh : d.handle = .doctypeName) :
    Sound d c (parseDoctypeName d c ctx) := by
  unfold parseDoctypeName
  by_cases h1 : isWs c = true
  · simp only [h1, if_true]
    refine Sound.of_eq (Step.doctypeName hh h1) ?_
    unfold Doc.setTagMeta Doc.setTagCodeIn Doc.cleanChars Doc.modMeta Doc.modCur Doc.putTag
    simp only [Heap.upd_upd, Option.map_some]
  · simp only [h1, if_false, Bool.false_eq_true]; exact Sound.err (.doctypeName hh (by simpa using h1))

theorem tagName_sound {d : Doc} (c : Char) (hh : d.handle = .tagName) :
    Sound d c (parseTagName d c) := by
  unfold parseTagName
  have hset : d.setTagMeta = d.putTag ⟨d.handle, { name := d.prevChars, isVoid := isVoidTag (lowerAll d.prevChars) },
      [], d.markChar⟩ none := by
    unfold Doc.setTagMeta Doc.cleanChars Doc.modCur Doc.putTag
    simp only
  by_cases h1 : c = '>'
  · subst h1
    simp only [if_true]
    have hst := Step.nameClose hh rfl _ rfl
    have hcl := closeTag_eq d.setTagMeta { name := d.prevChars, isVoid := isVoidTag (lowerAll d.prevChars) }
      (by rw [hset]; exact d.cur_putTag _ _)
    rw [← hset] at hst
    refine (congrArg (Sound d '>') ?_).mpr (Sound.okk hst)
    exact hcl
  · simp only [h1, if_false]
    by_cases h2 : c = '/'
    · simp only [h2, if_true]
      have := Step.nameEnd (c := '/') hh (Or.inr rfl)
      refine Sound.of_eq this ?_
      rw [hset]; rfl
    · simp only [h2, if_false]
      by_cases h3 : isWs c = true
      · simp only [h3, if_true]
        have := Step.nameEnd (c := c) hh (Or.inl h3)
        simp only [h2, if_false] at this
        refine Sound.of_eq this ?_
        rw [hset, Doc.setTagCodeIn_putTag]
      · simp only [h3, if_false, Bool.false_eq_true]
        exact Sound.okk (Step.nameMore hh ⟨by simpa using h3, h2, h1⟩)

theorem TagSt.Ok2.ok {t : TagSt} (h : t.Ok2) : t.Ok := by
  unfold TagSt.Ok2 at h
  unfold TagSt.Ok
  cases ht : t.handle <;> simp only [ht] at h
  · rintro (h1 | h1 | h1)
    · cases h1
    · cases h1
    · exact h.2.2 (by rw [h1]; simp)
  · rintro (h1 | h1 | h1)
    · cases h1
    · cases h1
    · exact h.2.2 (by rw [h1]; simp)
  · exact fun _ => h.2.1
  · exact fun _ => h.2

theorem inTag_hs {d : Doc} (hd : Ctl d) (hh : d.handle.inTag = true) :
    d.detect = none ∧
      ∃ m, d.cur.tmeta = some m ∧ (d.tagSt m).Ok2 ∧ m.selfClosed = false ∧
        m.isVoid = isVoidTag (lowerAll m.name) ∧
        ((d.codeIn = .tag ∧ d.cur.nodeType = .tag ∧ d.chain.head? = some d.current ∧ TagNameOk m.name) ∨
         (d.codeIn = .htmlDoctype ∧ d.cur.nodeType = .htmlDoctype ∧ m.name.map toUpper = detectDoctype)) := by
  have hs := hd.hs
  unfold HandleOk at hs
  cases h : d.handle <;> simp only [h, Handler.inTag, Bool.false_eq_true] at hh hs <;> exact hs

theorem tag_sound {d : Doc} (c : Char) (ctx : Str) (hd : Ctl d) (hh : d.handle.inTag = true) :
    Sound d c (runHandle d c ctx) := by
  obtain ⟨hdet, m, hm, hok, _⟩ := inTag_hs hd hh
  rw [runHandle_tag d m c ctx hh hm hok.ok]
  cases ht : tagChar (d.codeIn = .htmlDoctype) d.opts.allowAttrKeyStartsWithEqualSign (d.tagSt m) c with
  | cont t id => exact Sound.okk (Step.tagMore hh m hm t id ht)
  | close m' pc mark id => exact Sound.okk (Step.tagClose hh m hm m' pc mark id ht)
  | err k => exact Sound.cpe (.tag hh m hm k ht)
  | selfClose =>
    have hsc : d.handle = .tagSelfClosing ∧ c = '>' := by
      unfold tagChar tagWaitC at ht
      have hht : (d.tagSt m).handle = d.handle := rfl
      rw [hht] at ht
      cases h : d.handle <;> simp only [h] at ht
      all_goals
        repeat' split at ht
      all_goals simp_all
    unfold Doc.tagResult
    simp only
    split
    · rename_i hcond
      simp only [Bool.and_eq_true, Bool.not_eq_true', decide_eq_true_eq, Bool.or_eq_false_iff,
        Option.isSome_eq_false_iff, Option.isNone_iff_eq_none] at hcond
      exact Sound.err (.tagSelf hsc.1 hsc.2 m hm hcond.1.1 hcond.1.2 hcond.2.1 hcond.2.2)
    · rename_i hcond
      refine Sound.of_eq (Step.tagSelf hsc.1 hsc.2 m hm ?_) ?_
      · cases h1 : d.opts.allowSelfClosing
        · by_cases h2 : d.codeIn = .htmlDoctype
          · exact Or.inr (Or.inl h2)
          · cases h3 : m.isVoid
            · cases h4 : d.inSpecial with
              | none => exact absurd (by simp [h1, h2, h3, h4]) hcond
              | some x => exact Or.inr (Or.inr (Or.inr (by simp)))
            · exact Or.inr (Or.inr (Or.inl rfl))
        · exact Or.inl rfl
      · rfl

theorem chain_meta {d : Doc} (hd : Ctl d) (hh : d.handle ≠ .tagName) (t : NodeId)
    (ht : d.chain.head? = some t) (hl : d.chain.length > 1) : ∃ m, (d.heap.cell t).tmeta = some m := by
  have hmem := List.mem_of_mem_head? ht
  have h0 : t ≠ 0 := by
    intro h0
    have hp := hd.chainSorted
    cases hc : d.chain with
    | nil => rw [hc] at ht; simp at ht
    | cons a as =>
      rw [hc] at ht hp hl
      simp at ht
      cases as with
      | nil => simp at hl
      | cons b bs =>
        have := (List.pairwise_cons.1 hp).1 b (by simp)
        subst ht
        subst h0
        exact absurd this (Nat.not_lt_zero b)
  rcases hd.metaDone t (hd.chainLt t hmem) (hd.chainTag t hmem h0) with h | h
  · exact Option.ne_none_iff_exists'.1 h
  · exact absurd h.1 hh

theorem closeMatched_eq (d : Doc) (t : NodeId) (name : Str) (hty : d.cur.nodeType = .tagEnd) (hne : d.current ≠ t)
    (hck : ∀ x, d.checkTextnode = some x → x ≠ d.current) :
    d.closeMatched t name =
      { d with
        chain := d.chain.tail
        heap := d.endHeap t name
        checkTextnode := if onlyText d.heap t then d.checkTextnode else none
        inSpecial := match d.inSpecial with
          | some (sp, n) => if n = charsTrimEnd name then none else some (sp, n)
          | none => none
        prevChars := [], codeIn := .unkown, handle := .wait } := by
  have hot : onlyText (d.heap.upd t fun n => { n with endTag := some d.current }) t = onlyText d.heap t := by
    unfold onlyText
    simp only [Heap.upd_cell_self]
    cases (d.heap.cell t).childs with
    | none => rfl
    | some l =>
      cases l with
      | nil => rfl
      | cons x xs =>
        cases xs with
        | nil =>
          simp only [Heap.upd_cell]
          by_cases hx : x = t <;> simp [hx]
        | cons _ _ => rfl
  unfold Doc.closeMatched Doc.endHeap Doc.markTarget
  simp only [hot]
  have hmain : ∀ d2 : Doc, d2.current = d.current → d2.position = d.position →
      d2.inSpecial = d.inSpecial → d2.cur.nodeType = .tagEnd →
      ((d2.setTagEndInfo.setCodeIn .unkown).leaveSpecial (charsTrimEnd name)).cleanChars.modCur (fun n =>
          { n with parent := some t, content := some name }) =
      { d2 with
        heap := d2.heap.upd d.current fun n =>
          { n with endAt := d.position + 1, parent := some t, content := some name }
        inSpecial := match d.inSpecial with
          | some (sp, n) => if n = charsTrimEnd name then none else some (sp, n)
          | none => none
        prevChars := [], codeIn := .unkown, handle := .wait } := by
    intro d2 hcur hpos hsp hty
    have hheap : (d2.heap.upd d2.current fun c =>
          { c with endAt := if c.nodeType = .text then d2.position else d2.position + 1 }).upd d2.current
          (fun n => { n with parent := some t, content := some name }) =
        d2.heap.upd d.current fun n =>
          { n with endAt := d.position + 1, parent := some t, content := some name } := by
      rw [Heap.upd_upd, hcur]
      apply Heap.upd_congr
      rw [← hcur]
      have : (d2.heap.cell d2.current).nodeType = .tagEnd := hty
      simp only [this, reduceCtorEq, if_false, hpos]
    unfold Doc.leaveSpecial
    have hsp2 : (d2.setTagEndInfo.setCodeIn .unkown).inSpecial = d.inSpecial := hsp
    rw [hsp2]
    cases hq : d.inSpecial with
    | none =>
      simp only [Doc.cleanChars, Doc.modCur, Doc.setTagEndInfo, Doc.setCodeIn, hheap, hsp, hq]
    | some q =>
      simp only [isEqualChars_none]
      by_cases hqe : q.2 = charsTrimEnd name
      · simp only [hqe, if_true, Doc.cleanChars, Doc.modCur, Doc.setTagEndInfo, Doc.setCodeIn, hheap]
      · simp only [hqe, if_false, Doc.cleanChars, Doc.modCur, Doc.setTagEndInfo,
          Doc.setCodeIn, hheap, hsp, hq]
  have hty1 : ((d.heap.upd t fun n => { n with endTag := some d.current }).cell d.current).nodeType = .tagEnd := by
    rw [Heap.upd_cell_ne _ _ hne]; exact hty
  rcases Bool.eq_false_or_eq_true (onlyText d.heap t) with ho | ho
  · simp only [ho, Bool.not_true, Bool.false_eq_true, if_false, if_true]
    exact hmain _ rfl rfl rfl hty1
  · simp only [ho, Bool.not_false, Bool.false_eq_true, if_false, if_true]
    rw [setTextSpacesBetween_eq]
    refine hmain _ rfl rfl rfl ?_
    unfold Doc.cur Heap.markSpaces
    simp only
    cases hx : d.checkTextnode with
    | none => exact hty1
    | some x =>
      simp only
      rw [Heap.upd_cell_ne _ _ (Ne.symm (hck x hx))]
      exact hty1

theorem tagEnd_sound {d : Doc} (c : Char) (ctx : Str) (hd : Ctl d) (hh : d.handle = .tagEnd) :
    Sound d c (parseTagEnd d c ctx) := by
  have hs := hd.hs
  unfold HandleOk at hs
  simp only [hh] at hs
  have hnt : d.cur.nodeType ≠ .text := by rw [hs.2.2.1]; simp
  unfold parseTagEnd
  by_cases h1 : c = '>'
  · subst h1
    simp only [if_true]
    have hstray : (∀ t m, ¬ (d.chain.length > 1 ∧ d.chain.head? = some t ∧ (d.heap.cell t).tmeta = some m ∧
        (isEqualCharsIgnoreCase m.name (charsTrimEnd d.prevChars)).1 = true)) →
      Sound d '>' (if (!d.opts.autoFixUnexpectedEndtag) = true then d.error (.wrongEndTag d.prevChars) ctx
        else .ok ((match d.cur.prev with
          | some p => { d with current := p }
          | none => d).cleanChars.setCodeIn .unkown)) := by
      intro hm
      cases hf : d.opts.autoFixUnexpectedEndtag
      · simp only [Bool.not_false, if_true]; exact Sound.err (.endStray hh rfl hf hm)
      · simp only [Bool.not_true, Bool.false_eq_true, if_false]
        refine Sound.of_eq (Step.endStray hh rfl hf hm) ?_
        cases d.cur.prev <;> rfl
    by_cases hl : d.chain.length > 1
    · simp only [hl, if_true]
      cases ht : d.chain.head? with
      | none => rw [head?_none ht] at hl; simp at hl
      | some t =>
        obtain ⟨m, hm⟩ := chain_meta hd (by rw [hh]; simp) t ht hl
        simp only [hm]
        rcases Bool.eq_false_or_eq_true (isEqualCharsIgnoreCase m.name (charsTrimEnd d.prevChars)).1 with h2 | h2
        · simp only [h2, if_true]
          rcases Bool.eq_false_or_eq_true
            (d.opts.caseSensitiveTagname && !(isEqualCharsIgnoreCase m.name (charsTrimEnd d.prevChars)).2) with h3 | h3
          · simp only [h3, if_true, Doc.error, createParseError]
            simp only [Bool.and_eq_true, Bool.not_eq_true'] at h3
            exact Sound.err (.endCase hh rfl h3.1 t m hl ht hm h2 h3.2)
          · simp only [h3, Bool.false_eq_true, if_false]
            have hst := Step.endMatch hh rfl t m ⟨hl, ht, hm, h2, by
              intro h4; rw [h4] at h3; simpa using h3⟩
            refine Sound.of_eq hst ?_
            refine closeMatched_eq d t d.prevChars hs.2.2.1 ?_ ?_
            · intro h
              subst h
              have := hd.chainTag d.current (List.mem_of_mem_head? ht)
              by_cases h0 : d.current = 0
              · have := (hd.rootTy d.current hd.curLt).2 h0
                unfold Doc.cur at hs
                rw [this] at hs
                simp at hs
              · have := this h0
                unfold Doc.cur at hs
                rw [this] at hs
                simp at hs
            · intro x hx
              have := (hd.check x hx).2
              rintro rfl
              unfold Doc.cur at hs
              rw [this] at hs
              simp at hs
        · simp only [h2, Bool.false_eq_true, if_false]
          refine hstray ?_
          rintro t' m' ⟨_, h3, h4, h5⟩
          rw [ht] at h3
          cases h3
          rw [hm] at h4
          cases h4
          rw [h2] at h5
          cases h5
    · simp only [hl, if_false]
      exact hstray fun t m h => hl h.1
  · simp only [h1, if_false]
    exact Sound.okk (Step.endMore hh h1)


theorem content_sound {d : Doc} (c : Char) (hd : Ctl d) (hh : d.handle = .contentTag) :
    Sound d c (parseContentTag d c) := by
  have hs := hd.hs
  unfold HandleOk at hs
  simp only [hh] at hs
  obtain ⟨_, _, m, hm, hdet, _⟩ := hs
  unfold parseContentTag
  by_cases h1 : c = '>'
  · subst h1
    simp only [ne_eq, not_true_eq_false, if_false, hdet]
    cases hr : contentMatch d.opts.caseSensitiveTagname (['<', '/'] ++ m.name).reverse
        (d.prevChars.reverse.dropWhile isWs) with
    | none =>
      exact Sound.okk (Step.rawMore hh (Or.inr ⟨_, hdet, by unfold rawEnd; rw [hr]; rfl⟩))
    | some rest =>
      refine Sound.of_eq (Step.rawClose hh rfl _ hdet rest.length (by unfold rawEnd; rw [hr]; rfl)) ?_
      simp only [Doc.setCodeIn, Doc.modCur, List.drop_drop, Doc.rawHeap]
  · simp only [ne_eq, h1, not_false_eq_true, if_true]
    exact Sound.okk (Step.rawMore hh (Or.inl h1))

theorem toUpper_eq_dash (c : Char) : toUpper c = '-' ↔ c = '-' := by
  simp only [char_eq_iff, toNat_toUpper]
  have : '-'.toNat = 45 := by decide
  rw [this]; split <;> omega

theorem toUpper_eq_bracket (c : Char) : toUpper c = '[' ↔ c = '[' := by
  simp only [char_eq_iff, toNat_toUpper]
  have : '['.toNat = 91 := by decide
  rw [this]; split <;> omega

theorem toUpper_eq_E (c : Char) : toUpper c = 'E' ↔ c = 'E' ∨ c = 'e' := by
  simp only [char_eq_iff, toNat_toUpper]
  have : 'E'.toNat = 69 := by decide
  have h2 : 'e'.toNat = 101 := by decide
  rw [this, h2]; split <;> omega

theorem excl_sound {d : Doc} (c : Char) (ctx : Str) (hd : Ctl d) (hh : d.handle = .exclamationBegin) :
    Sound d c (parseExclamationBegin d c ctx) := by
  have hs := hd.hs
  unfold HandleOk at hs
  simp only [hh] at hs
  obtain ⟨hci, hs⟩ := hs
  unfold parseExclamationBegin
  rcases hs with ⟨hdet, hpc⟩ | ⟨D, hdet, hD, hpc, hlt, hmap⟩
  · simp only [hdet]
    by_cases h1 : c = '-'
    · simp only [h1, if_true]
      refine Sound.of_eq (Step.exclFirst hh hdet detectComment (Or.inl ⟨rfl, rfl⟩)) ?_
      simp only [Doc.pushChar, hpc, List.nil_append]
    · simp only [h1, if_false]
      by_cases h2 : c = 'D' ∨ c = 'd'
      · simp only [h2, if_true]
        refine Sound.of_eq (Step.exclFirst hh hdet detectDoctype (Or.inr (Or.inl ⟨h2, rfl⟩))) ?_
        simp only [Doc.pushChar, hpc, List.nil_append]
      · simp only [h2, if_false]
        by_cases h3 : c = '['
        · subst h3
          simp only [if_true]
          cases hsp : d.inSpecial with
          | none =>
            simp only
            exact Sound.cpe (.exclFirst hh hdet h1 (fun h => h2 (Or.inl h)) (fun h => h2 (Or.inr h))
              fun _ => Or.inl hsp)
          | some q =>
            simp only
            cases ht : d.chain.head? with
            | none =>
              exact Sound.panic (Or.inr (Or.inl ⟨rfl, head?_none ht, hh, hdet, by rw [hsp]; simp, rfl⟩))
            | some t =>
              simp only
              cases hm : (d.heap.cell t).tmeta with
              | none =>
                refine Sound.panic ?_
                refine Or.inr (Or.inr ⟨rfl, ?_, hh, hdet, by rw [hsp]; simp, rfl⟩)
                by_cases hl : d.chain.length > 1
                · obtain ⟨m, hm'⟩ := chain_meta hd (by rw [hh]; simp) t ht hl
                  rw [hm] at hm'; cases hm'
                · have hne : d.chain ≠ [] := by intro h; rw [h] at ht; simp at ht
                  have := hd.chainLast hne
                  cases hc : d.chain with
                  | nil => exact absurd hc hne
                  | cons a as =>
                    cases as with
                    | nil => rw [hc] at this; simpa using this
                    | cons b bs => rw [hc] at hl; simp at hl
              | some m =>
                simp only
                by_cases he : q.2 = m.name
                · have he' := (isEqualChars_none q.2 m.name).2 he
                  simp only [he', if_true]
                  exact Sound.cpe (.exclFirst hh hdet h1 (fun h => h2 (Or.inl h)) (fun h => h2 (Or.inr h))
                    fun _ => Or.inr ⟨q.1, q.2, t, m, hsp, ht, hm, he⟩)
                · have he' : ¬ isEqualChars q.2 m.name none = true := fun h => he ((isEqualChars_none _ _).1 h)
                  rw [if_neg he']
                  refine Sound.of_eq (Step.exclFirst hh hdet detectCdata
                    (Or.inr (Or.inr ⟨rfl, rfl, q.1, q.2, t, m, hsp, ht, hm, he⟩))) ?_
                  simp only [Doc.pushChar, hpc, List.nil_append, hsp]
        · simp only [h3, if_false]
          exact Sound.cpe (.exclFirst hh hdet h1 (fun h => h2 (Or.inl h)) (fun h => h2 (Or.inr h))
            fun h => absurd h h3)
  · simp only [hdet, hlt, if_true]
    cases hg : D[d.prevChars.length]? with
    | none => simp at hg; omega
    | some k =>
      simp only
      by_cases h1 : k = toUpper c
      · simp only [h1, if_true]
        by_cases h2 : d.prevChars.length = D.length - 1
        · simp only [h2, if_true]
          have hl : d.prevChars.length + 1 = D.length := by omega
          have hlast : D[D.length - 1]? = some (toUpper c) := by rw [← h2, hg, h1]
          have hnil : ∀ s, d.chain.head? = none → (Res.panic s : Res Doc) = .panic .chainLast →
              Sound d c (.panic s) := fun s hp he => by
            cases he
            exact Sound.panic (Or.inl ⟨rfl, head?_none hp, Or.inr (Or.inr ⟨hh, D, hdet, by rw [hg, h1], hl⟩)⟩)
          rcases hD with rfl | rfl | rfl
          · have hc : c = '-' := by
              simp [detectComment] at hlast
              exact (toUpper_eq_dash c).1 hlast.symm
            subst hc
            simp only [true_or, if_true]
            cases hp : d.chain.head? with
            | none =>
              rw [addNewNode_empty _ _ (by simp [Cell.new]) (by exact hp)]
              exact hnil _ hp rfl
            | some p =>
              rw [addNewNode_child _ _ p (by simp [Cell.new]) (by exact hp)]
              simp only [Res.bind_eq, Res.bind]
              refine Sound.of_eq (Step.commentOpen hh hdet hl rfl p hp) ?_
              rw [setTextSpacesBetween_eq]
              rfl
          · have hc : c = 'E' ∨ c = 'e' := by
              simp [detectDoctype] at hlast
              exact (toUpper_eq_E c).1 hlast.symm
            have hc2 : ¬ (c = '-' ∨ c = '[') := by rcases hc with rfl | rfl <;> decide
            simp only [hc, hc2, if_true, if_false]
            cases hp : d.chain.head? with
            | none =>
              rw [addNewNode_empty _ _ (by simp [Cell.new]) (by exact hp)]
              exact hnil _ hp rfl
            | some p =>
              rw [addNewNode_child _ _ p (by simp [Cell.new]) (by exact hp)]
              simp only [Res.bind_eq, Res.bind]
              refine Sound.of_eq (Step.doctypeOpen hh hdet hl hc p hp) ?_
              rw [setTextSpacesBetween_eq]
              rfl
          · have hc : c = '[' := by
              simp [detectCdata] at hlast
              exact (toUpper_eq_bracket c).1 hlast.symm
            subst hc
            have hne : ¬ ('[' = '-') := by decide
            simp only [or_true, if_true, hne, if_false]
            cases hp : d.chain.head? with
            | none =>
              rw [addNewNode_empty _ _ (by simp [Cell.new]) (by exact hp)]
              exact hnil _ hp rfl
            | some p =>
              rw [addNewNode_child _ _ p (by simp [Cell.new]) (by exact hp)]
              simp only [Res.bind_eq, Res.bind]
              refine Sound.of_eq (Step.cdataOpen hh hdet hl rfl p hp) ?_
              rw [setTextSpacesBetween_eq]
              rfl
        · simp only [h2, if_false]
          exact Sound.okk (Step.exclMore hh D hdet (by omega) (by rw [hg, h1]))
      · simp only [h1, if_false]
        exact Sound.cpe (.exclMore hh D hdet (by rw [hg]; simpa using h1))

/-- Every successful transition from a state between two characters is a `Step`, and the remaining panics
need an empty or bare chain. -/
theorem runHandle_sound {d : Doc} (c : Char) (ctx : Str) (hd : Ctl d) : Sound d c (runHandle d c ctx) := by
  have hs := hd.hs
  cases hh : d.handle
  case noop => unfold HandleOk at hs; simp only [hh] at hs
  case tagSelfClosing => exact tag_sound c ctx hd (by rw [hh]; rfl)
  case tagWait => exact tag_sound c ctx hd (by rw [hh]; rfl)
  case attrKey => exact tag_sound c ctx hd (by rw [hh]; rfl)
  case attrValue => exact tag_sound c ctx hd (by rw [hh]; rfl)
  all_goals
    unfold runHandle
    simp only [hh]
  · exact wait_sound c hd hh
  · exact text_sound c hd hh
  · exact doctypeName_sound c ctx hh
  · exact tagName_sound c hh
  · exact tagEnd_sound c ctx hd hh
  · exact content_sound c hd hh
  · exact comment_sound c hd hh
  · exact unkown_sound c ctx hd hh
  · exact excl_sound c ctx hd hh

end Rphtml
