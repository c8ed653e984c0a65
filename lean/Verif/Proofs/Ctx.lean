import Verif.Proofs.Chars

/-! The context string is only used to compute the line and column of an error. -/

namespace Rphtml

/-- Recompute the position of an error in another context. -/
def Res.rectx {α : Type} (ctx : Str) : Res α → Res α
  | .ok a => .ok a
  | .err e => createParseError e.kind e.region.index ctx
  | .panic s => .panic s

theorem fromContextIndex_index (ctx : Str) (i : Nat) :
    (CodeRegion.fromContextIndex ctx i).index = i := by
  unfold CodeRegion.fromContextIndex
  suffices h : ∀ (s : Str) cur prev (r : CodeRegion),
      (CodeRegion.loop i cur prev r s).index = r.index from h ctx 0 _ _
  intro s
  induction s with
  | nil => intros; rfl
  | cons c cs ih =>
    intro cur prev r
    unfold CodeRegion.loop
    split
    · rw [ih]; unfold CodeRegion.stepChar CodeRegion.setNewLine CodeRegion.moveOne
      repeat' split
      all_goals rfl
    · rw [ih]

@[simp] theorem rectx_createParseError {α : Type} (k : ErrorKind) (i : Nat) (c1 c2 : Str) :
    Res.rectx c2 (createParseError (α := α) k i c1) = createParseError k i c2 := by
  simp [Res.rectx, createParseError, fromContextIndex_index]

@[simp] theorem rectx_ok {α : Type} (a : α) (c : Str) : Res.rectx c (Res.ok a) = Res.ok a := rfl
@[simp] theorem rectx_panic {α : Type} (s : Site) (c : Str) :
    Res.rectx (α := α) c (Res.panic s) = Res.panic s := rfl

theorem rectx_rectx {α : Type} (x : Res α) (c1 c2 : Str) : (x.rectx c1).rectx c2 = x.rectx c2 := by
  cases x <;> simp [Res.rectx, createParseError, fromContextIndex_index]

theorem rectx_bind {α β : Type} (x : Res α) (f : α → Res β) (c : Str) :
    (x.bind f).rectx c = (x.rectx c).bind fun a => (f a).rectx c := by
  cases x <;> simp [Res.rectx, createParseError]

/-- A computation without error results does not depend on the context. -/
def Res.noErr {α : Type} (x : Res α) : Prop := ∀ e, x ≠ .err e

theorem rectx_noErr {α : Type} {x : Res α} (h : x.noErr) (c : Str) : x.rectx c = x := by
  cases x with
  | ok a => rfl
  | err e => exact absurd rfl (h e)
  | panic s => rfl

theorem addNewNode_noErr (d : Doc) (n : Cell) : (d.addNewNode n).noErr := by
  intro e; unfold Doc.addNewNode; dsimp only
  repeat' split
  all_goals simp

theorem setTagAttrKey_noErr (d : Doc) : d.setTagAttrKey.noErr := by
  intro e; unfold Doc.setTagAttrKey; dsimp only
  repeat' split
  all_goals simp

theorem setTagAttrValue_noErr (d : Doc) (q : Option Char) : (d.setTagAttrValue q).noErr := by
  intro e; unfold Doc.setTagAttrValue; dsimp only
  repeat' split
  all_goals simp

theorem addTagAttrValue_noErr (d : Doc) (q : Option Char) : (d.addTagAttrValue q).noErr := by
  intro e; unfold Doc.addTagAttrValue; dsimp only
  repeat' split
  all_goals simp

theorem checkTagTypeDo_noErr (d : Doc) : d.checkTagTypeDo.noErr := by
  intro e; unfold Doc.checkTagTypeDo; dsimp only
  repeat' split
  all_goals simp

theorem parseWait_noErr (d : Doc) (c : Char) : (parseWait d c).noErr := by
  intro e; unfold parseWait
  have := addNewNode_noErr d (Cell.new .text d.position)
  dsimp only
  repeat' split
  all_goals simp
  cases h : d.addNewNode (Cell.new .text d.position) <;> simp_all [Res.noErr]

theorem parseText_noErr (d : Doc) (c : Char) : (parseText d c).noErr := by
  intro e; unfold parseText; dsimp only
  repeat' split
  all_goals simp

theorem parseTagName_noErr (d : Doc) (c : Char) : (parseTagName d c).noErr := by
  intro e; unfold parseTagName
  have := checkTagTypeDo_noErr d.setTagMeta e
  repeat' split
  all_goals simp_all

theorem parseContentTag_noErr (d : Doc) (c : Char) : (parseContentTag d c).noErr := by
  intro e; unfold parseContentTag; dsimp only
  repeat' split
  all_goals simp

theorem parseCommentOrCdata_noErr (d : Doc) (c : Char) : (parseCommentOrCdata d c).noErr := by
  intro e; unfold parseCommentOrCdata; dsimp only
  repeat' split
  all_goals simp

theorem fixUnescapedLt_noErr (d : Doc) (c : Char) : (fixUnescapedLt d c).noErr := by
  intro e; unfold fixUnescapedLt; dsimp only
  split
  · exact parseText_noErr _ _ e
  · simp

theorem parseDoctypeName_rectx (d : Doc) (c : Char) (x y : Str) :
    (parseDoctypeName d c x).rectx y = parseDoctypeName d c y := by
  unfold parseDoctypeName Doc.error
  split <;> simp

theorem parseTagWait_rectx (d : Doc) (c : Char) (x y : Str) :
    (parseTagWait d c x).rectx y = parseTagWait d c y := by
  unfold parseTagWait
  repeat' split
  all_goals try simp only [Res.bind_eq, rectx_bind, rectx_noErr (addTagAttrValue_noErr _ _), rectx_ok,
    rectx_createParseError, rectx_panic]
  exact rectx_noErr (checkTagTypeDo_noErr _) _

theorem parseTagSelfClosing_rectx (d : Doc) (c : Char) (x y : Str) :
    (parseTagSelfClosing d c x).rectx y = parseTagSelfClosing d c y := by
  unfold parseTagSelfClosing Doc.error
  dsimp only
  repeat' split
  all_goals try simp
  exact parseTagWait_rectx _ _ _ _

theorem parseTagAttrKey_rectx (d : Doc) (c : Char) (x y : Str) :
    (parseTagAttrKey d c x).rectx y = parseTagAttrKey d c y := by
  unfold parseTagAttrKey
  repeat' split
  all_goals try simp only [Res.bind_eq, rectx_bind, rectx_noErr (setTagAttrKey_noErr _), rectx_ok,
    parseTagWait_rectx]

theorem parseTagAttrValue_rectx (d : Doc) (c : Char) (x y : Str) :
    (parseTagAttrValue d c x).rectx y = parseTagAttrValue d c y := by
  unfold parseTagAttrValue
  dsimp only
  repeat' split
  all_goals try simp only [Res.bind_eq, rectx_bind, rectx_noErr (setTagAttrValue_noErr _ _), rectx_ok,
    parseTagWait_rectx]

theorem parseTagEnd_rectx (d : Doc) (c : Char) (x y : Str) :
    (parseTagEnd d c x).rectx y = parseTagEnd d c y := by
  unfold parseTagEnd Doc.error
  dsimp only
  by_cases hc : c = '>'
  · simp only [hc, if_true]
    by_cases hl : d.chain.length > 1
    · simp only [hl, if_true]
      cases hh : d.chain.head? with
      | none => simp only []; repeat' split
                all_goals simp
      | some t =>
        simp only []
        cases hm : (d.heap.cell t).tmeta with
        | none => simp
        | some m =>
          simp only []
          by_cases h1 : (isEqualCharsIgnoreCase m.name (charsTrimEnd d.prevChars)).1 = true
          · simp only [h1, if_true]
            by_cases h2 : (d.opts.caseSensitiveTagname && !(isEqualCharsIgnoreCase m.name (charsTrimEnd d.prevChars)).2) = true
            · simp only [h2, if_true]
              simp [createParseError, Res.rectx, fromContextIndex_index]
            · simp only [h2]
              simp
          · simp only [h1]
            simp only [Bool.false_eq_true, if_false]
            repeat' split
            all_goals simp
    · simp only [hl, if_false]
      repeat' split
      all_goals simp
  · simp [hc]

theorem parseUnkownTag_rectx (d : Doc) (c : Char) (x y : Str) :
    (parseUnkownTag d c x).rectx y = parseUnkownTag d c y := by
  unfold parseUnkownTag
  dsimp only
  repeat' split
  all_goals try simp only [Res.bind_eq, rectx_bind, rectx_noErr (addNewNode_noErr _ _), rectx_ok,
    rectx_createParseError]
  exact rectx_noErr (fixUnescapedLt_noErr _ _) _

theorem parseExclamationBegin_rectx (d : Doc) (c : Char) (x y : Str) :
    (parseExclamationBegin d c x).rectx y = parseExclamationBegin d c y := by
  unfold parseExclamationBegin
  dsimp only
  repeat' split
  all_goals try simp only [Res.bind_eq, rectx_bind, rectx_noErr (addNewNode_noErr _ _), rectx_ok,
    rectx_createParseError, rectx_panic]

/-- One step in two contexts differs only in the computed line and column. -/
theorem runHandle_rectx (d : Doc) (c : Char) (x y : Str) :
    (runHandle d c x).rectx y = runHandle d c y := by
  unfold runHandle
  split
  · rfl
  · exact rectx_noErr (parseWait_noErr _ _) _
  · exact rectx_noErr (parseText_noErr _ _) _
  · exact parseDoctypeName_rectx _ _ _ _
  · exact rectx_noErr (parseTagName_noErr _ _) _
  · exact parseTagSelfClosing_rectx _ _ _ _
  · exact parseTagWait_rectx _ _ _ _
  · exact parseTagAttrKey_rectx _ _ _ _
  · exact parseTagAttrValue_rectx _ _ _ _
  · exact parseTagEnd_rectx _ _ _ _
  · exact rectx_noErr (parseContentTag_noErr _ _) _
  · exact rectx_noErr (parseCommentOrCdata_noErr _ _) _
  · exact parseUnkownTag_rectx _ _ _ _
  · exact parseExclamationBegin_rectx _ _ _ _

theorem next_rectx (d : Doc) (c : Char) (x y : Str) :
    (d.next c x).rectx y = d.next c y := by
  unfold Doc.next
  simp only [Res.bind_eq, rectx_bind, runHandle_rectx, rectx_ok]

theorem run_rectx (d : Doc) (cs x y : Str) : (d.run x cs).rectx y = d.run y cs := by
  induction cs generalizing d with
  | nil => rfl
  | cons c cs ih =>
    unfold Doc.run
    simp only [Res.bind_eq, rectx_bind, next_rectx, ih]

/-- Successful runs do not depend on the context. -/
theorem run_ok_ctx {d d' : Doc} {cs x : Str} (h : d.run x cs = .ok d') (y : Str) :
    d.run y cs = .ok d' := by
  rw [← run_rectx d cs x y, h]; rfl

theorem next_ok_ctx {d d' : Doc} {c : Char} {x : Str} (h : d.next c x = .ok d') (y : Str) :
    d.next c y = .ok d' := by
  rw [← next_rectx d c x y, h]; rfl

theorem eofChain_rectx (d : Doc) (x y : Str) : (d.eofChain x).rectx y = d.eofChain y := by
  unfold Doc.eofChain
  repeat' split
  all_goals simp

theorem eofState_rectx (d : Doc) (x y : Str) : (d.eofState x).rectx y = d.eofState y := by
  unfold Doc.eofState
  repeat' split
  all_goals simp

theorem eof_rectx (d : Doc) (x y : Str) : (d.eof x).rectx y = d.eof y := by
  unfold Doc.eof
  simp only [Res.bind_eq, rectx_bind, eofChain_rectx, eofState_rectx, rectx_ok]

theorem run_append (d : Doc) (ctx a b : Str) :
    d.run ctx (a ++ b) = (d.run ctx a).bind fun d => d.run ctx b := by
  induction a generalizing d with
  | nil => rfl
  | cons c cs ih =>
    simp only [List.cons_append, Doc.run, Res.bind_eq]
    cases d.next c ctx <;> simp [ih]

end Rphtml
