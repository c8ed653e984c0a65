import Verif.Proofs.Ctx

/-! Errors raised while reading a character point at that character or at the last `<`. -/

namespace Rphtml

/-- What one handler call may do to the position bookkeeping. -/
def PosFrame (d : Doc) (x : Res Doc) : Prop :=
  (∀ d', x = .ok d' → d'.position = d.position ∧
    (d'.memPosition = d.memPosition ∨ d'.memPosition = d.position)) ∧
  (∀ e, x = .err e → e.region.index = d.position ∨ e.region.index = d.memPosition)

@[simp] theorem modCur_position (d : Doc) (f) : (d.modCur f).position = d.position := rfl
@[simp] theorem modCur_memPosition (d : Doc) (f) : (d.modCur f).memPosition = d.memPosition := rfl
@[simp] theorem modMeta_position (d : Doc) (f) : (d.modMeta f).position = d.position := rfl
@[simp] theorem modMeta_memPosition (d : Doc) (f) : (d.modMeta f).memPosition = d.memPosition := rfl
@[simp] theorem setCodeIn_position (d : Doc) (f) : (d.setCodeIn f).position = d.position := rfl
@[simp] theorem setCodeIn_memPosition (d : Doc) (f) : (d.setCodeIn f).memPosition = d.memPosition := rfl
@[simp] theorem setTagCodeIn_position (d : Doc) (f) : (d.setTagCodeIn f).position = d.position := rfl
@[simp] theorem setTagCodeIn_memPosition (d : Doc) (f) : (d.setTagCodeIn f).memPosition = d.memPosition := rfl
@[simp] theorem pushChar_position (d : Doc) (f) : (d.pushChar f).position = d.position := rfl
@[simp] theorem pushChar_memPosition (d : Doc) (f) : (d.pushChar f).memPosition = d.memPosition := rfl
@[simp] theorem cleanChars_position (d : Doc) : d.cleanChars.position = d.position := rfl
@[simp] theorem cleanChars_memPosition (d : Doc) : d.cleanChars.memPosition = d.memPosition := rfl
@[simp] theorem setTagMeta_position (d : Doc) : d.setTagMeta.position = d.position := rfl
@[simp] theorem setTagMeta_memPosition (d : Doc) : d.setTagMeta.memPosition = d.memPosition := rfl
@[simp] theorem addTagAttrKey_position (d : Doc) : d.addTagAttrKey.position = d.position := rfl
@[simp] theorem addTagAttrKey_memPosition (d : Doc) : d.addTagAttrKey.memPosition = d.memPosition := rfl
@[simp] theorem setTagEndInfo_position (d : Doc) : d.setTagEndInfo.position = d.position := rfl
@[simp] theorem setTagEndInfo_memPosition (d : Doc) : d.setTagEndInfo.memPosition = d.memPosition := rfl
@[simp] theorem setTextSpacesBetween_position (d : Doc) :
    d.setTextSpacesBetween.position = d.position := by
  unfold Doc.setTextSpacesBetween; split <;> rfl
@[simp] theorem setTextSpacesBetween_memPosition (d : Doc) :
    d.setTextSpacesBetween.memPosition = d.memPosition := by
  unfold Doc.setTextSpacesBetween; split <;> rfl

theorem PosFrame.okk {d d' : Doc} (h1 : d'.position = d.position)
    (h2 : d'.memPosition = d.memPosition ∨ d'.memPosition = d.position) : PosFrame d (.ok d') :=
  ⟨fun _ h => by cases h; exact ⟨h1, h2⟩, fun _ h => by cases h⟩

theorem PosFrame.panic {d : Doc} (s : Site) : PosFrame d (.panic s) :=
  ⟨fun _ h => (by cases h), fun _ h => (by cases h)⟩

theorem PosFrame.cpe {d : Doc} {k : ErrorKind} {i : Nat} {ctx : Str}
    (h : i = d.position ∨ i = d.memPosition) : PosFrame d (createParseError k i ctx) := by
  refine ⟨fun _ h => by simp [createParseError] at h, fun e he => ?_⟩
  simp only [createParseError, Res.err.injEq] at he
  subst he
  simpa [fromContextIndex_index] using h

theorem PosFrame.bind {d : Doc} {x : Res Doc} {f : Doc → Res Doc} (hx : PosFrame d x)
    (hf : ∀ a, x = .ok a → PosFrame a (f a)) (hm : ∀ a, x = .ok a → a.memPosition = d.memPosition) :
    PosFrame d (x.bind f) := by
  cases x with
  | ok a =>
    have h1 := hx.1 a rfl
    have h2 := hf a rfl
    have h3 := hm a rfl
    simp only [Res.bind]
    refine ⟨fun d' h => ?_, fun e h => ?_⟩
    · have := h2.1 d' h; rw [h1.1, h3] at this; exact this
    · have := h2.2 e h; rw [h1.1, h3] at this; exact this
  | err e => exact ⟨fun _ h => by simp at h, hx.2⟩
  | panic s => exact PosFrame.panic s

theorem PosFrame.congr {d d2 : Doc} {x : Res Doc} (h : PosFrame d2 x) (h1 : d2.position = d.position)
    (h2 : d2.memPosition = d.memPosition) : PosFrame d x := by
  unfold PosFrame at *; rw [← h1, ← h2]; exact h

theorem addNewNode_pos (d : Doc) (n : Cell) (d' : Doc) (h : d.addNewNode n = .ok d') :
    d'.position = d.position ∧ d'.memPosition = d.memPosition := by
  unfold Doc.addNewNode at h
  dsimp only at h
  repeat' split at h
  all_goals first | (cases h; exact ⟨rfl, rfl⟩) | cases h

theorem setTagAttrKey_pos (d d' : Doc) (h : d.setTagAttrKey = .ok d') :
    d'.position = d.position ∧ d'.memPosition = d.memPosition := by
  unfold Doc.setTagAttrKey at h
  dsimp only at h
  repeat' split at h
  all_goals first | (cases h; exact ⟨rfl, rfl⟩) | cases h

theorem setTagAttrValue_pos (d d' : Doc) (q) (h : d.setTagAttrValue q = .ok d') :
    d'.position = d.position ∧ d'.memPosition = d.memPosition := by
  unfold Doc.setTagAttrValue at h
  dsimp only at h
  repeat' split at h
  all_goals first | (cases h; exact ⟨rfl, rfl⟩) | cases h

theorem addTagAttrValue_pos (d d' : Doc) (q) (h : d.addTagAttrValue q = .ok d') :
    d'.position = d.position ∧ d'.memPosition = d.memPosition := by
  unfold Doc.addTagAttrValue at h
  dsimp only at h
  repeat' split at h
  all_goals first | (cases h; exact ⟨rfl, rfl⟩) | cases h

theorem PosFrame.ofNoErr {d : Doc} {x : Res Doc} (hn : x.noErr)
    (h : ∀ d', x = .ok d' → d'.position = d.position ∧ d'.memPosition = d.memPosition) :
    PosFrame d x :=
  ⟨fun d' hd => ⟨(h d' hd).1, Or.inl (h d' hd).2⟩, fun e he => absurd he (hn e)⟩

/-- Sequencing a helper that keeps both positions with a frame-respecting continuation. -/
theorem PosFrame.seq {d : Doc} {x : Res Doc} {f : Doc → Res Doc} (hn : x.noErr)
    (h : ∀ d', x = .ok d' → d'.position = d.position ∧ d'.memPosition = d.memPosition)
    (hf : ∀ a, x = .ok a → PosFrame a (f a)) : PosFrame d (x.bind f) :=
  PosFrame.bind (PosFrame.ofNoErr hn h) hf fun a ha => (h a ha).2

theorem checkTagTypeDo_pf (d : Doc) : PosFrame d d.checkTagTypeDo := by
  unfold Doc.checkTagTypeDo
  dsimp only
  repeat' split
  all_goals first | exact PosFrame.panic _ | exact PosFrame.okk rfl (Or.inr rfl) | exact PosFrame.okk rfl (Or.inl rfl)

theorem parseTagWait_pf (d : Doc) (c : Char) (ctx : Str) : PosFrame d (parseTagWait d c ctx) := by
  unfold parseTagWait
  repeat' split
  all_goals first
    | exact PosFrame.panic _
    | exact PosFrame.okk rfl (Or.inl rfl)
    | exact PosFrame.cpe (Or.inl rfl)
    | exact checkTagTypeDo_pf d
    | skip
  exact PosFrame.seq (addTagAttrValue_noErr _ _) (fun a h => addTagAttrValue_pos _ _ _ h)
    fun a _ => PosFrame.okk rfl (Or.inl rfl)

theorem parseText_pf (d : Doc) (c : Char) : PosFrame d (parseText d c) := by
  unfold parseText
  dsimp only
  repeat' split
  all_goals first
    | exact PosFrame.okk rfl (Or.inl rfl)
    | exact PosFrame.okk rfl (Or.inr rfl)

theorem runHandle_pf (d : Doc) (c : Char) (ctx : Str) : PosFrame d (runHandle d c ctx) := by
  unfold runHandle
  split
  · exact PosFrame.okk rfl (Or.inl rfl)
  · unfold parseWait
    dsimp only
    repeat' split
    all_goals first
      | exact PosFrame.okk rfl (Or.inl rfl)
      | exact PosFrame.okk rfl (Or.inr rfl)
      | skip
    exact PosFrame.seq (addNewNode_noErr _ _) (fun a h => addNewNode_pos _ _ _ h)
      fun a _ => PosFrame.okk rfl (Or.inl rfl)
  · exact parseText_pf d c
  · unfold parseDoctypeName
    split
    · exact PosFrame.okk rfl (Or.inl rfl)
    · exact PosFrame.cpe (Or.inl rfl)
  · unfold parseTagName
    repeat' split
    all_goals first
      | exact PosFrame.okk rfl (Or.inl rfl)
      | exact (checkTagTypeDo_pf _).congr rfl rfl
  · unfold parseTagSelfClosing
    dsimp only
    repeat' split
    all_goals first
      | exact PosFrame.panic _
      | exact PosFrame.okk rfl (Or.inl rfl)
      | exact PosFrame.cpe (Or.inl rfl)
      | exact parseTagWait_pf d c ctx
  · exact parseTagWait_pf d c ctx
  · unfold parseTagAttrKey
    repeat' split
    all_goals try exact PosFrame.okk rfl (Or.inl rfl)
    all_goals
      refine PosFrame.seq (setTagAttrKey_noErr _) (fun a h => setTagAttrKey_pos _ _ h) fun a _ => ?_
      first
        | exact PosFrame.okk rfl (Or.inl rfl)
        | exact (parseTagWait_pf _ _ _).congr rfl rfl
  · unfold parseTagAttrValue
    dsimp only
    repeat' split
    all_goals try exact PosFrame.okk rfl (Or.inl rfl)
    all_goals
      refine PosFrame.seq (setTagAttrValue_noErr _ _) (fun a h => (by have := setTagAttrValue_pos _ _ _ h; exact this)) fun a _ => ?_
      first
        | exact PosFrame.okk rfl (Or.inl rfl)
        | exact (parseTagWait_pf _ _ _).congr rfl rfl
  · unfold parseTagEnd
    dsimp only
    split
    · split
      · exact PosFrame.panic _
      · rename_i e he
        refine ⟨fun _ h => (by cases h), fun e' h => ?_⟩
        cases h
        left
        repeat' split at he
        all_goals first
          | cases he; done
          | (simp only [Doc.error, createParseError, Res.err.injEq] at he
             rw [← he]; simp [fromContextIndex_index])
      · refine PosFrame.okk ?_ (Or.inl ?_) <;>
          (unfold Doc.closeMatched Doc.leaveSpecial
           dsimp only
           repeat' split
           all_goals simp)
      · repeat' split
        all_goals first
          | exact PosFrame.okk rfl (Or.inl rfl)
          | exact PosFrame.cpe (Or.inl rfl)
    · exact PosFrame.okk rfl (Or.inl rfl)
  · unfold parseContentTag
    dsimp only
    repeat' split
    all_goals first
      | exact PosFrame.panic _
      | exact PosFrame.okk rfl (Or.inl rfl)
  · unfold parseCommentOrCdata
    dsimp only
    repeat' split
    all_goals exact PosFrame.okk rfl (Or.inl rfl)
  · unfold parseUnkownTag
    dsimp only
    split
    · exact PosFrame.seq (addNewNode_noErr _ _) (fun a h => addNewNode_pos _ _ _ h)
        fun a _ => PosFrame.okk (by simp) (Or.inl (by simp))
    · split
      · split
        all_goals
          exact PosFrame.seq (addNewNode_noErr _ _) (fun a h => addNewNode_pos _ _ _ h)
            fun a _ => PosFrame.okk rfl (Or.inl rfl)
      · split
        · exact PosFrame.okk rfl (Or.inl rfl)
        · split
          · exact PosFrame.cpe (Or.inr rfl)
          · unfold fixUnescapedLt
            dsimp only
            split
            · refine (parseText_pf _ _).congr ?_ ?_
              all_goals
                simp only [setCodeIn_position, setCodeIn_memPosition]
                repeat' split
                all_goals simp
            · refine PosFrame.okk ?_ (Or.inl ?_)
              all_goals
                simp only [setCodeIn_position, setCodeIn_memPosition]
                repeat' split
                all_goals simp
  · unfold parseExclamationBegin
    dsimp only
    repeat' split
    all_goals first
      | exact PosFrame.panic _
      | exact PosFrame.okk rfl (Or.inl rfl)
      | exact PosFrame.cpe (Or.inr rfl)
      | exact PosFrame.cpe (Or.inl rfl)
      | skip
    all_goals
      refine PosFrame.seq (addNewNode_noErr _ _)
        (fun a h => (by have := addNewNode_pos _ _ _ h; exact this))
        (fun a _ => PosFrame.okk (by simp) (Or.inl (by simp)))

/-- Position bookkeeping of one `next`. -/
theorem next_pos {d d' : Doc} {c : Char} {ctx : Str} (h : d.next c ctx = .ok d') :
    d'.position = d.position + 1 ∧
      (d'.memPosition = d.memPosition ∨ d'.memPosition = d.position) := by
  unfold Doc.next at h
  have hp := runHandle_pf d c ctx
  cases hr : runHandle d c ctx with
  | ok a =>
    rw [hr] at h
    simp only [Res.bind_eq, Res.bind, Res.ok.injEq] at h
    subst h
    have := hp.1 a hr
    exact ⟨by simp [this.1], this.2⟩
  | err e => rw [hr] at h; simp at h
  | panic s => rw [hr] at h; simp at h

theorem next_err {d : Doc} {c : Char} {ctx : Str} {e : ParseError} (h : d.next c ctx = .err e) :
    e.region.index = d.position ∨ e.region.index = d.memPosition := by
  unfold Doc.next at h
  have hp := runHandle_pf d c ctx
  cases hr : runHandle d c ctx with
  | ok a => rw [hr] at h; simp at h
  | err e' => rw [hr] at h; simp at h; subst h; exact hp.2 _ hr
  | panic s => rw [hr] at h; simp at h

theorem run_pos {d d' : Doc} {ctx cs : Str} (h : d.run ctx cs = .ok d')
    (hm : d.memPosition ≤ d.position) :
    d'.position = d.position + cs.length ∧ d'.memPosition ≤ d'.position := by
  induction cs generalizing d with
  | nil => cases h; exact ⟨rfl, hm⟩
  | cons c cs ih =>
    simp only [Doc.run, Res.bind_eq] at h
    cases hn : d.next c ctx with
    | ok a =>
      rw [hn] at h
      have hp := next_pos hn
      have := ih h (by rcases hp.2 with h2 | h2 <;> omega)
      simp only [List.length_cons]
      omega
    | err e => rw [hn] at h; simp at h
    | panic s => rw [hn] at h; simp at h

/-- An error raised while reading points at a character already read. -/
theorem run_err {d : Doc} {ctx cs : Str} {e : ParseError} (h : d.run ctx cs = .err e)
    (hm : d.memPosition ≤ d.position) : e.region.index < d.position + cs.length := by
  induction cs generalizing d with
  | nil => cases h
  | cons c cs ih =>
    simp only [Doc.run, Res.bind_eq] at h
    cases hn : d.next c ctx with
    | ok a =>
      rw [hn] at h
      have hp := next_pos hn
      have := ih h (by rcases hp.2 with h2 | h2 <;> omega)
      simp only [List.length_cons]
      omega
    | err e' =>
      rw [hn] at h; simp at h; subst h
      have := next_err hn
      simp only [List.length_cons]
      omega
    | panic s => rw [hn] at h; simp at h

end Rphtml
