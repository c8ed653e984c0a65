import Verif.Proofs.Reach
import Verif.Proofs.Ctx

/-!
# The errors of the handlers, exactly
-/

namespace Rphtml

/-- The handler reports this kind of error, at this index. -/
inductive ErrIs (d : Doc) (c : Char) : ErrorKind → Nat → Prop where
  | lt (hh : d.handle = .unkownTag) (hf : d.opts.autoFixUnescapedLt = false) (h1 : isAlpha c = false) (h2 : c ≠ '/') (h3 : c ≠ '!') :
      ErrIs d c (.wrongTag [c]) d.memPosition
  | exclFirst (hh : d.handle = .exclamationBegin) (hd : d.detect = none) (h1 : c ≠ '-') (h2 : c ≠ 'D') (h3 : c ≠ 'd') (h4 : c ≠ '[') :
      ErrIs d c (.wrongTag []) d.memPosition
  | cdataNone (hh : d.handle = .exclamationBegin) (hd : d.detect = none) (hc : c = '[') (hs : d.inSpecial = none) :
      ErrIs d c (.commonError "wrong <![CDATA tag can only used in Svg or MathML".toList) d.position
  | cdataSame (hh : d.handle = .exclamationBegin) (hd : d.detect = none) (hc : c = '[') (sp : SpecialTag) (t : NodeId) (m : TagMeta)
      (hs : d.inSpecial = some (sp, m.name)) (ht : d.chain.head? = some t) (hm : (d.heap.cell t).tmeta = some m) :
      ErrIs d c (.commonError "<![CDATA tag can in sub node".toList) d.position
  | exclMore (hh : d.handle = .exclamationBegin) (D : Str) (hd : d.detect = some D) (hc : D[d.prevChars.length]? ≠ some (toUpper c)) :
      ErrIs d c (.unrecognizedTag d.prevChars D) d.memPosition
  | doctypeName (hh : d.handle = .doctypeName) (hc : isWs c = false) : ErrIs d c (.wrongHtmlDoctype c) d.position
  | key (hh : d.handle = .tagWait ∨ d.handle = .tagSelfClosing) (hc : c = '=') (m : TagMeta) (hm : d.cur.tmeta = some m)
      (hi : m.codeIn = .wait) (ha : d.opts.allowAttrKeyStartsWithEqualSign = false) :
      ErrIs d c (.wrongTag "'=' is not a valid attribute name".toList) d.position
  | self (hh : d.handle = .tagSelfClosing) (hc : c = '>') (m : TagMeta) (hm : d.cur.tmeta = some m) (ha : d.opts.allowSelfClosing = false)
      (h1 : d.codeIn ≠ .htmlDoctype) (h2 : m.isVoid = false) (h3 : d.inSpecial = none) : ErrIs d c (.wrongSelfClosing m.name) d.position
  | endCase (hh : d.handle = .tagEnd) (hc : c = '>') (hf : d.opts.caseSensitiveTagname = true) (t : NodeId) (m : TagMeta)
      (hl : d.chain.length > 1) (ht : d.chain.head? = some t) (hm : (d.heap.cell t).tmeta = some m)
      (he : (isEqualCharsIgnoreCase m.name (charsTrimEnd d.prevChars)).1 = true)
      (hn : (isEqualCharsIgnoreCase m.name (charsTrimEnd d.prevChars)).2 = false) :
      ErrIs d c (.wrongCaseSensitive d.prevChars) d.position
  | endStray (hh : d.handle = .tagEnd) (hc : c = '>') (hf : d.opts.autoFixUnexpectedEndtag = false)
      (hm : ∀ t m, d.chain.length > 1 → d.chain.head? = some t → (d.heap.cell t).tmeta = some m →
        (isEqualCharsIgnoreCase m.name (charsTrimEnd d.prevChars)).1 = false) :
      ErrIs d c (.wrongEndTag d.prevChars) d.position

theorem createParseError_inj {k : ErrorKind} {i : Nat} {ctx : Str} {e : ParseError}
    (h : (createParseError k i ctx : Res Doc) = .err e) : e = { region := CodeRegion.fromContextIndex ctx i, kind := k } := by
  unfold createParseError at h
  cases h; rfl

theorem noErr_bind {α β : Type} {r : Res α} {f : α → Res β} (h : r.noErr) (h' : ∀ a, r = .ok a → (f a).noErr) : (r.bind f).noErr := by
  cases hr : r with
  | ok a => exact h' a hr
  | err e => exact absurd hr (h e)
  | panic p => intro e h; cases h

theorem noErr_ok {α : Type} (a : α) : (Res.ok a).noErr := fun _ h => by cases h
theorem noErr_panic {α : Type} (p : Site) : (Res.panic p : Res α).noErr := fun _ h => by cases h

/-- Where `parse_tag_wait` reports an error. -/
theorem parseTagWait_err {d : Doc} {c : Char} {ctx : Str} {e : ParseError} (h : parseTagWait d c ctx = .err e) :
    c = '=' ∧ d.opts.allowAttrKeyStartsWithEqualSign = false ∧ (∃ m, d.cur.tmeta = some m ∧ m.codeIn = .wait) ∧
      e = { region := CodeRegion.fromContextIndex ctx d.position, kind := .wrongTag "'=' is not a valid attribute name".toList } := by
  unfold parseTagWait at h
  split at h
  · exfalso
    split at h
    · cases h
    · split at h
      · split at h
        · exact noErr_bind (addTagAttrValue_noErr _ _) (fun a _ => noErr_ok _) e h
        · cases h
      · cases h
  · split at h
    · exfalso
      split at h
      · cases h
      · split at h
        · cases h
        · exact checkTagTypeDo_noErr _ e h
    · split at h
      · cases h
      · split at h
        · rename_i hc
          split at h
          · cases h
          · rename_i ci hci
            unfold Doc.tagCodeIn? at hci
            split at h
            · cases h
            · split at h
              · rename_i hw
                split at h
                · rename_i ha
                  cases hm : d.cur.tmeta with
                  | none => rw [hm] at hci; cases hci
                  | some m =>
                    rw [hm] at hci
                    simp only [Option.map_some, Option.some.injEq] at hci
                    exact ⟨hc, by simpa using ha, ⟨m, rfl, by rw [hci, hw]⟩, createParseError_inj h⟩
                · cases h
              · cases h
        · exfalso
          split at h
          · cases h
          · split at h
            · cases h
            · split at h <;> cases h

theorem parseTagWait_key {d : Doc} {ctx : Str} {m : TagMeta} (hm : d.cur.tmeta = some m) (hi : m.codeIn = .wait)
    (ha : d.opts.allowAttrKeyStartsWithEqualSign = false) :
    parseTagWait d '=' ctx = createParseError (.wrongTag "'=' is not a valid attribute name".toList) d.position ctx := by
  unfold parseTagWait Doc.tagCodeIn?
  rw [if_neg (by decide), if_neg (by decide), if_neg (by decide), if_pos rfl, hm]
  simp only [Option.map_some, hi]
  rw [if_neg (by decide), if_pos trivial, ha]
  rfl

/-- Every error of a handler is one of these, … -/
theorem runHandle_errIs {d : Doc} {c : Char} {ctx : Str} {e : ParseError} (hd : Ctl d) (h : runHandle d c ctx = .err e) :
    ∃ k i, ErrIs d c k i ∧ e = { region := CodeRegion.fromContextIndex ctx i, kind := k } := by
  have hok := hd.hs
  unfold HandleOk at hok
  unfold runHandle at h
  cases hh : d.handle <;> rw [hh] at h hok <;> simp only at h hok
  case wait => exact absurd h (parseWait_noErr _ _ _)
  case text => exact absurd h (parseText_noErr _ _ _)
  case tagName => exact absurd h (parseTagName_noErr _ _ _)
  case contentTag => exact absurd h (parseContentTag_noErr _ _ _)
  case commentOrCdata => exact absurd h (parseCommentOrCdata_noErr _ _ _)
  case doctypeName =>
    unfold parseDoctypeName at h
    split at h
    · cases h
    · rename_i hw
      exact ⟨_, _, .doctypeName hh (by simpa using hw), createParseError_inj h⟩
  case tagWait =>
    obtain ⟨hc, ha, ⟨m, hm, hi⟩, he⟩ := parseTagWait_err h
    exact ⟨_, _, .key (.inl hh) hc m hm hi ha, he⟩
  case tagSelfClosing =>
    unfold parseTagSelfClosing at h
    split at h
    · rename_i hc
      split at h
      · cases h
      · rename_i m hm
        split at h
        · rename_i hcond
          simp only [Bool.and_eq_true, Bool.not_eq_true', decide_eq_true_eq, Bool.or_eq_false_iff, Option.isSome_eq_false_iff,
            Option.isNone_iff_eq_none] at hcond
          exact ⟨_, _, .self hh hc m hm hcond.1.1 hcond.1.2 hcond.2.1 hcond.2.2, createParseError_inj h⟩
        · cases h
    · split at h
      · cases h
      · obtain ⟨hc, ha, ⟨m, hm, hi⟩, he⟩ := parseTagWait_err h
        exact ⟨_, _, .key (.inr hh) hc m hm hi ha, he⟩
  case attrKey =>
    exfalso
    unfold parseTagAttrKey at h
    simp only [Res.bind_eq] at h
    repeat' split at h
    · exact noErr_bind (setTagAttrKey_noErr _) (fun a _ => noErr_ok _) e h
    · rename_i hc
      refine noErr_bind (setTagAttrKey_noErr _) (fun a _ e' h' => ?_) e h
      have := (parseTagWait_err h').1
      rw [hc] at this; exact absurd this (by decide)
    · exact noErr_bind (setTagAttrKey_noErr _) (fun a _ => noErr_ok _) e h
    · exact noErr_bind (setTagAttrKey_noErr _) (fun a _ => noErr_ok _) e h
    · cases h
  case attrValue =>
    exfalso
    unfold parseTagAttrValue at h
    simp only [Res.bind_eq] at h
    split at h
    · rename_i hc
      refine noErr_bind (setTagAttrValue_noErr _ _) (fun a _ e' h' => ?_) e h
      have := (parseTagWait_err h').1
      rw [hc.2] at this; exact absurd this (by decide)
    · split at h
      · split at h
        · exact noErr_bind (setTagAttrValue_noErr _ _) (fun a _ => noErr_ok _) e h
        · cases h
      · split at h
        · exact noErr_bind (setTagAttrValue_noErr _ _) (fun a _ => noErr_ok _) e h
        · cases h
  case tagEnd =>
    unfold parseTagEnd at h
    split at h
    · rename_i hc
      simp only at h
      by_cases hl : d.chain.length > 1
      · rw [if_pos hl] at h
        cases ht : d.chain.head? with
        | none =>
          rw [ht] at h
          simp only at h
          split at h
          · rename_i hf
            exact ⟨_, _, .endStray hh hc (by simpa using hf) (fun t m _ q => by rw [ht] at q; cases q), createParseError_inj h⟩
          · cases h
        | some t =>
          rw [ht] at h
          simp only at h
          cases hm : (d.heap.cell t).tmeta with
          | none => rw [hm] at h; simp only at h; cases h
          | some m =>
            rw [hm] at h
            simp only at h
            by_cases he : (isEqualCharsIgnoreCase m.name (charsTrimEnd d.prevChars)).1 = true
            · rw [if_pos he] at h
              by_cases hcs : (d.opts.caseSensitiveTagname && !(isEqualCharsIgnoreCase m.name (charsTrimEnd d.prevChars)).2) = true
              · rw [if_pos hcs] at h
                simp only [Bool.and_eq_true, Bool.not_eq_true'] at hcs
                have h' : (createParseError (.wrongCaseSensitive d.prevChars) d.position ctx : Res Doc) = .err e := by
                  unfold Doc.error createParseError at h; unfold createParseError; exact h
                exact ⟨_, _, .endCase hh hc hcs.1 t m hl ht hm he hcs.2, createParseError_inj h'⟩
              · rw [if_neg hcs] at h
                cases h
            · rw [if_neg he] at h
              simp only at h
              split at h
              · rename_i hf
                refine ⟨_, _, .endStray hh hc (by simpa using hf) (fun t' m' _ q1 q2 => ?_), createParseError_inj h⟩
                rw [ht] at q1; cases q1
                rw [hm] at q2; cases q2
                simpa using he
              · cases h
      · rw [if_neg hl] at h
        simp only at h
        split at h
        · rename_i hf
          exact ⟨_, _, .endStray hh hc (by simpa using hf) (fun t m q => absurd q hl), createParseError_inj h⟩
        · cases h
    · cases h
  case unkownTag =>
    unfold parseUnkownTag at h
    simp only [Res.bind_eq] at h
    split at h
    · exfalso
      exact noErr_bind (addNewNode_noErr _ _) (fun a _ => noErr_ok _) e h
    · rename_i ha
      split at h
      · exfalso
        split at h
        · exact noErr_bind (addNewNode_noErr _ _) (fun a _ => noErr_ok _) e h
        · exact noErr_bind (addNewNode_noErr _ _) (fun a _ => noErr_ok _) e h
      · rename_i h2
        split at h
        · cases h
        · rename_i h3
          split at h
          · rename_i hf
            refine ⟨_, _, .lt hh (by simpa using hf) ?_ h2 h3, createParseError_inj h⟩
            unfold isAlpha; simpa using ha
          · exact absurd h (fixUnescapedLt_noErr _ _ _)
  case exclamationBegin =>
    unfold parseExclamationBegin at h
    cases hdt : d.detect with
    | some D =>
      rw [hdt] at h
      simp only at h
      split at h
      · split at h
        · cases h
        · rename_i x hx
          split at h
          · exfalso
            split at h
            · split at h
              · exact noErr_bind (addNewNode_noErr _ _) (fun a _ => noErr_ok _) e h
              · split at h
                · exact noErr_bind (addNewNode_noErr _ _) (fun a _ => noErr_ok _) e h
                · cases h
            · cases h
          · rename_i hne
            refine ⟨_, _, .exclMore hh D hdt ?_, createParseError_inj h⟩
            rw [hx]; intro q; cases q; exact hne rfl
      · cases h
    | none =>
      rw [hdt] at h
      simp only at h
      split at h
      · cases h
      · rename_i h1
        split at h
        · cases h
        · rename_i h2
          split at h
          · rename_i h3
            split at h
            · rename_i sp n hs
              split at h
              · cases h
              · rename_i t ht
                split at h
                · cases h
                · rename_i m hm
                  split at h
                  · rename_i hn
                    rw [isEqualChars_none] at hn
                    exact ⟨_, _, .cdataSame hh hdt h3 sp t m (by rw [hs, hn]) ht hm, createParseError_inj h⟩
                  · cases h
            · rename_i hs
              exact ⟨_, _, .cdataNone hh hdt h3 hs, createParseError_inj h⟩
          · rename_i h3
            have hpc : d.prevChars = [] := by
              rcases hok.2 with q | ⟨D, q, _⟩
              · exact q.2
              · rw [hdt] at q; cases q
            rw [hpc] at h
            exact ⟨_, _, .exclFirst hh hdt h1 (fun q => h2 (.inl q)) (fun q => h2 (.inr q)) h3, createParseError_inj h⟩

/-- … and each of these is reported. -/
theorem ErrIs.runHandle {d : Doc} {c : Char} {k : ErrorKind} {i : Nat} (hd : Ctl d) (h : ErrIs d c k i) (ctx : Str) :
    Rphtml.runHandle d c ctx = createParseError k i ctx := by
  have hok := hd.hs
  unfold HandleOk at hok
  unfold Rphtml.runHandle
  cases h with
  | lt hh hf h1 h2 h3 =>
    unfold isAlpha at h1
    simp only [hh, parseUnkownTag]
    rw [if_neg (by simpa using h1), if_neg h2, if_neg h3, hf]
    rfl
  | exclFirst hh hdt h1 h2 h3 h4 =>
    rw [hh] at hok
    have hpc : d.prevChars = [] := by
      rcases hok.2 with q | ⟨D, q, _⟩
      · exact q.2
      · rw [hdt] at q; cases q
    simp only [hh, parseExclamationBegin, hdt]
    rw [if_neg h1, if_neg (by rintro (q | q); exact h2 q; exact h3 q), if_neg h4, hpc]
  | cdataNone hh hdt hc hs =>
    subst hc
    simp only [hh, parseExclamationBegin, hdt, hs]
    rw [if_neg (by decide), if_neg (by decide), if_pos trivial]
  | cdataSame hh hdt hc sp t m hs ht hm =>
    subst hc
    simp only [hh, parseExclamationBegin, hdt, hs, ht, hm]
    rw [if_neg (by decide), if_neg (by decide), if_pos trivial, if_pos ((isEqualChars_none _ _).2 rfl)]
  | exclMore hh D hdt hc =>
    rw [hh] at hok
    have hlt : d.prevChars.length < D.length := by
      rcases hok.2 with q | ⟨D', q, _, _, q2, _⟩
      · rw [hdt] at q; cases q.1
      · rw [hdt] at q; cases q; exact q2
    simp only [hh, parseExclamationBegin, hdt]
    rw [if_pos hlt]
    have hx : D[d.prevChars.length]? = some D[d.prevChars.length] := List.getElem?_eq_getElem hlt
    rw [hx] at hc ⊢
    simp only
    rw [if_neg (fun q => hc (by rw [q]))]
  | doctypeName hh hc =>
    simp only [hh, parseDoctypeName, hc]
    rfl
  | key hh hc m hm hi ha =>
    subst hc
    rcases hh with hh | hh
    · simp only [hh]
      exact parseTagWait_key hm hi ha
    · simp only [hh, parseTagSelfClosing]
      rw [if_neg (by decide), if_neg (by decide)]
      exact parseTagWait_key hm hi ha
  | self hh hc m hm ha h1 h2 h3 =>
    subst hc
    simp only [hh, parseTagSelfClosing, if_true, hm, ha, h2, h3]
    rw [if_pos (by simp [h1])]
    rfl
  | endCase hh hc hf t m hl ht hm he hn =>
    subst hc
    simp only [hh, parseTagEnd, if_true, ht, hm]
    rw [if_pos hl, if_pos he, if_pos (by simp [hf, hn])]
    rfl
  | endStray hh hc hf hm =>
    subst hc
    simp only [hh, parseTagEnd, if_true]
    by_cases hl : d.chain.length > 1
    · rw [if_pos hl]
      cases ht : d.chain.head? with
      | none => simp only [hf]; rfl
      | some t =>
        simp only
        cases hmm : (d.heap.cell t).tmeta with
        | none =>
          exfalso
          have hmem : t ∈ d.chain := List.mem_of_mem_head? ht
          have h0 : t ≠ 0 := by
            intro q
            subst q
            have hs := hd.chainSorted
            cases hch : d.chain with
            | nil => rw [hch] at hl; simp at hl
            | cons a as =>
              rw [hch] at ht hs hl
              simp only [List.head?_cons, Option.some.injEq] at ht
              subst ht
              cases as with
              | nil => simp at hl
              | cons b bs =>
                have := (List.pairwise_cons.1 hs).1 b (by simp)
                exact absurd this (Nat.not_lt_zero _)
          rcases hd.metaDone t (hd.chainLt t hmem) (hd.chainTag t hmem h0) with q | q
          · exact q hmm
          · rw [hh] at q; cases q.1
        | some m =>
          simp only
          rw [if_neg (by rw [hm t m hl ht hmm]; decide)]
          simp only [hf]; rfl
    · rw [if_neg hl]
      simp only [hf]; rfl

end Rphtml
