import Verif.Proofs.Abs

/-!
# The steps of the machine, one by one

`AStep` lists the transitions of `astep`; the invariants of the machine are proved by going through the list.
-/

namespace Rphtml

/-- The transitions of the machine. -/
inductive AStep (o : ParseOptions) : AState → Char → AState → Prop
  | lt {a : AState} {l : Last} (hm : a.mode = .wait l ∨ ∃ p, l = .text p ∧ a.mode = .text p) :
      AStep o a '<' { a with mode := .lt l }
  | resume {a : AState} {c : Char} {p : Place} (hm : a.mode = .wait (.text p)) (ho : o.autoFixUnexpectedEndtag = true) (hc : c ≠ '<') :
      AStep o a c { a.more p [c] with mode := .text p }
  | start {a : AState} {c : Char} {l : Last} (hm : a.mode = .wait l) (hl : ∀ p, l = .text p → o.autoFixUnexpectedEndtag = false)
      (hover : a.over = false) (hc : c ≠ '<') : AStep o a c { a.push (.text [c]) with mode := .text .top }
  | more {a : AState} {c : Char} {p : Place} (hm : a.mode = .text p) (hc : c ≠ '<') : AStep o a c (a.more p [c])
  | tagOpen {a : AState} {c : Char} {l : Last} (hm : a.mode = .lt l) (hc : isAlpha c = true) (hover : a.over = false) :
      AStep o a c { a with mode := .tagName [c] }
  | endOpen {a : AState} {l : Last} (hm : a.mode = .lt l) :
      AStep o a '/' { a with mode := .tagEnd [] (if o.autoFixUnclosedTag then l else .other) }
  | bangOpen {a : AState} {l : Last} (hm : a.mode = .lt l) : AStep o a '!' { a with mode := .bang none [] }
  | ltMore {a : AState} {p : Place} {c : Char} (hm : a.mode = .lt (.text p)) (ho : o.autoFixUnescapedLt = true)
      (hc : isAlpha c = false ∧ c ≠ '/' ∧ c ≠ '!') :
      AStep o a c { a.more p (if c = '<' then ['&', 'l', 't', ';'] else ['&', 'l', 't', ';', c]) with
        mode := if c = '<' then .lt (.text p) else .text p }
  | ltFill {a : AState} {c : Char} (hm : a.mode = .lt .hole) (ho : o.autoFixUnescapedLt = true)
      (hc : isAlpha c = false ∧ c ≠ '/' ∧ c ≠ '!') :
      AStep o a c { a.fill (if c = '<' then ['&', 'l', 't', ';'] else ['&', 'l', 't', ';', c]) with
        mode := if c = '<' then .lt (.text .nested) else .text .nested }
  | ltPush {a : AState} {c : Char} (hm : a.mode = .lt .other) (ho : o.autoFixUnescapedLt = true)
      (hc : isAlpha c = false ∧ c ≠ '/' ∧ c ≠ '!') :
      AStep o a c { a.push (.text (if c = '<' then ['&', 'l', 't', ';'] else ['&', 'l', 't', ';', c])) with
        mode := if c = '<' then .lt (.text .top) else .text .top }
  | bangDash {a : AState} {pc : Str} (hm : a.mode = .bang none pc) : AStep o a '-' { a with mode := .bang (some detectComment) ['-'] }
  | bangD {a : AState} {c : Char} {pc : Str} (hm : a.mode = .bang none pc) (hc : c = 'D' ∨ c = 'd') :
      AStep o a c { a with mode := .bang (some detectDoctype) [c] }
  | bangC {a : AState} {pc n : Str} {k : SpecialTag} (hm : a.mode = .bang none pc) (hs : a.sp = some (k, n)) (hover : a.over = false)
      (hrest : a.rest ≠ []) (hn : n ≠ a.top.name) : AStep o a '[' { a with mode := .bang (some detectCdata) ['['] }
  | bangMore {a : AState} {c : Char} {D pc : Str} (hm : a.mode = .bang (some D) pc) (hc : D[pc.length]? = some (toUpper c))
      (hl : pc.length + 1 < D.length) : AStep o a c { a with mode := .bang (some D) (pc ++ [c]) }
  | commentOpen {a : AState} {c : Char} {pc : Str} (hm : a.mode = .bang (some detectComment) pc)
      (hc : detectComment[pc.length]? = some (toUpper c)) (hl : ¬ pc.length + 1 < detectComment.length) (hover : a.over = false) :
      AStep o a c { a with mode := .comment false [], mark := '-' }
  | cdataOpen {a : AState} {c : Char} {pc : Str} (hm : a.mode = .bang (some detectCdata) pc)
      (hc : detectCdata[pc.length]? = some (toUpper c)) (hl : ¬ pc.length + 1 < detectCdata.length) (hover : a.over = false) :
      AStep o a c { a with mode := .comment true [], mark := ']' }
  | doctypeOpen {a : AState} {c : Char} {D pc : Str} (hm : a.mode = .bang (some D) pc) (hd1 : D ≠ detectComment) (hd2 : D ≠ detectCdata)
      (hc : D[pc.length]? = some (toUpper c)) (hl : ¬ pc.length + 1 < D.length) (hover : a.over = false) :
      AStep o a c { a with mode := .doctypeName (pc ++ [c]) }
  | commentClose {a : AState} {cd : Bool} {pc b : Str} (hm : a.mode = .comment cd pc)
      (hb : commentBody (if cd then ']' else '-') pc = some b) :
      AStep o a '>' { a.push (if cd then .cdata b else .comment b) with mode := .wait .other, mark := '\x00' }
  | commentMore {a : AState} {c : Char} {cd : Bool} {pc : Str} (hm : a.mode = .comment cd pc)
      (hb : c = '>' → commentBody (if cd then ']' else '-') pc = none) :
      AStep o a c { a with mode := .comment cd (pc ++ [c]) }
  | doctypeName {a : AState} {c : Char} {pc : Str} (hm : a.mode = .doctypeName pc) (hc : isWs c = true) :
      AStep o a c { a with mode := .inTag true ⟨.tagWait, { name := pc, isVoid := isVoidTag (lowerAll pc) }, [], a.mark⟩ }
  | nameMore {a : AState} {c : Char} {pc : Str} (hm : a.mode = .tagName pc) (hc : c ≠ '>' ∧ c ≠ '/' ∧ isWs c = false) :
      AStep o a c { a with mode := .tagName (pc ++ [c]) }
  | nameEnd {a : AState} {c : Char} {pc : Str} (hm : a.mode = .tagName pc) (hc : c ≠ '>' ∧ (c = '/' ∨ isWs c = true)) :
      AStep o a c { a with mode := .inTag false ⟨if c = '/' then .tagSelfClosing else .tagWait, { name := pc, isVoid := isVoidTag (lowerAll pc) }, [], a.mark⟩ }
  | nameClose {a : AState} {pc : Str} (hm : a.mode = .tagName pc) :
      AStep o a '>' (a.openTag { name := pc, isVoid := isVoidTag (lowerAll pc) } [])
  | tagMore {a : AState} {c : Char} {isDoc : Bool} {t t' : TagSt} {id : Option Str} (hm : a.mode = .inTag isDoc t)
      (ht : tagChar isDoc o.allowAttrKeyStartsWithEqualSign t c = .cont t' id) :
      AStep o a c { a with mode := .inTag isDoc t', mark := t'.mark }
  | docClose {a : AState} {c : Char} {t : TagSt} {m : TagMeta} {pc : Str} {mk : Char} {id : Option Str} (hm : a.mode = .inTag true t)
      (ht : tagChar true o.allowAttrKeyStartsWithEqualSign t c = .close m pc mk id) :
      AStep o a c { a.push (.doctype m.name m.attrs false) with mode := .wait .other, mark := mk }
  | tagClose {a : AState} {c : Char} {t : TagSt} {m : TagMeta} {pc : Str} {mk : Char} {id : Option Str} (hm : a.mode = .inTag false t)
      (ht : tagChar false o.allowAttrKeyStartsWithEqualSign t c = .close m pc mk id) :
      AStep o a c { a.openTag m pc with mark := mk }
  | docSelf {a : AState} {c : Char} {t : TagSt} (hm : a.mode = .inTag true t)
      (ht : tagChar true o.allowAttrKeyStartsWithEqualSign t c = .selfClose) :
      AStep o a c { (a.push (.doctype t.m.name t.m.attrs true)).pop none with mode := .wait .other }
  | tagSelf {a : AState} {c : Char} {t : TagSt} (hm : a.mode = .inTag false t)
      (ht : tagChar false o.allowAttrKeyStartsWithEqualSign t c = .selfClose)
      (ho : o.allowSelfClosing = true ∨ t.m.isVoid = true ∨ a.sp ≠ none) :
      AStep o a c { a.push (.elem t.m.name t.m.attrs true none [] none) with mode := .wait .other }
  | endMore {a : AState} {c : Char} {pc : Str} {ret : Last} (hm : a.mode = .tagEnd pc ret) (hc : c ≠ '>') :
      AStep o a c { a with mode := .tagEnd (pc ++ [c]) ret }
  | endMatch {a : AState} {pc : Str} {ret : Last} (hm : a.mode = .tagEnd pc ret) (hr : a.rest ≠ [])
      (he : (isEqualCharsIgnoreCase a.top.name (charsTrimEnd pc)).1 = true)
      (hcase : o.caseSensitiveTagname = true → (isEqualCharsIgnoreCase a.top.name (charsTrimEnd pc)).2 = true) :
      AStep o a '>' { a.pop (some pc) with
        sp := match a.sp with
          | some (s, n) => if n = charsTrimEnd pc then none else some (s, n)
          | none => none
        mode := .wait .other }
  | endStray {a : AState} {pc : Str} {ret : Last} (hm : a.mode = .tagEnd pc ret)
      (he : ¬ (a.rest ≠ [] ∧ (isEqualCharsIgnoreCase a.top.name (charsTrimEnd pc)).1 = true)) (ho : o.autoFixUnexpectedEndtag = true) :
      AStep o a '>' { a with mode := .wait ret }
  | rawClose {a : AState} {m : TagMeta} {pc : Str} {n : Nat} (hm : a.mode = .raw m pc) (hb : rawBody o.caseSensitiveTagname m.name pc = some n) :
      AStep o a '>' { a.push (.elem m.name m.attrs false (some (pc.take n)) [] (some (pc.drop (n + 2)))) with mode := .wait .hole }
  | rawMore {a : AState} {c : Char} {m : TagMeta} {pc : Str} (hm : a.mode = .raw m pc)
      (hb : c = '>' → rawBody o.caseSensitiveTagname m.name pc = none) : AStep o a c { a with mode := .raw m (pc ++ [c]) }

theorem astep_sound {o : ParseOptions} {a a' : AState} {c : Char} (h : astep o a c = some a') : AStep o a c a' := by
  unfold astep at h
  cases hm : a.mode with
  | wait l =>
    simp only [hm] at h
    by_cases hc : c = '<'
    · subst hc; rw [if_pos rfl] at h; cases h; exact .lt (Or.inl hm)
    · rw [if_neg hc] at h
      cases l with
      | text p =>
        cases ho : o.autoFixUnexpectedEndtag with
        | true => simp only [ho, Option.some.injEq] at h; subst h; exact .resume hm ho hc
        | false =>
          simp only [ho] at h
          cases hover : a.over with
          | true => simp [hover] at h
          | false =>
            simp only [hover, Bool.false_eq_true, if_false, Option.some.injEq] at h
            subst h; exact .start hm (fun _ _ => ho) hover hc
      | other =>
        simp only at h
        cases hover : a.over with
        | true => simp [hover] at h
        | false =>
          simp only [hover, Bool.false_eq_true, if_false, Option.some.injEq] at h
          subst h; exact .start hm (fun p hp => by cases hp) hover hc
      | hole =>
        simp only at h
        cases hover : a.over with
        | true => simp [hover] at h
        | false =>
          simp only [hover, Bool.false_eq_true, if_false, Option.some.injEq] at h
          subst h; exact .start hm (fun p hp => by cases hp) hover hc
  | text p =>
    simp only [hm] at h
    by_cases hc : c = '<'
    · subst hc; rw [if_pos rfl] at h; cases h; exact .lt (Or.inr ⟨p, rfl, hm⟩)
    · rw [if_neg hc] at h; cases h; exact .more hm hc
  | lt l =>
    simp only [hm] at h
    by_cases h1 : isAlpha c = true
    · rw [if_pos h1] at h
      by_cases hover : a.over = true
      · rw [if_pos hover] at h; cases h
      · rw [if_neg hover] at h; cases h; exact .tagOpen hm h1 (by simpa using hover)
    · rw [if_neg h1] at h
      by_cases h2 : c = '/'
      · rw [if_pos h2] at h; cases h; subst h2; exact .endOpen hm
      · rw [if_neg h2] at h
        by_cases h3 : c = '!'
        · rw [if_pos h3] at h; cases h; subst h3; exact .bangOpen hm
        · rw [if_neg h3] at h
          cases ho : o.autoFixUnescapedLt with
          | false => simp [ho] at h
          | true =>
            simp only [ho, Bool.true_eq_false, if_false] at h
            have hc : isAlpha c = false ∧ c ≠ '/' ∧ c ≠ '!' := ⟨by simpa using h1, h2, h3⟩
            cases l with
            | text p => simp only [Option.some.injEq] at h; subst h; exact .ltMore hm ho hc
            | hole => simp only [Option.some.injEq] at h; subst h; exact .ltFill hm ho hc
            | other => simp only [Option.some.injEq] at h; subst h; exact .ltPush hm ho hc
  | bang det pc =>
    cases det with
    | none =>
      simp only [hm] at h
      by_cases h1 : c = '-'
      · rw [if_pos h1] at h; cases h; subst h1; exact .bangDash hm
      · rw [if_neg h1] at h
        by_cases h2 : c = 'D' ∨ c = 'd'
        · rw [if_pos h2] at h; cases h; exact .bangD hm h2
        · rw [if_neg h2] at h
          by_cases h3 : c = '['
          · rw [if_pos h3] at h
            cases hs : a.sp with
            | none => simp [hs] at h
            | some kn =>
              obtain ⟨k, n⟩ := kn
              simp only [hs] at h
              by_cases h4 : a.over = true ∨ a.rest.isEmpty = true ∨ n = a.top.name
              · rw [if_pos h4] at h; cases h
              · rw [if_neg h4] at h; cases h; subst h3
                simp only [not_or, Bool.not_eq_true] at h4
                have := AStep.bangC (o := o) hm hs h4.1 (by intro hr; rw [hr] at h4; simp at h4) h4.2.2
                rw [hs] at this; exact this
          · rw [if_neg h3] at h; cases h
    | some D =>
      simp only [hm] at h
      by_cases h1 : D[pc.length]? = some (toUpper c)
      · rw [if_pos h1] at h
        by_cases h2 : pc.length + 1 < D.length
        · rw [if_pos h2] at h; cases h; exact .bangMore hm h1 h2
        · rw [if_neg h2] at h
          by_cases hover : a.over = true
          · rw [if_pos hover] at h; cases h
          · rw [if_neg hover] at h
            have hover : a.over = false := by simpa using hover
            by_cases h3 : D = detectComment
            · subst h3; rw [if_pos rfl] at h; cases h; exact .commentOpen hm h1 h2 hover
            · rw [if_neg h3] at h
              by_cases h4 : D = detectCdata
              · subst h4; rw [if_pos rfl] at h; cases h; exact .cdataOpen hm h1 h2 hover
              · rw [if_neg h4] at h; cases h; exact .doctypeOpen hm h3 h4 h1 h2 hover
      · rw [if_neg h1] at h; cases h
  | comment cd pc =>
    simp only [hm] at h
    by_cases h1 : c = '>'
    · subst h1
      simp only [if_true] at h
      cases hb : commentBody (if cd = true then ']' else '-') pc with
      | none => rw [hb] at h; cases h; exact .commentMore hm fun _ => hb
      | some b => rw [hb] at h; cases h; exact .commentClose hm hb
    · rw [if_neg h1] at h; cases h; exact .commentMore hm fun h => absurd h h1
  | doctypeName pc =>
    simp only [hm] at h
    by_cases h1 : isWs c = true
    · rw [if_pos h1] at h; cases h; exact .doctypeName hm h1
    · rw [if_neg h1] at h; cases h
  | tagName pc =>
    simp only [hm] at h
    by_cases h1 : c = '>'
    · subst h1; rw [if_pos rfl] at h; cases h; exact .nameClose hm
    · rw [if_neg h1] at h
      by_cases h2 : c = '/'
      · subst h2; rw [if_pos rfl] at h; cases h
        exact .nameEnd (c := '/') hm ⟨h1, Or.inl rfl⟩
      · rw [if_neg h2] at h
        by_cases h3 : isWs c = true
        · rw [if_pos h3] at h; cases h
          have := AStep.nameEnd (o := o) hm ⟨h1, Or.inr h3⟩
          rw [if_neg h2] at this; exact this
        · rw [if_neg h3] at h; cases h; exact .nameMore hm ⟨h1, h2, by simpa using h3⟩
  | inTag isDoc t =>
    simp only [hm] at h
    cases ht : tagChar isDoc o.allowAttrKeyStartsWithEqualSign t c with
    | cont t' id => rw [ht] at h; cases h; exact .tagMore hm ht
    | close m pc mk id =>
      rw [ht] at h
      cases isDoc with
      | true => simp only [if_true, Option.some.injEq] at h; subst h; exact .docClose hm ht
      | false => simp only [Bool.false_eq_true, if_false, Option.some.injEq] at h; subst h; exact .tagClose hm ht
    | selfClose =>
      rw [ht] at h
      cases isDoc with
      | true => simp only [if_true, Option.some.injEq] at h; subst h; exact .docSelf hm ht
      | false =>
        simp only [Bool.false_eq_true, if_false] at h
        by_cases h1 : o.allowSelfClosing = true ∨ t.m.isVoid = true ∨ a.sp ≠ none
        · rw [if_pos h1] at h; cases h; exact .tagSelf hm ht h1
        · rw [if_neg h1] at h; cases h
    | err k => rw [ht] at h; cases h
  | tagEnd pc ret =>
    simp only [hm] at h
    by_cases h1 : c = '>'
    · subst h1
      rw [if_pos rfl] at h
      by_cases h2 : a.rest ≠ [] ∧ (isEqualCharsIgnoreCase a.top.name (charsTrimEnd pc)).1 = true
      · rw [if_pos h2] at h
        by_cases h3 : o.caseSensitiveTagname = true ∧ (isEqualCharsIgnoreCase a.top.name (charsTrimEnd pc)).2 = false
        · rw [if_pos h3] at h; cases h
        · rw [if_neg h3] at h; cases h
          exact .endMatch hm h2.1 h2.2 (by
            intro q
            cases hx : (isEqualCharsIgnoreCase a.top.name (charsTrimEnd pc)).2 with
            | true => rfl
            | false => exact absurd ⟨q, hx⟩ h3)
      · rw [if_neg h2] at h
        cases ho : o.autoFixUnexpectedEndtag with
        | true => simp only [ho, if_true, Option.some.injEq] at h; subst h; exact .endStray hm h2 ho
        | false => simp [ho] at h
    · rw [if_neg h1] at h; cases h; exact .endMore hm h1
  | raw m pc =>
    simp only [hm] at h
    by_cases h1 : c = '>'
    · subst h1
      simp only [if_true] at h
      cases hb : rawBody o.caseSensitiveTagname m.name pc with
      | none => rw [hb] at h; cases h; exact .rawMore hm fun _ => hb
      | some b => rw [hb] at h; cases h; exact .rawClose hm hb
    · rw [if_neg h1] at h; cases h; exact .rawMore hm fun h => absurd h h1

/-- An invariant of the machine, in the characters read so far. -/
theorem arun_inv {o : ParseOptions} {P : Str → AState → Prop}
    (step : ∀ s a c a', P s a → AStep o a c a' → P (s ++ [c]) a') :
    ∀ (cs s : Str) (a a' : AState), P s a → arun o a cs = some a' → P (s ++ cs) a'
  | [], s, a, a', h, hr => by simp only [arun, Option.some.injEq] at hr; subst hr; simpa using h
  | c :: cs, s, a, a', h, hr => by
    simp only [arun] at hr
    cases hs : astep o a c with
    | none => rw [hs] at hr; cases hr
    | some b =>
      rw [hs] at hr
      have := arun_inv step cs (s ++ [c]) b a' (step s a c b h (astep_sound hs)) hr
      simpa using this

end Rphtml
