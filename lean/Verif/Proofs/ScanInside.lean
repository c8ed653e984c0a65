import Verif.Proofs.ScanRun

/-!
# The machine inside a construct
-/

namespace Rphtml
open Spec

/-- A tag can always be finished. -/
theorem tag_finish {isDoc q : Bool} {t : TagSt} (h : t.Ok2) : ∃ v, v ≠ [] ∧ ∃ as sc, tagEnds isDoc q t v = some (as, some sc) := by
  have hwait : ∀ t : TagSt, t.handle = .tagWait → ∃ as sc, tagEnds isDoc q t ['>'] = some (as, some sc) := by
    intro t ht
    have : tagChar isDoc q t '>' = .close t.m t.pc t.mark none := by simp [tagChar, ht, tagWaitC]
    exact ⟨t.m.attrs, false, by simp only [tagEnds, this, if_true]⟩
  have hkey : ∀ t : TagSt, t.handle = .attrKey → ∃ as sc, tagEnds isDoc q t ['>'] = some (as, some sc) := by
    intro t ht
    have : ∃ m pc mk id, tagChar isDoc q t '>' = .close m pc mk id := by
      exact ⟨_, _, _, _, by
        simp only [tagChar, ht]
        rw [if_neg (by decide), if_pos trivial]⟩
    obtain ⟨m, pc, mk, id, e⟩ := this
    exact ⟨m.attrs, false, by simp only [tagEnds, e, if_true]⟩
  have hval : ∀ t : TagSt, t.handle = .attrValue → ∃ v, v ≠ [] ∧ ∃ as sc, tagEnds isDoc q t v = some (as, some sc) := by
    intro t ht
    by_cases hk : t.mark = ' '
    · have : ∃ m pc mk id, tagChar isDoc q t '>' = .close m pc mk id := by
        exact ⟨_, _, _, _, by
          simp only [tagChar, ht]
          rw [if_pos ⟨hk, trivial⟩]⟩
      obtain ⟨m, pc, mk, id, e⟩ := this
      exact ⟨['>'], by simp, m.attrs, false, by simp only [tagEnds, e, if_true]⟩
    · have e : tagChar isDoc q t t.mark = .cont ⟨.tagWait, { t.m.valueLast t.pc (some t.mark) with codeIn := .wait }, [], '\x00'⟩ (t.m.idOf t.pc) := by
        simp only [tagChar, ht]
        rw [if_neg (fun q => hk q.1), if_pos (by simp [hk])]
        simp [hk]
      obtain ⟨as, sc, h1⟩ := hwait ⟨.tagWait, { t.m.valueLast t.pc (some t.mark) with codeIn := .wait }, [], '\x00'⟩ rfl
      exact ⟨[t.mark, '>'], by simp, as, sc, by rw [tagEnds, e]; exact h1⟩
  unfold TagSt.Ok2 at h
  cases ht : t.handle with
  | tagWait => exact ⟨['>'], by simp, hwait t ht⟩
  | attrKey => exact ⟨['>'], by simp, hkey t ht⟩
  | attrValue => exact hval t ht
  | tagSelfClosing =>
    have hw : isWs 'a' = false := by decide
    by_cases hc : t.m.codeIn = .waitValue
    · have : ∃ t' id, tagChar isDoc q t 'a' = .cont t' id ∧ t'.handle = .attrValue := by
        refine ⟨_, _, by
          simp only [tagChar, ht, tagWaitC, hw]
          simp [hc]; exact ⟨rfl, rfl⟩, rfl⟩
      obtain ⟨t', id, e1, e2⟩ := this
      obtain ⟨v, hv, as, sc, h1⟩ := hval t' e2
      exact ⟨'a' :: v, by simp, as, sc, by rw [tagEnds, e1]; exact h1⟩
    · have : ∃ t' id, tagChar isDoc q t 'a' = .cont t' id ∧ t'.handle = .attrKey := by
        refine ⟨_, _, by
          simp only [tagChar, ht, tagWaitC, hw]
          simp [hc]; exact ⟨rfl, rfl⟩, rfl⟩
      obtain ⟨t', id, e1, e2⟩ := this
      obtain ⟨as, sc, h1⟩ := hkey t' e2
      exact ⟨'a' :: ['>'], by simp, as, sc, by rw [tagEnds, e1]; exact h1⟩
  | _ => rw [ht] at h; exact h.elim

theorem trun_ok2 {isDoc q : Bool} : ∀ (s : Str) (t t' : TagSt), t.Ok2 → trun isDoc q t s = some t' → t'.Ok2 ∧ t'.m.name = t.m.name
  | [], t, t', h, e => by simp only [trun, Option.some.injEq] at e; subst e; exact ⟨h, rfl⟩
  | c :: s, t, t', h, e => by
    simp only [trun] at e
    cases hc : tagChar isDoc q t c with
    | cont t1 id =>
      rw [hc] at e
      obtain ⟨k1, k2, _⟩ := tagChar_cont h hc
      obtain ⟨j1, j2⟩ := trun_ok2 s t1 t' k1 e
      exact ⟨j1, j2.trans k2.name⟩
    | close m pc mk id => rw [hc] at e; cases e
    | selfClose => rw [hc] at e; cases e
    | err k => rw [hc] at e; cases e

/-- The beginnings of the rest of a tag. -/
theorem tagPart_iff {isDoc q : Bool} {n t : Str} {mk : Char} :
    tagPart q isDoc t ↔ ∃ t', trun isDoc q ⟨.tagWait, nameMeta n, [], mk⟩ t = some t' := by
  constructor
  · rintro ⟨v, hv, as, sc, h⟩
    have := tagEnds_of h ⟨.tagWait, nameMeta n, [], mk⟩ rfl rfl rfl
    obtain ⟨s, t', c, e1, e2, _⟩ := tagEnds_last _ _ (ok2_name n mk) this
    rcases List.eq_nil_or_concat v with rfl | ⟨v', c', rfl⟩
    · exact absurd rfl hv
    · rw [List.concat_eq_append, ← List.append_assoc] at e1
      have := (List.append_inj' e1 rfl).1
      rw [← this, trun_append] at e2
      cases h1 : trun isDoc q ⟨.tagWait, nameMeta n, [], mk⟩ t with
      | none => rw [h1] at e2; cases e2
      | some x => exact ⟨x, rfl⟩
  · rintro ⟨t', h⟩
    obtain ⟨v, hv, as, sc, h1⟩ := tag_finish (isDoc := isDoc) (q := q) (trun_ok2 t _ t' (ok2_name n mk) h).1
    obtain ⟨bs, e1, e2⟩ := tagEnds_sound _ _ _ _ (piece_name isDoc q n mk) ((tagEnds_trun t v _ t' h).trans h1)
    exact ⟨v, hv, bs, sc, e2⟩

/-- A comment that has not ended. -/
theorem commentPart_open (k : Char) (w : Str) : (∀ x y, w = x ++ '>' :: y → commentBody k x = none) ↔ ¬ [k, k, '>'] <:+: w.tail := by
  constructor
  · rintro h ⟨s, t, e⟩
    cases w with
    | nil => simp at e
    | cons b w =>
      simp only [List.tail_cons] at e
      have := h (b :: s ++ [k, k]) t (by rw [← e]; simp)
      rw [(commentBody_iff k _ (b :: s)).2 ⟨by simp, rfl⟩] at this
      cases this
  · intro h x y e
    cases hb : commentBody k x with
    | none => rfl
    | some b =>
      exfalso
      obtain ⟨b1, rfl⟩ := (commentBody_iff k x b).1 hb
      cases b with
      | nil => exact b1 rfl
      | cons b0 b => exact h ⟨b, y, by rw [e]; simp⟩

/-- Raw text that has not ended. -/
theorem rawPart_open {cs : Bool} {n w : Str} (hn : TagNameOk n) : (∀ x y, w = x ++ '>' :: y → rawBody cs n x = none) ↔
    ∀ y k z, w = y ++ "</".toList ++ k ++ ">".toList ++ z → ¬ closes cs n k := by
  constructor
  · intro h y k z e hk
    have := h (y ++ ['<', '/'] ++ k) z (by rw [e]; simp)
    rw [(rawBody_spec hn).2 ⟨y, k, rfl, hk, rfl⟩] at this
    cases this
  · intro h x y e
    cases hb : rawBody cs n x with
    | none => rfl
    | some m =>
      exfalso
      obtain ⟨u, k, rfl, hk, _⟩ := (rawBody_spec hn).1 hb
      exact h u k y (by rw [e]; simp) hk

/-- The beginning of a keyword. -/
theorem arun_bangPart {o : ParseOptions} {D : Str} : ∀ (cs pc : Str) (a : AState), a.mode = .bang (some D) pc →
    (pc ++ cs).length < D.length → cs.map toUpper <+: D.drop pc.length →
    arun o a cs = some { a with mode := .bang (some D) (pc ++ cs) }
  | [], pc, a, h, _, _ => by simp [arun, ← h]
  | c :: cs, pc, a, h, hl, hd => by
    obtain ⟨z, hz⟩ := hd
    have h1 : D[pc.length]? = some (toUpper c) := by
      have := congrArg (fun l => l[0]?) hz
      simpa using this.symm
    have hlt : pc.length + 1 < D.length := by simp at hl; omega
    simp only [arun, astep, h]
    rw [if_pos h1, if_pos hlt]
    simp only
    rw [arun_bangPart cs (pc ++ [c]) _ rfl (by simpa using hl) ⟨z, by
      rw [List.length_append, List.length_singleton, ← List.drop_drop, ← hz]; simp⟩]
    simp

/-- The machine is inside this construct. -/
def partMode (o : ParseOptions) : Spec.Part → Mode → Prop
  | .bang w, m => ∃ D, m = .bang D w
  | .comment w, m => m = .comment false w
  | .cdata w, m => m = .comment true w
  | .doctype n t, m => if t = [] then m = .doctypeName n else
      ∃ mk t', m = .inTag true t' ∧ trun true o.allowAttrKeyStartsWithEqualSign ⟨.tagWait, nameMeta n, [], mk⟩ t = some t'
  | .tag n t, m => if t = [] then m = .tagName n else
      ∃ mk t', m = .inTag false t' ∧ trun false o.allowAttrKeyStartsWithEqualSign ⟨.tagWait, nameMeta n, [], mk⟩ t = some t'
  | .raw n w, m => ∃ q, m = .raw q w ∧ q.name = n
  | .endTag e, m => ∃ r, m = .tagEnd e r

theorem partMode_simple {o : ParseOptions} {p : Spec.Part} {m : Mode} (h : partMode o p m) : m.simple = false := by
  cases p with
  | bang w => obtain ⟨D, rfl⟩ := h; rfl
  | comment w => rw [show m = _ from h]; rfl
  | cdata w => rw [show m = _ from h]; rfl
  | doctype n t =>
    simp only [partMode] at h
    split at h
    · rw [h]; rfl
    · obtain ⟨mk, t', rfl, _⟩ := h; rfl
  | tag n t =>
    simp only [partMode] at h
    split at h
    · rw [h]; rfl
    · obtain ⟨mk, t', rfl, _⟩ := h; rfl
  | raw n w => obtain ⟨q, rfl, _⟩ := h; rfl
  | endTag e => obtain ⟨r, rfl⟩ := h; rfl

/-- The machine stands where the constructs end. -/
structure Stands (a : AState) (S : Sit) : Prop where
  top : a.top = S.top
  rest : a.rest = S.rest
  over : a.over = S.over
  foreign : ctxOf a = S.foreign

theorem fold_char {c d : Char} (h : c.toLower = d) (hd : d.toNat < 65 ∨ 122 < d.toNat ∨ (90 < d.toNat ∧ d.toNat < 97)) : c = d := by
  have e := congrArg Char.toNat h
  rw [← toLower_eq_core, toNat_toLower] at e
  apply char_ext
  split at e <;> omega

/-- The machine reads every sequence of constructs with an unfinished one behind it. -/
theorem Inside.run {o : ParseOptions} {u : Str} {S : Sit} {p : Spec.Part} (h : Spec.Inside o u S p) :
    ∃ a, arun o {} u = some a ∧ partMode o p a.mode ∧ Stands a S := by
  cases h with
  | @bang u w D S h hs hD hw hl hc =>
    obtain ⟨a, h1, h2, rfl⟩ := Scan.run h
    obtain ⟨l, hm, hl'⟩ := spot_lt h2 hs
    rw [arun_append, h1, Option.bind_some, arun_behind hm, read_bang rfl]
    cases w with
    | nil => exact ⟨_, rfl, ⟨_, rfl⟩, rfl, rfl, rfl, rfl⟩
    | cons c w =>
      simp only [List.mem_cons, List.not_mem_nil, or_false] at hD
      have hup : ∀ E : Str, fold (c :: w) <+: E → (c :: w).map toUpper <+: E.map toUpper := by
        rintro E ⟨z, hz⟩
        refine ⟨z.map toUpper, ?_⟩
        rw [← hz, List.map_append, ← upper_of_fold (n := c :: w) (w := fold (c :: w)) rfl]
      have hu := hup D hw
      rcases hD with rfl | rfl | rfl
      · obtain ⟨z, hz⟩ := hw
        have e0 : c = '-' := by
          have := congrArg List.head? hz
          simp [fold] at this
          exact fold_char this (by decide)
        have e1 : w = [] := by
          cases w with
          | nil => rfl
          | cons d w => simp at hl; omega
        subst e0; subst e1
        exact ⟨{ a with mode := .bang (some detectComment) ['-'] }, by simp only [arun, astep, if_true], ⟨_, rfl⟩, rfl, rfl, rfl, rfl⟩
      · have hu : (c :: w).map toUpper <+: detectDoctype := hu
        obtain ⟨z, hz⟩ := hu
        have e0 : c = 'D' ∨ c = 'd' := by
          have := congrArg List.head? hz
          simp [detectDoctype] at this
          exact upper_D this
        have e1 : c ≠ '-' := by rcases e0 with rfl | rfl <;> decide
        have := arun_bangPart (o := o) (D := detectDoctype) w [c] { a with mode := .bang (some detectDoctype) [c] } rfl hl
          ⟨z, by rw [← hz]; simp⟩
        refine ⟨{ a with mode := .bang (some detectDoctype) (c :: w) }, by
          simp only [arun, astep, e1, if_false]
          rw [if_pos e0]
          exact this, ⟨_, rfl⟩, rfl, rfl, rfl, rfl⟩
      · have hu : (c :: w).map toUpper <+: detectCdata := hu
        obtain ⟨z, hz⟩ := hu
        have e0 : c = '[' := by
          obtain ⟨z, hz⟩ := hw
          have := congrArg List.head? hz
          simp [fold] at this
          exact fold_char this (by decide)
        subst e0
        obtain ⟨g1, f, g2, g3, g4⟩ := hc (by simp) rfl
        have g2 : a.sp.map Prod.snd = some f := g2
        obtain ⟨⟨k, n⟩, g5, g6⟩ := Option.map_eq_some_iff.1 g2
        have g6 : n = f := g6
        subst g6
        have := arun_bangPart (o := o) (D := detectCdata) w ['['] { a with mode := .bang (some detectCdata) ['['] } rfl hl
          ⟨z, by rw [← hz]; simp⟩
        refine ⟨{ a with mode := .bang (some detectCdata) ('[' :: w) }, by
          have b1 : ('[' : Char) ≠ '-' := by decide
          have b2 : ¬ (('[' : Char) = 'D' ∨ ('[' : Char) = 'd') := by decide
          have b3 : ¬ (a.over = true ∨ a.rest.isEmpty = true ∨ n = a.top.name) := by
            have g1 : a.over = false := g1
            have g3 : a.rest ≠ [] := g3
            have g4 : n ≠ a.top.name := g4
            simp [g1, g3, g4]
          simp only [arun, astep, b1, b2, if_false, if_true, g5]
          rw [if_neg b3]
          simp only
          rw [← g5]
          exact this, ⟨_, rfl⟩, rfl, rfl, rfl, rfl⟩
  | @comment u w S h hs ho hn =>
    obtain ⟨a, h1, h2, rfl⟩ := Scan.run h
    obtain ⟨l, hm, hl'⟩ := spot_lt h2 hs
    rw [arun_append, h1, Option.bind_some, arun_behind hm]
    show ∃ b, arun o _ ('<' :: '!' :: ('-' :: '-' :: w)) = some b ∧ _
    rw [read_bang rfl]
    have ho : a.over = false := ho
    have e1 : arun o { a with mode := .bang none [] } ['-', '-'] = some { a with mode := .comment false [], mark := '-' } := by
      simp [arun, astep, ho, detectComment, toUpper, isLower]
    have e2 : ('-' :: '-' :: w) = ['-', '-'] ++ w := rfl
    rw [e2, arun_append, e1, Option.bind_some, arun_comment w [] _ rfl (by
      have := (commentPart_open '-' w).2 hn
      exact this)]
    exact ⟨_, rfl, rfl, rfl, rfl, rfl, rfl⟩
  | @cdata u k w S h hs ho hk hd hn =>
    obtain ⟨a, h1, h2, rfl⟩ := Scan.run h
    obtain ⟨l, hm, hl'⟩ := spot_lt h2 hs
    obtain ⟨f, f1, f2, f3⟩ := hd
    have f1 : ctxOf a = some f := f1
    have f2 : a.rest ≠ [] := f2
    have f3 : f ≠ a.top.name := f3
    have e0 : parentOf a = some a.top.name := by unfold parentOf; rw [if_neg f2]
    have e1 := read_cdataOpen (o := o) (a := { a with mode := .wait l }) rfl ho hk (by show ctxOf a ≠ none; rw [f1]; simp)
      (by show parentOf a ≠ none; rw [e0]; simp) (by show ctxOf a ≠ parentOf a; rw [f1, e0]; simpa using f3)
    rw [arun_append, h1, Option.bind_some, arun_behind hm]
    have e2 : '<' :: ('!' :: k ++ w) = (['<', '!'] ++ k) ++ w := by simp
    rw [e2, arun_append, e1, Option.bind_some, arun_comment w [] _ rfl (by
      have := (commentPart_open ']' w).2 hn
      exact this)]
    exact ⟨_, rfl, rfl, rfl, rfl, rfl, rfl⟩
  | @doctype u n t S h hs ho hn hc ht =>
    obtain ⟨a, h1, h2, rfl⟩ := Scan.run h
    obtain ⟨l, hm, hl'⟩ := spot_lt h2 hs
    rw [arun_append, h1, Option.bind_some, arun_behind hm]
    have e2 : '<' :: ('!' :: n ++ t) = (['<', '!'] ++ n) ++ t := by simp
    rw [e2, arun_append, read_doctypeName (a := { a with mode := .wait l }) rfl ho hn, Option.bind_some]
    cases t with
    | nil => exact ⟨_, rfl, by simp [partMode], rfl, rfl, rfl, rfl⟩
    | cons c t =>
      have hw := (isWs_mem c).2 (hc c rfl)
      obtain ⟨t', ht'⟩ := (tagPart_iff (n := n) (mk := a.mark)).1 ht
      have := arun_trun (o := o) a _ _ _ ht'
      refine ⟨{ a with mode := .inTag true t', mark := t'.mark }, ?_, ⟨a.mark, t', rfl, ht'⟩, rfl, rfl, rfl, rfl⟩
      rw [← this]
      simp only [arun, astep, hw, if_true]
      rw [Waits.space (t := ⟨.tagWait, nameMeta n, [], a.mark⟩) ⟨Or.inl rfl, rfl⟩ hw]
  | @tag u n t S h hs ho hn hc ht =>
    obtain ⟨a, h1, h2, rfl⟩ := Scan.run h
    obtain ⟨l, hm, hl'⟩ := spot_lt h2 hs
    rw [arun_append, h1, Option.bind_some, arun_behind hm]
    have e2 : '<' :: (n ++ t) = ('<' :: n) ++ t := rfl
    rw [e2, arun_append, read_name (a := { a with mode := .wait l }) rfl ho (tagName_ok hn), Option.bind_some]
    cases t with
    | nil => exact ⟨_, rfl, by simp [partMode], rfl, rfl, rfl, rfl⟩
    | cons c t =>
      obtain ⟨t', ht'⟩ := (tagPart_iff (n := n) (mk := a.mark)).1 ht
      have := arun_trun (o := o) a _ _ _ ht'
      refine ⟨{ a with mode := .inTag false t', mark := t'.mark }, ?_, ⟨a.mark, t', rfl, ht'⟩, rfl, rfl, rfl, rfl⟩
      rw [← this, arun_nameOver rfl (hc (by simp))]
  | @raw u n t w S as h hs ho hn hv ht hr hx =>
    obtain ⟨a, h1, h2, rfl⟩ := Scan.run h
    obtain ⟨l, hm, hl'⟩ := spot_lt h2 hs
    rw [arun_append, h1, Option.bind_some, arun_behind hm]
    obtain ⟨m, mk, mode, e', k1, k2, k3⟩ := read_tag (o := o) (a := { a with mode := .wait l }) rfl ho (tagName_ok hn) hv ht
    have q1 : m.isVoid = false := by
      rw [k3]
      cases hb : isVoidTag (lowerAll n) with
      | false => rfl
      | true => exact absurd ((isVoid_iff n).1 hb) (raw_not_void hr)
    have q2 : isContentTag (lowerAll m.name) none = true := by rw [k1]; exact (isRaw_iff n).2 hr
    unfold AState.openTag at e'
    rw [if_neg (by rw [q1]; decide), if_pos q2] at e'
    have e2 : '<' :: (n ++ t ++ w) = ('<' :: n ++ t) ++ w := by simp
    rw [e2, arun_append, e', Option.bind_some, arun_raw w [] _ rfl (by
      have := (rawPart_open (cs := o.caseSensitiveTagname) (w := w) (tagName_ok hn)).2 hx
      rw [k1]; exact this)]
    exact ⟨_, rfl, ⟨m, rfl, k1⟩, rfl, rfl, rfl, rfl⟩
  | @endTag u e S h hs hgt =>
    obtain ⟨a, h1, h2, rfl⟩ := Scan.run h
    obtain ⟨l, hm, hl'⟩ := spot_lt h2 hs
    rw [arun_append, h1, Option.bind_some, arun_endTag hm hgt]
    exact ⟨_, rfl, ⟨_, rfl⟩, rfl, rfl, rfl, rfl⟩

/-- Directly behind `<!`. -/
theorem bangNone_pc {o : ParseOptions} {u pc : Str} {a : AState} (h : arun o {} u = some a) (hm : a.mode = .bang none pc) : pc = [] := by
  rcases List.eq_nil_or_concat u with rfl | ⟨s, c, rfl⟩
  · simp only [arun, Option.some.injEq] at h; subst h; cases hm
  · rw [List.concat_eq_append] at h
    obtain ⟨b, _, h2⟩ := arun_last h
    cases astep_sound h2 with
    | bangOpen => cases hm; rfl
    | more k => rw [show (b.more _ _).mode = b.mode from rfl, k] at hm; cases hm
    | ltMore => exact absurd hm (ite_mode (P := (· ≠ _)) (by simp) (by simp))
    | ltFill => exact absurd hm (ite_mode (P := (· ≠ _)) (by simp) (by simp))
    | ltPush => exact absurd hm (ite_mode (P := (· ≠ _)) (by simp) (by simp))
    | nameClose =>
      rcases openTag_mode b (nameMeta _) [] with k | k | k
      all_goals exact absurd (k.symm.trans hm) (by simp)
    | tagClose =>
      rcases openTag_mode b _ _ with k | k | k
      all_goals exact absurd (k.symm.trans hm) (by simp)
    | _ => cases hm

theorem fold_take (D : Str) (n : Nat) : fold (D.take n) <+: fold D :=
  ⟨fold (D.drop n), by unfold fold; rw [← List.map_append, List.take_append_drop]⟩

/-- Inside a construct, the machine has read its beginning. -/
theorem inside_of {o : ParseOptions} {u : Str} {a : AState} (h : arun o {} u = some a) (hm : a.mode.simple = false) :
    ∃ S p, Spec.Inside o u S p ∧ partMode o p a.mode ∧ Stands a S := by
  obtain ⟨t, v, l, he, hS, hv⟩ := (Told.run h).shape hm
  have hmo := (WfInv.run h).mode
  have hb := Began.run _ u a rfl h
  unfold ModeOk at hmo
  unfold Began at hb
  have st : Stands a (sitOf { a with mode := .lt l }) := ⟨rfl, rfl, rfl, rfl⟩
  subst he
  cases hmm : a.mode with
  | wait _ => rw [hmm] at hm; cases hm
  | text _ => rw [hmm] at hm; cases hm
  | lt _ => rw [hmm] at hm; cases hm
  | bang D pc =>
    rw [hmm] at hv hmo hb
    cases D with
    | none =>
      have hpc : pc = [] := bangNone_pc h hmm
      rw [show v = ['!'] from hv, hpc]
      exact ⟨_, .bang [], Spec.Inside.bang (D := "--".toList) hS rfl (by simp) ⟨"--".toList, rfl⟩ (by decide) (by simp), ⟨_, rfl⟩, st⟩
    | some D =>
      rw [show v = '!' :: pc from hv]
      have hl := hb.1 D rfl
      obtain ⟨hD, hu⟩ := hmo
      have hf : fold pc <+: fold D := by rw [fold_of_upper hu]; exact fold_take D _
      refine ⟨_, .bang pc, Spec.Inside.bang (D := fold D) hS rfl ?_ hf (by unfold fold; simpa using hl) ?_, ⟨_, rfl⟩, st⟩
      · rcases hD with rfl | rfl | ⟨rfl, _⟩
        · simp [fold, detectComment]
        · have : fold detectDoctype = "doctype".toList := by decide +kernel
          rw [this]; simp
        · have : fold detectCdata = "[cdata[".toList := by decide +kernel
          rw [this]; simp
      · intro _ e
        rcases hD with rfl | rfl | ⟨rfl, r1, k, n, r2, r3⟩
        · exact absurd e (by decide +kernel)
        · exact absurd e (by decide +kernel)
        · refine ⟨?_, n, by simp [sitOf, ctxOf, r2], r1, r3⟩
          show a.over = false
          cases ho : a.over with
          | false => rfl
          | true => exact absurd (OverInv.run h ho).1 r1
  | comment cd pc =>
    rw [hmm] at hv hmo
    obtain ⟨h0, h1, h2⟩ := hmo
    cases cd with
    | false =>
      rw [show v = "!--".toList ++ pc from hv]
      exact ⟨_, .comment pc, Spec.Inside.comment hS rfl h0 ((commentPart_open '-' pc).1 h2), rfl, st⟩
    | true =>
      obtain ⟨k, q1, rfl⟩ := hv
      obtain ⟨r1, s, n, r2, r3⟩ := h1 rfl
      exact ⟨_, .cdata pc, Spec.Inside.cdata hS rfl h0 q1 ⟨n, by simp [sitOf, ctxOf, r2], r1, r3⟩ ((commentPart_open ']' pc).1 h2), rfl, st⟩
  | doctypeName pc =>
    rw [hmm] at hv hmo
    rw [show v = '!' :: pc ++ [] by rw [show v = '!' :: pc from hv]; simp]
    refine ⟨_, .doctype pc [], Spec.Inside.doctype hS rfl hmo.1 ?_ (by simp) ((tagPart_iff (n := []) (mk := 'a')).2 ⟨_, rfl⟩), ?_, st⟩
    · rw [fold_of_upper hmo.2]; decide +kernel
    · simp [partMode]
  | tagName pc =>
    rw [hmm] at hv hmo
    rw [show v = pc ++ [] by rw [show v = pc from hv]; simp]
    refine ⟨_, .tag pc [], Spec.Inside.tag hS rfl hmo.1 ((tagName_iff _).2 hmo.2) (by simp) ((tagPart_iff (n := []) (mk := 'a')).2 ⟨_, rfl⟩), ?_, st⟩
    simp [partMode]
  | inTag isDoc t' =>
    rw [hmm] at hv hmo
    obtain ⟨x, w, mk, e, k1, k2⟩ := hv
    have hn := hmo.2.name
    cases isDoc with
    | true =>
      rw [if_pos rfl] at hn
      rw [if_pos rfl] at e
      have k1 : x ∈ ws := by
        rcases k1 with h | ⟨h, _⟩
        · exact h
        · cases h
      refine ⟨_, .doctype t'.m.name (x :: w), ?_, ⟨mk, t', rfl, k2⟩, st⟩
      have := Spec.Inside.doctype hS rfl hmo.1 (n := t'.m.name) (t := x :: w) (by rw [fold_of_upper hn]; decide +kernel)
        (by intro c hc; simp only [List.head?_cons, Option.some.injEq] at hc; subst hc; exact k1) (tagPart_iff.2 ⟨t', k2⟩)
      rw [e]
      exact this
    | false =>
      rw [if_neg (by decide)] at hn
      rw [if_neg (by decide)] at e
      refine ⟨_, .tag t'.m.name (x :: w), ?_, ⟨mk, t', rfl, k2⟩, st⟩
      have := Spec.Inside.tag hS rfl hmo.1 (n := t'.m.name) (t := x :: w) ((tagName_iff _).2 hn.1)
        (fun _ => ⟨x, rfl, by
          rcases k1 with h | ⟨_, h⟩
          · exact Or.inl h
          · exact Or.inr (Or.inl h)⟩) (tagPart_iff.2 ⟨t', k2⟩)
      rw [e]
      exact this
  | tagEnd pc r =>
    rw [hmm] at hv
    obtain ⟨q1, q2, q3⟩ := hv
    rw [q1]
    exact ⟨_, .endTag pc, Spec.Inside.endTag hS rfl q2, ⟨r, rfl⟩, st⟩
  | raw m pc =>
    rw [hmm] at hv hmo
    obtain ⟨z, k0, k1, rfl⟩ := hv
    obtain ⟨h0, hr⟩ := hmo
    exact ⟨_, .raw m.name pc, Spec.Inside.raw hS rfl h0 ((tagName_iff _).2 hr.tag.name.1) k0 k1 ((isRaw_iff _).1 hr.raw)
      ((rawPart_open hr.tag.name.1).1 hr.early), ⟨m, rfl, rfl⟩, st⟩

end Rphtml
