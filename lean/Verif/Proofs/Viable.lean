import Verif.Proofs.Prefix
import Verif.Proofs.Open

/-!
# Which texts read without error can be completed

On the machine: from every state but the ones named below, some text leads to a state in which the input may end.
-/

namespace Rphtml
open Spec

/-- The text can be completed. -/
def Viable (o : ParseOptions) (u : Str) : Prop :=
  ∃ v b, arun o {} (u ++ v) = some b ∧ b.mode.outside = true ∧ b.rest = []

theorem Viable.more {o : ParseOptions} {u v : Str} (h : Viable o (u ++ v)) : Viable o u := by
  obtain ⟨w, b, h1, h2⟩ := h
  exact ⟨v ++ w, b, by rw [← List.append_assoc]; exact h1, h2⟩

theorem arun_snoc {o : ParseOptions} {u v : Str} {a b : AState} (h : arun o {} u = some a) (h' : arun o a v = some b) :
    arun o {} (u ++ v) = some b := by
  rw [arun_append, h]; exact h'

/-- Between two pieces of markup, the end tags of the open elements do it. -/
theorem viable_outside {o : ParseOptions} : ∀ (n : Nat) (u : Str) (a : AState), arun o {} u = some a → a.mode.outside = true →
    a.rest.length = n → Viable o u
  | 0, u, a, h, hm, hn => ⟨[], a, by rwa [List.append_nil], hm, List.length_eq_zero_iff.1 hn⟩
  | n + 1, u, a, h, hm, hn => by
    cases hr : a.rest with
    | nil => rw [hr] at hn; cases hn
    | cons g gs =>
      have hs := (WfInv.run h).stack
      rw [hr] at hs
      obtain ⟨b, h1, h2, h3, _⟩ := read_end (o := o) hm hr hs.1 (closes_self hs.1)
      refine Viable.more (viable_outside n _ b (arun_snoc h h1) (by rw [h2]; rfl) ?_)
      rw [h3]; rw [hr] at hn; simpa using hn

theorem viable_out {o : ParseOptions} {u : Str} {a : AState} (h : arun o {} u = some a) (hm : a.mode.outside = true) : Viable o u :=
  viable_outside _ u a h hm rfl

/-- Raw text is ended by its end tag. -/
theorem viable_raw {o : ParseOptions} {u pc : Str} {a : AState} {m : TagMeta} (h : arun o {} u = some a) (hm : a.mode = .raw m pc) :
    Viable o u := by
  have hk := (WfInv.run h).mode
  unfold ModeOk at hk
  rw [hm] at hk
  have hn : TagNameOk m.name := by have := hk.2.tag.name; simpa using this.1
  have hg := closes_noGt (cs := o.caseSensitiveTagname) hn (closes_self hn)
  have h1 := arun_raw (o := o) (['<', '/'] ++ m.name) pc a hm (by
    intro x y e
    exfalso
    have : '>' ∈ ['<', '/'] ++ m.name := by rw [e]; simp
    simp only [List.mem_append, List.mem_cons, List.not_mem_nil, or_false] at this
    rcases this with (q | q) | q
    · exact absurd q (by decide)
    · exact absurd q (by decide)
    · exact hg q)
  have h2 := arun_snoc h h1
  have hb : rawBody o.caseSensitiveTagname m.name (pc ++ (['<', '/'] ++ m.name)) = some pc.length :=
    (rawBody_spec hn).2 ⟨pc, m.name, by simp, closes_self hn, rfl⟩
  have h3 := arun_snoc (v := ['>']) h2 (by simp only [arun, astep, if_true, hb]; rfl)
  exact Viable.more (Viable.more (viable_out h3 rfl))

/-- After the `>` of a start tag. -/
theorem viable_open {o : ParseOptions} {u : Str} {a : AState} {m : TagMeta} {mk : Char}
    (h : arun o {} u = some { a.openTag m [] with mark := mk }) : Viable o u := by
  by_cases h1 : m.isVoid = true
  · refine viable_out h ?_
    simp only [AState.openTag, h1, if_true, Mode.outside]
  · by_cases h2 : isContentTag (lowerAll m.name) none = true
    · refine viable_raw (m := m) (pc := []) h ?_
      simp only [AState.openTag, h1, h2, if_true, if_false, Bool.false_eq_true]
    · refine viable_out h ?_
      simp only [AState.openTag, h1, h2, if_false, Bool.false_eq_true, Mode.outside]

theorem viable_tagName {o : ParseOptions} {u pc : Str} {a : AState} (h : arun o {} u = some a) (hm : a.mode = .tagName pc) :
    Viable o u := by
  have h1 := arun_snoc (v := ['>']) h (by simp only [arun, astep, hm, if_true]; rfl)
  refine Viable.more (viable_open (a := a) (m := nameMeta pc) (mk := a.mark) (h1.trans ?_))
  unfold AState.openTag
  repeat' split
  all_goals rfl

/-- A character that ends the tag. -/
theorem viable_close {o : ParseOptions} {u : Str} {a : AState} {isDoc : Bool} {t : TagSt} (h : arun o {} u = some a)
    (hm : a.mode = .inTag isDoc t) {c : Char} {m : TagMeta} {pc : Str} {mk : Char} {id : Option Str}
    (ht : tagChar isDoc o.allowAttrKeyStartsWithEqualSign t c = .close m pc mk id) : Viable o u := by
  have hk := (WfInv.run h).mode
  unfold ModeOk at hk
  rw [hm] at hk
  have hpc := (hk.2.close ht).2.1
  subst hpc
  cases isDoc with
  | true =>
    have h1 := arun_snoc (v := [c]) h (by simp only [arun, astep, hm, ht, if_true]; rfl)
    exact Viable.more (viable_out h1 rfl)
  | false =>
    have h1 := arun_snoc (v := [c]) h (by simp only [arun, astep, hm, ht, if_false, Bool.false_eq_true]; rfl)
    exact Viable.more (viable_open h1)

/-- A character inside the tag. -/
theorem viable_cont {o : ParseOptions} {u : Str} {a : AState} {isDoc : Bool} {t t' : TagSt} (h : arun o {} u = some a)
    (hm : a.mode = .inTag isDoc t) {c : Char} {id : Option Str}
    (ht : tagChar isDoc o.allowAttrKeyStartsWithEqualSign t c = .cont t' id)
    (next : ∀ u' a', arun o {} u' = some a' → a'.mode = .inTag isDoc t' → Viable o u') : Viable o u := by
  have h1 := arun_snoc (v := [c]) h (by simp only [arun, astep, hm, ht]; rfl)
  exact Viable.more (next _ _ h1 rfl)

theorem viable_tagWait {o : ParseOptions} {u : Str} {a : AState} {isDoc : Bool} {t : TagSt} (h : arun o {} u = some a)
    (hm : a.mode = .inTag isDoc t) (ht : t.handle = .tagWait) : Viable o u := by
  refine viable_close (c := '>') (m := t.m) (pc := t.pc) (mk := t.mark) (id := none) h hm ?_
  simp [tagChar, ht, tagWaitC]

theorem viable_attr {o : ParseOptions} {u : Str} {a : AState} {isDoc : Bool} {t : TagSt} (h : arun o {} u = some a)
    (hm : a.mode = .inTag isDoc t) (ht : t.handle = .attrKey ∨ t.handle = .attrValue) : Viable o u := by
  rcases ht with ht | ht
  · exact viable_close (c := '>') h hm (by simp only [tagChar, ht]; rw [if_neg (by decide), if_pos trivial])
  · by_cases hk : t.mark = ' '
    · exact viable_close (c := '>') h hm (by simp only [tagChar, ht]; rw [if_pos ⟨hk, trivial⟩])
    · refine viable_cont (c := t.mark) h hm (by
        simp only [tagChar, ht]
        rw [if_neg (fun q => hk q.1), if_pos (by simp [hk])]) ?_
      intro u' a' h' hm'
      exact viable_tagWait h' hm' rfl

theorem viable_inTag {o : ParseOptions} {u : Str} {a : AState} {isDoc : Bool} {t : TagSt} (h : arun o {} u = some a)
    (hm : a.mode = .inTag isDoc t) : Viable o u := by
  have hk := (WfInv.run h).mode
  unfold ModeOk at hk
  rw [hm] at hk
  have hok := hk.2.ok
  unfold TagSt.Ok2 at hok
  cases ht : t.handle with
  | tagWait => exact viable_tagWait h hm ht
  | attrKey => exact viable_attr h hm (.inl ht)
  | attrValue => exact viable_attr h hm (.inr ht)
  | tagSelfClosing =>
    have hw : isWs 'a' = false := by decide
    by_cases hc : t.m.codeIn = .waitValue
    · refine viable_cont (c := 'a') h hm (by
        simp only [tagChar, ht, tagWaitC, hw]
        simp [hc]; exact ⟨rfl, rfl⟩) ?_
      intro u' a' h' hm'
      exact viable_attr h' hm' (.inr rfl)
    · refine viable_cont (c := 'a') h hm (by
        simp only [tagChar, ht, tagWaitC, hw]
        simp [hc]; exact ⟨rfl, rfl⟩) ?_
      intro u' a' h' hm'
      exact viable_attr h' hm' (.inl rfl)
  | _ => rw [ht] at hok; exact hok.elim

/-- Comments and CDATA sections. -/
theorem viable_comment {o : ParseOptions} {u pc : Str} {a : AState} {cd : Bool} (h : arun o {} u = some a)
    (hm : a.mode = .comment cd pc) : Viable o u := by
  obtain ⟨k, hk⟩ : ∃ k, k = if cd then ']' else '-' := ⟨_, rfl⟩
  have hkg : k ≠ '>' := by rw [hk]; cases cd <;> decide
  have h1 := arun_snoc h (arun_comment (o := o) ['x', k, k] pc a hm (by
    intro x y e
    exfalso
    have : '>' ∈ ['x', k, k] := by rw [e]; simp
    simp only [List.mem_cons, List.not_mem_nil, or_false] at this
    rcases this with q | q | q
    · exact absurd q (by decide)
    · exact hkg q.symm
    · exact hkg q.symm))
  have hb : commentBody (if cd then ']' else '-') (pc ++ ['x', k, k]) = some (pc ++ ['x']) :=
    (commentBody_iff _ _ _).2 ⟨by simp, by rw [← hk]; simp⟩
  have h2 := arun_snoc (v := ['>']) h1 (by simp only [arun, astep, if_true, hb]; rfl)
  exact Viable.more (Viable.more (viable_out h2 rfl))

theorem viable_doctypeName {o : ParseOptions} {u pc : Str} {a : AState} (h : arun o {} u = some a)
    (hm : a.mode = .doctypeName pc) : Viable o u := by
  have hw : isWs ' ' = true := by decide
  have h1 := arun_snoc (v := [' ']) h (by simp only [arun, astep, hm, hw, if_true]; rfl)
  exact Viable.more (viable_tagWait h1 rfl rfl)

theorem openTag_mode (a : AState) (m : TagMeta) (pc : Str) : (a.openTag m pc).mode = .wait .hole ∨ (a.openTag m pc).mode = .wait .other ∨
    (a.openTag m pc).mode = .raw m pc := by
  unfold AState.openTag
  repeat' split
  all_goals simp

theorem ite_mode {c : Char} {p q : Mode} {P : Mode → Prop} (h1 : P p) (h2 : P q) : P (if c = '<' then p else q) := by
  split
  · exact h1
  · exact h2

/-- How a text that ends in a declaration keyword or an end tag was read. -/
def Began (o : ParseOptions) (u : Str) (a : AState) : Prop :=
  match a.mode with
  | .tagEnd pc _ => '>' ∉ pc ∧ ∃ t b l, u = t ++ '/' :: pc ∧ arun o {} t = some b ∧ b.mode = .lt l ∧
      a.top = b.top ∧ a.rest = b.rest ∧ a.over = b.over
  | .bang D pc => (∀ D', D = some D' → pc.length < D'.length) ∧ ∃ t b l r, u = t ++ '!' :: r ∧ arun o {} t = some b ∧ b.mode = .lt l ∧
      a.over = b.over
  | _ => True

theorem Began.triv {o : ParseOptions} {u : Str} {a : AState} (h1 : ∀ pc r, a.mode ≠ .tagEnd pc r) (h2 : ∀ D pc, a.mode ≠ .bang D pc) :
    Began o u a := by
  unfold Began
  split
  · rename_i h; exact absurd h (h1 _ _)
  · rename_i h; exact absurd h (h2 _ _)
  · trivial

theorem Began.open {o : ParseOptions} {u : Str} {a : AState} (m : TagMeta) (pc : Str) (mk : Char) :
    Began o u { a.openTag m pc with mark := mk } := by
  rcases openTag_mode a m pc with h | h | h
  all_goals
    apply Began.triv
    · intro p r e; rw [show ({ a.openTag m pc with mark := mk } : AState).mode = _ from h] at e; cases e
    · intro p r e; rw [show ({ a.openTag m pc with mark := mk } : AState).mode = _ from h] at e; cases e

theorem Began.step {o : ParseOptions} {s : Str} {a a' : AState} {c : Char} (hr : arun o {} s = some a) (h : Began o s a) (hs : AStep o a c a') :
    Began o (s ++ [c]) a' := by
  cases hs with
  | endOpen hm => exact ⟨by simp, s, a, _, rfl, hr, hm, rfl, rfl, rfl⟩
  | bangOpen hm => exact ⟨by simp, s, a, _, [], rfl, hr, hm, rfl⟩
  | bangDash hm =>
    unfold Began at h
    rw [hm] at h
    obtain ⟨_, t, b, l, r, e, k⟩ := h
    exact ⟨fun D e => by cases e; decide, t, b, l, r ++ ['-'], by rw [e]; simp, k⟩
  | bangD hm hc =>
    unfold Began at h
    rw [hm] at h
    obtain ⟨_, t, b, l, r, e, k⟩ := h
    exact ⟨fun D e => by cases e; exact Nat.lt_of_lt_of_le (Nat.lt_succ_self 1) (by decide), t, b, l, r ++ [c], by rw [e]; simp, k⟩
  | bangC hm =>
    unfold Began at h
    rw [hm] at h
    obtain ⟨_, t, b, l, r, e, k⟩ := h
    exact ⟨fun D e => by cases e; decide, t, b, l, r ++ ['['], by rw [e]; simp, k⟩
  | bangMore hm hc hl =>
    unfold Began at h
    rw [hm] at h
    obtain ⟨_, t, b, l, r, e, k⟩ := h
    exact ⟨fun D e => by cases e; simpa using hl, t, b, l, r ++ [c], by rw [e]; simp, k⟩
  | endMore hm hc =>
    unfold Began at h
    rw [hm] at h
    obtain ⟨hg, t, b, l, e, k⟩ := h
    refine ⟨?_, t, b, l, by rw [e]; simp, k⟩
    intro hx
    rcases List.mem_append.1 hx with q | q
    · exact hg q
    · exact hc (List.mem_singleton.1 q).symm
  | more hm hc => exact Began.triv (by intro p r; simp [AState.more, hm]) (by intro p r; simp [AState.more, hm])
  | ltMore hm => exact Began.triv (fun p r => ite_mode (P := (· ≠ _)) (by simp) (by simp)) (fun p r => ite_mode (P := (· ≠ _)) (by simp) (by simp))
  | ltFill hm => exact Began.triv (fun p r => ite_mode (P := (· ≠ _)) (by simp) (by simp)) (fun p r => ite_mode (P := (· ≠ _)) (by simp) (by simp))
  | ltPush hm => exact Began.triv (fun p r => ite_mode (P := (· ≠ _)) (by simp) (by simp)) (fun p r => ite_mode (P := (· ≠ _)) (by simp) (by simp))
  | nameClose hm => exact Began.open (a := a) (nameMeta _) [] (a.openTag _ []).mark
  | tagClose hm ht => exact Began.open _ _ _
  | _ => exact Began.triv (by intro p r; simp) (by intro p r; simp)

theorem arun_last {o : ParseOptions} {s : Str} {c : Char} {a : AState} (h : arun o {} (s ++ [c]) = some a) :
    ∃ b, arun o {} s = some b ∧ astep o b c = some a := by
  rw [arun_append] at h
  cases h1 : arun o {} s with
  | none => rw [h1] at h; cases h
  | some b =>
    rw [h1] at h
    simp only [Option.bind_some, arun] at h
    refine ⟨b, rfl, ?_⟩
    cases h2 : astep o b c with
    | none => rw [h2] at h; cases h
    | some b' => rw [h2] at h; exact h

theorem Began.run {o : ParseOptions} : ∀ (n : Nat) (s : Str) (a : AState), s.length = n → arun o {} s = some a → Began o s a
  | 0, s, a, hn, h => by
    rw [List.length_eq_zero_iff.1 hn] at h
    simp only [arun, Option.some.injEq] at h; subst h
    trivial
  | n + 1, s, a, hn, h => by
    rcases List.eq_nil_or_concat s with rfl | ⟨s', c, rfl⟩
    · cases hn
    · rw [List.concat_eq_append] at h hn ⊢
      obtain ⟨b, h1, h2⟩ := arun_last h
      exact (Began.run n s' b (by simpa using hn) h1).step h1 (astep_sound h2)

/-- Declarations, in an open document. -/
theorem viable_bang {o : ParseOptions} {u D pc : Str} {a : AState} (h : arun o {} u = some a) (hm : a.mode = .bang (some D) pc)
    (ho : a.over = false) : Viable o u := by
  have hk := (WfInv.run h).mode
  unfold ModeOk at hk
  rw [hm] at hk
  have hl := Began.run _ u a rfl h
  unfold Began at hl
  rw [hm] at hl
  have hl := hl.1 D rfl
  have hup : D.drop pc.length = (D.drop pc.length).map toUpper := by
    have : D = D.map toUpper := by
      rcases hk.1 with q | q | q
      · rw [q]; decide
      · rw [q]; decide
      · rw [q.1]; decide
    rw [List.map_drop, ← this]
  have hne : D.drop pc.length ≠ [] := by
    intro e
    have := congrArg List.length e
    simp at this
    omega
  have h1 := arun_snoc h (arun_keyword (o := o) (D.drop pc.length) pc a hm ho hne hup)
  refine Viable.more (v := D.drop pc.length) ?_
  unfold afterKeyword at h1
  split at h1
  · exact viable_comment h1 rfl
  · split at h1
    · exact viable_comment h1 rfl
    · exact viable_doctypeName h1 rfl

theorem viable_bangNone {o : ParseOptions} {u pc : Str} {a : AState} (h : arun o {} u = some a) (hm : a.mode = .bang none pc)
    (ho : a.over = false) : Viable o u := by
  have h1 := arun_snoc (v := ['-']) h (by simp only [arun, astep, hm, if_true]; rfl)
  exact Viable.more (viable_bang h1 rfl ho)

theorem viable_lt {o : ParseOptions} {u : Str} {a : AState} {l : Last} (h : arun o {} u = some a) (hm : a.mode = .lt l)
    (ho : a.over = false) : Viable o u := by
  have hb : isAlpha 'b' = true := by decide
  have h1 := arun_snoc (v := ['b']) h (by simp only [arun, astep, hm, hb, ho, if_true, if_false, Bool.false_eq_true]; rfl)
  exact Viable.more (viable_tagName h1 rfl)

/-- `<` is put into the text. -/
theorem viable_ltFix {o : ParseOptions} {u : Str} {a : AState} {l : Last} (h : arun o {} u = some a) (hm : a.mode = .lt l)
    (ho : o.autoFixUnescapedLt = true) : Viable o u := by
  have hb : isAlpha '1' = false := by decide
  have key : ∀ b, astep o a '1' = some b → b.mode.outside = true → Viable o u := by
    intro b h1 h2
    exact Viable.more (v := ['1']) (viable_out (arun_snoc h (by simp only [arun, h1])) h2)
  have hs : astep o a '1' = match l with
      | .text p => some { a.more p ['&', 'l', 't', ';', '1'] with mode := .text p }
      | .hole => some { a.fill ['&', 'l', 't', ';', '1'] with mode := .text .nested }
      | .other => some { a.push (.text ['&', 'l', 't', ';', '1']) with mode := .text .top } := by
    simp only [astep, hm, hb, ho]
    cases l <;> simp
  cases l with
  | text p => exact key _ hs rfl
  | hole => exact key _ hs rfl
  | other => exact key _ hs rfl

/-- A matching end tag. -/
theorem viable_endMatch {o : ParseOptions} {u pc w : Str} {a : AState} {r : Last} {g : Frame} {gs : List Frame} (h : arun o {} u = some a)
    (hm : a.mode = .tagEnd pc r) (hr : a.rest = g :: gs) (hc : closes o.caseSensitiveTagname a.top.name (pc ++ w)) : Viable o u := by
  have hs := (WfInv.run h).stack
  rw [hr] at hs
  have hg := closes_noGt hs.1 hc
  have h1 := arun_snoc h (arun_tagEnd (o := o) w pc a hm (fun q => hg (by simp [q])))
  obtain ⟨m1, m2⟩ := (endMatch_iff o.caseSensitiveTagname a.top.name (pc ++ w)).2 hc
  have hb : ¬ (o.caseSensitiveTagname = true ∧ (isEqualCharsIgnoreCase a.top.name (charsTrimEnd (pc ++ w))).2 = false) := by
    rintro ⟨q1, q2⟩
    rw [m2 q1] at q2; cases q2
  have h2 := arun_snoc (v := ['>']) h1 (by
    simp only [arun, astep, if_true]
    rw [if_pos ⟨by rw [hr]; simp, m1⟩, if_neg hb])
  exact Viable.more (Viable.more (viable_out h2 rfl))

/-- A stray end tag that is dropped. -/
theorem viable_stray {o : ParseOptions} {u pc : Str} {a : AState} {r : Last} (h : arun o {} u = some a) (hm : a.mode = .tagEnd pc r)
    (ho : o.autoFixUnexpectedEndtag = true)
    (he : ¬ (a.rest ≠ [] ∧ (isEqualCharsIgnoreCase a.top.name (charsTrimEnd pc)).1 = true)) : Viable o u := by
  have h2 := arun_snoc (v := ['>']) h (by
    simp only [arun, astep, hm, if_true]
    rw [if_neg he, if_pos ho])
  exact Viable.more (viable_out h2 rfl)

theorem viable_endFix {o : ParseOptions} {u pc : Str} {a : AState} {r : Last} (h : arun o {} u = some a) (hm : a.mode = .tagEnd pc r)
    (ho : o.autoFixUnexpectedEndtag = true) : Viable o u := by
  by_cases he : a.rest ≠ [] ∧ (isEqualCharsIgnoreCase a.top.name (charsTrimEnd pc)).1 = true
  · have h1 := arun_snoc h (arun_tagEnd (o := o) ['x'] pc a hm (by decide))
    refine Viable.more (viable_stray h1 rfl ho ?_)
    rintro ⟨_, he'⟩
    have e1 : charsTrimEnd (pc ++ ['x']) = pc ++ ['x'] := by
      rw [charsTrimEnd_eq]
      unfold trimEnd
      simp [ws]
    have l1 := (endMatch_iff false a.top.name (pc ++ ['x'])).1 ⟨he', by simp⟩
    have l2 := (endMatch_iff false a.top.name pc).1 ⟨he.2, by simp⟩
    have k1 := sameText_length ((closes_iff _ _ _).1 l1)
    have k2 := sameText_length ((closes_iff _ _ _).1 l2)
    rw [← charsTrimEnd_eq, e1] at k1
    obtain ⟨w, h3, _⟩ := trimEnd_split pc
    have k3 := congrArg List.length h3
    simp only [List.length_append, List.length_cons, List.length_nil] at k1 k3
    omega
  · exact viable_stray h hm ho he

/-- The states from which the input can no longer be completed. -/
def Stuck (o : ParseOptions) (a : AState) : Prop :=
  match a.mode with
  | .tagEnd pc _ => o.autoFixUnexpectedEndtag = false ∧
      ∀ g gs w, a.rest = g :: gs → ¬ closes o.caseSensitiveTagname a.top.name (pc ++ w)
  | .lt _ => a.over = true ∧ o.autoFixUnescapedLt = false ∧ o.autoFixUnexpectedEndtag = false
  | .bang _ _ => a.over = true
  | _ => False

theorem Stuck.of_viable {o : ParseOptions} {u : Str} {a : AState} (h : arun o {} u = some a) (hs : ¬ Stuck o a) : Viable o u := by
  unfold Stuck at hs
  cases hm : a.mode with
  | wait l => exact viable_out h (by rw [hm]; rfl)
  | text p => exact viable_out h (by rw [hm]; rfl)
  | comment cd pc => exact viable_comment h hm
  | doctypeName pc => exact viable_doctypeName h hm
  | tagName pc => exact viable_tagName h hm
  | inTag i t => exact viable_inTag h hm
  | raw m pc => exact viable_raw h hm
  | bang D pc =>
    rw [hm] at hs
    cases D with
    | none => exact viable_bangNone h hm (by simpa using hs)
    | some D => exact viable_bang h hm (by simpa using hs)
  | lt l =>
    rw [hm] at hs
    cases ho : a.over with
    | false => exact viable_lt h hm ho
    | true =>
      cases h1 : o.autoFixUnescapedLt with
      | true => exact viable_ltFix h hm h1
      | false =>
        cases h2 : o.autoFixUnexpectedEndtag with
        | false => exact absurd ⟨ho, h1, h2⟩ hs
        | true =>
          have hb : isAlpha '/' = false := by decide
          have h3 := arun_snoc (v := ['/']) h (by simp only [arun, astep, hm, hb, if_true, if_false, Bool.false_eq_true]; rfl)
          exact Viable.more (viable_endFix h3 rfl h2)
  | tagEnd pc r =>
    rw [hm] at hs
    cases h2 : o.autoFixUnexpectedEndtag with
    | true => exact viable_endFix h hm h2
    | false =>
      have : ∃ g gs w, a.rest = g :: gs ∧ closes o.caseSensitiveTagname a.top.name (pc ++ w) := by
        apply Classical.byContradiction
        intro hn
        exact hs ⟨h2, fun g gs w e k => hn ⟨g, gs, w, e, k⟩⟩
      obtain ⟨g, gs, w, e, k⟩ := this
      exact viable_endMatch h hm e k

theorem Stuck.of_mode {o : ParseOptions} {a : AState} (hs : Stuck o a) : a.mode.outside = false ∧ a.mode.inStart = false := by
  unfold Stuck at hs
  cases hm : a.mode <;> rw [hm] at hs <;> first | exact hs.elim | exact ⟨rfl, rfl⟩

theorem Stuck.step {o : ParseOptions} {u : Str} {a a' : AState} {c : Char} (h : arun o {} u = some a) (hs : Stuck o a)
    (st : AStep o a c a') : Stuck o a' := by
  have hi := WfInv.run h
  unfold Stuck at hs
  cases st with
  | tagOpen hm _ ho => rw [hm] at hs; rw [ho] at hs; exact absurd hs.1 (by simp)
  | endOpen hm =>
    rw [hm] at hs
    refine ⟨hs.2.2, fun g gs w e => ?_⟩
    rw [(OverInv.run h hs.1).1] at e; cases e
  | bangOpen hm => rw [hm] at hs; exact hs.1
  | ltMore hm ho => rw [hm] at hs; rw [ho] at hs; exact absurd hs.2.1 (by simp)
  | ltFill hm ho => rw [hm] at hs; rw [ho] at hs; exact absurd hs.2.1 (by simp)
  | ltPush hm ho => rw [hm] at hs; rw [ho] at hs; exact absurd hs.2.1 (by simp)
  | bangDash hm => rw [hm] at hs; exact hs
  | bangD hm => rw [hm] at hs; exact hs
  | bangC hm => rw [hm] at hs; exact hs
  | bangMore hm => rw [hm] at hs; exact hs
  | commentOpen hm _ _ ho => rw [hm] at hs; rw [hs] at ho; cases ho
  | cdataOpen hm _ _ ho => rw [hm] at hs; rw [hs] at ho; cases ho
  | doctypeOpen hm _ _ _ _ ho => rw [hm] at hs; rw [hs] at ho; cases ho
  | endMore hm hc =>
    rw [hm] at hs
    exact ⟨hs.1, fun g gs w e => by rw [List.append_assoc]; exact hs.2 g gs _ e⟩
  | @endMatch pc r hm hr he hcase =>
    rw [hm] at hs
    exfalso
    obtain ⟨g, gs, e⟩ := List.exists_cons_of_ne_nil hr
    refine hs.2 g gs [] e ?_
    rw [List.append_nil]
    exact (endMatch_iff _ _ _).1 ⟨he, hcase⟩
  | endStray hm _ ho => rw [hm] at hs; rw [ho] at hs; exact absurd hs.1 (by simp)
  | lt hm =>
    rcases hm with hm | ⟨p, _, hm⟩ <;> rw [hm] at hs <;> exact hs.elim
  | _ => rename_i hm; rw [‹a.mode = _›] at hs; exact hs.elim

theorem Stuck.run {o : ParseOptions} : ∀ (v u : Str) (a b : AState), arun o {} u = some a → Stuck o a → arun o a v = some b → Stuck o b
  | [], _, a, b, _, hs, h => by simp only [arun, Option.some.injEq] at h; exact h ▸ hs
  | c :: v, u, a, b, hu, hs, h => by
    simp only [arun] at h
    cases h1 : astep o a c with
    | none => rw [h1] at h; cases h
    | some a' =>
      rw [h1] at h
      have hu' : arun o {} (u ++ [c]) = some a' := arun_snoc hu (by simp only [arun, h1])
      exact Stuck.run v _ a' b hu' (hs.step hu (astep_sound h1)) h

end Rphtml
