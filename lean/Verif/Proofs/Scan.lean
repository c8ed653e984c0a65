import Verif.Spec.Scan
import Verif.Proofs.GrammarRead
import Verif.Proofs.Viable

/-!
# The machine and the sequences of constructs
-/

namespace Rphtml
open Spec

/-- Where the machine is. -/
def spotOf : Mode → Spot
  | .wait _ => .between
  | .text _ => .inText
  | _ => .lt

/-- What a text would be added to. -/
def lastOf : Mode → Last
  | .wait l | .lt l => l
  | .text p => .text p
  | _ => .other

/-- What the machine has built. -/
def sitOf (a : AState) : Sit :=
  { top := a.top, rest := a.rest, over := a.over, foreign := ctxOf a, last := lastOf a.mode, spot := spotOf a.mode }

/-- Between two constructs, in a text, or behind a `<`. -/
def Mode.simple : Mode → Bool
  | .wait _ | .text _ | .lt _ => true
  | _ => false

theorem sit_eq {S T : Sit} (h1 : S.top = T.top) (h2 : S.rest = T.rest) (h3 : S.over = T.over) (h4 : S.foreign = T.foreign)
    (h5 : S.last = T.last) (h6 : S.spot = T.spot) : S = T := by
  cases S; cases T; simp_all

theorem sit_close (a b : AState) (e : Option Str) (h1 : b.top = a.top) (h2 : b.rest = a.rest) (h3 : b.over = a.over) :
    (b.pop e).top = ((sitOf a).close e).top ∧ (b.pop e).rest = ((sitOf a).close e).rest ∧ (b.pop e).over = ((sitOf a).close e).over := by
  unfold AState.pop Sit.close
  rw [show (sitOf a).rest = a.rest from rfl, h1, h2]
  cases hr : a.rest with
  | nil => exact ⟨rfl, rfl, rfl⟩
  | cons g gs => exact ⟨rfl, rfl, h3⟩

theorem spot_between {a : AState} (hs : a.mode.simple = true) (h : (sitOf a).spot = .between) : ∃ l, a.mode = .wait l ∧ (sitOf a).last = l := by
  unfold sitOf at h ⊢
  cases hm : a.mode <;> rw [hm] at h hs <;> simp_all [spotOf, lastOf, Mode.simple]

theorem spot_inText {a : AState} (hs : a.mode.simple = true) (h : (sitOf a).spot = .inText) :
    ∃ p, a.mode = .text p ∧ (sitOf a).last = .text p := by
  unfold sitOf at h ⊢
  cases hm : a.mode <;> rw [hm] at h hs <;> simp_all [spotOf, lastOf, Mode.simple]

theorem spot_lt {a : AState} (hs : a.mode.simple = true) (h : (sitOf a).spot = .lt) : ∃ l, a.mode = .lt l ∧ (sitOf a).last = l := by
  unfold sitOf at h ⊢
  cases hm : a.mode <;> rw [hm] at h hs <;> simp_all [spotOf, lastOf, Mode.simple]

theorem modLast_comp {α : Type} (f g k : α → α) (hfg : ∀ x, f (g x) = k x) (l : List α) : modLast f (modLast g l) = modLast k l := by
  induction l with
  | nil => rfl
  | cons x l ih =>
    cases l with
    | nil => simp [modLast, hfg]
    | cons y l =>
      simp only [modLast] at ih ⊢
      have hne : modLast g (y :: l) ≠ [] := by cases l <;> simp [modLast]
      cases hml : modLast g (y :: l) with
      | nil => exact absurd hml hne
      | cons z zs => rw [hml] at ih; simp only [modLast]; rw [ih]

theorem addText_twice (v w : Str) (x : PNode) : PNode.addText w (PNode.addText v x) = PNode.addText (v ++ w) x := by
  cases x <;> simp [PNode.addText]

/-- Adding to a text twice. -/
theorem addTextAt_twice (p : Place) (v w : Str) (ks : List PNode) : addTextAt p w (addTextAt p v ks) = addTextAt p (v ++ w) ks := by
  cases p with
  | top => exact modLast_comp _ _ _ (addText_twice v w) _
  | nested =>
    refine modLast_comp _ _ _ (fun x => ?_) _
    cases x with
    | elem n as s ct ks en => simp only [PNode.modKids]; rw [modLast_comp _ _ _ (addText_twice v w)]
    | _ => rfl

/-- Adding to a text that was put into the last element. -/
theorem addTextAt_fill (v w : Str) (ks : List PNode) :
    addTextAt .nested w (modLast (PNode.modKids fun ks => ks ++ [.text v]) ks) =
      modLast (PNode.modKids fun ks => ks ++ [.text (v ++ w)]) ks := by
  refine modLast_comp _ _ _ (fun x => ?_) _
  cases x with
  | elem n as s ct ks en =>
    simp only [PNode.modKids]
    rw [modLast_append _ _ (by simp)]
    rfl
  | _ => rfl

theorem addTextAt_nil (p : Place) (ks : List PNode) : addTextAt p [] ks = ks := by
  have e2 : ∀ (f : PNode → PNode), (∀ x, f x = x) → ∀ l, modLast f l = l := by
    intro f hf l
    induction l with
    | nil => rfl
    | cons x l ih =>
      cases l with
      | nil => simp [modLast, hf]
      | cons y l => simp only [modLast]; rw [ih]
  have e : ∀ x : PNode, PNode.addText [] x = x := by intro x; cases x <;> simp [PNode.addText]
  cases p with
  | top => exact e2 _ e _
  | nested =>
    refine e2 _ (fun x => ?_) _
    cases x with
    | elem n as s ct ks en => simp only [PNode.modKids]; rw [e2 _ e]
    | _ => rfl

/-- More characters of a text. -/
theorem arun_textMore {o : ParseOptions} {p : Place} : ∀ (w : Str) (a : AState), a.mode = .text p → '<' ∉ w →
    arun o a w = some (a.more p w)
  | [], a, h, _ => by simp [arun, AState.more, addTextAt_nil]
  | c :: w, a, h, hw => by
    have hc : c ≠ '<' := fun e => hw (by simp [e])
    simp only [arun, astep, h, hc, if_false]
    rw [arun_textMore w (a.more p [c]) h fun e => hw (by simp [e])]
    simp only [AState.more, addTextAt_twice, List.singleton_append]

/-- The machine behind a `<`, from the machine before it. -/
theorem arun_behind {o : ParseOptions} {a : AState} {l : Last} (h : a.mode = .lt l) (v : Str) :
    arun o a v = arun o { a with mode := .wait l } ('<' :: v) := by
  simp only [arun, astep, if_true]
  rw [← h]

theorem raw_not_void {n : Str} (h : isRaw n) : ¬ isVoid n := by
  unfold isRaw at h
  unfold isVoid
  generalize String.ofList (fold n) = x at h
  simp only [List.mem_cons, List.not_mem_nil, or_false] at h
  rcases h with rfl | rfl | rfl | rfl <;> decide

theorem isAlpha_char (c : Char) : isAlpha c = c.isAlpha := by
  unfold Char.isAlpha isAlpha
  rw [Bool.or_comm]
  congr 1
  unfold Char.isUpper isUpper Char.toNat
  rw [Bool.eq_iff_iff]
  simp only [Bool.and_eq_true, decide_eq_true_eq, ge_iff_le, UInt32.le_iff_toNat_le]
  rfl

theorem tagName_ok {n : Str} (h : tagName n) : TagNameOk n := (tagName_iff n).1 h

theorem ctx_enter (sp : Option (SpecialTag × Str)) (n : Str) :
    (match sp with
      | some s => some s
      | none => (specialTag (lowerAll n)).map fun s => (s, n)).map Prod.snd = enter (sp.map Prod.snd) n := by
  cases sp with
  | some x => simp [enter]
  | none =>
    simp only [Option.map_none, enter]
    by_cases hf : isForeign n
    · rw [if_pos hf]
      have := (foreign_iff n).2 hf
      cases hx : specialTag (lowerAll n) with
      | none => rw [hx] at this; cases this
      | some x => rfl
    · rw [if_neg hf]
      cases hx : specialTag (lowerAll n) with
      | none => rfl
      | some x => exact absurd ((foreign_iff n).1 (by rw [hx]; rfl)) hf

theorem ctx_leave (sp : Option (SpecialTag × Str)) (e : Str) :
    (match sp with
      | some (s, n) => if n = charsTrimEnd e then none else some (s, n)
      | none => none).map Prod.snd = leave (sp.map Prod.snd) e := by
  unfold leave
  rw [← charsTrimEnd_eq]
  cases sp with
  | none => simp
  | some x =>
    obtain ⟨s, n⟩ := x
    by_cases hx : n = charsTrimEnd e
    · simp [hx]
    · simp [hx]

theorem ownEnd_iff {n w : Str} : (isEqualCharsIgnoreCase n (charsTrimEnd w)).1 = true ↔ sameName (trimEnd w) n := by
  rw [isEqualCharsIgnoreCase_spec, charsTrimEnd_eq]
  unfold sameName
  rw [lowerAll_eq_fold, lowerAll_eq_fold]
  by_cases q : fold n = fold (trimEnd w)
  · rw [if_pos q]; exact ⟨fun _ => q.symm, fun _ => rfl⟩
  · rw [if_neg q]; exact ⟨fun h => (Bool.noConfusion h), fun h => absurd (Eq.symm h) q⟩

/-- An end tag up to its `>`. -/
theorem arun_endTag {o : ParseOptions} {a : AState} {l : Last} (hm : a.mode = .lt l) {e : Str} (he : '>' ∉ e) :
    arun o a ('/' :: e) = some { a with mode := .tagEnd e (if o.autoFixUnclosedTag then l else .other) } := by
  have q1 : isAlpha '/' = false := by decide
  have e1 : astep o a '/' = some { a with mode := .tagEnd [] (if o.autoFixUnclosedTag then l else .other) } := by
    simp only [astep, hm, q1, Bool.false_eq_true, if_false, if_true]
  rw [arun, e1]
  exact arun_tagEnd e [] _ rfl he

/-- The machine reads every sequence of constructs, and builds the same. -/
theorem Scan.run {o : ParseOptions} {u : Str} {S : Sit} (h : Spec.Scan o u S) :
    ∃ a, arun o {} u = some a ∧ a.mode.simple = true ∧ sitOf a = S := by
  induction h with
  | nil => exact ⟨{}, rfl, rfl, rfl⟩
  | @text u w S h hs ho hl hw hlt ih =>
    obtain ⟨a, h1, h2, rfl⟩ := ih
    obtain ⟨l, hm, hl'⟩ := spot_between h2 hs
    rw [hl'] at hl
    cases w with
    | nil => exact absurd rfl hw
    | cons c w =>
      have hc : c ≠ '<' := fun e => hlt (by simp [e])
      have e1 : astep o a c = some { a.push (.text [c]) with mode := .text .top } := by
        simp only [astep, hm, hc, if_false]
        have ho : a.over = false := ho
        cases l with
        | text p => simp only [hl p rfl, ho, Bool.false_eq_true, if_false]
        | _ => simp only [ho, Bool.false_eq_true, if_false]
      refine ⟨{ a.push (.text (c :: w)) with mode := .text .top }, ?_, rfl, rfl⟩
      rw [arun_append, h1, Option.bind_some]
      simp only [arun, e1]
      rw [arun_textMore w _ rfl fun e => hlt (by simp [e])]
      simp only [AState.more, AState.push, addTextAt]
      rw [modLast_append _ _ (by simp)]
      rfl
  | @resume u w S p h hs hl ho hw hlt ih =>
    obtain ⟨a, h1, h2, rfl⟩ := ih
    obtain ⟨l, hm, hl'⟩ := spot_between h2 hs
    have : l = .text p := hl'.symm.trans hl
    subst this
    cases w with
    | nil => exact absurd rfl hw
    | cons c w =>
      have hc : c ≠ '<' := fun e => hlt (by simp [e])
      refine ⟨{ a.more p (c :: w) with mode := .text p }, ?_, rfl, rfl⟩
      rw [arun_append, h1, Option.bind_some]
      simp only [arun, astep, hm, hc, ho, if_false]
      rw [arun_textMore w _ rfl fun e => hlt (by simp [e])]
      simp only [AState.more, addTextAt_twice, List.singleton_append]
  | @lt u S h hs ih =>
    obtain ⟨a, h1, h2, rfl⟩ := ih
    rw [arun_append, h1, Option.bind_some]
    cases hm : a.mode with
    | wait l => exact ⟨{ a with mode := .lt l }, by simp only [arun, astep, hm, if_true], rfl, by simp only [sitOf, hm]; rfl⟩
    | text p => exact ⟨{ a with mode := .lt (.text p) }, by simp only [arun, astep, hm, if_true], rfl, by simp only [sitOf, hm]; rfl⟩
    | lt l => exact absurd (by simp only [sitOf, hm, spotOf]) hs
    | _ => rw [hm] at h2; cases h2
  | @escape u S h hs ho ih =>
    obtain ⟨a, h1, h2, rfl⟩ := ih
    obtain ⟨l, hm, hl'⟩ := spot_lt h2 hs
    rw [arun_append, h1, Option.bind_some]
    have q1 : isAlpha '<' = false := by decide
    have q2 : ('<' : Char) ≠ '/' := by decide
    have q3 : ('<' : Char) ≠ '!' := by decide
    simp only [arun, astep, hm, q1, q2, q3, ho, if_false, if_true, Bool.false_eq_true, Bool.true_eq_false]
    unfold Sit.text
    rw [hl']
    cases l with
    | text p => exact ⟨_, rfl, rfl, rfl⟩
    | hole => exact ⟨_, rfl, rfl, rfl⟩
    | other => exact ⟨_, rfl, rfl, rfl⟩
  | @escapeText u w S c h hs ho hc hlt ih =>
    obtain ⟨a, h1, h2, rfl⟩ := ih
    obtain ⟨l, hm, hl'⟩ := spot_lt h2 hs
    rw [arun_append, h1, Option.bind_some]
    have q1 : isAlpha c = false := by rw [isAlpha_char]; exact hc.1
    have q2 : c ≠ '<' := fun e => hlt (by simp [e])
    simp only [arun, astep, hm, q1, q2, hc.2.1, hc.2.2, ho, if_false, Bool.false_eq_true, Bool.true_eq_false]
    unfold Sit.text
    rw [hl']
    have hw : '<' ∉ w := fun e => hlt (by simp [e])
    cases l with
    | text p =>
      refine ⟨_, arun_textMore w _ rfl hw, rfl, ?_⟩
      simp only [AState.more, addTextAt_twice]
      rfl
    | hole =>
      refine ⟨_, arun_textMore w _ rfl hw, rfl, ?_⟩
      simp only [AState.more, AState.fill, addTextAt_fill]
      rfl
    | other =>
      refine ⟨_, arun_textMore w _ rfl hw, rfl, ?_⟩
      simp only [AState.more, AState.push, addTextAt]
      rw [modLast_append _ _ (by simp)]
      rfl
  | @comment u w S h hs ho hw hn ih =>
    obtain ⟨a, h1, h2, rfl⟩ := ih
    obtain ⟨l, hm, hl'⟩ := spot_lt h2 hs
    rw [arun_append, h1, Option.bind_some, arun_behind hm]
    show ∃ b, arun o _ ('<' :: '!' :: ('-' :: '-' :: w ++ ['-', '-', '>'])) = some b ∧ _
    rw [read_bang rfl]
    have ho : a.over = false := ho
    have e1 : arun o { a with mode := .bang none [] } ['-', '-'] = some { a with mode := .comment false [], mark := '-' } := by
      simp [arun, astep, ho, detectComment, toUpper, isLower]
    have e2 : ('-' :: '-' :: w ++ ['-', '-', '>']) = ['-', '-'] ++ (w ++ ['-', '-', '>']) := rfl
    rw [e2, arun_append, e1, Option.bind_some, read_comment (cd := false) '-' rfl rfl hw hn]
    exact ⟨_, rfl, rfl, rfl⟩
  | @cdata u k w S h hs ho hk hd hw hn ih =>
    obtain ⟨a, h1, h2, rfl⟩ := ih
    obtain ⟨l, hm, hl'⟩ := spot_lt h2 hs
    obtain ⟨f, f1, f2, f3⟩ := hd
    have f1 : ctxOf a = some f := f1
    have f2 : a.rest ≠ [] := f2
    have f3 : f ≠ a.top.name := f3
    have e0 : parentOf a = some a.top.name := by unfold parentOf; rw [if_neg f2]
    have e1 := read_cdataOpen (o := o) (a := { a with mode := .wait l }) rfl ho hk (by show ctxOf a ≠ none; rw [f1]; simp)
      (by show parentOf a ≠ none; rw [e0]; simp) (by show ctxOf a ≠ parentOf a; rw [f1, e0]; simpa using f3)
    rw [arun_append, h1, Option.bind_some, arun_behind hm]
    have e2 : '<' :: ('!' :: k ++ w ++ "]]>".toList) = (['<', '!'] ++ k) ++ (w ++ [']', ']', '>']) := by simp
    rw [e2, arun_append, e1, Option.bind_some, read_comment (cd := true) ']' rfl rfl hw hn]
    exact ⟨_, rfl, rfl, rfl⟩
  | @doctype u n t S c as h hs ho hn hc ht ih =>
    obtain ⟨a, h1, h2, rfl⟩ := ih
    obtain ⟨l, hm, hl'⟩ := spot_lt h2 hs
    rw [arun_append, h1, Option.bind_some, arun_behind hm]
    obtain ⟨mk, e⟩ := read_doctypeTag (o := o) (a := { a with mode := .wait l }) rfl ho hn hc ht
    exact ⟨_, e, rfl, rfl⟩
  | @doctypeSelf u n t S c as h hs ho hn hc ht ih =>
    obtain ⟨a, h1, h2, rfl⟩ := ih
    obtain ⟨l, hm, hl'⟩ := spot_lt h2 hs
    rw [arun_append, h1, Option.bind_some, arun_behind hm]
    obtain ⟨mk, e⟩ := read_doctypeTag (o := o) (a := { a with mode := .wait l }) rfl ho hn hc ht
    refine ⟨_, e, rfl, ?_⟩
    rw [if_pos rfl]
    have e1 : (sitOf a).rest = a.rest := rfl
    simp only [Sit.close, AState.pop, Sit.add, AState.push, e1]
    cases a.rest <;> rfl
  | @selfClosed u n t S as h hs ho hn hv ht ha ih =>
    obtain ⟨a, h1, h2, rfl⟩ := ih
    obtain ⟨l, hm, hl'⟩ := spot_lt h2 hs
    rw [arun_append, h1, Option.bind_some, arun_behind hm]
    obtain ⟨mk, e⟩ := read_selfTag (o := o) (a := { a with mode := .wait l }) rfl ho (tagName_ok hn) hv ht (by
      rcases ha with q | q | q
      · exact Or.inl q
      · exact Or.inr (Or.inl q)
      · refine Or.inr (Or.inr fun e => q ?_)
        show ctxOf a = none
        unfold ctxOf
        rw [show a.sp = none from e]; rfl)
    exact ⟨_, e, rfl, rfl⟩
  | @void u n t S as h hs ho hn hv ht ha ih =>
    obtain ⟨a, h1, h2, rfl⟩ := ih
    obtain ⟨l, hm, hl'⟩ := spot_lt h2 hs
    rw [arun_append, h1, Option.bind_some, arun_behind hm]
    obtain ⟨m, mk, mode, e, k1, k2, k3⟩ := read_tag (o := o) (a := { a with mode := .wait l }) rfl ho (tagName_ok hn) hv ht
    have : m.isVoid = true := by rw [k3]; exact (isVoid_iff n).2 ha
    unfold AState.openTag at e
    rw [if_pos this] at e
    refine ⟨_, e, rfl, ?_⟩
    rw [k1, k2]; rfl
  | @raw u n t x e S as h hs ho hn hv ht hr he hx ih =>
    obtain ⟨a, h1, h2, rfl⟩ := ih
    obtain ⟨l, hm, hl'⟩ := spot_lt h2 hs
    rw [arun_append, h1, Option.bind_some, arun_behind hm]
    obtain ⟨m, mk, mode, e', k1, k2, k3⟩ := read_tag (o := o) (a := { a with mode := .wait l }) rfl ho (tagName_ok hn) hv ht
    have q1 : m.isVoid = false := by
      rw [k3]
      cases hb : isVoidTag (lowerAll n) with
      | false => rfl
      | true => exact absurd ((isVoid_iff n).1 hb) (raw_not_void hr)
    have q2 : isContentTag (lowerAll m.name) none = true := by rw [k1]; exact (isRaw_iff n).2 hr
    unfold AState.openTag at e'
    rw [if_neg (by rw [q1]; decide), if_pos q2] at e'
    have e2 : '<' :: (n ++ t ++ x ++ "</".toList ++ e ++ ">".toList) = ('<' :: n ++ t) ++ (x ++ ['<', '/'] ++ e ++ ['>']) := by simp
    rw [e2, arun_append, e', Option.bind_some, read_raw rfl (by rw [k1]; exact tagName_ok hn) (by rw [k1]; exact he) (by rw [k1]; exact hx)]
    refine ⟨_, rfl, rfl, ?_⟩
    rw [k1, k2]; rfl
  | @start u n t S as h hs ho hn hv ht hv' hr ih =>
    obtain ⟨a, h1, h2, rfl⟩ := ih
    obtain ⟨l, hm, hl'⟩ := spot_lt h2 hs
    rw [arun_append, h1, Option.bind_some, arun_behind hm]
    obtain ⟨m, mk, mode, e', k1, k2, k3⟩ := read_tag (o := o) (a := { a with mode := .wait l }) rfl ho (tagName_ok hn) hv ht
    have q1 : m.isVoid = false := by
      rw [k3]
      cases hb : isVoidTag (lowerAll n) with
      | false => rfl
      | true => exact absurd ((isVoid_iff n).1 hb) hv'
    have q2 : ¬ isContentTag (lowerAll m.name) none = true := by rw [k1]; exact fun q => hr ((isRaw_iff n).1 q)
    unfold AState.openTag at e'
    rw [if_neg (by rw [q1]; decide), if_neg q2] at e'
    refine ⟨_, e', rfl, ?_⟩
    refine sit_eq ?_ rfl rfl ?_ rfl rfl
    · show ({ name := m.name, attrs := m.attrs } : Frame) = _
      rw [k1, k2]
    · rw [← k1]; exact ctx_enter a.sp m.name
  | @close u e S h hs hr hgt he ih =>
    obtain ⟨a, h1, h2, rfl⟩ := ih
    obtain ⟨l, hm, hl'⟩ := spot_lt h2 hs
    have hr : a.rest ≠ [] := hr
    obtain ⟨m1, m2⟩ := (endMatch_iff o.caseSensitiveTagname a.top.name e).2 he
    rw [arun_append, h1, Option.bind_some, arun_append, arun_endTag hm hgt, Option.bind_some]
    have hb : ¬ (o.caseSensitiveTagname = true ∧ (isEqualCharsIgnoreCase a.top.name (charsTrimEnd e)).2 = false) := by
      rintro ⟨q1, q2⟩
      rw [m2 q1] at q2; cases q2
    show ∃ b, arun o _ ['>'] = some b ∧ _
    simp only [arun, astep, if_true]
    rw [if_pos ⟨hr, m1⟩, if_neg hb]
    refine ⟨_, rfl, rfl, ?_⟩
    obtain ⟨t1, t2, t3⟩ := sit_close a { a with mode := .tagEnd e (if o.autoFixUnclosedTag then l else .other) } (some e) rfl rfl rfl
    exact sit_eq t1 t2 t3 (ctx_leave a.sp e) rfl rfl
  | @stray u e S h hs hgt he ho ih =>
    obtain ⟨a, h1, h2, rfl⟩ := ih
    obtain ⟨l, hm, hl'⟩ := spot_lt h2 hs
    rw [arun_append, h1, Option.bind_some, arun_append, arun_endTag hm hgt, Option.bind_some]
    show ∃ b, arun o _ ['>'] = some b ∧ _
    simp only [arun, astep, if_true, ho]
    rw [if_neg fun q => he ⟨q.1, ownEnd_iff.1 q.2⟩]
    refine ⟨_, rfl, rfl, ?_⟩
    rw [hl']
    rfl

end Rphtml
