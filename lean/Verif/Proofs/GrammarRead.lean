import Verif.Proofs.TagExact
import Verif.Proofs.ModeOk
import Verif.Proofs.DocOf

/-!
# Every spelling of a document is read
-/

namespace Rphtml
open Spec

/-- The last character of a tag. -/
theorem tagEnds_last {isDoc allowEq : Bool} : ∀ (z : Str) (t : TagSt) {as : List Attr} {sc : Bool}, t.Ok2 →
    tagEnds isDoc allowEq t z = some (as, some sc) →
    ∃ s t' c, z = s ++ [c] ∧ trun isDoc allowEq t s = some t' ∧ t'.m.name = t.m.name ∧ t'.m.isVoid = t.m.isVoid ∧
      ((sc = false ∧ ∃ m mk id, tagChar isDoc allowEq t' c = .close m [] mk id ∧ m.attrs = as ∧ m.name = t.m.name ∧ m.isVoid = t.m.isVoid) ∨
        (sc = true ∧ tagChar isDoc allowEq t' c = .selfClose ∧ t'.m.attrs = as))
  | [], t, as, sc, hok, h => by cases h
  | c :: z, t, as, sc, hok, h => by
    simp only [tagEnds] at h
    cases ht : tagChar isDoc allowEq t c with
    | cont t1 id =>
      rw [ht] at h
      obtain ⟨k1, k2, _⟩ := tagChar_cont hok ht
      obtain ⟨s, t', c', e1, e2, e3, e4, e5⟩ := tagEnds_last z t1 k1 h
      refine ⟨c :: s, t', c', by rw [e1]; rfl, by simp only [trun, ht, e2], e3.trans k2.name, e4.trans k2.isVoid, ?_⟩
      rcases e5 with ⟨q1, m, mk, id', q2, q3, q4, q5⟩ | q
      · exact Or.inl ⟨q1, m, mk, id', q2, q3, q4.trans k2.name, q5.trans k2.isVoid⟩
      · exact Or.inr q
    | close m pc mk id =>
      rw [ht] at h
      simp only at h
      split at h
      · rename_i hz
        simp only [Option.some.injEq, Prod.mk.injEq] at h
        obtain ⟨k1, k2, k3⟩ := tagChar_close hok ht
        subst k2
        exact ⟨[], t, c, by rw [hz]; rfl, rfl, rfl, rfl, Or.inl ⟨h.2.symm, m, mk, id, ht, h.1, k1.name, k1.isVoid⟩⟩
      · cases h
    | selfClose =>
      rw [ht] at h
      simp only at h
      split at h
      · rename_i hz
        simp only [Option.some.injEq, Prod.mk.injEq] at h
        exact ⟨[], t, c, by rw [hz]; rfl, rfl, rfl, rfl, Or.inr ⟨h.2.symm, ht, h.1⟩⟩
      · cases h
    | err k => rw [ht] at h; cases h

theorem ok2_name (n : Str) (mk : Char) : (⟨.tagWait, nameMeta n, [], mk⟩ : TagSt).Ok2 := by
  unfold TagSt.Ok2; simp

/-- Behind the name of a tag. -/
theorem arun_nameOver {o : ParseOptions} {a : AState} {n t : Str} (h : a.mode = .tagName n) (ht : nameOver t) :
    arun o a t = arun o { a with mode := .inTag false ⟨.tagWait, nameMeta n, [], a.mark⟩, mark := a.mark } t := by
  obtain ⟨c, hc, hcc⟩ := ht
  cases t with
  | nil => cases hc
  | cons c' t =>
    simp only [List.head?_cons, Option.some.injEq] at hc
    subst hc
    have hw : Waits ⟨.tagWait, nameMeta n, [], a.mark⟩ := ⟨Or.inl rfl, rfl⟩
    rcases hcc with q | rfl | rfl
    · have q := (isWs_mem c').2 q
      rw [tagName_ws h c' t q]
      simp only [arun, astep, hw.space q]
    · simp only [arun, astep, h, hw.slash]
      simp
    · simp only [arun, astep, h]
      have : tagChar false o.allowAttrKeyStartsWithEqualSign ⟨.tagWait, nameMeta n, [], a.mark⟩ '>' = .close (nameMeta n) [] a.mark none := by
        unfold tagChar tagWaitC; simp
      rw [this]
      simp only [if_true, Bool.false_eq_true, if_false]
      unfold AState.openTag
      split
      · rfl
      · split <;> rfl

/-- A start tag, however spelled. -/
theorem read_tag {o : ParseOptions} {a : AState} (h : a.mode.outside = true) (ho : a.over = false) {n t : Str} (hn : TagNameOk n)
    {as : List Attr} (ht : nameOver t) (hr : TagRest o.allowAttrKeyStartsWithEqualSign false as false t) :
    ∃ m mk mode, arun o a ('<' :: n ++ t) = some { ({ a with mode := mode } : AState).openTag m [] with mark := mk } ∧
      m.name = n ∧ m.attrs = as ∧ m.isVoid = isVoidTag (lowerAll n) := by
  rw [arun_append, read_name h ho hn, Option.bind_some, arun_nameOver rfl ht]
  have := tagEnds_of hr ⟨.tagWait, nameMeta n, [], a.mark⟩ rfl rfl rfl
  obtain ⟨s, t', c, e1, e2, e3, e4, ⟨_, m, mk, id, k1, k2, k3, k4⟩ | ⟨q, _⟩⟩ := tagEnds_last t _ (ok2_name n a.mark) this
  · refine ⟨m, mk, .inTag false t', ?_, k3, by simpa using k2, k4⟩
    rw [e1, arun_append]
    have := arun_trun (o := o) a _ _ _ e2
    simp only at this
    rw [this]
    simp only [Option.bind_some, arun, astep, k1, if_false, Bool.false_eq_true]
    unfold AState.openTag
    split
    · rfl
    · split <;> rfl
  · cases q

/-- A self-closed tag, however spelled. -/
theorem read_selfTag {o : ParseOptions} {a : AState} (h : a.mode.outside = true) (ho : a.over = false) {n t : Str} (hn : TagNameOk n)
    {as : List Attr} (ht : nameOver t) (hr : TagRest o.allowAttrKeyStartsWithEqualSign false as true t)
    (hs : o.allowSelfClosing = true ∨ isVoid n ∨ a.sp ≠ none) :
    ∃ mk, arun o a ('<' :: n ++ t) = some { a.push (.elem n as true none [] none) with mode := .wait .other, mark := mk } := by
  rw [arun_append, read_name h ho hn, Option.bind_some, arun_nameOver rfl ht]
  have := tagEnds_of hr ⟨.tagWait, nameMeta n, [], a.mark⟩ rfl rfl rfl
  obtain ⟨s, t', c, e1, e2, e3, e4, ⟨q, _⟩ | ⟨_, k1, k2⟩⟩ := tagEnds_last t _ (ok2_name n a.mark) this
  · cases q
  · refine ⟨t'.mark, ?_⟩
    rw [e1, arun_append]
    have := arun_trun (o := o) a _ _ _ e2
    simp only at this
    rw [this]
    have s3 : o.allowSelfClosing = true ∨ t'.m.isVoid = true ∨ a.sp ≠ none := by
      rw [e4]
      show _ ∨ isVoidTag (lowerAll n) = true ∨ _
      rw [isVoid_iff]; exact hs
    simp only [Option.bind_some, arun, astep, k1, if_false, Bool.false_eq_true]
    rw [if_pos s3]
    simp only [List.nil_append] at k2
    rw [e3, k2]
    rfl

/-- The name of a doctype. -/
theorem read_doctypeName {o : ParseOptions} {a : AState} (h : a.mode.outside = true) (ho : a.over = false) {n : Str}
    (hn : fold n = ['d', 'o', 'c', 't', 'y', 'p', 'e']) :
    arun o a (['<', '!'] ++ n) = some { a with mode := .doctypeName n } := by
  have hu := doctype_upper hn
  cases n with
  | nil => cases hu
  | cons c cs =>
    simp only [List.map_cons, detectDoctype, List.cons.injEq] at hu
    have hc := upper_D hu.1
    have h1 : c ≠ '-' := by rcases hc with rfl | rfl <;> decide
    show arun o a ('<' :: '!' :: c :: cs) = _
    rw [read_bang h]
    simp only [arun, astep, h1, if_false]
    rw [if_pos hc]
    have := arun_keyword (o := o) (D := detectDoctype) cs [c] { a with mode := .bang (some detectDoctype) [c] } rfl ho
      (by intro e; subst e; simp at hu) (by simp only [detectDoctype]; simp [hu.2])
    simp only [this]
    rfl

/-- A doctype, however spelled. -/
theorem read_doctypeTag {o : ParseOptions} {a : AState} (h : a.mode.outside = true) (ho : a.over = false) {n t : Str} {c : Char}
    (hn : fold n = ['d', 'o', 'c', 't', 'y', 'p', 'e']) {as : List Attr} {sc : Bool} (hc : c ∈ ws)
    (hr : TagRest o.allowAttrKeyStartsWithEqualSign true as sc (c :: t)) :
    ∃ mk, arun o a (['<', '!'] ++ n ++ c :: t) = some (if sc then { (a.push (.doctype n as true)).pop none with mode := .wait .other, mark := mk }
      else { a.push (.doctype n as false) with mode := .wait .other, mark := mk }) := by
  rw [arun_append, read_doctypeName h ho hn, Option.bind_some]
  have hw := (isWs_mem c).2 hc
  have e : arun o { a with mode := .doctypeName n } (c :: t) =
      arun o { a with mode := .inTag true ⟨.tagWait, nameMeta n, [], a.mark⟩, mark := a.mark } (c :: t) := by
    simp only [arun, astep, hw, if_true]
    rw [Waits.space (t := ⟨.tagWait, nameMeta n, [], a.mark⟩) ⟨Or.inl rfl, rfl⟩ hw]
  rw [e]
  have := tagEnds_of hr ⟨.tagWait, nameMeta n, [], a.mark⟩ rfl rfl rfl
  obtain ⟨s, t', c', e1, e2, e3, e4, ⟨rfl, m, mk, id, k1, k2, k3, k4⟩ | ⟨rfl, k1, k2⟩⟩ := tagEnds_last _ _ (ok2_name n a.mark) this
  · refine ⟨mk, ?_⟩
    rw [e1, arun_append]
    have := arun_trun (o := o) a _ _ _ e2
    simp only at this
    rw [this]
    simp only [Option.bind_some, arun, astep, k1, if_true, if_false, Bool.false_eq_true, k3]
    simp only [List.nil_append] at k2
    rw [k2]
    rfl
  · refine ⟨t'.mark, ?_⟩
    rw [e1, arun_append]
    have := arun_trun (o := o) a _ _ _ e2
    simp only at this
    rw [this]
    simp only [Option.bind_some, arun, astep, k1, if_true, e3]
    simp only [List.nil_append] at k2
    rw [k2]
    unfold AState.pop AState.push
    simp only
    cases a.rest <;> rfl

/-- What reading nodes amounts to; a doctype that closes itself leaves the innermost element. -/
structure Adds (o : ParseOptions) (a : AState) (s : Str) (ps : List PNode) (ctx : Option Str) (b : AState) : Prop where
  run : arun o a s = some b
  ctx : ctxOf b = ctx
  stay : (∀ p ∈ ps, closesParent p = false) → b.top = { a.top with kids := a.top.kids ++ ps } ∧ b.rest = a.rest ∧ b.over = false
  left : (∃ p ∈ ps, closesParent p = true) →
    (a.rest = [] → b.top = { a.top with kids := a.top.kids ++ ps } ∧ b.rest = [] ∧ b.over = true) ∧
    (∀ g gs, a.rest = g :: gs →
      b.top = { g with kids := g.kids ++ [.elem a.top.name a.top.attrs false none (a.top.kids ++ ps) none] } ∧ b.rest = gs ∧ b.over = false)

theorem Adds.leaf {o : ParseOptions} {a b : AState} {s : Str} {p : PNode} {ctx : Option Str} (hp : closesParent p = false)
    (h : ReadsTo o a s [p] ctx b) : Adds o a s [p] ctx b :=
  ⟨h.run, h.ctx, fun _ => ⟨h.top, h.rest, h.over⟩, fun ⟨q, hq, hc⟩ => by
    simp only [List.mem_singleton] at hq; rw [hq, hp] at hc; cases hc⟩

theorem upper_of_fold {n w : Str} (h : fold n = w) : n.map toUpper = w.map toUpper := by
  have h1 : (lowerAll n).map toUpper = w.map toUpper := by rw [lowerAll_eq_fold, h]
  rw [← h1]
  unfold lowerAll
  rw [List.map_map]
  congr 1
  funext c
  apply char_ext
  simp only [Function.comp, toNat_toUpper, toNat_toLower]
  repeat' split
  all_goals omega

/-- `<![CDATA[`, however spelled. -/
theorem read_cdataOpen {o : ParseOptions} {a : AState} (h : a.mode.outside = true) (ho : a.over = false) {k : Str}
    (hk : fold k = ['[', 'c', 'd', 'a', 't', 'a', '[']) (h3 : ctxOf a ≠ none) (h4 : parentOf a ≠ none) (h5 : ctxOf a ≠ parentOf a) :
    arun o a (['<', '!'] ++ k) = some { a with mode := .comment true [], mark := ']' } := by
  have hu : k.map toUpper = detectCdata := (upper_of_fold hk).trans (by decide)
  cases k with
  | nil => cases hu
  | cons c cs =>
    simp only [List.map_cons, detectCdata, List.cons.injEq] at hu
    have hc : c = '[' := by
      have e := congrArg Char.toNat hu.1
      rw [toNat_toUpper] at e
      have h2 : ('[' : Char).toNat = 91 := by decide
      rw [h2] at e
      apply char_ext
      rw [h2]
      split at e <;> omega
    subst hc
    have hb : arun o { a with mode := .bang none [] } ['['] = some { a with mode := .bang (some detectCdata) ['['] } := by
      have b1 : ('[' : Char) ≠ '-' := by decide
      have b2 : ¬ (('[' : Char) = 'D' ∨ ('[' : Char) = 'd') := by decide
      simp only [arun, astep, b1, b2, if_true, if_false]
      cases hsp : a.sp with
      | none => simp [ctxOf, hsp] at h3
      | some x =>
        obtain ⟨s, n⟩ := x
        have hr : a.rest ≠ [] := by intro e; simp [parentOf, e] at h4
        have hnn : n ≠ a.top.name := by
          intro e
          apply h5
          simp [ctxOf, hsp, parentOf, hr, e]
        have : ¬ (a.over = true ∨ a.rest.isEmpty = true ∨ n = a.top.name) := by
          simp [ho, hr, hnn]
        simp only [if_neg this]
    have kk := arun_keyword (o := o) (D := detectCdata) cs ['['] { a with mode := .bang (some detectCdata) ['['] } rfl ho
      (by intro e; subst e; simp at hu) (by simp only [detectCdata]; simp [hu.2])
    show arun o a ('<' :: '!' :: '[' :: cs) = _
    rw [read_bang h]
    show arun o _ (['['] ++ cs) = _
    rw [arun_append, hb, Option.bind_some, kk]
    rfl

/-- Every spelling is read. -/
theorem reads_spelled (o : ParseOptions) :
    (∀ p : PNode, ∀ (a : AState) (ctx : Option Str) (s : Str), spells o ctx (parentOf a) p s → a.over = false → ctxOf a = ctx →
      AtNode a → (isText p = true → Free a) →
      ∃ b, Adds o a s [p] (ctxNode ctx p) b ∧ AtNode b ∧ (isText p = false → Free b)) ∧
    (∀ ps : List PNode, ∀ (a : AState) (ctx : Option Str) (s : Str), spellsAll o ctx (parentOf a) ps s → a.over = false →
      ctxOf a = ctx → AtNode a → (∀ q, ps.head? = some q → isText q = true → Free a) →
      ∃ b, Adds o a s ps (ctxNodes ctx ps) b ∧ AtNode b ∧ ((∃ p ∈ ps, closesParent p = true) → Free b)) := by
  apply PNode.induct
  · -- text
    intro w a ctx s hw ho hctx _ hfree
    obtain ⟨l, hl, hlt⟩ := hfree rfl
    simp only [spells] at hw
    obtain ⟨rfl, h1, h2⟩ := hw
    cases s with
    | nil => exact absurd rfl h1
    | cons c w =>
      have hc : c ≠ '<' := fun e => h2 (by simp [e])
      have hs : astep o a c = some { a.push (.text [c]) with mode := .text .top } := by
        simp only [astep, hl, if_neg hc]
        split
        · rename_i p _; exact absurd rfl (hlt p)
        · rw [ho]; rfl
      refine ⟨{ a.push (.text (c :: w)) with mode := .text .top }, Adds.leaf rfl ⟨?_, rfl, rfl, ho, hctx⟩, .inr rfl, fun h => by cases h⟩
      simp only [arun, hs]
      rw [arun_text w [c] a.top.kids _ rfl rfl fun e => h2 (by simp [e])]
      rfl
  · -- comment
    intro w a ctx s hw ho hctx hat _
    simp only [spells] at hw
    obtain ⟨rfl, h1, h2⟩ := hw
    refine ⟨{ a.push (.comment w) with mode := .wait .other, mark := '\x00' }, Adds.leaf rfl ⟨?_, rfl, rfl, ho, hctx⟩,
      .inl ⟨.other, rfl, by simp⟩, fun _ => ⟨.other, rfl, by simp⟩⟩
    show arun o a (['<', '!', '-', '-'] ++ w ++ ['-', '-', '>']) = _
    simp only [List.cons_append, List.nil_append]
    rw [read_bang hat.outside]
    have k := arun_keyword (o := o) (D := detectComment) ['-'] ['-'] { a with mode := .bang (some detectComment) ['-'] } rfl ho
      (by simp) (by decide)
    have e : ∀ s, arun o { a with mode := .bang none [] } ('-' :: '-' :: s) = arun o { a with mode := .comment false [], mark := '-' } s := by
      intro s
      show arun o _ (['-'] ++ (['-'] ++ s)) = _
      rw [arun_append]
      have : arun o { a with mode := .bang none [] } ['-'] = some { a with mode := .bang (some detectComment) ['-'] } := by
        simp only [arun, astep, if_true]
      rw [this, Option.bind_some, arun_append, k]
      rfl
    rw [e, read_comment (a := { a with mode := .comment false [], mark := '-' }) '-' rfl rfl h1 h2]
    rfl
  · -- cdata
    intro w a ctx s hw ho hctx hat _
    simp only [spells] at hw
    obtain ⟨⟨k, hk, rfl⟩, h1, h2, h3, h4, h5⟩ := hw
    refine ⟨{ a.push (.cdata w) with mode := .wait .other, mark := '\x00' }, Adds.leaf rfl ⟨?_, rfl, rfl, ho, hctx⟩,
      .inl ⟨.other, rfl, by simp⟩, fun _ => ⟨.other, rfl, by simp⟩⟩
    subst hctx
    show arun o a (['<', '!'] ++ k ++ w ++ [']', ']', '>']) = _
    rw [List.append_assoc, arun_append, read_cdataOpen hat.outside ho hk h3 h4 h5, Option.bind_some,
      read_comment (a := { a with mode := .comment true [], mark := ']' }) ']' rfl rfl h1 h2]
    rfl
  · -- doctype
    intro n as sc a ctx s hw ho hctx hat _
    simp only [spells] at hw
    obtain ⟨h1, c, t, rfl, h2, h3⟩ := hw
    obtain ⟨mk, hrun⟩ := read_doctypeTag hat.outside ho h1 h2 h3
    cases sc with
    | false =>
      exact ⟨_, Adds.leaf rfl ⟨hrun, rfl, rfl, ho, hctx⟩, .inl ⟨.other, rfl, by simp⟩, fun _ => ⟨.other, rfl, by simp⟩⟩
    | true =>
      simp only [if_true] at hrun
      refine ⟨_, ⟨hrun, ?_, ?_, ?_⟩, .inl ⟨.other, rfl, by simp⟩, fun _ => ⟨.other, rfl, by simp⟩⟩
      · simp only [ctxNode]
        rw [← hctx]
        unfold AState.pop AState.push
        simp only
        cases a.rest <;> rfl
      · intro h
        have := h (.doctype n as true) (by simp)
        cases this
      · intro _
        constructor
        · intro hr
          simp only [AState.pop, AState.push, hr]
          exact ⟨trivial, trivial, trivial⟩
        · intro g gs hr
          simp only [AState.pop, AState.push, hr]
          exact ⟨trivial, trivial, ho⟩
  · -- element
    intro n as sc ct ks e ih a ctx s hw ho hctx hat _
    simp only [spells] at hw
    obtain ⟨hn, t, w, rfl, ht, hr, hw⟩ := hw
    rw [tagName_iff] at hn
    show ∃ b, Adds o a ((['<'] ++ n ++ t) ++ w) _ _ b ∧ _
    by_cases hs : sc = true
    · subst hs
      rw [if_pos rfl] at hw
      obtain ⟨rfl, rfl, rfl, rfl, hok⟩ := hw
      obtain ⟨mk, hrun⟩ := read_selfTag hat.outside ho hn ht hr (by
        rcases hok with q | q | q
        · exact .inl q
        · exact .inr (.inl q)
        · refine .inr (.inr ?_)
          intro e; rw [← hctx] at q; simp [ctxOf, e] at q)
      refine ⟨{ a.push (.elem n as true none [] none) with mode := .wait .other, mark := mk }, Adds.leaf rfl ⟨?_, rfl, rfl, ho, ?_⟩,
        .inl ⟨.other, rfl, by simp⟩, fun _ => ⟨.other, rfl, by simp⟩⟩
      · rw [List.append_nil]
        exact hrun
      · simp only [ctxNode, true_or, if_true]
        exact hctx
    · have hs' : sc = false := by simpa using hs
      subst hs'
      rw [if_neg (by decide)] at hw
      obtain ⟨m, mk, mode, hrun, m1, m2, m3⟩ := read_tag hat.outside ho hn ht hr
      have hrun : arun o a (['<'] ++ n ++ t) = _ := hrun
      by_cases hv : isVoid n
      · rw [if_pos hv] at hw
        obtain ⟨rfl, rfl, rfl, rfl⟩ := hw
        have hmv : m.isVoid = true := by rw [m3, isVoid_iff]; exact hv
        refine ⟨{ a.push (.elem n as false none [] none) with mode := .wait .hole, mark := mk }, Adds.leaf rfl ⟨?_, rfl, rfl, ho, ?_⟩,
          .inl ⟨.hole, rfl, by simp⟩, fun _ => ⟨.hole, rfl, by simp⟩⟩
        · rw [List.append_nil, hrun]
          simp only [AState.openTag, hmv, if_true, m1, m2]
          rfl
        · simp only [ctxNode, hv, true_or, or_true, if_true]
          exact hctx
      · rw [if_neg hv] at hw
        have hmv : m.isVoid = false := by
          rw [m3]
          cases hq : isVoidTag (lowerAll n) with
          | false => rfl
          | true => exact absurd ((isVoid_iff n).1 hq) hv
        by_cases hraw : isRaw n
        · rw [if_pos hraw] at hw
          obtain ⟨rfl, x, e', rfl, rfl, rfl, he, hwf⟩ := hw
          have hmr : isContentTag (lowerAll m.name) none = true := by rw [m1, isRaw_iff]; exact hraw
          refine ⟨{ a.push (.elem n as false (some x) [] (some e')) with mode := .wait .hole, mark := mk },
            Adds.leaf rfl ⟨?_, rfl, rfl, ho, ?_⟩, .inl ⟨.hole, rfl, by simp⟩, fun _ => ⟨.hole, rfl, by simp⟩⟩
          · rw [arun_append, hrun, Option.bind_some]
            have := read_raw (o := o) (m := m) (w := x) (e := e') (a := { a with mode := .raw m [], mark := mk }) rfl
              (m1.symm ▸ hn) (m1.symm ▸ he) (m1.symm ▸ hwf)
            simp only [AState.openTag, hmv, hmr, if_true, if_false, Bool.false_eq_true]
            rw [m1, m2] at this
            exact this
          · simp only [ctxNode, hraw, or_true, if_true]
            exact hctx
        · rw [if_neg hraw] at hw
          obtain ⟨rfl, x, hks, hw⟩ := hw
          have hmr : isContentTag (lowerAll m.name) none = false := by
            rw [m1]
            cases hq : isContentTag (lowerAll n) none with
            | false => rfl
            | true => exact absurd ((isRaw_iff n).1 hq) hraw
          rw [m1] at hmr
          -- the start tag
          obtain ⟨a1, ha1⟩ : ∃ a1, a1 = ({ ({ a with mode := mode } : AState).openTag m [] with mark := mk } : AState) := ⟨_, rfl⟩
          rw [← ha1] at hrun
          have t1 : a1.top = { name := n, attrs := as, kids := [] } := by
            rw [ha1]; simp only [AState.openTag, hmv, m1, hmr, if_false, Bool.false_eq_true, m2]
          have t2 : a1.rest = a.top :: a.rest := by
            rw [ha1]; simp only [AState.openTag, hmv, m1, hmr, if_false, Bool.false_eq_true]
          have t3 : a1.over = false := by
            rw [ha1]; simp only [AState.openTag, hmv, m1, hmr, if_false, Bool.false_eq_true]; exact ho
          have t4 : a1.mode = .wait .other := by
            rw [ha1]; simp only [AState.openTag, hmv, m1, hmr, if_false, Bool.false_eq_true]
          have t5 : ctxOf a1 = enter ctx n := by
            rw [ha1, ← hctx]
            simp only [AState.openTag, hmv, m1, hmr, if_false, Bool.false_eq_true, ctxOf, enter]
            cases hsp : a.sp with
            | some x => simp
            | none =>
              simp only [Option.map_none]
              by_cases hf : isForeign n
              · rw [if_pos hf]
                have := (foreign_iff n).2 hf
                cases hx : specialTag (lowerAll n) with
                | none => rw [hx] at this; cases this
                | some x => rfl
              · rw [if_neg hf]
                cases hx : specialTag (lowerAll n) with
                | none => rfl
                | some x => exact absurd ((foreign_iff n).1 (by rw [hx]; rfl)) hf
          have hp1 : parentOf a1 = some n := by simp [parentOf, t2, t1]
          have hfree1 : Free a1 := ⟨.other, t4, by simp⟩
          -- the children
          obtain ⟨b1, hb1, hat1, hfr1⟩ := ih a1 (enter ctx n) x (hp1.symm ▸ hks) t3 t5 (.inl hfree1) (fun _ _ _ => hfree1)
          rcases hw with ⟨e', rfl, rfl, he, hq⟩ | ⟨rfl, rfl, hq⟩
          · -- the end tag
            obtain ⟨y1, y2, y3⟩ := hb1.stay hq
            have hbn : b1.top.name = n := by rw [y1, t1]
            have hba : b1.top.attrs = as := by rw [y1, t1]
            have hbk : b1.top.kids = ks := by rw [y1, t1]; rfl
            obtain ⟨b, hrb, q1, q2, q3, q4, q5⟩ := read_end (o := o) hat1.outside (y2.trans t2) (e := e')
              (hbn.symm ▸ hn) (hbn.symm ▸ he)
            have hfb : Free b := ⟨.other, q1, by simp⟩
            refine ⟨b, Adds.leaf rfl ⟨?_, ?_, q2, q3.trans y3, ?_⟩, .inl hfb, fun _ => hfb⟩
            · rw [arun_append, hrun, Option.bind_some]
              rw [show x ++ "</".toList ++ e' ++ ">".toList = x ++ (['<', '/'] ++ e' ++ ['>']) by simp]
              rw [arun_append, hb1.run, Option.bind_some, hrb]
            · rw [q4, hbn, hba, hbk]
            · rw [q5, hb1.ctx]
              simp only [ctxNode, hv, hraw, Bool.false_eq_true, or_self, if_false]
          · -- a doctype has closed the element
            obtain ⟨y1, y2, y3⟩ := (hb1.left hq).2 _ _ t2
            refine ⟨b1, Adds.leaf rfl ⟨?_, ?_, y2, y3, ?_⟩, .inl (hfr1 hq), fun _ => hfr1 hq⟩
            · rw [arun_append, hrun, Option.bind_some, hb1.run]
            · rw [y1, t1]; rfl
            · rw [hb1.ctx]
              simp only [ctxNode, hv, hraw, Bool.false_eq_true, or_self, if_false]
  · -- no nodes
    intro a ctx s hs ho hctx hat _
    simp only [spellsAll] at hs
    subst hs
    exact ⟨a, ⟨rfl, hctx, fun _ => ⟨by simp, rfl, ho⟩, fun ⟨p, hp, _⟩ => by cases hp⟩, hat, fun ⟨p, hp, _⟩ => by cases hp⟩
  · -- a node and more nodes
    intro p ps ihp ihps a ctx s hw ho hctx hat hfree
    simp only [spellsAll] at hw
    obtain ⟨w2, w4, x, y, rfl, w1, w3⟩ := hw
    obtain ⟨b, hb, hb1, hb2⟩ := ihp a ctx x w1 ho hctx hat (hfree p rfl)
    cases hcp : closesParent p with
    | true =>
      have := w4 hcp
      subst this
      simp only [spellsAll] at w3
      subst w3
      have hnt : isText p = false := by cases p <;> first | rfl | cases hcp
      exact ⟨b, by rw [List.append_nil]; exact hb, hb1, fun _ => hb2 hnt⟩
    | false =>
      obtain ⟨y1, y2, y3⟩ := hb.stay (by simpa using hcp)
      have hpb : parentOf b = parentOf a := by simp [parentOf, y2, y1]
      obtain ⟨b', hb', hat', hfr'⟩ := ihps b (ctxNode ctx p) y (hpb.symm ▸ w3) y3 hb.ctx hb1 (fun q hq hqt => by
        cases hp : isText p with
        | false => exact hb2 hp
        | true => rw [w2 hp q hq] at hqt; cases hqt)
      have hsub : (∃ q ∈ p :: ps, closesParent q = true) → ∃ q ∈ ps, closesParent q = true := by
        rintro ⟨q, hq, hc⟩
        rcases List.mem_cons.1 hq with rfl | hq
        · rw [hcp] at hc; cases hc
        · exact ⟨q, hq, hc⟩
      refine ⟨b', ⟨?_, ?_, ?_, ?_⟩, hat', fun h => hfr' (hsub h)⟩
      · rw [arun_append, hb.run, Option.bind_some, hb'.run]
      · rw [hb'.ctx]; simp only [ctxNodes]
      · intro h
        obtain ⟨z1, z2, z3⟩ := hb'.stay fun q hq => h q (by simp [hq])
        exact ⟨by rw [z1, y1]; simp, z2.trans y2, z3⟩
      · intro h
        obtain ⟨z1, z2⟩ := hb'.left (hsub h)
        constructor
        · intro hr
          obtain ⟨z3, z4, z5⟩ := z1 (y2.trans hr)
          exact ⟨by rw [z3, y1]; simp, z4, z5⟩
        · intro g gs hr
          obtain ⟨z3, z4, z5⟩ := z2 g gs (y2.trans hr)
          exact ⟨by rw [z3, y1]; simp, z4, z5⟩

/-- **Every spelling of a document is read as this document.** -/
theorem arun_spelled {o : ParseOptions} {ps : List PNode} {s : Str} (h : spellsAll o none none ps s) :
    ∃ b, arun o {} s = some b ∧ b.final o = true ∧ b.result = ps := by
  have hfree : Free ({} : AState) := ⟨.other, rfl, by simp⟩
  obtain ⟨b, hb, hat, _⟩ := (reads_spelled o).2 ps {} none s h rfl rfl (.inl hfree) (fun _ _ _ => hfree)
  have key : b.top.kids = ps ∧ b.rest = [] := by
    by_cases hq : ∃ p ∈ ps, closesParent p = true
    · obtain ⟨z1, z2, _⟩ := (hb.left hq).1 rfl
      exact ⟨by rw [z1]; rfl, z2⟩
    · obtain ⟨z1, z2, _⟩ := hb.stay (fun p hp => by
        cases hc : closesParent p with
        | false => rfl
        | true => exact absurd ⟨p, hp, hc⟩ hq)
      exact ⟨by rw [z1]; rfl, z2⟩
  refine ⟨b, hb.run, ?_, ?_⟩
  · rcases hat with ⟨l, hl, _⟩ | hl <;> simp [AState.final, hl, key.2]
  · simp [AState.result, key.2, AState.closeAll, key.1]

end Rphtml
