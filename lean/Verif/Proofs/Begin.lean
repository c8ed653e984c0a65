import Verif.Spec.Outcome
import Verif.Props.Scan

/-!
# Where open elements and pending constructs began
-/

namespace Rphtml
open Spec

theorem Step.chain_or {d d1 : Doc} {c : Char} (hd : Ctl d) (hs : Step d c d1) :
    (d.handle = .unkownTag ∧ d1.chain = d.heap.size :: d.chain ∧ (d1.heap.cell d.heap.size).beginAt = d.memPosition) ∨
      d1.chain = d.chain ∨ d1.chain = d.chain.tail := by
  have he := hs.eff hd
  cases hs with
  | tagOpen hh hc p hp =>
    left
    refine ⟨hh, rfl, ?_⟩
    simp only
    rw [grown_cell hd p hp _ d.checkTextnode (.inl rfl)]
    rfl
  | tagClose hh m hm m' pc mark id ht =>
    right
    rw [closeTag_chain]
    split
    · right; rfl
    · left; rfl
  | nameClose hh hc m hm =>
    right
    rw [closeTag_chain]
    split
    · right; rfl
    · left; rfl
  | ltExtend hh hf hc ht w hw d1 h1 =>
    right; left
    subst h1
    split <;> rfl
  | ltNew hh hf hc ht p hp d1 h1 =>
    right; left
    subst h1
    split <;> rfl
  | _ => first | (right; left; rfl) | (right; right; rfl)

/-- Since the `<` of an open element, there have been more elements open than before it. -/
theorem Ran.opened {o : ParseOptions} : ∀ (n : Nat) (s : Str) (d : Doc), s.length = n → Ran o s d → ∀ pre e post, d.chain = pre ++ e :: post →
    post ≠ [] → ∃ t v d0, s = t ++ v ∧ Ran o t d0 ∧ d0.handle = .unkownTag ∧ d0.chain.length = post.length ∧ (d.heap.cell e).beginAt + 1 = t.length ∧
      ∀ x y, v = x ++ y → x ≠ [] → ∀ d', Ran o (t ++ x) d' → post.length < d'.chain.length := by
  intro n
  induction n with
  | zero =>
    intro s d hl h pre e post hc hp
    have : s = [] := List.length_eq_zero_iff.1 hl
    subst this
    have : d = Doc.new o := by cases h; rfl
    subst this
    have hc : [0] = pre ++ e :: post := hc
    cases pre with
    | nil => simp at hc; exact absurd hc.2.symm (fun q => hp q.symm)
    | cons a l => simp at hc
  | succ n ih =>
    intro s d hl h pre e post hc hp
    rcases List.eq_nil_or_concat s with rfl | ⟨u, c, rfl⟩
    · simp at hl
    · rw [List.concat_eq_append] at h hl ⊢
      obtain ⟨d0, d1, h1, h2, rfl⟩ := h.snoc
      have hd := h1.reach.ctl
      have hc : d1.chain = pre ++ e :: post := hc
      have old : ∀ pre', d0.chain = pre' ++ e :: post → ∃ t v d0', u ++ [c] = t ++ v ∧ Ran o t d0' ∧ d0'.handle = .unkownTag ∧
          d0'.chain.length = post.length ∧ (d1.heap.cell e).beginAt + 1 = t.length ∧
          ∀ x y, v = x ++ y → x ≠ [] → ∀ d', Ran o (t ++ x) d' → post.length < d'.chain.length := by
        intro pre' hc'
        obtain ⟨t, v, d', rfl, k2, k3, k4, k5, k6⟩ := ih u d0 (by simpa using hl) h1 pre' e post hc' hp
        have hlt : e < d0.heap.size := hd.chainLt e (by rw [hc']; simp)
        refine ⟨t, v ++ [c], d', by simp, k2, k3, k4, ?_, ?_⟩
        · rw [((h2.eff hd).keep hd e hlt).beginAt]; exact k5
        · intro x y hx hne d'' hr
          rcases List.append_eq_append_iff.1 hx with ⟨z, e1, e2⟩ | ⟨z, e1, e2⟩
          · cases z with
            | nil =>
              rw [List.append_nil] at e1
              subst e1
              exact k6 x [] (by simp) hne d'' hr
            | cons b z =>
              simp at e2
              obtain ⟨rfl, rfl, rfl⟩ := e2
              subst e1
              rw [← List.append_assoc] at hr
              rw [hr.unique h]
              show post.length < d1.chain.length
              rw [hc]; simp; omega
          · exact k6 x z e1 hne d'' hr
      rcases h2.chain_or hd with ⟨g1, g2, g3⟩ | g | g
      · rw [g2] at hc
        cases pre with
        | nil =>
          simp only [List.nil_append, List.cons.injEq] at hc
          obtain ⟨rfl, rfl⟩ := hc
          refine ⟨u, [c], d0, rfl, h1, g1, rfl, ?_, ?_⟩
          · show (d1.heap.cell d0.heap.size).beginAt + 1 = u.length
            rw [g3]
            have := h1.orig2 _ _ _ rfl
            unfold Orig2 at this
            simpa only [g1] using this
          · intro x y hx hne d' hr
            have hx' : x = [c] := by
              cases x with
              | nil => exact absurd rfl hne
              | cons b x => simp at hx; rw [hx.1, hx.2.1]
            subst hx'
            rw [hr.unique h]
            show d0.chain.length < d1.chain.length
            rw [g2]; simp
        | cons a pre =>
          simp only [List.cons_append, List.cons.injEq] at hc
          exact old pre hc.2
      · exact old pre (by rw [← g]; exact hc)
      · cases hch : d0.chain with
        | nil => rw [g, hch] at hc; simp at hc
        | cons a l =>
          rw [g, hch] at hc
          exact old (a :: pre) (by rw [hch, show l = _ from hc]; rfl)

/-- Behind a `<`. -/
theorem afterLt_scan {u : Str} {o : ParseOptions} : afterLt u o = true ↔ ∃ S, Spec.Scan o u S ∧ S.spot = .lt := by
  constructor
  · intro h
    obtain ⟨a, l, h1, h2⟩ := afterLt_machine.1 h
    exact ⟨_, (Told.run h1).scan (by rw [h2]; rfl), by simp only [sitOf, h2, spotOf]⟩
  · rintro ⟨S, h, hs⟩
    exact (c53_scan h).2.2.2.1.2 hs

theorem Sit.names_length (S : Sit) : S.names.length = S.rest.length := by
  unfold Sit.names
  split
  · rename_i h; rw [h]; rfl
  · simp

theorem Scan.depth {o : ParseOptions} {u : Str} {S : Sit} {d : Doc} (h : Spec.Scan o u S) (hr : Ran o u d) : S.rest.length = d.chain.length - 1 := by
  rw [← Sit.names_length, ← (c53_scan h).1, hr.openNames]
  simp

theorem Scan.ran {o : ParseOptions} {u : Str} {S : Sit} (h : Spec.Scan o u S) : ∃ d, Ran o u d := by
  obtain ⟨a, h1, _⟩ := Scan.run h
  obtain ⟨d, h2, _⟩ := machine_run h1
  exact ⟨d, h2⟩

theorem Scan.handle {o : ParseOptions} {u : Str} {S : Sit} {d : Doc} (h : Spec.Scan o u S) (hr : Ran o u d) :
    d.handle = match S.spot with | .between => .wait | .inText => .text | .lt => .unkownTag := by
  obtain ⟨a, h1, h2, rfl⟩ := Scan.run h
  obtain ⟨d', h3, h4, _⟩ := machine_run h1
  have : d' = d := hr.unique h3 ▸ rfl
  subst this
  have hm := h4.mode
  cases hmo : a.mode with
  | wait l => rw [hmo] at hm; simp only [sitOf, spotOf, hmo]; exact hm.1
  | text p => rw [hmo] at hm; simp only [sitOf, spotOf, hmo]; exact hm.1
  | lt l => rw [hmo] at hm; simp only [sitOf, spotOf, hmo]; exact hm.1
  | _ => rw [hmo] at h2; cases h2

theorem openedAt_unique {o : ParseOptions} {s : Str} {k i j : Nat} (h : OpenedAt o s k i) (h' : OpenedAt o s k j) : i = j := by
  obtain ⟨t, v, S, h1, h2, h3, h4, h5, h6⟩ := h
  obtain ⟨t', v', S', k1, k2, k3, k4, k5, k6⟩ := h'
  rw [h1] at k1
  rcases List.append_eq_append_iff.1 k1 with ⟨x, e1, e2⟩ | ⟨x, e1, e2⟩
  · cases x with
    | nil => simp at e1; subst e1; omega
    | cons c x =>
      have := h6 _ _ e2 (by simp) S' (by rw [← e1]; exact k3)
      omega
  · cases x with
    | nil => simp at e1; subst e1; omega
    | cons c x =>
      have := k6 _ _ e2 (by simp) S (by rw [← e1]; exact h3)
      omega

theorem openedAt_of {o : ParseOptions} {s n : Str} {ns : List Str} {i : Nat} (hn : openNames s o = n :: ns) (h : openAt s o = some i) :
    OpenedAt o s ns.length i := by
  have hr : readable s o = true := by
    unfold openNames at hn
    unfold readable
    cases hr : (Doc.new o).run s s with
    | ok d => rfl
    | err e => rw [hr] at hn; cases hn
    | panic e => rw [hr] at hn; cases hn
  obtain ⟨d, hr⟩ := ran_of_readable hr
  rw [hr.openNames] at hn
  rw [hr.openAt] at h
  cases hc : d.chain with
  | nil => rw [hc] at hn; cases hn
  | cons e post =>
    cases post with
    | nil => rw [hc] at hn; cases hn
    | cons e' post =>
      have hlen := congrArg List.length hn
      rw [hc] at hlen h
      simp at hlen h
      obtain ⟨t, v, d0, h1, h2, h3, h4, h5, h6⟩ := hr.opened _ _ _ rfl [] e (e' :: post) hc (by simp)
      obtain ⟨S, k1, k2⟩ := afterLt_scan.1 (afterLt_iff.2 ⟨d0, h2, h3⟩)
      have := Scan.depth k1 h2
      refine ⟨t, v, S, h1, by omega, k1, k2, by simp at h4; omega, fun x y hx hne T hT => ?_⟩
      obtain ⟨d', hd'⟩ := Scan.ran hT
      have g1 := h6 x y hx hne d' hd'
      have g2 := Scan.depth hT hd'
      simp at g1
      omega

theorem openedAt_iff {o : ParseOptions} {s n : Str} {ns : List Str} {i : Nat} (hn : openNames s o = n :: ns) :
    openAt s o = some i ↔ OpenedAt o s ns.length i := by
  refine ⟨openedAt_of hn, fun h => ?_⟩
  have hr : ∃ j, openAt s o = some j := by
    unfold openNames at hn
    unfold openAt
    cases hr : (Doc.new o).run s s with
    | ok d =>
      rw [hr] at hn
      simp only at hn ⊢
      cases hc : d.chain.dropLast with
      | nil => rw [hc] at hn; cases hn
      | cons a l => exact ⟨_, rfl⟩
    | err e => rw [hr] at hn; cases hn
    | panic e => rw [hr] at hn; cases hn
  obtain ⟨j, hj⟩ := hr
  rw [hj, openedAt_unique h (openedAt_of hn hj)]

/-- Between two constructs, in a text, or behind a `<`. -/
def Handler.between : Handler → Bool
  | .wait | .text | .unkownTag => true
  | _ => false

/-- Where the construct one is in began. -/
structure Since (o : ParseOptions) (s : Str) (d : Doc) (t v : Str) (d0 : Doc) : Prop where
  split : s = t ++ v
  ne : v ≠ []
  ran : Ran o t d0
  lt : d0.handle = .unkownTag
  inside : ∀ x y, v = x ++ y → x ≠ [] → ∀ d', Ran o (t ++ x) d' → d'.handle.between = false
  bang : d.handle = .exclamationBegin → d.current = d0.current ∧ d.heap = d0.heap ∧ d.memPosition + 1 = t.length
  at_ : d.handle ≠ .exclamationBegin → d.cur.beginAt + 1 = t.length
  endTag : d.handle = .tagEnd → d.cur.prev = (if o.autoFixUnclosedTag then some d0.current else none) ∧
    (d.heap.cell d0.current).beginAt = d0.cur.beginAt ∧ d0.current < d.heap.size ∧ v = '/' :: d.prevChars

theorem Since.more {o : ParseOptions} {s t v : Str} {c : Char} {d d1 d0 : Doc} (h : Since o s d t v d0)
    (hr : Ran o (s ++ [c]) { d1 with position := d1.position + 1 }) (hb : d1.handle.between = false)
    (hbang : d1.handle = .exclamationBegin → d1.current = d0.current ∧ d1.heap = d0.heap ∧ d1.memPosition + 1 = t.length)
    (hat : d1.handle ≠ .exclamationBegin → d1.cur.beginAt + 1 = t.length)
    (hend : d1.handle = .tagEnd → d1.cur.prev = (if o.autoFixUnclosedTag then some d0.current else none) ∧
      (d1.heap.cell d0.current).beginAt = d0.cur.beginAt ∧ d0.current < d1.heap.size ∧ v ++ [c] = '/' :: d1.prevChars) :
    Since o (s ++ [c]) { d1 with position := d1.position + 1 } t (v ++ [c]) d0 := by
  refine ⟨by rw [h.split]; simp, by simp, h.ran, h.lt, ?_, hbang, hat, hend⟩
  intro x y hx hne d' hr'
  rcases List.append_eq_append_iff.1 hx with ⟨z, e1, e2⟩ | ⟨z, e1, e2⟩
  · cases z with
    | nil =>
      rw [List.append_nil] at e1
      subst e1
      exact h.inside x [] (by simp) hne d' hr'
    | cons b z =>
      simp at e2
      obtain ⟨rfl, rfl, rfl⟩ := e2
      subst e1
      rw [← List.append_assoc, ← h.split] at hr'
      rw [hr'.unique hr]
      exact hb
  · exact h.inside x z e1 hne d' hr'

theorem Since.first {o : ParseOptions} {s : Str} {c : Char} {d d1 : Doc} (h : Ran o s d) (hl : d.handle = .unkownTag)
    (hr : Ran o (s ++ [c]) { d1 with position := d1.position + 1 }) (hb : d1.handle.between = false)
    (hbang : d1.handle = .exclamationBegin → d1.current = d.current ∧ d1.heap = d.heap ∧ d1.memPosition + 1 = s.length)
    (hat : d1.handle ≠ .exclamationBegin → d1.cur.beginAt + 1 = s.length)
    (hend : d1.handle = .tagEnd → d1.cur.prev = (if o.autoFixUnclosedTag then some d.current else none) ∧
      (d1.heap.cell d.current).beginAt = d.cur.beginAt ∧ d.current < d1.heap.size ∧ [c] = '/' :: d1.prevChars) :
    Since o (s ++ [c]) { d1 with position := d1.position + 1 } s [c] d := by
  refine ⟨rfl, by simp, h, hl, ?_, hbang, hat, hend⟩
  intro x y hx hne d' hr'
  have hx' : x = [c] := by
    cases x with
    | nil => exact absurd rfl hne
    | cons b x => simp at hx; rw [hx.1, hx.2.1]
  subst hx'
  rw [hr'.unique hr]
  exact hb

theorem Ran.lt_mem {o : ParseOptions} {s : Str} {d : Doc} (h : Ran o s d) (hl : d.handle = .unkownTag) : d.memPosition + 1 = s.length := by
  have := h.orig2 _ _ _ rfl
  unfold Orig2 at this
  simpa only [hl] using this

/-- The end tag node that is pending. -/
theorem Ran.since {o : ParseOptions} : ∀ (n : Nat) (s : Str) (d : Doc), s.length = n → Ran o s d → d.handle.between = false →
    ∃ t v d0, Since o s d t v d0 := by
  intro n
  induction n with
  | zero =>
    intro s d hl h hb
    have : s = [] := List.length_eq_zero_iff.1 hl
    subst this
    have : d = Doc.new o := by cases h; rfl
    subst this
    cases hb
  | succ n ih =>
    intro s d hl h hb
    rcases List.eq_nil_or_concat s with rfl | ⟨u, c, rfl⟩
    · simp at hl
    · rw [List.concat_eq_append] at h hl ⊢
      obtain ⟨d0, d1, h1, h2, rfl⟩ := h.snoc
      have hd := h1.reach.ctl
      have hb : d1.handle.between = false := hb
      have hk := fun i hi => (h2.eff hd).keep hd i hi
      have hsz := (h2.eff hd).size_le.1
      have hlast : d0.handle.between = false → ∃ t v d0', Since o u d0 t v d0' := ih u d0 (by simpa using hl) h1
      -- the current node stays
      have stay : d0.handle.between = false → d0.handle ≠ .exclamationBegin → d1.handle ≠ .exclamationBegin → d1.current = d0.current →
          (d1.handle = .tagEnd → d0.handle = .tagEnd ∧ d1.prevChars = d0.prevChars ++ [c]) →
          ∃ t v d0', Since o (u ++ [c]) { d1 with position := d1.position + 1 } t v d0' := by
        intro g1 g2 g3 g4 g5
        obtain ⟨t, v, d0', hs⟩ := hlast g1
        have hcur : d1.cur.beginAt = d0.cur.beginAt ∧ d1.cur.prev = d0.cur.prev := by
          unfold Doc.cur; rw [g4]; exact ⟨(hk _ hd.curLt).beginAt, (hk _ hd.curLt).prev⟩
        refine ⟨t, _, d0', hs.more h hb (fun q => absurd q g3) (fun _ => by rw [hcur.1]; exact hs.at_ g2) (fun q => ?_)⟩
        rw [hcur.2]
        obtain ⟨j1, j2, j3, j4⟩ := hs.endTag (g5 q).1
        exact ⟨j1, by rw [(hk _ j3).beginAt]; exact j2, Nat.lt_of_lt_of_le j3 hsz, by rw [j4, (g5 q).2]; rfl⟩
      -- a node is made
      have made : ∀ (ty : NodeType) (p : NodeId) (t : Str), d0.chain.head? = some p → d1.current = d0.heap.size →
          d1.heap = (d0.addChild p (Cell.new ty d0.memPosition)).heap.markSpaces d0.checkTextnode → d0.memPosition + 1 = t.length →
          d1.cur.beginAt + 1 = t.length := by
        intro ty p t g1 g2 g3 g4
        unfold Doc.cur
        rw [g2, g3, grown_cell hd p g1 _ d0.checkTextnode (.inl rfl)]
        exact g4
      cases h2 with
      | tagOpen hh hc p hp =>
        exact ⟨u, [c], d0, Since.first h1 hh h hb (fun q => by cases q) (fun _ => made _ p u hp rfl rfl (h1.lt_mem hh)) (fun q => by cases q)⟩
      | endOpen hh hc =>
        refine ⟨u, [c], d0, Since.first h1 hh h hb (fun q => by cases q) (fun _ => ?_) (fun q => ?_)⟩
        · rw [← h1.lt_mem hh]
          simp [Doc.cur, Heap.push_cell, Cell.new]
        · refine ⟨?_, ?_, ?_, ?_⟩
          · simp [Doc.cur, Heap.push_cell, h1.reach.opts]
          · have := hd.curLt
            simp only [Heap.push_cell]
            rw [if_neg (by omega)]; rfl
          · have := hd.curLt
            simp; omega
          · have hok := hd.hs
            unfold HandleOk at hok
            simp only [hh] at hok
            simp only [hok.2.1, hc]
      | bang hh hc =>
        exact ⟨u, [c], d0, Since.first h1 hh h hb (fun _ => ⟨rfl, rfl, h1.lt_mem hh⟩) (fun q => absurd rfl q) (fun q => by cases q)⟩
      | exclFirst hh hdt D hD =>
        obtain ⟨t, v, d0', hs⟩ := hlast (by rw [hh]; rfl)
        exact ⟨t, _, d0', hs.more h hb (fun _ => hs.bang hh) (fun q => absurd hh q) (fun q => by rw [hh] at q; cases q)⟩
      | exclMore hh D hdt hl' hc =>
        obtain ⟨t, v, d0', hs⟩ := hlast (by rw [hh]; rfl)
        exact ⟨t, _, d0', hs.more h hb (fun _ => hs.bang hh) (fun q => absurd hh q) (fun q => by rw [hh] at q; cases q)⟩
      | commentOpen hh hdt hl' hc p hp =>
        obtain ⟨t, v, d0', hs⟩ := hlast (by rw [hh]; rfl)
        exact ⟨t, _, d0', hs.more h hb (fun q => by cases q) (fun _ => made _ p t hp rfl rfl (hs.bang hh).2.2) (fun q => by cases q)⟩
      | cdataOpen hh hdt hl' hc p hp =>
        obtain ⟨t, v, d0', hs⟩ := hlast (by rw [hh]; rfl)
        exact ⟨t, _, d0', hs.more h hb (fun q => by cases q) (fun _ => made _ p t hp rfl rfl (hs.bang hh).2.2) (fun q => by cases q)⟩
      | doctypeOpen hh hdt hl' hc p hp =>
        obtain ⟨t, v, d0', hs⟩ := hlast (by rw [hh]; rfl)
        exact ⟨t, _, d0', hs.more h hb (fun q => by cases q) (fun _ => made _ p t hp rfl rfl (hs.bang hh).2.2) (fun q => by cases q)⟩
      | ltExtend hh hf hc ht w hw d2 h1' => subst h1'; split at hb <;> cases hb
      | ltNew hh hf hc ht p hp d2 h1' => subst h1'; split at hb <;> cases hb
      | tagClose hh m hm m' pc mark id ht =>
        have hi : d0.handle.between = false ∧ d0.handle ≠ .exclamationBegin := by
          cases hq : d0.handle <;> rw [hq] at hh <;> first | (cases hh; done) | (constructor <;> simp [Handler.between])
        refine stay hi.1 hi.2 ?_ (by rw [closeTag_current]; rfl) ?_
        · rcases closeTag_notag (d0.putTag { handle := d0.handle, m := m', pc := pc, mark := mark } id) m' with q | q
          · rw [q]; simp
          · rw [q.1]; simp
        · rcases closeTag_notag (d0.putTag { handle := d0.handle, m := m', pc := pc, mark := mark } id) m' with q | q
          · rw [q]; simp
          · rw [q.1]; simp
      | nameClose hh hc m hm =>
        refine stay (by rw [hh]; rfl) (by rw [hh]; simp) ?_ (by rw [closeTag_current]; rfl) ?_
        · rcases closeTag_notag (d0.putTag { handle := d0.handle, m := m, pc := [], mark := d0.markChar } none) m with q | q
          · rw [q]; simp
          · rw [q.1]; simp
        · rcases closeTag_notag (d0.putTag { handle := d0.handle, m := m, pc := [], mark := d0.markChar } none) m with q | q
          · rw [q]; simp
          · rw [q.1]; simp
      | tagMore hh m hm t id ht =>
        have hi : d0.handle.between = false ∧ d0.handle ≠ .exclamationBegin := by
          cases hq : d0.handle <;> rw [hq] at hh <;> first | (cases hh; done) | (constructor <;> simp [Handler.between])
        have h1' := tagChar_handle (t := d0.tagSt m) hh ht
        refine stay hi.1 hi.2 ?_ rfl ?_
        · intro q
          have q : t.handle = _ := q
          rw [q] at h1'; cases h1'
        · intro q
          have q : t.handle = _ := q
          rw [q] at h1'; cases h1'
      | doctypeName hh hc => exact stay (by rw [hh]; rfl) (by rw [hh]; simp) (by simp [Doc.putTag]) rfl (by simp [Doc.putTag])
      | nameEnd hh hc =>
        exact stay (by rw [hh]; rfl) (by rw [hh]; simp) (by simp only [Doc.putTag]; split <;> simp) rfl (by simp only [Doc.putTag]; split <;> simp)
      | nameMore hh hc => exact stay (by rw [hh]; rfl) (by rw [hh]; simp) (by simp [hh]) rfl (by simp [hh])
      | commentMore hh hc => exact stay (by rw [hh]; rfl) (by rw [hh]; simp) (by simp [hh]) rfl (by simp [hh])
      | endMore hh hc => exact stay (by rw [hh]; rfl) (by rw [hh]; simp) (by simp [hh]) rfl (fun _ => ⟨hh, rfl⟩)
      | rawMore hh hc => exact stay (by rw [hh]; rfl) (by rw [hh]; simp) (by simp [hh]) rfl (by simp [hh])
      | textMore hh hc => simp only [hh] at hb; cases hb
      | _ => cases hb

theorem Ran.prefix {o : ParseOptions} {u v : Str} {d : Doc} (h : Ran o (u ++ v) d) : ∃ d', Ran o u d' := by
  unfold Ran at h
  rw [run_append] at h
  cases hr : (Doc.new o).run (u ++ v) u with
  | ok d' => exact ⟨d', Ran.of hr⟩
  | err e => rw [hr] at h; cases h
  | panic p => rw [hr] at h; cases h

/-- Whether a text would be continued. -/
theorem Scan.isText {o : ParseOptions} {u : Str} {S : Sit} {d : Doc} (h : Spec.Scan o u S) (hr : Ran o u d) (hs : S.spot ≠ .inText) :
    d.cur.nodeType = .text ↔ ∃ p, S.last = .text p := by
  obtain ⟨a, h1, h2, rfl⟩ := Scan.run h
  obtain ⟨d', h3, h4, h5⟩ := machine_run h1
  have : d' = d := hr.unique h3 ▸ rfl
  subst this
  have hm := h4.mode
  have hty := h5.curTy
  have key : ∀ l, AtRest d' (a.top :: a.rest) a.over l → (d'.cur.nodeType = .text ↔ ∃ p, l = .text p) := by
    rintro l ⟨c, cs, _, _, hl⟩
    cases l with
    | other =>
      refine ⟨fun q => absurd ?_ hl.1, fun ⟨_, q⟩ => by cases q⟩
      rw [show (d'.heap.cell d'.current).nodeType = .text from q]; rfl
    | hole =>
      refine ⟨fun q => ?_, fun ⟨_, q⟩ => by cases q⟩
      rw [show d'.cur.nodeType = .tag from hl.1] at q; cases q
    | text p =>
      refine ⟨fun _ => ⟨p, rfl⟩, fun _ => ?_⟩
      have := hl.1
      change d'.cur.nodeType.core = .text at this
      cases hq : d'.cur.nodeType <;> rw [hq] at this hty <;> first | rfl | (cases this; done) | exact absurd rfl hty
  cases hmo : a.mode with
  | wait l => rw [hmo] at hm; simp only [sitOf, lastOf, hmo]; exact key l hm.2
  | lt l => rw [hmo] at hm; simp only [sitOf, lastOf, hmo]; exact key l hm.2
  | text p => simp [sitOf, spotOf, hmo] at hs
  | _ => rw [hmo] at h2; cases h2

/-- More characters of a text. -/
theorem Ran.textMore {o : ParseOptions} {u : Str} {d : Doc} (h : Ran o u d) (hh : d.handle = .text) : ∀ (w : Str) (d' : Doc), '<' ∉ w →
    Ran o (u ++ w) d' → d'.cur.beginAt = d.cur.beginAt := by
  intro w
  induction w generalizing u d with
  | nil => intro d' _ hr; rw [List.append_nil] at hr; rw [hr.unique h]
  | cons c w ih =>
    intro d' hlt hr
    have hc : c ≠ '<' := by rintro rfl; simp at hlt
    have e : u ++ c :: w = (u ++ [c]) ++ w := by simp
    rw [e] at hr
    obtain ⟨d1, k1⟩ := hr.prefix
    obtain ⟨d2, k2, rfl⟩ := h.snoc_of k1
    have hd2 : d2.handle = .text ∧ d2.cur.beginAt = d.cur.beginAt := by
      clear k1
      cases k2 with
      | textMore hh' hc' => exact ⟨hh, rfl⟩
      | textEnd hh' hc' => exact absurd hc' hc
      | tagMore hh' => rw [hh] at hh'; cases hh'
      | tagClose hh' => rw [hh] at hh'; cases hh'
      | ltExtend hh' => rw [hh] at hh'; cases hh'
      | ltNew hh' => rw [hh] at hh'; cases hh'
      | _ => clear h ih hr; simp_all
    rw [ih k1 hd2.1 d' (fun q => hlt (by simp [q])) hr]
    exact hd2.2

theorem Ran.textRun {o : ParseOptions} {u w : Str} {d d' : Doc} (h : Ran o u d) (hh : d.handle = .wait) (hw : w ≠ []) (hlt : '<' ∉ w)
    (hr : Ran o (u ++ w) d') :
    d'.cur.beginAt = if o.autoFixUnexpectedEndtag = true ∧ d.cur.nodeType = .text then d.cur.beginAt else u.length := by
  cases w with
  | nil => exact absurd rfl hw
  | cons c w =>
    have hc : c ≠ '<' := by rintro rfl; simp at hlt
    have e : u ++ c :: w = (u ++ [c]) ++ w := by simp
    rw [e] at hr
    obtain ⟨d1, k1⟩ := hr.prefix
    obtain ⟨d2, k2, rfl⟩ := h.snoc_of k1
    have ho := h.reach.opts
    have hd := h.reach.ctl
    have hd2 : d2.handle = .text ∧
        d2.cur.beginAt = if o.autoFixUnexpectedEndtag = true ∧ d.cur.nodeType = .text then d.cur.beginAt else u.length := by
      clear k1
      cases k2 with
      | textResume hh' hc' hf ht w hw =>
        rw [ho] at hf
        refine ⟨rfl, ?_⟩
        rw [if_pos ⟨hf, ht⟩]
        simp [Doc.cur]
      | textStart hh' hc' hf p hp =>
        rw [ho] at hf
        refine ⟨rfl, ?_⟩
        rw [if_neg fun q => hf q.1 q.2]
        have hlt := hd.chain_head hp
        show ((d.addChild p (Cell.new .text d.position)).heap.cell d.heap.size).beginAt = _
        rw [addChild_cell _ _ _ hlt, if_pos rfl]
        exact h.position
      | lt hh' hc' => exact absurd hc' hc
      | tagMore hh' => rw [hh] at hh'; cases hh'
      | tagClose hh' => rw [hh] at hh'; cases hh'
      | ltExtend hh' => rw [hh] at hh'; cases hh'
      | ltNew hh' => rw [hh] at hh'; cases hh'
      | _ => clear hd ho h; simp_all
    rw [k1.textMore hd2.1 w d' (fun q => hlt (by simp [q])) hr]
    exact hd2.2

theorem Ran.escape {o : ParseOptions} {u e : Str} {d d' : Doc} (h : Ran o u d) (hh : d.handle = .unkownTag) (he : escaped e)
    (hr : Ran o (u ++ e) d') : d'.cur.beginAt = if d.cur.nodeType = .text then d.cur.beginAt else u.length - 1 := by
  have hd := h.reach.ctl
  have hmem := h.lt_mem hh
  have first : ∀ (c : Char) (d1 : Doc), (c.isAlpha = false ∧ c ≠ '/' ∧ c ≠ '!') → Step d c d1 →
      d1.cur.beginAt = (if d.cur.nodeType = .text then d.cur.beginAt else u.length - 1) ∧ (c ≠ '<' → d1.handle = .text) := by
    intro c d1 hc k
    have hca : isAlpha c = false := by rw [isAlpha_char]; exact hc.1
    cases k with
    | ltExtend hh' hf hc' ht w hw d2 h1 =>
      subst h1
      rw [if_pos ht]
      split
      · rename_i q
        exact ⟨by simp [Doc.cur, Doc.endText], fun k => absurd q k⟩
      · exact ⟨by simp [Doc.cur], fun _ => rfl⟩
    | ltNew hh' hf hc' ht p hp d2 h1 =>
      have hplt : p < d.heap.size := by
        rw [hp]
        split
        · exact hd.curLt
        · cases hq : d.chain.head? with
          | none => simp only [Option.getD_none]; rw [hd.root0]; exact hd.sizePos
          | some x => exact hd.chain_head hq
      have hne : ¬ d.heap.size = p := by omega
      subst h1
      rw [if_neg ht]
      have hm : d.memPosition = u.length - 1 := by omega
      split
      · rename_i q
        refine ⟨?_, fun k => absurd q k⟩
        simp [Doc.cur, Doc.endText, Heap.upd_cell, Heap.push_cell, hne, Cell.new, hm]
      · refine ⟨?_, fun _ => rfl⟩
        simp [Doc.cur, Heap.upd_cell, Heap.push_cell, hne, Cell.new, hm]
    | tagMore hh' => rw [hh] at hh'; cases hh'
    | tagClose hh' => rw [hh] at hh'; cases hh'
    | _ => clear hd h hmem; simp_all
  rcases he with rfl | ⟨c, w, rfl, hc, hlt⟩
  · obtain ⟨d2, k2, rfl⟩ := h.snoc_of hr
    exact (first '<' d2 (by decide) k2).1
  · have e : u ++ c :: w = (u ++ [c]) ++ w := by simp
    rw [e] at hr
    obtain ⟨d1, k1⟩ := hr.prefix
    obtain ⟨d2, k2, rfl⟩ := h.snoc_of k1
    have hne : c ≠ '<' := by rintro rfl; simp at hlt
    obtain ⟨g1, g2⟩ := first c d2 hc k2
    rw [k1.textMore (g2 hne) w d' (fun q => hlt (by simp [q])) hr]
    exact g1

theorem Ran.between_scan {o : ParseOptions} {u : Str} {d : Doc} (h : Ran o u d) : d.handle.between = true ↔ ∃ S, Spec.Scan o u S := by
  obtain ⟨a, h1, h2, _⟩ := run_machine h
  have hm := h2.mode
  constructor
  · intro hb
    have hs : a.mode.simple = true := by
      cases hmo : a.mode with
      | wait l => rfl
      | text p => rfl
      | lt l => rfl
      | inTag isDoc t =>
        rw [hmo] at hm
        have := hm.1
        cases hq : d.handle <;> rw [hq] at hb this <;> first | (cases hb; done) | cases this
      | _ => rw [hmo] at hm; rw [hm.1] at hb; cases hb
    exact ⟨_, (Told.run h1).scan hs⟩
  · rintro ⟨S, hS⟩
    rw [Scan.handle hS h]
    cases S.spot <;> rfl

/-- The `<` behind which one is inside a construct. -/
theorem Ran.since_at {o : ParseOptions} {u v : Str} {S : Sit} {d : Doc} (h : Spec.Scan o u S) (hs : S.spot = .lt) (hv : v ≠ [])
    (hm : ∀ x y, v = x ++ y → x ≠ [] → ∀ T, ¬ Spec.Scan o (u ++ x) T) (hr : Ran o (u ++ v) d) : ∃ d0, Since o (u ++ v) d u v d0 := by
  have hb : d.handle.between = false := by
    cases hq : d.handle.between with
    | false => rfl
    | true =>
      obtain ⟨T, hT⟩ := hr.between_scan.1 hq
      exact (hm v [] (by simp) hv T hT).elim
  obtain ⟨t, v', d0, hc⟩ := hr.since _ _ _ rfl hb
  have key : t = u ∧ v' = v := by
    obtain ⟨d1, hd1⟩ := Scan.ran h
    have hh := Scan.handle h hd1
    rw [hs] at hh
    rcases List.append_eq_append_iff.1 hc.split with ⟨z, e1, e2⟩ | ⟨z, e1, e2⟩
    · cases z with
      | nil => simp at e1 e2; exact ⟨e1, e2.symm⟩
      | cons b z =>
        obtain ⟨T, hT, _⟩ := afterLt_scan.1 (afterLt_iff.2 ⟨d0, hc.ran, hc.lt⟩)
        rw [e1] at hT
        exact (hm _ _ e2 (by simp) T hT).elim
    · cases z with
      | nil => simp at e1 e2; exact ⟨e1.symm, e2⟩
      | cons b z =>
        have := hc.inside _ _ e2 (by simp) d1 (by rw [← e1]; exact hd1)
        rw [hh] at this
        cases this
  obtain ⟨rfl, rfl⟩ := key
  exact ⟨d0, hc⟩

/-- Whether an end tag is the one of the innermost open element. -/
theorem Scan.ownEnd_iff {o : ParseOptions} {u e : Str} {S : Sit} {d0 d : Doc} (h : Spec.Scan o u S) (hs : S.spot = .lt) (h0 : Ran o u d0)
    (hc : d.chain = d0.chain) (hcell : ∀ i ∈ d.chain, d.heap.cell i = d0.heap.cell i) :
    ownEnd S e ↔ ∃ t m, d.chain.length > 1 ∧ d.chain.head? = some t ∧ (d.heap.cell t).tmeta = some m ∧
        (isEqualCharsIgnoreCase m.name (charsTrimEnd e)).1 = true := by
  have hh := Scan.handle h h0
  rw [hs] at hh
  have hn := (c53_scan h).1
  have ho : ∀ n, (∃ ns, openNames u o = n :: ns) ↔ d0.chain.length > 1 ∧ ∃ t m, d0.chain.head? = some t ∧ (d0.heap.cell t).tmeta = some m ∧ m.name = n :=
    fun n => h0.open_head (by rw [hh]; simp)
  unfold ownEnd
  constructor
  · rintro ⟨h1, h2⟩
    have : ∃ ns, openNames u o = S.top.name :: ns := by
      rw [hn]
      unfold Sit.names
      rw [if_neg h1]
      cases hr : S.rest with
      | nil => exact absurd hr h1
      | cons g gs => exact ⟨_, rfl⟩
    obtain ⟨k1, t, m, k2, k3, k4⟩ := (ho _).1 this
    refine ⟨t, m, by rw [hc]; exact k1, by rw [hc]; exact k2, ?_, ?_⟩
    · rw [hcell t (List.mem_of_mem_head? (by rw [hc]; exact k2))]; exact k3
    · rw [k4]; exact Rphtml.ownEnd_iff.2 h2
  · rintro ⟨t, m, k1, k2, k3, k4⟩
    rw [hcell t (List.mem_of_mem_head? k2)] at k3
    rw [hc] at k1 k2
    obtain ⟨ns, hns⟩ := (ho m.name).2 ⟨k1, t, m, k2, k3, rfl⟩
    rw [hn] at hns
    unfold Sit.names at hns
    split at hns
    · cases hns
    · rename_i hne
      refine ⟨hne, ?_⟩
      cases hr : S.rest with
      | nil => exact absurd hr hne
      | cons g gs =>
        rw [hr] at hns
        simp at hns
        rw [hns.1]
        exact Rphtml.ownEnd_iff.1 k4

end Rphtml
