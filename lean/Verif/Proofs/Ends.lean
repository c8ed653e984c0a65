import Verif.Proofs.Rejects

/-!
# The ends that are refused and the panics, without the parser
-/

namespace Rphtml
open Spec

theorem endsInName_iff {o : ParseOptions} {s : Str} : EndsInName o s ↔ inName s o := by
  constructor
  · rintro ⟨S, n, h⟩
    generalize hp : Spec.Part.tag n [] = p at h
    cases h with
    | @tag u n' t S h hs ho hn hc ht =>
      simp only [Spec.Part.tag.injEq] at hp
      obtain ⟨rfl, rfl⟩ := hp
      refine ⟨u, n, by simp, afterLt_scan.2 ⟨S, h, hs⟩, by rw [(c53_scan h).2.2.1, ho]; rfl, ?_⟩
      cases n with
      | nil => exact hn.elim
      | cons c n => exact ⟨c, n, rfl, hn.1, hn.2⟩
    | _ => cases hp
  · rintro ⟨u, n, rfl, h1, h2, c, r, rfl, h3, h4⟩
    obtain ⟨S, k1, k2⟩ := afterLt_scan.1 h1
    have ho : S.over = false := by
      rw [(c53_scan k1).2.2.1] at h2
      simpa using h2
    have := Spec.Inside.tag (n := c :: r) (t := []) k1 k2 ho ⟨h3, h4⟩ (by simp) ⟨['>'], by simp, [], false, .close (g := []) (by intro c hc; cases hc)⟩
    exact ⟨S, c :: r, by simpa using this⟩

/-- The beginnings of an unfinished construct are not sequences of constructs. -/
theorem Inside.whole {o : ParseOptions} {s : Str} {S : Sit} {p : Spec.Part} (h : Spec.Inside o s S p) :
    ∃ t v, s = t ++ v ∧ v ≠ [] ∧ Spec.Scan o t S ∧ S.spot = .lt ∧ ∀ x y, v = x ++ y → x ≠ [] → ∀ T, ¬ Spec.Scan o (t ++ x) T := by
  obtain ⟨t, v, h1, h2, h3, h4, _, _, h5⟩ := Inside.split h
  exact ⟨t, v, h1, h2, h3, h4, fun x y e hx T k => by obtain ⟨q, hq⟩ := h5 x y e hx; exact Inside.notSimple hq k⟩

/-- What the parser is in, inside a construct. -/
theorem Inside.code {o : ParseOptions} {s : Str} {S : Sit} {p : Spec.Part} {d : Doc} (h : Spec.Inside o s S p) (hr : Ran o s d) :
    d.codeIn.pending = p.called ∧ (d.handle = .exclamationBegin ↔ ∃ w, p = .bang w) := by
  obtain ⟨a, h1, h2, h3⟩ := Inside.run h
  obtain ⟨b, k1, k2, _⟩ := run_machine hr
  rw [h1, Option.some.injEq] at k1
  subst k1
  have hm := k2.mode
  have hok := hr.reach.ctl.hs
  unfold HandleOk at hok
  cases p with
  | bang w =>
    obtain ⟨D, h2⟩ := h2
    rw [h2] at hm
    simp only [hm.1] at hok
    rw [hok.1, hm.1]
    exact ⟨rfl, by simp⟩
  | comment w =>
    simp only [partMode] at h2
    rw [h2] at hm
    simp only [hm.1, hm.2.2.1, reduceCtorEq, and_false, or_false, Bool.false_eq_true, if_false] at hok
    rw [hok.2.1, hm.1]
    exact ⟨rfl, by simp⟩
  | cdata w =>
    simp only [partMode] at h2
    rw [h2] at hm
    simp only [hm.1, hm.2.2.1, reduceCtorEq, and_false, false_or, if_true] at hok
    rw [hok.2.1, hm.1]
    exact ⟨rfl, by simp⟩
  | doctype n t =>
    have : d.codeIn = .htmlDoctype ∧ d.handle ≠ .exclamationBegin := by
      simp only [partMode] at h2
      split at h2
      · rw [h2] at hm
        simp only [hm.1] at hok
        exact ⟨hok.1, by rw [hm.1]; simp⟩
      · obtain ⟨mk, t', h2, _⟩ := h2
        rw [h2] at hm
        exact ⟨hm.2.1.1 rfl, fun q => by have := hm.1; rw [q] at this; cases this⟩
    rw [this.1]
    exact ⟨rfl, by simp [this.2]⟩
  | tag n t =>
    have : d.codeIn = .tag ∧ d.handle ≠ .exclamationBegin := by
      simp only [partMode] at h2
      split at h2
      · rw [h2] at hm
        simp only [hm.1] at hok
        exact ⟨hok.1, by rw [hm.1]; simp⟩
      · obtain ⟨mk, t', h2, _⟩ := h2
        rw [h2] at hm
        refine ⟨?_, fun q => by have := hm.1; rw [q] at this; cases this⟩
        obtain ⟨_, _, _, _, _, _, q | q⟩ := inTag_hs hr.reach.ctl hm.1
        · exact q.1
        · exact absurd (hm.2.1.2 q.1) (by simp)
    rw [this.1]
    exact ⟨rfl, by simp [this.2]⟩
  | raw n w =>
    obtain ⟨m, h2, rfl⟩ := h2
    rw [h2] at hm
    simp only [hm.1] at hok
    obtain ⟨_, _, m', g1, _, g2, g3, _⟩ := hok
    have : m' = m := by
      have := hm.2.2.1
      rw [g1] at this; cases this; rfl
    subst this
    rw [g2, hm.1]
    refine ⟨?_, by simp⟩
    simp only [rawCode, Spec.Part.called, fold_eq_lowerAll, isEqualChars_none]
    rw [show "script".toList = scriptTagName from rfl, show "style".toList = styleTagName from rfl]
    by_cases q1 : lowerAll m'.name = scriptTagName
    · rw [if_pos q1, if_pos q1]; rfl
    · by_cases q2 : lowerAll m'.name = styleTagName
      · rw [if_neg q1, if_pos q2, if_neg q1, if_pos q2]; rfl
      · rw [if_neg q1, if_neg q2, if_neg q1, if_neg q2]; rfl
  | endTag e =>
    obtain ⟨r, h2⟩ := h2
    rw [h2] at hm
    simp only [hm.1] at hok
    rw [hok.1, hm.1]
    exact ⟨rfl, by simp⟩

theorem Scan.code {o : ParseOptions} {s : Str} {S : Sit} {d : Doc} (h : Spec.Scan o s S) (hr : Ran o s d) :
    d.codeIn.pending = if S.spot = .lt then some "UnkownTag" else none := by
  have hh := Scan.handle h hr
  have hok := hr.reach.ctl.hs
  unfold HandleOk at hok
  cases hs : S.spot with
  | between =>
    rw [hs] at hh
    simp only [hh] at hok
    rcases hok.1 with q | q <;> rw [q] <;> rfl
  | inText =>
    rw [hs] at hh
    simp only [hh] at hok
    rw [hok.1]; rfl
  | lt =>
    rw [hs] at hh
    simp only [hh] at hok
    rw [hok.1]; rfl

/-- The names of the open elements. -/
theorem names_iff {o : ParseOptions} {s : Str} {ns : List Str} (hr : readable s o = true) (hn : ¬ EndsInName o s) : Names o s ns ↔ openNames s o = ns := by
  constructor
  · rintro (⟨S, h, rfl⟩ | ⟨S, p, h, rfl⟩)
    · exact (c53_scan h).1
    · exact (c53_inside h).1 fun n q => hn ⟨S, n, q ▸ h⟩
  · intro e
    rcases (c53_reads s o).1 hr with ⟨S, h⟩ | ⟨S, p, h⟩
    · exact .inl ⟨S, h, by rw [← e]; exact (c53_scan h).1⟩
    · exact .inr ⟨S, p, h, by rw [← e]; exact (c53_inside h).1 fun n q => hn ⟨S, n, q ▸ h⟩⟩

theorem Sit.names_nil {S : Sit} : S.names = [] ↔ S.rest = [] := by
  rw [← List.length_eq_zero_iff, Sit.names_length, List.length_eq_zero_iff]

/-- The node that was begun last. -/
theorem lastAt_iff {o : ParseOptions} {s : Str} {S : Sit} {d : Doc} {i : Nat} (h : Spec.Scan o s S) (hr : Ran o s d) :
    Spec.LastAt o s i ↔ d.cur.beginAt = i := by
  constructor
  · intro k; exact LastAt.begins k d hr
  · intro k
    obtain ⟨j, hj⟩ := LastAt.exists _ s S rfl h
    rw [← k, LastAt.begins hj d hr]
    exact hj

theorem Inside.bangAt {o : ParseOptions} {s w : Str} {S : Sit} (h : Spec.Inside o s S (.bang w)) : ∃ t, s = t ++ '!' :: w ∧ Spec.Scan o t S ∧ S.spot = .lt ∧
    ∀ x y, '!' :: w = x ++ y → x ≠ [] → ∀ T, ¬ Spec.Scan o (t ++ x) T := by
  generalize hp : Spec.Part.bang w = p at h
  cases h with
  | @bang u w' D S h hs hD hw hl hc =>
    simp only [Spec.Part.bang.injEq] at hp
    subst hp
    refine ⟨u, rfl, h, hs, fun x y e hx T k => ?_⟩
    cases x with
    | nil => exact hx rfl
    | cons c x =>
      simp only [List.cons_append, List.cons.injEq] at e
      obtain ⟨rfl, rfl⟩ := e
      refine Inside.notSimple (.bang h hs hD (.trans ?_ hw) (by simp at hl; omega) fun hx' => hc (by simp [hx'])) k
      simp [fold]
  | _ => cases hp

/-- The ends that are refused. -/
theorem ends_iff {o : ParseOptions} {s : Str} {k : ErrorKind} {i : Nat} : Spec.Ends o s k i ↔ readable s o = true ∧ Unfinished o s k i := by
  constructor
  · intro h
    cases h with
    | @element _ n ns i ho hn hi h =>
      have hr : readable s o = true := by
        rcases hn with ⟨S, k, _⟩ | ⟨S, p, k, _⟩
        · exact (c53_reads _ _).2 (.inl ⟨S, k⟩)
        · exact (c53_reads _ _).2 (.inr ⟨S, p, k⟩)
      have hn := (names_iff hr h).1 hn
      exact ⟨hr, .element ho hn ((openedAt_iff hn).2 hi) (fun q => h (endsInName_iff.2 q))⟩
    | @lt _ S i h hs ho hi =>
      have hr : readable s o = true := (c53_reads _ _).2 (.inl ⟨S, h⟩)
      obtain ⟨d, hd⟩ := ran_of_readable hr
      refine ⟨hr, .construct (by rw [(c53_scan h).1, Sit.names_nil]; exact ho) ?_⟩
      rw [hd.unfinishedAt, Scan.code h hd, if_pos hs]
      rw [(lastAt_iff h hd).1 hi]; rfl
    | @bang t w S i h ht ho hi =>
      have hr : readable (t ++ '!' :: w) o = true := (c53_reads _ _).2 (.inr ⟨S, _, h⟩)
      obtain ⟨d, hd⟩ := ran_of_readable hr
      refine ⟨hr, .construct (by rw [(c53_inside h).1 (by simp)]; exact ho.imp id Sit.names_nil.2) ?_⟩
      obtain ⟨t', e, g1, g2, g3⟩ := Inside.bangAt h
      obtain rfl := List.append_cancel_right e
      obtain ⟨d0, hsn⟩ := Ran.since_at g1 g2 (by simp) g3 hd
      have hc := Inside.code h hd
      obtain ⟨j1, j2, _⟩ := hsn.bang (hc.2.2 ⟨w, rfl⟩)
      rw [hd.unfinishedAt, hc.1]
      have : d.cur.beginAt = i := by
        rw [← (lastAt_iff g1 hsn.ran).1 hi]
        unfold Doc.cur
        rw [j1, j2]
      rw [this]; rfl
    | @part t v S p x h ht hm hb hx ho =>
      have hr : readable (t ++ v) o = true := (c53_reads _ _).2 (.inr ⟨S, _, h⟩)
      obtain ⟨d, hd⟩ := ran_of_readable hr
      have hnt : ∀ n, p ≠ .tag n [] := fun n q => by rw [q] at hx; cases hx
      refine ⟨hr, .construct (by rw [(c53_inside h).1 hnt]; exact ho) ?_⟩
      have hv : v ≠ [] := by
        rintro rfl
        rw [List.append_nil] at h
        exact Inside.notSimple h ht
      obtain ⟨_, _, _, _, _, hs, _⟩ := Inside.whole h
      obtain ⟨d0, hsn⟩ := Ran.since_at ht hs hv hm hd
      have hc := Inside.code h hd
      have := hsn.at_ (fun q => by obtain ⟨w, hw⟩ := hc.2.1 q; exact hb w hw)
      rw [hd.unfinishedAt, hc.1, hx]
      simp only [Option.map_some, Option.some.injEq, Prod.mk.injEq, true_and]
      omega
  · rintro ⟨hr, h⟩
    obtain ⟨d, hd⟩ := ran_of_readable hr
    cases h with
    | @element n ns i ho hn hi h =>
      have h' : ¬ EndsInName o s := fun q => h (endsInName_iff.1 q)
      exact .element ho ((names_iff hr h').2 hn) ((openedAt_iff hn).1 hi) h'
    | @construct x i ho h =>
      rw [hd.unfinishedAt] at h
      rcases (c53_reads s o).1 hr with ⟨S, k⟩ | ⟨S, p, k⟩
      · rw [Scan.code k hd] at h
        split at h
        · rename_i hs
          simp only [Option.map_some, Option.some.injEq, Prod.mk.injEq] at h
          obtain ⟨rfl, rfl⟩ := h
          exact .lt k hs (by rw [(c53_scan k).1, Sit.names_nil] at ho; exact ho) ((lastAt_iff k hd).2 rfl)
        · cases h
      · have hc := Inside.code k hd
        rw [hc.1] at h
        cases hx : p.called with
        | none => rw [hx] at h; cases h
        | some y =>
          rw [hx] at h
          simp only [Option.map_some, Option.some.injEq, Prod.mk.injEq] at h
          obtain ⟨rfl, rfl⟩ := h
          have hnt : ∀ n, p ≠ .tag n [] := fun n q => by rw [q] at hx; cases hx
          rw [(c53_inside k).1 hnt] at ho
          by_cases hb : ∃ w, p = .bang w
          · obtain ⟨w, rfl⟩ := hb
            obtain ⟨t, rfl, g1, g2, g3⟩ := Inside.bangAt k
            obtain ⟨d0, hsn⟩ := Ran.since_at g1 g2 (by simp) g3 hd
            obtain ⟨j1, j2, _⟩ := hsn.bang (hc.2.2 ⟨w, rfl⟩)
            cases hx
            refine .bang k g1 (ho.imp id Sit.names_nil.1) ((lastAt_iff g1 hsn.ran).2 ?_)
            unfold Doc.cur
            rw [j1, j2]
          · obtain ⟨t, v, rfl, g1, g2, g3, g4⟩ := Inside.whole k
            obtain ⟨d0, hsn⟩ := Ran.since_at g2 g3 g1 g4 hd
            have := hsn.at_ (fun q => hb (hc.2.1 q))
            have e : d.cur.beginAt = t.length - 1 := by omega
            rw [e]
            exact .part k g2 g4 (fun w q => hb ⟨w, q⟩) hx ho

theorem Scan.foreign_iff {o : ParseOptions} {u : Str} {S : Sit} (h : Spec.Scan o u S) : inForeign u o = true ↔ S.foreign ≠ none := by
  obtain ⟨d, hd⟩ := Scan.ran h
  rw [hd.inForeign, ← (c53_scan h).2.1, hd.foreignName]
  cases d.inSpecial <;> simp

theorem Scan.over_iff {o : ParseOptions} {u : Str} {S : Sit} (h : Spec.Scan o u S) (b : Bool) : notClosed u o = !b ↔ S.over = b := by
  rw [(c53_scan h).2.2.1]
  cases S.over <;> cases b <;> simp

/-- The panics. -/
theorem crashes_iff {o : ParseOptions} {s : Str} {p : Site} : Crashes o s p ↔ Doc.parse s o = .panic p := by
  rw [c01_exact]
  constructor
  · intro h
    cases h with
    | name h ho => exact .inl ⟨rfl, ho, endsInName_iff.1 h⟩
    | @node u v S h hs ho hv =>
      exact .inr (.inl ⟨rfl, u, v, rfl, (Scan.over_iff h true).2 ho, .inl ⟨afterLt_scan.2 ⟨S, h, hs⟩, hv⟩⟩)
    | @text u v S c h hs ho hl hc =>
      refine .inr (.inl ⟨rfl, u, c :: v, rfl, (Scan.over_iff h true).2 ho, .inr ⟨?_, c, v, rfl, hc⟩⟩)
      obtain ⟨d, hd⟩ := Scan.ran h
      have hh := Scan.handle h hd
      rw [hs] at hh
      refine beforeText_iff.2 ⟨d, hd, hh, ?_⟩
      rintro ⟨q1, q2⟩
      obtain ⟨x, hx⟩ := (Scan.isText h hd (by rw [hs]; simp)).1 q2
      rw [hl x hx] at q1; cases q1
    | @cdataOver u v S h hs ho hf =>
      exact .inr (.inr (.inl ⟨rfl, u, v, rfl, afterLt_scan.2 ⟨S, h, hs⟩, (Scan.foreign_iff h).2 hf, (Scan.over_iff h true).2 ho⟩))
    | @cdataTop u v S h hs ho hr hf =>
      exact .inr (.inr (.inr ⟨rfl, u, v, rfl, afterLt_scan.2 ⟨S, h, hs⟩, (Scan.foreign_iff h).2 hf, (Scan.over_iff h false).2 ho,
        by rw [(c53_scan h).1]; exact Sit.names_nil.2 hr⟩))
  · rintro (⟨rfl, ho, h⟩ | ⟨rfl, u, v, rfl, ho, ⟨h, hv⟩ | ⟨h, c, r, rfl, hc⟩⟩ | ⟨rfl, u, v, rfl, h, hf, ho⟩ | ⟨rfl, u, v, rfl, h, hf, ho, hr⟩)
    · exact .name (endsInName_iff.2 h) ho
    · obtain ⟨S, k1, k2⟩ := afterLt_scan.1 h
      exact .node k1 k2 ((Scan.over_iff k1 true).1 ho) hv
    · obtain ⟨d, hd, hh, hb⟩ := beforeText_iff.1 h
      obtain ⟨S, k⟩ := hd.between_scan.1 (by rw [hh]; rfl)
      have hs : S.spot = .between := by
        have := Scan.handle k hd
        rw [hh] at this
        cases hq : S.spot <;> rw [hq] at this <;> first | rfl | cases this
      refine .text k hs ((Scan.over_iff k true).1 ho) (fun x hx => ?_) hc
      cases hq : o.autoFixUnexpectedEndtag with
      | false => rfl
      | true => exact absurd ⟨hq, (Scan.isText k hd (by rw [hs]; simp)).2 ⟨x, hx⟩⟩ hb
    · obtain ⟨S, k1, k2⟩ := afterLt_scan.1 h
      exact .cdataOver k1 k2 ((Scan.over_iff k1 true).1 ho) ((Scan.foreign_iff k1).1 hf)
    · obtain ⟨S, k1, k2⟩ := afterLt_scan.1 h
      rw [(c53_scan k1).1, Sit.names_nil] at hr
      exact .cdataTop k1 k2 ((Scan.over_iff k1 false).1 ho) hr ((Scan.foreign_iff k1).1 hf)

end Rphtml
