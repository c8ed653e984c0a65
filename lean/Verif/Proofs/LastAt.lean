import Verif.Proofs.Begin

/-!
# Where the node that was begun last begins
-/

namespace Rphtml
open Spec

theorem Ran.inEnd {o : ParseOptions} {u : Str} {d0 : Doc} (h0 : Ran o u d0) (hl : d0.handle = .unkownTag) : ∀ (n : Nat) (w : Str) (d : Doc),
    w.length = n → '>' ∉ w → Ran o (u ++ '/' :: w) d → d.handle = .tagEnd ∧ d.prevChars = w ∧ d.chain = d0.chain ∧ d.current = d0.heap.size ∧
      d.inSpecial = d0.inSpecial ∧
      d.heap = d0.heap.push { Cell.new .tagEnd d0.memPosition with prev := if o.autoFixUnclosedTag then some d0.current else none } := by
  intro n
  induction n with
  | zero =>
    intro w d hn hgt h
    have : w = [] := List.length_eq_zero_iff.1 hn
    subst this
    have hok := h0.reach.ctl.hs
    unfold HandleOk at hok
    simp only [hl] at hok
    obtain ⟨d1, k, rfl⟩ := h0.snoc_of h
    have ho := h0.reach.opts
    cases k with
    | endOpen hh hc => exact ⟨rfl, hok.2.1, rfl, rfl, rfl, by simp only [ho]⟩
    | tagMore hh' => rw [hl] at hh'; cases hh'
    | tagClose hh' => rw [hl] at hh'; cases hh'
    | ltExtend hh' hf hc => exact absurd rfl hc.2.1
    | ltNew hh' hf hc => exact absurd rfl hc.2.1
    | tagOpen hh hc => exact absurd hc (by decide)
    | bang hh hc => exact absurd hc (by decide)
    | _ => clear hok ho h h0; simp_all
  | succ n ih =>
    intro w d hn hgt h
    rcases List.eq_nil_or_concat w with rfl | ⟨w, c, rfl⟩
    · simp at hn
    · rw [List.concat_eq_append] at h hgt hn ⊢
      have e : u ++ '/' :: (w ++ [c]) = (u ++ '/' :: w) ++ [c] := by simp
      rw [e] at h
      obtain ⟨d1, k1⟩ := h.prefix
      obtain ⟨d2, k2, rfl⟩ := k1.snoc_of h
      obtain ⟨g1, g2, g3, g4, g5, g6⟩ := ih w d1 (by simpa using hn) (fun q => hgt (by simp [q])) k1
      have hc : c ≠ '>' := by rintro rfl; simp at hgt
      clear ih k1 h h0
      cases k2 with
      | endMore hh hc' => exact ⟨g1, by simp only [g2], g3, g4, g5, g6⟩
      | tagMore hh' => rw [g1] at hh'; cases hh'
      | tagClose hh' => rw [g1] at hh'; cases hh'
      | ltExtend hh' => rw [g1] at hh'; cases hh'
      | ltNew hh' => rw [g1] at hh'; cases hh'
      | _ => simp_all

/-- An end tag. -/
theorem Ran.endTag {o : ParseOptions} {u e : Str} {S : Sit} {d0 d : Doc} (h : Spec.Scan o u S) (hs : S.spot = .lt) (h0 : Ran o u d0) (hgt : '>' ∉ e)
    (hr : Ran o (u ++ ('/' :: e ++ ">".toList)) d) :
    (ownEnd S e ∨ o.autoFixUnclosedTag = false → d.cur.beginAt = u.length - 1) ∧
      (¬ ownEnd S e → o.autoFixUnclosedTag = true → d.cur.beginAt = d0.cur.beginAt) := by
  have hl : d0.handle = .unkownTag := by rw [Scan.handle h h0, hs]
  have hm := h0.lt_mem hl
  have hd0 := h0.reach.ctl
  have e1 : u ++ ('/' :: e ++ ">".toList) = (u ++ '/' :: e) ++ ['>'] := by simp
  rw [e1] at hr
  obtain ⟨d1, k1⟩ := hr.prefix
  obtain ⟨d2, k2, rfl⟩ := k1.snoc_of hr
  obtain ⟨g1, g2, g3, g4, g5, g6⟩ := h0.inEnd hl _ e d1 rfl hgt k1
  have hd1 := k1.reach.ctl
  have hcell : ∀ i ∈ d1.chain, d1.heap.cell i = d0.heap.cell i := by
    intro i hi
    rw [g3] at hi
    have := hd0.chainLt i hi
    rw [g6, Heap.push_cell, if_neg (by omega)]
  have hown := Scan.ownEnd_iff (e := e) h hs h0 g3 hcell
  have hcur : d1.cur = { Cell.new .tagEnd d0.memPosition with prev := if o.autoFixUnclosedTag then some d0.current else none } := by
    unfold Doc.cur
    rw [g4, g6, Heap.push_cell, if_pos rfl]
  have hk := ((k2.eff hd1).keep hd1 d1.current hd1.curLt).beginAt
  have hk0 := ((k2.eff hd1).keep hd1 d0.current (by rw [g6]; have := hd0.curLt; simp; omega)).beginAt
  have hk0' : (d1.heap.cell d0.current).beginAt = d0.cur.beginAt := by
    have := hd0.curLt
    rw [g6, Heap.push_cell, if_neg (by omega)]; rfl
  change (_ → (d2.heap.cell d2.current).beginAt = _) ∧ (_ → _ → (d2.heap.cell d2.current).beginAt = _)
  clear hr k1
  cases k2 with
  | endMatch hh hc t m hm' =>
    have : ownEnd S e := hown.2 ⟨t, m, hm'.1, hm'.2.1, hm'.2.2.1, by rw [← g2]; exact hm'.2.2.2.1⟩
    refine ⟨fun _ => ?_, fun q => absurd this q⟩
    rw [hk, show (d1.heap.cell d1.current) = d1.cur from rfl, hcur]
    simp only [Cell.new]; omega
  | endStray hh hc hf hm' =>
    have hno : ¬ ownEnd S e := fun q => by
      obtain ⟨t, m, j1, j2, j3, j4⟩ := hown.1 q
      exact hm' t m ⟨j1, j2, j3, by rw [g2]; exact j4⟩
    refine ⟨fun q => ?_, fun _ q => ?_⟩
    · have q : o.autoFixUnclosedTag = false := q.resolve_left hno
      have : d1.cur.prev.getD d1.current = d1.current := by rw [hcur]; simp [q]
      simp only [this]
      rw [show (d1.heap.cell d1.current) = d1.cur from rfl, hcur]
      simp only [Cell.new]; omega
    · have : d1.cur.prev.getD d1.current = d0.current := by rw [hcur]; simp [q]
      simp only [this]
      exact hk0'
  | tagMore hh' => rw [g1] at hh'; cases hh'
  | tagClose hh' => rw [g1] at hh'; cases hh'
  | ltExtend hh' => rw [g1] at hh'; cases hh'
  | ltNew hh' => rw [g1] at hh'; cases hh'
  | _ => clear hd1 hd0 h0; simp_all

/-- The end of a construct other than an end tag. -/
theorem Since.done {o : ParseOptions} {s t v : Str} {c : Char} {d d0 d1 : Doc} (hr : Ran o s d) (h : Since o s d t v d0) (hv : v.head? ≠ some '/')
    (hb : d.handle.between = false) (h1 : Step d c d1) (hw : d1.handle = .wait) : d1.cur.beginAt + 1 = t.length := by
  have hd := hr.reach.ctl
  have hk := ((h1.eff hd).keep hd d.current hd.curLt).beginAt
  have hne : d.handle ≠ .tagEnd := fun q => by
    rw [(h.endTag q).2.2.2] at hv; simp at hv
  have stay : d1.current = d.current → d.handle ≠ .exclamationBegin → d1.cur.beginAt + 1 = t.length := by
    intro q g
    unfold Doc.cur
    rw [q, hk]
    exact h.at_ g
  clear hk hr
  cases h1 with
  | commentClose hh => exact stay rfl (by rw [hh]; simp)
  | nameClose hh hc m hm => exact stay (by rw [closeTag_current]; rfl) (by rw [hh]; simp)
  | tagClose hh m hm m' pc mark id ht =>
    exact stay (by rw [closeTag_current]; rfl) (fun q => by rw [q] at hh; cases hh)
  | tagSelf hh hc m hm ha => exact stay rfl (by rw [hh]; simp)
  | rawClose hh hc e he n hn => exact stay rfl (by rw [hh]; simp)
  | endMatch hh => exact absurd hh hne
  | endStray hh => exact absurd hh hne
  | ltExtend hh => rw [hh] at hb; cases hb
  | ltNew hh => rw [hh] at hb; cases hb
  | textEnd hh => rw [hh] at hb; cases hb
  | textMore hh => rw [hh] at hb; cases hb
  | tagMore hh m hm t id ht =>
    have h1' := tagChar_handle (t := d.tagSt m) hh ht
    have hw : t.handle = _ := hw
    rw [hw] at h1'; cases h1'
  | nameEnd hh hc => simp only [Doc.putTag] at hw; split at hw <;> cases hw
  | doctypeName hh hc => simp [Doc.putTag] at hw
  | exclFirst hh => rw [show d.handle = _ from hw] at hb; cases hb
  | exclMore hh => rw [show d.handle = _ from hw] at hb; cases hb
  | commentMore hh => rw [show d.handle = _ from hw] at hb; cases hb
  | nameMore hh => rw [show d.handle = _ from hw] at hb; cases hb
  | endMore hh => rw [show d.handle = _ from hw] at hb; cases hb
  | rawMore hh => rw [show d.handle = _ from hw] at hb; cases hb
  | _ => cases hw

/-- Where the current node begins. -/
theorem LastAt.begins {o : ParseOptions} {s : Str} {i : Nat} (h : Spec.LastAt o s i) : ∀ d, Ran o s d → d.cur.beginAt = i := by
  induction h with
  | nil =>
    intro d h
    have : d = Doc.new o := by cases h; rfl
    subst this; rfl
  | @text u w S h hs hl hw hlt =>
    intro d hr
    obtain ⟨d0, h0⟩ := Scan.ran h
    have hh := Scan.handle h h0
    rw [hs] at hh
    rw [h0.textRun hh hw hlt hr, if_neg]
    rintro ⟨q1, q2⟩
    obtain ⟨p, hp⟩ := (Scan.isText h h0 (by rw [hs]; simp)).1 q2
    rw [hl p hp] at q1; cases q1
  | @resume u w S p i h hs hl ho hw hlt hi ih =>
    intro d hr
    obtain ⟨d0, h0⟩ := Scan.ran h
    have hh := Scan.handle h h0
    rw [hs] at hh
    rw [h0.textRun hh hw hlt hr, if_pos ⟨ho, (Scan.isText h h0 (by rw [hs]; simp)).2 ⟨p, hl⟩⟩]
    exact ih d0 h0
  | @lt u S i h hs hi ih =>
    intro d hr
    obtain ⟨d0, h0⟩ := Scan.ran h
    rw [← ih d0 h0]
    have hh := Scan.handle h h0
    obtain ⟨d1, k, rfl⟩ := h0.snoc_of hr
    change d1.cur.beginAt = _
    have hd := h0.reach.ctl
    have hk := ((k.eff hd).keep hd d0.current hd.curLt).beginAt
    suffices d1.current = d0.current by unfold Doc.cur; rw [this]; exact hk
    cases hsp : S.spot with
    | lt => exact absurd hsp hs
    | between =>
      rw [hsp] at hh
      simp only at hh
      cases k with
      | lt => rfl
      | textStart hh' hc => exact absurd rfl hc
      | textResume hh' hc => exact absurd rfl hc
      | tagMore hh' => rw [hh] at hh'; cases hh'
      | tagClose hh' => rw [hh] at hh'; cases hh'
      | ltExtend hh' => rw [hh] at hh'; cases hh'
      | ltNew hh' => rw [hh] at hh'; cases hh'
      | _ => clear hd hk hr h0 ih hi h; simp_all
    | inText =>
      rw [hsp] at hh
      simp only at hh
      cases k with
      | textEnd => rfl
      | textMore hh' hc => exact absurd rfl hc
      | tagMore hh' => rw [hh] at hh'; cases hh'
      | tagClose hh' => rw [hh] at hh'; cases hh'
      | ltExtend hh' => rw [hh] at hh'; cases hh'
      | ltNew hh' => rw [hh] at hh'; cases hh'
      | _ => clear hd hk hr h0 ih hi h; simp_all
  | @escapeMore u e S p i h hs he hl hi ih =>
    intro d hr
    obtain ⟨d0, h0⟩ := Scan.ran h
    have hh := Scan.handle h h0
    rw [hs] at hh
    rw [h0.escape hh he hr, if_pos ((Scan.isText h h0 (by rw [hs]; simp)).2 ⟨p, hl⟩)]
    exact ih d0 h0
  | @escapeNew u e S h hs he hl =>
    intro d hr
    obtain ⟨d0, h0⟩ := Scan.ran h
    have hh := Scan.handle h h0
    rw [hs] at hh
    rw [h0.escape hh he hr, if_neg]
    intro q
    obtain ⟨p, hp⟩ := (Scan.isText h h0 (by rw [hs]; simp)).1 q
    exact hl p hp
  | @node u v S T h hs hv hT hm he =>
    intro d hr
    have hw := Scan.handle hv hr
    rw [hT] at hw
    simp only at hw
    obtain ⟨d0, h0⟩ := Scan.ran h
    have hh := Scan.handle h h0
    rw [hs] at hh
    simp only at hh
    rcases List.eq_nil_or_concat v with rfl | ⟨v', c, rfl⟩
    · rw [List.append_nil] at hr
      rw [hr.unique h0, hh] at hw; cases hw
    · rw [List.concat_eq_append] at *
      have e : u ++ (v' ++ [c]) = (u ++ v') ++ [c] := by simp
      rw [e] at hr
      obtain ⟨d1, k1⟩ := hr.prefix
      obtain ⟨d2, k2, rfl⟩ := k1.snoc_of hr
      have hw : d2.handle = .wait := hw
      have hne : v' ≠ [] := by
        rintro rfl
        rw [List.append_nil] at k1
        rw [k1.unique h0] at k2
        clear hr k1 h0 hv
        cases k2 with
        | ltExtend hh' hf hc ht w hw' d1 h1 => subst h1; split at hw <;> cases hw
        | ltNew hh' hf hc ht w hw' d1 h1 => subst h1; split at hw <;> cases hw
        | tagMore hh' => rw [hh] at hh'; cases hh'
        | tagClose hh' => rw [hh] at hh'; cases hh'
        | nameClose hh' => rw [hh] at hh'; cases hh'
        | nameEnd hh' => rw [hh] at hh'; cases hh'
        | _ => clear hm; simp_all
      obtain ⟨d0', hsn⟩ := Ran.since_at h hs hne (fun x y hxy hx T' => hm x (y ++ [c]) (by rw [hxy]; simp) hx (by simp) T') k1
      have hb := hsn.inside v' [] (by simp) hne d1 k1
      have := Since.done k1 hsn (by cases v' with | nil => exact absurd rfl hne | cons a l => simpa using he) hb k2 hw
      show d2.cur.beginAt = _
      omega
  | @endTag u e S h hs hgt he =>
    intro d hr
    obtain ⟨d0, h0⟩ := Scan.ran h
    exact (Ran.endTag h hs h0 hgt hr).1 he
  | @dropped u e S i h hs hgt he ho hi ih =>
    intro d hr
    obtain ⟨d0, h0⟩ := Scan.ran h
    rw [(Ran.endTag h hs h0 hgt hr).2 he ho]
    exact ih d0 h0

theorem Step.endGt {d d1 : Doc} {c : Char} (h : Step d c d1) (hh : d.handle = .tagEnd) : d1.handle = .wait ↔ c = '>' := by
  cases h with
  | endMore hh' hc => simp [hh, hc]
  | endMatch hh' hc => simp [hc]
  | endStray hh' hc => simp [hc]
  | tagMore hh' => rw [hh] at hh'; cases hh'
  | tagClose hh' => rw [hh] at hh'; cases hh'
  | ltExtend hh' => rw [hh] at hh'; cases hh'
  | ltNew hh' => rw [hh] at hh'; cases hh'
  | _ => simp_all

theorem Step.toWait {d d1 : Doc} {c : Char} (h : Step d c d1) (hw : d1.handle = .wait) : d.handle.between = false := by
  cases h with
  | commentClose hh => rw [hh]; rfl
  | nameClose hh hc m hm => rw [hh]; rfl
  | tagClose hh => cases hq : d.handle <;> rw [hq] at hh <;> first | (cases hh; done) | rfl
  | tagSelf hh hc m hm ha => rw [hh]; rfl
  | rawClose hh hc e he n hn => rw [hh]; rfl
  | endMatch hh => rw [hh]; rfl
  | endStray hh => rw [hh]; rfl
  | ltExtend hh hf hc ht w hw' d1 h1 => subst h1; split at hw <;> cases hw
  | ltNew hh hf hc ht w hw' d1 h1 => subst h1; split at hw <;> cases hw
  | textMore hh => rw [show d.handle = _ from hw] at hh; cases hh
  | tagMore hh m hm t id ht =>
    have h1' := tagChar_handle (t := d.tagSt m) hh ht
    have hw : t.handle = _ := hw
    rw [hw] at h1'; cases h1'
  | nameEnd hh hc => simp only [Doc.putTag] at hw; split at hw <;> cases hw
  | doctypeName hh hc => simp [Doc.putTag] at hw
  | exclFirst hh => rw [show d.handle = _ from hw] at hh; cases hh
  | exclMore hh => rw [show d.handle = _ from hw] at hh; cases hh
  | commentMore hh => rw [show d.handle = _ from hw] at hh; cases hh
  | nameMore hh => rw [show d.handle = _ from hw] at hh; cases hh
  | endMore hh => rw [show d.handle = _ from hw] at hh; cases hh
  | rawMore hh => rw [show d.handle = _ from hw] at hh; cases hh
  | _ => cases hw

theorem List.split_first {α : Type} [DecidableEq α] {a : α} : ∀ {l : List α}, a ∈ l → ∃ x y, l = x ++ a :: y ∧ a ∉ x := by
  intro l
  induction l with
  | nil => intro h; cases h
  | cons b l ih =>
    intro h
    by_cases e : b = a
    · exact ⟨[], l, by rw [e]; rfl, by simp⟩
    · have : a ∈ l := by
        rcases List.mem_cons.1 h with q | q
        · exact absurd q.symm e
        · exact q
      obtain ⟨x, y, rfl, hx⟩ := ih this
      exact ⟨b :: x, y, rfl, by simp [hx, Ne.symm e]⟩

/-- Every sequence of constructs has a node that was begun last. -/
theorem LastAt.exists {o : ParseOptions} : ∀ (n : Nat) (s : Str) (S : Sit), s.length = n → Spec.Scan o s S → ∃ i, Spec.LastAt o s i := by
  intro n
  induction n using Nat.strongRecOn with
  | ind n ih =>
    intro s S hn h
    have go : S.spot = .between → s ≠ [] → ∃ i, Spec.LastAt o s i := by
      intro hsp hne
      obtain ⟨d, hr⟩ := Scan.ran h
      have hw := Scan.handle h hr
      rw [hsp] at hw
      simp only at hw
      rcases List.eq_nil_or_concat s with rfl | ⟨s, c, rfl⟩
      · exact absurd rfl hne
      · rw [List.concat_eq_append] at *
        obtain ⟨d1, d2, k1, k2, rfl⟩ := hr.snoc
        have hw : d2.handle = .wait := hw
        have hb := k2.toWait hw
        obtain ⟨t, v, d0, hsn⟩ := k1.since _ _ _ rfl hb
        obtain ⟨T, hT, hTs⟩ := afterLt_scan.1 (afterLt_iff.2 ⟨d0, hsn.ran, hsn.lt⟩)
        obtain rfl := hsn.split
        have hm : ∀ x y, v ++ [c] = x ++ y → x ≠ [] → y ≠ [] → ∀ T', ¬ Spec.Scan o (t ++ x) T' := by
          intro x y hx h1 h2 T' hT'
          rcases List.append_eq_append_iff.1 hx with ⟨z, e1, e2⟩ | ⟨z, e1, e2⟩
          · cases z with
            | nil =>
              rw [List.append_nil] at e1
              subst e1
              obtain ⟨d', hd'⟩ := Scan.ran hT'
              have := hsn.inside x [] (by simp) h1 d' hd'
              rw [hd'.between_scan.2 ⟨_, hT'⟩] at this; cases this
            | cons b z =>
              simp at e2
              exact h2 e2.2.2
          · obtain ⟨d', hd'⟩ := Scan.ran hT'
            have := hsn.inside x z e1 h1 d' hd'
            rw [hd'.between_scan.2 ⟨_, hT'⟩] at this; cases this
        by_cases hsl : v.head? = some '/'
        · obtain ⟨e, rfl⟩ : ∃ e, v = '/' :: e := by
            cases v with
            | nil => cases hsl
            | cons a e => simp at hsl; subst hsl; exact ⟨e, rfl⟩
          have hgt : '>' ∉ e := by
            intro q
            obtain ⟨x, y, rfl, hx⟩ := List.split_first q
            have e1 : t ++ '/' :: (x ++ '>' :: y) = (t ++ '/' :: x ++ ['>']) ++ y := by simp
            rw [e1] at k1
            obtain ⟨d3, k3⟩ := k1.prefix
            obtain ⟨d4, k4⟩ := k3.prefix
            have g := (hsn.ran.inEnd hsn.lt _ x d4 rfl hx k4).1
            obtain ⟨d5, k5, rfl⟩ := k4.snoc_of k3
            have := hsn.inside ('/' :: x ++ ['>']) y (by simp) (by simp) _ (by simpa using k3)
            have hw5 := (k5.endGt g).2 rfl
            simp only [hw5] at this
            cases this
          have g := (hsn.ran.inEnd hsn.lt _ e d1 rfl hgt k1).1
          obtain rfl := (k2.endGt g).1 hw
          have e1 : t ++ '/' :: e ++ ['>'] = t ++ ('/' :: e ++ ">".toList) := by simp
          rw [e1]
          by_cases hown : ownEnd T e ∨ o.autoFixUnclosedTag = false
          · exact ⟨_, .endTag hT hTs hgt hown⟩
          · obtain ⟨i, hi⟩ := ih t.length (by rw [← hn]; simp) t T rfl hT
            have ho : o.autoFixUnclosedTag = true := by
              cases q : o.autoFixUnclosedTag with
              | true => rfl
              | false => exact absurd (.inr q) hown
            exact ⟨i, .dropped hT hTs hgt (fun q => hown (.inl q)) ho hi⟩
        · rw [List.append_assoc]
          refine ⟨_, .node hT hTs (by rw [← List.append_assoc]; exact h) hsp hm ?_⟩
          cases v with
          | nil => exact absurd rfl hsn.ne
          | cons a l => simpa using hsl
    have esc : ∀ (u e : Str) (T : Sit), Spec.Scan o u T → T.spot = .lt → escaped e → u.length < n → ∃ i, Spec.LastAt o (u ++ e) i := by
      intro u e T hT hs he hl
      cases hla : T.last with
      | text p =>
        obtain ⟨i, hi⟩ := ih u.length hl u T rfl hT
        exact ⟨i, .escapeMore hT hs he hla hi⟩
      | other => exact ⟨_, .escapeNew hT hs he (by rw [hla]; simp)⟩
      | hole => exact ⟨_, .escapeNew hT hs he (by rw [hla]; simp)⟩
    cases h with
    | nil => exact ⟨0, .nil⟩
    | @text u w S h hs ho hl hw hlt => exact ⟨_, .text h hs hl hw hlt⟩
    | @resume u w S p h hs hl ho hw hlt =>
      have : 0 < w.length := List.length_pos_iff.2 hw
      obtain ⟨i, hi⟩ := ih u.length (by rw [← hn]; simp; omega) u S rfl h
      exact ⟨i, .resume h hs hl ho hw hlt hi⟩
    | @lt u S h hs =>
      obtain ⟨i, hi⟩ := ih u.length (by rw [← hn]; simp) u S rfl h
      exact ⟨i, .lt h hs hi⟩
    | @escape u S h hs ho => exact esc u _ S h hs (.inl rfl) (by rw [← hn]; simp)
    | @escapeText u w S c h hs ho hc hlt => exact esc u _ S h hs (.inr ⟨c, w, rfl, hc, hlt⟩) (by rw [← hn]; simp)
    | comment => exact go rfl (by simp)
    | cdata => exact go rfl (by simp)
    | doctype => exact go rfl (by simp)
    | doctypeSelf => exact go rfl (by simp)
    | selfClosed _ _ _ h => exact go rfl (by intro q; simp at q; rw [q.2.1] at h; exact h)
    | void _ _ _ h => exact go rfl (by intro q; simp at q; rw [q.2.1] at h; exact h)
    | raw => exact go rfl (by simp)
    | start _ _ _ h => exact go rfl (by intro q; simp at q; rw [q.2.1] at h; exact h)
    | close => exact go rfl (by simp)
    | stray => exact go rfl (by simp)

end Rphtml
