import Verif.Proofs.ScanInside
import Verif.Props.ErrorsExact
import Verif.Proofs.DocOf
import Verif.Proofs.Half
import Verif.Proofs.TagHalf

/-!
# C53: every text, construct by construct, under any options
-/

namespace Rphtml
open Spec

theorem tagName_prefix {n x : Str} (h : tagName (n ++ x)) (hn : n ≠ []) : tagName n := by
  cases n with
  | nil => exact absurd rfl hn
  | cons c n => exact ⟨h.1, fun y hy => h.2 y (List.mem_append_left x hy)⟩

theorem tagPart_prefix {q d : Bool} {t x : Str} (h : tagPart q d (t ++ x)) : tagPart q d t := by
  obtain ⟨v, h1, as, sc, h2⟩ := h
  exact ⟨x ++ v, by simp [h1], as, sc, by rw [← List.append_assoc]; exact h2⟩

theorem infix_tail_prefix {p w x : Str} (h : ¬ p <:+: (w ++ x).tail) : ¬ p <:+: w.tail := by
  intro k
  refine h (k.trans ?_)
  cases w with
  | nil => exact List.nil_infix
  | cons c w => exact (List.prefix_append w x).isInfix

/-- The beginning of an unfinished construct is an unfinished construct. -/
theorem Inside.split {o : ParseOptions} {u : Str} {S : Sit} {p : Spec.Part} (h : Spec.Inside o u S p) :
    ∃ t v, u = t ++ v ∧ v ≠ [] ∧ Spec.Scan o t S ∧ S.spot = .lt ∧
      (∀ n z, p = .tag n z → v = n ++ z) ∧ (∀ n z, p = .doctype n z → v = '!' :: n ++ z) ∧
      ∀ x y, v = x ++ y → x ≠ [] → ∃ q, Spec.Inside o (t ++ x) S q := by
  cases h with
  | @bang u w D _ h hs hD hw hl hc =>
    refine ⟨u, '!' :: w, rfl, by simp, h, hs, by simp, by simp, fun x y e hx => ?_⟩
    cases x with
    | nil => exact absurd rfl hx
    | cons c x =>
      simp only [List.cons_append, List.cons.injEq] at e
      obtain ⟨rfl, rfl⟩ := e
      refine ⟨_, .bang h hs hD (.trans ?_ hw) (by simp at hl; omega) fun hx' => hc (by simp [hx'])⟩
      simp [fold]
  | @comment u w _ h hs ho hn =>
    refine ⟨u, "!--".toList ++ w, rfl, by simp, h, hs, by simp, by simp, fun x y e hx => ?_⟩
    match x, hx, e with
    | ['!'], _, _ => exact ⟨_, .bang (w := []) (D := "--".toList) h hs (by simp) (by simp [fold]) (by decide) (by simp)⟩
    | [c], _, e =>
      simp at e
      obtain ⟨rfl, _⟩ := e
      exact ⟨_, .bang (w := []) (D := "--".toList) h hs (by simp) (by simp [fold]) (by decide) (by simp)⟩
    | [c, d], _, e =>
      simp at e
      obtain ⟨rfl, rfl, _⟩ := e
      exact ⟨_, .bang (w := ['-']) (D := "--".toList) h hs (by simp) (by decide) (by decide) (by simp)⟩
    | c :: d :: f :: x, _, e =>
      simp at e
      obtain ⟨rfl, rfl, rfl, rfl⟩ := e
      exact ⟨_, .comment (w := x) h hs ho (infix_tail_prefix hn)⟩
  | @cdata u k w _ h hs ho hk hd hn =>
    refine ⟨u, '!' :: k ++ w, rfl, by simp, h, hs, by simp, by simp, fun x y e hx => ?_⟩
    cases x with
    | nil => exact absurd rfl hx
    | cons c x =>
      simp only [List.cons_append, List.cons.injEq] at e
      obtain ⟨rfl, e⟩ := e
      rcases List.append_eq_append_iff.1 e with ⟨z, rfl, rfl⟩ | ⟨z, rfl, rfl⟩
      · exact ⟨_, by simpa using Inside.cdata h hs ho hk hd (infix_tail_prefix hn)⟩
      · cases z with
        | nil => exact ⟨_, by simpa using Inside.cdata (w := []) h hs ho hk hd (by simp)⟩
        | cons b z =>
          refine ⟨_, .bang (D := "[cdata[".toList) h hs (by simp) ?_ ?_ fun _ _ => ⟨ho, hd⟩⟩
          · rw [← hk]; simp [fold]
          · have := congrArg List.length hk
            simp [fold] at this ⊢; omega
  | @doctype u n t _ h hs ho hn hc ht =>
    refine ⟨u, '!' :: n ++ t, rfl, by simp, h, hs, by simp, by simp, fun x y e hx => ?_⟩
    cases x with
    | nil => exact absurd rfl hx
    | cons c x =>
      simp only [List.cons_append, List.cons.injEq] at e
      obtain ⟨rfl, e⟩ := e
      rcases List.append_eq_append_iff.1 e with ⟨z, rfl, rfl⟩ | ⟨z, rfl, rfl⟩
      · have hz : ∀ c, z.head? = some c → c ∈ ws := by
          intro c hz
          refine hc c ?_
          cases z with
          | nil => cases hz
          | cons b z => exact hz
        exact ⟨_, by simpa using Inside.doctype (t := z) h hs ho hn hz (tagPart_prefix ht)⟩
      · cases z with
        | nil => exact ⟨_, by simpa using Inside.doctype (t := []) h hs ho hn (by simp) (tagPart_prefix (t := []) ht)⟩
        | cons b z =>
          refine ⟨_, .bang (D := "doctype".toList) h hs (by simp) ?_ ?_ fun _ e => absurd e (by decide)⟩
          · rw [← hn]; simp [fold]
          · have := congrArg List.length hn
            simp [fold] at this ⊢; omega
  | @tag u n t _ h hs ho hn hc ht =>
    refine ⟨u, n ++ t, rfl, ?_, h, hs, by simp, by simp, fun x y e hx => ?_⟩
    · cases n with
      | nil => exact hn.elim
      | cons => simp
    · rcases List.append_eq_append_iff.1 e with ⟨z, rfl, rfl⟩ | ⟨z, rfl, rfl⟩
      · refine ⟨_, .tag h hs ho hn (fun hz => ?_) (tagPart_prefix ht)⟩
        cases z with
        | nil => exact absurd rfl hz
        | cons b z => obtain ⟨c, k1, k2⟩ := hc (by simp); exact ⟨c, k1, k2⟩
      · exact ⟨_, by simpa using Inside.tag (t := []) h hs ho (tagName_prefix hn hx) (by simp) (tagPart_prefix (t := []) ht)⟩
  | @raw u n t w _ as h hs ho hn hv ht hr hx' =>
    refine ⟨u, n ++ t ++ w, rfl, ?_, h, hs, by simp, by simp, fun x y e hx => ?_⟩
    · cases n with
      | nil => exact hn.elim
      | cons => simp
    · have tagOnly : ∀ x z, x ≠ [] → n ++ t = x ++ z → z ≠ [] → ∃ q, Spec.Inside o (u ++ x) S q := by
        intro x z hx e hz
        rcases List.append_eq_append_iff.1 e with ⟨z', rfl, rfl⟩ | ⟨z', rfl, rfl⟩
        · refine ⟨_, .tag h hs ho hn (fun hz' => ?_) ⟨z, hz, as, false, ht⟩⟩
          cases z' with
          | nil => exact absurd rfl hz'
          | cons b z' => obtain ⟨c, k1, k2⟩ := hv; exact ⟨c, k1, k2⟩
        · have ht' : t ≠ [] := by
            rintro rfl
            obtain ⟨c, k1, k2⟩ := hv
            cases k1
          exact ⟨_, by simpa using Inside.tag (t := []) h hs ho (tagName_prefix hn hx) (by simp) ⟨t, ht', as, false, ht⟩⟩
      rcases List.append_eq_append_iff.1 e with ⟨z, rfl, rfl⟩ | ⟨z, e', rfl⟩
      · refine ⟨_, .raw h hs ho hn hv ht hr (fun y' k z' e => hx' y' k (z' ++ y) (by rw [e]; simp))⟩
      · cases z with
        | nil =>
          rw [List.append_nil] at e'
          subst e'
          exact ⟨_, by simpa using Inside.raw (w := []) h hs ho hn hv ht hr (by simp)⟩
        | cons b z => exact tagOnly x _ hx e' (by simp)
  | @endTag u e _ h hs hgt =>
    refine ⟨u, '/' :: e, rfl, by simp, h, hs, by simp, by simp, fun x y e' hx => ?_⟩
    cases x with
    | nil => exact absurd rfl hx
    | cons c x =>
      simp only [List.cons_append, List.cons.injEq] at e'
      obtain ⟨rfl, rfl⟩ := e'
      exact ⟨_, .endTag h hs (fun q => hgt (by simp [q]))⟩

theorem Inside.notSimple {o : ParseOptions} {u : Str} {S T : Sit} {p : Spec.Part} (h : Spec.Inside o u S p) (k : Spec.Scan o u T) : False := by
  obtain ⟨a, h1, h2, _⟩ := Inside.run h
  obtain ⟨b, k1, k2, _⟩ := Scan.run k
  rw [h1, Option.some.injEq] at k1
  subst k1
  rw [partMode_simple h2] at k2
  cases k2

theorem Scan.unique {o : ParseOptions} {u : Str} {S T : Sit} (h : Spec.Scan o u S) (k : Spec.Scan o u T) : S = T := by
  obtain ⟨a, h1, _, rfl⟩ := Scan.run h
  obtain ⟨b, k1, _, rfl⟩ := Scan.run k
  rw [h1, Option.some.injEq] at k1
  rw [k1]

theorem Inside.unique {o : ParseOptions} {u : Str} {S T : Sit} {p q : Spec.Part} (h : Spec.Inside o u S p) (k : Spec.Inside o u T q) :
    S = T ∧ p = q := by
  obtain ⟨t, v, h1, h2, h3, h4, h5, h5', h6⟩ := Inside.split h
  obtain ⟨t', v', k1, k2, k3, k4, k5, k5', k6⟩ := Inside.split k
  have key : t = t' ∧ v = v' := by
    rw [h1] at k1
    rcases List.append_eq_append_iff.1 k1 with ⟨x, e1, e2⟩ | ⟨x, e1, e2⟩
    · cases x with
      | nil => simp at e1 e2; exact ⟨e1.symm, e2⟩
      | cons c x =>
        obtain ⟨r, hr⟩ := h6 _ _ e2 (by simp)
        rw [← e1] at hr
        exact (Inside.notSimple hr k3).elim
    · cases x with
      | nil => simp at e1 e2; exact ⟨e1, e2.symm⟩
      | cons c x =>
        obtain ⟨r, hr⟩ := k6 _ _ e2 (by simp)
        rw [← e1] at hr
        exact (Inside.notSimple hr h3).elim
  obtain ⟨rfl, rfl⟩ := key
  refine ⟨Scan.unique h3 k3, ?_⟩
  obtain ⟨a, h7, h8, _⟩ := Inside.run h
  obtain ⟨b, k7, k8, _⟩ := Inside.run k
  rw [h7, Option.some.injEq] at k7
  subst k7
  have tagName' : ∀ {d : Bool} {n : Str} {mk : Char} {t : Str} {t' : TagSt}, trun d o.allowAttrKeyStartsWithEqualSign ⟨.tagWait, nameMeta n, [], mk⟩ t = some t' →
      t'.m.name = n := by
    intro d n mk t t' h
    exact (trun_ok2 t _ t' (ok2_name n mk) h).2
  have same : ∀ {w n z n' z' : Str}, w ++ n ++ z = w ++ n' ++ z' → n = n' → n = n' ∧ z = z' := by
    intro w n z n' z' e1 e2
    subst e2
    exact ⟨rfl, by simpa using e1⟩
  cases p with
  | tag n z =>
    have e := h5 n z rfl
    simp only [partMode] at h8
    cases q with
    | tag n' z' =>
      simp only [partMode] at k8
      have e' : ([] : Str) ++ n ++ z = [] ++ n' ++ z' := by simpa using e.symm.trans (k5 n' z' rfl)
      have : n = n' := by
        split at h8 <;> split at k8
        · rw [h8] at k8; cases k8; rfl
        · obtain ⟨_, _, k8, _⟩ := k8; rw [h8] at k8; cases k8
        · obtain ⟨_, _, h8, _⟩ := h8; rw [h8] at k8; cases k8
        · obtain ⟨_, _, h8, h9⟩ := h8
          obtain ⟨_, _, k8, k9⟩ := k8
          rw [h8] at k8; cases k8
          rw [← tagName' h9, ← tagName' k9]
      rw [(same e' this).1, (same e' this).2]
    | doctype n' z' =>
      exfalso
      simp only [partMode] at k8
      split at h8 <;> split at k8
      · rw [h8] at k8; cases k8
      · obtain ⟨_, _, k8, _⟩ := k8; rw [h8] at k8; cases k8
      · obtain ⟨_, _, h8, _⟩ := h8; rw [h8] at k8; cases k8
      · obtain ⟨_, _, h8, h9⟩ := h8
        obtain ⟨_, _, k8, k9⟩ := k8
        rw [h8] at k8; cases k8
    | bang w => exfalso; obtain ⟨_, k8⟩ := k8; rw [k8] at h8; split at h8 <;> simp at h8
    | comment w => exfalso; simp only [partMode] at k8; rw [k8] at h8; split at h8 <;> simp at h8
    | cdata w => exfalso; simp only [partMode] at k8; rw [k8] at h8; split at h8 <;> simp at h8
    | raw _ w => exfalso; obtain ⟨_, k8, _⟩ := k8; rw [k8] at h8; split at h8 <;> simp at h8
    | endTag w => exfalso; obtain ⟨_, k8⟩ := k8; rw [k8] at h8; split at h8 <;> simp at h8
  | doctype n z =>
    have e := h5' n z rfl
    simp only [partMode] at h8
    cases q with
    | doctype n' z' =>
      simp only [partMode] at k8
      have e' : ['!'] ++ n ++ z = ['!'] ++ n' ++ z' := by simpa using e.symm.trans (k5' n' z' rfl)
      have : n = n' := by
        split at h8 <;> split at k8
        · rw [h8] at k8; cases k8; rfl
        · obtain ⟨_, _, k8, _⟩ := k8; rw [h8] at k8; cases k8
        · obtain ⟨_, _, h8, _⟩ := h8; rw [h8] at k8; cases k8
        · obtain ⟨_, _, h8, h9⟩ := h8
          obtain ⟨_, _, k8, k9⟩ := k8
          rw [h8] at k8; cases k8
          rw [← tagName' h9, ← tagName' k9]
      rw [(same e' this).1, (same e' this).2]
    | tag n' z' =>
      exfalso
      simp only [partMode] at k8
      split at h8 <;> split at k8
      · rw [h8] at k8; cases k8
      · obtain ⟨_, _, k8, _⟩ := k8; rw [h8] at k8; cases k8
      · obtain ⟨_, _, h8, _⟩ := h8; rw [h8] at k8; cases k8
      · obtain ⟨_, _, h8, h9⟩ := h8
        obtain ⟨_, _, k8, k9⟩ := k8
        rw [h8] at k8; cases k8
    | bang w => exfalso; obtain ⟨_, k8⟩ := k8; rw [k8] at h8; split at h8 <;> simp at h8
    | comment w => exfalso; simp only [partMode] at k8; rw [k8] at h8; split at h8 <;> simp at h8
    | cdata w => exfalso; simp only [partMode] at k8; rw [k8] at h8; split at h8 <;> simp at h8
    | raw _ w => exfalso; obtain ⟨_, k8, _⟩ := k8; rw [k8] at h8; split at h8 <;> simp at h8
    | endTag w => exfalso; obtain ⟨_, k8⟩ := k8; rw [k8] at h8; split at h8 <;> simp at h8
  | bang w =>
    obtain ⟨D, h8⟩ := h8
    cases q <;> simp only [partMode, h8] at k8
    case bang => obtain ⟨_, k8⟩ := k8; cases k8; rfl
    all_goals first | (split at k8 <;> simp at k8) | simp at k8
  | comment w =>
    simp only [partMode] at h8
    cases q <;> simp only [partMode, h8] at k8
    case comment => cases k8; rfl
    all_goals first | (split at k8 <;> simp at k8) | simp at k8
  | cdata w =>
    simp only [partMode] at h8
    cases q <;> simp only [partMode, h8] at k8
    case cdata => cases k8; rfl
    all_goals first | (split at k8 <;> simp at k8) | simp at k8
  | raw n w =>
    obtain ⟨m, h8, h9⟩ := h8
    cases q <;> simp only [partMode, h8] at k8
    case raw => obtain ⟨_, k8, k9⟩ := k8; cases k8; rw [← h9, ← k9]
    all_goals first | (split at k8 <;> simp at k8) | simp at k8
  | endTag e =>
    obtain ⟨r, h8⟩ := h8
    cases q <;> simp only [partMode, h8] at k8
    case endTag => obtain ⟨_, k8⟩ := k8; cases k8; rfl
    all_goals first | (split at k8 <;> simp at k8) | simp at k8

theorem names_eq (f : Frame) : ∀ gs : List Frame, frameNames f gs = if gs = [] then [] else ((f :: gs).dropLast).map Frame.name
  | [] => rfl
  | [g] => rfl
  | g :: g' :: gs => by
    rw [frameNames, names_eq g (g' :: gs)]
    simp

theorem Sit.names_eq (S : Sit) : S.names = frameNames S.top S.rest := (Rphtml.names_eq S.top S.rest).symm

theorem pending_names {u : Str} {o : ParseOptions} {a : AState} {p : Spec.Part} {S : Sit} (h : arun o {} u = some a)
    (hm : partMode o p a.mode) (hs : Stands a S) (hp : ∀ n, p ≠ .tag n []) : openNames u o = Spec.Part.names S p := by
  obtain ⟨d, h3, h4, h5⟩ := machine_run h
  have hr : Ran o u d := h3
  have ha := h4.mode
  have hfr : S.names = frameNames a.top a.rest := by rw [Sit.names_eq, hs.top, hs.rest]
  rw [hr.openNames]
  have stk : ∀ {st : List NodeId} {hi : NodeId}, Stk d a.over st → Zip d.heap st (a.top :: a.rest) [] hi →
      d.chain.dropLast.map (fun i => ((d.heap.cell i).tmeta.getD {}).name) = S.names := by
    intro st hi k1 k2
    cases st with
    | nil => simp [Zip] at k2
    | cons x cs =>
      have := Zip.names d.heap.cell (fun _ => rfl) cs x a.top a.rest _ _ k2
      rw [hfr, ← this]
      rcases k1 with ⟨_, k, _⟩ | ⟨_, k, k'⟩
      · rw [k]
      · rw [k, k']; rfl
  have pend : Pending d d.chain (a.top :: a.rest) a.over →
      d.chain.dropLast.map (fun i => ((d.heap.cell i).tmeta.getD {}).name) = S.names := by
    rintro ⟨_, k2, _⟩
    cases hc : d.chain with
    | nil => rw [hc] at k2; simp [Zip] at k2
    | cons x cs =>
      rw [hc] at k2
      rw [hfr]
      exact Zip.names d.heap.cell (fun _ => rfl) cs x a.top a.rest _ _ k2
  have tail : ∀ {m : TagMeta}, d.chain.head? = some d.current → d.cur.tmeta = some m → Pending d d.chain.tail (a.top :: a.rest) a.over →
      d.chain.dropLast.map (fun i => ((d.heap.cell i).tmeta.getD {}).name) = m.name :: S.names := by
    rintro m k0 k1 ⟨_, k2, _⟩
    cases hc : d.chain with
    | nil => rw [hc] at k0; cases k0
    | cons y ys =>
      rw [hc] at k0 k2
      cases ys with
      | nil => simp [Zip] at k2
      | cons x cs =>
        simp only [List.head?_cons, Option.some.injEq] at k0
        subst k0
        rw [hfr, ← Zip.names d.heap.cell (fun _ => rfl) cs x a.top a.rest _ _ k2]
        have : d.heap.cell d.current = d.cur := rfl
        simp only [List.dropLast_cons_cons, List.map_cons, this, k1]
        rfl
  cases p with
  | bang w =>
    obtain ⟨D, e⟩ := hm
    rw [e] at ha
    obtain ⟨_, _, _, st, k1, k2⟩ := ha
    exact stk k1 k2
  | comment w =>
    rw [show a.mode = _ from hm] at ha
    exact pend ha.2.2.2
  | cdata w =>
    rw [show a.mode = _ from hm] at ha
    exact pend ha.2.2.2
  | doctype n t =>
    simp only [partMode] at hm
    split at hm
    · rw [hm] at ha
      exact pend ha.2.2
    · obtain ⟨mk, t', e, _⟩ := hm
      rw [e] at ha
      exact pend ha.2.2.2
  | tag n t =>
    simp only [partMode] at hm
    rw [if_neg (fun q => hp n (by rw [q]))] at hm
    obtain ⟨mk, t', e, k⟩ := hm
    rw [e] at ha
    obtain ⟨k1, k2, ⟨m, k3, k4, _⟩, k5⟩ := ha
    have hn : m.name = n := by
      have := (trun_ok2 t _ t' (ok2_name n mk) k).2
      rw [← k4] at this
      exact this
    obtain ⟨_, _, _, hor⟩ := h5.inTag k1 k3
    rcases hor with j | j
    · rw [tail j.2.2.1 k3 k5, hn]; rfl
    · rw [j.1] at k2; simp at k2
  | raw n w =>
    obtain ⟨m, e, hn⟩ := hm
    rw [e] at ha
    obtain ⟨k1, k2, k3, _, k5⟩ := ha
    have hs := h5.hs
    unfold HandleOk at hs
    rw [k1] at hs
    rw [tail hs.2.1 k3 k5, hn]; rfl
  | endTag e =>
    obtain ⟨r, e⟩ := hm
    rw [e] at ha
    obtain ⟨_, _, c, cs, k1, k2, _⟩ := ha
    exact stk k1 k2

theorem notClosed_eq {s : Str} {o : ParseOptions} {a : AState} (h : arun o {} s = some a) (ho : a.mode.outside = true) :
    notClosed s o = !a.over := by
  obtain ⟨d, h1, h2, _⟩ := machine_run h
  unfold notClosed
  rw [h1]
  have hm := h2.mode
  have key : ∀ st, Stk d a.over st → (!d.chain.isEmpty) = !a.over := by
    intro st k
    rcases k with ⟨k1, k2, k3⟩ | ⟨k1, k2, _⟩
    · rw [k1, k2]
      cases st with
      | nil => exact absurd rfl k3
      | cons => rfl
    · rw [k1, k2]; rfl
  cases hmo : a.mode with
  | wait l =>
    rw [hmo] at hm
    obtain ⟨_, x, cs, k, _⟩ := hm
    exact key _ k
  | text p =>
    rw [hmo] at hm
    obtain ⟨_, x, cs, k, _⟩ := hm
    exact key _ k
  | _ => rw [hmo] at ho; cases ho

/-- **C53**, first part: exactly the texts that are a sequence of constructs, or end inside one, are read without complaint. -/
theorem c53_reads (u : Str) (o : ParseOptions) :
    readable u o = true ↔ (∃ S, Spec.Scan o u S) ∨ ∃ S p, Spec.Inside o u S p := by
  rw [readable_iff]
  constructor
  · rintro ⟨a, h⟩
    cases hm : a.mode.simple with
    | true => exact .inl ⟨_, (Told.run h).scan hm⟩
    | false =>
      obtain ⟨S, p, h1, _⟩ := inside_of h hm
      exact .inr ⟨S, p, h1⟩
  · rintro (⟨S, h⟩ | ⟨S, p, h⟩)
    · obtain ⟨a, h1, _⟩ := Scan.run h; exact ⟨a, h1⟩
    · obtain ⟨a, h1, _⟩ := Inside.run h; exact ⟨a, h1⟩

/-- **C53**, second part: a text can be taken apart in one way only. -/
theorem c53_unique {u : Str} {o : ParseOptions} {S : Sit} :
    (Spec.Scan o u S → ∀ T, Spec.Scan o u T → S = T) ∧ (Spec.Scan o u S → ∀ T p, ¬ Spec.Inside o u T p) ∧
    ∀ p, Spec.Inside o u S p → ∀ T q, Spec.Inside o u T q → S = T ∧ p = q :=
  ⟨fun h _ k => Scan.unique h k, fun h _ _ k => Inside.notSimple k h, fun _ h _ _ k => Inside.unique h k⟩

/-- **C53**, third part: what the parser knows behind a sequence of constructs. -/
theorem c53_scan {u : Str} {o : ParseOptions} {S : Sit} (h : Spec.Scan o u S) :
    openNames u o = S.names ∧ foreignName u o = S.foreign ∧ notClosed u o = !S.over ∧ (afterLt u o = true ↔ S.spot = .lt) ∧
      (outside u o = true ↔ S.spot ≠ .lt) ∧ endsInStartTag u o = false := by
  obtain ⟨a, h1, h2, rfl⟩ := Scan.run h
  obtain ⟨d, h3, h4, h5⟩ := machine_run h1
  have hr : Ran o u d := h3
  have hf : foreignName u o = ctxOf a := by
    rw [hr.foreignName, ← h4.sp]; rfl
  have hlt : afterLt u o = true ↔ (sitOf a).spot = .lt := by
    rw [afterLt_machine]
    constructor
    · rintro ⟨b, l, k1, k2⟩
      rw [h1] at k1; cases k1
      simp only [sitOf, k2, spotOf]
    · intro q
      obtain ⟨l, k, _⟩ := spot_lt h2 q
      exact ⟨a, l, h1, k⟩
  have hout : outside u o = true ↔ (sitOf a).spot ≠ .lt := by
    rw [outside_iff]
    constructor
    · rintro ⟨b, k1, k2⟩
      rw [h1] at k1; cases k1
      intro q
      obtain ⟨l, k, _⟩ := spot_lt h2 q
      rw [k] at k2; cases k2
    · intro q
      refine ⟨a, h1, ?_⟩
      cases hm : a.mode <;> rw [hm] at h2 <;> first | rfl | (cases h2; done) | skip
      simp [sitOf, hm, spotOf] at q
  have hin : endsInStartTag u o = false := by
    rw [← Bool.not_eq_true, endsInStartTag_iff]
    rintro ⟨b, k1, k2⟩
    rw [h1] at k1; cases k1
    cases hm : a.mode <;> rw [hm] at h2 k2 <;> first | (cases h2; done) | cases k2
  have hn : openNames u o = (sitOf a).names ∧ notClosed u o = !(sitOf a).over := by
    rw [Sit.names_eq]
    have hc : notClosed u o = !a.over ∧ openNames u o = frameNames a.top a.rest := by
      cases hm : a.mode with
      | lt l => exact ⟨(lt_machine h1 hm).2, (lt_machine h1 hm).1⟩
      | wait l => exact ⟨notClosed_eq h1 (by rw [hm]; rfl), openNames_machine h1 (by rw [hm]; rfl)⟩
      | text p => exact ⟨notClosed_eq h1 (by rw [hm]; rfl), openNames_machine h1 (by rw [hm]; rfl)⟩
      | _ => rw [hm] at h2; cases h2
    exact ⟨hc.2, hc.1⟩
  exact ⟨hn.1, hf, hn.2, hlt, hout, hin⟩

/-- **C53**, fourth part: what the parser knows inside a construct.  (While a start tag is only a name, the element has no name
yet.) -/
theorem c53_inside {u : Str} {o : ParseOptions} {S : Sit} {p : Spec.Part} (h : Spec.Inside o u S p) :
    ((∀ n, p ≠ .tag n []) → openNames u o = p.names S) ∧ foreignName u o = S.foreign ∧
      (endsInStartTag u o = true ↔ ∃ n t, p = .tag n t) ∧ afterLt u o = false ∧ outside u o = false := by
  obtain ⟨a, h1, h2, h3⟩ := Inside.run h
  obtain ⟨d, k3, k4, k5⟩ := machine_run h1
  have hr : Ran o u d := k3
  have hs := partMode_simple h2
  refine ⟨pending_names h1 h2 h3, ?_, ?_, ?_, ?_⟩
  · rw [hr.foreignName, ← k4.sp, ← h3.foreign]; rfl
  · rw [endsInStartTag_iff]
    constructor
    · rintro ⟨b, q1, q2⟩
      rw [h1] at q1; cases q1
      cases p with
      | tag n t => exact ⟨n, t, rfl⟩
      | doctype n t =>
        exfalso
        simp only [partMode] at h2
        split at h2
        · rw [h2] at q2; cases q2
        · obtain ⟨_, _, h2, _⟩ := h2; rw [h2] at q2; cases q2
      | bang w => obtain ⟨_, h2⟩ := h2; rw [h2] at q2; cases q2
      | comment w => rw [show a.mode = _ from h2] at q2; cases q2
      | cdata w => rw [show a.mode = _ from h2] at q2; cases q2
      | raw n w => obtain ⟨_, h2, _⟩ := h2; rw [h2] at q2; cases q2
      | endTag w => obtain ⟨_, h2⟩ := h2; rw [h2] at q2; cases q2
    · rintro ⟨n, t, rfl⟩
      refine ⟨a, h1, ?_⟩
      simp only [partMode] at h2
      split at h2
      · rw [h2]; rfl
      · obtain ⟨_, _, h2, _⟩ := h2; rw [h2]; rfl
  · rw [← Bool.not_eq_true, afterLt_machine]
    rintro ⟨b, l, q1, q2⟩
    rw [h1] at q1; cases q1
    rw [q2] at hs; cases hs
  · rw [← Bool.not_eq_true, outside_iff]
    rintro ⟨b, q1, q2⟩
    rw [h1] at q1; cases q1
    cases hm : a.mode <;> rw [hm] at hs q2 <;> first | (cases hs; done) | cases q2

theorem closeUp_eq : ∀ (ks : List PNode) (f : Frame) (gs : List Frame), Spec.Sit.closeUp ks f gs = closeKids ks f gs
  | _, _, [] => rfl
  | ks, f, g :: gs => by rw [Spec.Sit.closeUp, closeKids, closeUp_eq]

/-- The attributes of a half-read start tag. -/
theorem half_attrs {o : ParseOptions} {n t : Str} {as : List Attr} {mk : Char} {t' : TagSt}
    (h : TagHalf o.allowAttrKeyStartsWithEqualSign as t)
    (k : trun false o.allowAttrKeyStartsWithEqualSign ⟨.tagWait, nameMeta n, [], mk⟩ t = some t') : t'.m.attrs = as := by
  obtain ⟨t1, k1, k2⟩ := tagEnds_none _ _ (tagHalf_run h ⟨.tagWait, nameMeta n, [], mk⟩ rfl rfl rfl)
  rw [k] at k1; cases k1
  rw [k2]; rfl

/-- What the library makes of a half-read start tag. -/
theorem half_result {o : ParseOptions} {s n t : Str} {S : Sit} {as : List Attr} (h : Spec.Inside o s S (.tag n t)) (hne : t ≠ [])
    (ht : TagHalf o.allowAttrKeyStartsWithEqualSign as t) (ho : o.autoFixUnclosedTag = true) :
    ∃ d t', Doc.parse s o = .ok d ∧ d.tree? = some t' ∧ t'.doc = (S.add (.elem n as false none [] (some n))).doc ∧
      t'.data.nodeType = .abstractRoot ∧ t'.endTag = none ∧ Tree.shapeds t'.kids := by
  obtain ⟨a, h1, h2, h3⟩ := Inside.run h
  simp only [partMode] at h2
  rw [if_neg hne] at h2
  obtain ⟨mk, ts, h4, h5⟩ := h2
  obtain ⟨d, t', k1, k2, k3, k4⟩ := half_parse h1 h4 ho
  refine ⟨d, t', k1, k2, ?_, k4⟩
  rw [k3, closeKids, half_attrs ht h5, (trun_ok2 t _ ts (ok2_name n mk) h5).2]
  unfold Sit.doc Sit.add
  simp only [closeUp_eq]
  rw [h3.top, h3.rest]
  show closeKids _ S.top S.rest = closeKids _ { S.top with kids := _ } S.rest
  cases S.rest <;> rfl

theorem Scan.result {o : ParseOptions} {s : Str} {S : Sit} (h : Spec.Scan o s S) (hs : S.spot ≠ .lt)
    (hr : S.rest = [] ∨ o.autoFixUnclosedTag = true) :
    ∃ d t, Doc.parse s o = .ok d ∧ d.tree? = some t ∧ t.doc = S.doc ∧ t.data.nodeType = .abstractRoot ∧ t.endTag = none ∧
      Tree.shapeds t.kids := by
  obtain ⟨a, h1, h2, rfl⟩ := Scan.run h
  have hf : a.final o = true := by
    unfold AState.final
    have : (a.rest.isEmpty || o.autoFixUnclosedTag) = true := by
      rcases hr with q | q
      · rw [show a.rest = [] from q]; rfl
      · rw [q]; simp
    rw [this]
    cases hm : a.mode <;> rw [hm] at h2 <;> first | rfl | (cases h2; done) | skip
    simp [sitOf, hm, spotOf] at hs
  obtain ⟨d, t, k1, k2, k3, k4⟩ := machine_parse h1 hf
  refine ⟨d, t, k1, k2, ?_, k4⟩
  rw [k3, result_eq]
  unfold Sit.doc
  rw [closeUp_eq]; rfl

/-- Every accepted text is described. -/
theorem result_of {o : ParseOptions} {s : Str} {d : Doc} (h : Doc.parse s o = .ok d) (hn : ¬ EndsInName o s) : ∃ ps, Result o s ps := by
  obtain ⟨a, h1, h2 | ⟨h2, _⟩⟩ := parse_machine h
  · have hs : a.mode.simple = false := by
      cases hm : a.mode <;> rw [hm] at h2 <;> first | rfl | cases h2.1
    obtain ⟨S, p, k1, k2, k3⟩ := inside_of h1 hs
    have : ∃ n t, p = .tag n t := (c53_inside k1).2.2.1.1 (endsInStartTag_iff.2 ⟨a, h1, h2.1⟩)
    obtain ⟨n, t, rfl⟩ := this
    have ht : t ≠ [] := by rintro rfl; exact hn ⟨S, n, k1⟩
    have hpart : tagPart o.allowAttrKeyStartsWithEqualSign false t := by cases k1; assumption
    obtain ⟨v, hv, as, sc, hrest⟩ := hpart
    obtain ⟨bs, hb⟩ := half_of hrest t v rfl hv
    exact ⟨_, .inr ⟨h2.2, S, n, t, bs, k1, ht, hb, rfl⟩⟩
  · unfold AState.final at h2
    rw [Bool.and_eq_true, Bool.or_eq_true] at h2
    have hs : a.mode.simple = true := by
      cases hm : a.mode <;> rw [hm] at h2 <;> first | rfl | cases h2.1
    refine ⟨_, .inl ⟨_, (Told.run h1).scan hs, ?_, ?_, rfl⟩⟩
    · intro q
      obtain ⟨l, k, _⟩ := spot_lt hs q
      rw [k] at h2; cases h2.1
    · exact h2.2.imp List.isEmpty_iff.1 id

theorem result_parse {o : ParseOptions} {s : Str} {ps : List PNode} (h : Result o s ps) :
    ∃ d t, Doc.parse s o = .ok d ∧ d.tree? = some t ∧ t.doc = ps ∧ t.data.nodeType = .abstractRoot ∧ t.endTag = none ∧
      Tree.shapeds t.kids := by
  rcases h with ⟨S, h1, h2, h3, rfl⟩ | ⟨h0, S, n, t, as, h1, h2, h3, rfl⟩
  · exact Scan.result h1 h2 h3
  · exact half_result h1 h2 h3 h0

/-- **C53**, fifth part: the document of every text, under any options.  A text that ends inside the name of a start tag is left
out; see `c53_accepts` and C02. -/
theorem c53_doc {s : Str} {o : ParseOptions} (hn : ¬ EndsInName o s) (ps : List PNode) : docOf s o = some ps ↔ Result o s ps := by
  have back : ∀ qs, Result o s qs → docOf s o = some qs := by
    intro qs h
    obtain ⟨d, t, h1, h2, h3, _⟩ := result_parse h
    unfold docOf
    rw [h1]
    simp only [h2, Option.map_some, h3]
  refine ⟨fun h => ?_, back ps⟩
  have h' := h
  unfold docOf at h'
  cases hp : Doc.parse s o with
  | ok d =>
    obtain ⟨qs, hq⟩ := result_of hp hn
    have := back qs hq
    rw [h] at this
    cases this
    exact hq
  | err e => rw [hp] at h'; cases h'
  | panic x => rw [hp] at h'; cases h'

theorem name_parse {o : ParseOptions} {s : Str} (h : EndsInName o s) :
    (o.autoFixUnclosedTag = true → ∃ d, Doc.parse s o = .ok d) ∧ (o.autoFixUnclosedTag = false → Doc.parse s o = .panic .eofMeta) := by
  obtain ⟨S, n, h⟩ := h
  obtain ⟨a, h1, h2, h3⟩ := Inside.run h
  simp only [partMode, if_true] at h2
  obtain ⟨d, k1, k2, k3⟩ := machine_run h1
  have hr : Ran o s d := k1
  have hm := k2.mode
  rw [h2] at hm
  have hh : d.handle = .tagName := hm.1
  refine ⟨fun ho => ?_, fun ho => ?_⟩
  · have ho' : d.opts.autoFixUnclosedTag = true := by rw [hr.reach.opts]; exact ho
    have hc := k2.inStart_code k3 (by rw [h2]; rfl)
    have he : EofOk d := ⟨.inr ho', .inr (.inr (.inr ⟨hc, ho'⟩))⟩
    obtain ⟨d1, h4⟩ := fixHeap_total d s he
    refine ⟨d1.intoRoot, ?_⟩
    unfold Doc.parse
    simp only [Res.bind_eq, k1, Res.bind, h4]
  · rw [c01_exact]
    left
    refine ⟨rfl, ho, inName_iff.1 ⟨d, hr, hh⟩⟩

/-- **C53**, sixth part: exactly these texts are accepted. -/
theorem c53_accepts (s : Str) (o : ParseOptions) :
    (∃ d, Doc.parse s o = .ok d) ↔ (∃ ps, Result o s ps) ∨ (o.autoFixUnclosedTag = true ∧ EndsInName o s) := by
  constructor
  · rintro ⟨d, h⟩
    by_cases hn : EndsInName o s
    · right
      cases ho : o.autoFixUnclosedTag with
      | true => exact ⟨rfl, hn⟩
      | false => rw [(name_parse hn).2 ho] at h; cases h
    · exact .inl (result_of h hn)
  · rintro (⟨ps, h⟩ | ⟨ho, h⟩)
    · obtain ⟨d, _, h1, _⟩ := result_parse h
      exact ⟨d, h1⟩
    · exact (name_parse h).1 ho

/-- **C53**, last part: rendering a document gives its source text, whatever was repaired. -/
theorem c53_render (lib : EntityLib) {s : Str} {o : ParseOptions} {d : Doc} {ps : List PNode} (h : Doc.parse s o = .ok d)
    (hr : Result o s ps) : d.render lib {} = .ok (printNodes ps) := by
  obtain ⟨d', t, h1, h2, h3, h4, h5, h6⟩ := result_parse hr
  rw [h] at h1; cases h1
  rw [← h3]
  exact parse_render lib h2 h4 h5 h6

/-- The options of the examples: everything is repaired. -/
private def fixAll : ParseOptions :=
  { autoFixUnclosedTag := true, autoFixUnexpectedEndtag := true, autoFixUnescapedLt := true }

/-- `<p>a</x>b`: the end tag is dropped, the text goes on behind it, and the element is closed at the end. -/
private theorem ex_scan : Spec.Scan fixAll "<p>a</x>b".toList { top := { name := ['p'], kids := [.text "ab".toList] }, rest := [{}], last := .text .top, spot := .inText } := by
  have h1 := Spec.Scan.start (n := ['p']) (t := ['>']) (.lt (.nil (o := fixAll)) (by decide)) rfl rfl (by decide)
    ⟨'>', rfl, by decide⟩ (TagRest.close (g := []) (by simp [isGap])) (by decide) (by decide)
  have h2 := Spec.Scan.text (w := ['a']) h1 rfl rfl (by simp) (by simp) (by decide)
  have h3 := Spec.Scan.stray (e := ['x']) (.lt h2 (by decide)) rfl (by decide) (by unfold ownEnd; decide) rfl
  exact .resume (w := ['b']) (p := .top) h3 rfl rfl rfl (by simp) (by decide)

example : docOf "<p>a</x>b".toList fixAll = some [.elem ['p'] [] false none [.text "ab".toList] (some ['p'])] :=
  (c53_doc (fun ⟨_, _, h⟩ => c53_unique.2.1 ex_scan _ _ h) _).2 (.inl ⟨_, ex_scan, by decide, .inr rfl, rfl⟩)

/-- `<p a=`: the text ends inside a start tag. -/
private theorem ex_inside : Spec.Inside fixAll "<p a=".toList { spot := .lt } (.tag ['p'] " a=".toList) := by
  refine .tag (u := ['<']) (n := ['p']) (t := " a=".toList) (.lt (.nil (o := fixAll)) (by decide)) rfl rfl (by decide)
    (fun _ => ⟨' ', rfl, by decide⟩) ⟨['>'], by decide, [{ key := some ['a'] }], false, ?_⟩
  exact TagRest.unfilled (g := [' ']) (k := ['a']) (w := ['=']) (h := []) (by decide) (by decide)
    ⟨[], rfl, by decide, by decide⟩ (by decide)

example : docOf "<p a=".toList fixAll = some [.elem ['p'] [{ key := some ['a'] }] false none [] (some ['p'])] := by
  have hn : ¬ EndsInName fixAll "<p a=".toList := by
    rintro ⟨S, n, h⟩
    exact absurd (c53_unique.2.2 _ ex_inside _ _ h).2 (by simp)
  refine (c53_doc hn _).2 (.inr ⟨rfl, _, _, _, [{ key := some ['a'] }], ex_inside, by decide, ?_, rfl⟩)
  exact TagHalf.equals (g := [' ']) (k := ['a']) (w := ['=']) (h := []) (by decide) (by decide)
    ⟨[], rfl, by decide, by decide⟩ (by decide)

end Rphtml
