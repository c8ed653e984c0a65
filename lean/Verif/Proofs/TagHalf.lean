import Verif.Spec.Scan
import Verif.Proofs.TagExact

/-!
# The tag machine inside a start tag
-/

namespace Rphtml
open Spec

theorem tagEnds_none {isDoc allowEq : Bool} : ∀ (z : Str) (t : TagSt) {as : List Attr}, tagEnds isDoc allowEq t z = some (as, none) →
    ∃ t', trun isDoc allowEq t z = some t' ∧ t'.m.attrs = as
  | [], t, as, h => by simp only [tagEnds, Option.some.injEq, Prod.mk.injEq, and_true] at h; exact ⟨t, rfl, h⟩
  | c :: z, t, as, h => by
    simp only [tagEnds] at h
    cases hc : tagChar isDoc allowEq t c with
    | cont t1 id =>
      rw [hc] at h
      obtain ⟨t', h1, h2⟩ := tagEnds_none z t1 h
      exact ⟨t', by simp only [trun, hc, h1], h2⟩
    | close m pc mk id => rw [hc] at h; simp only at h; split at h <;> simp at h
    | selfClose => rw [hc] at h; simp only at h; split at h <;> simp at h
    | err k => rw [hc] at h; cases h

/-- The attributes inside a start tag. -/
theorem tagHalf_run {allowEq : Bool} {as : List Attr} {z : Str} (hz : TagHalf allowEq as z) :
    ∀ t, t.handle = .tagWait → t.pc = [] → t.m.codeIn = .wait → tagEnds false allowEq t z = some (t.m.attrs ++ as, none) := by
  induction hz with
  | @gap g hg =>
    intro t h1 h2 h3
    have := Waits.gap (isDoc := false) (allowEq := allowEq) g (t := t) ⟨Or.inl h1, h2⟩ hg []
    rw [List.append_nil] at this
    rw [this]
    simp [tagEnds]
  | @name g k hg hk =>
    intro t h1 h2 h3
    rw [Waits.gap g ⟨Or.inl h1, h2⟩ hg]
    have := Waits.key (isDoc := false) (allowEq := allowEq) (t := { t with handle := if '/' ∈ g then .tagSelfClosing else t.handle }) ⟨by simp only; split; exact Or.inr rfl; exact Or.inl h1, h2⟩ h3 hk []
    rw [List.append_nil] at this
    rw [this]
    simp [tagEnds, addAttrKey_last]
  | @equals g k w y hg hk hw hy =>
    intro t h1 h2 h3
    obtain ⟨t', e, w1, w2, w3, w4⟩ := Waits.keyEquals (isDoc := false) ⟨Or.inl h1, h2⟩ h3 hg hk hw hy []
    rw [List.append_nil] at e
    rw [e]
    simp [tagEnds, w3]
  | @inPlain g k w y v hg hk hw hy hv =>
    intro t h1 h2 h3
    obtain ⟨t', e, w1, w2, w3, _⟩ := Waits.keyEquals (isDoc := false) ⟨Or.inl h1, h2⟩ h3 hg hk hw hy v
    rw [e]
    cases v with
    | nil => exact hv.elim
    | cons c v =>
      obtain ⟨v1, v2, v3, v4, v5, v6⟩ := hv
      have v1 := (not_isWs_mem c).2 v1
      have hcw : ∀ i, tagWaitC false allowEq t' c i = .cont ⟨.attrValue, { t'.m with codeIn := .value }, [c], ' '⟩ i := by
        intro i
        unfold tagWaitC
        simp [v1, v2, v3, v4, v5, w2, w1.2]
      have hc : tagChar false allowEq t' c = .cont ⟨.attrValue, { t'.m with codeIn := .value }, [c], ' '⟩ none := by
        unfold tagChar
        rcases w1.1 with q | q
        · simp only [q]; exact hcw none
        · simp only [q, if_neg v4, if_neg v5]; exact hcw none
      have := tagEnds_plain (isDoc := false) (allowEq := allowEq) v ⟨.attrValue, { t'.m with codeIn := .value }, [c], ' '⟩ rfl rfl v6 []
      rw [List.append_nil] at this
      simp only [tagEnds, hc]
      rw [this]
      simp [tagEnds, w3]
  | @inQuoted g k w y v q hg hk hw hy hv =>
    intro t h1 h2 h3
    obtain ⟨t', e, w1, w2, w3, _⟩ := Waits.keyEquals (isDoc := false) ⟨Or.inl h1, h2⟩ h3 hg hk hw hy ([q] ++ v)
    rw [List.append_assoc, e]
    obtain ⟨hq, hqv⟩ := hv
    have q1 : q ≠ '>' := by rcases hq with rfl | rfl <;> decide
    have q2 : q ≠ '/' := by rcases hq with rfl | rfl <;> decide
    have q3 : q ≠ ' ' := by rcases hq with rfl | rfl <;> decide
    have hcw : ∀ i, tagWaitC false allowEq t' q i = .cont ⟨.attrValue, { t'.m with codeIn := .value }, [], q⟩ i := by
      intro i
      unfold tagWaitC
      rw [if_pos hq, if_neg (by simp [w2]), w1.2]
    have hc : tagChar false allowEq t' q = .cont ⟨.attrValue, { t'.m with codeIn := .value }, [], q⟩ none := by
      unfold tagChar
      rcases w1.1 with r | r
      · simp only [r]; exact hcw none
      · simp only [r, if_neg q1, if_neg q2]; exact hcw none
    simp only [List.cons_append, List.nil_append, tagEnds, hc]
    have key : ∀ (v : Str) (t : TagSt), t.handle = .attrValue → t.mark ≠ ' ' → t.mark ∉ v →
        tagEnds false allowEq t v = some (t.m.attrs, none) := by
      intro v
      induction v with
      | nil => intro t _ _ _; rfl
      | cons c v ih =>
        intro t k1 k2 k3
        have hc : c ≠ t.mark := fun e => k3 (by simp [e])
        have : tagChar false allowEq t c = .cont { t with pc := t.pc ++ [c] } none := by
          unfold tagChar; simp [k1, k2, hc]
        simp only [tagEnds, this]
        exact ih _ k1 k2 (fun e => k3 (by simp only [List.mem_cons]; exact Or.inr e))
    rw [key v _ rfl q3 hqv]
    simp [w3]
  | bare hg hk ho hn _ ih => exact tagEnds_bare hg hk ho hn ih
  | plain hg hk hw hy hv ho _ ih => exact tagEnds_keyPlain hg hk hw hy hv ho ih
  | quoted hg hk hw hy hv _ ih => exact tagEnds_keyQuoted hg hk hw hy hv ih

theorem isGap_prefix {g x y : Str} (h : isGap g) (e : g = x ++ y) : isGap x := fun c hc => h c (by rw [e]; simp [hc])

theorem attrName_prefix {q d : Bool} {k x y : Str} (h : attrName q d k) (e : k = x ++ y) (hx : x ≠ []) : attrName q d x := by
  subst e
  cases x with
  | nil => exact absurd rfl hx
  | cons c x =>
    obtain ⟨k1, k2, k3, k4, k5, k6⟩ := h
    exact ⟨k1, k2, k3, k4, k5, fun z hz => k6 z (List.mem_append_left _ hz)⟩

theorem plainValue_prefix {k x y : Str} (h : plainValue k) (e : k = x ++ y) (hx : x ≠ []) : plainValue x := by
  subst e
  cases x with
  | nil => exact absurd rfl hx
  | cons c x =>
    obtain ⟨k1, k2, k3, k4, k5, k6⟩ := h
    exact ⟨k1, k2, k3, k4, k5, fun z hz => k6 z (List.mem_append_left _ hz)⟩

theorem append_cut {a b x y : Str} (e : a ++ b = x ++ y) : (∃ z, a = x ++ z) ∨ ∃ z, z ≠ [] ∧ x = a ++ z ∧ b = z ++ y := by
  rcases List.append_eq_append_iff.1 e with ⟨z, h1, h2⟩ | ⟨z, h1, h2⟩
  · cases z with
    | nil => exact .inl ⟨[], by rw [h1]; simp⟩
    | cons c z => exact .inr ⟨_, by simp, h1, h2⟩
  · exact .inl ⟨z, h1⟩

theorem half_key {q : Bool} {g k x y : Str} (hg : isGap g) (hk : attrName q false k) (e : g ++ k = x ++ y) : ∃ bs, TagHalf q bs x := by
  rcases append_cut e with ⟨z, e⟩ | ⟨z, hz, rfl, e1⟩
  · exact ⟨_, .gap (isGap_prefix hg e)⟩
  · exact ⟨_, .name hg (attrName_prefix hk e1 hz)⟩

theorem half_equals {q : Bool} {g k w h x y : Str} (hg : isGap g) (hk : attrName q false k) (hw : equals w) (hh : isGap h)
    (e : g ++ k ++ w ++ h = x ++ y) : ∃ bs, TagHalf q bs x := by
  rcases append_cut e with ⟨z, e⟩ | ⟨z, hz, rfl, e1⟩
  · rcases append_cut e with ⟨z, e⟩ | ⟨z', hz, rfl, e1⟩
    · exact half_key hg hk e
    · obtain ⟨u, h1, h2, h3⟩ := hw
      rcases List.eq_nil_or_concat z with rfl | ⟨z, c, rfl⟩
      · rw [List.append_nil] at e1
        subst e1
        have := TagHalf.equals hg hk (w := w) ⟨u, h1, h2, h3⟩ isGap_nil
        rw [List.append_nil] at this
        exact ⟨_, this⟩
      · rw [h1, List.concat_eq_append, ← List.append_assoc] at e1
        have hu := (List.append_inj' e1 rfl).1
        have hz' : isGap z' := isGap_prefix h2 hu
        refine ⟨_, .bare hg hk ?_ ?_ (.gap hz')⟩
        · cases z' with
          | nil => exact absurd rfl hz
          | cons c z' =>
            refine ⟨c, rfl, ?_⟩
            rcases hz' c (by simp) with k | k
            · exact .inl k
            · exact .inr (.inl k)
        · intro a b _ e
          exact absurd (hz' '=' (by rw [e]; simp)) (by decide)
  · exact ⟨_, .equals hg hk hw (isGap_prefix hh e1)⟩

/-- The beginning of the rest of a tag. -/
theorem half_of {allowEq : Bool} {as : List Attr} {sc : Bool} {s : Str} (h : TagRest allowEq false as sc s) :
    ∀ x y, s = x ++ y → y ≠ [] → ∃ bs, TagHalf allowEq bs x := by
  have last : ∀ {a x y : Str} {c : Char}, a ++ [c] = x ++ y → y ≠ [] → ∃ z, a = x ++ z := by
    intro a x y c e hy
    rcases List.eq_nil_or_concat y with rfl | ⟨y, c', rfl⟩
    · exact absurd rfl hy
    · rw [List.concat_eq_append, ← List.append_assoc] at e
      exact ⟨y, (List.append_inj' e rfl).1⟩
  induction h with
  | close hg =>
    intro x y e hy
    obtain ⟨z, e⟩ := last e hy
    exact ⟨_, .gap (isGap_prefix hg e)⟩
  | bare hg hk ho hn _ ih =>
    intro x y e hy
    rcases append_cut e with ⟨z, e⟩ | ⟨z, hz, rfl, e1⟩
    · exact half_key hg hk e
    · obtain ⟨bs, hb⟩ := ih z y e1 hy
      subst e1
      have hhd : (z ++ y).head? = z.head? := by
        cases z with
        | nil => exact absurd rfl hz
        | cons c z => rfl
      refine ⟨_, .bare hg hk ?_ ?_ hb⟩
      · obtain ⟨c, h1, h2⟩ := ho
        exact ⟨c, by rw [← hhd]; exact h1, h2⟩
      · intro a b ha e
        rw [← hhd]
        exact hn a (b ++ y) ha (by rw [e]; simp)
  | unfilled hg hk hw hh =>
    intro x y e hy
    obtain ⟨z, e⟩ := last e hy
    exact half_equals hg hk hw hh e
  | plain hg hk hw hh hv ho _ ih =>
    intro x y e hy
    rcases append_cut e with ⟨z, e⟩ | ⟨z, hz, rfl, e1⟩
    · rcases append_cut e with ⟨z, e⟩ | ⟨z, hz, rfl, e1⟩
      · exact half_equals hg hk hw hh e
      · exact ⟨_, .inPlain hg hk hw hh (plainValue_prefix hv e1 hz)⟩
    · obtain ⟨bs, hb⟩ := ih z y e1 hy
      refine ⟨_, .plain hg hk hw hh hv ?_ hb⟩
      obtain ⟨c, h1, h2⟩ := ho
      subst e1
      cases z with
      | nil => exact absurd rfl hz
      | cons c z => exact ⟨_, h1, h2⟩
  | @quoted g k w h v t q as sc hg hk hw hh hv _ ih =>
    intro x y e hy
    rcases append_cut e with ⟨z, e⟩ | ⟨z, hz, rfl, e1⟩
    · rw [List.append_assoc, List.append_assoc] at e
      rcases append_cut e with ⟨z, e⟩ | ⟨z', hz, rfl, e1⟩
      · exact half_equals hg hk hw hh e
      · cases z' with
        | nil => exact absurd rfl hz
        | cons c z' =>
          simp only [List.cons_append, List.nil_append, List.cons.injEq] at e1
          obtain ⟨rfl, e2⟩ := e1
          rcases append_cut e2 with ⟨z, e3⟩ | ⟨z'', hz2, rfl, e3⟩
          · have := TagHalf.inQuoted hg hk hw hh (v := z') (q := q) ⟨hv.1, fun m => hv.2 (by rw [e3]; simp [m])⟩
            exact ⟨_, by simpa using this⟩
          · have hz'' : z'' = [q] := by
              cases z'' with
              | nil => exact absurd rfl hz2
              | cons a z'' =>
                simp only [List.cons_append, List.cons.injEq] at e3
                have := e3.2
                cases z'' with
                | nil => rw [e3.1]
                | cons b z'' => simp at this
            subst hz''
            have := TagHalf.quoted hg hk hw hh hv (TagHalf.gap (allowEq := allowEq) isGap_nil)
            exact ⟨_, by simpa using this⟩
    · obtain ⟨bs, hb⟩ := ih z y e1 hy
      exact ⟨_, .quoted hg hk hw hh hv hb⟩
  | lone hd => cases hd

end Rphtml
