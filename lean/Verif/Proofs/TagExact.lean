import Verif.Spec.Grammar
import Verif.Proofs.TagRead

/-!
# The tag machine reads exactly the grammar of tags
-/

namespace Rphtml
open Spec

/-- A run inside a tag: the attributes, and if it is a run up to the end of the tag, whether the tag closes itself. -/
def tagEnds (isDoc allowEq : Bool) : TagSt → Str → Option (List Attr × Option Bool)
  | t, [] => some (t.m.attrs, none)
  | t, c :: cs =>
    match tagChar isDoc allowEq t c with
    | .cont t' _ => tagEnds isDoc allowEq t' cs
    | .close m _ _ _ => if cs = [] then some (m.attrs, some false) else none
    | .selfClose => if cs = [] then some (t.m.attrs, some true) else none
    | .err _ => none

variable {isDoc allowEq : Bool}

theorem tagEnds_trun : ∀ (s z : Str) (t t' : TagSt), trun isDoc allowEq t s = some t' →
    tagEnds isDoc allowEq t (s ++ z) = tagEnds isDoc allowEq t' z
  | [], z, t, t', h => by simp only [trun, Option.some.injEq] at h; subst h; rfl
  | c :: s, z, t, t', h => by
    simp only [trun] at h
    simp only [List.cons_append, tagEnds]
    cases hc : tagChar isDoc allowEq t c with
    | cont t1 id => rw [hc] at h; exact tagEnds_trun s z t1 t' h
    | close m pc mk id => rw [hc] at h; cases h
    | selfClose => rw [hc] at h; cases h
    | err k => rw [hc] at h; cases h

/-- Between two pieces of a tag. -/
def Waits (t : TagSt) : Prop := (t.handle = .tagWait ∨ t.handle = .tagSelfClosing) ∧ t.pc = []

theorem Waits.space {t : TagSt} (h : Waits t) {c : Char} (hc : isWs c = true) : tagChar isDoc allowEq t c = .cont t none := by
  obtain ⟨h1, h2, h3, h4, h5, h6⟩ := isWs_not hc
  unfold tagChar tagWaitC
  rcases h.1 with e | e <;> simp [e, h1, h2, h3, h4, h5, hc]

theorem Waits.slash {t : TagSt} (h : Waits t) :
    tagChar isDoc allowEq t '/' = .cont { t with handle := .tagSelfClosing } none := by
  unfold tagChar tagWaitC
  rcases h.1 with e | e
  · simp [e]
  · simp [e]
    rw [← e]

/-- A gap. -/
theorem Waits.gap : ∀ (g : Str) {t : TagSt} (_ : Waits t) (_ : isGap g) (z : Str),
    tagEnds isDoc allowEq t (g ++ z) = tagEnds isDoc allowEq { t with handle := if '/' ∈ g then .tagSelfClosing else t.handle } z
  | [], t, h, hg, z => by simp
  | c :: g, t, h, hg, z => by
    have hg' : isGap g := fun x hx => hg x (by simp [hx])
    simp only [List.cons_append, tagEnds]
    by_cases hc : c = '/'
    · subst hc
      rw [h.slash]
      simp only
      rw [Waits.gap g (t := { t with handle := .tagSelfClosing }) ⟨Or.inr rfl, h.2⟩ hg' z]
      simp
    · have hw : c ∈ ws := (hg c (by simp)).resolve_right hc
      rw [h.space ((isWs_mem c).2 hw)]
      simp only
      rw [Waits.gap g h hg' z]
      simp [Ne.symm hc]

/-- The characters of a name behind its first one. -/
theorem tagEnds_key : ∀ (k : Str) (t : TagSt), t.handle = .attrKey → (∀ x ∈ k, x ∉ ws ∧ x ≠ '=' ∧ x ≠ '>' ∧ x ≠ '/') → ∀ z,
    tagEnds isDoc allowEq t (k ++ z) = tagEnds isDoc allowEq { t with pc := t.pc ++ k } z
  | [], t, h, _, z => by simp
  | c :: k, t, h, hk, z => by
    obtain ⟨h1, h2, h3, h4⟩ := hk c (by simp)
    have h1 := (not_isWs_mem c).2 h1
    have : tagChar isDoc allowEq t c = .cont { t with pc := t.pc ++ [c] } none := by
      unfold tagChar; simp [h, h1, h2, h3, h4]
    simp only [List.cons_append, tagEnds, this]
    rw [tagEnds_key k { t with pc := t.pc ++ [c] } h (fun x hx => hk x (by simp [hx])) z]
    simp

/-- A name. -/
theorem Waits.key {t : TagSt} (h : Waits t) (hc : t.m.codeIn = .wait) {k : Str} (hk : attrName allowEq isDoc k) (z : Str) :
    tagEnds isDoc allowEq t (k ++ z) =
      tagEnds isDoc allowEq ⟨.attrKey, { t.m.addAttrKey with codeIn := .key }, k, t.mark⟩ z := by
  cases k with
  | nil => exact hk.elim
  | cons c k =>
    obtain ⟨h1, h2, h3, h4, h5, h6⟩ := hk
    have h1 := (not_isWs_mem c).2 h1
    have : tagChar isDoc allowEq t c = .cont ⟨.attrKey, { t.m.addAttrKey with codeIn := .key }, [c], t.mark⟩ none := by
      have hw : tagWaitC isDoc allowEq t c none = .cont ⟨.attrKey, { t.m.addAttrKey with codeIn := .key }, [c], t.mark⟩ none := by
        unfold tagWaitC
        simp only [hc, h.2, List.nil_append]
        by_cases e1 : c = '"' ∨ c = '\''
        · rw [if_pos e1, if_pos (by simp)]
          have : isDoc ≠ true := by
            intro q
            rcases e1 with e | e
            · exact (h5 q).1 e
            · exact (h5 q).2 e
          rw [if_neg this]
        · rw [if_neg e1, if_neg h2, if_neg h3]
          by_cases e2 : c = '='
          · rw [if_pos e2, if_neg (by simp), if_pos trivial, h4 e2]; rfl
          · rw [if_neg e2, h1]; simp
      unfold tagChar
      rcases h.1 with e | e
      · simp only [e]; exact hw
      · simp only [e, if_neg h2, if_neg h3]; exact hw
    simp only [List.cons_append, tagEnds, this]
    rw [tagEnds_key k _ rfl h6 z]
    simp

/-- The state after a name. -/
def named (t : TagSt) (ci : TagCodeIn) (h : Handler) : TagSt :=
  { t with handle := h, m := { t.m.nameLast t.pc with codeIn := ci }, pc := [] }

/-- `=` after a name. -/
theorem tagEnds_equals {t : TagSt} (h : t.handle = .attrKey) {w : Str} (hw : equals w) (z : Str) :
    tagEnds isDoc allowEq t (w ++ z) = tagEnds isDoc allowEq (named t .waitValue .tagWait) z := by
  obtain ⟨u, rfl, hu, hs⟩ := hw
  cases u with
  | nil =>
    have : tagChar isDoc allowEq t '=' = .cont (named t .waitValue .tagWait) none := by
      unfold tagChar; simp [h]; rfl
    simp only [List.nil_append, List.cons_append, tagEnds, this]
  | cons c u =>
    have hc : c ≠ '/' := fun e => hs (by rw [e]; rfl)
    have hc' : isWs c = true := (isWs_mem c).2 ((hu c (by simp)).resolve_right hc)
    obtain ⟨h1, h2, h3, h4, h5, h6⟩ := isWs_not hc'
    have e1 : tagChar isDoc allowEq t c = .cont (named t .keyEnd .tagWait) none := by
      unfold tagChar; simp [h, h1, h2, h3, hc']; rfl
    simp only [List.cons_append, tagEnds, e1, List.append_assoc]
    rw [Waits.gap u (t := named t .keyEnd .tagWait) ⟨Or.inl rfl, rfl⟩ (fun x hx => hu x (by simp [hx]))]
    have e2 : tagChar isDoc allowEq { named t .keyEnd .tagWait with handle := if '/' ∈ u then .tagSelfClosing else (named t .keyEnd .tagWait).handle } '=' =
        .cont (named t .waitValue .tagWait) none := by
      unfold tagChar tagWaitC
      by_cases hs : '/' ∈ u <;> simp [hs, named]
    simp only [List.nil_append, tagEnds, e2]

/-- A value without quotes. -/
theorem tagEnds_plain : ∀ (v : Str) (t : TagSt), t.handle = .attrValue → t.mark = ' ' → (∀ x ∈ v, x ∉ ws ∧ x ≠ '>') → ∀ z,
    tagEnds isDoc allowEq t (v ++ z) = tagEnds isDoc allowEq { t with pc := t.pc ++ v } z
  | [], t, h, _, _, z => by simp
  | c :: v, t, h, hm, hv, z => by
    obtain ⟨h1, h2⟩ := hv c (by simp)
    have h1 := (not_isWs_mem c).2 h1
    have : tagChar isDoc allowEq t c = .cont { t with pc := t.pc ++ [c] } none := by
      unfold tagChar; simp [h, hm, h1, h2]
    simp only [List.cons_append, tagEnds, this]
    rw [tagEnds_plain v { t with pc := t.pc ++ [c] } h hm (fun x hx => hv x (by simp [hx])) z]
    simp

/-- A value with quotes. -/
theorem tagEnds_quoted : ∀ (v : Str) (t : TagSt), t.handle = .attrValue → t.mark ≠ ' ' → t.mark ∉ v → ∀ z,
    tagEnds isDoc allowEq t (v ++ [t.mark] ++ z) =
      tagEnds isDoc allowEq ⟨.tagWait, { t.m.valueLast (t.pc ++ v) (some t.mark) with codeIn := .wait }, [], '\x00'⟩ z
  | [], t, h, hm, _, z => by
    have : tagChar isDoc allowEq t t.mark =
        .cont ⟨.tagWait, { t.m.valueLast t.pc (some t.mark) with codeIn := .wait }, [], '\x00'⟩ (t.m.idOf t.pc) := by
      unfold tagChar; simp [h, hm]
    simp only [List.nil_append, List.cons_append, tagEnds, this, List.append_nil]
  | c :: v, t, h, hm, hv, z => by
    have hc : c ≠ t.mark := fun e => hv (by simp [e])
    have : tagChar isDoc allowEq t c = .cont { t with pc := t.pc ++ [c] } none := by
      unfold tagChar; simp [h, hm, hc]
    simp only [List.cons_append, tagEnds, this]
    have := tagEnds_quoted v { t with pc := t.pc ++ [c] } h hm (fun e => hv (by simp [e])) z
    simp only [List.append_assoc, List.cons_append, List.nil_append] at this
    simpa using this

/-- Whether a bare name is followed by whitespace makes no difference unless a `=` follows. -/
theorem tagEnds_keyEnd : ∀ (u : Str) (hd : Handler) (m : TagMeta) (mk : Char), (hd = .tagWait ∨ hd = .tagSelfClosing) →
    (∀ h x, isGap h → u ≠ h ++ '=' :: x) →
    tagEnds isDoc allowEq ⟨hd, { m with codeIn := .keyEnd }, [], mk⟩ u = tagEnds isDoc allowEq ⟨hd, { m with codeIn := .wait }, [], mk⟩ u
  | [], _, _, _, _, _ => rfl
  | c :: u, hd, m, mk, hh, hu => by
    have w1 : Waits ⟨hd, { m with codeIn := .keyEnd }, [], mk⟩ := ⟨hh, rfl⟩
    have w2 : Waits ⟨hd, { m with codeIn := .wait }, [], mk⟩ := ⟨hh, rfl⟩
    simp only [tagEnds]
    by_cases hs : c = '/'
    · subst hs
      rw [w1.slash, w2.slash]
      exact tagEnds_keyEnd u .tagSelfClosing m mk (Or.inr rfl) (fun h x hg e => hu ('/' :: h) x (by
        intro y hy
        rcases List.mem_cons.1 hy with rfl | hy
        · exact Or.inr rfl
        · exact hg y hy) (by rw [e]; rfl))
    by_cases hw : isWs c = true
    · rw [w1.space hw, w2.space hw]
      exact tagEnds_keyEnd u hd m mk hh (fun h x hg e => hu (c :: h) x (by
        intro y hy
        rcases List.mem_cons.1 hy with rfl | hy
        · exact Or.inl ((isWs_mem _).1 hw)
        · exact hg y hy) (by rw [e]; rfl))
    have he : c ≠ '=' := fun e => hu [] u (by intro x hx; cases hx) (by rw [e]; rfl)
    by_cases hg : c = '>'
    · subst hg
      rcases hh with rfl | rfl
      · simp [tagChar, tagWaitC]
      · simp [tagChar]
    have : ∀ i, tagWaitC isDoc allowEq ⟨hd, { m with codeIn := .keyEnd }, [], mk⟩ c i =
        tagWaitC isDoc allowEq ⟨hd, { m with codeIn := .wait }, [], mk⟩ c i := by
      intro i
      unfold tagWaitC
      simp only [if_neg hs, if_neg hw, if_neg he, if_neg hg]
      by_cases q : c = '"' ∨ c = '\''
      · simp only [if_pos q]
        cases isDoc <;> rfl
      · simp only [if_neg q]
        rfl
    have : tagChar isDoc allowEq ⟨hd, { m with codeIn := .keyEnd }, [], mk⟩ c =
        tagChar isDoc allowEq ⟨hd, { m with codeIn := .wait }, [], mk⟩ c := by
      unfold tagChar
      rcases hh with rfl | rfl
      · exact this none
      · simp only [if_neg hs, if_neg hg]; exact this none
    rw [this]

theorem addAttrKey_last (m : TagMeta) : m.addAttrKey.attrs = m.attrs ++ [{ key := some [] }] := rfl

/-- A name and the `=` behind it. -/
theorem Waits.keyEquals {t : TagSt} (h : Waits t) (hc : t.m.codeIn = .wait) {g k w y : Str} (hg : isGap g)
    (hk : attrName allowEq isDoc k) (hw : equals w) (hy : isGap y) (z : Str) :
    ∃ t', tagEnds isDoc allowEq t (g ++ k ++ w ++ y ++ z) = tagEnds isDoc allowEq t' z ∧ Waits t' ∧ t'.m.codeIn = .waitValue ∧
      t'.m.attrs = t.m.attrs ++ [{ key := some k }] ∧ (t'.handle = .tagSelfClosing ↔ '/' ∈ y) := by
  simp only [List.append_assoc]
  rw [h.gap g hg, Waits.key (t := { t with handle := if '/' ∈ g then .tagSelfClosing else t.handle }) ⟨by simp only; split; exact Or.inr rfl; exact h.1, h.2⟩ hc hk, tagEnds_equals rfl hw,
    Waits.gap y (t := named _ .waitValue .tagWait) ⟨Or.inl rfl, rfl⟩ hy]
  refine ⟨_, rfl, ⟨by simp only; split; exact Or.inr rfl; exact Or.inl rfl, rfl⟩, rfl, (nameLast_eq (addAttrKey_last _) k).1, ?_⟩
  simp only
  by_cases q : '/' ∈ y <;> simp [q, named]

/-- A bare name. -/
theorem tagEnds_bare {g k u : Str} {as : List Attr} {r : Option Bool} (hg : isGap g) (hk : attrName allowEq isDoc k) (ho : nameOver u)
    (hn : noValue u) (ih : ∀ t, t.handle = .tagWait → t.pc = [] → t.m.codeIn = .wait →
      tagEnds isDoc allowEq t u = some (t.m.attrs ++ as, r)) :
    ∀ t, t.handle = .tagWait → t.pc = [] → t.m.codeIn = .wait →
      tagEnds isDoc allowEq t (g ++ k ++ u) = some (t.m.attrs ++ { key := some k } :: as, r) := by
  intro t h1 h2 h3
  rw [List.append_assoc, Waits.gap g ⟨Or.inl h1, h2⟩ hg,
    Waits.key (t := { t with handle := if '/' ∈ g then .tagSelfClosing else t.handle }) ⟨by simp only; split; exact Or.inr rfl; exact Or.inl h1, h2⟩ h3 hk]
  obtain ⟨t1, ht1⟩ : ∃ t1, t1 = (⟨.attrKey, { t.m.addAttrKey with codeIn := .key }, k, t.mark⟩ : TagSt) := ⟨_, rfl⟩
  show tagEnds isDoc allowEq ⟨.attrKey, { t.m.addAttrKey with codeIn := .key }, k, t.mark⟩ u = _
  rw [← ht1]
  have hh : t1.handle = .attrKey := by rw [ht1]
  have ha : (t1.m.nameLast t1.pc).attrs = t.m.attrs ++ [{ key := some k }] := by
    rw [ht1]; exact (nameLast_eq (addAttrKey_last _) k).1
  have key := ih (named t1 .wait .tagWait) rfl rfl rfl
  have : tagEnds isDoc allowEq t1 u = tagEnds isDoc allowEq (named t1 .wait .tagWait) u := by
    obtain ⟨c, hc, hcc⟩ := ho
    cases u with
    | nil => cases hc
    | cons c' u =>
      simp only [List.head?_cons, Option.some.injEq] at hc
      subst hc
      rcases hcc with hw | rfl | rfl
      · have hw := (isWs_mem c').2 hw
        obtain ⟨k1, k2, k3, _⟩ := isWs_not hw
        have e1 : tagChar isDoc allowEq t1 c' = .cont (named t1 .keyEnd .tagWait) none := by
          unfold tagChar; simp [hh, k1, k2, k3, hw]; rfl
        have e2 : tagChar isDoc allowEq (named t1 .wait .tagWait) c' = .cont (named t1 .wait .tagWait) none :=
          Waits.space ⟨Or.inl rfl, rfl⟩ hw
        simp only [tagEnds, e1, e2]
        refine tagEnds_keyEnd u .tagWait (t1.m.nameLast t1.pc) t1.mark (Or.inl rfl) fun y x hy e => ?_
        have := hn (c' :: y) x (by
          intro a ha
          rcases List.mem_cons.1 ha with rfl | ha
          · exact Or.inl ((isWs_mem _).1 hw)
          · exact hy a ha) (by rw [e]; rfl)
        simp only [List.head?_cons, Option.some.injEq] at this
        exact k3 this
      · have e1 : tagChar isDoc allowEq t1 '/' = .cont (named t1 .wait .tagSelfClosing) none := by
          unfold tagChar; simp [hh]; rfl
        have e2 : tagChar isDoc allowEq (named t1 .wait .tagWait) '/' = .cont (named t1 .wait .tagSelfClosing) none :=
          Waits.slash ⟨Or.inl rfl, rfl⟩
        simp only [tagEnds, e1, e2]
      · have e1 : tagChar isDoc allowEq t1 '>' = .close { t1.m.nameLast t1.pc with codeIn := .keyEnd } [] t1.mark none := by
          unfold tagChar; simp [hh]
        have e2 : tagChar isDoc allowEq (named t1 .wait .tagWait) '>' = .close (named t1 .wait .tagWait).m [] t1.mark none := by
          unfold tagChar tagWaitC; simp [named]
        simp only [tagEnds, e1, e2]
        rfl
  rw [this, key]
  show some ((t1.m.nameLast t1.pc).attrs ++ as, r) = _
  rw [ha]; simp

/-- A name and a value without quotes. -/
theorem tagEnds_keyPlain {g k w y v u : Str} {as : List Attr} {r : Option Bool} (hg : isGap g) (hk : attrName allowEq isDoc k)
    (hw : equals w) (hy : isGap y) (hv : plainValue v) (ho : valueOver u) (ih : ∀ t, t.handle = .tagWait → t.pc = [] → t.m.codeIn = .wait →
      tagEnds isDoc allowEq t u = some (t.m.attrs ++ as, r)) :
    ∀ t, t.handle = .tagWait → t.pc = [] → t.m.codeIn = .wait →
      tagEnds isDoc allowEq t (g ++ k ++ w ++ y ++ v ++ u) = some (t.m.attrs ++ { key := some k, value := some v } :: as, r) := by
  intro t h1 h2 h3
  obtain ⟨t', e, w1, w2, w3, _⟩ := Waits.keyEquals (isDoc := isDoc) ⟨Or.inl h1, h2⟩ h3 hg hk hw hy (v ++ u)
  rw [List.append_assoc, e]
  cases v with
  | nil => exact hv.elim
  | cons c v =>
    obtain ⟨v1, v2, v3, v4, v5, v6⟩ := hv
    have v1 := (not_isWs_mem c).2 v1
    have hcw : ∀ i, tagWaitC isDoc allowEq t' c i = .cont ⟨.attrValue, { t'.m with codeIn := .value }, [c], ' '⟩ i := by
      intro i
      unfold tagWaitC
      simp [v1, v2, v3, v4, v5, w2, w1.2]
    have hc : tagChar isDoc allowEq t' c = .cont ⟨.attrValue, { t'.m with codeIn := .value }, [c], ' '⟩ none := by
      unfold tagChar
      rcases w1.1 with q | q
      · simp only [q]; exact hcw none
      · simp only [q, if_neg v4, if_neg v5]; exact hcw none
    simp only [List.cons_append, tagEnds, hc]
    rw [tagEnds_plain v _ rfl rfl v6 u]
    simp only [List.cons_append, List.nil_append]
    obtain ⟨c', hc', hcc⟩ := ho
    cases u with
    | nil => cases hc'
    | cons c'' u =>
      simp only [List.head?_cons, Option.some.injEq] at hc'
      subst hc'
      have ha : ∀ (ci : TagCodeIn), (({ t'.m with codeIn := ci } : TagMeta).valueLast (c :: v) none).attrs =
          t.m.attrs ++ [{ key := some k, value := some (c :: v) }] := fun ci =>
        (valueLast_eq (m := { t'.m with codeIn := ci }) w3 (c :: v) none).1
      rcases hcc with hw | rfl
      · have hw := (isWs_mem c'').2 hw
        have k2 := (isWs_not hw).2.1
        have key := ih ⟨.tagWait, { ({ t'.m with codeIn := .value } : TagMeta).valueLast (c :: v) none with codeIn := .wait }, [], '\x00'⟩ rfl rfl rfl
        simp only [tagEnds, tagChar, k2, hw, and_false, if_true, if_false]
        simp only [tagEnds, Waits.space (isDoc := isDoc) (allowEq := allowEq) (t := ⟨.tagWait, { ({ t'.m with codeIn := .value } : TagMeta).valueLast (c :: v) none with codeIn := .wait }, [], '\x00'⟩) ⟨Or.inl rfl, rfl⟩ hw] at key
        rw [key, ha]; simp
      · have key := ih ⟨.tagWait, { ({ t'.m with codeIn := .value } : TagMeta).valueLast (c :: v) none with codeIn := .wait }, [], '\x00'⟩ rfl rfl rfl
        simp only [tagEnds, tagChar, true_and, if_true]
        simp only [tagEnds, tagChar, tagWaitC] at key
        simp only [show ¬ (('>' : Char) = '"' ∨ ('>' : Char) = '\'') by decide, if_false, if_true] at key
        rw [ha] at key ⊢
        rw [key]; simp

/-- A name and a value with quotes. -/
theorem tagEnds_keyQuoted {g k w y v u : Str} {q : Char} {as : List Attr} {r : Option Bool} (hg : isGap g) (hk : attrName allowEq isDoc k)
    (hw : equals w) (hy : isGap y) (hv : quotedValue q v) (ih : ∀ t, t.handle = .tagWait → t.pc = [] → t.m.codeIn = .wait →
      tagEnds isDoc allowEq t u = some (t.m.attrs ++ as, r)) :
    ∀ t, t.handle = .tagWait → t.pc = [] → t.m.codeIn = .wait →
      tagEnds isDoc allowEq t (g ++ k ++ w ++ y ++ [q] ++ v ++ [q] ++ u) = some (t.m.attrs ++ { key := some k, value := some v, quote := some q } :: as, r) := by
  intro t h1 h2 h3
  obtain ⟨t', e, w1, w2, w3, _⟩ := Waits.keyEquals (isDoc := isDoc) ⟨Or.inl h1, h2⟩ h3 hg hk hw hy ([q] ++ v ++ [q] ++ u)
  have : g ++ k ++ w ++ y ++ [q] ++ v ++ [q] ++ u = g ++ k ++ w ++ y ++ ([q] ++ v ++ [q] ++ u) := by simp
  rw [this, e]
  obtain ⟨hq, hqv⟩ := hv
  have q1 : q ≠ '>' := by rcases hq with rfl | rfl <;> decide
  have q2 : q ≠ '/' := by rcases hq with rfl | rfl <;> decide
  have q3 : q ≠ ' ' := by rcases hq with rfl | rfl <;> decide
  have hcw : ∀ i, tagWaitC isDoc allowEq t' q i = .cont ⟨.attrValue, { t'.m with codeIn := .value }, [], q⟩ i := by
    intro i
    unfold tagWaitC
    rw [if_pos hq, if_neg (by simp [w2]), w1.2]
  have hc : tagChar isDoc allowEq t' q = .cont ⟨.attrValue, { t'.m with codeIn := .value }, [], q⟩ none := by
    unfold tagChar
    rcases w1.1 with r' | r'
    · simp only [r']; exact hcw none
    · simp only [r', if_neg q1, if_neg q2]; exact hcw none
  simp only [List.cons_append, List.nil_append, tagEnds, hc]
  have := tagEnds_quoted (isDoc := isDoc) (allowEq := allowEq) v ⟨.attrValue, { t'.m with codeIn := .value }, [], q⟩ rfl q3 hqv u
  simp only at this
  rw [this]
  rw [ih _ rfl rfl rfl]
  simp only [List.nil_append]
  have ha := (valueLast_eq (m := { t'.m with codeIn := .value }) w3 v (some q)).1
  rw [ha]; simp

/-- **What the grammar of tags allows is read.** -/
theorem tagEnds_of {as : List Attr} {sc : Bool} {z : Str} (hz : TagRest allowEq isDoc as sc z) :
    ∀ t, t.handle = .tagWait → t.pc = [] → t.m.codeIn = .wait →
      tagEnds isDoc allowEq t z = some (t.m.attrs ++ as, some sc) := by
  induction hz with
  | @close g hg =>
    intro t h1 h2 h3
    rw [Waits.gap g ⟨Or.inl h1, h2⟩ hg]
    by_cases q : '/' ∈ g
    · simp [q, tagEnds, tagChar]
    · simp [q, tagEnds, tagChar, h1, tagWaitC]
  | bare hg hk ho hn _ ih => exact tagEnds_bare hg hk ho hn ih
  | @unfilled g k w y hg hk hw hy =>
    intro t h1 h2 h3
    obtain ⟨t', e, w1, w2, w3, w4⟩ := Waits.keyEquals (isDoc := isDoc) ⟨Or.inl h1, h2⟩ h3 hg hk hw hy ['>']
    rw [e]
    by_cases q : '/' ∈ y
    · simp [q, tagEnds, tagChar, w4.2 q, w3]
    · have : t'.handle = .tagWait := w1.1.resolve_right fun e => q (w4.1 e)
      simp [q, tagEnds, tagChar, this, tagWaitC, w3]
  | plain hg hk hw hy hv ho _ ih => exact tagEnds_keyPlain hg hk hw hy hv ho ih
  | quoted hg hk hw hy hv _ ih => exact tagEnds_keyQuoted hg hk hw hy hv ih
  | @lone g v u q as sc hd hg hv _ ih =>
    intro t h1 h2 h3
    have : g ++ [q] ++ v ++ [q] ++ u = g ++ ([q] ++ v ++ [q] ++ u) := by simp
    rw [this, Waits.gap g ⟨Or.inl h1, h2⟩ hg]
    obtain ⟨t', ht'⟩ : ∃ t', t' = { t with handle := if '/' ∈ g then .tagSelfClosing else t.handle } := ⟨_, rfl⟩
    rw [← ht']
    have w1 : Waits t' := by
      rw [ht']; exact ⟨by simp only; split; exact Or.inr rfl; exact Or.inl h1, h2⟩
    have w2 : t'.m = t.m := by rw [ht']
    obtain ⟨hq, hqv⟩ := hv
    have q1 : q ≠ '>' := by rcases hq with rfl | rfl <;> decide
    have q2 : q ≠ '/' := by rcases hq with rfl | rfl <;> decide
    have q3 : q ≠ ' ' := by rcases hq with rfl | rfl <;> decide
    have hcw : ∀ i, tagWaitC isDoc allowEq t' q i = .cont ⟨.attrValue, { t.m.addAttrValue (some q) with codeIn := .value }, [], q⟩ i := by
      intro i
      unfold tagWaitC
      rw [if_pos hq, if_pos (by rw [w2, h3]; simp), w1.2, w2, if_pos hd]
    have hc : tagChar isDoc allowEq t' q = .cont ⟨.attrValue, { t.m.addAttrValue (some q) with codeIn := .value }, [], q⟩ none := by
      unfold tagChar
      rcases w1.1 with r | r
      · simp only [r]; exact hcw none
      · simp only [r, if_neg q1, if_neg q2]; exact hcw none
    simp only [List.cons_append, List.nil_append, tagEnds, hc]
    have := tagEnds_quoted (isDoc := isDoc) (allowEq := allowEq) v ⟨.attrValue, { t.m.addAttrValue (some q) with codeIn := .value }, [], q⟩ rfl q3 hqv u
    simp only at this
    rw [this]
    rw [ih _ rfl rfl rfl]
    simp only [List.nil_append]
    have ha := (valueLast_eq (m := { t.m.addAttrValue (some q) with codeIn := .value }) (init := t.m.attrs) rfl v (some q)).1
    rw [ha]; simp

/-! ## Only what the grammar of tags allows is read -/

/-- What has been read since the end of the last finished attribute, in each state of the tag machine. -/
def Piece (isDoc allowEq : Bool) (t : TagSt) (init : List Attr) (x : Str) : Prop :=
  match t.handle with
  | .tagWait | .tagSelfClosing =>
    t.pc = [] ∧
    match t.m.codeIn with
    | .wait => t.m.attrs = init ∧ isGap x ∧ (t.handle = .tagSelfClosing ↔ '/' ∈ x)
    | .keyEnd => ∃ g k c u, t.m.attrs = init ++ [{ key := some k }] ∧ x = g ++ k ++ c :: u ∧ isGap g ∧ attrName allowEq isDoc k ∧
        c ∈ ws ∧ isGap u ∧ (t.handle = .tagSelfClosing ↔ '/' ∈ u)
    | .waitValue => ∃ g k w h, t.m.attrs = init ++ [{ key := some k }] ∧ x = g ++ k ++ w ++ h ∧ isGap g ∧
        attrName allowEq isDoc k ∧ equals w ∧ isGap h ∧ (t.handle = .tagSelfClosing ↔ '/' ∈ h)
    | _ => False
  | .attrKey => ∃ g, t.m.attrs = init ++ [{ key := some [] }] ∧ x = g ++ t.pc ∧ isGap g ∧ attrName allowEq isDoc t.pc
  | .attrValue =>
    (t.mark = ' ' ∧ ∃ g k w h, t.m.attrs = init ++ [{ key := some k }] ∧ x = g ++ k ++ w ++ h ++ t.pc ∧ isGap g ∧
      attrName allowEq isDoc k ∧ equals w ∧ isGap h ∧ plainValue t.pc) ∨
    (quotedValue t.mark t.pc ∧ ((∃ g k w h, t.m.attrs = init ++ [{ key := some k }] ∧
        x = g ++ k ++ w ++ h ++ [t.mark] ++ t.pc ∧ isGap g ∧ attrName allowEq isDoc k ∧ equals w ∧ isGap h) ∨
      (isDoc = true ∧ ∃ g q, t.m.attrs = init ++ [{ value := some [], quote := q }] ∧ x = g ++ [t.mark] ++ t.pc ∧ isGap g)))
  | _ => False

theorem isGap_nil : isGap [] := fun _ hx => nomatch hx

theorem isGap_snoc {g : Str} {c : Char} (hg : isGap g) (hc : c ∈ ws ∨ c = '/') : isGap (g ++ [c]) := by
  intro x hx
  rcases List.mem_append.1 hx with hx | hx
  · exact hg x hx
  · simp only [List.mem_singleton] at hx; rw [hx]; exact hc

theorem attrName_one {c : Char} (h1 : isWs c = false) (h2 : c ≠ '>') (h3 : c ≠ '/') (h4 : c = '=' → allowEq = true)
    (h5 : isDoc = true → c ≠ '"' ∧ c ≠ '\'') : attrName allowEq isDoc [c] :=
  ⟨(not_isWs_mem c).1 h1, h2, h3, h4, h5, fun x hx => by cases hx⟩

theorem attrName_more {k : Str} {c : Char} (hk : attrName allowEq isDoc k) (h1 : isWs c = false) (h2 : c ≠ '=') (h3 : c ≠ '>')
    (h4 : c ≠ '/') : attrName allowEq isDoc (k ++ [c]) := by
  cases k with
  | nil => exact hk.elim
  | cons d k =>
    obtain ⟨k1, k2, k3, k4, k5, k6⟩ := hk
    refine ⟨k1, k2, k3, k4, k5, ?_⟩
    intro x hx
    rcases List.mem_append.1 hx with hx | hx
    · exact k6 x hx
    · simp only [List.mem_singleton] at hx; rw [hx]; exact ⟨(not_isWs_mem c).1 h1, h2, h3, h4⟩

theorem plainValue_more {v : Str} {c : Char} (hv : plainValue v) (h1 : isWs c = false) (h2 : c ≠ '>') : plainValue (v ++ [c]) := by
  cases v with
  | nil => exact hv.elim
  | cons d v =>
    obtain ⟨k1, k2, k3, k4, k5, k6⟩ := hv
    refine ⟨k1, k2, k3, k4, k5, ?_⟩
    intro x hx
    rcases List.mem_append.1 hx with hx | hx
    · exact k6 x hx
    · simp only [List.mem_singleton] at hx; rw [hx]; exact ⟨(not_isWs_mem c).1 h1, h2⟩

/-- The first character behind a gap. -/
theorem gap_first : ∀ {g h : Str} {c d : Char} {u v : Str}, isGap g → isGap h → ¬ (c ∈ ws ∨ c = '/') → ¬ (d ∈ ws ∨ d = '/') →
    g ++ c :: u = h ++ d :: v → c = d
  | [], [], c, d, u, v, _, _, _, _, e => by simpa using (List.cons.inj e).1
  | [], b :: h, c, d, u, v, _, hh, hc, _, e => absurd (hh b (by simp)) (by rw [← (List.cons.inj e).1]; exact hc)
  | a :: g, [], c, d, u, v, hg, _, _, hd, e => absurd (hg a (by simp)) (by rw [(List.cons.inj e).1]; exact hd)
  | a :: g, b :: h, c, d, u, v, hg, hh, hc, hd, e =>
    gap_first (fun x hx => hg x (by simp [hx])) (fun x hx => hh x (by simp [hx])) hc hd (List.cons.inj e).2

theorem noValue_of {g : Str} {c : Char} {u : Str} (hg : isGap g) (hc : ¬ (c ∈ ws ∨ c = '/')) (he : c ≠ '=') : noValue (g ++ c :: u) :=
  fun _ _ hh e => absurd (gap_first hg hh hc (by decide) e) he

theorem nameOver_gap {g : Str} {c : Char} (hg : isGap g) (hc : c = '>') : nameOver (g ++ [c]) := by
  cases g with
  | nil => exact ⟨c, rfl, Or.inr (Or.inr hc)⟩
  | cons d g =>
    refine ⟨d, rfl, ?_⟩
    rcases hg d (by simp) with h | h
    · exact Or.inl h
    · exact Or.inr (Or.inl h)

theorem Waits.gt {t : TagSt} (h : Waits t) (z : Str) :
    tagEnds isDoc allowEq t ('>' :: z) = if z = [] then some (t.m.attrs, some (decide (t.handle = .tagSelfClosing))) else none := by
  simp only [tagEnds, tagChar, tagWaitC]
  rcases h.1 with e | e
  · simp [e]
  · simp [e]

theorem Waits.other {t : TagSt} (h : Waits t) {c : Char} (h1 : c ≠ '>') (h2 : c ≠ '/') :
    tagChar isDoc allowEq t c = tagWaitC isDoc allowEq t c none := by
  unfold tagChar
  rcases h.1 with e | e
  · simp [e]
  · simp [e, h1, h2]

/-- A new piece begins in a waiting state. -/
theorem Waits.begin {t : TagSt} (h : Waits t) (hc : t.m.codeIn = .wait ∨ t.m.codeIn = .keyEnd) {c : Char} (h1 : c ≠ '>')
    (h2 : c ≠ '/') (h3 : isWs c = false) (h4 : c = '=' → t.m.codeIn = .wait) {g : Str} (hg : isGap g) :
    (∃ t' id, tagChar isDoc allowEq t c = .cont t' id ∧ Piece isDoc allowEq t' t.m.attrs (g ++ [c])) ∨
      ∃ k, tagChar isDoc allowEq t c = .err k := by
  rw [h.other h1 h2]
  unfold tagWaitC
  have hnv : t.m.codeIn ≠ .waitValue := by rcases hc with e | e <;> rw [e] <;> simp
  by_cases hq : c = '"' ∨ c = '\''
  · rw [if_pos hq, if_pos hnv]
    cases isDoc with
    | true =>
      refine Or.inl ⟨_, _, by rw [if_pos rfl], ?_⟩
      refine Or.inr ⟨⟨hq, by simp [h.2]⟩, Or.inr ⟨rfl, g, some c, rfl, by simp [h.2], hg⟩⟩
    | false =>
      refine Or.inl ⟨_, _, by rw [if_neg (by decide)], ?_⟩
      refine ⟨g, rfl, by rw [h.2]; simp, hg, ?_⟩
      rw [h.2]
      exact attrName_one h3 h1 h2 (fun e => by rcases hq with q | q <;> rw [q] at e <;> cases e) (fun e => by cases e)
  rw [if_neg hq, if_neg h1, if_neg h2]
  by_cases he : c = '='
  · rw [if_pos he, if_neg (by rw [h4 he]; simp), if_pos (h4 he)]
    cases allowEq with
    | false => exact Or.inr ⟨_, by simp; rfl⟩
    | true =>
      refine Or.inl ⟨_, _, by simp only [Bool.not_true, Bool.false_eq_true, if_false]; rfl, ?_⟩
      refine ⟨g, rfl, by rw [h.2]; simp, hg, ?_⟩
      rw [h.2]
      exact attrName_one h3 h1 h2 (fun _ => rfl) (fun _ => ⟨fun e => hq (Or.inl e), fun e => hq (Or.inr e)⟩)
  rw [if_neg he, if_neg (by rw [h3]; decide), if_neg hnv]
  refine Or.inl ⟨_, _, rfl, ?_⟩
  refine ⟨g, rfl, by rw [h.2]; simp, hg, ?_⟩
  rw [h.2]
  exact attrName_one h3 h1 h2 (fun e => absurd e he) (fun _ => ⟨fun e => hq (Or.inl e), fun e => hq (Or.inr e)⟩)

/-- **Only what the grammar of tags allows is read.** -/
theorem tagEnds_sound : ∀ (z : Str) (t : TagSt) (init : List Attr) (x : Str), Piece isDoc allowEq t init x →
    ∀ {bs sc}, tagEnds isDoc allowEq t z = some (bs, some sc) → ∃ as, bs = init ++ as ∧ TagRest allowEq isDoc as sc (x ++ z)
  | [], t, init, x, hp, bs, sc, h => by cases h
  | c :: z, t, init, x, hp, bs, sc, h => by
    have hwait : (t.handle = .tagWait ∨ t.handle = .tagSelfClosing) →
        ∃ as, bs = init ++ as ∧ TagRest allowEq isDoc as sc (x ++ c :: z) := by
      intro hh
      have hp : t.pc = [] ∧
          match t.m.codeIn with
          | .wait => t.m.attrs = init ∧ isGap x ∧ (t.handle = .tagSelfClosing ↔ '/' ∈ x)
          | .keyEnd => ∃ g k c u, t.m.attrs = init ++ [{ key := some k }] ∧ x = g ++ k ++ c :: u ∧ isGap g ∧ attrName allowEq isDoc k ∧
              c ∈ ws ∧ isGap u ∧ (t.handle = .tagSelfClosing ↔ '/' ∈ u)
          | .waitValue => ∃ g k w h, t.m.attrs = init ++ [{ key := some k }] ∧ x = g ++ k ++ w ++ h ∧ isGap g ∧
              attrName allowEq isDoc k ∧ equals w ∧ isGap h ∧ (t.handle = .tagSelfClosing ↔ '/' ∈ h)
          | _ => False := by
        unfold Piece at hp
        rcases hh with e | e <;> simp only [e] at hp ⊢ <;> exact hp
      obtain ⟨hpc, hp⟩ := hp
      have hw : Waits t := ⟨hh, hpc⟩
      cases hci : t.m.codeIn with
      | wait =>
        simp only [hci] at hp
        obtain ⟨p1, p2, p3⟩ := hp
        by_cases c1 : c = '>'
        · subst c1
          rw [hw.gt] at h
          split at h
          · rename_i hz
            subst hz
            simp only [Option.some.injEq, Prod.mk.injEq] at h
            refine ⟨[], by rw [← h.1, p1]; simp, ?_⟩
            rw [← h.2]
            have := TagRest.close (allowEq := allowEq) (inDoctype := isDoc) p2
            simp only [p3]
            exact this
          · cases h
        by_cases c2 : c = '/'
        · subst c2
          simp only [tagEnds, hw.slash] at h
          obtain ⟨as, a1, a2⟩ := tagEnds_sound z { t with handle := .tagSelfClosing } init (x ++ ['/']) (by
            unfold Piece
            simp only [hci]
            exact ⟨hpc, p1, isGap_snoc p2 (Or.inr rfl), by simp⟩) h
          exact ⟨as, a1, by simpa using a2⟩
        by_cases c3 : isWs c = true
        · simp only [tagEnds, hw.space c3] at h
          obtain ⟨as, a1, a2⟩ := tagEnds_sound z t init (x ++ [c]) (by
            have hpp : t.m.attrs = init ∧ isGap (x ++ [c]) ∧ (t.handle = .tagSelfClosing ↔ '/' ∈ x ++ [c]) :=
              ⟨p1, isGap_snoc p2 (Or.inl ((isWs_mem c).1 c3)), by simp [p3, Ne.symm c2]⟩
            unfold Piece
            rcases hh with e | e <;> simp only [e, hci] at hpp ⊢ <;> exact ⟨hpc, hpp⟩) h
          exact ⟨as, a1, by simpa using a2⟩
        rcases hw.begin (isDoc := isDoc) (allowEq := allowEq) (Or.inl hci) c1 c2 (by simpa using c3) (fun _ => hci) p2 with
          ⟨t', id, e1, e2⟩ | ⟨k, e1⟩
        · simp only [tagEnds, e1] at h
          obtain ⟨as, a1, a2⟩ := tagEnds_sound z t' _ _ e2 h
          exact ⟨as, by rw [a1, p1], by simpa using a2⟩
        · simp only [tagEnds, e1] at h; cases h
      | keyEnd =>
        simp only [hci] at hp
        obtain ⟨g, k, d, u, p1, p2, p3, p4, p5, p6, p7⟩ := hp
        have hdu : isGap (d :: u) := by
          intro y hy
          rcases List.mem_cons.1 hy with rfl | hy
          · exact Or.inl p5
          · exact p6 y hy
        have hds : d ≠ '/' := (isWs_not ((isWs_mem d).2 p5)).2.2.1
        by_cases c1 : c = '>'
        · subst c1
          rw [hw.gt] at h
          split at h
          · rename_i hz
            subst hz
            simp only [Option.some.injEq, Prod.mk.injEq] at h
            refine ⟨[{ key := some k }], by rw [← h.1, p1], ?_⟩
            rw [← h.2, p2]
            have := TagRest.bare (allowEq := allowEq) (inDoctype := isDoc) p3 p4 (nameOver_gap hdu rfl)
              (noValue_of hdu (by decide) (by decide)) (.close hdu)
            simp only [List.mem_cons, Ne.symm hds, false_or] at this
            simp only [p7]
            simpa using this
          · cases h
        by_cases c2 : c = '/'
        · subst c2
          simp only [tagEnds, hw.slash] at h
          obtain ⟨as, a1, a2⟩ := tagEnds_sound z { t with handle := .tagSelfClosing } init (x ++ ['/']) (by
            unfold Piece
            simp only [hci]
            exact ⟨hpc, g, k, d, u ++ ['/'], p1, by rw [p2]; simp, p3, p4, p5, isGap_snoc p6 (Or.inr rfl), by simp⟩) h
          exact ⟨as, a1, by simpa using a2⟩
        by_cases c3 : isWs c = true
        · simp only [tagEnds, hw.space c3] at h
          obtain ⟨as, a1, a2⟩ := tagEnds_sound z t init (x ++ [c]) (by
            have hpp : ∃ g k d u, t.m.attrs = init ++ [{ key := some k }] ∧ x ++ [c] = g ++ k ++ d :: u ∧ isGap g ∧
                attrName allowEq isDoc k ∧ d ∈ ws ∧ isGap u ∧ (t.handle = .tagSelfClosing ↔ '/' ∈ u) :=
              ⟨g, k, d, u ++ [c], p1, by rw [p2]; simp, p3, p4, p5, isGap_snoc p6 (Or.inl ((isWs_mem c).1 c3)), by simp [p7, Ne.symm c2]⟩
            unfold Piece
            rcases hh with e | e <;> simp only [e, hci] at hpp ⊢ <;> exact ⟨hpc, hpp⟩) h
          exact ⟨as, a1, by simpa using a2⟩
        by_cases c4 : c = '='
        · subst c4
          have e1 : tagChar isDoc allowEq t '=' = .cont { t with handle := .tagWait, m := { t.m with codeIn := .waitValue } } none := by
            rw [hw.other (by decide) (by decide)]; unfold tagWaitC; simp [hci]
          simp only [tagEnds, e1] at h
          obtain ⟨as, a1, a2⟩ := tagEnds_sound z _ init (x ++ ['=']) (by
            unfold Piece
            exact ⟨hpc, g, k, d :: u ++ ['='], [], p1, by rw [p2]; simp, p3, p4, ⟨d :: u, rfl, hdu, by simpa using hds⟩,
              isGap_nil, by simp⟩) h
          exact ⟨as, a1, by simpa using a2⟩
        rcases hw.begin (isDoc := isDoc) (allowEq := allowEq) (Or.inr hci) c1 c2 (by simpa using c3) (fun e => absurd e c4) hdu with
          ⟨t', id, e1, e2⟩ | ⟨k, e1⟩
        · simp only [tagEnds, e1] at h
          obtain ⟨as, a1, a2⟩ := tagEnds_sound z t' _ _ e2 h
          refine ⟨{ key := some k } :: as, by rw [a1, p1]; simp, ?_⟩
          rw [p2]
          have hcg : ¬ (c ∈ ws ∨ c = '/') := by
            rintro (q | q)
            · exact c3 ((isWs_mem c).2 q)
            · exact c2 q
          have := TagRest.bare (g := g) p3 p4 (t := d :: u ++ c :: z) ⟨d, rfl, Or.inl p5⟩ (noValue_of hdu hcg c4) (by simpa using a2)
          simpa using this
        · simp only [tagEnds, e1] at h; cases h
      | waitValue =>
        simp only [hci] at hp
        obtain ⟨g, k, w, y, p1, p2, p3, p4, p5, p6, p7⟩ := hp
        by_cases c1 : c = '>'
        · subst c1
          rw [hw.gt] at h
          split at h
          · rename_i hz
            subst hz
            simp only [Option.some.injEq, Prod.mk.injEq] at h
            refine ⟨[{ key := some k }], by rw [← h.1, p1], ?_⟩
            rw [← h.2, p2]
            have := TagRest.unfilled (allowEq := allowEq) (inDoctype := isDoc) p3 p4 p5 p6
            simp only [p7]
            exact this
          · cases h
        by_cases c2 : c = '/'
        · subst c2
          simp only [tagEnds, hw.slash] at h
          obtain ⟨as, a1, a2⟩ := tagEnds_sound z { t with handle := .tagSelfClosing } init (x ++ ['/']) (by
            unfold Piece
            simp only [hci]
            exact ⟨hpc, g, k, w, y ++ ['/'], p1, by rw [p2]; simp, p3, p4, p5, isGap_snoc p6 (Or.inr rfl), by simp⟩) h
          exact ⟨as, a1, by simpa using a2⟩
        by_cases c3 : isWs c = true
        · simp only [tagEnds, hw.space c3] at h
          obtain ⟨as, a1, a2⟩ := tagEnds_sound z t init (x ++ [c]) (by
            have hpp : ∃ g k w y, t.m.attrs = init ++ [{ key := some k }] ∧ x ++ [c] = g ++ k ++ w ++ y ∧ isGap g ∧
                attrName allowEq isDoc k ∧ equals w ∧ isGap y ∧ (t.handle = .tagSelfClosing ↔ '/' ∈ y) :=
              ⟨g, k, w, y ++ [c], p1, by rw [p2]; simp, p3, p4, p5, isGap_snoc p6 (Or.inl ((isWs_mem c).1 c3)), by simp [p7, Ne.symm c2]⟩
            unfold Piece
            rcases hh with e | e <;> simp only [e, hci] at hpp ⊢ <;> exact ⟨hpc, hpp⟩) h
          exact ⟨as, a1, by simpa using a2⟩
        by_cases c4 : c = '"' ∨ c = '\''
        · have e1 : tagChar isDoc allowEq t c = .cont { handle := .attrValue, m := { t.m with codeIn := .value }, pc := t.pc, mark := c } none := by
            rw [hw.other c1 c2]; unfold tagWaitC; rw [if_pos c4, if_neg (by simp [hci])]
          simp only [tagEnds, e1] at h
          obtain ⟨as, a1, a2⟩ := tagEnds_sound z _ init (x ++ [c]) (by
            unfold Piece
            exact Or.inr ⟨⟨c4, by simp [hpc]⟩, Or.inl ⟨g, k, w, y, p1, by rw [p2]; simp [hpc], p3, p4, p5, p6⟩⟩) h
          exact ⟨as, a1, by simpa using a2⟩
        · have e1 : tagChar isDoc allowEq t c = .cont { handle := .attrValue, m := { t.m with codeIn := .value }, pc := t.pc ++ [c], mark := ' ' } none := by
            rw [hw.other c1 c2]; unfold tagWaitC
            rw [if_neg c4, if_neg c1, if_neg c2, if_neg c3, hci]
            by_cases c5 : c = '='
            · rw [if_pos c5]; simp
            · rw [if_neg c5]; simp
          simp only [tagEnds, e1] at h
          obtain ⟨as, a1, a2⟩ := tagEnds_sound z _ init (x ++ [c]) (by
            unfold Piece
            refine Or.inl ⟨rfl, g, k, w, y, p1, by rw [p2]; simp [hpc], p3, p4, p5, p6, ?_⟩
            rw [hpc]
            exact ⟨fun q => c3 ((isWs_mem c).2 q), fun q => c4 (Or.inl q), fun q => c4 (Or.inr q), c1, c2, fun x hx => by cases hx⟩) h
          exact ⟨as, a1, by simpa using a2⟩
      | _ => simp only [hci] at hp
    cases hh : t.handle with
    | tagWait => exact hwait (Or.inl hh)
    | tagSelfClosing => exact hwait (Or.inr hh)
    | attrKey =>
      unfold Piece at hp
      simp only [hh] at hp
      obtain ⟨g, p1, p2, p3, p4⟩ := hp
      have ha := (nameLast_eq p1 t.pc).1
      by_cases c1 : c = '='
      · subst c1
        have e1 : tagChar isDoc allowEq t '=' = .cont (named t .waitValue .tagWait) none := by
          unfold tagChar; simp [hh]; rfl
        simp only [tagEnds, e1] at h
        obtain ⟨as, a1, a2⟩ := tagEnds_sound z _ init (x ++ ['=']) (by
          unfold Piece
          exact ⟨rfl, g, t.pc, ['='], [], ha, by rw [p2]; simp, p3, p4, ⟨[], rfl, isGap_nil, by simp⟩,
            isGap_nil, by simp [named]⟩) h
        exact ⟨as, a1, by simpa using a2⟩
      by_cases c2 : c = '>'
      · subst c2
        have e1 : tagChar isDoc allowEq t '>' = .close { t.m.nameLast t.pc with codeIn := .keyEnd } [] t.mark none := by
          unfold tagChar; simp [hh]
        simp only [tagEnds, e1] at h
        split at h
        · rename_i hz
          subst hz
          simp only [Option.some.injEq, Prod.mk.injEq] at h
          refine ⟨[{ key := some t.pc }], by rw [← h.1, ha], ?_⟩
          rw [← h.2, p2]
          have hg0 := isGap_nil
          exact TagRest.bare p3 p4 (nameOver_gap hg0 rfl) (noValue_of hg0 (by decide) (by decide)) (.close hg0)
        · cases h
      by_cases c3 : c = '/'
      · subst c3
        have e1 : tagChar isDoc allowEq t '/' = .cont (named t .wait .tagSelfClosing) none := by
          unfold tagChar; simp [hh]; rfl
        simp only [tagEnds, e1] at h
        obtain ⟨as, a1, a2⟩ := tagEnds_sound z _ (init ++ [{ key := some t.pc }]) ['/'] (by
          unfold Piece
          exact ⟨rfl, ha, by intro y hy; simp at hy; exact Or.inr hy, by simp [named]⟩) h
        refine ⟨{ key := some t.pc } :: as, by rw [a1]; simp, ?_⟩
        rw [p2]
        exact TagRest.bare p3 p4 ⟨'/', rfl, Or.inr (Or.inl rfl)⟩ (fun _ _ _ _ => rfl) a2
      by_cases c4 : isWs c = true
      · have e1 : tagChar isDoc allowEq t c = .cont (named t .keyEnd .tagWait) none := by
          unfold tagChar; simp [hh, c1, c2, c3, c4]; rfl
        simp only [tagEnds, e1] at h
        obtain ⟨as, a1, a2⟩ := tagEnds_sound z _ init (x ++ [c]) (by
          unfold Piece
          exact ⟨rfl, g, t.pc, c, [], ha, by rw [p2], p3, p4, (isWs_mem c).1 c4, isGap_nil, by simp [named]⟩) h
        exact ⟨as, a1, by simpa using a2⟩
      · have c4 : isWs c = false := by simpa using c4
        have e1 : tagChar isDoc allowEq t c = .cont { t with pc := t.pc ++ [c] } none := by
          unfold tagChar; simp [hh, c1, c2, c3, c4]
        simp only [tagEnds, e1] at h
        obtain ⟨as, a1, a2⟩ := tagEnds_sound z _ init (x ++ [c]) (by
          unfold Piece
          simp only [hh]
          exact ⟨g, p1, by rw [p2]; simp, p3, attrName_more p4 c4 c1 c2 c3⟩) h
        exact ⟨as, a1, by simpa using a2⟩
    | attrValue =>
      unfold Piece at hp
      simp only [hh] at hp
      rcases hp with ⟨hm, g, k, w, y, p1, p2, p3, p4, p5, p6, p7⟩ | ⟨⟨hq, hqv⟩, hp⟩
      · have ha := (valueLast_eq p1 t.pc none).1
        by_cases c1 : c = '>'
        · subst c1
          have e1 : tagChar isDoc allowEq t '>' = .close { t.m.valueLast t.pc none with codeIn := .valueEnd } [] t.mark (t.m.idOf t.pc) := by
            unfold tagChar; simp [hh, hm]
          simp only [tagEnds, e1] at h
          split at h
          · rename_i hz
            subst hz
            simp only [Option.some.injEq, Prod.mk.injEq] at h
            refine ⟨[{ key := some k, value := some t.pc }], by rw [← h.1, ha], ?_⟩
            rw [← h.2, p2]
            have hg0 := isGap_nil
            exact TagRest.plain p3 p4 p5 p6 p7 ⟨'>', rfl, Or.inr rfl⟩ (.close hg0)
          · cases h
        by_cases c2 : isWs c = true
        · have e1 : tagChar isDoc allowEq t c = .cont ⟨.tagWait, { t.m.valueLast t.pc none with codeIn := .wait }, [], '\x00'⟩ (t.m.idOf t.pc) := by
            unfold tagChar; simp [hh, hm, c1, c2]
          simp only [tagEnds, e1] at h
          obtain ⟨as, a1, a2⟩ := tagEnds_sound z _ (init ++ [{ key := some k, value := some t.pc }]) [c] (by
            unfold Piece
            refine ⟨rfl, ha, by intro y hy; simp at hy; rw [hy]; exact Or.inl ((isWs_mem c).1 c2), ?_⟩
            have := (isWs_not c2).2.2.1
            simp [Ne.symm this]) h
          refine ⟨{ key := some k, value := some t.pc } :: as, by rw [a1]; simp, ?_⟩
          rw [p2]
          exact TagRest.plain p3 p4 p5 p6 p7 ⟨c, rfl, Or.inl ((isWs_mem c).1 c2)⟩ a2
        · have c2 : isWs c = false := by simpa using c2
          have e1 : tagChar isDoc allowEq t c = .cont { t with pc := t.pc ++ [c] } none := by
            unfold tagChar; simp [hh, hm, c1, c2]
          simp only [tagEnds, e1] at h
          obtain ⟨as, a1, a2⟩ := tagEnds_sound z _ init (x ++ [c]) (by
            unfold Piece
            simp only [hh]
            exact Or.inl ⟨hm, g, k, w, y, p1, by rw [p2]; simp, p3, p4, p5, p6, plainValue_more p7 c2 c1⟩) h
          exact ⟨as, a1, by simpa using a2⟩
      · have hns : t.mark ≠ ' ' := by rcases hq with q | q <;> rw [q] <;> decide
        by_cases c1 : c = t.mark
        · have e1 : tagChar isDoc allowEq t c = .cont ⟨.tagWait, { t.m.valueLast t.pc (some t.mark) with codeIn := .wait }, [], '\x00'⟩ (t.m.idOf t.pc) := by
            unfold tagChar; simp [hh, hns, c1]
          simp only [tagEnds, e1] at h
          have hg0 := isGap_nil
          rcases hp with ⟨g, k, w, y, p1, p2, p3, p4, p5, p6⟩ | ⟨hd, g, q, p1, p2, p3⟩
          · have ha := (valueLast_eq p1 t.pc (some t.mark)).1
            obtain ⟨as, a1, a2⟩ := tagEnds_sound z _ (init ++ [{ key := some k, value := some t.pc, quote := some t.mark }]) [] (by
              unfold Piece
              exact ⟨rfl, ha, hg0, by simp⟩) h
            refine ⟨{ key := some k, value := some t.pc, quote := some t.mark } :: as, by rw [a1]; simp, ?_⟩
            rw [p2, c1]
            have := TagRest.quoted (q := t.mark) p3 p4 p5 p6 ⟨hq, hqv⟩ a2
            simpa using this
          · have ha := (valueLast_eq p1 t.pc (some t.mark)).1
            obtain ⟨as, a1, a2⟩ := tagEnds_sound z _ (init ++ [{ value := some t.pc, quote := some t.mark }]) [] (by
              unfold Piece
              exact ⟨rfl, ha, hg0, by simp⟩) h
            refine ⟨{ value := some t.pc, quote := some t.mark } :: as, by rw [a1]; simp, ?_⟩
            rw [p2, c1]
            have := TagRest.lone (q := t.mark) hd p3 ⟨hq, hqv⟩ a2
            simpa using this
        · have e1 : tagChar isDoc allowEq t c = .cont { t with pc := t.pc ++ [c] } none := by
            unfold tagChar; simp [hh, hns, c1]
          simp only [tagEnds, e1] at h
          obtain ⟨as, a1, a2⟩ := tagEnds_sound z _ init (x ++ [c]) (by
            unfold Piece
            simp only [hh]
            refine Or.inr ⟨⟨hq, by simp [hqv, Ne.symm c1]⟩, ?_⟩
            rcases hp with ⟨g, k, w, y, p1, p2, p3, p4, p5, p6⟩ | ⟨hd, g, q, p1, p2, p3⟩
            · exact Or.inl ⟨g, k, w, y, p1, by rw [p2]; simp, p3, p4, p5, p6⟩
            · exact Or.inr ⟨hd, g, q, p1, by rw [p2]; simp, p3⟩) h
          exact ⟨as, a1, by simpa using a2⟩
    | _ => unfold Piece at hp; simp only [hh] at hp

end Rphtml
