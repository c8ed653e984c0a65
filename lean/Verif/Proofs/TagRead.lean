import Verif.Proofs.AStep
import Verif.Proofs.TagWf
import Verif.Proofs.TextLemmas
import Verif.Spec.Wf

/-!
# Reading a start tag

The tag machine, run on the printed form of legal attributes, recovers exactly these attributes.
-/

namespace Rphtml
open Spec

theorem legalAttr_iff (allowEq isDoc : Bool) (a : Attr) : legalAttr allowEq isDoc a ↔ AttrWf allowEq isDoc a := by
  have hk : ∀ k, attrName allowEq isDoc k ↔ KeyOk allowEq isDoc k := by
    intro k
    cases k with
    | nil => simp [attrName, KeyOk]
    | cons c cs =>
      simp only [attrName, KeyOk, List.cons.injEq, not_isWs_mem]
      constructor
      · intro h; exact ⟨c, cs, ⟨rfl, rfl⟩, h⟩
      · rintro ⟨_, _, ⟨rfl, rfl⟩, h⟩; exact h
  have hv : ∀ v, plainValue v ↔ UnqOk v := by
    intro v
    cases v with
    | nil => simp [plainValue, UnqOk]
    | cons c cs =>
      simp only [plainValue, UnqOk, List.cons.injEq, not_isWs_mem]
      constructor
      · intro h; exact ⟨c, cs, ⟨rfl, rfl⟩, h⟩
      · rintro ⟨_, _, ⟨rfl, rfl⟩, h⟩; exact h
  obtain ⟨k, v, q, nq⟩ := a
  unfold legalAttr AttrWf
  cases k <;> cases v <;> cases q <;> simp [hk, hv, quotedValue, QuoOk]

/-- A run inside a tag. -/
def trun (isDoc allowEq : Bool) : TagSt → Str → Option TagSt
  | t, [] => some t
  | t, c :: cs =>
    match tagChar isDoc allowEq t c with
    | .cont t' _ => trun isDoc allowEq t' cs
    | _ => none

theorem trun_append (isDoc allowEq : Bool) (s r : Str) : ∀ t : TagSt,
    trun isDoc allowEq t (s ++ r) = (trun isDoc allowEq t s).bind fun t' => trun isDoc allowEq t' r := by
  induction s with
  | nil => intro t; rfl
  | cons c cs ih =>
    intro t
    simp only [List.cons_append, trun]
    cases tagChar isDoc allowEq t c with
    | cont t' id => exact ih t'
    | _ => rfl

theorem arun_trun {o : ParseOptions} {isDoc : Bool} (a : AState) : ∀ (cs : Str) (t t' : TagSt),
    trun isDoc o.allowAttrKeyStartsWithEqualSign t cs = some t' →
    arun o { a with mode := .inTag isDoc t, mark := t.mark } cs = some { a with mode := .inTag isDoc t', mark := t'.mark }
  | [], t, t', h => by simp only [trun, Option.some.injEq] at h; subst h; rfl
  | c :: cs, t, t', h => by
    simp only [trun] at h
    cases ht : tagChar isDoc o.allowAttrKeyStartsWithEqualSign t c with
    | cont t1 id =>
      rw [ht] at h
      simp only [arun, astep, ht]
      exact arun_trun a cs t1 t' h
    | close m pc mk id => rw [ht] at h; cases h
    | selfClose => rw [ht] at h; cases h
    | err k => rw [ht] at h; cases h

/-- Between two attributes. -/
structure Ready (n : Str) (v : Bool) (as : List Attr) (t : TagSt) : Prop where
  handle : t.handle = .tagWait
  pc : t.pc = []
  name : t.m.name = n
  isVoid : t.m.isVoid = v
  attrs : t.m.attrs = as
  code : t.m.codeIn = .wait ∨ (t.m.codeIn = .keyEnd ∧ ∃ b, as.getLast? = some b ∧ b.value = none)

/-- After the last character of an attribute. -/
def Fin (n : Str) (v : Bool) (as : List Attr) (t : TagSt) : Prop :=
  Ready n v as t ∨
  (t.handle = .attrKey ∧ t.m.name = n ∧ t.m.isVoid = v ∧
    ∃ init, t.m.attrs = init ++ [{ key := some [] }] ∧ as = init ++ [{ key := some t.pc }]) ∨
  (t.handle = .attrValue ∧ t.mark = ' ' ∧ t.m.name = n ∧ t.m.isVoid = v ∧
    ∃ init k, t.m.attrs = init ++ [{ key := some k }] ∧ as = init ++ [{ key := some k, value := some t.pc }])

variable {isDoc allowEq : Bool} {n : Str} {v : Bool} {as : List Attr} {t : TagSt}

theorem nameLast_keep (m : TagMeta) (k : Str) : (m.nameLast k).name = m.name ∧ (m.nameLast k).isVoid = m.isVoid :=
  ⟨(nameLast_frame m k).name.symm ▸ rfl, (nameLast_frame m k).isVoid.symm ▸ rfl⟩

theorem isWs_not {c : Char} (h : isWs c = true) : c ≠ '=' ∧ c ≠ '>' ∧ c ≠ '/' ∧ c ≠ '"' ∧ c ≠ '\'' ∧ c ≠ '<' := by
  refine ⟨?_, ?_, ?_, ?_, ?_, ?_⟩ <;> (rintro rfl; revert h; decide)

theorem Ready.space (h : Ready n v as t) {c : Char} (hc : isWs c = true) : tagChar isDoc allowEq t c = .cont t none := by
  obtain ⟨h1, h2, h3, h4, h5, h6⟩ := isWs_not hc
  unfold tagChar tagWaitC
  simp [h.handle, h1, h2, h3, h4, h5, hc]

theorem Fin.space (h : Fin n v as t) {c : Char} (hc : isWs c = true) :
    ∃ t' id, tagChar isDoc allowEq t c = .cont t' id ∧ Ready n v as t' := by
  obtain ⟨h1, h2, h3, h4, h5, h6⟩ := isWs_not hc
  rcases h with h | ⟨k1, k2, k3, init, k4, k5⟩ | ⟨k1, k2, k3, k4, init, k, k5, k6⟩
  · exact ⟨t, none, h.space hc, h⟩
  · unfold tagChar
    simp only [k1, h1, h2, h3, hc, if_false, if_true]
    refine ⟨_, _, rfl, ⟨rfl, rfl, ?_, ?_, ?_, ?_⟩⟩
    · exact (nameLast_keep _ _).1.trans k2
    · exact (nameLast_keep _ _).2.trans k3
    · rw [k5]; exact (nameLast_eq k4 _).1
    · right; exact ⟨rfl, { key := some t.pc }, by rw [k5]; simp, rfl⟩
  · unfold tagChar
    simp only [k1, k2, h2, hc, and_false, if_false, if_true]
    refine ⟨_, _, rfl, ⟨rfl, rfl, k3, k4, ?_, Or.inl rfl⟩⟩
    rw [k6]; exact (valueLast_eq k5 _ _).1

theorem Fin.close (h : Fin n v as t) :
    ∃ m mk id, tagChar isDoc allowEq t '>' = .close m [] mk id ∧ m.name = n ∧ m.isVoid = v ∧ m.attrs = as := by
  rcases h with h | ⟨k1, k2, k3, init, k4, k5⟩ | ⟨k1, k2, k3, k4, init, k, k5, k6⟩
  · unfold tagChar tagWaitC
    simp only [h.handle, h.pc]
    exact ⟨_, _, _, rfl, h.name, h.isVoid, h.attrs⟩
  · unfold tagChar
    simp only [k1]
    refine ⟨_, _, _, rfl, ?_, ?_, ?_⟩
    · exact (nameLast_keep _ _).1.trans k2
    · exact (nameLast_keep _ _).2.trans k3
    · rw [k5]; exact (nameLast_eq k4 _).1
  · unfold tagChar
    simp only [k1, k2, and_self, if_true]
    refine ⟨_, _, _, rfl, k3, k4, ?_⟩
    rw [k6]; exact (valueLast_eq k5 _ _).1

/-- The first character of a name. -/
theorem Ready.key (h : Ready n v as t) {c : Char} (h1 : isWs c = false) (h2 : c ≠ '>') (h3 : c ≠ '/')
    (h4 : c = '=' → allowEq = true ∧ t.m.codeIn = .wait) (h5 : isDoc = true → c ≠ '"' ∧ c ≠ '\'') :
    tagChar isDoc allowEq t c = .cont ⟨.attrKey, { t.m.addAttrKey with codeIn := .key }, [c], t.mark⟩ none := by
  unfold tagChar tagWaitC
  simp only [h.handle, h.pc, List.nil_append]
  have hw : t.m.codeIn ≠ .waitValue := by rcases h.code with q | q <;> simp [q]
  by_cases q : c = '"' ∨ c = '\''
  · rw [if_pos q, if_pos hw]
    have : isDoc = false := by
      cases hd : isDoc with
      | false => rfl
      | true => exact absurd q (by simp [h5 hd])
    rw [if_neg (by simp [this])]
  · rw [if_neg q, if_neg h2, if_neg h3]
    by_cases e : c = '='
    · obtain ⟨e1, e2⟩ := h4 e
      rw [if_pos e, if_neg (by simp [e2]), if_pos e2, if_neg (by simp [e1])]
    · rw [if_neg e, if_neg (by simp [h1]), if_neg hw]

/-- The other characters of a name. -/
theorem trun_key (m : TagMeta) (mk : Char) : ∀ (cs pc : Str), (∀ x ∈ cs, isWs x = false ∧ x ≠ '=' ∧ x ≠ '>' ∧ x ≠ '/') →
    trun isDoc allowEq ⟨.attrKey, m, pc, mk⟩ cs = some ⟨.attrKey, m, pc ++ cs, mk⟩
  | [], pc, _ => by simp [trun]
  | c :: cs, pc, h => by
    obtain ⟨h1, h2, h3, h4⟩ := h c (by simp)
    have : tagChar isDoc allowEq ⟨.attrKey, m, pc, mk⟩ c = .cont ⟨.attrKey, m, pc ++ [c], mk⟩ none := by
      unfold tagChar; simp [h1, h2, h3, h4]
    simp only [trun, this]
    rw [trun_key m mk cs (pc ++ [c]) fun x hx => h x (by simp [hx])]
    simp

/-- The characters of a value. -/
theorem trun_value (m : TagMeta) (mk : Char) : ∀ (cs pc : Str),
    (∀ x ∈ cs, if mk = ' ' then isWs x = false ∧ x ≠ '>' else x ≠ mk) →
    trun isDoc allowEq ⟨.attrValue, m, pc, mk⟩ cs = some ⟨.attrValue, m, pc ++ cs, mk⟩
  | [], pc, _ => by simp [trun]
  | c :: cs, pc, h => by
    have hc := h c (by simp)
    have : tagChar isDoc allowEq ⟨.attrValue, m, pc, mk⟩ c = .cont ⟨.attrValue, m, pc ++ [c], mk⟩ none := by
      unfold tagChar
      by_cases hm : mk = ' '
      · rw [if_pos hm] at hc; simp [hm, hc.1, hc.2]
      · rw [if_neg hm] at hc; simp [hm, hc]
    simp only [trun, this]
    rw [trun_value m mk cs (pc ++ [c]) fun x hx => h x (by simp [hx])]
    simp

/-- A name is read. -/
theorem Ready.readKey (h : Ready n v as t) {k : Str} (hk : KeyOk allowEq isDoc k)
    (heq : k.head? = some '=' → t.m.codeIn = .wait) :
    trun isDoc allowEq t k = some ⟨.attrKey, { t.m.addAttrKey with codeIn := .key }, k, t.mark⟩ := by
  obtain ⟨c, cs, rfl, h1, h2, h3, h4, h5, h6⟩ := hk
  have := h.key (isDoc := isDoc) (allowEq := allowEq) h1 h2 h3 (fun e => ⟨h4 e, heq (by rw [e]; rfl)⟩) h5
  simp only [trun, this]
  rw [trun_key _ _ cs [c] h6]; rfl

/-- A value is read: after `name=`. -/
theorem readValue (m : TagMeta) (hc : m.codeIn = .waitValue) {init : List Attr} {k : Str} (hm : m.attrs = init ++ [{ key := some k }])
    (mk : Char) (q : Option Char) (w : Str)
    (hw : match q with
      | none => UnqOk w
      | some q => QuoOk q w) :
    ∃ t', trun isDoc allowEq ⟨.tagWait, m, [], mk⟩ (match q with
        | none => w
        | some q => [q] ++ w ++ [q]) = some t' ∧
      Fin m.name m.isVoid (init ++ [{ key := some k, value := some w, quote := q }]) t' := by
  cases q with
  | none =>
    obtain ⟨c, cs, rfl, h1, h2, h3, h4, h5, h6⟩ := hw
    have : tagChar isDoc allowEq ⟨.tagWait, m, [], mk⟩ c = .cont ⟨.attrValue, { m with codeIn := .value }, [c], ' '⟩ none := by
      unfold tagChar tagWaitC
      by_cases e : c = '='
      · subst e; simp [hc]
      · simp [h1, h2, h3, h4, h5, e, hc]
    simp only [trun, this]
    rw [trun_value _ _ cs [c] (by intro x hx; simp [h6 x hx])]
    exact ⟨_, rfl, Or.inr (Or.inr ⟨rfl, rfl, rfl, rfl, init, k, hm, rfl⟩)⟩
  | some q =>
    obtain ⟨h1, h2⟩ := hw
    have : tagChar isDoc allowEq ⟨.tagWait, m, [], mk⟩ q = .cont ⟨.attrValue, { m with codeIn := .value }, [], q⟩ none := by
      unfold tagChar tagWaitC
      simp [h1, hc]
    have hq : q ≠ ' ' := by rcases h1 with e | e <;> rw [e] <;> decide
    simp only [List.cons_append, List.nil_append, trun, this]
    rw [trun_append, trun_value _ _ w [] (by intro x hx; rw [if_neg hq]; rintro rfl; exact h2 hx)]
    have h3 : tagChar isDoc allowEq ⟨.attrValue, { m with codeIn := .value }, w, q⟩ q =
        .cont ⟨.tagWait, { ({ m with codeIn := .value } : TagMeta).valueLast w (some q) with codeIn := .wait }, [], '\x00'⟩
          (({ m with codeIn := .value } : TagMeta).idOf w) := by
      unfold tagChar
      simp [hq]
    simp only [List.nil_append, Option.bind_some, trun, h3]
    refine ⟨_, rfl, Or.inl ⟨rfl, rfl, rfl, rfl, ?_, Or.inl rfl⟩⟩
    exact (valueLast_eq (m := { m with codeIn := .value }) hm w (some q)).1

/-- One attribute is read. -/
theorem Ready.readAttr (h : Ready n v as t) {a : Attr} (ha : AttrWf allowEq isDoc a)
    (heq : (a.key.getD []).head? = some '=' → t.m.codeIn = .wait) :
    ∃ t', trun isDoc allowEq t (printAttr a) = some t' ∧ Fin n v (as ++ [a]) t' := by
  obtain ⟨key, val, quote, nq⟩ := a
  obtain ⟨h1, h2⟩ := ha
  simp only at h1
  subst h1
  rcases h2 with ⟨k, e, hk, hv⟩ | ⟨hd, e, w, q, e1, e2, hq⟩
  · simp only at e
    subst e
    have h3 := h.readKey hk heq
    have hattrs : ({ t.m.addAttrKey with codeIn := .key } : TagMeta).attrs = as ++ [{ key := some [] }] := by
      simp only [TagMeta.addAttrKey, h.attrs]
    have hval : ∀ (w : Str) (q : Option Char), (match q with
        | none => UnqOk w
        | some q => QuoOk q w) → ∃ t', trun isDoc allowEq t (k ++ '=' :: (match q with
          | none => w
          | some q => [q] ++ w ++ [q])) = some t' ∧ Fin n v (as ++ [{ key := some k, value := some w, quote := q }]) t' := by
      intro w q hw
      rw [trun_append, h3]
      have h4 : tagChar isDoc allowEq ⟨.attrKey, { t.m.addAttrKey with codeIn := .key }, k, t.mark⟩ '=' =
          .cont ⟨.tagWait, { ({ t.m.addAttrKey with codeIn := .key } : TagMeta).nameLast k with codeIn := .waitValue }, [], t.mark⟩ none := by
        unfold tagChar; simp
      simp only [Option.bind_some, trun, h4]
      obtain ⟨t', k1, k2⟩ := readValue (isDoc := isDoc) (allowEq := allowEq)
        { ({ t.m.addAttrKey with codeIn := .key } : TagMeta).nameLast k with codeIn := .waitValue } rfl (init := as) (k := k)
        ((nameLast_eq hattrs k).1) t.mark q w hw
      refine ⟨t', k1, ?_⟩
      have e1 := nameLast_keep { t.m.addAttrKey with codeIn := .key } k
      simp only [e1.1, e1.2] at k2
      have e2 : ({ t.m.addAttrKey with codeIn := .key } : TagMeta).name = n := h.name
      have e3 : ({ t.m.addAttrKey with codeIn := .key } : TagMeta).isVoid = v := h.isVoid
      rw [e2, e3] at k2
      exact k2
    rcases hv with ⟨e1, e2⟩ | ⟨w, e1, e2, hw⟩ | ⟨w, q, e1, e2, hw⟩
    · simp only at e1 e2; subst e1; subst e2
      refine ⟨⟨.attrKey, { t.m.addAttrKey with codeIn := .key }, k, t.mark⟩, by
        simp only [printAttr, Option.getD_some, Option.isSome_some, Option.isSome_none, Bool.false_eq_true,
          and_false, if_false, List.append_nil]; exact h3, Or.inr (Or.inl ⟨rfl, h.name, h.isVoid, as, hattrs, rfl⟩)⟩
    · simp only at e1 e2; subst e1; subst e2
      obtain ⟨t', k1, k2⟩ := hval w none hw
      refine ⟨t', ?_, k2⟩
      simp only [printAttr, Option.getD_some, Option.isSome_some, and_self, if_true, List.append_assoc, List.singleton_append]
      exact k1
    · simp only at e1 e2; subst e1; subst e2
      obtain ⟨t', k1, k2⟩ := hval w (some q) hw
      refine ⟨t', ?_, k2⟩
      simp only [printAttr, Option.getD_some, Option.isSome_some, and_self, if_true, List.append_assoc, List.singleton_append]
      simpa using k1
  · simp only at e e1 e2
    subst e; subst e1; subst e2; subst hd
    have hqs : q ≠ ' ' := by rcases hq.1 with e | e <;> rw [e] <;> decide
    have hw : t.m.codeIn ≠ .waitValue := by rcases h.code with q | q <;> simp [q]
    have h1 : tagChar true allowEq t q = .cont ⟨.attrValue, { t.m.addAttrValue (some q) with codeIn := .value }, [], q⟩ none := by
      unfold tagChar tagWaitC
      simp only [h.handle, h.pc]
      rw [if_pos hq.1, if_pos hw]; rfl
    simp only [printAttr, Option.getD_none, Option.isSome_none, Bool.false_eq_true, false_and, if_false, List.nil_append,
      List.cons_append, trun, h1]
    rw [trun_append, trun_value _ _ w [] (by intro x hx; rw [if_neg hqs]; rintro rfl; exact hq.2 hx)]
    have h3 : tagChar true allowEq ⟨.attrValue, { t.m.addAttrValue (some q) with codeIn := .value }, w, q⟩ q =
        .cont ⟨.tagWait, { ({ t.m.addAttrValue (some q) with codeIn := .value } : TagMeta).valueLast w (some q) with codeIn := .wait }, [], '\x00'⟩
          (({ t.m.addAttrValue (some q) with codeIn := .value } : TagMeta).idOf w) := by
      unfold tagChar
      simp [hqs]
    simp only [List.nil_append, Option.bind_some, trun, h3]
    refine ⟨_, rfl, Or.inl ⟨rfl, rfl, h.name, h.isVoid, ?_, Or.inl rfl⟩⟩
    have := (valueLast_eq (m := { t.m.addAttrValue (some q) with codeIn := .value }) (init := as)
      (a := { value := some [], quote := some q }) (by simp only [TagMeta.addAttrValue, h.attrs]) w (some q)).1
    exact this

theorem Ready.spaces (h : Ready n v as t) : ∀ w : Str, (∀ c ∈ w, isWs c = true) → trun isDoc allowEq t w = some t
  | [], _ => rfl
  | c :: w, hw => by
    simp only [trun, h.space (isDoc := isDoc) (allowEq := allowEq) (hw c (by simp))]
    exact Ready.spaces h w fun x hx => hw x (by simp [hx])

theorem Fin.spaces (h : Fin n v as t) (w : Str) (hw : ∀ c ∈ w, isWs c = true) (hne : w ≠ []) :
    ∃ t', trun isDoc allowEq t w = some t' ∧ Ready n v as t' := by
  cases w with
  | nil => exact absurd rfl hne
  | cons c w =>
    obtain ⟨t1, id, h1, h2⟩ := h.space (isDoc := isDoc) (allowEq := allowEq) (hw c (by simp))
    refine ⟨t1, ?_, h2⟩
    simp only [trun, h1]
    exact h2.spaces w fun x hx => hw x (by simp [hx])

theorem Fin.spaces' (h : Fin n v as t) (w : Str) (hw : ∀ c ∈ w, isWs c = true) :
    ∃ t', trun isDoc allowEq t w = some t' ∧ Fin n v as t' := by
  by_cases hne : w = []
  · subst hne; exact ⟨t, rfl, h⟩
  · obtain ⟨t', h1, h2⟩ := h.spaces (isDoc := isDoc) (allowEq := allowEq) w hw hne
    exact ⟨t', h1, .inl h2⟩

theorem eqApart_mid : ∀ (l : List Attr) (x b : Attr) (r : List Attr), eqApart (l ++ x :: b :: r) → x.value = none →
    (b.key.getD []).head? ≠ some '='
  | [], _, _, _, h => h.1
  | [_], x, b, r, h => eqApart_mid [] x b r h.2
  | _ :: z :: l, x, b, r, h => eqApart_mid (z :: l) x b r h.2

/-- Attributes separated by whitespace are read. -/
theorem Fin.readSeps : ∀ (bs : List (Str × Attr)) (as : List Attr) (t : TagSt), Fin n v as t →
    (∀ a ∈ bs, AttrWf allowEq isDoc a.2) → (∀ a ∈ bs, a.1 ≠ [] ∧ ∀ c ∈ a.1, isWs c = true) →
    eqApart (as ++ bs.map Prod.snd) →
    ∃ t', trun isDoc allowEq t (bs.flatMap fun a => a.1 ++ printAttr a.2) = some t' ∧ Fin n v (as ++ bs.map Prod.snd) t'
  | [], as, t, h, _, _, _ => ⟨t, rfl, by simpa using h⟩
  | (w, b) :: bs, as, t, h, hb, hs, he => by
    obtain ⟨s1, s2⟩ := hs (w, b) (by simp)
    obtain ⟨t1, h1, h2⟩ := h.spaces (isDoc := isDoc) (allowEq := allowEq) w s2 s1
    have heq : (b.key.getD []).head? = some '=' → t1.m.codeIn = .wait := by
      intro hh
      rcases h2.code with q | ⟨q1, x, q2, q3⟩
      · exact q
      · exfalso
        obtain ⟨l, rfl⟩ := List.getLast?_eq_some_iff.1 q2
        exact eqApart_mid l x b (bs.map Prod.snd) (by simpa using he) q3 hh
    obtain ⟨t2, h3, h4⟩ := h2.readAttr (hb (w, b) (by simp)) heq
    obtain ⟨t3, h5, h6⟩ := Fin.readSeps bs (as ++ [b]) t2 h4 (fun a ha => hb a (by simp [ha]))
      (fun a ha => hs a (by simp [ha])) (by simpa using he)
    refine ⟨t3, ?_, by simpa using h6⟩
    rw [List.flatMap_cons, trun_append, trun_append, h1, Option.bind_some, h3, Option.bind_some]
    exact h5

/-- The attributes of a tag are read. -/
theorem Fin.readAttrs (bs as : List Attr) (t : TagSt) (h : Fin n v as t) (hb : ∀ a ∈ bs, AttrWf allowEq isDoc a)
    (he : eqApart (as ++ bs)) : ∃ t', trun isDoc allowEq t (printAttrs bs) = some t' ∧ Fin n v (as ++ bs) t' := by
  have hm : (bs.map fun a => ([' '], a)).map Prod.snd = bs := by simp [Function.comp_def]
  obtain ⟨t', h1, h2⟩ := Fin.readSeps (isDoc := isDoc) (allowEq := allowEq) (bs.map fun a => ([' '], a)) as t h
    (by simpa using hb) (by
      simp only [List.mem_map]
      rintro _ ⟨a, _, rfl⟩
      exact ⟨by simp, by simp; decide⟩) (by rw [hm]; exact he)
  rw [hm] at h2
  refine ⟨t', ?_, h2⟩
  rw [← h1]
  simp [printAttrs, List.flatMap_map]

end Rphtml
