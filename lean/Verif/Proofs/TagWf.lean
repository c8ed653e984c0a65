import Verif.Proofs.Final

/-!
# Attributes read by the tag machine

Every attribute the parser stores has one of four shapes, the name table indexes them correctly, and an `id` is
recorded exactly when an attribute called `id` gets its value.
-/

namespace Rphtml

/-- The characters of an attribute name as the parser reads them. -/
def KeyOk (allowEq isDoc : Bool) (k : Str) : Prop :=
  ∃ c cs, k = c :: cs ∧ isWs c = false ∧ c ≠ '>' ∧ c ≠ '/' ∧ (c = '=' → allowEq = true) ∧
    (isDoc = true → c ≠ '"' ∧ c ≠ '\'') ∧
    ∀ x ∈ cs, isWs x = false ∧ x ≠ '=' ∧ x ≠ '>' ∧ x ≠ '/'

/-- The characters of an unquoted attribute value as the parser reads them. -/
def UnqOk (v : Str) : Prop :=
  ∃ c cs, v = c :: cs ∧ isWs c = false ∧ c ≠ '"' ∧ c ≠ '\'' ∧ c ≠ '>' ∧ c ≠ '/' ∧ ∀ x ∈ cs, isWs x = false ∧ x ≠ '>'

/-- A quote and a text that it can delimit. -/
def QuoOk (q : Char) (v : Str) : Prop := (q = '"' ∨ q = '\'') ∧ q ∉ v

/-- The four shapes of an attribute: a bare name, an unquoted value, a quoted value, a quoted string in a doctype. -/
def AttrWf (allowEq isDoc : Bool) (a : Attr) : Prop :=
  a.needQuote = false ∧
  ((∃ k, a.key = some k ∧ KeyOk allowEq isDoc k ∧
      ((a.value = none ∧ a.quote = none) ∨ (∃ v, a.value = some v ∧ a.quote = none ∧ UnqOk v) ∨
       (∃ v q, a.value = some v ∧ a.quote = some q ∧ QuoOk q v))) ∨
   (isDoc = true ∧ a.key = none ∧ ∃ v q, a.value = some v ∧ a.quote = some q ∧ QuoOk q v))

/-- The name table maps each folded attribute name to the first attribute carrying it. -/
def MapOk (mp : List (Str × Nat)) (as : List Attr) : Prop :=
  ∀ k, mp.lookup k = as.findIdx? fun a => a.key.map lowerAll == some k

/-- The attributes of a finished tag. -/
structure MetaWf (allowEq isDoc : Bool) (m : TagMeta) : Prop where
  attrs : ∀ a ∈ m.attrs, AttrWf allowEq isDoc a
  map : MapOk m.lcNameMap m.attrs

/-- The attributes of a tag being read. -/
structure TagSt.Wf (allowEq isDoc : Bool) (t : TagSt) : Prop where
  map : MapOk t.m.lcNameMap (if t.handle = .attrKey then t.m.attrs.dropLast else t.m.attrs)
  attrs : match t.handle with
    | .tagWait | .tagSelfClosing => (∀ a ∈ t.m.attrs, AttrWf allowEq isDoc a) ∧
        (t.m.codeIn ≠ .wait → ∃ init k, t.m.attrs = init ++ [{ key := some k }])
    | .attrKey => ∃ init, t.m.attrs = init ++ [{ key := some [] }] ∧ (∀ a ∈ init, AttrWf allowEq isDoc a) ∧
        KeyOk allowEq isDoc t.pc
    | .attrValue => ∃ init a, t.m.attrs = init ++ [a] ∧ (∀ a ∈ init, AttrWf allowEq isDoc a) ∧
        ((∃ k, a = { key := some k } ∧ KeyOk allowEq isDoc k) ∨
          (isDoc = true ∧ a = { value := some [], quote := some t.mark } ∧ t.mark ≠ ' ')) ∧
        ((t.mark = ' ' ∧ UnqOk t.pc) ∨ QuoOk t.mark t.pc)
    | _ => False

/-- The ids among some attributes. -/
def attrIds (as : List Attr) (x : Str) : Prop := ∃ a ∈ as, a.checkIfId = some x

theorem attrIds_snoc (as : List Attr) (a : Attr) (x : Str) :
    attrIds (as ++ [a]) x ↔ attrIds as x ∨ a.checkIfId = some x := by
  unfold attrIds
  constructor
  · rintro ⟨b, hb, h⟩
    rcases List.mem_append.1 hb with h1 | h1
    · exact Or.inl ⟨b, h1, h⟩
    · simp only [List.mem_singleton] at h1; subst h1; exact Or.inr h
  · rintro (⟨b, hb, h⟩ | h)
    · exact ⟨b, by simp [hb], h⟩
    · exact ⟨a, by simp, h⟩

theorem checkIfId_noValue (k : Option Str) : ({ key := k } : Attr).checkIfId = none := by
  cases k with
  | none => rfl
  | some k => unfold Attr.checkIfId; simp

theorem checkIfId_noKey (v : Option Str) (q : Option Char) : ({ value := v, quote := q } : Attr).checkIfId = none := rfl

theorem MapOk.snocNoKey {mp : List (Str × Nat)} {as : List Attr} (h : MapOk mp as) (a : Attr) (ha : a.key = none) :
    MapOk mp (as ++ [a]) := by
  intro k
  rw [h k, List.findIdx?_append]
  simp [ha]

theorem MapOk.snocSame {mp : List (Str × Nat)} {as : List Attr} {a b : Attr} (h : MapOk mp (as ++ [a])) (ha : b.key = a.key) :
    MapOk mp (as ++ [b]) := by
  intro k
  rw [h k, List.findIdx?_append, List.findIdx?_append]
  simp [ha]

theorem MapOk.insert {m : TagMeta} {as : List Attr} (h : MapOk m.lcNameMap as) (k : Str) (a : Attr) (ha : a.key = some k) :
    MapOk (m.mapOrInsert (lowerAll k) as.length).lcNameMap (as ++ [a]) := by
  intro x
  unfold TagMeta.mapOrInsert
  rw [List.findIdx?_append, ← h x]
  by_cases h1 : (m.lcNameMap.lookup (lowerAll k)).isSome = true
  · rw [if_pos h1]
    by_cases h2 : lowerAll k = x
    · rw [← h2]
      cases h3 : m.lcNameMap.lookup (lowerAll k) with
      | none => rw [h3] at h1; cases h1
      | some v => rfl
    · cases h3 : m.lcNameMap.lookup x with
      | some v => rfl
      | none => simp [ha, h2]
  · rw [if_neg h1]
    simp only [List.lookup_cons]
    by_cases h2 : x = lowerAll k
    · have : (x == lowerAll k) = true := by rw [h2]; simp
      rw [this]
      simp only
      have h3 : m.lcNameMap.lookup x = none := by
        rw [h2]
        cases h3 : m.lcNameMap.lookup (lowerAll k) with
        | none => rfl
        | some v => exact absurd (by rw [h3]; rfl) h1
      rw [h3]
      simp [ha, h2]
    · have : (x == lowerAll k) = false := by simp [h2]
      rw [this]
      simp only
      cases h3 : m.lcNameMap.lookup x with
      | some v => rfl
      | none => simp [ha, Ne.symm h2]

theorem nameLast_eq {m : TagMeta} {init : List Attr} (h : m.attrs = init ++ [{ key := some [] }]) (k : Str) :
    (m.nameLast k).attrs = init ++ [{ key := some k }] ∧
    (m.nameLast k).lcNameMap = (m.mapOrInsert (lowerAll k) init.length).lcNameMap := by
  unfold TagMeta.nameLast
  rw [h]
  simp

theorem valueLast_eq {m : TagMeta} {init : List Attr} {a : Attr} (h : m.attrs = init ++ [a]) (v : Str) (q : Option Char) :
    (m.valueLast v q).attrs = init ++ [{ a with value := some v, quote := q }] ∧
    (m.valueLast v q).lcNameMap = m.lcNameMap ∧ m.idOf v = ({ a with value := some v } : Attr).checkIfId := by
  unfold TagMeta.valueLast TagMeta.idOf
  rw [h]
  simp

theorem checkIfId_quote (a : Attr) (v : Str) (q : Option Char) :
    ({ a with value := some v, quote := q } : Attr).checkIfId = ({ a with value := some v } : Attr).checkIfId := rfl

theorem KeyOk.one {allowEq isDoc : Bool} {c : Char} (h1 : isWs c = false) (h2 : c ≠ '>') (h3 : c ≠ '/')
    (h4 : c = '=' → allowEq = true) (h5 : isDoc = true → c ≠ '"' ∧ c ≠ '\'') : KeyOk allowEq isDoc [c] :=
  ⟨c, [], rfl, h1, h2, h3, h4, h5, by simp⟩

theorem UnqOk.one {c : Char} (h1 : isWs c = false) (h2 : c ≠ '"') (h3 : c ≠ '\'') (h4 : c ≠ '>') (h5 : c ≠ '/') : UnqOk [c] :=
  ⟨c, [], rfl, h1, h2, h3, h4, h5, by simp⟩

/-- The states in which `tagWaitC` runs. -/
theorem tagWaitC_wf {allowEq isDoc : Bool} {t t' : TagSt} {c : Char} {i id : Option Str}
    (hh : t.handle = .tagWait ∨ t.handle = .tagSelfClosing) (hpc : t.pc = [])
    (w : t.Wf allowEq isDoc)
    (h : tagWaitC isDoc allowEq t c i = .cont t' id) :
    t'.Wf allowEq isDoc ∧ id = i ∧ ∀ x, attrIds t'.m.attrs x ↔ attrIds t.m.attrs x := by
  have hne : t.handle ≠ .attrKey := by rcases hh with h | h <;> rw [h] <;> simp
  have wm := w.map
  rw [if_neg hne] at wm
  have wa : (∀ a ∈ t.m.attrs, AttrWf allowEq isDoc a) ∧
        (t.m.codeIn ≠ .wait → ∃ init k, t.m.attrs = init ++ [{ key := some k }]) := by
    have := w.attrs
    rcases hh with h | h <;> simp only [h] at this <;> exact this
  obtain ⟨wa, wl⟩ := wa
  have wl' : t.m.codeIn ≠ .wait → ∃ init a, t.m.attrs = init ++ [a] ∧ (∀ a ∈ init, AttrWf allowEq isDoc a) ∧
      ∃ k, a = { key := some k } ∧ KeyOk allowEq isDoc k := by
    intro h
    obtain ⟨init, k, e⟩ := wl h
    refine ⟨init, _, e, fun a ha => wa a (by rw [e]; simp [ha]), k, rfl, ?_⟩
    obtain ⟨_, h1⟩ := wa { key := some k } (by rw [e]; simp)
    rcases h1 with ⟨k', h2, h3, _⟩ | ⟨_, h2, _⟩
    · cases h2; exact h3
    · cases h2
  -- a new name
  have newKey : ∀ pc', KeyOk allowEq isDoc pc' → ∀ mk,
      TagSt.Wf allowEq isDoc { handle := .attrKey, m := { t.m.addAttrKey with codeIn := .key }, pc := pc', mark := mk } := by
    intro pc' hk mk
    refine ⟨?_, ?_⟩
    · simp only [if_true, TagMeta.addAttrKey, List.dropLast_concat]; exact wm
    · exact ⟨t.m.attrs, rfl, wa, hk⟩
  have newKeyId : ∀ x, attrIds t.m.addAttrKey.attrs x ↔ attrIds t.m.attrs x := by
    intro x
    unfold TagMeta.addAttrKey
    rw [attrIds_snoc, checkIfId_noValue]; simp
  unfold tagWaitC at h
  repeat' split at h
  all_goals first
    | (cases h; done)
    | skip
  all_goals
    simp only [TagOut.cont.injEq] at h
    obtain ⟨rfl, rfl⟩ := h
  -- quoted string in a doctype
  · rename_i h1 h2 h3
    refine ⟨⟨?_, ?_⟩, rfl, ?_⟩
    · simp only [TagMeta.addAttrValue]
      rw [if_neg (by simp)]
      exact wm.snocNoKey _ rfl
    · refine ⟨t.m.attrs, _, rfl, wa, Or.inr ⟨h3, rfl, ?_⟩, Or.inr ⟨h1, by simp [hpc]⟩⟩
      show c ≠ ' '
      rcases h1 with h | h <;> rw [h] <;> decide
    · intro x
      simp only [TagMeta.addAttrValue]
      rw [attrIds_snoc, checkIfId_noKey]; simp
  -- a name starting with a quote
  · rename_i h1 h2 h3
    refine ⟨newKey _ ?_ _, rfl, newKeyId⟩
    rw [hpc]
    have hd : isDoc = false := by simpa using h3
    have h4 : isWs c = false ∧ c ≠ '>' ∧ c ≠ '/' ∧ c ≠ '=' := by
      rcases h1 with h | h <;> rw [h] <;> decide
    exact KeyOk.one h4.1 h4.2.1 h4.2.2.1 (fun h => absurd h h4.2.2.2) (by rw [hd]; simp)
  -- a quoted value
  · rename_i h1 h2
    have h2' : t.m.codeIn = .waitValue := by simpa using h2
    obtain ⟨init, a, e, w1, k, w2, w3⟩ := wl' (by rw [h2']; simp)
    refine ⟨⟨by simp only; rw [if_neg (by simp)]; exact wm, init, a, e, w1, Or.inl ⟨k, w2, w3⟩, Or.inr ⟨h1, by simp [hpc]⟩⟩, rfl, fun _ => Iff.rfl⟩
  -- slash
  · refine ⟨⟨?_, wa, wl⟩, rfl, fun _ => Iff.rfl⟩
    simp only; rw [if_neg (by simp)]; exact wm
  -- `=` after a name
  · rename_i h1
    refine ⟨⟨?_, wa, fun _ => wl (by rw [h1]; simp)⟩, rfl, fun _ => Iff.rfl⟩
    simp only; rw [if_neg (by simp)]; exact wm
  -- a name starting with `=`
  · rename_i h1 h2 h3 h4 h5 h6 h7
    refine ⟨newKey _ ?_ _, rfl, newKeyId⟩
    rw [hpc]
    have hal : allowEq = true := by simpa using h7
    refine KeyOk.one ?_ h2 h3 (fun _ => hal) (fun _ => by rw [h4]; decide)
    rw [h4]; decide
  -- a value starting with `=`
  · rename_i h1 h2 h3 h4 h5 h6
    obtain ⟨init, a, e, w1, k, w2, w3⟩ := wl' h6
    refine ⟨⟨by simp only; rw [if_neg (by simp)]; exact wm, init, a, e, w1, Or.inl ⟨k, w2, w3⟩, Or.inl ⟨rfl, ?_⟩⟩, rfl, fun _ => Iff.rfl⟩
    simp only [hpc]
    rw [h4]
    exact UnqOk.one (by decide) (by decide) (by decide) (by decide) (by decide)
  -- whitespace
  · exact ⟨w, rfl, fun _ => Iff.rfl⟩
  -- an unquoted value
  · rename_i h1 h2 h3 h4 h5 h6
    obtain ⟨init, a, e, w1, k, w2, w3⟩ := wl' (by rw [h6]; simp)
    refine ⟨⟨by simp only; rw [if_neg (by simp)]; exact wm, init, a, e, w1, Or.inl ⟨k, w2, w3⟩, Or.inl ⟨rfl, ?_⟩⟩, rfl, fun _ => Iff.rfl⟩
    simp only [hpc]
    exact UnqOk.one (by simpa using h5) (fun h => h1 (Or.inl h)) (fun h => h1 (Or.inr h)) h2 h3
  -- a name
  · rename_i h1 h2 h3 h4 h5 h6
    refine ⟨newKey _ ?_ _, rfl, newKeyId⟩
    rw [hpc]
    exact KeyOk.one (by simpa using h5) h2 h3 (fun h => absurd h h4) (fun _ => ⟨fun h => h1 (Or.inl h), fun h => h1 (Or.inr h)⟩)

theorem TagSt.Wf.meta {allowEq isDoc : Bool} {t : TagSt} (hh : t.handle = .tagWait ∨ t.handle = .tagSelfClosing)
    (w : t.Wf allowEq isDoc) : MetaWf allowEq isDoc t.m := by
  have hne : t.handle ≠ .attrKey := by rcases hh with h | h <;> rw [h] <;> simp
  have wm := w.map
  rw [if_neg hne] at wm
  have := w.attrs
  rcases hh with h | h <;> simp only [h] at this <;> exact ⟨this.1, wm⟩

/-- A name ends. -/
theorem wf_nameLast {allowEq isDoc : Bool} {t : TagSt} (hh : t.handle = .attrKey) (w : t.Wf allowEq isDoc) :
    MetaWf allowEq isDoc (t.m.nameLast t.pc) ∧ (∃ init k, (t.m.nameLast t.pc).attrs = init ++ [{ key := some k }]) ∧
      ∀ x, attrIds (t.m.nameLast t.pc).attrs x ↔ attrIds t.m.attrs x := by
  have wm := w.map
  have wa := w.attrs
  simp only [hh, if_true] at wm wa
  obtain ⟨init, e, w1, w2⟩ := wa
  obtain ⟨e1, e2⟩ := nameLast_eq e t.pc
  refine ⟨⟨?_, ?_⟩, ⟨init, t.pc, e1⟩, ?_⟩
  · intro a ha
    rw [e1] at ha
    rcases List.mem_append.1 ha with h | h
    · exact w1 a h
    · simp only [List.mem_singleton] at h
      rw [h]
      exact ⟨rfl, Or.inl ⟨t.pc, rfl, w2, Or.inl ⟨rfl, rfl⟩⟩⟩
  · rw [e1, e2]
    rw [e] at wm
    simp only [List.dropLast_concat] at wm
    exact wm.insert t.pc _ rfl
  · intro x
    rw [e1, e, attrIds_snoc, attrIds_snoc, checkIfId_noValue, checkIfId_noValue]

/-- A value ends. -/
theorem wf_valueLast {allowEq isDoc : Bool} {t : TagSt} (hh : t.handle = .attrValue) (w : t.Wf allowEq isDoc) :
    MetaWf allowEq isDoc (t.m.valueLast t.pc (if t.mark = ' ' then none else some t.mark)) ∧
      ∀ x, attrIds (t.m.valueLast t.pc (if t.mark = ' ' then none else some t.mark)).attrs x ↔
        attrIds t.m.attrs x ∨ t.m.idOf t.pc = some x := by
  have wm := w.map
  have wa := w.attrs
  simp only [hh] at wm wa
  rw [if_neg (by simp)] at wm
  obtain ⟨init, a, e, w1, w2, w3⟩ := wa
  obtain ⟨e1, e2, e3⟩ := valueLast_eq e t.pc (if t.mark = ' ' then none else some t.mark)
  have hold : a.checkIfId = none := by
    rcases w2 with ⟨k, h, _⟩ | ⟨_, h, _⟩ <;> rw [h]
    · exact checkIfId_noValue _
    · rfl
  refine ⟨⟨?_, ?_⟩, ?_⟩
  · intro b hb
    rw [e1] at hb
    rcases List.mem_append.1 hb with h | h
    · exact w1 b h
    · simp only [List.mem_singleton] at h
      rw [h]
      rcases w2 with ⟨k, ha, hk⟩ | ⟨hdoc, ha, hmk⟩
      · subst ha
        refine ⟨rfl, Or.inl ⟨k, rfl, hk, Or.inr ?_⟩⟩
        rcases w3 with ⟨h1, h2⟩ | h1
        · exact Or.inl ⟨t.pc, rfl, by rw [if_pos h1], h2⟩
        · refine Or.inr ⟨t.pc, t.mark, rfl, ?_, h1⟩
          rw [if_neg]
          rcases h1.1 with h | h <;> rw [h] <;> decide
      · subst ha
        refine ⟨rfl, Or.inr ⟨hdoc, rfl, t.pc, t.mark, rfl, by rw [if_neg hmk], ?_⟩⟩
        rcases w3 with ⟨h1, h2⟩ | h1
        · exact absurd h1 hmk
        · exact h1
  · rw [e1, e2]
    rw [e] at wm
    exact wm.snocSame rfl
  · intro x
    rw [e1, e, attrIds_snoc, attrIds_snoc, hold, checkIfId_quote, e3]
    simp

theorem tagChar_wf {allowEq isDoc : Bool} {t t' : TagSt} {c : Char} {id : Option Str} (hok : t.Ok2)
    (w : t.Wf allowEq isDoc) (h : tagChar isDoc allowEq t c = .cont t' id) :
    t'.Wf allowEq isDoc ∧ ∀ x, attrIds t'.m.attrs x ↔ attrIds t.m.attrs x ∨ id = some x := by
  unfold TagSt.Ok2 at hok
  unfold tagChar at h
  split at h
  · rename_i hh
    simp only [hh] at hok
    obtain ⟨a, b, e⟩ := tagWaitC_wf (Or.inl hh) hok.1 w h
    exact ⟨a, fun x => by rw [e x, b]; simp⟩
  · rename_i hh
    simp only [hh] at hok
    repeat' split at h
    · cases h
    · simp only [TagOut.cont.injEq] at h
      obtain ⟨rfl, rfl⟩ := h
      exact ⟨w, fun x => by simp⟩
    · obtain ⟨a, b, e⟩ := tagWaitC_wf (Or.inr hh) hok.1 w h
      exact ⟨a, fun x => by rw [e x, b]; simp⟩
  · rename_i hh
    obtain ⟨n1, n2, n3⟩ := wf_nameLast hh w
    repeat' split at h
    all_goals first
      | (cases h; done)
      | skip
    all_goals
      simp only [TagOut.cont.injEq] at h
      obtain ⟨rfl, rfl⟩ := h
    · exact ⟨⟨by simp only; rw [if_neg (by simp)]; exact n1.map, n1.attrs, fun _ => n2⟩, fun x => by rw [n3 x]; simp⟩
    · exact ⟨⟨by simp only; rw [if_neg (by simp)]; exact n1.map, n1.attrs, fun _ => n2⟩, fun x => by rw [n3 x]; simp⟩
    · exact ⟨⟨by simp only; rw [if_neg (by simp)]; exact n1.map, n1.attrs, fun _ => n2⟩, fun x => by rw [n3 x]; simp⟩
    · rename_i h1 h2 h3 h4
      refine ⟨⟨?_, ?_⟩, fun x => by simp⟩
      · have := w.map; simp only [hh, if_true] at this ⊢; exact this
      · have := w.attrs
        simp only [hh] at this ⊢
        obtain ⟨init, e, w1, c0, cs, e0, k1, k2, k3, k4, k5, k6⟩ := this
        refine ⟨init, e, w1, c0, cs ++ [c], by rw [e0]; rfl, k1, k2, k3, k4, k5, ?_⟩
        intro x hx
        rcases List.mem_append.1 hx with h | h
        · exact k6 x h
        · simp only [List.mem_singleton] at h
          rw [h]; exact ⟨by simpa using h4, h1, h2, h3⟩
  · rename_i hh
    obtain ⟨n1, n2⟩ := wf_valueLast hh w
    by_cases h1 : t.mark = ' ' ∧ c = '>'
    · rw [if_pos h1] at h; cases h
    rw [if_neg h1] at h
    by_cases h2 : (if t.mark = ' ' then isWs c else c == t.mark) = true
    · rw [if_pos h2] at h
      simp only [TagOut.cont.injEq] at h
      obtain ⟨rfl, rfl⟩ := h
      exact ⟨⟨n1.map, n1.attrs, fun h => absurd rfl h⟩, n2⟩
    · rw [if_neg h2] at h
      simp only [TagOut.cont.injEq] at h
      obtain ⟨rfl, rfl⟩ := h
      refine ⟨⟨?_, ?_⟩, fun x => by simp⟩
      · have := w.map; simp only [hh] at this ⊢; exact this
      · have := w.attrs
        simp only [hh] at this ⊢
        obtain ⟨init, a, e, w1, w2, w3⟩ := this
        refine ⟨init, a, e, w1, w2, ?_⟩
        rcases w3 with ⟨m1, c0, cs, e0, k1, k2, k3, k4, k5, k6⟩ | ⟨m1, m2⟩
        · left
          refine ⟨m1, c0, cs ++ [c], by rw [e0]; rfl, k1, k2, k3, k4, k5, ?_⟩
          intro x hx
          rcases List.mem_append.1 hx with h | h
          · exact k6 x h
          · simp only [List.mem_singleton] at h
            rw [h]
            simp only [m1, if_true] at h2
            exact ⟨by simpa using h2, fun hc => h1 ⟨m1, hc⟩⟩
        · right
          refine ⟨m1, ?_⟩
          have hne : ¬ t.mark = ' ' := by rcases m1 with h | h <;> rw [h] <;> decide
          rw [if_neg hne] at h2
          simp only [List.mem_append, List.mem_singleton, not_or]
          exact ⟨m2, fun h => h2 (by rw [h]; simp)⟩
  · rename_i h1 h2 h3 h4
    cases hh : t.handle <;> simp only [hh] at hok
    · exact absurd hh h2
    · exact absurd hh h1
    · exact absurd hh h3
    · exact absurd hh h4

theorem MetaWf.code {allowEq isDoc : Bool} {m : TagMeta} (h : MetaWf allowEq isDoc m) (ci : TagCodeIn) :
    MetaWf allowEq isDoc { m with codeIn := ci } := ⟨h.attrs, h.map⟩

theorem tagChar_close_wf {allowEq isDoc : Bool} {t : TagSt} {c : Char} {id : Option Str} {m : TagMeta} {pc : Str}
    {mark : Char} (w : t.Wf allowEq isDoc) (h : tagChar isDoc allowEq t c = .close m pc mark id) :
    MetaWf allowEq isDoc m ∧ ∀ x, attrIds m.attrs x ↔ attrIds t.m.attrs x ∨ id = some x := by
  unfold tagChar at h
  split at h
  · rename_i hh
    obtain ⟨rfl, _, _, rfl, _⟩ := tagWaitC_close h
    exact ⟨w.meta (Or.inl hh), fun x => by simp⟩
  · rename_i hh
    repeat' split at h
    · cases h
    · cases h
    · obtain ⟨rfl, _, _, rfl, _⟩ := tagWaitC_close h
      exact ⟨w.meta (Or.inr hh), fun x => by simp⟩
  · rename_i hh
    obtain ⟨n1, n2, n3⟩ := wf_nameLast hh w
    repeat' split at h
    all_goals first
      | (cases h; done)
      | skip
    simp only [TagOut.close.injEq] at h
    obtain ⟨rfl, _, _, rfl⟩ := h
    exact ⟨n1.code _, fun x => by rw [n3 x]; simp⟩
  · rename_i hh
    obtain ⟨n1, n2⟩ := wf_valueLast hh w
    repeat' split at h
    all_goals first
      | (cases h; done)
      | skip
    rename_i h1
    rw [if_pos h1.1] at n1 n2
    simp only [TagOut.close.injEq] at h
    obtain ⟨rfl, _, _, rfl⟩ := h
    exact ⟨n1.code _, n2⟩
  · cases h

end Rphtml
