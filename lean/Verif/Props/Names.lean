import Verif.Spec.Wf
import Verif.Model.Render
import Verif.Proofs.TextLemmas
import Verif.Spec.Samples

/-! # C39–C43: names, character classes, document classification, insertion -/

namespace Rphtml
open Spec

/-! ## C40 -/

/-- **C40**: end tag matching is equality after ASCII case folding. -/
theorem c40_match_iff (a b : Str) : (isEqualCharsIgnoreCase a b).1 = true ↔ sameName a b := by
  rw [isEqualCharsIgnoreCase_spec, lowerAll_eq_fold, lowerAll_eq_fold]
  unfold sameName
  split <;> simp_all

/-- **C40**: "totally same" is reported exactly for equal names. -/
theorem c40_same_iff (a b : Str) : (isEqualCharsIgnoreCase a b).2 = true ↔ a = b := by
  rw [isEqualCharsIgnoreCase_spec]
  split
  · simp
  · rename_i h
    simp only [Bool.false_eq_true, false_iff]
    intro e; subst e; exact h rfl

/-- **C40**: matching is an equivalence relation. -/
theorem c40_equivalence : Equivalence fun a b : Str => (isEqualCharsIgnoreCase a b).1 = true where
  refl a := by rw [c40_match_iff]; rfl
  symm h := by rw [c40_match_iff] at *; exact Eq.symm h
  trans h1 h2 := by rw [c40_match_iff] at *; exact Eq.trans h1 h2

/-- Non-vacuity: two different names that match, and two that do not. -/
example : (isEqualCharsIgnoreCase "DiV".toList "dIv".toList) = (true, false)
    ∧ (isEqualCharsIgnoreCase "div".toList "dia".toList) = (false, false) := by decide

/-! ## C41 -/

/-- **C41**: `is_non_character` is exactly U+FDD0..U+FDEF and the last two code points of each plane. -/
theorem c41_non_character (c : Char) :
    isNonCharacter c = true ↔
      (0xFDD0 ≤ c.toNat ∧ c.toNat ≤ 0xFDEF) ∨ c.toNat % 0x10000 = 0xFFFE ∨ c.toNat % 0x10000 = 0xFFFF := by
  have hb : c.toNat < 0x110000 := by
    have := c.valid
    simp only [UInt32.isValidChar, Nat.isValidChar] at this
    unfold Char.toNat; omega
  unfold isNonCharacter
  simp only [Bool.or_eq_true, Bool.and_eq_true, decide_eq_true_eq, List.contains_iff_mem,
    List.mem_cons, List.not_mem_nil, or_false]
  constructor
  · intro h; omega
  · intro h
    rcases h with h | h
    · exact Or.inl h
    · right
      have : c.toNat / 0x10000 ≤ 16 := by omega
      have hd := Nat.div_add_mod c.toNat 0x10000
      generalize c.toNat / 0x10000 = q at *
      generalize c.toNat % 0x10000 = r at *
      generalize c.toNat = n at *
      omega

/-- **C41**: `is_char_available_in_value` rejects exactly ASCII whitespace, NUL, quotes, angle
brackets, `/`, `=` and the backquote. -/
theorem c41_value_char (c : Char) :
    isCharAvailableInValue c = true ↔
      c ∉ ws ∧ c ∉ ['\x00', '"', '\'', '<', '>', '/', '=', '`'] := by
  unfold isCharAvailableInValue
  by_cases h : c ∈ ws
  · simp [(isWs_mem c).2 h, h]
  · simp [(not_isWs_mem c).2 h, h]

/-- **C41**: `is_char_available_in_key` accepts ASCII letters, digits, `_-.:`, and every non-ASCII
scalar value that is not a noncharacter — and nothing else. -/
theorem c41_key_char (c : Char) :
    isCharAvailableInKey c = true ↔
      (65 ≤ c.toNat ∧ c.toNat ≤ 90) ∨ (97 ≤ c.toNat ∧ c.toNat ≤ 122) ∨ (48 ≤ c.toNat ∧ c.toNat ≤ 57) ∨
      c = '_' ∨ c = '-' ∨ c = '.' ∨ c = ':' ∨
      (128 ≤ c.toNat ∧ ¬ (0xFDD0 ≤ c.toNat ∧ c.toNat ≤ 0xFDEF) ∧ c.toNat % 0x10000 ≠ 0xFFFE ∧
        c.toNat % 0x10000 ≠ 0xFFFF) := by
  unfold isCharAvailableInKey
  have hn := c41_non_character c
  have e1 : ('_' : Char).toNat = 95 ∧ ('-' : Char).toNat = 45 ∧ ('.' : Char).toNat = 46
    ∧ (':' : Char).toNat = 58 ∧ ('\x00' : Char).toNat = 0 := by decide
  by_cases h1 : (isAsciiAlphanumeric c || ['_', '-', '.', ':'].contains c) = true
  · rw [if_pos h1]
    simp only [true_iff]
    simp only [isAsciiAlphanumeric, isUpper, isLower, Bool.or_eq_true, Bool.and_eq_true,
      decide_eq_true_eq, List.contains_iff_mem, List.mem_cons, List.not_mem_nil, or_false] at h1
    rcases h1 with ((h1 | h1) | h1) | h1
    · exact Or.inl h1
    · exact Or.inr (Or.inl h1)
    · exact Or.inr (Or.inr (Or.inl h1))
    · rcases h1 with h1 | h1 | h1 | h1 <;> simp [h1]
  · rw [if_neg h1]
    simp only [isAsciiAlphanumeric, isUpper, isLower, Bool.or_eq_true, Bool.and_eq_true,
      decide_eq_true_eq, List.contains_iff_mem, List.mem_cons, List.not_mem_nil, or_false, not_or] at h1
    by_cases h2 : (isWs c || isAsciiControl c || isNonCharacter c || isAsciiPunctuation c || c = '\x00') = true
    · rw [if_pos h2]
      simp only [Bool.false_eq_true, false_iff]
      simp only [isAsciiControl, isAsciiPunctuation, Bool.or_eq_true, Bool.and_eq_true,
        decide_eq_true_eq, isWs_iff, hn, char_eq_iff] at h2
      simp only [char_eq_iff] at h1 ⊢
      omega
    · rw [if_neg h2]
      simp only [true_iff]
      simp only [isAsciiControl, isAsciiPunctuation, Bool.or_eq_true, Bool.and_eq_true,
        decide_eq_true_eq, isWs_iff, hn, char_eq_iff] at h2
      simp only [char_eq_iff] at h1 ⊢
      omega

/-- Non-vacuity: all classes are inhabited on both sides. -/
example : isCharAvailableInKey 'é' = true ∧ isCharAvailableInKey '"' = false
    ∧ isNonCharacter (Char.ofNat 0x1FFFE) = true ∧ isNonCharacter 'a' = false
    ∧ isCharAvailableInValue '&' = true ∧ isCharAvailableInValue '=' = false := by decide

/-! ## C43 -/

theorem isVoidTag_iff (n : Str) : isVoidTag n = true ↔ String.ofList n ∈ Spec.voidNames := by
  have h : ∀ s : String, String.ofList n = s ↔ n = s.toList := fun s =>
    ⟨fun h => by rw [← h]; simp, fun h => by rw [h]; simp⟩
  simp only [isVoidTag, List.any_eq_true, isEqualChars_none, voidElements, Spec.voidNames,
    List.mem_cons, List.not_mem_nil, or_false, h]
  have hh : ∀ (p : List Str), (∃ x, x ∈ p ∧ x = n) ↔ n ∈ p := by
    intro p; constructor
    · rintro ⟨x, h1, rfl⟩; exact h1
    · intro h; exact ⟨n, h, rfl⟩
  have := hh voidElements
  simp only [voidElements, List.mem_cons, List.not_mem_nil, or_false] at this
  rw [this]
  constructor
  · intro h; rcases h with h|h|h|h|h|h|h|h|h|h|h|h|h|h <;> subst h <;> decide
  · intro h; rcases h with h|h|h|h|h|h|h|h|h|h|h|h|h|h <;> subst h <;> decide

/-- **C43** (void): void elements accept nothing, whatever the case of the name. -/
theorem c43_void (name : Str) (t : NodeType) (h : String.ofList (fold name) ∈ Spec.voidNames) :
    allowInsert name t = false := by
  unfold allowInsert
  simp only [lowerAll_eq_fold, (isVoidTag_iff _).2 h, if_true]

/-- **C43** (CDATA): outside of `title`/`textarea`, CDATA goes only into svg and math. -/
theorem c43_cdata (name : Str) (h : allowInsert name .xmlCdata = true) :
    fold name = "svg".toList ∨ fold name = "math".toList := by
  unfold allowInsert at h
  rw [lowerAll_eq_fold] at h
  dsimp only at h
  split at h
  · simp at h
  · split at h
    · simp at h
    · simp only [if_true, specialTag] at h
      split at h
      · left; assumption
      · split at h
        · right; assumption
        · simp at h

/-- **C43** (`title`/`textarea` in lower case): only text is accepted. -/
theorem c43_plain_lower (t : NodeType) :
    (allowInsert "title".toList t = true ↔ t = .text ∨ t = .spacesBetweenTag) ∧
    (allowInsert "textarea".toList t = true ↔ t = .text ∨ t = .spacesBetweenTag) := by
  cases t <;> decide

/-- **C43**, the part that holds: `allow_insert` ignores the case of the name unless the name is
`title` or `textarea` up to case. -/
theorem c43_case_partial (a b : Str) (t : NodeType) (h : fold a = fold b)
    (hn : fold a ≠ "title".toList ∧ fold a ≠ "textarea".toList) :
    allowInsert a t = allowInsert b t := by
  unfold allowInsert
  rw [lowerAll_eq_fold, lowerAll_eq_fold, h]
  have hp : ∀ n : Str, fold n ≠ "title".toList ∧ fold n ≠ "textarea".toList →
      isPlainTextTag n none = false := by
    intro n ⟨h1, h2⟩
    have e1 : fold titleTagName = "title".toList := by decide
    have e2 : fold textareaTagName = "textarea".toList := by decide
    rw [Bool.eq_false_iff]
    intro hh
    simp only [isPlainTextTag, Bool.or_eq_true, isEqualChars_none] at hh
    rcases hh with rfl | rfl
    · exact h2 e2
    · exact h1 e1
  rw [hp a hn, hp b (by rw [← h]; exact hn)]

/-- Non-vacuity of `c43_case_partial`. -/
example : fold "DIV".toList = fold "div".toList ∧ fold "DIV".toList ≠ "title".toList
    ∧ fold "DIV".toList ≠ "textarea".toList := by decide

/-- **C43** is violated: `TITLE` accepts a tag where `title` does not. -/
theorem c43_violated : ∃ a b t, fold a = fold b ∧ allowInsert a t ≠ allowInsert b t :=
  ⟨"TITLE".toList, "title".toList, .tag, by decide, by decide⟩

/-- **C43**, what `allow_insert` does for every name and node type: void elements take nothing; `title` and `textarea`, but
only if they are spelled in lower case, take only text; CDATA goes into `svg` and `math`; everything else goes anywhere. -/
theorem c43_exact (name : Str) (t : NodeType) : allowInsert name t = true ↔ String.ofList (fold name) ∉ Spec.voidNames ∧
    (name = "title".toList ∨ name = "textarea".toList → t = .text ∨ t = .spacesBetweenTag) ∧
    (t = .xmlCdata → fold name = "svg".toList ∨ fold name = "math".toList) := by
  unfold allowInsert
  rw [lowerAll_eq_fold, ← isVoidTag_iff]
  have hp : isPlainTextTag name none = true ↔ name = "title".toList ∨ name = "textarea".toList := by
    simp only [isPlainTextTag, Bool.or_eq_true, isEqualChars_none]
    rw [show titleTagName = "title".toList by decide, show textareaTagName = "textarea".toList by decide]
    exact ⟨fun h => h.elim (fun q => .inr q) (fun q => .inl q), fun h => h.elim (fun q => .inr q) (fun q => .inl q)⟩
  have hs : (specialTag (fold name)).isSome = true ↔ fold name = "svg".toList ∨ fold name = "math".toList := by
    unfold specialTag
    split
    · rename_i h; simp [h]
    · rename_i h1
      split
      · rename_i h; simp [h]
      · rename_i h2; simp; exact ⟨h1, h2⟩
  rw [← hp]
  dsimp only
  by_cases h1 : isVoidTag (fold name) = true
  · simp [h1]
  · rw [if_neg h1]
    by_cases h2 : isPlainTextTag name none = true
    · rw [if_pos h2]
      simp only [Bool.or_eq_true, decide_eq_true_eq]
      refine ⟨fun h => ⟨h1, fun _ => h, fun q => ?_⟩, fun h => h.2.1 h2⟩
      rcases h with h | h <;> rw [h] at q <;> cases q
    · rw [if_neg h2]
      by_cases h3 : t = .xmlCdata
      · rw [if_pos h3, hs]
        simp [h1, h2, h3]
      · rw [if_neg h3]
        simp [h1, h2, h3]

/-- Non-vacuity: each condition can fail alone. -/
example : allowInsert "BR".toList .text = false ∧ allowInsert "title".toList .tag = false ∧ allowInsert "div".toList .xmlCdata = false ∧
    allowInsert "TITLE".toList .tag = true ∧ allowInsert "sVg".toList .xmlCdata = true := by decide

/-! ## C39 -/

/-- Is this child a tag named `html`, ignoring case? -/
def Spec.isHtmlTag (n : NodeD) : Prop :=
  n.nodeType = .tag ∧ ∃ m, n.tmeta = some m ∧ sameName m.name "html".toList

/-- Comments, doctypes and whitespace do not count. -/
def Spec.isMisc (n : NodeD) : Prop :=
  n.nodeType = .comment ∨ n.nodeType = .htmlDoctype ∨ n.nodeType = .spacesBetweenTag

private theorem html_name_iff (n : Str) :
    isEqualChars n htmlTagName (some .lower) = true ↔ sameName n "html".toList := by
  rw [isEqualChars_lower _ _ (by decide), lowerAll_eq_fold]
  unfold sameName
  have : fold "html".toList = htmlTagName := by decide
  rw [this]

/-- Classification of one child. -/
private theorem child_cases (n : NodeD) :
    isMisc n ∨ isHtmlTag n ∨ (¬ isMisc n ∧ ¬ isHtmlTag n) := by
  by_cases h1 : isMisc n
  · exact Or.inl h1
  · by_cases h2 : isHtmlTag n
    · exact Or.inr (Or.inl h2)
    · exact Or.inr (Or.inr ⟨h1, h2⟩)

private theorem loop_misc {n : NodeD} (h : isMisc n) (ns f i o) :
    isDocumentLoop (n :: ns) f i o = isDocumentLoop ns f i o := by
  rcases h with h | h | h <;> simp [isDocumentLoop, h]

private theorem loop_html {n : NodeD} (h : isHtmlTag n) (ns i o) :
    isDocumentLoop (n :: ns) false i o = isDocumentLoop ns true true o := by
  obtain ⟨h1, m, h2, h3⟩ := h
  simp [isDocumentLoop, h1, h2, (html_name_iff _).2 h3]

private theorem loop_other {n : NodeD} (h1 : ¬ isMisc n) (h2 : ¬ isHtmlTag n) (ns i o) :
    isDocumentLoop (n :: ns) false i o = isDocumentLoop ns false i false := by
  unfold isMisc at h1
  simp only [not_or] at h1
  cases ht : n.nodeType <;> simp_all [isDocumentLoop]
  cases hm : n.tmeta with
  | none => simp
  | some m =>
    have : ¬ isEqualChars m.name htmlTagName (some .lower) = true := by
      rw [html_name_iff]; intro hs; exact h2 ⟨ht, m, hm, hs⟩
    simp [this]

private theorem loop_false_ok (ns : List NodeD) : ∀ f i, (isDocumentLoop ns f i false).2 = false := by
  induction ns with
  | nil => intro f i; rfl
  | cons n ns ih =>
    intro f i
    unfold isDocumentLoop
    cases n.nodeType <;> simp [ih]
    split
    · rfl
    · split
      · split <;> simp [ih]
      · simp [ih]

private theorem loop_found {n : NodeD} (h1 : ¬ isMisc n) (ns : List NodeD) (i o) :
    (isDocumentLoop (n :: ns) true i o).2 = false ∧
    ((isDocumentLoop (n :: ns) true i o).1 = i) := by
  have hrest : ∀ ns : List NodeD, ∀ i o, (isDocumentLoop ns true i o).1 = i := by
    intro ns
    induction ns with
    | nil => intro i o; simp [isDocumentLoop]
    | cons n ns ih =>
      intro i o
      unfold isDocumentLoop
      cases n.nodeType <;> simp [ih]
  unfold isMisc at h1
  simp only [not_or] at h1
  unfold isDocumentLoop
  have hf := loop_false_ok ns true i
  have hr := hrest ns i false
  cases ht : n.nodeType <;> first | exact ⟨hf, hr⟩ | exact ⟨rfl, rfl⟩ | (rw [ht] at h1; simp at h1)

private theorem loop_true (ns : List NodeD) (i o) :
    (isDocumentLoop ns true i o).1 = i ∧
    ((isDocumentLoop ns true i o).2 = true ↔ o = true ∧ ∀ n ∈ ns, isMisc n) := by
  induction ns with
  | nil => simp [isDocumentLoop]
  | cons n ns ih =>
    by_cases h : isMisc n
    · rw [loop_misc h]; simp [ih, h]
    · have := loop_found h ns i o
      simp [this, h]

/-- **C39**: the classification of a child list, in one statement: `is_document` is true iff some child
is an `html` tag, and the syntax is reported fine iff it is the only child that is not a comment, a
doctype or whitespace — or there is no such tag at all. -/
theorem c39_is_document (d : NodeD) (e : Option NodeD) (ts : List Tree) (hd : d.nodeType = .abstractRoot) :
    ((isDocument (.mk d e (some ts))).1 = true ↔ ∃ t ∈ ts, isHtmlTag t.data) ∧
    ((isDocument (.mk d e (some ts))).2 = true ↔
      (∀ t ∈ ts, ¬ isHtmlTag t.data) ∨
      (∃ a t b, ts = a ++ t :: b ∧ isHtmlTag t.data ∧ ∀ x ∈ a ++ b, isMisc x.data)) := by
  have misc_not_html : ∀ n, isMisc n → ¬ isHtmlTag n := by
    intro n h1 h2
    rcases h1 with h | h | h <;> simp [isHtmlTag, h] at h2
  have key : ∀ (ns : List NodeD) (o : Bool),
      ((isDocumentLoop ns false false o).1 = true ↔ ∃ n ∈ ns, isHtmlTag n) ∧
      ((∃ n ∈ ns, isHtmlTag n) → ((isDocumentLoop ns false false o).2 = true ↔
        o = true ∧ ∃ a t b, ns = a ++ t :: b ∧ isHtmlTag t ∧ ∀ x ∈ a ++ b, isMisc x)) := by
    intro ns
    induction ns with
    | nil => intro o; simp [isDocumentLoop]
    | cons n ns ih =>
      intro o
      rcases child_cases n with h | h | ⟨h1, h2⟩
      · rw [loop_misc h]
        have hn := misc_not_html n h
        refine ⟨by rw [(ih o).1]; simp [hn], fun hex => ?_⟩
        have hex' : ∃ n ∈ ns, isHtmlTag n := by simpa [hn] using hex
        rw [(ih o).2 hex']
        refine and_congr_right fun _ => ⟨?_, ?_⟩
        · rintro ⟨a, t, b, rfl, ht, hx⟩
          refine ⟨n :: a, t, b, rfl, ht, ?_⟩
          intro x hx'
          simp only [List.cons_append, List.mem_cons] at hx'
          rcases hx' with rfl | hx'
          · exact h
          · exact hx x hx'
        · rintro ⟨a, t, b, he, ht, hx⟩
          cases a with
          | nil =>
            simp only [List.nil_append, List.cons.injEq] at he
            rw [← he.1] at ht; exact absurd ht hn
          | cons a0 a =>
            simp only [List.cons_append, List.cons.injEq] at he
            refine ⟨a, t, b, he.2, ht, fun x hx' => hx x ?_⟩
            simp only [List.cons_append, List.mem_cons]
            exact Or.inr hx'
      · rw [loop_html h]
        have := loop_true ns true o
        refine ⟨by simp [this.1, h], fun _ => ?_⟩
        rw [this.2]
        refine and_congr_right fun _ => ⟨?_, ?_⟩
        · intro hm; exact ⟨[], n, ns, rfl, h, by simpa using hm⟩
        · rintro ⟨a, t, b, he, ht, hx⟩
          cases a with
          | nil =>
            simp only [List.nil_append, List.cons.injEq] at he
            rw [he.2]; simpa using hx
          | cons a0 a =>
            simp only [List.cons_append, List.cons.injEq] at he
            have := hx a0 (by simp)
            rw [← he.1] at this
            exact absurd h (misc_not_html n this)
      · rw [loop_other h1 h2]
        refine ⟨by rw [(ih false).1]; simp [h2], fun hex => ?_⟩
        rw [loop_false_ok]
        simp only [Bool.false_eq_true, false_iff, not_and]
        rintro - ⟨a, t, b, he, ht, hx⟩
        cases a with
        | nil =>
          simp only [List.nil_append, List.cons.injEq] at he
          rw [← he.1] at ht; exact h2 ht
        | cons a0 a =>
          simp only [List.cons_append, List.cons.injEq] at he
          have := hx a0 (by simp)
          rw [← he.1] at this; exact h1 this
  have hk := key (ts.map Tree.data) true
  have hex : (∃ n ∈ ts.map Tree.data, isHtmlTag n) ↔ ∃ t ∈ ts, isHtmlTag t.data :=
    ⟨fun ⟨_, h1, h2⟩ => (by obtain ⟨t, h3, rfl⟩ := List.mem_map.1 h1; exact ⟨t, h3, h2⟩),
     fun ⟨t, h1, h2⟩ => ⟨t.data, List.mem_map_of_mem h1, h2⟩⟩
  unfold isDocument
  simp only [Tree.data, hd, if_true, Tree.childs]
  rw [hex] at hk
  by_cases hh : ∃ t ∈ ts, isHtmlTag t.data
  · have h1 := hk.1.2 hh
    simp only [h1, Bool.not_true, Bool.false_eq_true, if_false, true_iff]
    refine ⟨hh, ?_⟩
    rw [hk.2 hh]
    constructor
    · rintro ⟨-, a, t, b, he, ht, hx⟩
      right
      obtain ⟨a', r', rfl, rfl, hr⟩ := List.map_eq_append_iff.1 he
      obtain ⟨t', b', rfl, rfl, rfl⟩ := List.map_eq_cons_iff.1 hr
      refine ⟨a', t', b', rfl, ht, fun x hx' => hx x.data ?_⟩
      rw [← List.map_append]; exact List.mem_map_of_mem hx'
    · rintro (h | ⟨a, t, b, rfl, ht, hx⟩)
      · obtain ⟨t, h1, h2⟩ := hh; exact absurd h2 (h t h1)
      · refine ⟨rfl, a.map Tree.data, t.data, b.map Tree.data, by simp, ht, ?_⟩
        intro x hx'
        rw [← List.map_append, List.mem_map] at hx'
        obtain ⟨y, hy, rfl⟩ := hx'
        exact hx y hy
  · have h1 : (isDocumentLoop (List.map Tree.data ts) false false true).1 = false := by
      rw [Bool.eq_false_iff]; intro hc; exact hh (hk.1.1 hc)
    simp only [h1, Bool.not_false, if_true, Bool.false_eq_true, false_iff, true_iff]
    refine ⟨hh, Or.inl ?_⟩
    intro t h1 h2; exact hh ⟨t, h1, h2⟩

/-- **C39**: nodes other than the root, and roots without children, are no documents. -/
theorem c39_not_root (t : Tree) (h : t.data.nodeType ≠ .abstractRoot ∨ t.childs = none) :
    isDocument t = (false, true) := by
  unfold isDocument
  rcases h with h | h
  · simp [h]
  · simp [h]

/-- Non-vacuity: doctype, whitespace and one html tag is a clean document. -/
example : isDocument (treeOf "<!DOCTYPE html> <hTml></hTml>") = (true, true)
    ∧ isDocument (treeOf "<html></html><p></p>") = (true, false)
    ∧ isDocument (treeOf "<p></p>") = (false, true) := by decide +kernel

/-! ## C42 -/

/-- **C42**: if the codec declares `<` and `>` members of the html set, and what it encodes members to
never contains a bracket, then the encoded content contains no bracket. -/
theorem c42_encode_inert (lib : EntityLib) (content : Str)
    (hset : lib.inHtmlSet '<' = true ∧ lib.inHtmlSet '>' = true)
    (henc : ∀ c, lib.inHtmlSet c = true → ∃ s, lib.encodeNamed c = some s ∧ '<' ∉ s ∧ '>' ∉ s) :
    '<' ∉ writeContentEncode lib content ∧ '>' ∉ writeContentEncode lib content := by
  unfold writeContentEncode
  simp only [List.mem_flatMap, not_exists, not_and]
  constructor
  all_goals
    intro c _ hm
    split at hm
    · rename_i h
      obtain ⟨s, h1, h2, h3⟩ := henc c h
      rw [h1] at hm
      first | exact h2 hm | exact h3 hm
    · rename_i h
      simp only [List.mem_singleton] at hm
      subst hm
      first | exact h hset.1 | exact h hset.2

/-- **C42**: characters outside of the set are untouched. -/
theorem c42_encode_other (lib : EntityLib) (content : Str)
    (h : ∀ c ∈ content, lib.inHtmlSet c = false) : writeContentEncode lib content = content := by
  unfold writeContentEncode
  induction content with
  | nil => rfl
  | cons c cs ih =>
    simp only [List.flatMap_cons, h c (by simp)]
    rw [ih fun x hx => h x (by simp [hx])]
    simp

/-- **C42** at node level: with `encode_content`, what a start tag with content renders to is what it
renders to without content, followed by the encoded content for `title`/`textarea` (any case) and by
the raw content for every other element. -/
theorem c42_node_body (lib : EntityLib) (o : RenderOptions) (n : NodeD) (m : TagMeta) (content : Str)
    (st : RenderStatus) (ht : n.nodeType = .tag) (hm : n.tmeta = some m) (hc : n.content = some content)
    (ho : o.encodeContent = true) :
    ∃ st' opn, buildNode lib o { n with content := none } st = .ok (st', opn) ∧
      buildNode lib o n st = .ok (st', opn ++
        if sameName m.name "title".toList ∨ sameName m.name "textarea".toList then
          writeContentEncode lib content else content) := by
  have hp : isPlainTextTag m.name (some .lower) = true ↔
      (sameName m.name "title".toList ∨ sameName m.name "textarea".toList) := by
    simp only [isPlainTextTag, Bool.or_eq_true]
    rw [isEqualChars_lower _ _ (by decide), isEqualChars_lower _ _ (by decide), lowerAll_eq_fold]
    unfold sameName
    rw [show fold "title".toList = titleTagName by decide,
      show fold "textarea".toList = textareaTagName by decide, or_comm]
  unfold buildNode
  simp only [ht, hm, hc, ho, Bool.true_and, List.append_nil]
  refine ⟨_, _, rfl, ?_⟩
  by_cases h : isPlainTextTag m.name (some .lower) = true
  · rw [if_pos h, if_pos (hp.1 h)]
  · rw [if_neg h, if_neg fun hh => h (hp.2 hh)]

/-- Non-vacuity of the codec contract of `c42_encode_inert`. -/
example : writeContentEncode toyLib "a<b>".toList = "a&lt;b&gt;".toList
    ∧ (toyLib.inHtmlSet '<' = true ∧ toyLib.inHtmlSet '>' = true)
    ∧ (∀ c, toyLib.inHtmlSet c = true → ∃ s, toyLib.encodeNamed c = some s ∧ '<' ∉ s ∧ '>' ∉ s) := by
  refine ⟨by decide, by decide, fun c _ => ?_⟩
  by_cases h : c = '<'
  · exact ⟨"&lt;".toList, by simp [toyLib, h], by decide, by decide⟩
  · exact ⟨"&gt;".toList, by simp [toyLib, h], by decide, by decide⟩

end Rphtml
