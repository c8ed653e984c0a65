import Verif.Model.Cost
import Verif.Proofs.ErrExact
import Verif.Proofs.Final

/-!
# Bounds for the work of one character

A potential for the work of the parser: what a character costs beyond a constant was paid for when the
characters were read, except where a finished text is taken up again.
-/

namespace Rphtml

/-! ## The pieces -/

theorem eqWork_left (a b : Str) : eqWork a b ≤ 1 + a.length := by unfold eqWork; split <;> omega
theorem eqWork_right (a b : Str) : eqWork a b ≤ 1 + b.length := by unfold eqWork; split <;> omega

theorem voidWork_le (n : Str) : voidWork n ≤ 80 := by
  have h : ∀ l : List Str, (l.map fun v => eqWork v n).sum ≤ (l.map fun v => 1 + v.length).sum := by
    intro l
    induction l with
    | nil => simp
    | cons a l ih => simp only [List.map_cons, List.sum_cons]; have := eqWork_left a n; omega
  exact Nat.le_trans (h voidElements) (by decide)

theorem rawNameWork_le (n : Str) : rawNameWork n ≤ 40 := by
  unfold rawNameWork
  have h1 := eqWork_right n styleTagName
  have h2 := eqWork_right n scriptTagName
  have h3 := eqWork_right n textareaTagName
  have h4 := eqWork_right n titleTagName
  have e1 : styleTagName.length = 5 := rfl
  have e2 : scriptTagName.length = 6 := rfl
  have e3 : textareaTagName.length = 8 := rfl
  have e4 : titleTagName.length = 5 := rfl
  omega

theorem metaWork_le (n : Str) : metaWork n ≤ 2 * n.length + 80 := by
  unfold metaWork; have := voidWork_le n; omega

theorem typeWork_le (n : Str) : typeWork n ≤ 3 * n.length + 60 := by
  unfold typeWork
  have h1 := rawNameWork_le n
  have h2 := eqWork_right n scriptTagName
  have h3 := eqWork_right n styleTagName
  have e1 : styleTagName.length = 5 := rfl
  have e2 : scriptTagName.length = 6 := rfl
  split <;> omega

theorem closeWork_le (m : TagMeta) : closeWork m ≤ 3 * m.name.length + 60 := by
  unfold closeWork; split
  · omega
  · exact typeWork_le _

theorem waitWork_le (m : TagMeta) (c : Char) : waitWork m c ≤ 3 * m.name.length + 60 := by
  unfold waitWork; split
  · exact closeWork_le m
  · omega

theorem valueWork_le (m : TagMeta) (v : Str) : valueWork m v ≤ 3 * v.length + 3 := by
  unfold valueWork
  have := eqWork_right (((m.attrs.getLastD {}).key).getD []) ['i', 'd']
  simp only [List.length_cons, List.length_nil] at this
  split <;> omega

theorem trailing_le (s : Str) : trailing s ≤ s.length := by
  unfold trailing
  have := (List.takeWhile_prefix (p := isWs) (l := s.reverse)).length_le
  simpa using this

theorem trailing_nil : trailing [] = 0 := rfl

theorem trailing_push (s : Str) (c : Char) : trailing (s ++ [c]) ≤ trailing s + 1 := by
  unfold trailing
  simp only [List.reverse_append, List.reverse_cons, List.reverse_nil, List.nil_append, List.singleton_append, List.takeWhile_cons]
  split <;> simp

theorem trailing_solid (s : Str) {c : Char} (h : isWs c = false) : trailing (s ++ [c]) = 0 := by
  unfold trailing
  simp [h]

theorem matchWork_le (b : Bool) (x y : Str) : matchWork b x y ≤ x.length := by
  induction x generalizing y with
  | nil => simp [matchWork]
  | cons d ds ih =>
    cases y with
    | nil => simp [matchWork]
    | cons p ps =>
      simp only [matchWork, List.length_cons]
      have := ih ps
      split <;> omega

theorem contentMatch_length {b : Bool} {x y r : Str} (h : contentMatch b x y = some r) : r.length ≤ y.length := by
  induction x generalizing y with
  | nil => simp [contentMatch] at h; subst h; exact Nat.le_refl _
  | cons d ds ih =>
    cases y with
    | nil => simp [contentMatch] at h
    | cons p ps =>
      simp only [contentMatch] at h
      split at h
      · have := ih h; simp; omega
      · cases h

theorem trimEnd_length (s : Str) : (charsTrimEnd s).length ≤ s.length := by
  unfold charsTrimEnd; simp

theorem endWork_le (d : Doc) : endWork d ≤ 5 * d.prevChars.length + 2 := by
  unfold endWork
  have ht := trimEnd_length d.prevChars
  have h1 := fun x => eqWork_right x (charsTrimEnd d.prevChars)
  dsimp only
  split <;> split
  · rename_i m _ _ _ sp _
    have := h1 m.name
    have := h1 sp
    omega
  · rename_i m _ _ _
    have := h1 m.name
    omega
  · rename_i sp _
    have := h1 sp
    omega
  · omega

theorem contentWork_le (d : Doc) (c : Char) : contentWork d c ≤ 4 * d.prevChars.length + 1 := by
  unfold contentWork
  dsimp only
  split
  · omega
  · split
    · omega
    · have h1 := trailing_le d.prevChars
      have h2 := matchWork_le d.opts.caseSensitiveTagname (d.detect.getD []).reverse (d.prevChars.reverse.dropWhile isWs)
      simp only [List.length_reverse] at h2
      split
      · rename_i rest hm
        have h3 := contentMatch_length hm
        have h4 := (List.dropWhile_suffix (p := isWs) (l := d.prevChars.reverse)).length_le
        simp only [List.length_reverse] at h4
        have h5 : 2 * (d.prevChars.length - rest.length) + rest.length ≤ 2 * d.prevChars.length := by omega
        exact Nat.le_trans (Nat.add_le_add_left h5 _) (by omega)
      · omega

/-- The raw-text elements have short names. -/
theorem rawName_length {n : Str} (h : isContentTag (lowerAll n) none = true) : n.length ≤ 8 := by
  have hl : (lowerAll n).length = n.length := by simp [lowerAll]
  simp only [isContentTag, isScriptOrStyle, isPlainTextTag, Bool.or_eq_true] at h
  have key : ∀ m : Str, isEqualChars (lowerAll n) m none = true → n.length = m.length := by
    intro m hm
    unfold isEqualChars at hm
    split at hm
    · cases hm
    · rename_i hne
      rw [hl] at hne
      omega
  rcases h with (h | h) | (h | h) <;> have := key _ h <;> simp [styleTagName, scriptTagName, textareaTagName, titleTagName] at this <;> omega

/-- The elements that open foreign content have short names. -/
theorem specialTag_length {n : Str} (h : specialTag (lowerAll n) ≠ none) : n.length ≤ 4 := by
  have hl : (lowerAll n).length = n.length := by simp [lowerAll]
  unfold specialTag at h
  split at h
  · rename_i e; rw [e] at hl; simp at hl; omega
  · split at h
    · rename_i e; rw [e] at hl; simp at hl; omega
    · exact absurd rfl h

/-! ## The mass of the names -/

/-- The length of the name of a node. -/
def nameLen (c : Cell) : Nat :=
  match c.tmeta with
  | some m => m.name.length
  | none => 0

/-- The names of the nodes below `n`. -/
def namesUpTo (h : Heap) : Nat → Nat
  | 0 => 0
  | n + 1 => namesUpTo h n + nameLen (h.cell n)

/-- All names. -/
def Heap.names (h : Heap) : Nat := namesUpTo h h.size

theorem namesUpTo_congr {h k : Heap} {n : Nat} (e : ∀ i, i < n → nameLen (k.cell i) = nameLen (h.cell i)) :
    namesUpTo k n = namesUpTo h n := by
  induction n with
  | zero => rfl
  | succ n ih => simp only [namesUpTo]; rw [ih fun i hi => e i (by omega), e n (by omega)]

theorem namesUpTo_upd (h : Heap) (i : NodeId) (f : Cell → Cell) (k : Nat) (e : nameLen (f (h.cell i)) ≤ nameLen (h.cell i) + k) (n : Nat) :
    namesUpTo (h.upd i f) n ≤ namesUpTo h n + k := by
  induction n with
  | zero => simp [namesUpTo]
  | succ n ih =>
    simp only [namesUpTo]
    by_cases hn : n = i
    · subst hn
      rw [Heap.upd_cell_self, namesUpTo_congr (h := h) (k := h.upd n f)]
      · omega
      · intro j hj; rw [Heap.upd_cell_ne _ _ (by omega)]
    · rw [Heap.upd_cell_ne _ _ hn]; omega

theorem names_upd (h : Heap) (i : NodeId) (f : Cell → Cell) (k : Nat) (e : nameLen (f (h.cell i)) ≤ nameLen (h.cell i) + k) :
    (h.upd i f).names ≤ h.names + k := namesUpTo_upd h i f k e h.size

theorem names_same (h : Heap) (i : NodeId) (f : Cell → Cell) (e : ∀ c, (f c).tmeta = c.tmeta) : (h.upd i f).names ≤ h.names :=
  names_upd h i f 0 (by unfold nameLen; rw [e]; exact Nat.le_refl _)

theorem names_push (h : Heap) (c : Cell) (e : c.tmeta = none) : (h.push c).names ≤ h.names := by
  unfold Heap.names
  simp only [Heap.push_size, namesUpTo, Heap.push_cell, if_true]
  rw [namesUpTo_congr (h := h)]
  · simp [nameLen, e]
  · intro i hi; rw [Heap.push_cell, if_neg (by omega)]

theorem names_mark (h : Heap) (o : Option NodeId) : (h.markSpaces o).names ≤ h.names := by
  unfold Heap.markSpaces
  split
  · exact names_same _ _ _ fun _ => rfl
  · exact Nat.le_refl _

theorem names_addChild (d : Doc) (p : NodeId) (c : Cell) (e : c.tmeta = none) : (d.addChild p c).heap.names ≤ d.heap.names := by
  unfold Doc.addChild
  dsimp only
  refine Nat.le_trans (names_same _ _ _ ?_) (names_push _ _ ?_)
  · intro _; rfl
  · exact e

/-- What an error or the end of the text still costs, and what the characters read so far have paid. -/
def potential (d : Doc) : Nat :=
  13 * d.prevChars.length + trailing d.prevChars + (if d.handle.inTag then 6 * nameLen d.cur else 0) + d.heap.names +
    d.heap.size

/-- The text that is taken up again: by a character behind a dropped end tag, or by the repair of a `<`. -/
def resumed (d : Doc) : Nat :=
  if (d.handle = .wait ∧ d.opts.autoFixUnexpectedEndtag = true ∧ d.cur.nodeType = .text) ∨
      (d.handle = .unkownTag ∧ d.opts.autoFixUnescapedLt = true) then (d.cur.content.getD []).length else 0

theorem tagWaitC_cost {isDoc allowEq : Bool} {t t' : TagSt} {c : Char} {i id : Option Str}
    (h : tagWaitC isDoc allowEq t c i = .cont t' id) : (t'.pc = t.pc ∨ t'.pc = t.pc ++ [c]) ∧ c ≠ '>' := by
  unfold tagWaitC at h
  repeat' split at h
  all_goals first
    | (cases h; done)
    | skip
  all_goals
    simp only [TagOut.cont.injEq] at h
    obtain ⟨rfl, _⟩ := h
  all_goals refine ⟨?_, ?_⟩
  all_goals first
    | exact Or.inl rfl
    | exact Or.inr rfl
    | assumption
    | (intro e; subst e; simp_all)

theorem tagMore_cost {d : Doc} {c : Char} {isDoc allowEq : Bool} {m : TagMeta} (hm : d.cur.tmeta = some m)
    (hin : d.handle.inTag = true) {t : TagSt} {id : Option Str} (h : tagChar isDoc allowEq (d.tagSt m) c = .cont t id) :
    ((t.pc = d.prevChars ∨ t.pc = d.prevChars ++ [c]) ∧ stepWork d c ≤ 1) ∨
      (t.pc = [] ∧ stepWork d c ≤ 3 * d.prevChars.length + 3) := by
  have hv := valueWork_le m d.prevChars
  unfold stepWork
  simp only [hm, Option.getD_some]
  unfold tagChar at h
  simp only [Doc.tagSt] at h
  cases hh : d.handle <;> rw [hh] at hin <;> first | (exact absurd hin (by decide)) | skip
  all_goals simp only [hh] at h ⊢
  · split at h
    · cases h
    · split at h
      · cases h
        rename_i h1 h2
        simp [h1, waitWork]
      · have := tagWaitC_cost h
        rw [if_neg this.2]
        exact Or.inl ⟨this.1, by simp [waitWork, this.2]⟩
  · have := tagWaitC_cost h
    exact Or.inl ⟨this.1, by simp [waitWork, this.2]⟩
  · repeat' split at h
    all_goals cases h
    · rename_i h1
      refine Or.inr ⟨rfl, ?_⟩
      subst h1
      simp [keyWork]; omega
    · rename_i h1 h2 h3
      refine Or.inr ⟨rfl, ?_⟩
      subst h3
      simp [keyWork]; omega
    · rename_i h1 h2 h3 h4
      refine Or.inr ⟨rfl, ?_⟩
      simp [keyWork, h2, h4]; omega
    · rename_i h1 h2 h3 h4
      refine Or.inl ⟨Or.inr rfl, ?_⟩
      simp [h1, h2, h3, h4]
  · split at h
    · cases h
    · rename_i h1
      rw [if_neg h1]
      by_cases hq : d.markChar = ' ' <;> simp only [hq, if_true, if_false] at h ⊢
      all_goals
        split at h
        · rename_i h2
          cases h
          refine Or.inr ⟨rfl, ?_⟩
          rw [if_pos h2]; exact hv
        · rename_i h2
          cases h
          refine Or.inl ⟨Or.inr rfl, ?_⟩
          rw [if_neg h2]; exact Nat.le_refl _

end Rphtml
