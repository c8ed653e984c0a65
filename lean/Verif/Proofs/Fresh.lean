import Verif.Spec.Fresh
import Verif.Proofs.CostStep
import Verif.Proofs.RawEnd

/-! # What a step writes is paid for -/

namespace Rphtml
open Spec

theorem fresh_le : ∀ a b : Str, fresh a b ≤ b.length
  | _, [] => by simp [fresh]
  | [], _ :: _ => by simp [fresh]
  | x :: a, y :: b => by
    have := fresh_le a b
    simp only [fresh, List.length_cons]
    split <;> omega

theorem fresh_append : ∀ a b : Str, fresh a (a ++ b) = b.length
  | [], [] => rfl
  | [], _ :: _ => rfl
  | x :: a, b => by simp [fresh, fresh_append a b]

theorem fresh_self (a : Str) : fresh a a = 0 := by
  have := fresh_append a []
  simpa using this

theorem fresh_ge : ∀ a b : Str, b.length ≤ a.length + fresh a b
  | _, [] => by simp
  | [], _ :: _ => by simp [fresh]
  | x :: a, y :: b => by
    have := fresh_ge a b
    simp only [fresh, List.length_cons]
    split <;> omega

theorem fresh_nil (b : Str) : fresh [] b = b.length := by cases b <;> rfl

theorem freshs_same : ∀ l r s : List Str, freshs (l ++ r) (l ++ s) = freshs r s
  | [], _, _ => rfl
  | a :: l, r, s => by simp [freshs, fresh_self, freshs_same l r s]

theorem freshs_self (l : List Str) : freshs l l = 0 := by
  have := freshs_same l [] []
  simpa [freshs] using this

theorem freshs_ge : ∀ a b : List Str, freshs [] b ≤ freshs [] a + freshs a b
  | _, [] => by simp [freshs]
  | [], _ :: _ => by simp [freshs]
  | a :: as, b :: bs => by
    have := freshs_ge as bs
    have := fresh_ge a b
    simp only [freshs]
    omega

theorem cellFresh_self (c : NodeD) : cellFresh c c = 0 := by simp [cellFresh, metaFresh, fresh_self, freshs_self]

theorem cellFresh_ge (a b : NodeD) : cellSize b ≤ cellSize a + cellFresh a b := by
  unfold cellSize cellFresh metaFresh
  have h1 := fresh_ge (a.content.getD []) (b.content.getD [])
  have h2 := fresh_ge (a.tmeta.getD {}).name (b.tmeta.getD {}).name
  have h3 := freshs_ge (attrTexts (a.tmeta.getD {}).attrs) (attrTexts (b.tmeta.getD {}).attrs)
  have h4 := freshs_ge (entryTexts (a.tmeta.getD {}).lcNameMap) (entryTexts (b.tmeta.getD {}).lcNameMap)
  simp only [Option.getD_none, fresh_nil, attrTexts, entryTexts, List.flatMap_nil, List.map_nil, List.reverse_nil] at h3 h4 ⊢
  omega

theorem sumTo_le {f g : Nat → Nat} : ∀ n, (∀ i, i < n → f i ≤ g i) → sumTo f n ≤ sumTo g n
  | 0, _ => Nat.le_refl _
  | n + 1, h => by
    have := sumTo_le n fun i hi => h i (by omega)
    have := h n (by omega)
    simp only [sumTo]
    omega

theorem sumTo_add (f g : Nat → Nat) : ∀ n, sumTo (fun i => f i + g i) n = sumTo f n + sumTo g n
  | 0 => rfl
  | n + 1 => by have := sumTo_add f g n; simp only [sumTo]; omega

theorem sumTo_zero {f : Nat → Nat} (n : Nat) (h : ∀ i, i < n → f i = 0) : sumTo f n = 0 := by
  induction n with
  | zero => rfl
  | succ n ih => simp [sumTo, ih fun i hi => h i (by omega), h n (by omega)]

/-- Only one summand grows. -/
theorem sumTo_one {f g : Nat → Nat} {a k : Nat} (n : Nat) (h : ∀ i, i ≠ a → f i ≤ g i) (ha : f a ≤ g a + k) : sumTo f n ≤ sumTo g n + k := by
  have hlt : ∀ n, n ≤ a → sumTo f n ≤ sumTo g n := fun n hn => sumTo_le n fun i hi => h i (by omega)
  induction n with
  | zero => simp [sumTo]
  | succ n ih =>
    simp only [sumTo]
    by_cases e : n = a
    · have := hlt n (by omega); subst e; omega
    · have := h n e; omega

theorem sumTo_cut {f : Nat → Nat} {m : Nat} (h : ∀ i, m ≤ i → f i = 0) : ∀ n, sumTo f n ≤ sumTo f m := by
  have hmono : ∀ k, sumTo f m ≤ sumTo f (m + k) ∧ sumTo f (m + k) = sumTo f m := by
    intro k
    induction k with
    | zero => simp
    | succ k ih => have := h (m + k) (by omega); rw [← Nat.add_assoc, sumTo]; omega
  have hle : ∀ n k, sumTo f n ≤ sumTo f (n + k) := by
    intro n k
    induction k with
    | zero => simp
    | succ k ih => rw [← Nat.add_assoc, sumTo]; omega
  intro n
  by_cases hn : n ≤ m
  · have := hle n (m - n)
    rwa [Nat.add_sub_cancel' hn] at this
  · have := (hmono (n - m)).2
    rw [Nat.add_sub_cancel' (by omega)] at this
    omega

theorem heapFresh_self (h : Heap) : heapFresh h h = 0 := by
  unfold heapFresh
  refine sumTo_zero _ fun i hi => ?_
  simp only [hi, if_true, cellFresh_self]

theorem heapFresh_ge (h h' : Heap) : heapSize h' ≤ heapSize h + heapFresh h h' := by
  unfold heapSize heapFresh
  refine Nat.le_trans (sumTo_le _ fun i _ => cellFresh_ge (if i < h.size then (h.cell i).toNodeD else {}) _) ?_
  rw [sumTo_add]
  refine Nat.add_le_add_right ?_ _
  refine Nat.le_trans (sumTo_cut (m := h.size) ?_ _) (sumTo_le _ ?_)
  · intro i hi
    rw [if_neg (by omega)]
    simp [cellSize, cellFresh_self]
  · intro i hi
    rw [if_pos hi]
    exact Nat.le_refl _

/-- A change that does not touch the texts. -/
theorem heapFresh_keep {h0 h : Heap} {i : Nat} {f : Cell → Cell} (hf : ∀ c, (f c).content = c.content ∧ (f c).tmeta = c.tmeta) :
    heapFresh h0 (h.upd i f) = heapFresh h0 h := by
  unfold heapFresh
  rw [Heap.upd_size]
  congr 1
  funext j
  by_cases e : j = i
  · rw [Heap.upd_cell, if_pos e]
    simp only [cellFresh, hf]
  · rw [Heap.upd_cell, if_neg e]

theorem heapFresh_mark {h0 h : Heap} (t : Option NodeId) : heapFresh h0 (h.markSpaces t) = heapFresh h0 h := by
  cases t with
  | none => rfl
  | some t => exact heapFresh_keep (h := h) (i := t) (f := fun c => { c with nodeType := .spacesBetweenTag }) fun _ => ⟨rfl, rfl⟩

/-- The content of a node is replaced. -/
theorem heapFresh_content {h0 h : Heap} {i : Nat} {f : Cell → Cell} {w : Str} (hf : ∀ c, (f c).content = some w ∧ (f c).tmeta = c.tmeta) :
    heapFresh h0 (h.upd i f) ≤ heapFresh h0 h + w.length := by
  unfold heapFresh
  rw [Heap.upd_size]
  refine sumTo_one (a := i) _ ?_ ?_
  · intro j hj
    rw [Heap.upd_cell, if_neg hj]
    exact Nat.le_refl _
  · rw [Heap.upd_cell, if_pos rfl]
    simp only [cellFresh, hf, Option.getD_some]
    have := fresh_le ((if i < h0.size then (h0.cell i).toNodeD else {}).content.getD []) w
    omega

/-- The metadata of a node is replaced. -/
theorem heapFresh_meta {h : Heap} {i : Nat} {f : Cell → Cell} {m : TagMeta} (hi : i < h.size) (hf : ∀ c, (f c).content = c.content ∧ (f c).tmeta = some m) :
    heapFresh h (h.upd i f) ≤ metaFresh ((h.cell i).tmeta.getD {}) m := by
  have := heapFresh_self h
  unfold heapFresh at this ⊢
  rw [Heap.upd_size]
  refine Nat.le_trans (sumTo_one (g := fun i => cellFresh (if i < h.size then (h.cell i).toNodeD else {}) (h.cell i).toNodeD) (a := i) (k := metaFresh ((h.cell i).tmeta.getD {}) m) _ ?_ ?_) (by omega)
  · intro j hj
    rw [Heap.upd_cell, if_neg hj]
    exact Nat.le_refl _
  · rw [Heap.upd_cell, if_pos rfl]
    simp only [cellFresh, hf, Option.getD_some, hi, if_true, fresh_self]
    omega

/-- A new node. -/
theorem heapFresh_push {h : Heap} (c : Cell) : heapFresh h (h.push c) ≤ cellSize c.toNodeD := by
  have := heapFresh_self h
  unfold heapFresh at this ⊢
  simp only [Heap.push_size, sumTo, Heap.push_cell, if_true, Nat.lt_irrefl, if_false]
  have e : sumTo (fun i => cellFresh (if i < h.size then (h.cell i).toNodeD else {}) (if i = h.size then c else h.cell i).toNodeD) h.size = 0 := by
    refine sumTo_zero _ fun i hi => ?_
    simp only [hi, if_true, show i ≠ h.size from by omega, if_false, cellFresh_self]
  rw [e]
  simp [cellSize]

theorem cellSize_new (ty : NodeType) (n : Nat) : cellSize (Cell.new ty n).toNodeD = 0 := by
  simp [cellSize, cellFresh, Cell.new, metaFresh, fresh_self, freshs_self]


theorem heapFresh_addChild (d : Doc) (p : NodeId) (c : Cell) (h : cellSize c.toNodeD = 0) : heapFresh d.heap (d.addChild p c).heap = 0 := by
  unfold Doc.addChild
  dsimp only
  rw [heapFresh_keep (f := fun c => { c with childs := some ((d.heap.cell p).childs.getD [] ++ [d.heap.size]) }) fun _ => ⟨rfl, rfl⟩]
  have := heapFresh_push (h := d.heap) { c with parent := some p, index := ((d.heap.cell p).childs.getD []).length, root := some d.root }
  have e : cellSize { c.toNodeD with index := ((d.heap.cell p).childs.getD []).length } = cellSize c.toNodeD := rfl
  exact Nat.le_zero.1 (Nat.le_trans this (Nat.le_of_eq (e.trans h)))

/-! ## Tags -/

theorem attrTexts_append (a b : List Attr) : attrTexts (a ++ b) = attrTexts a ++ attrTexts b := by simp [attrTexts]

theorem metaFresh_self (m : TagMeta) : metaFresh m m = 0 := by simp [metaFresh, fresh_self, freshs_self]

theorem metaFresh_addKey (m : TagMeta) (ci : TagCodeIn) : metaFresh m { m.addAttrKey with codeIn := ci } = 0 := by
  simp only [metaFresh, TagMeta.addAttrKey, fresh_self, freshs_self, attrTexts_append]
  have := freshs_same (attrTexts m.attrs) [] (attrTexts [{ key := some [] }])
  rw [List.append_nil] at this
  rw [this]
  simp [attrTexts, freshs]

theorem metaFresh_addValue (m : TagMeta) (q : Option Char) (ci : TagCodeIn) : metaFresh m { m.addAttrValue q with codeIn := ci } = 0 := by
  simp only [metaFresh, TagMeta.addAttrValue, fresh_self, freshs_self, attrTexts_append]
  have := freshs_same (attrTexts m.attrs) [] (attrTexts [{ value := some [], quote := q }])
  rw [List.append_nil] at this
  rw [this]
  simp [attrTexts, freshs]

theorem attrs_last (as : List Attr) (a' : Attr) :
    freshs (attrTexts as) (attrTexts (as.dropLast ++ [a'])) ≤
      fresh ((as.getLastD {}).key.getD []) (a'.key.getD []) + fresh ((as.getLastD {}).value.getD []) (a'.value.getD []) := by
  rcases List.eq_nil_or_concat as with rfl | ⟨l, a, rfl⟩
  · simp [attrTexts, freshs, fresh_nil]
  · rw [List.concat_eq_append, List.dropLast_concat, attrTexts_append, attrTexts_append, freshs_same]
    simp [attrTexts, freshs]

theorem metaFresh_key (m : TagMeta) (k : Str) (ci : TagCodeIn) : metaFresh m { m.nameLast k with codeIn := ci } ≤ k.length + k.length := by
  have h1 := attrs_last m.attrs { m.attrs.getLastD {} with key := some k }
  have h2 := fresh_le ((m.attrs.getLastD {}).key.getD []) k
  have h3 : freshs (entryTexts m.lcNameMap) (entryTexts (m.mapOrInsert (lowerAll k) (m.attrs.length - 1)).lcNameMap) ≤ k.length := by
    unfold TagMeta.mapOrInsert
    split
    · simp [freshs_self]
    · have := freshs_same (entryTexts m.lcNameMap) [] [lowerAll k]
      rw [List.append_nil] at this
      simp only [entryTexts, List.map_cons, List.reverse_cons]
      rw [entryTexts] at this
      rw [this]
      simp [freshs, lowerAll]
  have h4 : (m.mapOrInsert (lowerAll k) (m.attrs.length - 1)).name = m.name := by unfold TagMeta.mapOrInsert; split <;> rfl
  simp only [fresh_self, Option.getD_some] at h1
  simp only [metaFresh, TagMeta.nameLast, h4, fresh_self]
  omega

theorem metaFresh_value (m : TagMeta) (v : Str) (q : Option Char) (ci : TagCodeIn) : metaFresh m { m.valueLast v q with codeIn := ci } ≤ v.length := by
  have h1 := attrs_last m.attrs { m.attrs.getLastD {} with value := some v, quote := q }
  have h2 := fresh_le ((m.attrs.getLastD {}).value.getD []) v
  simp only [fresh_self, Option.getD_some] at h1
  simp only [metaFresh, TagMeta.valueLast, fresh_self, freshs_self]
  omega

theorem idOf_some {m : TagMeta} {v id : Str} (h : m.idOf v = some id) : id = v := by
  unfold TagMeta.idOf Attr.checkIfId at h
  split at h
  · split at h
    · exact (Option.some.inj h).symm
    · cases h
  · cases h

/-- The length of a new id. -/
def idLen (id : Option Str) : Nat := (id.getD []).length

theorem idOf_work (m : TagMeta) (v : Str) : v.length + idLen (m.idOf v) ≤ valueWork m v := by
  unfold valueWork idLen
  cases h : m.idOf v with
  | none => simp; omega
  | some id =>
    have := idOf_some h
    subst this
    unfold TagMeta.idOf at h
    rw [h]
    simp only [Option.isSome_some, if_true, Option.getD_some]
    omega

theorem tagWaitC_fresh {isDoc allowEq : Bool} {t t' : TagSt} {c : Char} {id : Option Str}
    (h : tagWaitC isDoc allowEq t c none = .cont t' id) : metaFresh t.m t'.m = 0 ∧ id = none := by
  unfold tagWaitC at h
  repeat' split at h
  all_goals first
    | (cases h; done)
    | skip
  all_goals
    simp only [TagOut.cont.injEq] at h
    obtain ⟨rfl, rfl⟩ := h
  all_goals refine ⟨?_, rfl⟩
  all_goals first
    | exact metaFresh_self _
    | exact metaFresh_addKey _ _
    | exact metaFresh_addValue _ _ _
    | simp [metaFresh, fresh_self, freshs_self]

/-- A character inside a tag. -/
theorem tagMore_fresh {d : Doc} {c : Char} {isDoc allowEq : Bool} {m : TagMeta} (hm : d.cur.tmeta = some m)
    (hin : d.handle.inTag = true) {t : TagSt} {id : Option Str} (h : tagChar isDoc allowEq (d.tagSt m) c = .cont t id) :
    fresh d.prevChars t.pc + metaFresh m t.m + idLen id ≤ stepWork d c := by
  have hw : ∀ {x y : Str}, (y = x ∨ y = x ++ [c]) → fresh x y ≤ 1 := by
    intro x y h
    rcases h with rfl | rfl
    · simp [fresh_self]
    · simp [fresh_append]
  have hempty : fresh d.prevChars [] = 0 := by cases d.prevChars <;> rfl
  unfold stepWork
  simp only [hm, Option.getD_some]
  unfold tagChar at h
  simp only [Doc.tagSt] at h
  cases hh : d.handle <;> rw [hh] at hin <;> first | (exact absurd hin (by decide)) | skip
  all_goals simp only [hh] at h ⊢
  · split at h
    · cases h
    · split at h
      · cases h
        simp [fresh_self, metaFresh_self, idLen]
      · have h1 := tagWaitC_cost h
        obtain ⟨h2, rfl⟩ := tagWaitC_fresh h
        have : fresh d.prevChars t.pc ≤ 1 := hw h1.1
        rw [if_neg h1.2]
        simp only [waitWork, h1.2, if_false, idLen, Option.getD_none, List.length_nil] at h2 ⊢
        omega
  · have h1 := tagWaitC_cost h
    obtain ⟨h2, rfl⟩ := tagWaitC_fresh h
    have : fresh d.prevChars t.pc ≤ 1 := hw h1.1
    simp only [waitWork, h1.2, if_false, idLen, Option.getD_none, List.length_nil] at h2 ⊢
    omega
  · repeat' split at h
    all_goals cases h
    · rename_i h1
      subst h1
      have := metaFresh_key m d.prevChars .waitValue
      dsimp only at this ⊢
      simp [keyWork, hempty, idLen] at this ⊢; omega
    · rename_i h1 h2 h3
      subst h3
      have := metaFresh_key m d.prevChars .wait
      dsimp only at this ⊢
      simp [keyWork, hempty, idLen] at this ⊢; omega
    · rename_i h1 h2 h3 h4
      have := metaFresh_key m d.prevChars .keyEnd
      dsimp only at this ⊢
      simp [keyWork, h2, h4, hempty, idLen] at this ⊢; omega
    · rename_i h1 h2 h3 h4
      simp [h1, h2, h3, h4, fresh_append, metaFresh_self, idLen]
  · split at h
    · cases h
    · rename_i h1
      rw [if_neg h1]
      by_cases hq : d.markChar = ' ' <;> simp only [hq, if_true, if_false] at h ⊢
      all_goals
        split at h
        · rename_i h2
          cases h
          have h3 := metaFresh_value m d.prevChars (if d.markChar = ' ' then none else some d.markChar) .wait
          have h4 := idOf_work m d.prevChars
          simp only [hq, if_true, if_false] at h3
          rw [if_pos h2]; dsimp only at h3 ⊢; rw [hempty]; omega
        · rename_i h2
          cases h
          rw [if_neg h2]
          simp [fresh_append, metaFresh_self, idLen]


theorem fresh_empty (a : Str) : fresh a [] = 0 := by cases a <;> rfl

/-- The `>` of a start tag. -/
theorem tagClose_fresh {d : Doc} {c : Char} {isDoc allowEq : Bool} {m m' : TagMeta} (hm : d.cur.tmeta = some m)
    (hin : d.handle.inTag = true) {pc : Str} {mark : Char} {id : Option Str} (h : tagChar isDoc allowEq (d.tagSt m) c = .close m' pc mark id) :
    fresh d.prevChars pc + metaFresh m m' + idLen id + closeWork m' ≤ stepWork d c := by
  have hw : ∀ {x : Option Str}, tagWaitC isDoc allowEq (d.tagSt m) c x = .close m' pc mark id → c = '>' ∧ m' = m ∧ pc = d.prevChars ∧ id = x := by
    intro x h
    unfold tagWaitC at h
    repeat' split at h
    all_goals first
      | (cases h; done)
      | skip
    simp only [TagOut.close.injEq, Doc.tagSt] at h
    rename_i hc
    exact ⟨hc, h.1.symm, h.2.1.symm, h.2.2.2.symm⟩
  have hn : ∀ k ci, closeWork { m.nameLast k with codeIn := ci } = closeWork m := by
    intro k ci
    unfold closeWork TagMeta.nameLast TagMeta.mapOrInsert
    split <;> rfl
  have hv : ∀ v q ci, closeWork { m.valueLast v q with codeIn := ci } = closeWork m := fun _ _ _ => rfl
  unfold stepWork
  simp only [hm, Option.getD_some]
  unfold tagChar at h
  cases hh : d.handle <;> rw [hh] at hin <;> first | (exact absurd hin (by decide)) | skip
  all_goals simp only [hh, show (d.tagSt m).handle = d.handle from rfl] at h ⊢
  · split at h
    · cases h
    · split at h
      · cases h
      · rename_i h1 _
        exact absurd (hw h).1 h1
  · obtain ⟨rfl, rfl, rfl, rfl⟩ := hw h
    simp [fresh_self, metaFresh_self, idLen, waitWork]
  · repeat' split at h
    all_goals cases h
    rename_i h1 h2
    subst h2
    have h3 := metaFresh_key m d.prevChars .keyEnd
    have h4 := hn d.prevChars .keyEnd
    dsimp only [Doc.tagSt] at h3 h4 ⊢
    rw [h4, fresh_empty]
    simp only [keyWork, waitWork, if_true, idLen, Option.getD_none, List.length_nil]
    omega
  · split at h
    · rename_i h1
      cases h
      have h3 := metaFresh_value m d.prevChars none .valueEnd
      have h4 := hv d.prevChars none .valueEnd
      have h5 := idOf_work m d.prevChars
      dsimp only [Doc.tagSt] at h1 h3 h4 ⊢
      rw [if_pos h1, h4, fresh_empty]
      have : waitWork m c = closeWork m := by unfold waitWork; rw [if_pos h1.2]
      omega
    · repeat' split at h
      all_goals cases h

/-- What is new in the registers. -/
def regFresh (d d' : Doc) : Nat :=
  fresh (d.detect.getD []) (d'.detect.getD []) + fresh ((d.inSpecial.map (·.2)).getD []) ((d'.inSpecial.map (·.2)).getD [])

theorem closeTag_fresh {d x : Doc} (m : TagMeta) (h1 : x.detect = d.detect) (h2 : x.inSpecial = d.inSpecial) :
    regFresh d (x.closeTag m) ≤ closeWork m := by
  unfold regFresh Doc.closeTag closeWork
  split
  · simp [Doc.setCodeIn, h1, h2, fresh_self]
  · unfold typeWork
    split
    · have := fresh_le (d.detect.getD []) (['<', '/'] ++ m.name)
      simp only [List.length_append, List.length_cons, List.length_nil] at this
      simp only [Doc.setCodeIn, h2, fresh_self, Option.getD_some]
      omega
    · simp only [Doc.setCodeIn, h1, fresh_self]
      rw [h2]
      cases d.inSpecial with
      | some s => simp [fresh_self]
      | none =>
        cases specialTag (lowerAll m.name) with
        | none => simp [fresh]
        | some s => simp [fresh_nil]; omega

theorem putTag_ids (d : Doc) (t : TagSt) (id : Option Str) : freshs (entryTexts d.idTags) (entryTexts (d.putTag t id).idTags) = idLen id := by
  cases id with
  | none => exact freshs_self _
  | some x =>
    have := freshs_same (entryTexts d.idTags) [] [x]
    rw [List.append_nil] at this
    simp only [Doc.putTag, entryTexts, List.map_cons, List.reverse_cons]
    rw [entryTexts] at this
    rw [this]
    simp [freshs, idLen]

theorem putTag_heapFresh {d : Doc} (t : TagSt) (id : Option Str) (hc : d.current < d.heap.size) :
    heapFresh d.heap (d.putTag t id).heap ≤ metaFresh (d.cur.tmeta.getD {}) t.m :=
  heapFresh_meta (f := fun c => { c with tmeta := some t.m }) hc fun _ => ⟨rfl, rfl⟩

theorem metaFresh_name (n : Str) (b : Bool) : metaFresh {} { name := n, isVoid := b } = n.length := by
  simp [metaFresh, fresh_nil, freshs_self]


theorem docFresh_eq {d d' : Doc} (hi : d'.idTags = d.idTags) :
    docFresh d d' = fresh d.prevChars d'.prevChars + regFresh d d' + heapFresh d.heap d'.heap := by
  unfold docFresh regFresh
  rw [hi, freshs_self]
  omega

theorem regFresh_eq {d d' : Doc} (h1 : d'.detect = d.detect) (h2 : d'.inSpecial = d.inSpecial) : regFresh d d' = 0 := by
  unfold regFresh; rw [h1, h2]; simp [fresh_self]

/-- Only the characters read change. -/
theorem docFresh_prev {d d' : Doc} (h1 : d'.detect = d.detect ∨ d'.detect = none) (h2 : d'.inSpecial = d.inSpecial) (hi : d'.idTags = d.idTags)
    (hh : heapFresh d.heap d'.heap = 0) : docFresh d d' = fresh d.prevChars d'.prevChars := by
  unfold docFresh
  rw [h2, hi, freshs_self, fresh_self, hh]
  rcases h1 with h1 | h1 <;> simp [h1, fresh_self, fresh_empty]

theorem docFresh_prev_le {d d' : Doc} {n : Nat} (h1 : d'.detect = d.detect ∨ d'.detect = none) (h2 : d'.inSpecial = d.inSpecial)
    (hi : d'.idTags = d.idTags) (hh : heapFresh d.heap d'.heap = 0) (hn : fresh d.prevChars d'.prevChars ≤ n) : docFresh d d' ≤ n := by
  rw [docFresh_prev h1 h2 hi hh]; exact hn

theorem docFresh_le {d d' : Doc} {n : Nat} (hi : d'.idTags = d.idTags)
    (hn : fresh d.prevChars d'.prevChars + regFresh d d' + heapFresh d.heap d'.heap ≤ n) : docFresh d d' ≤ n := by
  rw [docFresh_eq hi]; exact hn

theorem docFresh_body {d d' : Doc} {n : Nat} (hi : d'.idTags = d.idTags) (h1 : d'.detect = d.detect) (h2 : d'.inSpecial = d.inSpecial)
    (hn : fresh d.prevChars d'.prevChars + heapFresh d.heap d'.heap ≤ n) : docFresh d d' ≤ n := by
  rw [docFresh_eq hi, regFresh_eq h1 h2]; omega

theorem docFresh_leave {d d' : Doc} {n : Nat} (hi : d'.idTags = d.idTags) (h1 : d'.detect = d.detect)
    (h2 : d'.inSpecial = d.inSpecial ∨ d'.inSpecial = none)
    (hn : fresh d.prevChars d'.prevChars + heapFresh d.heap d'.heap ≤ n) : docFresh d d' ≤ n := by
  rcases h2 with h2 | h2
  · exact docFresh_body hi h1 h2 hn
  · rw [docFresh_eq hi]
    unfold regFresh
    rw [h1, h2, fresh_self]
    simp only [Option.map_none, Option.getD_none, fresh_empty]
    omega

/-- Everything that a step writes is paid for. -/
theorem step_fresh {d d' : Doc} {c : Char} (hd : Ctl d) (h : Step d c d') : docFresh d d' ≤ stepWork d c := by
  have hself := heapFresh_self d.heap
  have hpush : fresh d.prevChars (d.prevChars ++ [c]) = 1 := fresh_append _ _
  have hone : fresh d.prevChars [c] ≤ 1 := fresh_le _ _
  have hempty := fresh_empty d.prevChars
  have hex : ∀ D, d.handle = .exclamationBegin → d.detect = some D → stepWork d c = 2 := by
    intro D hh hD; unfold stepWork exclWork; simp [hh, hD]
  cases h with
  | lt hh hc =>
    refine docFresh_prev_le (by exact .inl rfl) (by rfl) (by rfl) (by exact hself) ?_
    simp [fresh_self]
  | textResume hh hc hf ht w hw =>
    have h0 : stepWork d c = w.length + 1 := by unfold stepWork; simp [hh, hc, hf, ht, hw]
    have h1 := heapFresh_content (h0 := d.heap) (h := d.heap) (i := d.current) (f := fun n => { n with content := some [] }) (w := []) fun _ => ⟨rfl, rfl⟩
    rw [hself] at h1
    refine docFresh_prev_le (by exact .inl rfl) (by rfl) (by rfl) (by exact Nat.le_zero.1 h1) ?_
    rw [h0]
    have := fresh_le d.prevChars (w ++ [c])
    simpa using this
  | textStart hh hc hf p hp =>
    have h0 : stepWork d c = 1 := by
      unfold stepWork
      have : d.cur.nodeType ≠ .spacesBetweenTag := hd.curTy
      cases hx : d.opts.autoFixUnexpectedEndtag <;> simp_all
    have := heapFresh_addChild d p (Cell.new .text d.position) (cellSize_new _ _)
    refine docFresh_prev_le (by exact .inl rfl) (by rfl) (by rfl) (by exact this) ?_
    rw [h0]
    exact hone
  | textMore hh hc =>
    have h0 : stepWork d c = 1 := by unfold stepWork; simp [hh, hc]
    refine docFresh_prev_le (by exact .inl rfl) (by rfl) (by rfl) (by exact hself) ?_
    rw [h0]
    exact Nat.le_of_eq hpush
  | textEnd hh hc =>
    have h0 : stepWork d c = d.prevChars.length := by unfold stepWork; simp [hh, hc]
    have h1 := heapFresh_content (h0 := d.heap) (h := d.heap) (i := d.current) (f := fun n => { n with content := some d.prevChars, endAt := d.position }) (w := d.prevChars) fun _ => ⟨rfl, rfl⟩
    rw [hself] at h1
    refine docFresh_body (by rfl) (by rfl) (by rfl) ?_
    rw [h0]
    simp only [Doc.endText, hempty]
    omega
  | tagOpen hh hc p hp =>
    have h0 : stepWork d c = 1 := by
      have : (isLower c || isUpper c) = true := hc
      unfold stepWork; simp [hh, this]
    have := heapFresh_addChild d p (Cell.new .tag d.memPosition) (cellSize_new _ _)
    refine docFresh_prev_le (by exact .inl rfl) (by rfl) (by rfl) (by rw [heapFresh_mark]; exact this) ?_
    rw [h0]
    exact hone
  | endOpen hh hc =>
    have h1 := heapFresh_push (h := d.heap) { Cell.new .tagEnd d.memPosition with prev := if d.opts.autoFixUnclosedTag then some d.current else none }
    have := cellSize_new .tagEnd d.memPosition
    refine docFresh_prev_le (by exact .inl rfl) (by rfl) (by rfl) (by exact Nat.le_zero.1 (Nat.le_trans h1 (Nat.le_of_eq this))) ?_
    simp [fresh_self]
  | bang hh hc =>
    refine docFresh_prev_le (by exact .inl rfl) (by rfl) (by rfl) (by exact hself) ?_
    simp [fresh_self]
  | ltExtend hh hf hc ht w hw d1 h1 =>
    have h0 : stepWork d c = w.length + 5 + if c = '<' then w.length + 4 else 0 := by
      unfold stepWork ltWork
      simp only [hh, show (isLower c || isUpper c) = false from hc.1, hc.2.1, hc.2.2, hf, ht, hw, if_false, if_true, or_self, true_or, Option.getD_some, Bool.false_eq_true]
    have h2 := heapFresh_content (h0 := d.heap) (h := d.heap) (i := d.current) (f := fun n => { n with content := some [] }) (w := []) fun _ => ⟨rfl, rfl⟩
    rw [hself] at h2
    rw [h0]
    subst h1
    split
    · rename_i he
      have h3 := heapFresh_content (h0 := d.heap) (h := d.heap.upd d.current fun n => { n with content := some [] }) (i := d.current)
        (f := fun n => { n with content := some (w ++ ['&', 'l', 't', ';']), endAt := d.position }) (w := w ++ ['&', 'l', 't', ';']) fun _ => ⟨rfl, rfl⟩
      refine docFresh_body (by rfl) (by rfl) (by rfl) ?_
      simp only [Doc.endText, hempty]
      simp only [List.length_append, List.length_cons, List.length_nil] at h2 h3
      omega
    · refine docFresh_prev_le (by exact .inl rfl) (by rfl) (by rfl) (by exact Nat.le_zero.1 h2) ?_
      have := fresh_le d.prevChars (w ++ ['&', 'l', 't', ';', c])
      simpa using this
  | ltNew hh hf hc ht p hp d1 h1 =>
    have ht2 : d.cur.nodeType ≠ .spacesBetweenTag := hd.curTy
    have h0 : stepWork d c = 5 + if c = '<' then 4 else 0 := by
      unfold stepWork ltWork
      simp only [hh, show (isLower c || isUpper c) = false from hc.1, hc.2.1, hc.2.2, hf, ht, ht2, if_false, if_true, or_self, Bool.false_eq_true, Nat.zero_add]
    have h4 : heapFresh d.heap d1.heap = 0 := by
      subst h1
      dsimp only
      rw [heapFresh_keep (f := fun n => { n with childs := some ((d.heap.cell p).childs.getD [] ++ [d.heap.size]) }) fun _ => ⟨rfl, rfl⟩]
      have h2 := heapFresh_push (h := d.heap) { Cell.new .text d.memPosition with index := ((d.heap.cell p).childs.getD []).length }
      exact Nat.le_zero.1 (Nat.le_trans h2 (Nat.le_of_eq (cellSize_new .text d.memPosition)))
    have hd1 : d1.detect = d.detect ∧ d1.inSpecial = d.inSpecial ∧ d1.idTags = d.idTags := by subst h1; exact ⟨rfl, rfl, rfl⟩
    have hp1 : d1.prevChars.length ≤ 5 ∧ (c = '<' → d1.prevChars.length = 4) := by
      subst h1; simp only; split <;> simp_all
    rw [h0]
    split
    · rename_i he
      have h3 := heapFresh_content (h0 := d.heap) (h := d1.heap) (i := d1.current)
        (f := fun n => { n with content := some d1.prevChars, endAt := d1.position }) (w := d1.prevChars) fun _ => ⟨rfl, rfl⟩
      refine docFresh_body (by exact hd1.2.2) (by exact hd1.1) (by exact hd1.2.1) ?_
      simp only [Doc.endText, hempty]
      have := hp1.2 he
      omega
    · refine docFresh_prev_le (by exact .inl hd1.1) (by exact hd1.2.1) (by exact hd1.2.2) (by exact h4) ?_
      have := fresh_le d.prevChars d1.prevChars
      omega
  | exclFirst hh hdet D hD =>
    refine docFresh_le (by rfl) ?_
    rw [hself]
    unfold regFresh
    simp only [hdet, Option.getD_none, Option.getD_some, fresh_nil, fresh_self]
    unfold stepWork exclWork
    simp only [hh, hdet]
    have l1 : detectComment.length = 2 := rfl
    have l2 : detectDoctype.length = 7 := rfl
    have l3 : detectCdata.length = 7 := rfl
    rcases hD with ⟨rfl, rfl⟩ | ⟨hc, rfl⟩ | ⟨rfl, rfl, sp, n, t, m, e1, e2, e3, _⟩
    · rw [if_neg (by decide)]; omega
    · rw [if_neg (by rcases hc with rfl | rfl <;> decide)]; omega
    · simp only [if_true, e1, e2, Option.bind_some, e3]; omega
  | exclMore hh D hdet hl hc =>
    refine docFresh_prev_le (by exact .inl rfl) (by rfl) (by rfl) (by exact hself) ?_
    rw [hex D hh hdet]
    dsimp only; omega
  | commentOpen hh hdet hl hc p hp =>
    have := heapFresh_addChild d p (Cell.new .comment d.memPosition) (cellSize_new _ _)
    refine docFresh_prev_le (by exact .inr rfl) (by rfl) (by rfl) (by rw [heapFresh_mark]; exact this) ?_
    dsimp only; omega
  | cdataOpen hh hdet hl hc p hp =>
    have := heapFresh_addChild d p (Cell.new .xmlCdata d.memPosition) (cellSize_new _ _)
    refine docFresh_prev_le (by exact .inr rfl) (by rfl) (by rfl) (by rw [heapFresh_mark]; exact this) ?_
    dsimp only; omega
  | doctypeOpen hh hdet hl hc p hp =>
    have := heapFresh_addChild d p (Cell.new .htmlDoctype d.memPosition) (cellSize_new _ _)
    refine docFresh_prev_le (by exact .inr rfl) (by rfl) (by rfl) (by rw [heapFresh_mark]; exact this) ?_
    rw [hex _ hh hdet]
    dsimp only; omega
  | commentMore hh hc =>
    have h0 : 1 ≤ stepWork d c := by unfold stepWork; simp only [hh]; split <;> omega
    refine docFresh_prev_le (by exact .inl rfl) (by rfl) (by rfl) (by exact hself) ?_
    dsimp only; omega
  | commentClose hh hc b hb hp =>
    have h0 : d.prevChars.length ≤ stepWork d c := by
      have := (terminator_iff d.prevChars d.markChar).2 ⟨b, hb, hp⟩
      unfold stepWork
      simp only [hh, hc, if_true]
      rw [if_pos this.2]
      omega
    have h1 := heapFresh_content (h0 := d.heap) (h := d.heap) (i := d.current) (f := fun n => { n with content := some b, endAt := d.position + 1 }) (w := b) fun _ => ⟨rfl, rfl⟩
    rw [hself] at h1
    refine docFresh_body (by rfl) (by rfl) (by rfl) ?_
    have hl : d.prevChars.length = b.length + 2 := by rw [hp]; simp
    dsimp only
    omega
  | doctypeName hh hc =>
    have hn : d.cur.tmeta = none := by
      have := hd.hs; unfold HandleOk at this; simp only [hh] at this; exact this.2.2.2.1
    have h0 : metaWork d.prevChars ≤ stepWork d c := by unfold stepWork; simp only [hh, hc, if_true]; exact Nat.le_refl _
    have h1 := putTag_heapFresh (d := d) { handle := .tagWait, m := { name := d.prevChars, isVoid := isVoidTag (lowerAll d.prevChars) }, pc := [], mark := d.markChar } none hd.curLt
    rw [hn, Option.getD_none, metaFresh_name] at h1
    refine docFresh_body (by rfl) (by rfl) (by rfl) ?_
    unfold metaWork at h0
    have : fresh d.prevChars (d.putTag { handle := .tagWait, m := { name := d.prevChars, isVoid := isVoidTag (lowerAll d.prevChars) }, pc := [], mark := d.markChar } none).prevChars = 0 := hempty
    omega
  | nameMore hh hc =>
    have h0 : stepWork d c = 1 := by unfold stepWork; simp [hh, hc]
    refine docFresh_prev_le (by exact .inl rfl) (by rfl) (by rfl) (by exact hself) ?_
    rw [h0]
    exact Nat.le_of_eq hpush
  | nameEnd hh hc =>
    have hn : d.cur.tmeta = none := by
      have := hd.hs; unfold HandleOk at this; simp only [hh] at this; exact this.2.2.2.1
    have h0 : stepWork d c = metaWork d.prevChars := by
      have hne : c ≠ '>' := by rcases hc with h | h <;> intro e <;> subst e <;> revert h <;> decide
      unfold stepWork; simp only [hh, hne, if_false]
      rw [if_pos hc.symm]
    generalize ht : ({ handle := if c = '/' then .tagSelfClosing else .tagWait, m := { name := d.prevChars, isVoid := isVoidTag (lowerAll d.prevChars) }, pc := [], mark := d.markChar } : TagSt) = t
    have h1 := putTag_heapFresh (d := d) t none hd.curLt
    have hm : t.m = { name := d.prevChars, isVoid := isVoidTag (lowerAll d.prevChars) } := by rw [← ht]
    rw [hn, Option.getD_none, hm, metaFresh_name] at h1
    refine docFresh_body (by rfl) (by rfl) (by rfl) ?_
    rw [h0]
    unfold metaWork
    have : fresh d.prevChars (d.putTag t none).prevChars = 0 := by rw [← ht]; exact hempty
    omega
  | nameClose hh hc m hm =>
    have hn : d.cur.tmeta = none := by
      have := hd.hs; unfold HandleOk at this; simp only [hh] at this; exact this.2.2.2.1
    have h0 : stepWork d c = metaWork d.prevChars + closeWork m := by
      unfold stepWork closeWork; simp only [hh, hc, if_true, hm]
    generalize ht : ({ handle := d.handle, m := m, pc := [], mark := d.markChar } : TagSt) = t
    have h1 := putTag_heapFresh (d := d) t none hd.curLt
    have hm' : t.m = { name := d.prevChars, isVoid := isVoidTag (lowerAll d.prevChars) } := by rw [← ht]; exact hm
    rw [hn, Option.getD_none, hm', metaFresh_name] at h1
    have h2 := closeTag_fresh (d := d) (x := d.putTag t none) m rfl rfl
    refine docFresh_le (by rw [closeTag_idTags]; rfl) ?_
    rw [h0]
    rw [closeTag_heap]
    rw [closeTag_prevChars]
    unfold metaWork
    have : fresh d.prevChars (d.putTag t none).prevChars = 0 := by rw [← ht]; exact hempty
    omega
  | tagMore hh m hm t id ht =>
    have h1 := tagMore_fresh hm hh ht
    have h2 := putTag_heapFresh (d := d) t id hd.curLt
    rw [hm, Option.getD_some] at h2
    have h3 := putTag_ids d t id
    have h4 : regFresh d (d.putTag t id) = 0 := regFresh_eq rfl rfl
    unfold regFresh at h4
    unfold docFresh
    have h5 : (d.putTag t id).prevChars = t.pc := rfl
    rw [h3, h5]
    omega
  | tagClose hh m hm m' pc mark id ht =>
    have h1 := tagClose_fresh hm hh ht
    generalize hq : ({ handle := d.handle, m := m', pc := pc, mark := mark } : TagSt) = t
    have h2 := putTag_heapFresh (d := d) t id hd.curLt
    have hm' : t.m = m' := by rw [← hq]
    rw [hm, Option.getD_some, hm'] at h2
    have h3 := putTag_ids d t id
    have h4 := closeTag_fresh (d := d) (x := d.putTag t id) m' rfl rfl
    unfold regFresh at h4
    unfold docFresh
    have h5 : (d.putTag t id).prevChars = pc := by rw [← hq]; rfl
    rw [closeTag_idTags, closeTag_heap, closeTag_prevChars, h3, h5]
    omega
  | tagSelf hh hc m hm ha =>
    have h1 := heapFresh_meta (h := d.heap) (i := d.current) (f := fun n => { n with tmeta := some { m with selfClosed := true } }) (m := { m with selfClosed := true }) hd.curLt fun _ => ⟨rfl, rfl⟩
    have h2 : metaFresh ((d.heap.cell d.current).tmeta.getD {}) { m with selfClosed := true } = 0 := by
      have : (d.heap.cell d.current).tmeta = some m := hm
      rw [this, Option.getD_some]
      simp [metaFresh, fresh_self, freshs_self]
    refine docFresh_prev_le (by exact .inl rfl) (by rfl) (by rfl) (by dsimp only; omega) ?_
    simp [fresh_self]
  | endMore hh hc =>
    have h0 : stepWork d c = 1 := by unfold stepWork; simp [hh, hc]
    refine docFresh_prev_le (by exact .inl rfl) (by rfl) (by rfl) (by exact hself) ?_
    rw [h0]
    exact Nat.le_of_eq hpush
  | endMatch hh hc t m hm =>
    have h0 : d.prevChars.length ≤ stepWork d c := by unfold stepWork endWork; simp only [hh, hc, if_true]; omega
    have h1 := heapFresh_content (h0 := d.heap) (h := (d.heap.upd t fun n => { n with endTag := some d.current }).markSpaces (d.markTarget t)) (i := d.current)
      (f := fun n => { n with endAt := d.position + 1, parent := some t, content := some d.prevChars }) (w := d.prevChars) fun _ => ⟨rfl, rfl⟩
    rw [heapFresh_mark, heapFresh_keep (f := fun n => { n with endTag := some d.current }) fun _ => ⟨rfl, rfl⟩, hself] at h1
    refine docFresh_leave (by rfl) (by rfl) ?_ ?_
    · dsimp only
      cases d.inSpecial with
      | none => exact .inr rfl
      | some s =>
        obtain ⟨sp, n⟩ := s
        simp only
        split
        · exact .inr rfl
        · exact .inl rfl
    dsimp only
    unfold Doc.endHeap
    omega
  | endStray hh hc hf hm =>
    refine docFresh_prev_le (by exact .inl rfl) (by rfl) (by rfl) (by exact hself) ?_
    dsimp only; omega
  | rawMore hh hc =>
    have h0 : 1 ≤ stepWork d c := by
      unfold stepWork contentWork
      simp only [hh]
      split
      · omega
      · split
        · omega
        · rename_i hne _
          rcases hc with hc | ⟨e, he, hr⟩
          · exact absurd hc hne
          · unfold rawEnd at hr
            simp only [Option.map_eq_none_iff] at hr
            rw [he, Option.getD_some, hr]
            simp only; omega
    refine docFresh_prev_le (by exact .inl rfl) (by rfl) (by rfl) (by exact hself) ?_
    dsimp only; omega
  | rawClose hh hc e he n hn =>
    have h1 := heapFresh_content (h0 := d.heap) (h := d.heap.push { Cell.new .tagEnd (d.position + 1) with content := some (d.prevChars.drop (n + 2)), parent := some d.current }) (i := d.current)
      (f := fun x => { x with endTag := some d.heap.size, content := some (d.prevChars.take n) }) (w := d.prevChars.take n) fun _ => ⟨rfl, rfl⟩
    have h2 := heapFresh_push (h := d.heap) { Cell.new .tagEnd (d.position + 1) with content := some (d.prevChars.drop (n + 2)), parent := some d.current }
    have h3 : cellSize { (Cell.new .tagEnd (d.position + 1)).toNodeD with content := some (d.prevChars.drop (n + 2)) } = d.prevChars.length - (n + 2) := by
      simp [cellSize, cellFresh, Cell.new, metaFresh, fresh_nil, freshs_self]
    have h4 := Nat.le_trans h2 (Nat.le_of_eq h3)
    have h5 : (d.prevChars.take n).length ≤ n := by simp; omega
    have h6 : n + (d.prevChars.length - (n + 2)) ≤ stepWork d c := by
      unfold rawEnd at hn
      simp only [Option.map_eq_some_iff] at hn
      obtain ⟨rest, hr, rfl⟩ := hn
      have hl : e.length ≤ d.prevChars.length := by
        obtain ⟨k, h1, h2⟩ := (contentMatch_iff _ _ _ _).1 hr
        have h3 := sameText_length h2
        have h4 := congrArg List.length h1
        have h5 := (List.dropWhile_sublist (l := d.prevChars.reverse) isWs).length_le
        simp only [List.length_append, List.length_reverse] at h3 h4 h5
        omega
      unfold stepWork contentWork
      simp only [hh, hc, ne_eq, not_true_eq_false, if_false, he, Option.getD_some, hr]
      rw [if_neg (by omega)]
      refine Nat.le_trans ?_ (Nat.le_add_left _ _)
      show _ ≤ 2 * (d.prevChars.length - rest.length) + rest.length
      omega
    refine docFresh_le (by rfl) ?_
    unfold regFresh
    dsimp only
    simp only [Option.getD_none, fresh_empty, fresh_self]
    unfold Doc.rawHeap
    omega

end Rphtml
