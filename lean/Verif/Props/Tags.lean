import Verif.Proofs.MetaInv
import Verif.Proofs.TextInv
import Verif.Props.Graph

/-! # C11, C12: the id table and the attribute name table -/

namespace Rphtml
open Spec

/-- The tags of the finished document are those of the last state, except for the `auto_fix` mark. -/
theorem final_tmeta {d : Doc} (hd : Ctl d) (g : MetaInv d) (he : EofOk d) {i : NodeId} (hi : i < d.finalHeap.size)
    {m : TagMeta} (hm : (d.finalHeap.cell i).tmeta = some m) : i < d.heap.size ∧
      (d.finalHeap.cell i).nodeType = (d.heap.cell i).nodeType ∧ ∃ m0, (d.heap.cell i).tmeta = some m0 ∧
      (m = m0 ∨ (i ∈ d.chain ∧ i ≠ 0 ∧ d.opts.autoFixUnclosedTag = true ∧ m = { m0 with autoFix := true })) := by
  rcases Nat.lt_or_ge i d.heap.size with h | h
  · have e := eofCell hd he i h
    have key : ∃ m0, (d.heap.cell i).tmeta = some m0 ∧
        (m = m0 ∨ (i ∈ d.chain ∧ i ≠ 0 ∧ d.opts.autoFixUnclosedTag = true ∧ m = { m0 with autoFix := true })) := by
      rcases e.tmeta with h3 | ⟨h1, h2, h3, m0, h4, h5⟩
      · exact ⟨m, by rw [← h3, hm], Or.inl rfl⟩
      · rw [hm] at h5; cases h5
        exact ⟨m0, h4, Or.inr ⟨h1, h2, h3, rfl⟩⟩
    refine ⟨h, ?_, key⟩
    rcases e.ty with h1 | h1
    · exact h1
    · obtain ⟨m0, h2, _⟩ := key
      have := g.kind i h (by rw [h2]; simp)
      rw [h1.1] at this
      rcases this with h | h <;> cases h
  · exfalso
    rw [finalHeap_size] at hi
    obtain ⟨_, j, m', _, _, _, hc⟩ := fixedHeap_new hd i h hi
    have h0 : i ≠ 0 := by have := hd.sizePos; omega
    have hcur : i ≠ d.current := by have := hd.curLt; omega
    rw [finalHeap_cell i h0 (fun _ => hcur), hc] at hm
    cases hm

/-- Every tag of the last state is a tag of the finished document. -/
theorem final_tmeta_of {d : Doc} (hd : Ctl d) (he : EofOk d) {i : NodeId} (hi : i < d.heap.size)
    {m0 : TagMeta} (hm : (d.heap.cell i).tmeta = some m0) :
    ∃ m, (d.finalHeap.cell i).tmeta = some m ∧ m.attrs = m0.attrs := by
  rcases (eofCell hd he i hi).tmeta with h3 | ⟨h1, h2, h3, m1, h4, h5⟩
  · exact ⟨m0, by rw [h3, hm], rfl⟩
  · rw [hm] at h4; cases h4
    exact ⟨_, h5, rfl⟩

/-! ## C11 -/

/-- Does node `i` have an attribute named `id` (in any case) with the value `x`? -/
def Spec.carriesId (h : Heap) (x : List Char) (i : NodeId) : Bool :=
  match (h.cell i).tmeta with
  | none => false
  | some m => m.attrs.any fun a => a.key.map fold == some ['i', 'd'] && a.value == some x

theorem checkIfId_iff (a : Attr) (x : Str) :
    a.checkIfId = some x ↔ (a.key.map fold == some ['i', 'd'] && a.value == some x) = true := by
  unfold Attr.checkIfId
  cases hk : a.key with
  | none => simp
  | some k =>
    have h := isEqualChars_lower k ['i', 'd'] (by decide)
    rw [lowerAll_eq_fold] at h
    simp only [Option.map_some]
    by_cases h1 : fold k = ['i', 'd']
    · rw [if_pos (h.2 h1), h1]; simp
    · rw [if_neg (fun h2 => h1 (h.1 h2))]; simp [h1]

theorem carriesId_iff (h : Heap) (x : Str) (i : NodeId) : carriesId h x i = true ↔ (h.cell i).ids x := by
  unfold carriesId Cell.ids
  cases hm : (h.cell i).tmeta with
  | none => simp
  | some m =>
    simp only [List.any_eq_true, Option.some.injEq]
    constructor
    · rintro ⟨a, ha, h1⟩
      exact ⟨m, rfl, a, ha, (checkIfId_iff a x).2 h1⟩
    · rintro ⟨m', rfl, a, ha, h1⟩
      exact ⟨a, ha, (checkIfId_iff a x).1 h1⟩

theorem lookup_sorted {x : Str} : ∀ {l : List (Str × NodeId)}, l.Pairwise (fun a b => b.2 ≤ a.2) →
    match l.lookup x with
    | none => ∀ i, (x, i) ∉ l
    | some i => (x, i) ∈ l ∧ ∀ j, (x, j) ∈ l → j ≤ i
  | [], _ => by simp
  | (y, i) :: l, h => by
    obtain ⟨h1, h2⟩ := List.pairwise_cons.1 h
    rw [List.lookup_cons]
    by_cases hy : x = y
    · subst hy
      simp only [beq_self_eq_true]
      refine ⟨by simp, ?_⟩
      intro j hj
      rcases List.mem_cons.1 hj with h3 | h3
      · cases h3; exact Nat.le_refl _
      · exact h1 _ h3
    · have : (x == y) = false := by simp [hy]
      simp only [this]
      have ih := lookup_sorted (x := x) h2
      cases hl : l.lookup x with
      | none =>
        rw [hl] at ih
        intro j hj
        rcases List.mem_cons.1 hj with h3 | h3
        · cases h3; exact hy rfl
        · exact ih j h3
      | some j =>
        rw [hl] at ih
        refine ⟨by simp [ih.1], ?_⟩
        intro k hk
        rcases List.mem_cons.1 hk with h3 | h3
        · cases h3; exact absurd rfl hy
        · exact ih.2 k h3

/-- **C11**: `get_element_by_id(x)` is the last node in document order (the order of a depth first traversal) that has
an attribute named `id`, in any case, with value `x`; `None` if there is no such node. -/
theorem c11_lookup {s : Str} {o : ParseOptions} {d : Doc} (h : Doc.parse s o = .ok d) :
    ∃ l, preorder d.heap d.heap.size d.root = some l ∧
      ∀ x, d.getElementById x = l.reverse.find? (carriesId d.heap x) := by
  obtain ⟨_, _, _, l, hl, hsort, hmem⟩ := c08_tree h
  refine ⟨l, hl, fun x => ?_⟩
  obtain ⟨hroot, h0, ht0, gr, ge, gor⟩ := parse_graph h
  obtain ⟨d0, hr, he, hh, _, hid, _⟩ := parse_ok h
  have hd := hr.ctl
  have g := hr.tags
  -- the table against the finished heap
  have hids : ∀ i, (x, i) ∈ d.idTags ↔ i ∈ l ∧ carriesId d.heap x i = true := by
    intro i
    rw [hid, g.ids x i, carriesId_iff, hmem, hroot, gr.inDoc_iff h0 ht0, hh]
    constructor
    · rintro ⟨h1, m0, h2, h3⟩
      obtain ⟨m, h4, h5⟩ := final_tmeta_of hd he h1 h2
      have hlt : i < d0.finalHeap.size := by rw [finalHeap_size]; exact Nat.lt_of_lt_of_le h1 (fixedHeap_size d0)
      refine ⟨⟨hlt, ?_⟩, m, h4, by rw [h5]; exact h3⟩
      rw [(final_tmeta hd g he hlt h4).2.1]
      rcases g.kind i h1 (by rw [h2]; simp) with h | h <;> rw [h] <;> simp
    · rintro ⟨⟨h1, _⟩, m, h2, h3⟩
      obtain ⟨h4, _, m0, h5, h6⟩ := final_tmeta hd g he h1 h2
      refine ⟨h4, m0, h5, ?_⟩
      rcases h6 with h6 | ⟨_, _, _, h6⟩ <;> rw [h6] at h3 <;> exact h3
  have hls := lookup_sorted (x := x) (l := d.idTags) (by rw [hid]; exact g.sorted)
  unfold Doc.getElementById
  have hsort' : l.reverse.Pairwise (· > ·) := List.pairwise_reverse.2 hsort
  cases hc : d.idTags.lookup x with
  | none =>
    rw [hc] at hls
    symm
    rw [List.find?_eq_none]
    intro i hi hcar
    exact hls i ((hids i).2 ⟨List.mem_reverse.1 hi, hcar⟩)
  | some i =>
    rw [hc] at hls
    obtain ⟨h1, h2⟩ := hls
    obtain ⟨h3, h4⟩ := (hids i).1 h1
    symm
    cases hf : l.reverse.find? (carriesId d.heap x) with
    | none =>
      rw [List.find?_eq_none] at hf
      exact absurd h4 (hf i (List.mem_reverse.2 h3))
    | some j =>
      obtain ⟨hj, as, bs, e, hn⟩ := List.find?_eq_some_iff_append.1 hf
      have hj2 : j ∈ l := List.mem_reverse.1 (by rw [e]; simp)
      have hle := h2 j ((hids j).2 ⟨hj2, hj⟩)
      have hi2 : i ∈ as ++ j :: bs := by rw [← e]; exact List.mem_reverse.2 h3
      rw [e] at hsort'
      rcases List.mem_append.1 hi2 with h5 | h5
      · have := hn i h5
        rw [h4] at this; cases this
      · rcases List.mem_cons.1 h5 with h6 | h6
        · rw [h6]
        · have := (List.pairwise_cons.1 (List.pairwise_append.1 hsort').2.1).1 i h6
          omega

/-- Duplicate ids: the last one wins, also over a doctype and whatever the case of the name. -/
example : (match Doc.parse "<!DOCTYPE id=a><p id=a><b ID='a'></b></p><i id=b>".toList { autoFixUnclosedTag := true } with
    | .ok d => (d.getElementById ['a'], d.getElementById ['b'], d.getElementById ['c'])
    | _ => (none, none, none)) = (some 3, some 6, none) := by decide +kernel

/-! ## C12 -/

/-- The name tables and attributes of the finished document. -/
theorem parse_metaWf {s : Str} {o : ParseOptions} {d : Doc} (h : Doc.parse s o = .ok d) {i : NodeId} (hi : i < d.heap.size)
    {m : TagMeta} (hm : (d.heap.cell i).tmeta = some m) :
    MetaWf o.allowAttrKeyStartsWithEqualSign (decide ((d.heap.cell i).nodeType = .htmlDoctype)) m ∨
    (o.autoFixUnclosedTag = true ∧ ∃ t : TagSt, t.m.attrs = m.attrs ∧ t.m.lcNameMap = m.lcNameMap ∧
      t.Wf o.allowAttrKeyStartsWithEqualSign false) := by
  obtain ⟨d0, hr, he, hh, _, hid, _⟩ := parse_ok h
  have hd := hr.ctl
  have g := hr.tags
  have ho := hr.opts
  rw [hh] at hi hm ⊢
  obtain ⟨h1, h2, m0, h3, h4⟩ := final_tmeta hd g he hi hm
  have hm0 : m.attrs = m0.attrs ∧ m.lcNameMap = m0.lcNameMap := by
    rcases h4 with h | ⟨_, _, _, h⟩ <;> rw [h] <;> exact ⟨rfl, rfl⟩
  by_cases hin : d0.handle.inTag = true ∧ i = d0.current
  · right
    have hm1 : d0.cur.tmeta = some m0 := by unfold Doc.cur; rw [← hin.2]; exact h3
    have w := g.cur hin.1 m0 hm1
    rcases (hd.inTag hin.1 hm1).2.2.2 with h5 | h5
    · rw [h5.1] at w
      refine ⟨?_, d0.tagSt m0, hm0.1.symm, hm0.2.symm, by rw [← ho]; exact w⟩
      rcases he.code with h6 | h6 | h6 | h6
      · rw [h5.1] at h6; cases h6
      · rw [h5.1] at h6; cases h6
      · rw [h5.1] at h6; cases h6
      · rw [← ho]; exact h6.2
    · exfalso
      rcases he.code with h6 | h6 | h6 | h6
      · rw [h5.1] at h6; cases h6
      · rw [h5.1] at h6; cases h6
      · rw [h5.1] at h6; cases h6
      · rw [h5.1] at h6; cases h6.1
  · left
    have w := g.wf i h1 m0 h3 (fun a b => hin ⟨a, b⟩)
    rw [ho] at w
    rw [h2]
    exact ⟨by rw [hm0.1]; exact w.attrs, by rw [hm0.1, hm0.2]; exact w.map⟩

theorem KeyOk.ne {a b : Bool} {k : Str} (h : KeyOk a b k) : lowerAll k ≠ [] := by
  obtain ⟨c, cs, rfl, _⟩ := h; simp [lowerAll]

theorem AttrWf.name_ne {a b : Bool} {x : Attr} (h : AttrWf a b x) : (x.key.map lowerAll == some []) = false := by
  obtain ⟨_, h⟩ := h
  rcases h with ⟨k, h1, h2, _⟩ | ⟨_, h1, _⟩
  · rw [h1]; simp [h2.ne]
  · rw [h1]; rfl

theorem findIdx_none_of {as : List Attr} {a b : Bool} (h : ∀ x ∈ as, AttrWf a b x) :
    as.findIdx? (fun a => a.key.map lowerAll == some []) = none := by
  rw [List.findIdx?_eq_none_iff]
  exact fun x hx => (h x hx).name_ne

/-- **C12**: the name table maps a name to the position of the first attribute whose ASCII-lowercased name it is, and
has no other entry. -/
theorem c12_name_map {s : Str} {o : ParseOptions} {d : Doc} (h : Doc.parse s o = .ok d)
    (ho : o.autoFixUnclosedTag = false) (i : NodeId) (hi : InDoc d.heap d.root i) (m : TagMeta)
    (hm : (d.heap.cell i).tmeta = some m) (k : Str) :
    m.lcNameMap.lookup k = m.attrs.findIdx? fun a => a.key.map fold == some k := by
  obtain ⟨hroot, h0, ht0, gr, ge, gor⟩ := parse_graph h
  rw [hroot] at hi
  rcases parse_metaWf h (gr.inDoc_lt h0 hi).2 hm with w | w
  · have := w.map k
    rw [this]
    congr 1
    funext a
    rw [show lowerAll = fold from funext lowerAll_eq_fold]
  · rw [ho] at w; cases w.1

/-- What of C12 remains with `auto_fix_unclosed_tag`: all non-empty names.  If the input ends inside an attribute name
the tag keeps an attribute with an empty name that is not in the table. -/
theorem c12_name_map_partial {s : Str} {o : ParseOptions} {d : Doc} (h : Doc.parse s o = .ok d)
    (i : NodeId) (hi : InDoc d.heap d.root i) (m : TagMeta) (hm : (d.heap.cell i).tmeta = some m) (k : Str) :
    m.lcNameMap.lookup k = if k = [] then none else m.attrs.findIdx? fun a => a.key.map fold == some k := by
  obtain ⟨hroot, h0, ht0, gr, ge, gor⟩ := parse_graph h
  rw [hroot] at hi
  rw [show fold = lowerAll from funext fun x => (lowerAll_eq_fold x).symm]
  rcases parse_metaWf h (gr.inDoc_lt h0 hi).2 hm with w | ⟨_, t, e1, e2, w⟩
  · rw [w.map k]
    split
    · rename_i hk; rw [hk]; exact findIdx_none_of w.attrs
    · rfl
  · have wm := w.map k
    rw [e2] at wm
    rw [wm]
    have wa := w.attrs
    split at wa
    · rename_i hh
      rw [if_neg (by rw [hh]; simp), e1]
      split
      · rename_i hk; rw [hk]; exact findIdx_none_of (e1 ▸ wa.1)
      · rfl
    · rename_i hh
      rw [if_neg (by rw [hh]; simp), e1]
      split
      · rename_i hk; rw [hk]; exact findIdx_none_of (e1 ▸ wa.1)
      · rfl
    · rename_i hh
      obtain ⟨init, e, w1, _⟩ := wa
      rw [if_pos hh, ← e1, e, List.dropLast_concat]
      split
      · rename_i hk; rw [hk]; exact findIdx_none_of w1
      · rename_i hk
        rw [List.findIdx?_append]
        simp [lowerAll, hk]
    · rename_i hh
      obtain ⟨init, a, e, w1, w2, _⟩ := wa
      rw [if_neg (by rw [hh]; simp), ← e1, e]
      split
      · rename_i hk
        rw [hk, List.findIdx?_append, findIdx_none_of w1]
        rcases w2 with ⟨k', h3, h4⟩ | ⟨h3, _⟩
        · rw [h3]; simp [h4.ne]
        · cases h3
      · rfl
    · cases wa

example : (match Doc.parse "<p Id=1 id=2 b c='' B=x></p>".toList {} with
    | .ok d => (d.heap.cell 1).tmeta.map fun m => m.lcNameMap
    | _ => none) = some [(['c'], 3), (['b'], 2), (['i', 'd'], 0)] := by decide +kernel

/-- The exception. -/
example : (match Doc.parse "<p Id".toList { autoFixUnclosedTag := true } with
    | .ok d => (d.heap.cell 1).tmeta.map fun m => (m.lcNameMap, m.attrs.map (·.key))
    | _ => none) = some ([], [some []]) := by decide +kernel

end Rphtml
