import Verif.Proofs.Memory
import Verif.Spec.Samples

/-!
# C60: no node leaks and no link dangles

Reference counting never frees the nodes of a cycle, and a weak link to a freed node cannot be followed.
-/

namespace Rphtml
open Spec

/-! ## Nothing leaks -/

/-- Freeing comes to rest, whatever is freed first. -/
theorem c60_rests (h : Heap) (held : NodeId → Prop) {A : NodeId → Prop} (hA : Frees h held (fun x => x < h.size) A) :
    ∃ B, Frees h held (fun x => x < h.size) B ∧ Settled h held B ∧ ∀ x, B x → A x := by
  have key : ∀ (n : Nat) (A : NodeId → Prop) (l : List NodeId), l.length ≤ n → (∀ x, A x → x ∈ l) →
      Frees h held (fun x => x < h.size) A →
      ∃ B, Frees h held (fun x => x < h.size) B ∧ Settled h held B ∧ ∀ x, B x → A x := by
    intro n
    induction n with
    | zero =>
      intro A l hl hm hf
      have : l = [] := List.eq_nil_of_length_eq_zero (Nat.le_zero.1 hl)
      subst this
      exact ⟨A, hf, fun x hx => absurd (hm x hx) (List.not_mem_nil), fun _ h => h⟩
    | succ n ih =>
      intro A l hl hm hf
      by_cases hs : Settled h held A
      · exact ⟨A, hf, hs, fun _ h => h⟩
      · obtain ⟨x, hx⟩ := Classical.not_forall.1 hs
        obtain ⟨hx, hu⟩ := Classical.not_imp.1 hx
        have hu := Classical.not_not.1 hu
        have hlt : (l.filter (· ≠ x)).length < l.length := by
          rw [List.length_filter_lt_length_iff_exists]
          exact ⟨x, hm x hx, by simp⟩
        obtain ⟨B, h1, h2, h3⟩ := ih (fun y => A y ∧ y ≠ x) (l.filter (· ≠ x)) (by omega)
          (fun y hy => List.mem_filter.2 ⟨hm y hy.1, by simpa using hy.2⟩) (hf.free hx hu)
        exact ⟨B, h1, h2, fun y hy => (h3 y hy).1⟩
  exact key h.size A (List.range h.size) (by simp) (fun x hx => List.mem_range.2 (frees_sub hA hx)) hA

/-- **After any part of any text** (and so also when parsing stops with an error), whatever handles are held: when reference
counting comes to rest, the nodes that are left are exactly those that can be reached from a handle. -/
theorem c60_while_parsing {o : ParseOptions} {ctx cs : Str} {d : Doc} (h : (Doc.new o).run ctx cs = .ok d)
    {held A : NodeId → Prop} (hheld : ∀ r, held r → r < d.heap.size) (hf : Frees d.heap held (fun x => x < d.heap.size) A)
    (hs : Settled d.heap held A) (x : NodeId) : A x ↔ ∃ r, held r ∧ Reaches d.heap r x := by
  have hr : Reach o ([] ++ cs) d := Reach.run cs [] _ d Reach.init h
  exact (hr.links.owns.acyclic hr.links.ends).counted hheld hf hs x

/-- **The same for a parsed document.** -/
theorem c60_parsed {s : Str} {o : ParseOptions} {d : Doc} (h : Doc.parse s o = .ok d)
    {held A : NodeId → Prop} (hheld : ∀ r, held r → r < d.heap.size) (hf : Frees d.heap held (fun x => x < d.heap.size) A)
    (hs : Settled d.heap held A) (x : NodeId) : A x ↔ ∃ r, held r ∧ Reaches d.heap r x := by
  obtain ⟨_, _, _, g, ge, _⟩ := parse_graph h
  exact (g.acyclic ge).counted hheld hf hs x

/-- **No document leaks**: when the last handle is gone, no node is left. -/
theorem c60_no_leak {s : Str} {o : ParseOptions} {d : Doc} (h : Doc.parse s o = .ok d) {A : NodeId → Prop}
    (hf : Frees d.heap (fun _ => False) (fun x => x < d.heap.size) A) (hs : Settled d.heap (fun _ => False) A) (x : NodeId) : ¬ A x := by
  intro hx
  obtain ⟨r, h1, _⟩ := (c60_parsed h (fun _ h => h.elim) hf hs x).1 hx
  exact h1

/-! ## Every link can be followed -/

theorem parse_acyclic {s : Str} {o : ParseOptions} {d : Doc} (h : Doc.parse s o = .ok d) : Acyclic d.heap := by
  obtain ⟨_, _, _, g, ge, _⟩ := parse_graph h
  exact g.acyclic ge

/-- What the tree holds. -/
theorem parse_reaches {s : Str} {o : ParseOptions} {d : Doc} (h : Doc.parse s o = .ok d) {x : NodeId} (hx : x < d.heap.size)
    (hl : Linked d.heap x) : Reaches d.heap d.root x := by
  obtain ⟨hr, h0, ht0, g, ge, _⟩ := parse_graph h
  rw [hr]
  have hin : ∀ y, InDoc d.heap 0 y → Reaches d.heap 0 y := by
    intro y hy
    induction hy with
    | root => exact .self
    | child _ hc hx ih => exact ih.step (.inl ⟨_, hc, hx⟩)
  by_cases hty : (d.heap.cell x).nodeType = .tagEnd
  · obtain ⟨t, h1, h2⟩ := hl hty
    refine (hin t (g.inDoc t h1 ?_)).step (.inr h2)
    rw [(ge.down t x h1 h2).2.2.2.2.2]; simp
  · exact hin x (g.inDoc x hx hty)

/-- The holder of a node is its parent, if it has one. -/
theorem parse_holder {s : Str} {o : ParseOptions} {d : Doc} (h : Doc.parse s o = .ok d) {p q x : NodeId} (hp : p < d.heap.size)
    (hx : Holds d.heap p x) (hq : (d.heap.cell x).parent = some q) : q = p := by
  obtain ⟨_, _, _, g, ge, _⟩ := parse_graph h
  rcases holds_iff.1 hx with hx | hx
  · rcases g.up p x hp hx with h1 | h1
    · rw [h1.1] at hq; cases hq; rfl
    · rw [h1.2.2.1] at hq; cases hq
  · rw [(ge.down p x hp hx).2.2.2.1] at hq; cases hq; rfl

/-- **As long as the document is alive, every link of every one of its nodes can be followed**: the targets of `parent`,
`prev` and `root` are nodes of the document, or end tags of such. -/
theorem c60_links {s : Str} {o : ParseOptions} {d : Doc} (h : Doc.parse s o = .ok d) {x y : NodeId} (hx : Reaches d.heap d.root x)
    (hy : (d.heap.cell x).parent = some y ∨ (d.heap.cell x).prev = some y ∨ (d.heap.cell x).root = some y) :
    Reaches d.heap d.root y := by
  obtain ⟨hr, h0, _, _, _, _⟩ := parse_graph h
  have hw := parse_weak h
  have hlt := fun z (hz : Reaches d.heap d.root z) => (parse_acyclic h).reach (by rw [hr]; exact h0) hz
  rcases hy with hy | hy | hy
  · cases hx with
    | self => rw [hr, (parse_weak h).parent] at hy; cases hy
    | step h1 h2 => rw [parse_holder h (hlt _ h1) h2 hy]; exact h1
  · obtain ⟨h1, h2⟩ := hw.prev x y (hlt x hx) hy
    exact parse_reaches h h1 h2
  · rw [hw.root x y (hlt x hx) hy, ← hr]; exact .self

/-- **If only a handle to one node `x` is kept, its own `parent` dangles, and so does every `root` link unless `x` is the
root**; the `parent` links below `x` can still be followed. -/
theorem c60_one_handle {s : Str} {o : ParseOptions} {d : Doc} (h : Doc.parse s o = .ok d) {x y z : NodeId}
    (hx : Reaches d.heap d.root x) (hy : Reaches d.heap x y) :
    ((d.heap.cell y).parent = some z → (Reaches d.heap x z ↔ y ≠ x)) ∧
    ((d.heap.cell y).root = some z → (Reaches d.heap x z ↔ x = d.root)) := by
  obtain ⟨hr, h0, _, g, ge, _⟩ := parse_graph h
  have ha := parse_acyclic h
  have hlt := ha.reach (by rw [hr]; exact h0) hx
  have hlt' := ha.reach hlt hy
  refine ⟨fun hz => ⟨?_, fun hne => ?_⟩, fun hz => ?_⟩
  · rintro h1 rfl
    cases hx with
    | self => rw [hr, (parse_weak h).parent] at hz; cases hz
    | step h2 h3 =>
      have h4 := parse_holder h (ha.reach (by rw [hr]; exact h0) h2) h3 hz
      rw [h4] at h1
      exact ha.irrefl hlt h1 h3 rfl
  · cases hy with
    | self => exact absurd rfl hne
    | step h2 h3 => rw [parse_holder h (ha.reach hlt h2) h3 hz]; exact h2
  · rw [(parse_weak h).root y z hlt' hz, hr]
    constructor
    · intro h1
      cases h1 with
      | self => rfl
      | step h2 h3 =>
        exfalso
        rcases holds_iff.1 h3 with h3 | h3
        · have := (g.range _ _ (ha.reach hlt h2) h3).1; omega
        · have := (ge.down _ _ (ha.reach hlt h2) h3).1; omega
    · rintro rfl; exact .self

/-! ## Copies -/

/-- **Copies do not leak either**, and a copy and its document do not keep each other alive: what a handle to the copy holds
is disjoint from what any handle to the document holds.  The `root` links of the copies point to the root of the document, so
**they dangle when the document is dropped**. -/
theorem c60_clone {s : Str} {o : ParseOptions} {d : Doc} (h : Doc.parse s o = .ok d) {i : NodeId} (hi : Reaches d.heap d.root i) :
    ∃ h' i', d.heap.cloneNode (d.heap.size + 1) i = some (h', i') ∧
      (∀ held A : NodeId → Prop, (∀ r, held r → r < h'.size) → Frees h' held (fun x => x < h'.size) A → Settled h' held A →
        ∀ x, A x ↔ ∃ r, held r ∧ Reaches h' r x) ∧
      (∀ r x, r < d.heap.size → Reaches h' r x → ¬ Reaches h' i' x) ∧
      (∀ x r, Reaches h' i' x → (h'.cell x).root = some r → r = d.root ∧ ¬ Reaches h' i' r) := by
  obtain ⟨hr, h0, _, g, ge, _⟩ := parse_graph h
  have ha := parse_acyclic h
  have hk : InDoc d.heap d.root i ∨ ∃ t, InDoc d.heap d.root t ∧ (d.heap.cell t).endTag = some i := by
    have hlt := ha.reach (by rw [hr]; exact h0) hi
    rw [hr]
    by_cases hty : (d.heap.cell i).nodeType = .tagEnd
    · cases hi with
      | self =>
        rw [hr] at hty
        exact .inl (by rw [hr]; exact .root)
      | step h1 h2 =>
        have h3 := ha.reach (by rw [hr]; exact h0) h1
        rcases holds_iff.1 h2 with h2 | h2
        · exact absurd hty (g.kind _ _ h3 h2).1
        · refine .inr ⟨_, g.inDoc _ h3 ?_, h2⟩
          rw [(ge.down _ _ h3 h2).2.2.2.2.2]; simp
    · exact .inl (g.inDoc i hlt hty)
  obtain ⟨hil, t, ht, hall⟩ := parse_subtree h i hk
  obtain ⟨h', f, c1, c2, c3⟩ := clone_built (parse_linked h) (d.heap.cell i).beginAt d.heap.size i t d.heap (Ext.refl _) hil ht hall
  have ha' := ha.built c2.2 c3
  refine ⟨h', f, c1, fun held A h1 h2 h3 x => ha'.counted h1 h2 h3 x, ?_⟩
  have hb := (built_bounds h').1 _ _ _ _ _ _ c3
  have hold : ∀ r x, r < d.heap.size → Reaches h' r x → x < d.heap.size := by
    intro r x h1 h2
    induction h2 with
    | self => exact h1
    | step _ h3 ih =>
      refine ha.range _ _ ih ?_
      unfold Holds at h3 ⊢
      rwa [c2.2 _ ih] at h3
  have hnew : ∀ x, Reaches h' f x → d.heap.size ≤ x := by
    intro x h2
    induction h2 with
    | self => exact hb.1
    | step h3 h4 ih =>
      have h5 := (built_holds h').1 _ _ _ _ _ _ c3 _ ih (ha'.reach hb.2 h3)
      rcases holds_iff.1 h4 with h4 | h4
      · have := (h5.1 _ h4).1; omega
      · exact (h5.2 _ h4).1
  have hroot := (cloneWith_root _ d.root _ _ _ _ _ ⟨ha.range, fun x q hx hq => by rw [hr]; exact (parse_weak h).root x q hx hq⟩ hil c1).1
  refine ⟨?_, ?_⟩
  · intro r x h1 h2 h3
    have := hold r x h1 h2
    have := hnew x h3
    omega
  · intro x r h1 h2
    have h3 := hroot.root x r (ha'.reach hb.2 h1) h2
    refine ⟨h3, fun h4 => ?_⟩
    have := hnew r h4
    rw [h3, hr] at this
    omega

/-! ## Samples -/

/-- `<b><i>x</i></b>` with an end tag that is dropped: the `prev` links of the end tags, and the nodes that nothing holds. -/
def Spec.memorySample : Option (List (Option NodeId) × List Bool) :=
  match Doc.parse "<b><i>x</i></a></b>".toList { autoFixUnclosedTag := true, autoFixUnexpectedEndtag := true } with
  | .ok d => some ((List.range d.heap.size).map fun i => (d.heap.cell i).prev,
      (List.range d.heap.size).map fun i => d.heap.owners i == 0)
  | _ => none

/-- Node 5 is the dropped `</a>`.  The end tag of `<b>` points back to that of `<i>`. -/
example : memorySample = some ([none, none, none, none, some 3, some 4, some 4],
    [true, false, false, false, false, true, false]) := by decide +kernel

/-- Two nodes that hold each other, as if an end tag held its start tag: reference counting leaves both. -/
def Spec.cycleHeap : Heap :=
  { size := 2, cell := fun i => if i = 0 then { Cell.new .tag 0 with endTag := some 1 } else { Cell.new .tagEnd 0 with endTag := some 0 } }

example : Settled cycleHeap (fun _ => False) (fun x => x < 2) := by
  intro x hx hu
  have : x = 0 ∨ x = 1 := by omega
  rcases this with rfl | rfl
  · exact hu.2 1 (by decide) (.inr rfl)
  · exact hu.2 0 (by decide) (.inr rfl)

/-- The node of a document is freed when nothing holds it: here all of the empty document. -/
example : ∃ d A, Doc.parse [] {} = .ok d ∧ Frees d.heap (fun _ => False) (fun x => x < d.heap.size) A ∧
    Settled d.heap (fun _ => False) A := by
  refine ⟨_, _, rfl, .free (x := 0) .start (by decide) ⟨fun h => h, ?_⟩, ?_⟩
  · intro a ha hh
    have : a = 0 := Nat.lt_one_iff.1 ha
    subst this
    rcases hh with ⟨ids, h, _⟩ | h <;> cases h
  · rintro x ⟨h1, h2⟩ _
    exact h2 (Nat.lt_one_iff.1 h1)

end Rphtml
