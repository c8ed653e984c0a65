import Verif.Proofs.Size
import Verif.Props.Stops

/-!
# C58: no text blows up

Reading a text makes at most one node for every character and one for the document; writing the document back makes at most
four characters of one; the nesting is at most a third of the text, and nothing else limits it.
-/

namespace Rphtml
open Spec

theorem endsInName_stop {o : ParseOptions} {s : Str} (h : EndsInName o s) :
    ∃ u n, s = u ++ n ∧ afterLt u o = true ∧ notClosed u o = true ∧ tagNameText n := by
  obtain ⟨S, n, h⟩ := h
  cases h with
  | @tag u n t S h hs ho hn hc ht =>
    obtain ⟨_, _, h3, h4, _⟩ := c53_scan h
    refine ⟨u, n, by simp, h4.2 hs, by rw [h3, ho]; rfl, ?_⟩
    cases n with
    | nil => exact hn.elim
    | cons c r => exact ⟨c, r, rfl, hn.1, hn.2⟩

theorem result_length {o : ParseOptions} {s : Str} {ps : List PNode} (h : Result o s ps) :
    (printNodes ps).length ≤ (if o.autoFixUnescapedLt then 4 else if o.autoFixUnclosedTag then 3 else 2) * s.length := by
  have h2 : 2 ≤ (if o.autoFixUnescapedLt then 4 else if o.autoFixUnclosedTag then 3 else 2) := by split <;> (try split) <;> omega
  have h3 : o.autoFixUnclosedTag = true → 3 ≤ (if o.autoFixUnescapedLt then 4 else if o.autoFixUnclosedTag then 3 else 2) := by
    intro h; rw [h]; split <;> simp
  have h4 : o.autoFixUnescapedLt = true → 4 ≤ (if o.autoFixUnescapedLt then 4 else if o.autoFixUnclosedTag then 3 else 2) := by
    intro h; rw [h]; simp
  generalize (if o.autoFixUnescapedLt then 4 else if o.autoFixUnclosedTag then 3 else 2) = K at *
  rcases h with ⟨S, k1, k2, k3, rfl⟩ | ⟨h0, S, n, t, as, k1, k2, k3, rfl⟩
  · have := Scan.length (b := o.autoFixUnclosedTag) h2 h3 h4 k1
    unfold Sit.doc
    rw [closeUp_length]
    cases ho : o.autoFixUnclosedTag with
    | true => rw [ho] at this; omega
    | false =>
      rw [ho] at this
      have hr : S.rest = [] := by rcases k3 with q | q <;> simp_all
      rw [hr] at this ⊢
      simp only [pot] at this ⊢; omega
  · unfold Sit.doc
    rw [closeUp_length]
    have a1 := Sit.add_length true S (.elem n as false none [] (some n))
    have a2 := TagHalf.length k3
    cases k1 with
    | @tag u _ _ _ h hs ho hn hc ht =>
      have a3 := Scan.length (b := true) h2 (fun _ => h3 h0) h4 h
      have a4 := tagName_pos hn
      have a5 := List.length_pos_iff.2 k2
      have a6 := Nat.mul_le_mul_right (n.length + t.length) (h3 h0)
      have a7 := h3 h0
      simp [hs, Nat.mul_add, printNode, printNodes, printOpen, printEnd] at *
      omega

/-- **C58**, first part: rendering a parsed document makes at most four characters of one; three without
`auto_fix_unescaped_lt`, and two without both that and `auto_fix_unclosed_tag`. -/
theorem c58_output {s : Str} {o : ParseOptions} {d : Doc} {lib : EntityLib} {r : Str} (h : Doc.parse s o = .ok d)
    (hr : d.render lib {} = .ok r) :
    r.length ≤ (if o.autoFixUnescapedLt then 4 else if o.autoFixUnclosedTag then 3 else 2) * s.length := by
  by_cases hn : EndsInName o s
  · rcases c02_exact h lib {} rfl with ⟨_, _, q⟩ | ⟨q, _⟩
    · rw [q] at hr; cases hr
    · exact absurd (endsInName_stop hn) q
  · obtain ⟨ps, hp⟩ := result_of h hn
    rw [c53_render lib h hp] at hr
    cases hr
    exact result_length hp

/-- **C58**, second part: a parsed document has at most one node for every character of the text, and its root; end tags,
those that are dropped and those that are added count, too. -/
theorem c58_nodes {s : Str} {o : ParseOptions} {d : Doc} (h : Doc.parse s o = .ok d) : d.heap.size ≤ s.length + 1 := by
  obtain ⟨d0, h1, _, h2, _⟩ := parse_ok h
  have hc := h1.cells
  rw [h2, finalHeap_size]
  unfold cells at hc
  unfold Doc.fixedHeap
  split
  · have := fixHeap_size_le d0.position d0.chain.dropLast.reverse d0.heap
    simp at this; omega
  · omega

/-- **C58**, third part: the nesting of a document.  A node with `k` elements around it needs `3k` characters before it. -/
theorem c58_depth {s : Str} {o : ParseOptions} {ps : List PNode} (hn : ¬ EndsInName o s) (h : docOf s o = some ps) :
    3 * depths ps ≤ s.length + 2 := by
  have hw := depth_weight.2 ps
  suffices weights ps ≤ s.length by omega
  rcases (c53_doc hn ps).1 h with ⟨S, k1, k2, k3, rfl⟩ | ⟨h0, S, n, t, as, k1, k2, k3, rfl⟩
  · exact Nat.le_trans (closeUp_weights _ _) (by have := Scan.load k1; omega)
  · refine Nat.le_trans (closeUp_weights _ _) ?_
    have a1 := Sit.add_load S (.elem n as false none [] (some n))
    cases k1 with
    | @tag u _ _ _ k hs ho hm hc ht =>
      have a3 := Scan.load k
      have a4 := tagName_pos hm
      have a5 := List.length_pos_iff.2 k2
      simp [hs, weight, weights] at *
      omega

/-! ## Nothing else limits the nesting -/

/-- `<a>`, `n` times. -/
def Spec.nested : Nat → Str
  | 0 => []
  | n + 1 => nested n ++ "<a>".toList

/-- Some nodes in `n` such elements. -/
def Spec.nest (ks : List PNode) : Nat → List PNode
  | 0 => ks
  | n + 1 => [.elem ['a'] [] false none (nest ks n) (some ['a'])]

theorem nest_in (ks : List PNode) : ∀ n, nest [.elem ['a'] [] false none ks (some ['a'])] n = nest ks (n + 1)
  | 0 => rfl
  | n + 1 => by simp only [nest, nest_in ks n]

theorem nest_depths (ks : List PNode) : ∀ n, depths (nest ks n) = n + depths ks
  | 0 => by simp [nest]
  | n + 1 => by simp only [nest, depths, depth, nest_depths ks n]; omega

theorem nested_scan (o : ParseOptions) : ∀ n, ∃ S, Spec.Scan o (nested n) S ∧ S.spot ≠ .lt ∧ S.over = false ∧
    S.top.kids = [] ∧ ∀ ks, Sit.closeUp ks S.top S.rest = nest ks n
  | 0 => ⟨{}, .nil, by simp, rfl, rfl, fun _ => rfl⟩
  | n + 1 => by
    obtain ⟨S, h1, h2, h3, h5, h6⟩ := nested_scan o n
    have hv : nameOver ['>'] := by simp [nameOver]
    have k := Spec.Scan.start (n := ['a']) (t := ['>']) (as := []) (.lt h1 h2) rfl h3 ⟨by decide, by decide⟩ hv
      (.close (g := []) (by simp [isGap])) (by decide) (by decide)
    refine ⟨{ top := { name := ['a'] }, rest := S.top :: S.rest, over := S.over, foreign := enter S.foreign ['a'] }, by simpa [nested] using k, by simp, h3, rfl, fun ks => ?_⟩
    simp only [Sit.closeUp, h5, List.nil_append]
    rw [h6, nest_in]

theorem nested_length : ∀ n, (nested n).length = 3 * n
  | 0 => rfl
  | n + 1 => by simp [nested, nested_length n]; omega

/-- **C58**, fourth part: the bound on the nesting is reached for every `n`: with `auto_fix_unclosed_tag`, `<a>` repeated `n`
times, a text of `3n` characters, is a document that is `n` deep.  The parser has no limit of its own; functions that recurse
over the document, such as `render` and `clone`, recurse `n` deep on it. -/
theorem c58_deep {o : ParseOptions} (ho : o.autoFixUnclosedTag = true) (n : Nat) :
    (nested n).length = 3 * n ∧ ∃ ps, docOf (nested n) o = some ps ∧ depths ps = n := by
  obtain ⟨S, h1, h2, _, h5, h6⟩ := nested_scan o n
  refine ⟨nested_length n, S.doc, (c53_doc (fun ⟨_, _, k⟩ => c53_unique.2.1 h1 _ _ k) _).2 (.inl ⟨S, h1, h2, .inr ho, rfl⟩), ?_⟩
  unfold Sit.doc
  rw [h6, h5, nest_depths]; rfl

/-! ## Samples -/

/-- Every `<` becomes four characters here, so that the factor of `c58_output` cannot be smaller. -/
example : (docOf "<<<<<<<<1".toList { autoFixUnescapedLt := true }).map (fun ps => (printNodes ps).length) = some (4 * 8 + 1) := by
  decide +kernel

/-- Seven characters of three. -/
example : (docOf "<a>".toList { autoFixUnclosedTag := true }).map (fun ps => (printNodes ps).length) = some 7 := by
  decide +kernel

/-- Nineteen characters become 21: values without a name get a space before them. -/
example : (docOf "<!DOCTYPE a \"\"\"\"\"\">".toList {}).map (fun ps => (printNodes ps).length) = some 21 := by
  decide +kernel

/-- The element, the end tag that is added, and the root. -/
example : ∃ d, Doc.parse "<a>".toList { autoFixUnclosedTag := true } = .ok d ∧ d.heap.size = 3 := by
  refine ⟨_, rfl, by decide +kernel⟩

/-- The bound on the nodes is reached. -/
example : ∃ d, Doc.parse "x".toList {} = .ok d ∧ d.heap.size = 1 + 1 := by
  refine ⟨_, rfl, by decide +kernel⟩

/-- The hypotheses of `c58_depth`: four levels in ten characters. -/
example : 3 * depths [.elem ['a'] [] false none [.elem ['b'] [] false none [.elem ['c'] [] false none [.text ['x']] (some ['c'])] (some ['b'])] (some ['a'])] = 12 ∧
    docOf "<a><b><c>x".toList { autoFixUnclosedTag := true } = some [.elem ['a'] [] false none [.elem ['b'] [] false none [.elem ['c'] [] false none [.text ['x']] (some ['c'])] (some ['b'])] (some ['a'])] := by
  refine ⟨by decide, by decide +kernel⟩

end Rphtml
