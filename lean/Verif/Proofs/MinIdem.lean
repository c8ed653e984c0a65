import Verif.Proofs.Minified

/-!
# Minifying a document twice
-/

namespace Rphtml
open Spec

/-! ## Texts -/

theorem collapse_idem (w : Str) : collapse (collapse w) = collapse w := by
  rw [← minified_eq, ← minified_eq, c27_idempotent]

theorem collapse_blank (w : Str) : blank (collapse w) = blank w := by
  have h := c27_visible w
  rw [minified_eq] at h
  rw [Bool.eq_iff_iff, blank_iff, blank_iff]
  constructor
  · intro hc c hm
    refine Decidable.byContradiction fun hn => ?_
    have : c ∈ visible w := by
      unfold visible
      simp [hm, hn]
    rw [← h] at this
    unfold visible at this
    simp only [List.mem_filter] at this
    have h2 := hc c this.1
    simp_all
  · intro hc c hm; exact hc c (collapse_mem hm)

theorem collapse_nil {w : Str} : collapse w = [] ↔ w = [] := by
  cases w with
  | nil => simp [collapse]
  | cons c w => simp [collapse]

theorem minText_idem (b k : Bool) (w : Str) : minText b k (minText b k w) = minText b k w := by
  unfold minText
  cases b
  · simp only [Bool.false_eq_true, if_false]
    by_cases h : (blank w && !k) = true
    · simp [h, collapse]
    · rw [if_neg h, collapse_blank, if_neg h, collapse_idem]
  · simp

/-! ## Preformatted text -/

theorem preAfter_min :
    (∀ p b k x, preAfter b (minNode b k x p) = preAfter b p) ∧
    (∀ ps b k t, preAfters b (minNodes b k t ps) = preAfters b ps) := by
  apply PNode.induct
  · intro w b k x; rfl
  · intro w b k x; rfl
  · intro w b k x; rfl
  · intro n as s b k x; rfl
  · intro n as s ct ks e ih b k x; simp only [minNode, preAfter, ih]
  · intro b k t; rfl
  · intro p ps h1 h2 b k t; simp only [minNodes, preAfters, h1, h2]

theorem preAfter_unquote :
    (∀ p b, preAfter b (unquoteNode p) = preAfter b p) ∧ (∀ ps b, preAfters b (unquoteNodes ps) = preAfters b ps) := by
  apply PNode.induct
  · intro w b; rfl
  · intro w b; rfl
  · intro w b; rfl
  · intro n as s b; rfl
  · intro n as s ct ks e ih b; simp only [unquoteNode, preAfter, ih]
  · intro b; rfl
  · intro p ps h1 h2 b; simp only [unquoteNodes, preAfters, h1, h2]

/-- A renaming that keeps `pre`. -/
structure KeepsPre (f g : Str → Str) : Prop where
  start : ∀ n, isPre (f n) ↔ isPre n
  stop : ∀ n, isPre (trimEnd (g n)) ↔ isPre (trimEnd n)

theorem isPre_fold (n : Str) : isPre (fold n) ↔ isPre n := by
  unfold isPre sameName; rw [fold_idem]

theorem KeepsPre.lower : KeepsPre fold fold where
  start := isPre_fold
  stop n := by rw [trimEnd_fold, isPre_fold]

theorem KeepsPre.trim : KeepsPre id trimEnd where
  start _ := Iff.rfl
  stop n := by rw [trimEnd_idem]

theorem preAfter_rename {f g : Str → Str} (hk : KeepsPre f g) :
    (∀ p b, preAfter b (renameNode f g p) = preAfter b p) ∧ (∀ ps b, preAfters b (renameNodes f g ps) = preAfters b ps) := by
  apply PNode.induct
  · intro w b; rfl
  · intro w b; rfl
  · intro w b; rfl
  · intro n as s b; rfl
  · intro n as s ct ks e ih b
    simp only [renameNode, preAfter, ih, hk.start]
    cases e with
    | none => rfl
    | some e => simp only [Option.map_some, hk.stop]
  · intro b; rfl
  · intro p ps h1 h2 b; simp only [renameNodes, preAfters, h1, h2]

theorem preAfter_without {q : PNode → Bool} (hq : ∀ p, q p = true → ∃ w, p = .text w ∨ p = .comment w) :
    (∀ p b, preAfter b (withoutNode q p) = preAfter b p) ∧ (∀ ps b, preAfters b (withoutNodes q ps) = preAfters b ps) := by
  apply PNode.induct
  · intro w b; rfl
  · intro w b; rfl
  · intro w b; rfl
  · intro n as s b; rfl
  · intro n as s ct ks e ih b; simp only [withoutNode, preAfter, ih]
  · intro b; rfl
  · intro p ps h1 h2 b
    simp only [withoutNodes]
    split
    · rename_i hp
      obtain ⟨w, rfl | rfl⟩ := hq p hp <;> simp only [preAfters, preAfter, h2]
    · simp only [preAfters, h1, h2]

theorem preAfter_join :
    (∀ p b, preAfter b (joinNode p) = preAfter b p) ∧ (∀ ps b, preAfters b (joinTexts ps) = preAfters b ps) := by
  have hg : ∀ p ps b, preAfters b (glue p ps) = preAfters (preAfter b p) ps := by
    intro p ps b
    unfold glue
    split <;> rfl
  apply PNode.induct
  · intro w b; rfl
  · intro w b; rfl
  · intro w b; rfl
  · intro n as s b; rfl
  · intro n as s ct ks e ih b; simp only [joinNode, preAfter, ih]
  · intro b; rfl
  · intro p ps h1 h2 b; simp only [joinTexts, hg, preAfters, h1, h2]

theorem isEmptyText_leaf : ∀ p, isEmptyText p = true → ∃ w, p = .text w ∨ p = .comment w := by
  intro p hp
  cases p with
  | text w => exact ⟨w, .inl rfl⟩
  | _ => simp [isEmptyText] at hp

theorem isNote_leaf : ∀ p, isNote p = true → ∃ w, p = .text w ∨ p = .comment w := by
  intro p hp
  cases p with
  | comment w => exact ⟨w, .inr rfl⟩
  | _ => simp [isNote] at hp

/-! ## Documents in which a blank text is alone -/

mutual
/-- A blank text that is not preformatted is the only child of its parent. -/
def cleanNode (b : Bool) : PNode → Prop
  | .text w => b = false → blank w = true → w = []
  | .elem n _ _ _ ks _ => (∃ w, ks = [.text w]) ∨ cleanNodes (b || isPre n) ks
  | _ => True

/-- The same for a list. -/
def cleanNodes (b : Bool) : List PNode → Prop
  | [] => True
  | p :: ps => cleanNode b p ∧ cleanNodes (preAfter b p) ps
end

theorem clean_min :
    (∀ p b k x, (k = true → isText p = false) → cleanNode b (minNode b k x p)) ∧
    (∀ ps b k t, (k = true → ∀ w, ps ≠ [.text w]) → cleanNodes b (minNodes b k t ps)) := by
  apply PNode.induct
  · intro w b k x hk
    have hk : k = false := by
      cases k
      · rfl
      · simp [isText] at hk
    subst hk
    simp only [minNode, cleanNode, minText]
    rintro rfl
    simp only [Bool.false_eq_true, if_false]
    split
    · intro _; rfl
    · rename_i h
      rw [collapse_blank]
      intro hb
      simp [hb] at h
  · intro w b k x _; trivial
  · intro w b k x _; trivial
  · intro n as s b k x _; trivial
  · intro n as s ct ks e ih b k x _
    simp only [minNode, cleanNode]
    by_cases hks : ∃ w, ks = [.text w]
    · obtain ⟨w, rfl⟩ := hks
      exact .inl ⟨_, rfl⟩
    · exact .inr (ih _ _ _ fun _ w hw => hks ⟨w, hw⟩)
  · intro b k t _; trivial
  · intro p ps h1 h2 b k t hk
    simp only [minNodes, cleanNodes]
    refine ⟨h1 _ _ _ ?_, ?_⟩
    · intro q
      simp only [Bool.and_eq_true, List.isEmpty_iff] at q
      cases p with
      | text w => exact absurd (by rw [q.2]) (hk q.1 w)
      | _ => rfl
    · rw [preAfter_min.1]
      exact h2 _ _ _ (by simp)

theorem clean_unquote :
    (∀ p b, cleanNode b p → cleanNode b (unquoteNode p)) ∧ (∀ ps b, cleanNodes b ps → cleanNodes b (unquoteNodes ps)) := by
  apply PNode.induct
  · intro w b h; exact h
  · intro w b h; exact h
  · intro w b h; exact h
  · intro n as s b h; trivial
  · intro n as s ct ks e ih b h
    simp only [unquoteNode, cleanNode] at h ⊢
    rcases h with ⟨w, rfl⟩ | h
    · exact .inl ⟨w, rfl⟩
    · exact .inr (ih _ h)
  · intro b h; exact h
  · intro p ps h1 h2 b h
    simp only [unquoteNodes, cleanNodes, preAfter_unquote.1] at h ⊢
    exact ⟨h1 _ h.1, h2 _ h.2⟩

theorem clean_rename {f g : Str → Str} (hk : KeepsPre f g) :
    (∀ p b, cleanNode b p → cleanNode b (renameNode f g p)) ∧ (∀ ps b, cleanNodes b ps → cleanNodes b (renameNodes f g ps)) := by
  apply PNode.induct
  · intro w b h; exact h
  · intro w b h; exact h
  · intro w b h; exact h
  · intro n as s b h; trivial
  · intro n as s ct ks e ih b h
    simp only [renameNode, cleanNode, hk.start] at h ⊢
    rcases h with ⟨w, rfl⟩ | h
    · exact .inl ⟨w, rfl⟩
    · exact .inr (ih _ h)
  · intro b h; exact h
  · intro p ps h1 h2 b h
    simp only [renameNodes, cleanNodes, (preAfter_rename hk).1] at h ⊢
    exact ⟨h1 _ h.1, h2 _ h.2⟩

theorem clean_without {q : PNode → Bool} (hq : ∀ p, q p = true → ∃ w, p = .text w ∨ p = .comment w) :
    (∀ p b, cleanNode b p → cleanNode b (withoutNode q p)) ∧ (∀ ps b, cleanNodes b ps → cleanNodes b (withoutNodes q ps)) := by
  apply PNode.induct
  · intro w b h; exact h
  · intro w b h; exact h
  · intro w b h; exact h
  · intro n as s b h; trivial
  · intro n as s ct ks e ih b h
    simp only [withoutNode, cleanNode] at h ⊢
    rcases h with ⟨w, rfl⟩ | h
    · simp only [withoutNodes]
      split
      · exact .inr trivial
      · exact .inl ⟨w, rfl⟩
    · exact .inr (ih _ h)
  · intro b h; exact h
  · intro p ps h1 h2 b h
    simp only [withoutNodes, cleanNodes] at h ⊢
    split
    · rename_i hp
      have h := h.2
      obtain ⟨w, rfl | rfl⟩ := hq p hp <;> exact h2 _ h
    · simp only [cleanNodes, (preAfter_without hq).1]
      exact ⟨h1 _ h.1, h2 _ h.2⟩

theorem clean_join :
    (∀ p b, cleanNode b p → cleanNode b (joinNode p)) ∧ (∀ ps b, cleanNodes b ps → cleanNodes b (joinTexts ps)) := by
  apply PNode.induct
  · intro w b h; exact h
  · intro w b h; exact h
  · intro w b h; exact h
  · intro n as s b h; trivial
  · intro n as s ct ks e ih b h
    simp only [joinNode, cleanNode] at h ⊢
    rcases h with ⟨w, rfl⟩ | h
    · exact .inl ⟨w, rfl⟩
    · exact .inr (ih _ h)
  · intro b h; exact h
  · intro p ps h1 h2 b h
    simp only [joinTexts, cleanNodes] at h ⊢
    have a := h1 _ h.1
    have c := h2 _ h.2
    rw [← preAfter_join.1] at c
    generalize joinNode p = p' at a c
    generalize joinTexts ps = ps' at c
    unfold glue
    split
    · rename_i w v qs
      simp only [preAfter, cleanNodes, cleanNode] at a c ⊢
      refine ⟨?_, c.2⟩
      intro hb hw
      have hb1 : blank w = true ∧ blank v = true := by
        unfold blank at hw ⊢
        simpa [List.all_append] using hw
      rw [a hb hb1.1, c.1 hb hb1.2]; rfl
    · exact ⟨a, c⟩

theorem clean_tidy {ps : List PNode} {b : Bool} (h : cleanNodes b ps) : cleanNodes b (tidyTexts ps) :=
  clean_join.2 _ _ ((clean_without isEmptyText_leaf).2 _ _ h)

theorem clean_changed (ro : RenderOptions) {ps : List PNode} {b : Bool} (h : cleanNodes b ps) : cleanNodes b (changed ro ps) := by
  unfold changed
  dsimp only
  have h1 : cleanNodes b (if ro.removeAttrQuote then unquoteNodes ps else ps) := by
    split
    · exact clean_unquote.2 _ _ h
    · exact h
  generalize (if ro.removeAttrQuote then unquoteNodes ps else ps) = p1 at h1 ⊢
  have h2 : cleanNodes b (if ro.lowercaseTagname then renameNodes fold fold p1 else p1) := by
    split
    · exact (clean_rename .lower).2 _ _ h1
    · exact h1
  generalize (if ro.lowercaseTagname then renameNodes fold fold p1 else p1) = p2 at h2 ⊢
  have h3 : cleanNodes b (if ro.removeEndtagSpace then renameNodes id trimEnd p2 else p2) := by
    split
    · exact (clean_rename .trim).2 _ _ h2
    · exact h2
  generalize (if ro.removeEndtagSpace then renameNodes id trimEnd p2 else p2) = p3 at h3 ⊢
  split
  · exact (clean_without isNote_leaf).2 _ _ h3
  · exact h3

/-! ## Documents without empty and neighbouring texts -/

mutual
/-- No empty and no neighbouring texts in a node. -/
def apartNode : PNode → Prop
  | .text w => w ≠ []
  | .elem _ _ _ _ ks _ => apartNodes ks
  | _ => True

/-- The same for a list. -/
def apartNodes : List PNode → Prop
  | [] => True
  | p :: ps => apartNode p ∧ (isText p = true → textFirst ps = false) ∧ apartNodes ps
end

theorem apart_of_wf {o : ParseOptions} :
    (∀ p ctx par, wfNode o ctx par p → apartNode p) ∧ (∀ ps ctx par, wfNodes o ctx par ps → apartNodes ps) := by
  apply PNode.induct
  · intro w ctx par h; simp only [wfNode] at h; exact h.1
  · intro w ctx par h; trivial
  · intro w ctx par h; trivial
  · intro n as s ctx par h; trivial
  · intro n as s ct ks e ih ctx par h
    simp only [wfNode] at h
    simp only [apartNode]
    have h := h.2.2
    split at h
    · rw [h.2.1]; trivial
    · split at h
      · rw [h.2.1]; trivial
      · split at h
        · rw [h.1]; trivial
        · exact ih _ _ h.2.2
  · intro ctx par h; trivial
  · intro p ps h1 h2 ctx par h
    simp only [wfNodes] at h
    refine ⟨h1 _ _ h.1, ?_, h2 _ _ h.2.2⟩
    intro hp
    cases ps with
    | nil => rfl
    | cons q ps =>
      have := h.2.1 hp q rfl
      cases q <;> first | rfl | simp [isText] at this

theorem join_apart :
    (∀ p, apartNode p → joinNode p = p) ∧ (∀ ps, apartNodes ps → joinTexts ps = ps) := by
  apply PNode.induct
  · intro w h; rfl
  · intro w h; rfl
  · intro w h; rfl
  · intro n as s h; rfl
  · intro n as s ct ks e ih h
    simp only [joinNode, ih h]
  · intro h; rfl
  · intro p ps h1 h2 h
    simp only [apartNodes] at h
    simp only [joinTexts, h1 h.1, h2 h.2.2]
    unfold glue
    split
    · rename_i w v qs
      have := h.2.1 rfl
      simp [textFirst] at this
    · rfl

/-- A list without texts of which nothing is left. -/
theorem fix_min :
    (∀ p, apartNode p → ∀ b k x, (cleanNode b p ∨ ∃ w, p = .text w) → isEmptyText (minNode b k x p) = false →
      apartNode (withoutNode isEmptyText (minNode b k x p)) ∧
      minNode b k x (withoutNode isEmptyText (minNode b k x p)) = withoutNode isEmptyText (minNode b k x p)) ∧
    (∀ ps, apartNodes ps → ∀ b k t, (cleanNodes b ps ∨ ∃ w, ps = [.text w]) →
      apartNodes (withoutNodes isEmptyText (minNodes b k t ps)) ∧
      minNodes b k t (withoutNodes isEmptyText (minNodes b k t ps)) = withoutNodes isEmptyText (minNodes b k t ps) ∧
      (cleanNodes b ps → textFirst (withoutNodes isEmptyText (minNodes b k t ps)) = textFirst ps ∧
        (withoutNodes isEmptyText (minNodes b k t ps)).isEmpty = ps.isEmpty)) := by
  have htext : ∀ (b k x : Bool) (w : Str), isEmptyText (minNode b k x (.text w)) = true ↔ minText b k w = [] := by
    intro b k x w
    simp only [minNode]
    cases minText b k w <;> simp [isEmptyText]
  have hkeep : ∀ (p : PNode) (b k x : Bool), apartNode p → cleanNode b p → isEmptyText (minNode b k x p) = false := by
    intro p b k x ha hc
    cases p with
    | text w =>
      cases hx : isEmptyText (minNode b k x (.text w))
      · rfl
      · rw [htext] at hx
        simp only [apartNode] at ha
        simp only [cleanNode] at hc
        unfold minText at hx
        cases b
        · simp only [Bool.false_eq_true, if_false] at hx
          by_cases hb : blank w = true
          · exact absurd (hc rfl hb) ha
          · simp only [hb, Bool.false_and, Bool.false_eq_true, if_false, collapse_nil] at hx
            exact absurd hx ha
        · exact absurd hx ha
    | _ => rfl
  apply PNode.induct
  · intro w ha b k x _ he
    simp only [minNode, withoutNode, minText_idem, and_true]
    intro hz
    have := (htext b k x w).2 hz
    rw [this] at he; cases he
  · intro w ha b k x _ _; exact ⟨trivial, rfl⟩
  · intro w ha b k x _ _; exact ⟨trivial, rfl⟩
  · intro n as s ha b k x _ _; exact ⟨trivial, rfl⟩
  · intro n as s ct ks e ih ha b k x hc _
    simp only [apartNode] at ha
    have hc : (∃ w, ks = [.text w]) ∨ cleanNodes (b || isPre n) ks := by
      rcases hc with hc | ⟨w, hw⟩
      · exact hc
      · cases hw
    obtain ⟨h1, h2, _⟩ := ih ha (b || isPre n) (x && e.isSome) false hc.symm
    simp only [minNode, withoutNode, apartNode]
    exact ⟨h1, by rw [h2]⟩
  · intro _ b k t _; exact ⟨trivial, rfl, fun _ => ⟨rfl, rfl⟩⟩
  · intro p ps h1 h2 ha b k t hc
    simp only [apartNodes] at ha
    by_cases hclean : cleanNodes b (p :: ps)
    · have hcl := hclean
      simp only [cleanNodes] at hclean
      have he := hkeep p b (k && ps.isEmpty) (textFirst ps || t && ps.isEmpty) ha.1 hclean.1
      obtain ⟨a1, a2⟩ := h1 ha.1 b (k && ps.isEmpty) (textFirst ps || t && ps.isEmpty) (.inl hclean.1) he
      obtain ⟨b1, b2, b3⟩ := h2 ha.2.2 (preAfter b p) false t (.inl hclean.2)
      obtain ⟨b4, b5⟩ := b3 hclean.2
      have hty : ∀ q, isText (withoutNode isEmptyText (minNode b (k && ps.isEmpty) q p)) = isText p := by
        intro q; cases p <;> rfl
      have htf : ∀ q r, textFirst (withoutNode isEmptyText (minNode b (k && ps.isEmpty) q p) :: r) = textFirst (p :: ps) := by
        intro q r; cases p <;> rfl
      simp only [minNodes, withoutNodes, he, Bool.false_eq_true, if_false, apartNodes, hty, b4, b5]
      refine ⟨⟨a1, ha.2.1, b1⟩, ?_, fun _ => ⟨htf _ _, rfl⟩⟩
      rw [a2, (preAfter_without isEmptyText_leaf).1, preAfter_min.1, b2]
    · rcases hc with hc | ⟨w, hw⟩
      · exact absurd hc hclean
      · simp only [List.cons.injEq] at hw
        obtain ⟨rfl, rfl⟩ := hw
        simp only [minNodes, withoutNodes, List.isEmpty_nil, Bool.and_true, textFirst, Bool.false_or]
        split
        · exact ⟨trivial, rfl, fun h => absurd h hclean⟩
        · rename_i he
          refine ⟨?_, ?_, fun h => absurd h hclean⟩
          · simp only [apartNodes, withoutNode, minNode, apartNode]
            refine ⟨?_, fun _ => rfl, trivial⟩
            intro hz
            exact he ((htext b k t w).2 hz)
          · simp only [minNode, withoutNode, minNodes, minText_idem, List.isEmpty_nil, Bool.and_true]

/-- Minifying a document in which a blank text is alone, and taking out what is empty, leaves nothing to be done. -/
theorem minDoc_twice {ps : List PNode} (ha : apartNodes ps) (hc : cleanNodes false ps) :
    minDoc (tidyTexts (minDoc ps)) = tidyTexts (minDoc ps) := by
  obtain ⟨h1, h2, _⟩ := fix_min.2 ps ha false false true (.inl hc)
  have hj : tidyTexts (minDoc ps) = withoutNodes isEmptyText (minNodes false false true ps) := by
    unfold tidyTexts minDoc
    exact join_apart.2 _ h1
  rw [hj]
  exact h2

end Rphtml
