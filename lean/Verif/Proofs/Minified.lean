import Verif.Spec.Minified
import Verif.Props.Reread
import Verif.Props.Spaces

/-!
# The types of the texts in a parsed tree, and the minified document
-/

namespace Rphtml
open Spec

/-- A text of either type. -/
def Tree.isTextT (t : Tree) : Bool := t.data.nodeType = .text ∨ t.data.nodeType = .spacesBetweenTag

/-- The trees begin with a text. -/
def textFirstT : List Tree → Bool
  | t :: _ => t.isTextT
  | [] => false

mutual
/-- The texts of a tree have the types that C19 gives them; the flags are those of `minNode`. -/
def kindNode (keep next : Bool) : Tree → Prop
  | .mk d _ none => (d.nodeType = .text → blank (d.content.getD []) = true → keep = true) ∧
      (d.nodeType = .spacesBetweenTag → blank (d.content.getD []) = true ∧ keep = false)
  | .mk _ e (some ts) => kindNodes (next && e.isSome) false ts

/-- The same for a list. -/
def kindNodes (keep top : Bool) : List Tree → Prop
  | [] => True
  | t :: ts => kindNode (keep && ts.isEmpty) (textFirstT ts || top && ts.isEmpty) t ∧ kindNodes false top ts
end

theorem textFirst_pnodes {ts : List Tree} : textFirst (Tree.pnodes ts) = textFirstT ts := by
  cases ts with
  | nil => rfl
  | cons t ts =>
    obtain ⟨d, e, cs⟩ := t
    simp only [Tree.pnodes, textFirstT, Tree.isTextT, Tree.data]
    obtain ⟨ix, ty, b, en, ct, tm⟩ := d
    cases ty <;> simp [Tree.pnode, textFirst]

theorem pre_after :
    (∀ t : Tree, t.shaped → ∀ before, openPre (before ++ linear t) = preAfter (openPre before) t.pnode) ∧
    (∀ ts : List Tree, Tree.shapeds ts → ∀ before, openPre (before ++ linears ts) = preAfters (openPre before) (Tree.pnodes ts)) := by
  have hstart : ∀ (d : NodeD), d.nodeType = .tag → ∀ before, openPre (before ++ [d]) = (openPre before || isPre (d.tmeta.getD {}).name) := by
    intro d ht before
    rw [openPre_snoc]
    simp only [startsPre, endsPre, ht]
    by_cases hp : isPre (d.tmeta.getD {}).name <;> simp [hp]
  have hend : ∀ (x : NodeD), x.nodeType = .tagEnd → ∀ before, openPre (before ++ [x]) = if isPre (trimEnd (x.content.getD [])) then false else openPre before := by
    intro d ht before
    rw [openPre_snoc]
    simp only [startsPre, endsPre, ht]
    by_cases hp : isPre (trimEnd (d.content.getD [])) <;> simp [hp]
  have htail : ∀ (e : Option NodeD), (∀ x, e = some x → x.nodeType = .tagEnd ∧ x.content ≠ none) → ∀ before,
      openPre (before ++ e.toList) = match e.bind NodeD.content with
        | some e' => if isPre (trimEnd e') then false else openPre before
        | none => openPre before := by
    intro e he before
    cases e with
    | none => simp
    | some x =>
      obtain ⟨h1, h2⟩ := he x rfl
      cases hx : x.content with
      | none => exact absurd hx h2
      | some e' =>
        have := hend x h1 before
        simpa [hx] using this
  apply Tree.induct
  · intro d e h before
    cases ht : d.nodeType
    case tag =>
      have he := fun x hx => shaped_end h (x := x) hx
      simp only [linear, Tree.pnode, ht, preAfter, preAfters]
      rw [show before ++ d :: e.toList = (before ++ [d]) ++ e.toList by simp, htail e he, hstart d ht]
      cases e.bind NodeD.content <;> rfl
    all_goals
      unfold Tree.shaped at h
      simp only [ht] at h
    all_goals
      obtain ⟨_, rfl, _⟩ := h
      simp only [linear, Tree.pnode, ht, preAfter, Option.toList_none, openPre_snoc, startsPre, endsPre]
      simp
  · intro d e ts ih h before
    have hty : d.nodeType = .tag := by
      unfold Tree.shaped at h
      cases ht : d.nodeType <;> simp only [ht] at h
      all_goals first | rfl | (obtain ⟨_, _, h⟩ := h; cases h)
    have he := fun x hx => shaped_end h (x := x) hx
    simp only [linear, Tree.pnode, hty, preAfter]
    rw [show before ++ d :: (linears ts ++ e.toList) = ((before ++ [d]) ++ linears ts) ++ e.toList by simp, htail e he,
      ih (shaped_kids h), hstart d hty]
    cases e.bind NodeD.content <;> rfl
  · intro _ before; simp [linears, Tree.pnodes, preAfters]
  · intro t ts h1 h2 h before
    simp only [linears, Tree.pnodes, preAfters]
    rw [← List.append_assoc, h2 h.2, h1 h.1]

/-- Collapsing the texts of a tree by their types is collapsing those of the document. -/
theorem squeeze_min :
    (∀ t : Tree, t.shaped → ∀ before keep next, kindNode keep next t →
      (squeezeAt before t).pnode = minNode (openPre before) keep next t.pnode) ∧
    (∀ ts : List Tree, Tree.shapeds ts → ∀ before keep top, kindNodes keep top ts →
      Tree.pnodes (squeezeAts before ts) = minNodes (openPre before) keep top (Tree.pnodes ts)) := by
  apply Tree.induct
  · intro d e h before keep next hk
    unfold kindNode at hk
    unfold Tree.shaped at h
    cases ht : d.nodeType <;> simp only [ht] at h hk
    case text =>
      cases hb : openPre before
      · cases hc : d.content with
        | none => exact absurd hc h.1
        | some w =>
          simp only [hc, Option.getD_some] at hk
          have hbk : (blank w && !keep) = false := by
            cases hw : blank w
            · rfl
            · simp [hk.1 trivial hw]
          simp [squeezeAt, hb, squeeze, ht, Tree.pnode, minNode, minText, hc, hbk]
      · simp [squeezeAt, hb, Tree.pnode, ht, minNode, minText]
    case spacesBetweenTag =>
      cases hb : openPre before
      · obtain ⟨h1, h2⟩ := hk.2 trivial
        simp [squeezeAt, hb, squeeze, ht, Tree.pnode, minNode, minText, h1, h2]
      · simp [squeezeAt, hb, Tree.pnode, ht, minNode, minText]
    all_goals
      cases hb : openPre before <;> simp [squeezeAt, hb, squeeze, ht, Tree.pnode, minNode, minNodes]
  · intro d e ts ih h before keep next hk
    have hty : d.nodeType = .tag := by
      unfold Tree.shaped at h
      cases ht : d.nodeType <;> simp only [ht] at h
      all_goals first | rfl | (obtain ⟨_, _, h⟩ := h; cases h)
    have hsq : (if openPre before = true then d else squeeze d) = d := by
      unfold squeeze; simp [hty]
    have hpre : openPre (before ++ [d]) = (openPre before || isPre (d.tmeta.getD {}).name) := by
      rw [openPre_snoc]
      simp only [startsPre, endsPre, hty]
      by_cases hp : isPre (d.tmeta.getD {}).name <;> simp [hp]
    have hes : (e.bind NodeD.content).isSome = e.isSome := by
      cases e with
      | none => rfl
      | some x =>
        have := (shaped_end h (x := x) rfl).2
        cases hx : x.content with
        | none => exact absurd hx this
        | some w => simp [hx]
    unfold kindNode at hk
    simp only [squeezeAt, hsq, Tree.pnode, hty, minNode]
    rw [ih (shaped_kids h) _ _ _ hk, hpre, hes]
  · intro _ before keep top _; rfl
  · intro t ts h1 h2 h before keep top hk
    unfold kindNodes at hk
    simp only [squeezeAts, Tree.pnodes, minNodes]
    have he : (Tree.pnodes ts).isEmpty = ts.isEmpty := by cases ts <;> rfl
    rw [h1 h.1 before _ _ hk.1, h2 h.2 _ _ _ hk.2, pre_after.1 t h.1, textFirst_pnodes, he]

/-- What follows the node in a heap lets its only child be kept. -/
def Followed (h : Heap) (t : NodeId) : Prop :=
  (∃ q l y r, q < h.size ∧ (h.cell q).childs = some (l ++ t :: y :: r) ∧
      ((h.cell y).nodeType = .text ∨ (h.cell y).nodeType = .spacesBetweenTag)) ∨
    (∃ l, (h.cell 0).childs = some (l ++ [t]))

theorem keptSpace_iff (h : Heap) (x : NodeId) : KeptSpace h x ↔
    ∃ t, t < h.size ∧ (h.cell t).childs = some [x] ∧ (h.cell t).endTag ≠ none ∧ Followed h t := Iff.rfl

theorem nodup_split {l l' r r' : List Nat} {x : Nat} (hn : (l ++ x :: r).Nodup) (h : l ++ x :: r = l' ++ x :: r') : l = l' ∧ r = r' := by
  induction l generalizing l' with
  | nil =>
    cases l' with
    | nil => simpa using h
    | cons a l' =>
      simp only [List.nil_append, List.cons_append, List.cons.injEq] at h
      obtain ⟨rfl, h⟩ := h
      simp [h] at hn
  | cons a l ih =>
    cases l' with
    | nil =>
      simp only [List.nil_append, List.cons_append, List.cons.injEq] at h
      obtain ⟨rfl, h⟩ := h
      simp at hn
    | cons b l' =>
      simp only [List.cons_append, List.cons.injEq] at h
      obtain ⟨rfl, h⟩ := h
      obtain ⟨h1, h2⟩ := ih (by simp only [List.cons_append, List.nodup_cons] at hn; exact hn.2) h
      exact ⟨by rw [h1], h2⟩

theorem optAll_cons {α β : Type} {f : α → Option β} {a : α} {l : List α} {bs : List β} (h : optAll f (a :: l) = some bs) :
    ∃ b cs, bs = b :: cs ∧ f a = some b ∧ optAll f l = some cs := by
  simp only [optAll] at h
  split at h
  · rename_i b cs h1 h2
    simp only [Option.some.injEq] at h
    exact ⟨b, cs, h.symm, h1, h2⟩
  · cases h

theorem toTree_node {h : Heap} {fuel : Nat} {i : NodeId} {t : Tree} (ht : h.toTree? fuel i = some t) : t.data = (h.cell i).toNodeD := by
  cases fuel with
  | zero => cases ht
  | succ fuel =>
    unfold Heap.toTree? at ht
    simp only at ht
    split at ht
    · simp only [Option.some.injEq] at ht; subst ht; rfl
    · split at ht
      · simp only [Option.some.injEq] at ht; subst ht; rfl
      · cases ht

theorem toTree_kinds {lt : Bool} {h : Heap} (g : Owns lt h) (ge : Ends h) (h0 : 0 < h.size) (ht0 : (h.cell 0).nodeType = .abstractRoot)
    (hT : ∀ x, InDoc h 0 x → (h.cell x).nodeType = .text → blank ((h.cell x).content.getD []) = true → KeptSpace h x)
    (hS : ∀ x, InDoc h 0 x → (h.cell x).nodeType = .spacesBetweenTag → blank ((h.cell x).content.getD []) = true ∧ ¬ KeptSpace h x) :
    ∀ (fuel i : Nat) (t : Tree), InDoc h 0 i → h.toTree? fuel i = some t →
      (∀ keep next, (keep = true ↔ KeptSpace h i) → (next = true ↔ Followed h i) → i ≠ 0 → kindNode keep next t) ∧
      (i = 0 → kindNodes false true t.kids) := by
  intro fuel
  induction fuel with
  | zero => intro i t _ ht; cases ht
  | succ fuel ih =>
    intro i t hi ht
    have hil := (g.inDoc_lt h0 hi).2
    unfold Heap.toTree? at ht
    cases hc : (h.cell i).childs with
    | none =>
      simp only [hc, Option.some.injEq] at ht
      subst ht
      refine ⟨?_, fun _ => trivial⟩
      intro keep next hk _ _
      unfold kindNode
      refine ⟨fun q1 q2 => hk.2 (hT i hi q1 q2), fun q => ?_⟩
      obtain ⟨a, b⟩ := hS i hi q
      refine ⟨a, ?_⟩
      cases keep
      · rfl
      · exact absurd (hk.1 rfl) b
    | some ids =>
      simp only [hc] at ht
      cases ho : optAll (h.toTree? fuel) ids with
      | none => rw [ho] at ht; cases ht
      | some ts =>
        rw [ho] at ht
        simp only [Option.some.injEq] at ht
        subst ht
        have hkids := kids_some hc
        have hnd : ids.Nodup := by
          have := g.sorted i hil
          rw [hkids] at this
          exact this.imp fun h => Nat.ne_of_lt h
        -- the children, from some child on
        have hlist : ∀ (rest pre : List NodeId) (us : List Tree) (keep top : Bool), ids = pre ++ rest →
            optAll (h.toTree? fuel) rest = some us → (top = true ↔ i = 0) →
            (keep = true ↔ pre = [] ∧ (h.cell i).endTag ≠ none ∧ Followed h i) → kindNodes keep top us := by
          intro rest
          induction rest with
          | nil => intro pre us keep top _ hu _ _; simp only [optAll, Option.some.injEq] at hu; subst hu; trivial
          | cons x rest ihr =>
            intro pre us keep top he hu htop hkeep
            obtain ⟨t, us', rfl, hx, hu'⟩ := optAll_cons hu
            have hxm : x ∈ ids := by rw [he]; simp
            have hxd : InDoc h 0 x := .child hi hc hxm
            have hx0 : x ≠ 0 := by
              have := (g.range i x hil (by rw [hkids]; exact hxm)).1
              omega
            have hemp : us'.isEmpty = rest.isEmpty := by
              cases rest with
              | nil => simp only [optAll, Option.some.injEq] at hu'; subst hu'; rfl
              | cons y rest => obtain ⟨_, _, rfl, _, _⟩ := optAll_cons hu'; rfl
            have hown : ∀ q, q < h.size → x ∈ h.kids q → q = i := fun q hq hm =>
              g.owner q i x hq hil hm (by rw [hkids]; exact hxm)
            unfold kindNodes
            refine ⟨((ih x t hxd hx).1 _ _ ?_ ?_ hx0), ?_⟩
            · rw [hemp, Bool.and_eq_true, hkeep, keptSpace_iff, List.isEmpty_iff]
              constructor
              · rintro ⟨⟨rfl, h1, h2⟩, rfl⟩
                exact ⟨i, hil, by rw [hc, he]; rfl, h1, h2⟩
              · rintro ⟨q, hq, h1, h2, h3⟩
                have : q = i := hown q hq (by rw [kids_some h1]; simp)
                subst this
                rw [hc, he, Option.some.injEq] at h1
                cases pre with
                | nil => simp only [List.nil_append, List.cons.injEq] at h1; exact ⟨⟨rfl, h2, h3⟩, h1.2⟩
                | cons a pre => simp at h1
            · rw [hemp, Bool.or_eq_true, Bool.and_eq_true, htop]
              have htf : textFirstT us' = true ↔ ∃ y r, rest = y :: r ∧ ((h.cell y).nodeType = .text ∨ (h.cell y).nodeType = .spacesBetweenTag) := by
                cases rest with
                | nil => simp only [optAll, Option.some.injEq] at hu'; subst hu'; simp [textFirstT]
                | cons y rest =>
                  obtain ⟨b, _, rfl, hb, _⟩ := optAll_cons hu'
                  simp [textFirstT, Tree.isTextT, toTree_node hb]
              rw [htf]
              unfold Followed
              constructor
              · rintro (⟨y, r, rfl, hy⟩ | ⟨rfl, hr⟩)
                · exact .inl ⟨i, pre, y, r, hil, by rw [hc, he], hy⟩
                · refine .inr ⟨pre, ?_⟩
                  rw [hc, he, List.isEmpty_iff.1 hr]
              · rintro (⟨q, l, y, r, hq, h1, hy⟩ | ⟨l, h1⟩)
                · have : q = i := hown q hq (by rw [kids_some h1]; simp)
                  subst this
                  rw [hc, he, Option.some.injEq] at h1
                  have := (nodup_split (by rw [← he]; exact hnd) h1).2
                  exact .inl ⟨y, r, this, hy⟩
                · have : 0 = i := hown 0 h0 (by rw [kids_some h1]; simp)
                  subst this
                  rw [hc, he, Option.some.injEq] at h1
                  have := (nodup_split (by rw [← he]; exact hnd) h1).2
                  exact .inr ⟨rfl, by rw [this]; rfl⟩
            · refine ihr (pre ++ [x]) us' false top (by rw [he]; simp) hu' htop ?_
              simp
        constructor
        · intro keep next _ hn hi0
          unfold kindNode
          refine hlist ids [] ts _ false rfl ho (by simp [hi0]) ?_
          rw [Bool.and_eq_true, hn]
          cases (h.cell i).endTag <;> simp
        · intro hi0
          subst hi0
          refine hlist ids [] ts false true rfl ho (by simp) ?_
          have : (h.cell 0).endTag = none := by
            cases hx : (h.cell 0).endTag with
            | none => rfl
            | some e =>
              have := (ge.down 0 e h0 hx).2.2.2.2.2
              rw [ht0] at this
              cases this
          simp [this]

theorem blank_iff (w : Str) : blank w = true ↔ ∀ c ∈ w, c ∈ ws := by
  unfold blank; simp

/-- The types of the texts in a parsed document. -/
theorem parse_kinds {s : Str} {o : ParseOptions} {d : Doc} {t : Tree} (h : Doc.parse s o = .ok d)
    (hf1 : o.autoFixUnescapedLt = false) (hf2 : o.autoFixUnexpectedEndtag = false) (hf3 : o.autoFixUnclosedTag = false)
    (ht : d.tree? = some t) : kindNodes false true t.kids := by
  obtain ⟨hroot, h0, ht0, g, ge, _⟩ := parse_graph h
  unfold Doc.tree? at ht
  rw [hroot] at ht
  refine (toTree_kinds g ge h0 ht0 ?_ ?_ _ 0 t .root ht).2 rfl
  · intro x hx hty hb
    rw [← hroot] at hx
    obtain ⟨w, hw, _, _⟩ := c17_text_content h x hx (.inl hty)
    rw [hw] at hb
    exact (c19_exact_partial h hf1 hf2 hf3 x hx (.inl hty) w hw ((blank_iff w).1 hb)).1 hty
  · intro x hx hty
    rw [← hroot] at hx
    obtain ⟨w, hw, _, hws⟩ := c18_spaces h x hx hty
    refine ⟨by rw [hw]; exact (blank_iff w).2 hws, ?_⟩
    intro hk
    have := (c19_exact_partial h hf1 hf2 hf3 x hx (.inr hty) w hw hws).2 hk
    rw [this] at hty
    cases hty

end Rphtml
