import Verif.Proofs.TagWf

/-!
# The tags of a document

The attributes of all tags are well-formed in every reachable state, and the id table holds exactly the ids of the
tags, newest first.
-/

namespace Rphtml

/-- The handlers that read a start tag or a doctype. -/
def Handler.tagPart (h : Handler) : Prop := h = .tagName ∨ h = .doctypeName ∨ h.inTag = true

/-- The ids carried by a cell. -/
def Cell.ids (c : Cell) (x : Str) : Prop := ∃ m, c.tmeta = some m ∧ attrIds m.attrs x

/-- The tags and the id table. -/
structure MetaInv (d : Doc) : Prop where
  wf : ∀ i, i < d.heap.size → ∀ m, (d.heap.cell i).tmeta = some m → (d.handle.inTag = true → i ≠ d.current) →
    MetaWf d.opts.allowAttrKeyStartsWithEqualSign (decide ((d.heap.cell i).nodeType = .htmlDoctype)) m
  cur : d.handle.inTag = true → ∀ m, d.cur.tmeta = some m →
    (d.tagSt m).Wf d.opts.allowAttrKeyStartsWithEqualSign (decide (d.codeIn = .htmlDoctype))
  ids : ∀ x i, (x, i) ∈ d.idTags ↔ i < d.heap.size ∧ (d.heap.cell i).ids x
  sorted : d.idTags.Pairwise fun a b => b.2 ≤ a.2
  fresh : d.handle.tagPart → d.current + 1 = d.heap.size
  kind : ∀ i, i < d.heap.size → (d.heap.cell i).tmeta ≠ none →
    (d.heap.cell i).nodeType = .tag ∨ (d.heap.cell i).nodeType = .htmlDoctype

theorem Ctl.tagPart_ty {d : Doc} (hd : Ctl d) (h : d.handle.tagPart) :
    d.cur.nodeType = .tag ∨ d.cur.nodeType = .htmlDoctype := by
  have hs := hd.hs
  rcases h with h | h | h
  · unfold HandleOk at hs; simp only [h] at hs; exact Or.inl hs.2.2.1
  · unfold HandleOk at hs; simp only [h] at hs; exact Or.inr hs.2.2.1
  · obtain ⟨_, m, _, _, _, _, h2⟩ := inTag_hs hd h
    rcases h2 with h2 | h2
    · exact Or.inl h2.2.1
    · exact Or.inr h2.2.1

theorem MetaInv.new (o : ParseOptions) : MetaInv (Doc.new o) := by
  refine ⟨?_, (by intro h; cases h), ?_, List.Pairwise.nil, ?_, ?_⟩
  · intro i hi m hm
    have : i = 0 := by simp only [Doc.new] at hi; omega
    subst this; cases hm
  · intro x i
    constructor
    · intro h; cases h
    · rintro ⟨hi, m, hm, _⟩
      have : i = 0 := by simp only [Doc.new] at hi; omega
      subst this; cases hm
  · rintro (h | h | h) <;> cases h
  · intro i hi hm
    have : i = 0 := by simp only [Doc.new] at hi; omega
    subst this; exact absurd rfl hm

/-- A transition outside of start tags. -/
theorem MetaInv.keep {d d' : Doc} (hd : Ctl d) (g : MetaInv d) (he : Eff d d') (ho : d'.opts = d.opts)
    (hh : ¬ d.handle.tagPart) (hid : d'.idTags = d.idTags)
    (hin : d'.handle.inTag = false)
    (hh' : d'.handle.tagPart → d'.current + 1 = d'.heap.size) : MetaInv d' := by
  have hk := he.keep hd
  have hsz := he.size_le
  have hn1 : d.handle ≠ .tagName := fun h => hh (Or.inl h)
  have hn2 : d.handle ≠ .doctypeName := fun h => hh (Or.inr (Or.inl h))
  have hn3 : d.handle.inTag = false := by
    cases h : d.handle.inTag with
    | false => rfl
    | true => exact absurd (Or.inr (Or.inr h)) hh
  have ht : ∀ i, i < d.heap.size → (d'.heap.cell i).tmeta = (d.heap.cell i).tmeta :=
    fun i hi => (hk i hi).tmeta hn1 hn2 hn3
  have hnew : ∀ i, d.heap.size ≤ i → i < d'.heap.size → (d'.heap.cell i).tmeta = none := by
    intro i h1 h2
    have : i = d.heap.size := by omega
    subst this
    exact (he.newCell hd h2).2.1
  refine ⟨?_, (by rw [hin]; intro h; cases h), ?_, by rw [hid]; exact g.sorted, hh', ?_⟩
  · intro i hi m hm _
    rcases Nat.lt_or_ge i d.heap.size with h | h
    · rw [ht i h] at hm
      have h1 := g.wf i h m hm (by rw [hn3]; intro h; cases h)
      have : decide ((d'.heap.cell i).nodeType = .htmlDoctype) = decide ((d.heap.cell i).nodeType = .htmlDoctype) := by
        rcases (hk i h).ty with h2 | h2
        · rw [h2]
        · rw [h2.1, h2.2.1]; rfl
      rw [this, ho]; exact h1
    · rw [hnew i h hi] at hm; cases hm
  · intro x i
    rw [hid, g.ids x i]
    unfold Cell.ids
    constructor
    · rintro ⟨h1, h2⟩
      exact ⟨by omega, by rw [ht i h1]; exact h2⟩
    · rintro ⟨h1, h2⟩
      rcases Nat.lt_or_ge i d.heap.size with h | h
      · rw [ht i h] at h2; exact ⟨h, h2⟩
      · obtain ⟨m, h3, _⟩ := h2
        rw [hnew i h h1] at h3; cases h3
  · intro i hi hm
    rcases Nat.lt_or_ge i d.heap.size with h | h
    · rw [ht i h] at hm
      have h1 := g.kind i h hm
      rcases (hk i h).ty with h2 | h2
      · rw [h2]; exact h1
      · rw [h2.1] at h1; rcases h1 with h | h <;> cases h
    · exact absurd (hnew i h hi) hm

/-- A transition that only rewrites the metadata of the tag being read. -/
theorem MetaInv.put {d d' : Doc} (hd : Ctl d) (g : MetaInv d) (hh : d.handle.tagPart) (ho : d'.opts = d.opts) (m : TagMeta)
    (id : Option Str) (hheap : d'.heap = d.heap.upd d.current fun c => { c with tmeta := some m })
    (hcur : d'.current = d.current) (hid : d'.idTags = match id with
      | some x => (x, d.current) :: d.idTags
      | none => d.idTags)
    (hids : ∀ x, attrIds m.attrs x ↔ d.cur.ids x ∨ id = some x)
    (hwf : d'.handle.inTag = false →
      MetaWf d.opts.allowAttrKeyStartsWithEqualSign (decide (d.cur.nodeType = .htmlDoctype)) m)
    (hwf' : d'.handle.inTag = true →
      (d'.tagSt m).Wf d.opts.allowAttrKeyStartsWithEqualSign (decide (d'.codeIn = .htmlDoctype))) : MetaInv d' := by
  have hcl := hd.curLt
  have hfr := g.fresh hh
  have hcell : ∀ i, d'.heap.cell i = if i = d.current then { d.heap.cell i with tmeta := some m } else d.heap.cell i :=
    fun i => by rw [hheap]; rfl
  have hsz : d'.heap.size = d.heap.size := by rw [hheap]; rfl
  refine ⟨?_, ?_, ?_, ?_, fun _ => by rw [hcur, hsz]; exact hfr, ?_⟩
  · intro i hi m' hm' hne
    rw [hsz] at hi
    rw [hcell] at hm' ⊢
    by_cases h1 : i = d.current
    · rw [if_pos h1] at hm' ⊢
      simp only [Option.some.injEq] at hm'
      subst hm' h1
      rw [ho]
      refine hwf ?_
      cases h2 : d'.handle.inTag with
      | false => rfl
      | true => exact absurd hcur.symm (hne h2)
    · rw [if_neg h1] at hm' ⊢
      rw [ho]
      exact g.wf i hi m' hm' fun _ => h1
  · intro h1 m' hm'
    unfold Doc.cur at hm'
    rw [hcur, hcell, if_pos rfl] at hm'
    simp only [Option.some.injEq] at hm'
    subst hm'
    rw [ho]; exact hwf' h1
  · intro x i
    have hmem : (x, i) ∈ d'.idTags ↔ (id = some x ∧ i = d.current) ∨ (x, i) ∈ d.idTags := by
      rw [hid]
      cases id with
      | none => simp
      | some y =>
        simp only [List.mem_cons, Prod.mk.injEq, Option.some.injEq]
        constructor
        · rintro (h | h)
          · exact Or.inl ⟨h.1.symm, h.2⟩
          · exact Or.inr h
        · rintro (h | h)
          · exact Or.inl ⟨h.1.symm, h.2⟩
          · exact Or.inr h
    rw [hmem, g.ids x i, hsz, hcell]
    by_cases h1 : i = d.current
    · subst h1
      rw [if_pos rfl]
      unfold Cell.ids
      simp only [Option.some.injEq]
      constructor
      · rintro (⟨h2, _⟩ | ⟨h2, h3⟩)
        · exact ⟨hcl, m, rfl, (hids x).2 (Or.inr h2)⟩
        · exact ⟨hcl, m, rfl, (hids x).2 (Or.inl h3)⟩
      · rintro ⟨h2, m', rfl, h3⟩
        rcases (hids x).1 h3 with h | h
        · exact Or.inr ⟨h2, h⟩
        · exact Or.inl ⟨h, trivial⟩
    · rw [if_neg h1]
      constructor
      · rintro (h | h)
        · exact absurd h.2 h1
        · exact h
      · exact Or.inr
  · rw [hid]
    cases id with
    | none => exact g.sorted
    | some y =>
      refine List.pairwise_cons.2 ⟨?_, g.sorted⟩
      rintro ⟨x, i⟩ hx
      have := ((g.ids x i).1 hx).1
      show i ≤ d.current
      omega
  · intro i hi hm
    rw [hsz] at hi
    rw [hcell] at hm ⊢
    by_cases h1 : i = d.current
    · rw [if_pos h1, h1]; exact hd.tagPart_ty hh
    · rw [if_neg h1] at hm ⊢; exact g.kind i hi hm

theorem noIds (d : Doc) (h : d.cur.tmeta = none) (x : Str) : ¬ d.cur.ids x := by
  rintro ⟨m, hm, _⟩; rw [h] at hm; cases hm

theorem metaWf_empty (a b : Bool) (n : Str) (v : Bool) : MetaWf a b { name := n, isVoid := v } :=
  ⟨(by intro x hx; cases hx), fun k => rfl⟩

theorem ids_some {d : Doc} {m : TagMeta} (h : d.cur.tmeta = some m) (x : Str) : d.cur.ids x ↔ attrIds m.attrs x := by
  unfold Cell.ids
  rw [h]
  constructor
  · rintro ⟨m', h1, h2⟩; cases h1; exact h2
  · intro h1; exact ⟨m, rfl, h1⟩

theorem MetaInv.step {d d' : Doc} {c : Char} (hd : Ctl d) (g : MetaInv d) (h : Step d c d') : MetaInv d' := by
  have he := h.eff hd
  have ho := h.frame.2.1
  have hs := hd.hs
  cases h with
  | lt hh hc => exact g.keep hd he ho (by simp [Handler.tagPart, hh, Handler.inTag]) rfl rfl (by simp [Handler.tagPart, Handler.inTag])
  | textResume hh hc hf ht w hw => exact g.keep hd he ho (by simp [Handler.tagPart, hh, Handler.inTag]) rfl rfl (by simp [Handler.tagPart, Handler.inTag])
  | textStart hh hc hf p hp => exact g.keep hd he ho (by simp [Handler.tagPart, hh, Handler.inTag]) rfl rfl (by simp [Handler.tagPart, Handler.inTag])
  | textMore hh hc => exact g.keep hd he ho (by simp [Handler.tagPart, hh, Handler.inTag]) rfl (by simp [hh, Handler.inTag]) (by simp [Handler.tagPart, Handler.inTag, hh])
  | textEnd hh hc => exact g.keep hd he ho (by simp [Handler.tagPart, hh, Handler.inTag]) rfl rfl (by simp [Handler.tagPart, Handler.inTag, Doc.endText])
  | tagOpen hh hc p hp => exact g.keep hd he ho (by simp [Handler.tagPart, hh, Handler.inTag]) rfl rfl (fun _ => by simp [Doc.addChild])
  | endOpen hh hc => exact g.keep hd he ho (by simp [Handler.tagPart, hh, Handler.inTag]) rfl rfl (by simp [Handler.tagPart, Handler.inTag])
  | bang hh hc => exact g.keep hd he ho (by simp [Handler.tagPart, hh, Handler.inTag]) rfl rfl (by simp [Handler.tagPart, Handler.inTag])
  | ltExtend hh hf hc ht w hw d1 h1 =>
    refine g.keep hd he ho (by simp [Handler.tagPart, hh, Handler.inTag]) ?_ ?_ ?_
    all_goals (subst h1; split <;> simp [Doc.endText, Handler.inTag, Handler.tagPart])
  | ltNew hh hf hc ht p hp d1 h1 =>
    refine g.keep hd he ho (by simp [Handler.tagPart, hh, Handler.inTag]) ?_ ?_ ?_
    all_goals (subst h1; split <;> simp [Doc.endText, Handler.inTag, Handler.tagPart])
  | exclFirst hh hdt D hD => exact g.keep hd he ho (by simp [Handler.tagPart, hh, Handler.inTag]) rfl (by simp [hh, Handler.inTag]) (by simp [Handler.tagPart, Handler.inTag, hh])
  | exclMore hh D hdt hl hc => exact g.keep hd he ho (by simp [Handler.tagPart, hh, Handler.inTag]) rfl (by simp [hh, Handler.inTag]) (by simp [Handler.tagPart, Handler.inTag, hh])
  | commentOpen hh hdt hl hc p hp => exact g.keep hd he ho (by simp [Handler.tagPart, hh, Handler.inTag]) rfl rfl (fun _ => by simp [Doc.addChild])
  | cdataOpen hh hdt hl hc p hp => exact g.keep hd he ho (by simp [Handler.tagPart, hh, Handler.inTag]) rfl rfl (fun _ => by simp [Doc.addChild])
  | doctypeOpen hh hdt hl hc p hp => exact g.keep hd he ho (by simp [Handler.tagPart, hh, Handler.inTag]) rfl rfl (fun _ => by simp [Doc.addChild])
  | commentMore hh hc => exact g.keep hd he ho (by simp [Handler.tagPart, hh, Handler.inTag]) rfl (by simp [hh, Handler.inTag]) (by simp [Handler.tagPart, Handler.inTag, hh])
  | commentClose hh hc b hb hp => exact g.keep hd he ho (by simp [Handler.tagPart, hh, Handler.inTag]) rfl rfl (by simp [Handler.tagPart, Handler.inTag])
  | doctypeName hh hc =>
    unfold HandleOk at hs
    simp only [hh] at hs
    refine g.put hd (Or.inr (Or.inl hh)) rfl _ none rfl rfl rfl ?_ (by intro h; cases h) ?_
    · intro x
      constructor
      · rintro ⟨a, ha, _⟩; cases ha
      · rintro (h | h)
        · exact absurd h (noIds d hs.2.2.2.1 x)
        · cases h
    · intro _
      exact ⟨fun k => rfl, ⟨(by intro a ha; cases ha), fun h => absurd rfl h⟩⟩
  | nameMore hh hc =>
    have hfr := g.fresh (Or.inl hh)
    refine ⟨fun i hi m hm hne => g.wf i hi m hm (by rw [hh]; intro h; cases h), ?_, g.ids, g.sorted, fun _ => hfr, g.kind⟩
    intro h; simp only [hh] at h; cases h
  | nameEnd hh hc =>
    unfold HandleOk at hs
    simp only [hh] at hs
    refine g.put hd (Or.inl hh) rfl _ none rfl rfl rfl ?_ ?_ ?_
    · intro x
      constructor
      · rintro ⟨a, ha, _⟩; cases ha
      · rintro (h | h)
        · exact absurd h (noIds d hs.2.2.2.1 x)
        · cases h
    · intro _; exact metaWf_empty _ _ _ _
    · intro _
      by_cases h : c = '/'
      · simp only [Doc.putTag, Doc.tagSt, h, if_true]
        exact ⟨fun k => rfl, ⟨(by intro a ha; cases ha), fun h => absurd rfl h⟩⟩
      · simp only [Doc.putTag, Doc.tagSt, h, if_false]
        exact ⟨fun k => rfl, ⟨(by intro a ha; cases ha), fun h => absurd rfl h⟩⟩
  | nameClose hh hc m hm =>
    unfold HandleOk at hs
    simp only [hh] at hs
    refine g.put hd (Or.inl hh) (by simp) m none (by simp [Doc.putTag]) (by simp) (by simp [Doc.putTag]) ?_ ?_ ?_
    · intro x
      constructor
      · rintro ⟨a, ha, _⟩; rw [hm] at ha; cases ha
      · rintro (h | h)
        · exact absurd h (noIds d hs.2.2.2.1 x)
        · cases h
    · intro _; rw [hm]; exact metaWf_empty _ _ _ _
    · rw [closeTag_handle]; intro h; split at h <;> cases h
  | tagMore hh m hm t id ht =>
    have w := g.cur hh m hm
    obtain ⟨w1, w2⟩ := tagChar_wf (hd.inTag hh hm).1 w ht
    obtain ⟨_, _, k3⟩ := tagChar_cont (hd.inTag hh hm).1 ht
    refine g.put hd (Or.inr (Or.inr hh)) rfl t.m id rfl rfl rfl ?_ ?_ ?_
    · intro x; rw [w2 x, ids_some hm]; rfl
    · intro h; rw [show (d.putTag t id).handle = t.handle from rfl, k3] at h; cases h
    · intro _; exact w1
  | tagClose hh m hm m' pc mark id ht =>
    have w := g.cur hh m hm
    obtain ⟨w1, w2⟩ := tagChar_close_wf w ht
    refine g.put hd (Or.inr (Or.inr hh)) (by simp) m' id (by simp [Doc.putTag]) (by simp) (by rw [closeTag_idTags]; rfl) ?_ ?_ ?_
    · intro x; rw [w2 x, ids_some hm]; rfl
    · intro _
      have : decide (d.codeIn = .htmlDoctype) = decide (d.cur.nodeType = .htmlDoctype) := by
        rcases (hd.inTag hh hm).2.2.2 with h | h
        · rw [h.1, h.2.1]; rfl
        · rw [h.1, h.2.1]; rfl
      rw [← this]; exact w1
    · rw [closeTag_handle]; intro h; split at h <;> cases h
  | tagSelf hh hc m hm ha =>
    have hin : d.handle.inTag = true := by rw [hh]; rfl
    have w := (g.cur hin m hm).meta (Or.inr hh)
    have : decide (d.codeIn = .htmlDoctype) = decide (d.cur.nodeType = .htmlDoctype) := by
      rcases (hd.inTag hin hm).2.2.2 with h | h
      · rw [h.1, h.2.1]; rfl
      · rw [h.1, h.2.1]; rfl
    rw [this] at w
    refine g.put hd (Or.inr (Or.inr hin)) rfl { m with selfClosed := true } none rfl rfl rfl ?_ (fun _ => ⟨w.attrs, w.map⟩) (by intro h; cases h)
    intro x; rw [ids_some hm]; simp
  | endMore hh hc => exact g.keep hd he ho (by simp [Handler.tagPart, hh, Handler.inTag]) rfl (by simp [hh, Handler.inTag]) (by simp [Handler.tagPart, Handler.inTag, hh])
  | endMatch hh hc t m hm => exact g.keep hd he ho (by simp [Handler.tagPart, hh, Handler.inTag]) rfl rfl (by simp [Handler.tagPart, Handler.inTag])
  | endStray hh hc hf hm => exact g.keep hd he ho (by simp [Handler.tagPart, hh, Handler.inTag]) rfl rfl (by simp [Handler.tagPart, Handler.inTag])
  | rawMore hh hc => exact g.keep hd he ho (by simp [Handler.tagPart, hh, Handler.inTag]) rfl (by simp [hh, Handler.inTag]) (by simp [Handler.tagPart, Handler.inTag, hh])
  | rawClose hh hc e he' n hn => exact g.keep hd he ho (by simp [Handler.tagPart, hh, Handler.inTag]) rfl rfl (by simp [Handler.tagPart, Handler.inTag])

theorem Reach.tags {o : ParseOptions} {s : Str} {d : Doc} (h : Reach o s d) : MetaInv d := by
  induction h with
  | init => exact MetaInv.new o
  | step hr hs ih =>
    have g := ih.step hr.ctl hs
    exact ⟨g.wf, g.cur, g.ids, g.sorted, g.fresh, g.kind⟩

end Rphtml
