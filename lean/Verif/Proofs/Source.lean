import Verif.Proofs.Reach

/-!
# Where the pending construct starts in the input

For a state reached after reading `s`, the characters still being collected are a suffix of `s`.
-/

namespace Rphtml

/-- `s` is `w` preceded by `b` characters. -/
def Tail (s : Str) (b : Nat) (w : Str) : Prop := ∃ pre, s = pre ++ w ∧ pre.length = b

theorem Tail.snoc {s w : Str} {b : Nat} (h : Tail s b w) (c : Char) : Tail (s ++ [c]) b (w ++ [c]) := by
  obtain ⟨pre, rfl, hl⟩ := h
  exact ⟨pre, by simp, hl⟩

theorem Tail.begin (s : Str) (c : Char) : Tail (s ++ [c]) s.length [c] := ⟨s, rfl, rfl⟩

theorem Tail.start (s : Str) : Tail s s.length [] := ⟨s, by simp, rfl⟩

theorem Tail.congr {s w w' : Str} {b : Nat} (h : Tail s b w) (e : w = w') : Tail s b w' := e ▸ h

theorem Tail.len {s w : Str} {b : Nat} (h : Tail s b w) : s.length = b + w.length := by
  obtain ⟨pre, rfl, hl⟩ := h
  simp [hl]

/-- What the characters read say about the pending construct. -/
def SrcAt (s : Str) (d : Doc) : Prop :=
  match d.handle with
  | .unkownTag => Tail s d.memPosition ['<']
  | .exclamationBegin => Tail s d.memPosition (['<', '!'] ++ d.prevChars)
  | .doctypeName => Tail s d.cur.beginAt (['<', '!'] ++ d.prevChars)
  | .tagName => Tail s d.cur.beginAt ('<' :: d.prevChars)
  | .tagEnd => Tail s d.cur.beginAt (['<', '/'] ++ d.prevChars)
  | .commentOrCdata =>
    if d.codeIn = .comment then Tail s d.cur.beginAt (['<', '!', '-', '-'] ++ d.prevChars)
    else ∃ k : Str, k.map toUpper = detectCdata ∧ Tail s d.cur.beginAt (['<', '!'] ++ k ++ d.prevChars)
  | .tagWait | .tagSelfClosing | .attrKey | .attrValue =>
    ∃ m mid, d.cur.tmeta = some m ∧
      Tail s d.cur.beginAt ((if d.codeIn = .htmlDoctype then ['<', '!'] else ['<']) ++ m.name ++ mid) ∧
      (d.handle = .tagSelfClosing → ∃ x y, mid = x ++ '/' :: y)
  | .contentTag => ∃ pre, s = pre ++ '>' :: d.prevChars ∧ pre.length = d.memPosition
  | _ => True

theorem SrcAt.triv {s : Str} {d : Doc} (h : d.handle = .wait ∨ d.handle = .text) : SrcAt s d := by
  unfold SrcAt; rcases h with h | h <;> simp only [h]

theorem SrcAt.unkownTag {s : Str} {d : Doc} (h : d.handle = .unkownTag) (ht : Tail s d.memPosition ['<']) :
    SrcAt s d := by unfold SrcAt; simp only [h]; exact ht

theorem SrcAt.excl {s : Str} {d : Doc} (h : d.handle = .exclamationBegin)
    (ht : Tail s d.memPosition (['<', '!'] ++ d.prevChars)) :
    SrcAt s d := by unfold SrcAt; simp only [h]; exact ht

theorem SrcAt.inTag {s : Str} {d : Doc} (h : d.handle.inTag = true) (m : TagMeta) (mid : Str)
    (hm : d.cur.tmeta = some m)
    (ht : Tail s d.cur.beginAt ((if d.codeIn = .htmlDoctype then ['<', '!'] else ['<']) ++ m.name ++ mid))
    (hs : d.handle = .tagSelfClosing → ∃ x y, mid = x ++ '/' :: y) : SrcAt s d := by
  unfold SrcAt
  cases hd : d.handle <;> rw [hd] at h <;> simp only [Handler.inTag, Bool.false_eq_true] at h <;>
    exact ⟨m, mid, hm, ht, fun h => hs (hd ▸ h)⟩

theorem SrcAt.inTag_of {s : Str} {d : Doc} (h : d.handle.inTag = true) (hs : SrcAt s d) :
    ∃ m mid, d.cur.tmeta = some m ∧
      Tail s d.cur.beginAt ((if d.codeIn = .htmlDoctype then ['<', '!'] else ['<']) ++ m.name ++ mid) ∧
      (d.handle = .tagSelfClosing → ∃ x y, mid = x ++ '/' :: y) := by
  unfold SrcAt at hs
  cases hd : d.handle <;> rw [hd] at h <;> simp only [Handler.inTag, Bool.false_eq_true] at h <;>
    (simp only [hd] at hs; obtain ⟨m, mid, h1, h2, h3⟩ := hs; exact ⟨m, mid, h1, h2, fun h => h3 (by trivial)⟩)

theorem SrcAt.endText {s : Str} {d : Doc} {c : Char} (hp : d.position = s.length) (hc : c = '<') :
    SrcAt (s ++ [c]) d.endText := by
  refine SrcAt.unkownTag rfl ?_
  show Tail (s ++ [c]) d.position ['<']
  rw [hp, hc]
  exact Tail.begin s '<'

theorem beginAt_addChild (d : Doc) (hd : Ctl d) (p : NodeId) (hp : d.chain.head? = some p) (n : Cell) (o : Option NodeId) :
    (((d.addChild p n).heap.markSpaces o).cell d.heap.size).beginAt = n.beginAt := by
  rw [markSpaces_cell, addChild_cell d p n (hd.chain_head hp)]
  simp only [if_true]
  split <;> rfl

theorem closeTag_notag (d : Doc) (m : TagMeta) : (d.closeTag m).handle = .wait ∨
    ((d.closeTag m).handle = .contentTag ∧ (d.closeTag m).memPosition = d.position ∧
      (d.closeTag m).prevChars = d.prevChars) := by
  unfold Doc.closeTag
  split
  · exact Or.inl rfl
  · split
    · rcases rawCode_cases m.name with h | h | h <;> unfold rawCode at h <;> rw [h] <;>
        exact Or.inr ⟨rfl, rfl, rfl⟩
    · exact Or.inl rfl

theorem tagChar_slash {isDoc allowEq : Bool} {t t' : TagSt} {c : Char} {id : Option Str}
    (h : tagChar isDoc allowEq t c = .cont t' id) (hs : t'.handle = .tagSelfClosing) :
    c = '/' ∨ t.handle = .tagSelfClosing := by
  unfold tagChar tagWaitC at h
  repeat' split at h
  all_goals first
    | (cases h; done)
    | skip
  all_goals
    simp only [TagOut.cont.injEq] at h
    obtain ⟨rfl, _⟩ := h
  all_goals first
    | (left; assumption)
    | (right; assumption)
    | (simp at hs; done)
    | (right; exact hs)

theorem SrcAt.closed {s : Str} {d : Doc} {m : TagMeta} {c : Char} (hc : c = '>') (hp : d.position = s.length)
    (hpc : d.prevChars = []) :
    SrcAt (s ++ [c]) (d.closeTag m) := by
  rcases closeTag_notag d m with h | ⟨h1, h2, h3⟩
  · exact SrcAt.triv (Or.inl h)
  · unfold SrcAt
    simp only [h1, h2, h3, hpc, hp]
    exact ⟨s, by rw [hc], rfl⟩

theorem SrcAt.step {s : Str} {d d' : Doc} {c : Char} (hd : Ctl d) (hpos : d.position = s.length) (hs : Step d c d')
    (ih : SrcAt s d) : SrcAt (s ++ [c]) d' := by
    cases hs with
    | lt hh hc =>
      refine SrcAt.unkownTag rfl ?_
      show Tail (s ++ [c]) d.position ['<']
      rw [hpos, hc]; exact Tail.begin s '<'
    | textResume hh hc hf ht w hw => exact SrcAt.triv (Or.inr rfl)
    | textStart hh hc hf p hp => exact SrcAt.triv (Or.inr rfl)
    | textMore hh hc => exact SrcAt.triv (Or.inr hh)
    | textEnd hh hc => exact SrcAt.endText hpos hc
    | tagOpen hh hc p hp =>
      unfold SrcAt at ih
      simp only [hh] at ih
      unfold SrcAt
      simp only
      have := beginAt_addChild d hd p hp (Cell.new .tag d.memPosition) d.checkTextnode
      exact (congrArg (fun b => Tail (s ++ [c]) b ['<', c]) this).mpr (ih.snoc c)
    | endOpen hh hc =>
      unfold SrcAt at ih
      simp only [hh] at ih
      have hpc : d.prevChars = [] := by
        have := hd.hs; unfold HandleOk at this; simp only [hh] at this; exact this.2.1
      unfold SrcAt
      simp only [hpc]
      have := ih.snoc c
      rw [hc] at this
      rw [hc]
      refine (congrArg (fun b => Tail (s ++ ['/']) b ['<', '/']) ?_).mpr this
      show ((d.heap.push _).cell d.heap.size).beginAt = _
      simp [Heap.push_cell, Cell.new]
    | bang hh hc =>
      unfold SrcAt at ih
      simp only [hh] at ih
      have hpc : d.prevChars = [] := by
        have := hd.hs; unfold HandleOk at this; simp only [hh] at this; exact this.2.1
      refine SrcAt.excl rfl ?_
      have := ih.snoc c
      rw [hc] at this
      rw [hc]
      simpa [hpc] using this
    | ltExtend hh hf hc ht w hw d1 h1 =>
      split
      · rename_i h; subst h1; exact SrcAt.endText hpos h
      · subst h1; exact SrcAt.triv (Or.inr rfl)
    | ltNew hh hf hc ht p hp d1 h1 =>
      split
      · rename_i h; subst h1; exact SrcAt.endText hpos h
      · subst h1; exact SrcAt.triv (Or.inr rfl)
    | exclFirst hh hdt D hD =>
      have hpc : d.prevChars = [] := by
        have := hd.hs; unfold HandleOk at this; simp only [hh, hdt] at this
        rcases this.2 with h | ⟨D, h, _⟩
        · exact h.2
        · cases h
      unfold SrcAt at ih
      simp only [hh, hpc] at ih
      exact SrcAt.excl hh (ih.snoc c)
    | exclMore hh D hdt hl hc =>
      unfold SrcAt at ih
      simp only [hh] at ih
      exact SrcAt.excl hh ((ih.snoc c).congr (by simp))
    | commentOpen hh hdt hl hc p hp =>
      have hpc : d.prevChars = ['-'] := by
        have := hd.hs; unfold HandleOk at this; simp only [hh, hdt] at this
        rcases this.2 with ⟨h, _⟩ | ⟨D, h, _, _, _, h6⟩
        · cases h
        · cases h
          have h1 : d.prevChars.length = 1 := by
            have : detectComment.length = 2 := rfl
            omega
          rw [h1] at h6
          match hq : d.prevChars, h1 with
          | [x], _ =>
            rw [hq] at h6
            simp only [List.map_cons, List.map_nil] at h6
            have : toUpper x = '-' := by simpa [detectComment] using h6
            rw [(toUpper_eq_dash x).1 this]
      unfold SrcAt at ih
      simp only [hh, hpc] at ih
      unfold SrcAt
      simp only [if_true]
      have := beginAt_addChild d hd p hp (Cell.new .comment d.memPosition) d.checkTextnode
      refine (congrArg (fun b => Tail (s ++ [c]) b (['<', '!', '-', '-'] ++ [])) this).mpr ?_
      refine (ih.snoc c).congr ?_
      rw [hc]; rfl
    | cdataOpen hh hdt hl hc p hp =>
      have hk : (d.prevChars ++ [c]).map toUpper = detectCdata := by
        have := hd.hs; unfold HandleOk at this; simp only [hh, hdt] at this
        rcases this.2 with ⟨h, _⟩ | ⟨D, h, _, _, _, h6⟩
        · cases h
        · cases h
          have h1 : d.prevChars.length = 6 := by
            have : detectCdata.length = 7 := rfl
            omega
          rw [List.map_append, h6, h1, hc]
          rfl
      unfold SrcAt at ih
      simp only [hh] at ih
      unfold SrcAt
      rw [if_neg (show ¬ (CodeTypeIn.xmlCdata = .comment) by simp)]
      refine ⟨d.prevChars ++ [c], hk, ?_⟩
      have := beginAt_addChild d hd p hp (Cell.new .xmlCdata d.memPosition) d.checkTextnode
      refine (congrArg (fun b => Tail (s ++ [c]) b (['<', '!'] ++ (d.prevChars ++ [c]) ++ [])) this).mpr ?_
      refine (ih.snoc c).congr ?_
      simp
    | doctypeOpen hh hdt hl hc p hp =>
      unfold SrcAt at ih
      simp only [hh] at ih
      unfold SrcAt
      simp only
      have := beginAt_addChild d hd p hp (Cell.new .htmlDoctype d.memPosition) d.checkTextnode
      refine (congrArg (fun b => Tail (s ++ [c]) b (['<', '!'] ++ (d.prevChars ++ [c]))) this).mpr ?_
      exact (ih.snoc c).congr (by simp)
    | commentMore hh hc =>
      unfold SrcAt at ih
      simp only [hh] at ih
      unfold SrcAt
      simp only [hh]
      split at ih
      · rename_i h1; rw [if_pos h1]
        exact (ih.snoc c).congr (by simp)
      · rename_i h1; rw [if_neg h1]
        obtain ⟨k, hk, ht⟩ := ih
        exact ⟨k, hk, (ht.snoc c).congr (by simp)⟩
    | commentClose hh hc b hb hp => exact SrcAt.triv (Or.inl rfl)
    | doctypeName hh hc =>
      have hci : d.codeIn = .htmlDoctype := by
        have := hd.hs; unfold HandleOk at this; simp only [hh] at this; exact this.1
      unfold SrcAt at ih
      simp only [hh] at ih
      refine SrcAt.inTag rfl _ [c] (congrArg (fun c => c.tmeta) (putTag_curcell d _ none)) ?_ (by intro h; cases h)
      rw [putTag_codeIn, if_pos hci]
      refine (congrArg (fun b => Tail (s ++ [c]) b (['<', '!'] ++ d.prevChars ++ [c])) ?_).mpr ((ih.snoc c).congr (by simp))
      exact congrArg (fun c => c.beginAt) (putTag_curcell d _ none)
    | nameMore hh hc =>
      unfold SrcAt at ih
      simp only [hh] at ih
      unfold SrcAt
      simp only [hh]
      exact (ih.snoc c).congr (by simp)
    | nameEnd hh hc =>
      have hci : d.codeIn = .tag := by
        have := hd.hs; unfold HandleOk at this; simp only [hh] at this; exact this.1
      unfold SrcAt at ih
      simp only [hh] at ih
      refine SrcAt.inTag ?_ _ [c] (congrArg (fun c => c.tmeta) (putTag_curcell d _ none)) ?_ ?_
      · show Handler.inTag (if c = '/' then .tagSelfClosing else .tagWait) = true
        split <;> rfl
      · have h2 : ¬ (d.codeIn = .htmlDoctype) := by rw [hci]; simp
        rw [putTag_codeIn, if_neg h2]
        refine (congrArg (fun b => Tail (s ++ [c]) b (['<'] ++ d.prevChars ++ [c])) ?_).mpr ((ih.snoc c).congr (by simp))
        exact congrArg (fun c => c.beginAt) (putTag_curcell d _ none)
      · intro h
        have h : (if c = '/' then Handler.tagSelfClosing else .tagWait) = .tagSelfClosing := h
        split at h
        · rename_i h1; exact ⟨[], [], by rw [h1]; rfl⟩
        · cases h
    | nameClose hh hc m hm => exact SrcAt.closed hc hpos rfl
    | tagMore hh m hm t id ht =>
      have hok := (hd.inTag hh hm).1
      obtain ⟨m1, mid, hm1, h2, h3⟩ := ih.inTag_of hh
      rw [hm] at hm1; cases hm1
      obtain ⟨k1, k2, k3⟩ := tagChar_cont hok ht
      refine SrcAt.inTag k3 _ (mid ++ [c]) (congrArg (fun c => c.tmeta) (putTag_curcell d _ _)) ?_ ?_
      · have hb : (d.putTag t id).cur.beginAt = d.cur.beginAt :=
          congrArg (fun c => c.beginAt) (putTag_curcell d _ _)
        rw [hb]
        refine (h2.snoc c).congr ?_
        have : t.m.name = m.name := k2.name
        rw [this]; simp; rfl
      · intro h
        rcases tagChar_slash ht h with h | h
        · exact ⟨mid, [], by rw [h]⟩
        · obtain ⟨x, y, e⟩ := h3 h
          exact ⟨x, y ++ [c], by rw [e]; simp⟩
    | tagClose hh m hm m' pc mark id ht =>
      have hok := (hd.inTag hh hm).1
      obtain ⟨k1, k2, k3⟩ := tagChar_close hok ht
      exact SrcAt.closed k3 hpos k2
    | tagSelf hh hc m hm ha => exact SrcAt.triv (Or.inl rfl)
    | endMore hh hc =>
      unfold SrcAt at ih
      simp only [hh] at ih
      unfold SrcAt
      simp only [hh]
      exact (ih.snoc c).congr (by simp)
    | endMatch hh hc t m hm => exact SrcAt.triv (Or.inl rfl)
    | endStray hh hc hf hm => exact SrcAt.triv (Or.inl rfl)
    | rawMore hh hc =>
      unfold SrcAt at ih
      simp only [hh] at ih
      unfold SrcAt
      simp only [hh]
      obtain ⟨pre, rfl, hl⟩ := ih
      exact ⟨pre, by simp, hl⟩
    | rawClose hh hc e he n hn => exact SrcAt.triv (Or.inl rfl)

theorem Reach.srcAt {o : ParseOptions} {s : Str} {d : Doc} (h : Reach o s d) : SrcAt s d := by
  induction h with
  | init => exact SrcAt.triv (Or.inl rfl)
  | step hr hs ih =>
    have := ih.step hr.ctl hr.position hs
    exact this

end Rphtml
