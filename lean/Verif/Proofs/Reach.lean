import Verif.Proofs.CtlStep

/-!
# Reachable parser states

`Reach o s d`: reading the characters `s` with options `o` leads to the state `d`.
-/

namespace Rphtml

/-- Reading `s` from the initial state leads to `d`. -/
inductive Reach (o : ParseOptions) : Str → Doc → Prop where
  | init : Reach o [] (Doc.new o)
  | step {s : Str} {c : Char} {d d' : Doc} (h : Reach o s d) (hs : Step d c d') :
      Reach o (s ++ [c]) { d' with position := d'.position + 1 }

theorem Reach.ctl {o : ParseOptions} {s : Str} {d : Doc} (h : Reach o s d) : Ctl d := by
  induction h with
  | init => exact Ctl.new o
  | step _ hs ih => exact (ih.step hs).setPos _

@[simp] theorem putTag_opts (d : Doc) (t : TagSt) (i : Option Str) : (d.putTag t i).opts = d.opts := rfl
@[simp] theorem putTag_position (d : Doc) (t : TagSt) (i : Option Str) : (d.putTag t i).position = d.position := rfl
@[simp] theorem putTag_heap_size (d : Doc) (t : TagSt) (i : Option Str) : (d.putTag t i).heap.size = d.heap.size := rfl
@[simp] theorem putTag_current (d : Doc) (t : TagSt) (i : Option Str) : (d.putTag t i).current = d.current := rfl
@[simp] theorem putTag_chain (d : Doc) (t : TagSt) (i : Option Str) : (d.putTag t i).chain = d.chain := rfl
@[simp] theorem putTag_check (d : Doc) (t : TagSt) (i : Option Str) :
    (d.putTag t i).checkTextnode = d.checkTextnode := rfl
@[simp] theorem putTag_mem (d : Doc) (t : TagSt) (i : Option Str) : (d.putTag t i).memPosition = d.memPosition := rfl
@[simp] theorem putTag_codeIn (d : Doc) (t : TagSt) (i : Option Str) : (d.putTag t i).codeIn = d.codeIn := rfl
@[simp] theorem putTag_inSpecial (d : Doc) (t : TagSt) (i : Option Str) : (d.putTag t i).inSpecial = d.inSpecial := rfl

@[simp] theorem closeTag_heap (d : Doc) (m : TagMeta) : (d.closeTag m).heap = d.heap := by
  unfold Doc.closeTag; repeat' split
  all_goals rfl
@[simp] theorem closeTag_current (d : Doc) (m : TagMeta) : (d.closeTag m).current = d.current := by
  unfold Doc.closeTag; repeat' split
  all_goals rfl
@[simp] theorem closeTag_position (d : Doc) (m : TagMeta) : (d.closeTag m).position = d.position := by
  unfold Doc.closeTag; repeat' split
  all_goals rfl
@[simp] theorem closeTag_opts (d : Doc) (m : TagMeta) : (d.closeTag m).opts = d.opts := by
  unfold Doc.closeTag; repeat' split
  all_goals rfl
@[simp] theorem closeTag_idTags (d : Doc) (m : TagMeta) : (d.closeTag m).idTags = d.idTags := by
  unfold Doc.closeTag; repeat' split
  all_goals rfl
@[simp] theorem closeTag_check (d : Doc) (m : TagMeta) : (d.closeTag m).checkTextnode = d.checkTextnode := by
  unfold Doc.closeTag; repeat' split
  all_goals rfl
@[simp] theorem closeTag_prevChars (d : Doc) (m : TagMeta) : (d.closeTag m).prevChars = d.prevChars := by
  unfold Doc.closeTag; repeat' split
  all_goals rfl
@[simp] theorem closeTag_root (d : Doc) (m : TagMeta) : (d.closeTag m).root = d.root := by
  unfold Doc.closeTag; repeat' split
  all_goals rfl
theorem closeTag_chain (d : Doc) (m : TagMeta) :
    (d.closeTag m).chain = if m.isVoid then d.chain.tail else d.chain := by
  unfold Doc.closeTag; repeat' split
  all_goals rfl
theorem closeTag_handle (d : Doc) (m : TagMeta) :
    (d.closeTag m).handle =
      if m.isVoid = false ∧ isContentTag (lowerAll m.name) none = true then .contentTag else .wait := by
  unfold Doc.closeTag
  split
  · rename_i h; simp [h, Doc.setCodeIn]
  · rename_i h
    split
    · rename_i h2
      have hr : (if isEqualChars (lowerAll m.name) scriptTagName none then CodeTypeIn.htmlScript
         else if isEqualChars (lowerAll m.name) styleTagName none then .htmlStyle
         else .escapeableRawText) = rawCode m.name := rfl
      simp only [h, h2, hr]
      rcases rawCode_cases m.name with h3 | h3 | h3 <;> simp [h3, Doc.setCodeIn]
    · rename_i h2; simp [h, h2, Doc.setCodeIn]

/-- The invariant inside a tag, with the metadata named. -/
theorem Ctl.inTag {d : Doc} (hd : Ctl d) (hh : d.handle.inTag = true) {m : TagMeta} (hm : d.cur.tmeta = some m) :
    (d.tagSt m).Ok2 ∧ m.selfClosed = false ∧ m.isVoid = isVoidTag (lowerAll m.name) ∧
      ((d.codeIn = .tag ∧ d.cur.nodeType = .tag ∧ d.chain.head? = some d.current ∧ TagNameOk m.name) ∨
       (d.codeIn = .htmlDoctype ∧ d.cur.nodeType = .htmlDoctype ∧ m.name.map toUpper = detectDoctype)) := by
  obtain ⟨_, m1, h1, h2⟩ := inTag_hs hd hh
  rw [hm] at h1; cases h1; exact h2

theorem putTag_curcell (d : Doc) (t : TagSt) (id : Option Str) :
    (d.putTag t id).heap.cell d.current = { d.cur with tmeta := some t.m } := by
  unfold Doc.putTag Doc.cur; simp

/-- The position and the options never change inside a transition. -/
theorem Step.frame {d d' : Doc} {c : Char} (h : Step d c d') :
    d'.position = d.position ∧ d'.opts = d.opts ∧ d'.root = d.root := by
  cases h with
  | ltExtend hh hf hc ht w hw d1 h1 => subst h1; split <;> exact ⟨rfl, rfl, rfl⟩
  | ltNew hh hf hc ht p hp d1 h1 => subst h1; split <;> exact ⟨rfl, rfl, rfl⟩
  | nameClose hh hc m hm =>
    refine ⟨?_, ?_, ?_⟩ <;> simp <;> rfl
  | tagClose hh m hm m' pc mark id ht =>
    refine ⟨?_, ?_, ?_⟩ <;> simp <;> rfl
  | _ => exact ⟨rfl, rfl, rfl⟩

theorem Reach.position {o : ParseOptions} {s : Str} {d : Doc} (h : Reach o s d) : d.position = s.length := by
  induction h with
  | init => rfl
  | step _ hs ih => simp [hs.frame.1, ih]

theorem Reach.opts {o : ParseOptions} {s : Str} {d : Doc} (h : Reach o s d) : d.opts = o := by
  induction h with
  | init => rfl
  | step _ hs ih => simp [hs.frame.2.1, ih]

/-- One call of `next` on a reachable state. -/
theorem Reach.next {o : ParseOptions} {s : Str} {d d' : Doc} {c : Char} {ctx : Str} (h : Reach o s d)
    (hn : d.next c ctx = .ok d') : Reach o (s ++ [c]) d' := by
  have hs := runHandle_sound c ctx h.ctl
  unfold Doc.next at hn
  simp only [Res.bind_eq] at hn
  cases hr : runHandle d c ctx with
  | ok d1 =>
    rw [hr] at hn
    simp only [Res.bind, Res.ok.injEq] at hn
    subst hn
    exact Reach.step h (hs.1 d1 hr)
  | err e => rw [hr] at hn; simp at hn
  | panic p => rw [hr] at hn; simp at hn

theorem Reach.next_step {o : ParseOptions} {s : Str} {d d' : Doc} {c : Char} {ctx : Str} (h : Reach o s d)
    (hn : d.next c ctx = .ok d') :
    ∃ d1, Step d c d1 ∧ d' = { d1 with position := d1.position + 1 } ∧ Reach o (s ++ [c]) d' := by
  have hr' := h.next hn
  have hs := runHandle_sound c ctx h.ctl
  unfold Doc.next at hn
  simp only [Res.bind_eq] at hn
  cases hr : runHandle d c ctx with
  | ok d1 =>
    rw [hr] at hn
    simp only [Res.bind, Res.ok.injEq] at hn
    exact ⟨d1, hs.1 d1 hr, hn.symm, hr'⟩
  | err e => rw [hr] at hn; simp at hn
  | panic p => rw [hr] at hn; simp at hn

theorem Reach.next_panic {o : ParseOptions} {s : Str} {d : Doc} {c : Char} {ctx : Str} {p : Site} (h : Reach o s d)
    (hn : d.next c ctx = .panic p) : PanicOk d c p ∧ runHandle d c ctx = .panic p := by
  have hs := runHandle_sound c ctx h.ctl
  unfold Doc.next at hn
  simp only [Res.bind_eq] at hn
  cases hr : runHandle d c ctx with
  | ok d1 => rw [hr] at hn; simp at hn
  | err e => rw [hr] at hn; simp at hn
  | panic q =>
    rw [hr] at hn
    simp only [Res.bind, Res.panic.injEq] at hn
    subst hn
    exact ⟨hs.2.1 q hr, rfl⟩

/-- Without an error or panic condition the next character is accepted. -/
theorem Reach.next_ok {o : ParseOptions} {s : Str} {d : Doc} {c : Char} (ctx : Str) (h : Reach o s d)
    (he : ¬ ErrOk d c) (hp : ∀ p, ¬ PanicOk d c p) :
    ∃ d', Step d c d' ∧ d.next c ctx = .ok { d' with position := d'.position + 1 } := by
  have hs := runHandle_sound c ctx h.ctl
  unfold Doc.next
  simp only [Res.bind_eq]
  cases hr : runHandle d c ctx with
  | ok d1 => exact ⟨d1, hs.1 d1 hr, rfl⟩
  | err e => exact absurd (hs.2.2 e hr) he
  | panic q => exact absurd (hs.2.1 q hr) (hp q)

/-- The character loop stays inside the reachable states. -/
theorem Reach.run {o : ParseOptions} {ctx : Str} : ∀ (cs s : Str) (d d' : Doc), Reach o s d →
    d.run ctx cs = .ok d' → Reach o (s ++ cs) d'
  | [], s, d, d', h, hr => by
    simp only [Doc.run, Res.ok.injEq] at hr
    subst hr
    simpa using h
  | c :: cs, s, d, d', h, hr => by
    simp only [Doc.run, Res.bind_eq] at hr
    cases hn : d.next c ctx with
    | ok d1 =>
      rw [hn] at hr
      have := Reach.run cs (s ++ [c]) d1 d' (h.next hn) hr
      simpa using this
    | err e => rw [hn] at hr; simp at hr
    | panic p => rw [hn] at hr; simp at hr

/-- A panic of the character loop happens at some reachable state. -/
theorem Reach.run_panic {o : ParseOptions} {ctx : Str} {p : Site} : ∀ (cs s : Str) (d : Doc), Reach o s d →
    d.run ctx cs = .panic p → ∃ pre c post d1, cs = pre ++ c :: post ∧ Reach o (s ++ pre) d1 ∧ PanicOk d1 c p ∧
      runHandle d1 c ctx = .panic p ∧ d.run ctx pre = .ok d1
  | [], s, d, h, hr => by simp [Doc.run] at hr
  | c :: cs, s, d, h, hr => by
    simp only [Doc.run, Res.bind_eq] at hr
    cases hn : d.next c ctx with
    | ok d1 =>
      rw [hn] at hr
      obtain ⟨pre, c', post, d2, h1, h2, h3, h4, h5⟩ := Reach.run_panic cs (s ++ [c]) d1 (h.next hn) hr
      refine ⟨c :: pre, c', post, d2, by rw [h1]; rfl, by simpa using h2, h3, h4, ?_⟩
      simp only [Doc.run, Res.bind_eq, hn, Res.bind]
      exact h5
    | err e => rw [hn] at hr; simp at hr
    | panic q =>
      rw [hn] at hr
      simp only [Res.bind, Res.panic.injEq] at hr
      subst hr
      obtain ⟨h1, h2⟩ := h.next_panic hn
      exact ⟨[], c, cs, d, rfl, by simpa using h, h1, h2, rfl⟩

end Rphtml
