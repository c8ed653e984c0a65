import Verif.Proofs.Cost

/-! # The potential pays for every character -/

namespace Rphtml

/-- The name kept for leaving svg / math is short. -/
def SpOk (d : Doc) : Prop := ∀ sp n, d.inSpecial = some (sp, n) → n.length ≤ 4

theorem closeTag_special {d : Doc} {m : TagMeta} (h : SpOk d) : SpOk (d.closeTag m) := by
  unfold Doc.closeTag SpOk
  intro sp n hs
  split at hs
  · exact h sp n hs
  · split at hs
    · exact h sp n hs
    · simp only [Doc.setCodeIn] at hs
      split at hs
      · rename_i s hs'
        cases hs
        exact h _ _ hs'
      · simp only [Option.map_eq_some_iff] at hs
        obtain ⟨x, hx, he⟩ := hs
        cases he
        exact specialTag_length (by rw [hx]; simp)

theorem SpOk.step {d d' : Doc} {c : Char} (h : SpOk d) (hs : Step d c d') : SpOk d' := by
  cases hs with
  | ltExtend hh hf hc ht w hw d1 h1 => subst h1; split <;> exact h
  | ltNew hh hf hc ht p hp d1 h1 => subst h1; split <;> exact h
  | nameClose hh hc m hm => exact closeTag_special h
  | tagClose hh m hm m' pc mark id ht => exact closeTag_special h
  | endMatch hh hc t m hm =>
    intro sp n hs
    simp only at hs
    split at hs
    · rename_i s nm he
      split at hs
      · cases hs
      · cases hs; exact h _ _ he
    · cases hs
  | _ => exact h

theorem Reach.spOk {o : ParseOptions} {s : Str} {d : Doc} (h : Reach o s d) : SpOk d := by
  induction h with
  | init => intro sp n h; cases h
  | step _ hs ih => have := ih.step hs; exact this

theorem pot_out {d : Doc} (hh : d.handle.inTag = false) :
    potential d = 13 * d.prevChars.length + trailing d.prevChars + d.heap.names + d.heap.size := by
  unfold potential; simp [hh]

theorem pot_ge (d : Doc) : 13 * d.prevChars.length + trailing d.prevChars + d.heap.names + d.heap.size ≤ potential d := by
  unfold potential; omega

theorem pot_in {d : Doc} (hh : d.handle.inTag = true) :
    potential d = 13 * d.prevChars.length + trailing d.prevChars + 6 * nameLen d.cur + d.heap.names + d.heap.size := by
  unfold potential; simp [hh]

/-- Reading on. -/
theorem pot_push {d d' : Doc} {c : Char} (hp : d'.prevChars = d.prevChars ++ [c]) (hh : d'.handle.inTag = false)
    (hn : d'.heap.names ≤ d.heap.names) (hs : d'.heap.size ≤ d.heap.size + 1) : potential d' ≤ potential d + 15 := by
  have h1 := pot_out hh
  have h2 := pot_ge d
  have h3 := trailing_push d.prevChars c
  rw [hp] at h1
  simp only [List.length_append, List.length_cons, List.length_nil] at h1
  omega

/-- The characters read so far are handed over. -/
theorem pot_clear {d d' : Doc} {k : Nat} (hp : d'.prevChars = []) (hh : d'.handle.inTag = false)
    (hn : d'.heap.names ≤ d.heap.names + k) (hs : d'.heap.size ≤ d.heap.size + 1) :
    potential d' + 13 * d.prevChars.length ≤ potential d + k + 1 := by
  have h1 := pot_out hh
  have h2 := pot_ge d
  rw [hp, trailing_nil] at h1
  simp only [List.length_nil] at h1
  omega

/-- A few characters are read. -/
theorem pot_few {d d' : Doc} (hp : d'.prevChars.length ≤ 1) (hh : d'.handle.inTag = false)
    (hn : d'.heap.names ≤ d.heap.names) (hs : d'.heap.size ≤ d.heap.size + 1) : potential d' ≤ potential d + 15 := by
  have h1 := pot_out hh
  have h2 := pot_ge d
  have h3 := trailing_le d'.prevChars
  omega

theorem names_put (d : Doc) (t : TagSt) (id : Option Str) (k : Nat) (h : t.m.name.length ≤ nameLen d.cur + k) :
    (d.putTag t id).heap.names ≤ d.heap.names + k := by
  unfold Doc.putTag
  dsimp only
  refine names_upd _ _ _ _ ?_
  exact h

theorem nameLen_some {c : Cell} {m : TagMeta} (h : c.tmeta = some m) : nameLen c = m.name.length := by
  unfold nameLen; rw [h]

theorem putTag_nameLen (d : Doc) (t : TagSt) (id : Option Str) : nameLen (d.putTag t id).cur = t.m.name.length := by
  apply nameLen_some
  have := putTag_curcell d t id
  unfold Doc.cur
  rw [putTag_current, this]

theorem contentWork_more {d : Doc} {c : Char} {e : Str} (he : d.detect = some e) (hl : e.length ≤ 10)
    (h : c ≠ '>' ∨ rawEnd d e = none) : contentWork d c ≤ (if c = '>' then trailing d.prevChars else 0) + 11 := by
  unfold contentWork
  simp only [he, Option.getD_some]
  have h2 := matchWork_le d.opts.caseSensitiveTagname e.reverse (d.prevChars.reverse.dropWhile isWs)
  simp only [List.length_reverse] at h2
  by_cases hc : c = '>'
  · simp only [hc, ne_eq, not_true_eq_false, if_false, if_true]
    rcases h with h | h
    · exact absurd hc h
    · unfold rawEnd at h
      simp only [Option.map_eq_none_iff] at h
      rw [h]
      split
      · omega
      · dsimp only; omega
  · simp [hc]

theorem markTarget_names (d : Doc) (t : NodeId) (name : Str) : (d.endHeap t name).names ≤ d.heap.names := by
  unfold Doc.endHeap
  refine Nat.le_trans (names_same _ _ _ ?_) (Nat.le_trans (names_mark _ _) (names_same _ _ _ ?_))
  · intro _; rfl
  · intro _; rfl

theorem rawHeap_names (d : Doc) (n : Nat) : (d.rawHeap n).names ≤ d.heap.names := by
  unfold Doc.rawHeap
  refine Nat.le_trans (names_same _ _ _ ?_) (names_push _ _ ?_)
  · intro _; rfl
  · rfl

theorem closeTag_out (d : Doc) (m : TagMeta) : (d.closeTag m).handle.inTag = false := by
  rw [closeTag_handle]; split <;> rfl

theorem exclWork_le {d : Doc} (h : SpOk d) (c : Char) : exclWork d c ≤ 20 := by
  unfold exclWork
  split
  · omega
  · split
    · split
      · rename_i sp m hs _
        have h1 := eqWork_left sp m.name
        have h2 := h _ _ hs
        have : detectCdata.length = 7 := rfl
        omega
      · omega
    · have : detectDoctype.length = 7 := rfl
      omega

/-- Every character is paid for by a constant and what the characters before it have paid, except for a text
that is taken up again. -/
theorem step_cost {d d' : Doc} {c : Char} (hd : Ctl d) (hsp : SpOk d) (h : Step d c d') :
    1 + stepWork d c + potential d' ≤ potential d + 16 * resumed d + 200 := by
  have hgen := pot_ge d
  cases h with
  | lt hh hc =>
    have : stepWork d c = 0 := by unfold stepWork; simp [hh, hc]
    have h1 := pot_out (d := { d with memPosition := d.position, codeIn := .unkownTag, handle := .unkownTag }) rfl
    simp only at h1
    omega
  | textResume hh hc hf ht w hw =>
    have h0 : stepWork d c = w.length + 1 := by unfold stepWork; simp [hh, hc, hf, ht, hw]
    have hr : resumed d = w.length := by unfold resumed; simp [hh, hf, ht, hw]
    rw [pot_out rfl]
    have h3 := trailing_le (w ++ [c])
    have h4 := names_same d.heap d.current (fun n => { n with content := some [] }) fun _ => rfl
    simp only [List.length_append, List.length_cons, List.length_nil, Heap.upd_size] at h3 ⊢
    omega
  | textStart hh hc hf p hp =>
    have h0 : stepWork d c = 1 := by
      unfold stepWork
      have : d.cur.nodeType ≠ .spacesBetweenTag := hd.curTy
      cases hx : d.opts.autoFixUnexpectedEndtag <;> simp_all
    have h1 := pot_few (d := d) (d' := { d.addChild p (Cell.new .text d.position) with prevChars := [c], repeatWhitespace := isWs c, codeIn := .textNode, handle := .text })
      (by simp) rfl (names_addChild _ _ _ rfl) (Nat.le_refl _)
    omega
  | textMore hh hc =>
    have h0 : stepWork d c = 1 := by unfold stepWork; simp [hh, hc]
    have h1 := pot_push (d := d) (d' := { d with prevChars := d.prevChars ++ [c], repeatWhitespace := d.repeatWhitespace && isWs c })
      rfl (by simp [hh, Handler.inTag]) (Nat.le_refl _) (by simp)
    omega
  | textEnd hh hc =>
    have h0 : stepWork d c = d.prevChars.length := by unfold stepWork; simp [hh, hc]
    have h1 := pot_clear (d := d) (d' := d.endText) (k := 0) rfl rfl
      (by unfold Doc.endText; dsimp only; refine names_same _ _ _ ?_; intro _; rfl) (by simp [Doc.endText])
    omega
  | tagOpen hh hc p hp =>
    have h0 : stepWork d c ≤ 1 := by
      have : (isLower c || isUpper c) = true := hc
      unfold stepWork; simp [hh, this]
    have h2 := pot_few (d := d) (d' := { d.addChild p (Cell.new .tag d.memPosition) with heap := (d.addChild p (Cell.new .tag d.memPosition)).heap.markSpaces d.checkTextnode, checkTextnode := none, prevChars := [c], codeIn := .tag, handle := .tagName })
      (by simp) rfl (Nat.le_trans (names_mark _ _) (names_addChild _ _ _ rfl)) (by rw [markSpaces_size, addChild_size]; exact Nat.le_refl _)
    omega
  | endOpen hh hc =>
    have h0 : stepWork d c ≤ 1 := by unfold stepWork; simp [hh, hc]; split <;> omega
    have hpc : d.prevChars = [] := by have := hd.hs; unfold HandleOk at this; simp only [hh] at this; exact this.2.1
    have h1 := pot_few (d := d) (d' := { d with heap := d.heap.push { Cell.new .tagEnd d.memPosition with prev := if d.opts.autoFixUnclosedTag then some d.current else none }, current := d.heap.size, codeIn := .tagEnd, handle := .tagEnd })
      (by simp [hpc]) rfl (names_push _ _ rfl) (by simp)
    omega
  | bang hh hc =>
    have h0 : stepWork d c ≤ 1 := by unfold stepWork; simp [hh, hc]; split <;> omega
    have hpc : d.prevChars = [] := by have := hd.hs; unfold HandleOk at this; simp only [hh] at this; exact this.2.1
    have h1 := pot_few (d := d) (d' := { d with codeIn := .exclamationBegin, handle := .exclamationBegin })
      (by simp [hpc]) rfl (Nat.le_refl _) (by simp)
    omega
  | ltExtend hh hf hc ht w hw d1 h1 =>
    have h0 : stepWork d c ≤ 2 * w.length + 9 := by
      unfold stepWork ltWork
      simp only [hh, show (isLower c || isUpper c) = false from hc.1, hc.2.1, hc.2.2, hf, ht, hw, if_false, if_true, or_self, true_or, Option.getD_some, Bool.false_eq_true]
      by_cases he : c = '<' <;> simp only [he, if_true, if_false] <;> omega
    have hr : resumed d = w.length := by unfold resumed; simp [hh, hf, hw]
    have h4 := names_same d.heap d.current (fun n => { n with content := some [] }) fun _ => rfl
    subst h1
    split
    · rename_i he
      rw [pot_out rfl]
      simp only [Doc.endText, List.length_nil, trailing_nil, Heap.upd_size]
      have h5 := names_same (d.heap.upd d.current fun n => { n with content := some [] }) d.current
        (fun n => { n with content := some (w ++ ['&', 'l', 't', ';']), endAt := d.position }) fun _ => rfl
      omega
    · rename_i he
      rw [pot_out rfl]
      simp only [Heap.upd_size]
      have h3 := trailing_le (w ++ ['&', 'l', 't', ';', c])
      simp only [List.length_append, List.length_cons, List.length_nil] at h3 ⊢
      omega
  | ltNew hh hf hc ht p hp d1 h1 =>
    have ht2 : d.cur.nodeType ≠ .spacesBetweenTag := hd.curTy
    have h0 : stepWork d c ≤ 9 := by
      unfold stepWork ltWork
      simp only [hh, show (isLower c || isUpper c) = false from hc.1, hc.2.1, hc.2.2, hf, ht, ht2, if_false, if_true, or_self, Bool.false_eq_true]
      by_cases he : c = '<' <;> simp only [he, if_true, if_false] <;> omega
    have h4 : (d1.heap).names ≤ d.heap.names := by
      subst h1
      dsimp only
      refine Nat.le_trans (names_same _ _ _ ?_) (names_push _ _ ?_)
      · intro _; rfl
      · rfl
    have hs : d1.heap.size = d.heap.size + 1 := by subst h1; rfl
    split
    · rename_i he
      rw [pot_out rfl]
      simp only [Doc.endText, List.length_nil, trailing_nil, Heap.upd_size]
      have h5 := names_same d1.heap d1.current (fun n => { n with content := some d1.prevChars, endAt := d1.position }) fun _ => rfl
      omega
    · rename_i he
      have hh1 : d1.handle.inTag = false := by subst h1; rfl
      have hp1 : d1.prevChars.length ≤ 5 := by subst h1; simp only; split <;> simp
      rw [pot_out hh1]
      have h3 := trailing_le d1.prevChars
      omega
  | exclFirst hh hdet D hD =>
    have h0 : stepWork d c ≤ 20 := by unfold stepWork; simp only [hh]; exact exclWork_le hsp c
    have h1 := pot_few (d := d) (d' := { d with detect := some D, prevChars := [c] }) (by simp) (by simp [hh, Handler.inTag]) (Nat.le_refl _) (by simp)
    omega
  | exclMore hh D hdet hl hc =>
    have h0 : stepWork d c ≤ 20 := by unfold stepWork; simp only [hh]; exact exclWork_le hsp c
    have h1 := pot_push (d := d) (d' := { d with prevChars := d.prevChars ++ [c] }) rfl (by simp [hh, Handler.inTag]) (Nat.le_refl _) (by simp)
    omega
  | commentOpen hh hdet hl hc p hp =>
    have h0 : stepWork d c ≤ 20 := by unfold stepWork; simp only [hh]; exact exclWork_le hsp c
    have h2 := pot_few (d := d) (d' := { d.addChild p (Cell.new .comment d.memPosition) with heap := (d.addChild p (Cell.new .comment d.memPosition)).heap.markSpaces d.checkTextnode, checkTextnode := none, markChar := '-', prevChars := [], detect := none, codeIn := .comment, handle := .commentOrCdata })
      (by simp) rfl (Nat.le_trans (names_mark _ _) (names_addChild _ _ _ rfl)) (by rw [markSpaces_size, addChild_size]; exact Nat.le_refl _)
    omega
  | cdataOpen hh hdet hl hc p hp =>
    have h0 : stepWork d c ≤ 20 := by unfold stepWork; simp only [hh]; exact exclWork_le hsp c
    have h2 := pot_few (d := d) (d' := { d.addChild p (Cell.new .xmlCdata d.memPosition) with heap := (d.addChild p (Cell.new .xmlCdata d.memPosition)).heap.markSpaces d.checkTextnode, checkTextnode := none, markChar := ']', prevChars := [], detect := none, codeIn := .xmlCdata, handle := .commentOrCdata })
      (by simp) rfl (Nat.le_trans (names_mark _ _) (names_addChild _ _ _ rfl)) (by rw [markSpaces_size, addChild_size]; exact Nat.le_refl _)
    omega
  | doctypeOpen hh hdet hl hc p hp =>
    have h0 : stepWork d c ≤ 20 := by unfold stepWork; simp only [hh]; exact exclWork_le hsp c
    have h2 := pot_push (d := d) (c := c) (d' := { d.addChild p (Cell.new .htmlDoctype d.memPosition) with heap := (d.addChild p (Cell.new .htmlDoctype d.memPosition)).heap.markSpaces d.checkTextnode, checkTextnode := none, prevChars := d.prevChars ++ [c], detect := none, codeIn := .htmlDoctype, handle := .doctypeName })
      rfl rfl (Nat.le_trans (names_mark _ _) (names_addChild _ _ _ rfl)) (by rw [markSpaces_size, addChild_size]; exact Nat.le_refl _)
    omega
  | commentMore hh hc =>
    have h1 := pot_push (d := d) (d' := { d with prevChars := d.prevChars ++ [c] }) rfl (by simp [hh, Handler.inTag]) (Nat.le_refl _) (by simp)
    have h0 : stepWork d c ≤ 5 := by
      unfold stepWork
      simp only [hh]
      split
      · rename_i he
        split
        · rename_i hm
          have hl : d.prevChars.length ≤ 2 := by
            by_cases hl : d.prevChars.length > 2
            · exact absurd ⟨he, (terminator_iff d.prevChars d.markChar).1 ⟨hl, hm⟩⟩ hc
            · omega
          omega
        · omega
      · omega
    omega
  | commentClose hh hc b hb hp =>
    have h0 : stepWork d c ≤ d.prevChars.length + 3 := by
      unfold stepWork
      simp only [hh]
      repeat' split
      all_goals omega
    have h1 := pot_clear (d := d) (k := 0) (d' := { d with heap := d.heap.upd d.current fun n => { n with content := some b, endAt := d.position + 1 }, prevChars := [], markChar := '\x00', codeIn := .unkown, handle := .wait })
      rfl rfl (by dsimp only; refine names_same _ _ _ ?_; intro _; rfl) (by simp)
    omega
  | doctypeName hh hc =>
    have hn : nameLen d.cur = 0 := by
      have := hd.hs; unfold HandleOk at this; simp only [hh] at this; unfold nameLen; rw [this.2.2.2.1]
    have h0 : stepWork d c ≤ 2 * d.prevChars.length + 80 := by
      unfold stepWork; simp only [hh, hc, if_true]; exact metaWork_le _
    rw [pot_in rfl, putTag_nameLen]
    have h1 := names_put d { handle := .tagWait, m := { name := d.prevChars, isVoid := isVoidTag (lowerAll d.prevChars) }, pc := [], mark := d.markChar } none d.prevChars.length (by simp)
    simp only [Doc.putTag, List.length_nil, trailing_nil, Heap.upd_size] at h1 ⊢
    omega
  | nameMore hh hc =>
    have h0 : stepWork d c = 1 := by unfold stepWork; simp [hh, hc]
    have h1 := pot_push (d := d) (d' := { d with prevChars := d.prevChars ++ [c] }) rfl (by simp [hh, Handler.inTag]) (Nat.le_refl _) (by simp)
    omega
  | nameEnd hh hc =>
    have h0 : stepWork d c ≤ 2 * d.prevChars.length + 80 := by
      have hne : c ≠ '>' := by rcases hc with h | h <;> intro e <;> subst e <;> revert h <;> decide
      unfold stepWork; simp only [hh, hne, if_false]
      rw [if_pos hc.symm]; exact metaWork_le _
    rw [pot_in (by simp only [Doc.putTag]; split <;> rfl), putTag_nameLen]
    have h1 := names_put d { handle := if c = '/' then .tagSelfClosing else .tagWait, m := { name := d.prevChars, isVoid := isVoidTag (lowerAll d.prevChars) }, pc := [], mark := d.markChar } none d.prevChars.length (by simp)
    simp only [Doc.putTag, List.length_nil, trailing_nil, Heap.upd_size] at h1 ⊢
    omega
  | nameClose hh hc m hm =>
    have h0 : stepWork d c ≤ 5 * d.prevChars.length + 140 := by
      unfold stepWork; simp only [hh, hc, if_true]
      have := metaWork_le d.prevChars
      have := typeWork_le d.prevChars
      split <;> omega
    have h1 := names_put d { handle := d.handle, m := m, pc := [], mark := d.markChar } none d.prevChars.length (by rw [hm]; simp)
    have h2 := pot_clear (d := d) (k := d.prevChars.length) (d' := (d.putTag { handle := d.handle, m := m, pc := [], mark := d.markChar } none).closeTag m)
      (by rw [closeTag_prevChars]; rfl) (closeTag_out _ _) (by rw [closeTag_heap]; exact h1) (by rw [closeTag_heap]; simp)
    omega
  | tagMore hh m hm t id ht =>
    have hok := (hd.inTag hh hm).1
    obtain ⟨_, hf, hin⟩ := tagChar_cont hok ht
    have hc := tagMore_cost hm hh ht
    have hname : t.m.name = m.name := hf.name
    have h1 := names_put d t id 0 (by rw [nameLen_some hm, hname]; omega)
    rw [pot_in (d := d.putTag t id) hin, pot_in hh, putTag_nameLen, nameLen_some hm, hname]
    have hp : (d.putTag t id).prevChars = t.pc := rfl
    rw [hp, putTag_heap_size]
    rcases hc with ⟨h2 | h2, h3⟩ | ⟨h2, h3⟩
    · rw [h2]; omega
    · rw [h2]
      have := trailing_push d.prevChars c
      simp only [List.length_append, List.length_cons, List.length_nil]
      omega
    · rw [h2, trailing_nil]; simp only [List.length_nil]; omega
  | tagClose hh m hm m' pc mark id ht =>
    have hok := (hd.inTag hh hm).1
    obtain ⟨hf, rfl, rfl⟩ := tagChar_close hok ht
    have hname : m'.name = m.name := hf.name
    have h0 : stepWork d '>' ≤ 3 * d.prevChars.length + 3 * m.name.length + 70 := by
      have h1 := waitWork_le m '>'
      have h2 := valueWork_le m d.prevChars
      unfold stepWork
      simp only [hm, Option.getD_some]
      cases hh' : d.handle <;> rw [hh'] at hh <;> first | (exact absurd hh (by decide)) | skip
      · simp
      · simp only; omega
      · simp only [if_true, keyWork]; omega
      · simp only
        repeat' split
        all_goals omega
    have h1 := names_put d { handle := d.handle, m := m', pc := [], mark := mark } id 0 (by rw [nameLen_some hm, hname]; omega)
    rw [pot_out (closeTag_out _ _), pot_in hh, nameLen_some hm, closeTag_prevChars, closeTag_heap]
    have hp : (d.putTag { handle := d.handle, m := m', pc := [], mark := mark } id).prevChars = [] := rfl
    rw [hp, putTag_heap_size, trailing_nil]
    simp only [List.length_nil]
    omega
  | tagSelf hh hc m hm ha =>
    have h0 : stepWork d c = 0 := by unfold stepWork; simp [hh, hc]
    have hpc : d.prevChars = [] := by
      have := (hd.inTag (by rw [hh]; rfl) hm).1; unfold TagSt.Ok2 at this; simp only [Doc.tagSt, hh] at this; exact this.1
    have h2 := pot_clear (d := d) (k := 0) (d' := { d with heap := d.heap.upd d.current fun n => { n with tmeta := some { m with selfClosed := true } }, chain := d.chain.tail, codeIn := .unkown, handle := .wait })
      hpc rfl (by
        dsimp only
        refine names_upd _ _ _ 0 ?_
        have : nameLen d.cur = m.name.length := nameLen_some hm
        unfold Doc.cur at this
        rw [this]
        exact Nat.le_refl _) (by simp)
    omega
  | endMore hh hc =>
    have h0 : stepWork d c = 1 := by unfold stepWork; simp [hh, hc]
    have h1 := pot_push (d := d) (d' := { d with prevChars := d.prevChars ++ [c] }) rfl (by simp [hh, Handler.inTag]) (Nat.le_refl _) (by simp)
    omega
  | endMatch hh hc t m hm =>
    have h0 : stepWork d c ≤ 5 * d.prevChars.length + 2 := by unfold stepWork; simp only [hh, hc, if_true]; exact endWork_le d
    rw [pot_out rfl]
    simp only [List.length_nil, trailing_nil, endHeap_size]
    have := markTarget_names d t d.prevChars
    omega
  | endStray hh hc hf hm =>
    have h0 : stepWork d c ≤ 5 * d.prevChars.length + 2 := by unfold stepWork; simp only [hh, hc, if_true]; exact endWork_le d
    rw [pot_out rfl]
    simp only [List.length_nil, trailing_nil]
    omega
  | rawMore hh hc =>
    obtain ⟨_, _, m, hm, hdet, _, hraw, _⟩ : d.cur.nodeType = .tag ∧ d.chain.head? = some d.current ∧ ∃ m, d.cur.tmeta = some m ∧ d.detect = some (['<', '/'] ++ m.name) ∧ d.codeIn = rawCode m.name ∧ isContentTag (lowerAll m.name) none = true ∧ TagNameOk m.name ∧ m.selfClosed = false ∧ m.isVoid = false := by
      have := hd.hs; unfold HandleOk at this; simp only [hh] at this; exact this
    have hl := rawName_length hraw
    have h0 := contentWork_more (c := c) hdet (by simp; omega) (by
      rcases hc with h | ⟨e, he, h⟩
      · exact Or.inl h
      · rw [hdet] at he; cases he; exact Or.inr h)
    have h1 : stepWork d c = contentWork d c := by unfold stepWork; simp only [hh]
    rw [pot_out (d := { d with prevChars := d.prevChars ++ [c] }) (by simp [hh, Handler.inTag])]
    simp only [List.length_append, List.length_cons, List.length_nil]
    split at h0
    · rename_i he
      have : trailing (d.prevChars ++ [c]) = 0 := trailing_solid _ (by rw [he]; decide)
      omega
    · have := trailing_push d.prevChars c
      omega
  | rawClose hh hc e he n hn =>
    have h0 : stepWork d c ≤ 4 * d.prevChars.length + 1 := by unfold stepWork; simp only [hh]; exact contentWork_le d c
    rw [pot_out rfl]
    simp only [List.length_nil, trailing_nil, rawHeap_size]
    have := rawHeap_names d n
    omega

/-- An error is paid for as well. -/
theorem err_cost {d : Doc} {c : Char} {k : ErrorKind} {i : Nat} (hd : Ctl d) (hsp : SpOk d) (h : ErrIs d c k i) :
    stepWork d c + k.size ≤ potential d + 150 := by
  have hgen := pot_ge d
  cases h with
  | lt hh hf h1 h2 h3 =>
    have h0 : stepWork d c = 0 := by
      unfold stepWork; simp [hh, show (isLower c || isUpper c) = false from h1, h2, h3, hf]
    simp only [ErrorKind.size, List.length_cons, List.length_nil]; omega
  | exclFirst hh _ _ _ _ _ =>
    have h0 : stepWork d c ≤ 20 := by unfold stepWork; simp only [hh]; exact exclWork_le hsp c
    simp only [ErrorKind.size, List.length_nil]; omega
  | cdataNone hh _ _ _ =>
    have h0 : stepWork d c ≤ 20 := by unfold stepWork; simp only [hh]; exact exclWork_le hsp c
    have : (ErrorKind.commonError "wrong <![CDATA tag can only used in Svg or MathML".toList).size = 49 := by decide
    omega
  | cdataSame hh _ _ _ _ _ _ _ _ =>
    have h0 : stepWork d c ≤ 20 := by unfold stepWork; simp only [hh]; exact exclWork_le hsp c
    have : (ErrorKind.commonError "<![CDATA tag can in sub node".toList).size = 28 := by decide
    omega
  | exclMore hh D hdet hc =>
    have h0 : stepWork d c ≤ 20 := by unfold stepWork; simp only [hh]; exact exclWork_le hsp c
    have hs := hd.hs
    unfold HandleOk at hs
    simp only [hh] at hs
    have hD : D.length ≤ 7 := by
      rcases hs.2 with ⟨h, _⟩ | ⟨D', h, h', _⟩
      · rw [h] at hdet; cases hdet
      · rw [h] at hdet; cases hdet
        rcases h' with rfl | rfl | rfl <;> decide
    simp only [ErrorKind.size]; omega
  | doctypeName hh hc =>
    have h0 : stepWork d c = 0 := by unfold stepWork; simp [hh, hc]
    simp only [ErrorKind.size]; omega
  | key hh hc m hm hi ha =>
    have h0 : stepWork d c ≤ 1 := by
      unfold stepWork
      rcases hh with hh | hh <;> simp [hh, hc, waitWork]
    have : (ErrorKind.wrongTag "'=' is not a valid attribute name".toList).size = 33 := by decide
    omega
  | self hh hc m hm ha h1 h2 h3 =>
    have h0 : stepWork d c = 0 := by unfold stepWork; simp [hh, hc]
    rw [pot_in (by rw [hh]; rfl), nameLen_some hm]
    simp only [ErrorKind.size]; omega
  | endCase hh hc _ _ _ _ _ _ _ _ =>
    have h0 : stepWork d c ≤ 5 * d.prevChars.length + 2 := by unfold stepWork; simp only [hh, hc, if_true]; exact endWork_le d
    simp only [ErrorKind.size]; omega
  | endStray hh hc _ _ =>
    have h0 : stepWork d c ≤ 5 * d.prevChars.length + 2 := by unfold stepWork; simp only [hh, hc, if_true]; exact endWork_le d
    simp only [ErrorKind.size]; omega

theorem panic_cost {d : Doc} {c : Char} {p : Site} (hd : Ctl d) (hsp : SpOk d) (h : PanicOk d c p) : stepWork d c ≤ 20 := by
  have hex : d.handle = .exclamationBegin → stepWork d c ≤ 20 := by
    intro hh; unfold stepWork; simp only [hh]; exact exclWork_le hsp c
  rcases h with ⟨_, _, h⟩ | ⟨_, _, hh, _⟩ | ⟨_, _, hh, _⟩
  · rcases h with ⟨hh, hc, hf⟩ | ⟨hh, hc⟩ | ⟨hh, _⟩
    · unfold stepWork
      have : d.cur.nodeType ≠ .spacesBetweenTag := hd.curTy
      cases hx : d.opts.autoFixUnexpectedEndtag <;> simp_all
    · have : (isLower c || isUpper c) = true := hc
      unfold stepWork; simp [hh, this]
    · exact hex hh
  · exact hex hh
  · exact hex hh

theorem namesUpTo_mono (h : Heap) {a b : Nat} (hab : a ≤ b) : namesUpTo h a ≤ namesUpTo h b := by
  induction b with
  | zero => have : a = 0 := by omega
            subst this; exact Nat.le_refl _
  | succ b ih =>
    by_cases he : a = b + 1
    · subst he; exact Nat.le_refl _
    · have := ih (by omega); simp only [namesUpTo]; omega

/-- The open tags are different nodes. -/
theorem unclosedWork_le (h : Heap) : ∀ (l : List NodeId) (n : Nat), l.Pairwise (· > ·) → (∀ i ∈ l, i < n) →
    unclosedWork h l ≤ n + namesUpTo h n
  | [], n, _, _ => by simp [unclosedWork]
  | t :: ts, n, hp, hl => by
    have ih := unclosedWork_le h ts t (List.pairwise_cons.1 hp).2 fun i hi => (List.pairwise_cons.1 hp).1 i hi
    have ht : t < n := hl t (by simp)
    have hm := namesUpTo_mono h (show t + 1 ≤ n from ht)
    simp only [namesUpTo] at hm
    have : unclosedWork h (t :: ts) = 1 + nameLen (h.cell t) + unclosedWork h ts := rfl
    omega

theorem debug_length (ci : CodeTypeIn) : ci.debug.length ≤ 17 := by cases ci <;> decide

theorem namesUpTo_cell (h : Heap) {i n : Nat} (hi : i < n) : nameLen (h.cell i) ≤ namesUpTo h n := by
  have := namesUpTo_mono h (show i + 1 ≤ n from hi)
  simp only [namesUpTo] at this
  omega

/-- The end of the text is paid for. -/
theorem eof_cost {d : Doc} {ctx : Str} (hd : Ctl d) : eofWork d ctx ≤ 2 * potential d + ctx.length + 20 := by
  have hgen := pot_ge d
  have h1 := unclosedWork_le d.heap d.chain d.heap.size hd.chainSorted hd.chainLt
  have h2 : (if d.opts.autoFixUnclosedTag then unclosedWork d.heap d.chain else 0) ≤ d.heap.size + d.heap.names := by
    split
    · exact h1
    · omega
  have h3 : (if d.codeIn = .textNode then d.prevChars.length else 0) ≤ d.prevChars.length := by split <;> omega
  have h4 : ∀ e, d.eof ctx = .err e → e.kind.size ≤ d.heap.names + 17 := by
    intro e he
    unfold Doc.eof at he
    simp only [Res.bind_eq] at he
    cases hc : d.eofChain ctx with
    | err e' =>
      rw [hc] at he
      simp only [Res.bind] at he
      cases he
      unfold Doc.eofChain at hc
      split at hc
      · split at hc
        · split at hc
          · cases hc
          · rename_i t ht
            split at hc
            · cases hc
            · rename_i m hm
              cases hc
              have := namesUpTo_cell d.heap (hd.chainLt t (List.mem_of_mem_head? ht))
              rw [nameLen_some hm] at this
              simp only [ErrorKind.size]
              unfold Heap.names
              omega
        · cases hc
      · cases hc
    | panic p => rw [hc] at he; cases he
    | ok d1 =>
      rw [hc] at he
      simp only [Res.bind] at he
      cases hs : d1.eofState ctx with
      | ok d2 => rw [hs] at he; cases he
      | panic p => rw [hs] at he; cases he
      | err e' =>
        rw [hs] at he
        cases he
        have := debug_length d1.codeIn
        unfold Doc.eofState at hs
        split at hs
        · cases hs
        · cases hs
        · cases hs
        · split at hs
          · cases hs; simp only [ErrorKind.size]; omega
          · cases hs
        · cases hs; simp only [ErrorKind.size]; omega
  have h5 : (match d.eof ctx with
      | .err e => errWork e ctx
      | _ => 0) ≤ d.heap.names + 17 + ctx.length := by
    cases he : d.eof ctx with
    | ok d1 => simp
    | panic p => simp
    | err e => have := h4 e he; simp only [errWork]; omega
  exact Nat.le_trans (Nat.add_le_add (Nat.add_le_add h2 h3) h5) (by omega)

/-- The work of a run, when no text longer than `R` is ever taken up again. -/
theorem run_cost {o : ParseOptions} {ctx : Str} {R : Nat} : ∀ (cs s : Str) (d : Doc), Reach o s d →
    (∀ s' d', Reach o s' d' → s'.length ≤ s.length + cs.length → resumed d' ≤ R) →
    runWork d ctx cs ≤ 2 * potential d + (400 + 32 * R) * cs.length + ctx.length + 200
  | [], s, d, hr, _ => by
    have := eof_cost (ctx := ctx) hr.ctl
    simp only [runWork, List.length_nil, Nat.mul_zero]
    omega
  | c :: cs, s, d, hr, hR => by
    have hd := hr.ctl
    have hsp := hr.spOk
    have hm : (400 + 32 * R) * (cs.length + 1) = (400 + 32 * R) * cs.length + (400 + 32 * R) := by rw [Nat.mul_add, Nat.mul_one]
    have hR0 := hR s d hr (by omega)
    simp only [runWork, List.length_cons]
    cases hn : d.next c ctx with
    | ok d' =>
      obtain ⟨d1, hs, he, hr'⟩ := hr.next_step hn
      have ih := run_cost (ctx := ctx) cs (s ++ [c]) d' hr' (fun s' d' h hl => hR s' d' h (by
        simp only [List.length_append, List.length_cons, List.length_nil] at hl ⊢; omega))
      have h1 := step_cost hd hsp hs
      have h2 : potential d' = potential d1 := by subst he; rfl
      simp only
      omega
    | err e =>
      simp only
      have : runHandle d c ctx = .err e := by
        unfold Doc.next at hn
        simp only [Res.bind_eq] at hn
        cases hx : runHandle d c ctx with
        | ok d1 => rw [hx] at hn; cases hn
        | err e' => rw [hx] at hn; cases hn; rfl
        | panic p => rw [hx] at hn; cases hn
      obtain ⟨k, i, hi, rfl⟩ := runHandle_errIs hd this
      have := err_cost hd hsp hi
      simp only [errWork]
      omega
    | panic p =>
      simp only
      have := panic_cost hd hsp (hr.next_panic hn).1
      omega

end Rphtml
