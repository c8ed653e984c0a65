import Verif.Proofs.TagRead
import Verif.Proofs.RawEnd
import Verif.Proofs.FinalDoc
import Verif.Props.Names

/-!
# Reading a printed document

The machine, run on the source text of a well-formed node, adds exactly that node.
-/

namespace Rphtml
open Spec

theorem isVoid_iff (n : Str) : isVoidTag (lowerAll n) = true ↔ isVoid n := by
  rw [isVoidTag_iff, lowerAll_eq_fold]; rfl

theorem ofList_eq (n : Str) (s : String) : String.ofList n = s ↔ n = s.toList :=
  ⟨fun h => by rw [← h]; simp, fun h => by rw [h]; simp⟩

theorem isRaw_iff (n : Str) : isContentTag (lowerAll n) none = true ↔ isRaw n := by
  unfold isContentTag isScriptOrStyle isPlainTextTag isRaw
  simp only [Bool.or_eq_true, isEqualChars_none, List.mem_cons, List.not_mem_nil, or_false, ofList_eq, lowerAll_eq_fold]
  constructor
  · rintro ((h | h) | (h | h)) <;> rw [h] <;> decide
  · rintro (h | h | h | h) <;> rw [h] <;> decide

theorem foreign_iff (n : Str) : (specialTag (lowerAll n)).isSome = true ↔ isForeign n := by
  unfold specialTag isForeign
  simp only [List.mem_cons, List.not_mem_nil, or_false, ofList_eq, lowerAll_eq_fold]
  constructor
  · intro h
    split at h
    · rename_i e; left; rw [e]; decide
    · split at h
      · rename_i e; right; rw [e]; decide
      · cases h
  · rintro (h | h) <;> rw [h] <;> decide

theorem tagName_iff (n : Str) : tagName n ↔ TagNameOk n := by
  cases n with
  | nil => simp [tagName, TagNameOk]
  | cons c cs =>
    have ha : c.isAlpha = isAlpha c := by
      unfold Char.isAlpha isAlpha
      rw [Bool.or_comm]
      congr 1
      unfold Char.isUpper isUpper Char.toNat
      rw [Bool.eq_iff_iff]
      simp only [Bool.and_eq_true, decide_eq_true_eq, ge_iff_le, UInt32.le_iff_toNat_le]
      rfl
    simp only [tagName, TagNameOk, NameChars, List.cons.injEq, not_isWs_mem, ha]
    constructor
    · intro h; exact ⟨c, cs, ⟨rfl, rfl⟩, h⟩
    · rintro ⟨_, _, ⟨rfl, rfl⟩, h⟩; exact h

/-- Between two nodes. -/
def Free (a : AState) : Prop := ∃ l, a.mode = .wait l ∧ ∀ p, l ≠ .text p

/-- Between two nodes or in a text. -/
def AtNode (a : AState) : Prop := Free a ∨ a.mode = .text .top

/-- The name of the innermost open element. -/
def parentOf (a : AState) : Option Str := if a.rest = [] then none else some a.top.name

/-- The name of the foreign element one is in. -/
def ctxOf (a : AState) : Option Str := a.sp.map Prod.snd

/-- The machine reads a text and adds some nodes. -/
structure Reads (o : ParseOptions) (a : AState) (s : Str) (ps : List PNode) (b : AState) : Prop where
  run : arun o a s = some b
  top : b.top = { a.top with kids := a.top.kids ++ ps }
  rest : b.rest = a.rest
  over : b.over = a.over

theorem AtNode.outside {a : AState} (h : AtNode a) : a.mode.outside = true := by
  rcases h with ⟨l, h, _⟩ | h <;> rw [h] <;> rfl

theorem arun_lt {o : ParseOptions} {a : AState} (h : a.mode.outside = true) (s : Str) :
    ∃ l, arun o a ('<' :: s) = arun o { a with mode := .lt l } s := by
  cases hm : a.mode with
  | wait l => exact ⟨l, by simp only [arun, astep, hm, if_true]⟩
  | text p => exact ⟨.text p, by simp only [arun, astep, hm, if_true]⟩
  | _ => rw [hm] at h; cases h

/-! ## Texts -/

theorem arun_text {o : ParseOptions} : ∀ (w x : Str) (ks : List PNode) (a : AState), a.mode = .text .top →
    a.top.kids = ks ++ [.text x] → '<' ∉ w →
    arun o a w = some { a with top := { a.top with kids := ks ++ [.text (x ++ w)] } }
  | [], x, ks, a, h, hk, _ => by
    simp only [arun, List.append_nil, ← hk]
  | c :: w, x, ks, a, h, hk, hw => by
    have hc : c ≠ '<' := fun e => hw (by simp [e])
    simp only [arun, astep, h, if_neg hc]
    have hm : (a.more .top [c]).top.kids = ks ++ [.text (x ++ [c])] := by
      simp only [AState.more, addTextAt, hk, modLast_snoc, PNode.addText]
    rw [← h, arun_text w (x ++ [c]) ks (a.more .top [c]) h hm (fun e => hw (by simp [e]))]
    simp [AState.more]

/-! ## Comments -/

theorem arun_comment {o : ParseOptions} {cd : Bool} : ∀ (w pc : Str) (a : AState), a.mode = .comment cd pc →
    (∀ x y, w = x ++ '>' :: y → commentBody (if cd then ']' else '-') (pc ++ x) = none) →
    arun o a w = some { a with mode := .comment cd (pc ++ w) }
  | [], pc, a, h, _ => by simp [arun, ← h]
  | c :: w, pc, a, h, hb => by
    have h1 : astep o a c = some { a with mode := .comment cd (pc ++ [c]) } := by
      simp only [astep, h]
      by_cases hc : c = '>'
      · have := hb [] w (by rw [hc]; rfl)
        rw [List.append_nil] at this
        rw [if_pos hc, this]
      · rw [if_neg hc]
    simp only [arun, h1]
    rw [arun_comment w (pc ++ [c]) _ rfl fun x y e => by
      have := hb (c :: x) y (by rw [e]; rfl)
      simpa using this]
    simp

/-- The body and the terminator of a comment or CDATA section. -/
theorem read_comment {o : ParseOptions} {cd : Bool} {a : AState} {w : Str} (k : Char) (hk : k = if cd then ']' else '-')
    (h : a.mode = .comment cd []) (h1 : w ≠ []) (h2 : ¬ [k, k, '>'] <:+: w.tail) :
    arun o a (w ++ [k, k, '>']) = some { a.push (if cd then .cdata w else .comment w) with mode := .wait .other, mark := '\x00' } := by
  have hkg : k ≠ '>' := by rw [hk]; cases cd <;> decide
  have e : w ++ [k, k, '>'] = (w ++ [k, k]) ++ ['>'] := by simp
  rw [e, arun_append, arun_comment (w ++ [k, k]) [] a h]
  · simp only [Option.bind_some, List.nil_append, arun, astep, if_true]
    rw [← hk, (commentBody_iff k (w ++ [k, k]) w).2 ⟨h1, rfl⟩]
    rfl
  · intro x y hxy
    rw [List.nil_append, ← hk]
    cases hb : commentBody k x with
    | none => rfl
    | some b =>
      exfalso
      obtain ⟨b1, rfl⟩ := (commentBody_iff k x b).1 hb
      apply h2
      -- the terminator lies inside `w`
      have h3 : ∃ y', w = b ++ [k, k, '>'] ++ y' := by
        rcases List.append_eq_append_iff.1 hxy with ⟨z, z1, z2⟩ | ⟨z, z1, z2⟩
        · cases z with
          | nil =>
            simp only [List.nil_append] at z2
            injection z2 with z2 z3
            exact absurd z2 hkg
          | cons z0 z =>
            cases z with
            | nil =>
              simp only [List.cons_append, List.nil_append] at z2
              injection z2 with z2 z3
              injection z3 with z3 z4
              exact absurd z3 hkg
            | cons z1 z =>
              simp only [List.cons_append, List.cons.injEq] at z2
              have := congrArg List.length z2.2.2
              simp at this
        · cases z with
          | nil =>
            simp only [List.nil_append] at z2
            injection z2 with z2 z3
            exact absurd z2.symm hkg
          | cons z0 z =>
            simp only [List.cons_append, List.cons.injEq] at z2
            refine ⟨z, ?_⟩
            rw [z1, ← z2.1]; simp
      obtain ⟨y', rfl⟩ := h3
      cases b with
      | nil => exact absurd rfl b1
      | cons b0 b => exact ⟨b, y', by simp⟩

/-! ## Raw text -/

theorem arun_raw {o : ParseOptions} {m : TagMeta} : ∀ (w pc : Str) (a : AState), a.mode = .raw m pc →
    (∀ x y, w = x ++ '>' :: y → rawBody o.caseSensitiveTagname m.name (pc ++ x) = none) →
    arun o a w = some { a with mode := .raw m (pc ++ w) }
  | [], pc, a, h, _ => by simp [arun, ← h]
  | c :: w, pc, a, h, hb => by
    have h1 : astep o a c = some { a with mode := .raw m (pc ++ [c]) } := by
      simp only [astep, h]
      by_cases hc : c = '>'
      · have := hb [] w (by rw [hc]; rfl)
        rw [List.append_nil] at this
        rw [if_pos hc, this]
      · rw [if_neg hc]
    simp only [arun, h1]
    rw [arun_raw w (pc ++ [c]) _ rfl fun x y e => by
      have := hb (c :: x) y (by rw [e]; rfl)
      simpa using this]
    simp

/-- The content and the end tag of a raw-text element. -/
theorem read_raw {o : ParseOptions} {m : TagMeta} {a : AState} {w e : Str} (h : a.mode = .raw m [])
    (hn : TagNameOk m.name) (he : closes o.caseSensitiveTagname m.name e)
    (hw : ∀ u k v, w = u ++ ['<', '/'] ++ k ++ ['>'] ++ v → ¬ closes o.caseSensitiveTagname m.name k) :
    arun o a (w ++ ['<', '/'] ++ e ++ ['>']) =
      some { a.push (.elem m.name m.attrs false (some w) [] (some e)) with mode := .wait .hole } := by
  have hg := closes_noGt hn he
  rw [arun_append, arun_raw (w ++ ['<', '/'] ++ e) [] a h]
  · simp only [Option.bind_some, List.nil_append, arun, astep, if_true]
    rw [(rawBody_spec hn).2 ⟨w, e, rfl, he, rfl⟩]
    have e1 : (w ++ ['<', '/'] ++ e).take w.length = w := by
      rw [List.append_assoc, List.take_left]
    have e2 : (w ++ ['<', '/'] ++ e).drop (w.length + 2) = e := by
      have : w.length + 2 = (w ++ ['<', '/']).length := by simp
      rw [this, List.drop_left]
    simp only [e1, e2]
    rfl
  · intro x y hxy
    rw [List.nil_append]
    cases hb : rawBody o.caseSensitiveTagname m.name x with
    | none => rfl
    | some n =>
      exfalso
      obtain ⟨u, k, rfl, hk, _⟩ := (rawBody_spec hn).1 hb
      -- the `>` lies in `w`, as there is none in the end tag
      have hxy' : w ++ (['<', '/'] ++ e) = (u ++ ['<', '/'] ++ k) ++ '>' :: y := by rw [← List.append_assoc]; exact hxy
      rcases List.append_eq_append_iff.1 hxy' with ⟨z, z1, z2⟩ | ⟨z, z1, z2⟩
      · have : '>' ∈ ['<', '/'] ++ e := by rw [z2]; simp
        simp only [List.mem_append, List.mem_cons, List.not_mem_nil, or_false] at this
        rcases this with (q | q) | q
        · exact absurd q (by decide)
        · exact absurd q (by decide)
        · exact hg q
      · cases z with
        | nil =>
          simp only [List.nil_append, List.cons_append] at z2
          injection z2 with z2
          exact absurd z2 (by decide)
        | cons z0 z =>
          simp only [List.cons_append, List.cons.injEq] at z2
          refine hw u k z ?_ hk
          rw [z1, ← z2.1]; simp

/-! ## Start tags -/

theorem arun_tagName {o : ParseOptions} : ∀ (cs pc : Str) (a : AState), a.mode = .tagName pc → NameChars cs →
    arun o a cs = some { a with mode := .tagName (pc ++ cs) }
  | [], pc, a, h, _ => by simp [arun, ← h]
  | c :: cs, pc, a, h, hc => by
    obtain ⟨h1, h2, h3⟩ := hc c (by simp)
    simp only [arun, astep, h, h2, h3, h1, if_false, Bool.false_eq_true]
    rw [arun_tagName cs (pc ++ [c]) _ rfl fun x hx => hc x (by simp [hx])]
    simp

/-- `<` and a name. -/
theorem read_name {o : ParseOptions} {a : AState} (h : a.mode.outside = true) (ho : a.over = false) {n : Str} (hn : TagNameOk n) :
    arun o a ('<' :: n) = some { a with mode := .tagName n } := by
  obtain ⟨c, cs, rfl, h1, h2⟩ := hn
  obtain ⟨l, hl⟩ := arun_lt (o := o) h (c :: cs)
  have h1' : isAlpha c = true := h1
  rw [hl]
  simp only [arun, astep, h1', ho, if_true, if_false, Bool.false_eq_true]
  rw [arun_tagName cs [c] _ rfl fun x hx => h2 x (by simp [hx])]
  rfl

/-- The metadata of a tag of this name. -/
abbrev nameMeta (n : Str) : TagMeta := { name := n, isVoid := isVoidTag (lowerAll n) }

theorem ready_name (n : Str) (mk : Char) : Ready n (isVoidTag (lowerAll n)) [] ⟨.tagWait, nameMeta n, [], mk⟩ :=
  ⟨rfl, rfl, rfl, rfl, rfl, .inl rfl⟩

/-- Attributes after a name, separated by whitespace. -/
theorem read_seps {o : ParseOptions} {isDoc : Bool} {a : AState} {n : Str} {bs : List (Str × Attr)} {w : Str}
    (h : ∀ c s, isWs c = true → arun o a (c :: s) = arun o { a with mode := .inTag isDoc ⟨.tagWait, nameMeta n, [], a.mark⟩ } s)
    (hl : legalAttrs o.allowAttrKeyStartsWithEqualSign isDoc (bs.map Prod.snd))
    (hs : ∀ b ∈ bs, b.1 ≠ [] ∧ ∀ c ∈ b.1, isWs c = true) (hw : ∀ c ∈ w, isWs c = true) (hne : bs ≠ [] ∨ w ≠ []) :
    ∃ t, arun o a ((bs.flatMap fun b => b.1 ++ printAttr b.2) ++ w) = some { a with mode := .inTag isDoc t, mark := t.mark } ∧
      Fin n (isVoidTag (lowerAll n)) (bs.map Prod.snd) t := by
  obtain ⟨l1, l2⟩ := hl
  have hr := ready_name n a.mark
  obtain ⟨t1, ht1, hf1⟩ := Fin.readSeps (isDoc := isDoc) (allowEq := o.allowAttrKeyStartsWithEqualSign) bs [] _ (.inl hr)
    (fun b hb => (legalAttr_iff _ _ b.2).1 (l1 b.2 (List.mem_map_of_mem hb))) hs l2
  obtain ⟨t, ht, hf⟩ := hf1.spaces' (isDoc := isDoc) (allowEq := o.allowAttrKeyStartsWithEqualSign) w hw
  refine ⟨t, ?_, hf⟩
  have hrun : trun isDoc o.allowAttrKeyStartsWithEqualSign ⟨.tagWait, nameMeta n, [], a.mark⟩
      ((bs.flatMap fun b => b.1 ++ printAttr b.2) ++ w) = some t := by
    rw [trun_append, ht1, Option.bind_some, ht]
  obtain ⟨c, r, hcr, hc⟩ : ∃ c r, (bs.flatMap fun b => b.1 ++ printAttr b.2) ++ w = c :: r ∧ isWs c = true := by
    cases bs with
    | nil =>
      cases w with
      | nil => simp at hne
      | cons c w => exact ⟨c, w, rfl, hw c (by simp)⟩
    | cons b bs =>
      obtain ⟨k1, k2⟩ := hs b (by simp)
      obtain ⟨b1, b2⟩ := b
      cases b1 with
      | nil => exact absurd rfl k1
      | cons c b1 => exact ⟨c, _, by rw [List.flatMap_cons, List.cons_append, List.cons_append, List.cons_append], k2 c (by simp)⟩
  rw [hcr] at hrun ⊢
  have e2 := hrun
  simp only [trun, hr.space (isDoc := isDoc) (allowEq := o.allowAttrKeyStartsWithEqualSign) hc] at e2
  rw [h c r hc]
  exact arun_trun a _ _ _ e2

/-- Attributes after a name. -/
theorem read_attrs {o : ParseOptions} {isDoc : Bool} {a : AState} {n : Str} {as : List Attr}
    (h : ∀ c s, isWs c = true → arun o a (c :: s) = arun o { a with mode := .inTag isDoc ⟨.tagWait, nameMeta n, [], a.mark⟩ } s)
    (hne : as ≠ []) (hl : legalAttrs o.allowAttrKeyStartsWithEqualSign isDoc as) :
    ∃ t, arun o a (printAttrs as) = some { a with mode := .inTag isDoc t, mark := t.mark } ∧
      Fin n (isVoidTag (lowerAll n)) as t := by
  have hm : (as.map fun a => ([' '], a)).map Prod.snd = as := by simp [Function.comp_def]
  obtain ⟨t, h1, h2⟩ := read_seps (bs := as.map fun a => ([' '], a)) (w := []) h (by rw [hm]; exact hl) (by
      simp only [List.mem_map]
      rintro _ ⟨a, _, rfl⟩
      exact ⟨by simp, by simp; decide⟩) (by simp) (.inl (by simpa using hne))
  rw [hm] at h2
  refine ⟨t, ?_, h2⟩
  rw [← h1]
  simp [printAttrs, List.flatMap_map]

theorem tagName_ws {o : ParseOptions} {a : AState} {n : Str} (h : a.mode = .tagName n) (c : Char) (s : Str) (hc : isWs c = true) :
    arun o a (c :: s) = arun o { a with mode := .inTag false ⟨.tagWait, nameMeta n, [], a.mark⟩ } s := by
  obtain ⟨_, h1, h2, _⟩ := isWs_not hc
  simp only [arun, astep, h, h1, h2, hc, if_true, if_false]

theorem tagName_space {o : ParseOptions} {a : AState} {n : Str} (h : a.mode = .tagName n) (s : Str) :
    arun o a (' ' :: s) = arun o { a with mode := .inTag false ⟨.tagWait, nameMeta n, [], a.mark⟩ } s := by
  have h1 : (' ' : Char) ≠ '>' := by decide
  have h2 : (' ' : Char) ≠ '/' := by decide
  have h3 : isWs ' ' = true := by decide
  simp only [arun, astep, h, h1, h2, h3, if_true, if_false]

/-- A start tag that is not self-closed. -/
theorem read_openSeps {o : ParseOptions} {a : AState} (h : a.mode.outside = true) (ho : a.over = false) {n : Str} (hn : TagNameOk n)
    {bs : List (Str × Attr)} {w : Str} (hl : legalAttrs o.allowAttrKeyStartsWithEqualSign false (bs.map Prod.snd))
    (hs : ∀ b ∈ bs, b.1 ≠ [] ∧ ∀ c ∈ b.1, isWs c = true) (hw : ∀ c ∈ w, isWs c = true) :
    ∃ m mk mode, arun o a (('<' :: n) ++ ((bs.flatMap fun b => b.1 ++ printAttr b.2) ++ w) ++ ['>']) =
        some { ({ a with mode := mode } : AState).openTag m [] with mark := mk } ∧
      m.name = n ∧ m.attrs = bs.map Prod.snd ∧ m.isVoid = isVoidTag (lowerAll n) := by
  rw [arun_append, arun_append, read_name h ho hn]
  by_cases hne : bs = [] ∧ w = []
  · obtain ⟨rfl, rfl⟩ := hne
    refine ⟨nameMeta n, a.mark, .tagName n, ?_, rfl, rfl, rfl⟩
    simp only [Option.bind_some, List.flatMap_nil, List.append_nil, arun, astep, if_true]
    unfold AState.openTag
    split
    · rfl
    · split <;> rfl
  · have hne' : bs ≠ [] ∨ w ≠ [] := by
      by_cases q : bs = []
      · exact .inr fun q2 => hne ⟨q, q2⟩
      · exact .inl q
    obtain ⟨t, ht, hf⟩ := read_seps (a := { a with mode := .tagName n }) (isDoc := false) (n := n)
      (tagName_ws rfl) hl hs hw hne'
    obtain ⟨m, mk, id, hc, h1, h2, h3⟩ := hf.close (isDoc := false) (allowEq := o.allowAttrKeyStartsWithEqualSign)
    refine ⟨m, mk, .inTag false t, ?_, h1, h3, h2⟩
    simp only [Option.bind_some, ht, arun, astep, hc, if_false, Bool.false_eq_true]
    unfold AState.openTag
    split
    · rfl
    · split <;> rfl

/-- A start tag in canonical form. -/
theorem read_open {o : ParseOptions} {a : AState} (h : a.mode.outside = true) (ho : a.over = false) {n : Str} (hn : TagNameOk n)
    {as : List Attr} (hl : legalAttrs o.allowAttrKeyStartsWithEqualSign false as) :
    ∃ m mk mode, arun o a (printOpen n as false) = some { ({ a with mode := mode } : AState).openTag m [] with mark := mk } ∧
      m.name = n ∧ m.attrs = as ∧ m.isVoid = isVoidTag (lowerAll n) := by
  have hm : (as.map fun a => ([' '], a)).map Prod.snd = as := by simp [Function.comp_def]
  have := read_openSeps h ho hn (bs := as.map fun a => ([' '], a)) (w := []) (by rw [hm]; exact hl) (by
      simp only [List.mem_map]
      rintro _ ⟨a, _, rfl⟩
      exact ⟨by simp, by simp; decide⟩) (by simp)
  rw [hm] at this
  obtain ⟨m, mk, mode, h1, h2⟩ := this
  refine ⟨m, mk, mode, ?_, h2⟩
  rw [← h1]
  simp [printOpen, printAttrs, List.flatMap_map]

/-- A self-closed tag. -/
theorem read_self {o : ParseOptions} {a : AState} (h : a.mode.outside = true) (ho : a.over = false) {n : Str} (hn : TagNameOk n)
    {as : List Attr} (hl : legalAttrs o.allowAttrKeyStartsWithEqualSign false as)
    (hs : o.allowSelfClosing = true ∨ isVoid n ∨ a.sp ≠ none) :
    ∃ mk, arun o a (printOpen n as true) =
      some { a.push (.elem n as true none [] none) with mode := .wait .other, mark := mk } := by
  have e : printOpen n as true = (('<' :: n) ++ (printAttrs as ++ [' '])) ++ ['/', '>'] := by simp [printOpen]
  rw [e, arun_append, arun_append, read_name h ho hn, Option.bind_some]
  have key : ∃ t, arun o { a with mode := .tagName n } (printAttrs as ++ [' ']) =
      some { a with mode := .inTag false t, mark := t.mark } ∧ Ready n (isVoidTag (lowerAll n)) as t := by
    by_cases hne : as = []
    · subst hne
      refine ⟨⟨.tagWait, nameMeta n, [], a.mark⟩, ?_, ready_name n a.mark⟩
      have := tagName_space (o := o) (a := { a with mode := .tagName n }) rfl []
      simp only [printAttrs, List.flatMap_nil, List.nil_append]
      rw [this]; rfl
    · obtain ⟨t, ht, hf⟩ := read_attrs (a := { a with mode := .tagName n }) (isDoc := false) (n := n)
        (tagName_ws rfl) hne hl
      obtain ⟨t', id, h1, h2⟩ := hf.space (isDoc := false) (allowEq := o.allowAttrKeyStartsWithEqualSign) (c := ' ') (by decide)
      refine ⟨t', ?_, h2⟩
      rw [arun_append, ht]
      simp only [Option.bind_some, arun, astep, h1]
  obtain ⟨t, ht, hr⟩ := key
  rw [ht]
  have s1 : tagChar false o.allowAttrKeyStartsWithEqualSign t '/' = .cont { t with handle := .tagSelfClosing } none := by
    unfold tagChar tagWaitC
    simp [hr.handle]
  have s2 : tagChar false o.allowAttrKeyStartsWithEqualSign { t with handle := .tagSelfClosing } '>' = .selfClose := by
    unfold tagChar; simp
  have s3 : o.allowSelfClosing = true ∨ t.m.isVoid = true ∨ a.sp ≠ none := by
    rw [hr.isVoid, isVoid_iff]; exact hs
  refine ⟨t.mark, ?_⟩
  simp only [Option.bind_some, arun, astep, s1, s2, if_false, Bool.false_eq_true, hr.name, hr.attrs]
  rw [if_pos s3]
  rfl

/-! ## End tags -/

theorem arun_tagEnd {o : ParseOptions} {r : Last} : ∀ (cs pc : Str) (a : AState), a.mode = .tagEnd pc r → '>' ∉ cs →
    arun o a cs = some { a with mode := .tagEnd (pc ++ cs) r }
  | [], pc, a, h, _ => by simp [arun, ← h]
  | c :: cs, pc, a, h, hc => by
    have h1 : c ≠ '>' := fun e => hc (by simp [e])
    simp only [arun, astep, h, h1, if_false]
    rw [arun_tagEnd cs (pc ++ [c]) _ rfl fun e => hc (by simp [e])]
    simp

theorem read_end {o : ParseOptions} {a : AState} (h : a.mode.outside = true) {g : Frame} {gs : List Frame} (hr : a.rest = g :: gs)
    (hn : TagNameOk a.top.name) {e : Str} (he : closes o.caseSensitiveTagname a.top.name e) :
    ∃ b, arun o a (['<', '/'] ++ e ++ ['>']) = some b ∧ b.mode = .wait .other ∧ b.rest = gs ∧ b.over = a.over ∧
      b.top = { g with kids := g.kids ++ [.elem a.top.name a.top.attrs false none a.top.kids (some e)] } ∧
      ctxOf b = leave (ctxOf a) e := by
  have hg := closes_noGt hn he
  obtain ⟨l, hl⟩ := arun_lt (o := o) h ('/' :: (e ++ ['>']))
  obtain ⟨m1, m2⟩ := (endMatch_iff o.caseSensitiveTagname a.top.name e).2 he
  have hb : ¬ (o.caseSensitiveTagname = true ∧ (isEqualCharsIgnoreCase a.top.name (charsTrimEnd e)).2 = false) := by
    rintro ⟨q1, q2⟩
    rw [m2 q1] at q2; cases q2
  have hne : a.rest ≠ [] := by rw [hr]; simp
  have hsl : isAlpha '/' = false := by decide
  have key : ∀ r : Last, arun o { a with mode := .tagEnd [] r } (e ++ ['>']) = some { a.pop (some e) with
            sp := match a.sp with
              | some (s, n) => if n = charsTrimEnd e then none else some (s, n)
              | none => none
            mode := .wait .other } := by
    intro r
    rw [arun_append, arun_tagEnd e [] _ rfl hg]
    simp only [Option.bind_some, List.nil_append, arun, astep, if_true]
    rw [if_pos ⟨hne, m1⟩, if_neg hb]
    simp only [AState.pop, hr]
    rfl
  refine ⟨_, by
    show arun o a ('<' :: '/' :: (e ++ ['>'])) = _
    rw [hl]
    simp only [arun, astep, hsl, if_true, if_false, Bool.false_eq_true]
    exact key _, rfl, ?_, ?_, ?_, ?_⟩
  · simp only [AState.pop, hr]
  · simp only [AState.pop, hr]
  · simp only [AState.pop, hr]
  · unfold ctxOf leave
    rw [← charsTrimEnd_eq]
    cases hsp : a.sp with
    | none => simp
    | some x =>
      obtain ⟨s, n⟩ := x
      by_cases hx : n = charsTrimEnd e
      · simp [hx]
      · simp [hx]

/-! ## Declarations -/

theorem read_bang {o : ParseOptions} {a : AState} (h : a.mode.outside = true) (s : Str) :
    arun o a ('<' :: '!' :: s) = arun o { a with mode := .bang none [] } s := by
  obtain ⟨l, hl⟩ := arun_lt (o := o) h ('!' :: s)
  have h1 : isAlpha '!' = false := by decide
  have h2 : ('!' : Char) ≠ '/' := by decide
  rw [hl]
  simp only [arun, astep, h1, h2, if_true, if_false, Bool.false_eq_true]

/-- The state after a keyword. -/
def afterKeyword (a : AState) (D pc : Str) : AState :=
  if D = detectComment then { a with mode := .comment false [], mark := '-' }
  else if D = detectCdata then { a with mode := .comment true [], mark := ']' }
  else { a with mode := .doctypeName pc }

theorem arun_keyword {o : ParseOptions} {D : Str} : ∀ (cs pc : Str) (a : AState), a.mode = .bang (some D) pc →
    a.over = false → cs ≠ [] → D.drop pc.length = cs.map toUpper → arun o a cs = some (afterKeyword a D (pc ++ cs))
  | [], _, _, _, _, h, _ => absurd rfl h
  | c :: cs, pc, a, h, ho, _, hd => by
    have h1 : D[pc.length]? = some (toUpper c) := by
      have := congrArg (fun l => l[0]?) hd
      simpa using this
    have hlen : D.length - pc.length = cs.length + 1 := by
      have := congrArg List.length hd
      simpa using this
    have hlt : pc.length < D.length := by omega
    simp only [arun, astep, h, h1, if_true]
    by_cases hcs : cs = []
    · subst hcs
      have h2 : ¬ pc.length + 1 < D.length := by simp at hlen; omega
      rw [if_neg h2, if_neg (by rw [ho]; decide)]
      unfold afterKeyword
      by_cases d1 : D = detectComment
      · rw [if_pos d1, if_pos d1]; rfl
      · rw [if_neg d1, if_neg d1]
        by_cases d2 : D = detectCdata
        · rw [if_pos d2, if_pos d2]; rfl
        · rw [if_neg d2, if_neg d2]; rfl
    · have h2 : pc.length + 1 < D.length := by
        have : cs.length ≠ 0 := by simpa using hcs
        omega
      rw [if_pos h2]
      have := arun_keyword (o := o) cs (pc ++ [c]) { a with mode := .bang (some D) (pc ++ [c]) } rfl ho hcs (by
        have := congrArg (List.drop 1) hd
        simpa [List.drop_drop] using this)
      simp only [this, List.append_assoc, List.cons_append, List.nil_append]
      unfold afterKeyword
      split
      · rfl
      · split <;> rfl

theorem doctype_upper {n : Str} (h : fold n = ['d', 'o', 'c', 't', 'y', 'p', 'e']) : n.map toUpper = detectDoctype := by
  have h1 : (lowerAll n).map toUpper = detectDoctype := by rw [lowerAll_eq_fold, h]; decide
  rw [← h1]
  unfold lowerAll
  rw [List.map_map]
  congr 1
  funext c
  apply char_ext
  simp only [Function.comp, toNat_toUpper, toNat_toLower]
  repeat' split
  all_goals omega

theorem upper_D {c : Char} (h : toUpper c = 'D') : c = 'D' ∨ c = 'd' := by
  have h1 := congrArg Char.toNat h
  rw [toNat_toUpper] at h1
  have h2 : ('D' : Char).toNat = 68 := by decide
  rw [h2] at h1
  split at h1
  · right; apply char_ext
    have : ('d' : Char).toNat = 100 := by decide
    omega
  · left; apply char_ext; rw [h2]; omega

/-- A doctype. -/
theorem read_doctype {o : ParseOptions} {a : AState} (h : a.mode.outside = true) (ho : a.over = false) {n : Str} {as : List Attr}
    (hn : fold n = ['d', 'o', 'c', 't', 'y', 'p', 'e']) (hne : as ≠ [])
    (hl : legalAttrs o.allowAttrKeyStartsWithEqualSign true as) :
    ∃ mk, arun o a (['<', '!'] ++ n ++ printAttrs as ++ ['>']) =
      some { a.push (.doctype n as false) with mode := .wait .other, mark := mk } := by
  have hu := doctype_upper hn
  have key : arun o a (['<', '!'] ++ n) = some { a with mode := .doctypeName n } := by
    cases n with
    | nil => cases hu
    | cons c cs =>
      simp only [List.map_cons, detectDoctype, List.cons.injEq] at hu
      have hc := upper_D hu.1
      have h1 : c ≠ '-' := by rcases hc with rfl | rfl <;> decide
      show arun o a ('<' :: '!' :: c :: cs) = _
      rw [read_bang h]
      simp only [arun, astep, h1, if_false]
      rw [if_pos hc]
      have := arun_keyword (o := o) (D := detectDoctype) cs [c] { a with mode := .bang (some detectDoctype) [c] } rfl ho
        (by intro e; subst e; simp at hu) (by simp only [detectDoctype]; simp [hu.2])
      simp only [this]
      rfl
  obtain ⟨t, ht, hf⟩ := read_attrs (o := o) (a := { a with mode := .doctypeName n }) (isDoc := true) (n := n)
    (fun c s h3 => by simp only [arun, astep, h3, if_true]) hne hl
  obtain ⟨m, mk, id, hc, h1, h2, h3⟩ := hf.close (isDoc := true) (allowEq := o.allowAttrKeyStartsWithEqualSign)
  refine ⟨mk, ?_⟩
  rw [arun_append, arun_append, key, Option.bind_some, ht, Option.bind_some]
  simp only [arun, astep, hc, if_true, h1, h3]
  rfl

/-! ## The main induction -/

theorem isText_false {p : PNode} (h : isText p = false) : ∀ w, p ≠ .text w := by
  rintro w rfl; cases h

/-- What reading a node or a list of nodes amounts to. -/
structure ReadsTo (o : ParseOptions) (a : AState) (s : Str) (ps : List PNode) (ctx : Option Str) (b : AState) : Prop where
  run : arun o a s = some b
  top : b.top = { a.top with kids := a.top.kids ++ ps }
  rest : b.rest = a.rest
  over : b.over = false
  ctx : ctxOf b = ctx

theorem ctxOf_push {a : AState} {p : PNode} {m : Mode} {mk : Char} : ctxOf { a.push p with mode := m, mark := mk } = ctxOf a := rfl

theorem reads_all (o : ParseOptions) :
    (∀ p : PNode, ∀ (a : AState) (ctx : Option Str), wfNode o ctx (parentOf a) p → a.over = false → ctxOf a = ctx →
      AtNode a → (isText p = true → Free a) →
      ∃ b, ReadsTo o a (printNode p) [p] (ctxNode ctx p) b ∧ AtNode b ∧ (isText p = false → Free b)) ∧
    (∀ ps : List PNode, ∀ (a : AState) (ctx : Option Str), wfNodes o ctx (parentOf a) ps → a.over = false → ctxOf a = ctx →
      AtNode a → (∀ q, ps.head? = some q → isText q = true → Free a) →
      ∃ b, ReadsTo o a (printNodes ps) ps (ctxNodes ctx ps) b ∧ AtNode b) := by
  apply PNode.induct
  · -- text
    intro w a ctx hw ho hctx _ hfree
    obtain ⟨l, hl, hlt⟩ := hfree rfl
    simp only [wfNode] at hw
    obtain ⟨h1, h2⟩ := hw
    cases w with
    | nil => exact absurd rfl h1
    | cons c w =>
      have hc : c ≠ '<' := fun e => h2 (by simp [e])
      have hs : astep o a c = some { a.push (.text [c]) with mode := .text .top } := by
        simp only [astep, hl, if_neg hc]
        split
        · rename_i p _; exact absurd rfl (hlt p)
        · rw [ho]; rfl
      refine ⟨{ a.push (.text (c :: w)) with mode := .text .top }, ⟨?_, rfl, rfl, ho, hctx⟩, .inr rfl, fun h => by cases h⟩
      simp only [printNode, arun, hs]
      rw [arun_text w [c] a.top.kids _ rfl rfl fun e => h2 (by simp [e])]
      rfl
  · -- comment
    intro w a ctx hw ho hctx hat _
    simp only [wfNode] at hw
    refine ⟨{ a.push (.comment w) with mode := .wait .other, mark := '\x00' }, ⟨?_, rfl, rfl, ho, hctx⟩,
      .inl ⟨.other, rfl, by simp⟩, fun _ => ⟨.other, rfl, by simp⟩⟩
    simp only [printNode, List.cons_append, List.nil_append]
    rw [read_bang hat.outside]
    have k := arun_keyword (o := o) (D := detectComment) ['-'] ['-'] { a with mode := .bang (some detectComment) ['-'] } rfl ho
      (by simp) (by decide)
    have e : ∀ s, arun o { a with mode := .bang none [] } ('-' :: '-' :: s) = arun o { a with mode := .comment false [], mark := '-' } s := by
      intro s
      show arun o _ (['-'] ++ (['-'] ++ s)) = _
      rw [arun_append]
      have : arun o { a with mode := .bang none [] } ['-'] = some { a with mode := .bang (some detectComment) ['-'] } := by
        simp only [arun, astep, if_true]
      rw [this, Option.bind_some, arun_append, k]
      rfl
    rw [e, read_comment (a := { a with mode := .comment false [], mark := '-' }) '-' rfl rfl hw.1 hw.2]
    rfl
  · -- cdata
    intro w a ctx hw ho hctx hat _
    simp only [wfNode] at hw
    obtain ⟨h1, h2, h3, h4, h5⟩ := hw
    refine ⟨{ a.push (.cdata w) with mode := .wait .other, mark := '\x00' }, ⟨?_, rfl, rfl, ho, hctx⟩,
      .inl ⟨.other, rfl, by simp⟩, fun _ => ⟨.other, rfl, by simp⟩⟩
    simp only [printNode, List.cons_append, List.nil_append]
    rw [read_bang hat.outside]
    have k := arun_keyword (o := o) (D := detectCdata) ['C', 'D', 'A', 'T', 'A', '['] ['[']
      { a with mode := .bang (some detectCdata) ['['] } rfl ho (by simp) (by decide)
    have hb : arun o { a with mode := .bang none [] } ['['] = some { a with mode := .bang (some detectCdata) ['['] } := by
      have b1 : ('[' : Char) ≠ '-' := by decide
      have b2 : ¬ (('[' : Char) = 'D' ∨ ('[' : Char) = 'd') := by decide
      simp only [arun, astep, b1, b2, if_true, if_false]
      cases hsp : a.sp with
      | none => rw [← hctx] at h3; simp [ctxOf, hsp] at h3
      | some x =>
        obtain ⟨s, n⟩ := x
        have hr : a.rest ≠ [] := by intro e; simp [parentOf, e] at h4
        have hnn : n ≠ a.top.name := by
          intro e
          apply h5
          rw [← hctx]
          simp [ctxOf, hsp, parentOf, hr, e]
        have : ¬ (a.over = true ∨ a.rest.isEmpty = true ∨ n = a.top.name) := by
          simp [ho, hr, hnn]
        simp only [if_neg this]
    have e : ∀ s, arun o { a with mode := .bang none [] } ('[' :: 'C' :: 'D' :: 'A' :: 'T' :: 'A' :: '[' :: s) =
        arun o { a with mode := .comment true [], mark := ']' } s := by
      intro s
      show arun o _ (['['] ++ (['C', 'D', 'A', 'T', 'A', '['] ++ s)) = _
      rw [arun_append, hb, Option.bind_some, arun_append, k]
      rfl
    rw [e, read_comment (a := { a with mode := .comment true [], mark := ']' }) ']' rfl rfl h1 h2]
    rfl
  · -- doctype
    intro n as s a ctx hw ho hctx hat _
    simp only [wfNode] at hw
    obtain ⟨h1, h2, rfl, h4⟩ := hw
    obtain ⟨mk, hrun⟩ := read_doctype hat.outside ho h1 h2 h4
    refine ⟨{ a.push (.doctype n as false) with mode := .wait .other, mark := mk }, ⟨?_, rfl, rfl, ho, hctx⟩,
      .inl ⟨.other, rfl, by simp⟩, fun _ => ⟨.other, rfl, by simp⟩⟩
    simp only [printNode]
    exact hrun
  · -- element
    intro n as s ct ks e ih a ctx hw ho hctx hat _
    simp only [wfNode] at hw
    obtain ⟨hn, hl, hw⟩ := hw
    rw [tagName_iff] at hn
    by_cases hs : s = true
    · subst hs
      rw [if_pos rfl] at hw
      obtain ⟨rfl, rfl, rfl, hok⟩ := hw
      obtain ⟨mk, hrun⟩ := read_self hat.outside ho hn hl (by
        rcases hok with q | q | q
        · exact .inl q
        · exact .inr (.inl q)
        · refine .inr (.inr ?_)
          intro e; rw [← hctx] at q; simp [ctxOf, e] at q)
      refine ⟨{ a.push (.elem n as true none [] none) with mode := .wait .other, mark := mk }, ⟨?_, rfl, rfl, ho, ?_⟩,
        .inl ⟨.other, rfl, by simp⟩, fun _ => ⟨.other, rfl, by simp⟩⟩
      · simp only [printNode, Option.getD_none, printNodes, printEnd, List.append_nil]
        exact hrun
      · simp only [ctxNode, true_or, if_true]
        exact hctx
    · have hs' : s = false := by simpa using hs
      subst hs'
      rw [if_neg (by decide)] at hw
      obtain ⟨m, mk, mode, hrun, m1, m2, m3⟩ := read_open hat.outside ho hn hl
      by_cases hv : isVoid n
      · rw [if_pos hv] at hw
        obtain ⟨rfl, rfl, rfl⟩ := hw
        have hmv : m.isVoid = true := by rw [m3, isVoid_iff]; exact hv
        refine ⟨{ a.push (.elem n as false none [] none) with mode := .wait .hole, mark := mk }, ⟨?_, rfl, rfl, ho, ?_⟩,
          .inl ⟨.hole, rfl, by simp⟩, fun _ => ⟨.hole, rfl, by simp⟩⟩
        · simp only [printNode, Option.getD_none, printNodes, printEnd, List.append_nil, hrun, AState.openTag, hmv, if_true, m1, m2]
          rfl
        · simp only [ctxNode, hv, true_or, or_true, if_true]
          exact hctx
      · rw [if_neg hv] at hw
        have hmv : m.isVoid = false := by
          rw [m3]
          cases hq : isVoidTag (lowerAll n) with
          | false => rfl
          | true => exact absurd ((isVoid_iff n).1 hq) hv
        by_cases hr : isRaw n
        · rw [if_pos hr] at hw
          obtain ⟨rfl, w, e', rfl, rfl, he, hwf⟩ := hw
          have hmr : isContentTag (lowerAll m.name) none = true := by rw [m1, isRaw_iff]; exact hr
          refine ⟨{ a.push (.elem n as false (some w) [] (some e')) with mode := .wait .hole, mark := mk }, ⟨?_, rfl, rfl, ho, ?_⟩,
            .inl ⟨.hole, rfl, by simp⟩, fun _ => ⟨.hole, rfl, by simp⟩⟩
          · simp only [printNode, Option.getD_some, printNodes, printEnd, List.append_nil]
            have e1 : printOpen n as false ++ w ++ (['<', '/'] ++ e' ++ ['>']) =
                printOpen n as false ++ (w ++ ['<', '/'] ++ e' ++ ['>']) := by simp
            rw [e1, arun_append, hrun, Option.bind_some]
            have := read_raw (o := o) (m := m) (w := w) (e := e') (a := { a with mode := .raw m [], mark := mk }) rfl
              (m1.symm ▸ hn) (m1.symm ▸ he) (m1.symm ▸ hwf)
            simp only [AState.openTag, hmv, hmr, if_true, if_false, Bool.false_eq_true]
            rw [m1, m2] at this
            exact this
          · simp only [ctxNode, hr, or_true, if_true]
            exact hctx
        · rw [if_neg hr] at hw
          obtain ⟨rfl, ⟨e', rfl, he⟩, hks⟩ := hw
          have hmr : isContentTag (lowerAll m.name) none = false := by
            rw [m1]
            cases hq : isContentTag (lowerAll n) none with
            | false => rfl
            | true => exact absurd ((isRaw_iff n).1 hq) hr
          rw [m1] at hmr
          -- the start tag
          obtain ⟨a1, ha1⟩ : ∃ a1, a1 = ({ ({ a with mode := mode } : AState).openTag m [] with mark := mk } : AState) := ⟨_, rfl⟩
          rw [← ha1] at hrun
          have t1 : a1.top = { name := n, attrs := as, kids := [] } := by
            rw [ha1]; simp only [AState.openTag, hmv, m1, hmr, if_false, Bool.false_eq_true, m2]
          have t2 : a1.rest = a.top :: a.rest := by
            rw [ha1]; simp only [AState.openTag, hmv, m1, hmr, if_false, Bool.false_eq_true]
          have t3 : a1.over = false := by
            rw [ha1]; simp only [AState.openTag, hmv, m1, hmr, if_false, Bool.false_eq_true]; exact ho
          have t4 : a1.mode = .wait .other := by
            rw [ha1]; simp only [AState.openTag, hmv, m1, hmr, if_false, Bool.false_eq_true]
          have t5 : ctxOf a1 = enter ctx n := by
            rw [ha1, ← hctx]
            simp only [AState.openTag, hmv, m1, hmr, if_false, Bool.false_eq_true, ctxOf, enter]
            cases hsp : a.sp with
            | some x => simp
            | none =>
              simp only [Option.map_none]
              by_cases hf : isForeign n
              · rw [if_pos hf]
                have := (foreign_iff n).2 hf
                cases hx : specialTag (lowerAll n) with
                | none => rw [hx] at this; cases this
                | some x => rfl
              · rw [if_neg hf]
                cases hx : specialTag (lowerAll n) with
                | none => rfl
                | some x => exact absurd ((foreign_iff n).1 (by rw [hx]; rfl)) hf
          have hp1 : parentOf a1 = some n := by simp [parentOf, t2, t1]
          have hfree1 : Free a1 := ⟨.other, t4, by simp⟩
          -- the children
          obtain ⟨b1, hb1, hat1⟩ := ih a1 (enter ctx n) (hp1.symm ▸ hks) t3 t5 (.inl hfree1) (fun _ _ _ => hfree1)
          have hbn : b1.top.name = n := by rw [hb1.top, t1]
          have hba : b1.top.attrs = as := by rw [hb1.top, t1]
          have hbk : b1.top.kids = ks := by rw [hb1.top, t1]; rfl
          -- the end tag
          obtain ⟨b, hrb, q1, q2, q3, q4, q5⟩ := read_end (o := o) hat1.outside (hb1.rest.trans t2) (e := e')
            (hbn.symm ▸ hn) (hbn.symm ▸ he)
          have hfb : Free b := ⟨.other, q1, by simp⟩
          refine ⟨b, ⟨?_, ?_, q2, q3.trans hb1.over, ?_⟩, .inl hfb, fun _ => hfb⟩
          · simp only [printNode, Option.getD_none, List.append_nil, printEnd]
            rw [arun_append, arun_append, hrun, Option.bind_some, hb1.run, Option.bind_some, hrb]
          · rw [q4, hbn, hba, hbk]
          · rw [q5, hb1.ctx]
            simp only [ctxNode, hv, hr, Bool.false_eq_true, or_self, if_false]
  · -- no nodes
    intro a ctx _ ho hctx hat _
    exact ⟨a, ⟨rfl, by simp, rfl, ho, hctx⟩, hat⟩
  · -- a node and more nodes
    intro p ps ihp ihps a ctx hw ho hctx hat hfree
    simp only [wfNodes] at hw
    obtain ⟨w1, w2, w3⟩ := hw
    obtain ⟨b, hb, hb1, hb2⟩ := ihp a ctx w1 ho hctx hat (hfree p rfl)
    have hpb : parentOf b = parentOf a := by simp [parentOf, hb.rest, hb.top]
    obtain ⟨b', hb', hat'⟩ := ihps b (ctxNode ctx p) (hpb.symm ▸ w3) hb.over hb.ctx hb1 (fun q hq hqt => by
      cases hp : isText p with
      | false => exact hb2 hp
      | true => rw [w2 hp q hq] at hqt; cases hqt)
    refine ⟨b', ⟨?_, ?_, hb'.rest.trans hb.rest, hb'.over, ?_⟩, hat'⟩
    · simp only [printNodes]
      rw [arun_append, hb.run, Option.bind_some, hb'.run]
    · rw [hb'.top, hb.top]; simp
    · rw [hb'.ctx]; simp only [ctxNodes]

/-- **A well-formed document is read back.** -/
theorem arun_wfDoc {o : ParseOptions} {ps : List PNode} (h : wfDoc o ps) :
    ∃ b, arun o {} (printNodes ps) = some b ∧ b.final o = true ∧ b.result = ps := by
  have hfree : Free ({} : AState) := ⟨.other, rfl, by simp⟩
  obtain ⟨b, hb, hat⟩ := (reads_all o).2 ps {} none h rfl rfl (.inl hfree) (fun _ _ _ => hfree)
  have hr : b.rest = [] := hb.rest
  refine ⟨b, hb.run, ?_, ?_⟩
  · rcases hat with ⟨l, hl, _⟩ | hl <;> simp [AState.final, hl, hr]
  · simp [AState.result, hr, AState.closeAll, hb.top]

end Rphtml
