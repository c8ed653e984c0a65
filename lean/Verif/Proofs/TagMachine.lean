import Verif.Model.Parser

/-!
# The tag interior as a pure machine

Between the end of a tag name and the closing `>` the parser only touches the metadata of the current
node, `prev_chars`, `mark_char`, the handler and the id table.  `tagChar` is that part as a pure function;
`runHandle_tag` shows that it is what the handlers compute.
-/

namespace Rphtml

namespace Heap

theorem upd_congr {h : Heap} {i : NodeId} {f g : Cell → Cell} (e : f (h.cell i) = g (h.cell i)) :
    h.upd i f = h.upd i g := by
  unfold upd
  congr 1
  funext j
  split
  · rename_i hj; subst hj; exact e
  · rfl

theorem upd_upd (h : Heap) (i : NodeId) (f g : Cell → Cell) :
    (h.upd i f).upd i g = h.upd i (fun c => g (f c)) := by
  unfold upd
  congr 1
  funext j
  simp only
  split <;> simp_all

theorem upd_self {h : Heap} {i : NodeId} {f : Cell → Cell} (e : f (h.cell i) = h.cell i) :
    h.upd i f = h := by
  unfold upd
  cases h with
  | mk size cell =>
    congr 1
    funext j
    split
    · rename_i hj; subst hj; exact e
    · rfl

@[simp] theorem upd_cell_self (h : Heap) (i : NodeId) (f : Cell → Cell) :
    (h.upd i f).cell i = f (h.cell i) := by simp [upd]

theorem upd_cell_ne (h : Heap) {i j : NodeId} (f : Cell → Cell) (hij : j ≠ i) :
    (h.upd i f).cell j = h.cell j := by simp [upd, hij]

end Heap

/-- The state of the parser inside a tag. -/
structure TagSt where
  handle : Handler
  m : TagMeta
  pc : Str
  mark : Char
deriving DecidableEq, Repr

/-- What one character does inside a tag; the optional string is a recorded `id`. -/
inductive TagOut where
  | cont (t : TagSt) (id : Option Str)
  | close (m : TagMeta) (pc : Str) (mark : Char) (id : Option Str)
  | selfClose
  | err (k : ErrorKind)

/-- `parse_tag_wait` as a pure function. -/
def tagWaitC (isDoc allowEq : Bool) (t : TagSt) (c : Char) (id : Option Str) : TagOut :=
  if c = '"' ∨ c = '\'' then
    if t.m.codeIn ≠ .waitValue then
      if isDoc then
        .cont { handle := .attrValue, m := { t.m.addAttrValue (some c) with codeIn := .value },
                pc := t.pc, mark := c } id
      else
        .cont { handle := .attrKey, m := { t.m.addAttrKey with codeIn := .key },
                pc := t.pc ++ [c], mark := t.mark } id
    else .cont { handle := .attrValue, m := { t.m with codeIn := .value }, pc := t.pc, mark := c } id
  else if c = '>' then .close t.m t.pc t.mark id
  else if c = '/' then .cont { t with handle := .tagSelfClosing } id
  else if c = '=' then
    if t.m.codeIn = .keyEnd then
      .cont { t with handle := .tagWait, m := { t.m with codeIn := .waitValue } } id
    else if t.m.codeIn = .wait then
      if !allowEq then .err (.wrongTag "'=' is not a valid attribute name".toList)
      else .cont { handle := .attrKey, m := { t.m.addAttrKey with codeIn := .key },
                   pc := t.pc ++ [c], mark := t.mark } id
    else .cont { handle := .attrValue, m := { t.m with codeIn := .value },
                 pc := t.pc ++ [c], mark := ' ' } id
  else if isWs c then .cont t id
  else if t.m.codeIn = .waitValue then
    .cont { handle := .attrValue, m := { t.m with codeIn := .value }, pc := t.pc ++ [c], mark := ' ' } id
  else
    .cont { handle := .attrKey, m := { t.m.addAttrKey with codeIn := .key },
            pc := t.pc ++ [c], mark := t.mark } id

/-- `set_tag_attr_key` as a pure function: name the last attribute. -/
def TagMeta.nameLast (m : TagMeta) (key : Str) : TagMeta :=
  { m.mapOrInsert (lowerAll key) (m.attrs.length - 1) with
    attrs := m.attrs.dropLast ++ [{ m.attrs.getLastD {} with key := some key }] }

/-- `set_tag_attr_value` as a pure function. -/
def TagMeta.valueLast (m : TagMeta) (value : Str) (quote : Option Char) : TagMeta :=
  { m with attrs := m.attrs.dropLast ++ [{ m.attrs.getLastD {} with value := some value, quote := quote }] }

/-- The id recorded by `set_tag_attr_value`. -/
def TagMeta.idOf (m : TagMeta) (value : Str) : Option Str :=
  ({ m.attrs.getLastD {} with value := some value } : Attr).checkIfId

/-- One character inside a tag. -/
def tagChar (isDoc allowEq : Bool) (t : TagSt) (c : Char) : TagOut :=
  match t.handle with
  | .tagWait => tagWaitC isDoc allowEq t c none
  | .tagSelfClosing =>
    if c = '>' then .selfClose
    else if c = '/' then .cont t none
    else tagWaitC isDoc allowEq t c none
  | .attrKey =>
    if c = '=' then
      .cont { t with handle := .tagWait, m := { t.m.nameLast t.pc with codeIn := .waitValue }, pc := [] } none
    else if c = '>' then .close { t.m.nameLast t.pc with codeIn := .keyEnd } [] t.mark none
    else if c = '/' then
      .cont { t with handle := .tagSelfClosing, m := { t.m.nameLast t.pc with codeIn := .wait }, pc := [] } none
    else if isWs c then
      .cont { t with handle := .tagWait, m := { t.m.nameLast t.pc with codeIn := .keyEnd }, pc := [] } none
    else .cont { t with pc := t.pc ++ [c] } none
  | .attrValue =>
    if t.mark = ' ' ∧ c = '>' then
      .close { t.m.valueLast t.pc none with codeIn := .valueEnd } [] t.mark (t.m.idOf t.pc)
    else if (if t.mark = ' ' then isWs c else c == t.mark) then
      .cont { handle := .tagWait,
              m := { t.m.valueLast t.pc (if t.mark = ' ' then none else some t.mark) with codeIn := .wait },
              pc := [], mark := '\x00' } (t.m.idOf t.pc)
    else .cont { t with pc := t.pc ++ [c] } none
  | _ => .cont t none

/-- The tag state of a parser state whose current node has metadata `m`. -/
def Doc.tagSt (d : Doc) (m : TagMeta) : TagSt :=
  { handle := d.handle, m := m, pc := d.prevChars, mark := d.markChar }

/-- Record an id for the current node. -/
def Doc.putId (d : Doc) : Option Str → Doc
  | some x => { d with idTags := (x, d.current) :: d.idTags }
  | none => d

/-- Write a tag state back. -/
def Doc.putTag (d : Doc) (t : TagSt) (id : Option Str) : Doc :=
  { d with
    handle := t.handle, prevChars := t.pc, markChar := t.mark
    heap := d.heap.upd d.current fun c => { c with tmeta := some t.m }
    idTags := match id with
      | some x => (x, d.current) :: d.idTags
      | none => d.idTags }

/-- The end of a start tag (`>`): void elements leave the chain, others go on (parser.rs:1055-1060,
1165-1178). -/
def Doc.closeTag (d : Doc) (m : TagMeta) : Doc :=
  if m.isVoid then { d with chain := d.chain.tail }.setCodeIn .unkown
  else if isContentTag (lowerAll m.name) none then
    { { d with memPosition := d.position }.setCodeIn
        (if isEqualChars (lowerAll m.name) scriptTagName none then .htmlScript
         else if isEqualChars (lowerAll m.name) styleTagName none then .htmlStyle
         else .escapeableRawText) with detect := some (['<', '/'] ++ m.name) }
  else
    { d with inSpecial := match d.inSpecial with
        | some s => some s
        | none => (specialTag (lowerAll m.name)).map fun s => (s, m.name) }.setCodeIn .unkown

/-- The result of one character inside a tag, written back to the document. -/
def Doc.tagResult (d : Doc) (m : TagMeta) (ctx : Str) : TagOut → Res Doc
  | .cont t id => .ok (d.putTag t id)
  | .close m pc mark id =>
    .ok ((d.putTag { handle := d.handle, m := m, pc := pc, mark := mark } id).closeTag m)
  | .selfClose =>
    if !d.opts.allowSelfClosing && d.codeIn ≠ .htmlDoctype && !(m.isVoid || d.inSpecial.isSome) then
      d.error (.wrongSelfClosing m.name) ctx
    else
      .ok ({ d.putTag { d.tagSt m with m := { m with selfClosed := true } } none with
        chain := d.chain.tail }.setCodeIn .unkown)
  | .err k => createParseError k d.position ctx

/-- The handlers of the tag interior. -/
def Handler.inTag : Handler → Bool
  | .tagWait | .tagSelfClosing | .attrKey | .attrValue => true
  | _ => false

/-- Attribute bookkeeping that keeps the `expect`s of the attribute setters safe. -/
def TagSt.Ok (t : TagSt) : Prop :=
  (t.handle = .attrKey ∨ t.handle = .attrValue ∨ t.m.codeIn = .waitValue) → t.m.attrs ≠ []

theorem closeTag_eq (d : Doc) (m : TagMeta) (h : d.cur.tmeta = some m) :
    (if m.isVoid then .ok ({ d with chain := d.chain.tail }.setCodeIn .unkown) else d.checkTagTypeDo) =
      Res.ok (d.closeTag m) := by
  unfold Doc.closeTag Doc.checkTagTypeDo
  rw [h]
  cases m.isVoid
  · simp only [Bool.false_eq_true, if_false]
    split
    · rfl
    · cases d.inSpecial with
      | some s => rfl
      | none => cases specialTag (lowerAll m.name) <;> rfl
  · rfl

theorem Doc.putTag_self (d : Doc) (m : TagMeta) (h : d.cur.tmeta = some m) :
    d.putTag (d.tagSt m) none = d := by
  unfold putTag tagSt
  simp only
  rw [Heap.upd_self]
  unfold Doc.cur at h
  rw [← h]

private theorem getLastD_of {α : Type} (l : List α) (d : α) (h : l ≠ []) : l.getLast? = some (l.getLastD d) := by
  cases l with
  | nil => exact absurd rfl h
  | cons a l => simp [List.getLast?_cons]

theorem Doc.setTagAttrKey_eq (d : Doc) (m : TagMeta) (h : d.cur.tmeta = some m) (ha : m.attrs ≠ []) :
    d.setTagAttrKey =
      .ok (d.putTag ⟨d.handle, m.nameLast d.prevChars, [], d.markChar⟩ none) := by
  have hc : d.cleanChars.cur.tmeta = some m := h
  unfold Doc.setTagAttrKey
  simp only [hc]
  have hl : m.attrs.length ≠ 0 := by simpa using ha
  simp only [hl, if_false]
  unfold TagMeta.setAttrKey TagMeta.modLast
  have hma : (m.mapOrInsert (lowerAll d.prevChars) (m.attrs.length - 1)).attrs = m.attrs := by
    unfold TagMeta.mapOrInsert; split <;> rfl
  rw [hma, getLastD_of _ {} ha]
  rfl

theorem Doc.setTagAttrValue_eq (d : Doc) (m : TagMeta) (q : Option Char) (h : d.cur.tmeta = some m)
    (ha : m.attrs ≠ []) :
    d.setTagAttrValue q =
      .ok (d.putTag ⟨d.handle, m.valueLast d.prevChars q, [], d.markChar⟩ (m.idOf d.prevChars)) := by
  have hc : d.cleanChars.cur.tmeta = some m := h
  unfold Doc.setTagAttrValue
  simp only [hc]
  unfold TagMeta.setAttrValue TagMeta.modLast
  rw [getLastD_of _ {} ha]
  simp only [List.getLast?_append, List.getLast?_singleton, Option.some_or, Option.bind_some]
  have : Attr.checkIfId ⟨(m.attrs.getLastD {}).key, some d.prevChars, q, (m.attrs.getLastD {}).needQuote⟩ = m.idOf d.prevChars := by
    unfold TagMeta.idOf Attr.checkIfId
    simp only
  rw [this]
  cases m.idOf d.prevChars <;> rfl

theorem Doc.cur_putTag (d : Doc) (t : TagSt) (id : Option Str) : (d.putTag t id).cur.tmeta = some t.m := by
  unfold Doc.putTag Doc.cur
  simp

theorem Doc.putTag_putTag (d : Doc) (t t' : TagSt) (id : Option Str) :
    (d.putTag t id).putTag t' none = d.putTag t' id := by
  unfold Doc.putTag
  simp only [Heap.upd_upd]

theorem Doc.setTagCodeIn_putTag (d : Doc) (t : TagSt) (id : Option Str) (ci : TagCodeIn) :
    (d.putTag t id).setTagCodeIn ci = d.putTag { t with m := { t.m with codeIn := ci }
                                                        handle := match ci with
                                                          | .wait | .waitValue | .valueEnd => .tagWait
                                                          | .key => .attrKey
                                                          | .value => .attrValue
                                                          | .keyEnd => t.handle } id := by
  unfold Doc.setTagCodeIn Doc.modMeta Doc.modCur Doc.putTag
  simp only [Heap.upd_upd, Option.map_some]
  cases ci <;> rfl

/-- `parse_tag_wait` computes `tagWaitC`. -/
theorem parseTagWait_eq (d : Doc) (t : TagSt) (id : Option Str) (c : Char) (ctx : Str) :
    parseTagWait (d.putTag t id) c ctx =
      d.tagResult t.m ctx (tagWaitC (d.codeIn = .htmlDoctype) d.opts.allowAttrKeyStartsWithEqualSign t c id) := by
  have hcur := d.cur_putTag t id
  have hci : (d.putTag t id).tagCodeIn? = some t.m.codeIn := by unfold Doc.tagCodeIn?; rw [hcur]; rfl
  have hcd : (d.putTag t id).codeIn = d.codeIn := rfl
  have hop : (d.putTag t id).opts = d.opts := rfl
  unfold parseTagWait tagWaitC
  simp only [hci, hcur, hcd, hop]
  by_cases h1 : c = '"' ∨ c = '\''
  · simp only [h1, if_true]
    by_cases h2 : t.m.codeIn ≠ .waitValue
    · simp only [h2, if_true, ne_eq, not_false_eq_true]
      by_cases h3 : d.codeIn = .htmlDoctype
      · simp only [h3, if_true, decide_true]
        unfold Doc.addTagAttrValue
        rw [hcur]
        simp only [Res.bind_eq, Res.bind, Doc.tagResult]
        congr 1
        unfold Doc.setTagCodeIn Doc.modMeta Doc.modCur Doc.putTag
        simp only [Heap.upd_upd, Option.map_some]
      · simp only [h3, if_false, decide_false, Bool.false_eq_true, Doc.tagResult]
        congr 1
        unfold Doc.setTagCodeIn Doc.addTagAttrKey Doc.pushChar Doc.modMeta Doc.modCur Doc.putTag
        simp only [Heap.upd_upd, Option.map_some]
    · simp only [h2, if_false, Doc.tagResult]
      congr 1
      unfold Doc.setTagCodeIn Doc.modMeta Doc.modCur Doc.putTag
      simp only [Heap.upd_upd, Option.map_some]
  · simp only [h1, if_false]
    by_cases h2 : c = '>'
    · simp only [h2, if_true, Doc.tagResult]
      have := closeTag_eq (d.putTag t id) t.m hcur
      refine Eq.trans this ?_
      congr 1
    · simp only [h2, if_false]
      by_cases h3 : c = '/'
      · simp only [h3, if_true, Doc.tagResult]; rfl
      · simp only [h3, if_false]
        by_cases h4 : c = '='
        · simp only [h4, if_true]
          by_cases h5 : t.m.codeIn = .keyEnd
          · simp only [h5, if_true, Doc.tagResult, Doc.setTagCodeIn_putTag]
          · simp only [h5, if_false]
            by_cases h6 : t.m.codeIn = .wait
            · simp only [h6, if_true]
              cases d.opts.allowAttrKeyStartsWithEqualSign
              · simp only [Bool.not_false, if_true, Doc.tagResult]; rfl
              · simp only [Bool.not_true, Bool.false_eq_true, if_false, Doc.tagResult]
                congr 1
                unfold Doc.setTagCodeIn Doc.addTagAttrKey Doc.pushChar Doc.modMeta Doc.modCur Doc.putTag
                simp only [Heap.upd_upd, Option.map_some]
            · simp only [h6, if_false, Doc.tagResult]
              congr 1
              unfold Doc.setTagCodeIn Doc.pushChar Doc.modMeta Doc.modCur Doc.putTag
              simp only [Heap.upd_upd, Option.map_some]
        · simp only [h4, if_false]
          by_cases h5 : isWs c = true
          · simp only [h5, if_true, Doc.tagResult]
          · simp only [h5, if_false, Bool.false_eq_true]
            by_cases h6 : t.m.codeIn = .waitValue
            · simp only [h6, if_true, Doc.tagResult]
              congr 1
              unfold Doc.setTagCodeIn Doc.pushChar Doc.modMeta Doc.modCur Doc.putTag
              simp only [Heap.upd_upd, Option.map_some]
            · simp only [h6, if_false, Doc.tagResult]
              congr 1
              unfold Doc.setTagCodeIn Doc.addTagAttrKey Doc.pushChar Doc.modMeta Doc.modCur Doc.putTag
              simp only [Heap.upd_upd, Option.map_some]

/-- Every handler of the tag interior computes `tagChar`. -/
theorem runHandle_tag (d : Doc) (m : TagMeta) (c : Char) (ctx : Str) (hh : d.handle.inTag = true)
    (hm : d.cur.tmeta = some m) (hok : (d.tagSt m).Ok) :
    runHandle d c ctx = d.tagResult m ctx
      (tagChar (d.codeIn = .htmlDoctype) d.opts.allowAttrKeyStartsWithEqualSign (d.tagSt m) c) := by
  have hself := d.putTag_self m hm
  have hwait : ∀ c, parseTagWait d c ctx = d.tagResult m ctx
      (tagWaitC (d.codeIn = .htmlDoctype) d.opts.allowAttrKeyStartsWithEqualSign (d.tagSt m) c none) := by
    intro c
    have := parseTagWait_eq d (d.tagSt m) none c ctx
    rwa [hself] at this
  unfold runHandle tagChar
  have hht : (d.tagSt m).handle = d.handle := rfl
  cases hd : d.handle <;> simp only [hd, Handler.inTag, Bool.false_eq_true] at hh <;>
    simp only [hht, hd]
  case tagWait => exact hwait c
  case tagSelfClosing =>
    unfold parseTagSelfClosing
    by_cases h1 : c = '>'
    · simp only [h1, if_true, hm, Doc.tagResult]
      split
      · rfl
      · congr 1
    · simp only [h1, if_false]
      by_cases h2 : c = '/'
      · simp only [h2, if_true, Doc.tagResult]; rw [hself]
      · simp only [h2, if_false]; exact hwait c
  case attrKey =>
    have ha : m.attrs ≠ [] := hok (Or.inl hd)
    have hk := d.setTagAttrKey_eq m hm ha
    unfold parseTagAttrKey
    rw [hk]
    simp only [Res.bind_eq, Res.bind, Doc.setTagCodeIn_putTag]
    by_cases h1 : c = '='
    · simp only [h1, if_true, Doc.tagResult]; rfl
    · simp only [h1, if_false]
      by_cases h2 : c = '>'
      · simp only [h2, if_true]
        rw [parseTagWait_eq]
        rfl
      · simp only [h2, if_false]
        by_cases h3 : c = '/'
        · simp only [h3, if_true, Doc.tagResult]; rfl
        · simp only [h3, if_false]
          by_cases h4 : isWs c = true
          · simp only [h4, if_true, Doc.tagResult]; rfl
          · simp only [h4, if_false, Bool.false_eq_true, Doc.tagResult]
            congr 1
            rw [← congrArg (fun x => Doc.pushChar x c) hself]
            simp only [Doc.pushChar, Doc.putTag, Doc.tagSt, hd]
  case attrValue =>
    have ha : m.attrs ≠ [] := hok (Or.inr (Or.inl hd))
    unfold parseTagAttrValue
    have hmk : (d.tagSt m).mark = d.markChar := rfl
    have hpc : (d.tagSt m).pc = d.prevChars := rfl
    have hmm : (d.tagSt m).m = m := rfl
    simp only [hmk, hpc, hmm]
    by_cases h1 : d.markChar = ' ' ∧ c = '>'
    · simp only [h1, if_true, and_self]
      rw [d.setTagAttrValue_eq m none hm ha]
      simp only [Res.bind_eq, Res.bind, Doc.setTagCodeIn_putTag]
      rw [parseTagWait_eq]
      obtain ⟨h1a, rfl⟩ := h1
      simp [tagWaitC, Doc.tagResult, h1a]
    · simp only [h1, if_false]
      by_cases h2 : (if d.markChar = ' ' then isWs c else c == d.markChar) = true
      · simp only [h2, if_true]
        have := Doc.setTagAttrValue_eq { d with markChar := '\x00' } m
          (if d.markChar = ' ' then none else some d.markChar) hm ha
        rw [this]
        simp only [Res.bind_eq, Res.bind, Doc.setTagCodeIn_putTag, Doc.tagResult]
        rfl
      · simp only [h2, if_false, Bool.false_eq_true, Doc.tagResult]
        congr 1
        rw [← congrArg (fun x => Doc.pushChar x c) hself]
        simp only [Doc.pushChar, Doc.putTag, Doc.tagSt, hd]

end Rphtml
