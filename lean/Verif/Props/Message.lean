import Verif.Model.Display
import Verif.Spec.Message
import Verif.Props.Outcome
import Verif.Proofs.Span

/-! # C57: the text of an error says what is wrong and where -/

namespace Rphtml
open Spec

private theorem digit (k : Nat) (h : k < 10) :
    ('0' ≤ Char.ofNat (48 + k) ∧ Char.ofNat (48 + k) ≤ '9') ∧ (Char.ofNat (48 + k)).toNat - 48 = k := by
  have : ∀ k : _root_.Fin 10, ('0' ≤ Char.ofNat (48 + k) ∧ Char.ofNat (48 + k) ≤ '9') ∧ (Char.ofNat (48 + k)).toNat - 48 = k := by decide
  exact this ⟨k, h⟩

private theorem number_digit (n k : Nat) (h : k < 10) (s : Str) : number n (Char.ofNat (48 + k) :: s) = number (10 * n + k) s := by
  rw [number, if_pos (digit k h).1, (digit k h).2]

private theorem number_decimal (n : Nat) : ∀ s, number 0 (decimal n ++ s) = number n s := by
  induction n using Nat.strongRecOn with
  | ind n ih =>
    intro s
    rw [decimal]
    split
    · rename_i h
      rw [List.singleton_append, number_digit 0 n h, Nat.mul_zero, Nat.zero_add]
    · rename_i h
      rw [List.append_assoc, ih (n / 10) (by omega), List.singleton_append, number_digit _ _ (Nat.mod_lt _ (by decide)), Nat.div_add_mod]

private theorem behind_append (p s : Str) : behind p (p ++ s) = some s := by
  unfold behind
  rw [if_pos (List.prefix_append p s), List.drop_left]

private theorem number_stop (n : Nat) {c : Char} (hc : ¬ ('0' ≤ c ∧ c ≤ '9')) (s : Str) : number n (c :: s) = (n, c :: s) := by
  rw [number, if_neg hc]

/-- **C57** (where): the position is read back from the text of any error, and what follows is the text of its kind. -/
theorem c57_position (e : ParseError) : position e.display = some (e.region, e.kind.display) := by
  obtain ⟨⟨i, l, c⟩, k⟩ := e
  have h1 : ∀ s, number 0 (decimal l ++ (",col:".toList ++ s)) = (l, ",col:".toList ++ s) := fun s => by
    rw [number_decimal]; exact number_stop _ (by decide) _
  have h2 : ∀ s, number 0 (decimal c ++ (",index:".toList ++ s)) = (c, ",index:".toList ++ s) := fun s => by
    rw [number_decimal]; exact number_stop _ (by decide) _
  have h3 : ∀ s, number 0 (decimal i ++ ("]".toList ++ s)) = (i, "]".toList ++ s) := fun s => by
    rw [number_decimal]; exact number_stop _ (by decide) _
  unfold position ParseError.display CodeRegion.display
  simp only [List.append_assoc, behind_append, h1, h2, h3, Option.bind_eq_bind, Option.bind_some]

/-- The kinds of the errors that the parser raises, as far as it matters for their texts. -/
private inductive Raised : ErrorKind → Prop
  | wrongTag (s) : Raised (.wrongTag s)
  | wrongEndTag (s) : Raised (.wrongEndTag s)
  | unclosedTag (s) : Raised (.unclosedTag s)
  | wrongHtmlDoctype (c) : Raised (.wrongHtmlDoctype c)
  | unrecognizedTag (w D) (hw : '\'' ∉ w) : Raised (.unrecognizedTag w D)
  | wrongCaseSensitive (s) : Raised (.wrongCaseSensitive s)
  | wrongSelfClosing (s) : Raised (.wrongSelfClosing s)
  | outside : Raised (.commonError "wrong <![CDATA tag can only used in Svg or MathML".toList)
  | direct : Raised (.commonError "<![CDATA tag can in sub node".toList)

private theorem raised {s : Str} {o : ParseOptions} {e : ParseError} (h : Doc.parse s o = .err e) : Raised e.kind := by
  rcases (c54_errors s o e.kind e.region.index).1 ⟨e, h, rfl, rfl⟩ with ⟨u, c, v, -, h⟩ | h
  · generalize e.kind = k, e.region.index = i at h
    cases h
    case keyword t w D S h hs hD hw hl hp hd hc =>
      refine .unrecognizedTag _ _ fun hm => ?_
      have h1 : Char.toLower '\'' ∈ fold w := List.mem_map_of_mem hm
      have h2 := hp.subset h1
      have h3 : ∀ D ∈ keywords, Char.toLower '\'' ∉ fold D := by decide
      exact h3 _ hD h2
    all_goals constructor
  · generalize e.kind = k, e.region.index = i at h
    cases h <;> constructor

private theorem upto_quote {w w' x x' : Str} (hw : '\'' ∉ w) (hw' : '\'' ∉ w') (h : w ++ '\'' :: x = w' ++ '\'' :: x') :
    w = w' ∧ x = x' := by
  induction w generalizing w' with
  | nil =>
    cases w' with
    | nil => simpa using h
    | cons c w' => simp only [List.nil_append, List.cons_append, List.cons.injEq] at h; exact absurd (h.1 ▸ List.mem_cons_self) hw'
  | cons c w ih =>
    cases w' with
    | nil => simp only [List.nil_append, List.cons_append, List.cons.injEq] at h; exact absurd (h.1 ▸ List.mem_cons_self) hw
    | cons c' w' =>
      simp only [List.cons_append, List.cons.injEq] at h
      obtain ⟨h1, h2⟩ := ih (fun hm => hw (List.mem_cons_of_mem _ hm)) (fun hm => hw' (List.mem_cons_of_mem _ hm)) h.2
      exact ⟨by rw [h.1, h1], h2⟩

/-- How the texts of these kinds begin. -/
private def start : ErrorKind → Str
  | .wrongTag _ => "wrong tag".toList
  | .wrongEndTag _ => "wrong end".toList
  | .unclosedTag _ => "the tag '".toList
  | .wrongHtmlDoctype _ => "unexpecte".toList
  | .unrecognizedTag _ _ => "unrecogni".toList
  | .wrongCaseSensitive _ => "because t".toList
  | .wrongSelfClosing _ => "wrong sel".toList
  | .commonError s => s.take 9
  | _ => []

private theorem display_start {k : ErrorKind} (h : Raised k) : k.display.take 9 = start k := by cases h <;> rfl

private theorem raised_inj {k k' : ErrorKind} (h : Raised k) (h' : Raised k') (hm : k.display = k'.display) : k = k' := by
  have hs : start k = start k' := by rw [← display_start h, ← display_start h', hm]
  cases h <;> cases h'
  case wrongTag.wrongTag => exact congrArg _ (List.append_cancel_left hm)
  case wrongEndTag.wrongEndTag => exact congrArg _ (List.append_cancel_left hm)
  case unclosedTag.unclosedTag => exact congrArg _ (List.append_cancel_left (List.append_cancel_right hm))
  case wrongHtmlDoctype.wrongHtmlDoctype =>
    have := List.append_cancel_left (List.append_cancel_right hm)
    injection this with h; rw [h]
  case unrecognizedTag.unrecognizedTag w D hw w' D' hw' =>
    have h1 := List.append_cancel_right hm
    simp only [List.append_assoc] at h1
    have h2 := List.append_cancel_left h1
    obtain ⟨h3, h4⟩ := upto_quote hw hw' h2
    rw [h3, List.append_cancel_left (as := ", do you mean '".toList) h4]
  case wrongCaseSensitive.wrongCaseSensitive => exact congrArg _ (List.append_cancel_left (List.append_cancel_right hm))
  case wrongSelfClosing.wrongSelfClosing => exact congrArg _ (List.append_cancel_left (List.append_cancel_right hm))
  case outside.outside => rfl
  case direct.direct => rfl
  all_goals exact absurd hs (by dsimp only [start]; decide)

/-- **C57** (what): two errors of the parser, on whatever texts, with the same text are the same error. -/
theorem c57_message {s s' : Str} {o o' : ParseOptions} {e e' : ParseError} (h : Doc.parse s o = .err e)
    (h' : Doc.parse s' o' = .err e') (hm : e.display = e'.display) : e = e' := by
  have := (c57_position e).symm.trans (hm ▸ c57_position e')
  simp only [Option.some.injEq, Prod.mk.injEq] at this
  obtain ⟨r, k⟩ := e
  obtain ⟨r', k'⟩ := e'
  have hk := raised_inj (raised h) (raised h') this.2
  simp only at this hk
  rw [this.1, hk]

/-- The names of the parser states (as `{:?}` shows them) in which a text must not end, and how that which is not finished begins.
(After `<` and `<!` the place that is given is that of the node before.) -/
def Spec.stateNames : List (Str × Str) := [("UnkownTag".toList, []), ("ExclamationBegin".toList, []), ("Comment".toList, "<!--".toList),
  ("XMLCDATA".toList, "<!".toList), ("HTMLDOCTYPE".toList, "<!".toList), ("HTMLScript".toList, "<".toList),
  ("HTMLStyle".toList, "<".toList), ("EscapeableRawText".toList, "<".toList), ("TagEnd".toList, "</".toList)]

/-- What the text of an error quotes is in the source, at the place that it gives (but for the names of parser states in
`unclosedTag`). -/
def Spec.Quotes (s : Str) (i : Nat) : ErrorKind → Prop
  | .wrongEndTag x | .wrongCaseSensitive x => ∃ t v, s = t ++ "</".toList ++ x ++ ">".toList ++ v ∧ i = (t ++ "</".toList ++ x).length
  | .wrongSelfClosing n => ∃ t r v, s = t ++ "<".toList ++ n ++ r ++ ">".toList ++ v ∧ i = (t ++ "<".toList ++ n ++ r).length
  | .wrongHtmlDoctype c => ∃ t w v, s = t ++ "<!".toList ++ w ++ [c] ++ v ∧ i = (t ++ "<!".toList ++ w).length ∧ sameName w "doctype".toList
  | .unrecognizedTag w D => ∃ t v, s = t ++ "<!".toList ++ w ++ v ∧ i = t.length ∧ D ∈ keywords
  | .wrongTag x =>
    (∃ t v c, s = t ++ "<".toList ++ [c] ++ v ∧ i = t.length ∧ x = [c]) ∨ (∃ t v, s = t ++ "<!".toList ++ v ∧ i = t.length ∧ x = []) ∨
    (∃ t v, s = t ++ "=".toList ++ v ∧ i = t.length ∧ x = "'=' is not a valid attribute name".toList)
  | .commonError _ => ∃ t v, s = t ++ "<![".toList ++ v ∧ i = t.length + 2
  | .unclosedTag n => i < s.length ∧ ((∃ t v, s = t ++ "<".toList ++ n ++ v ∧ i = t.length) ∨
    ∃ b t v, (n, b) ∈ stateNames ∧ s = t ++ b ++ v ∧ i = t.length)
  | _ => False

/-- The innermost open element. -/
private theorem open_at {s : Str} {o : ParseOptions} {d : Doc} (hr : Reach o s d) {t : NodeId} (ht : t ∈ d.chain.dropLast) {m : TagMeta}
    (hm : (d.heap.cell t).tmeta = some m) : At s (d.heap.cell t).beginAt ('<' :: m.name) := by
  have hd := hr.ctl
  obtain ⟨h1, h2⟩ := hd.open_tags.2 t (List.mem_reverse.2 ht)
  have hty := hd.chainTag t h1 h2
  rcases hr.spans.done t (hd.chainLt t h1) with ⟨h3, h4⟩ | h3
  · have hs := hd.hs
    unfold HandleOk Doc.cur at hs
    rw [← h3, hty, hm] at hs
    cases hq : d.handle <;> rw [hq] at h4 <;> cases h4 <;> rw [hq] at hs <;> simp at hs
  · unfold Good at h3
    rw [hty] at h3
    obtain ⟨m', h4, h5⟩ := h3
    rw [hm] at h4; cases h4
    exact h5

/-- What is not finished at the end. -/
private theorem unfinished_at {s : Str} {o : ParseOptions} {d : Doc} (hr : Reach o s d) {x : Str} {i : Nat} (hi : i < s.length)
    (hx : (match d.codeIn with
      | .unkownTag => some "UnkownTag"
      | .exclamationBegin => some "ExclamationBegin"
      | .tagEnd => some "TagEnd"
      | .comment => some "Comment"
      | .htmlDoctype => some "HTMLDOCTYPE"
      | .escapeableRawText => some "EscapeableRawText"
      | .htmlScript => some "HTMLScript"
      | .htmlStyle => some "HTMLStyle"
      | .xmlCdata => some "XMLCDATA"
      | .abstractRoot | .unkown | .tag | .textNode => none).map (fun (x : String) => (x.toList, d.cur.beginAt)) = some (x, i)) :
    ∃ b t v, (x, b) ∈ stateNames ∧ s = t ++ b ++ v ∧ i = t.length := by
  have hd := hr.ctl
  have hsrc := hr.srcAt
  have here : ∃ t v, s = t ++ [] ++ v ∧ i = t.length := ⟨s.take i, s.drop i, by simp, by simp; omega⟩
  have of : ∀ b y, (x, b) ∈ stateNames → At s i (b ++ y) → ∃ b t v, (x, b) ∈ stateNames ∧ s = t ++ b ++ v ∧ i = t.length := by
    intro b y h1 h2
    obtain ⟨t, v, h3, h4⟩ := h2
    exact ⟨b, t, y ++ v, h1, by simpa using h3, h4.symm⟩
  have raw : d.handle = .contentTag → At s d.cur.beginAt ['<'] := by
    intro hh
    have hg := hr.spans.cur hd (by rw [hh]; rfl)
    have hs := hd.hs
    unfold HandleOk at hs
    simp only [hh] at hs
    unfold Good at hg
    rw [hs.1] at hg
    obtain ⟨m, _, h⟩ := hg
    exact At.prefix (w := ['<']) h
  have hs := hd.hs
  unfold HandleOk at hs
  unfold SrcAt at hsrc
  cases hq : d.handle <;> simp only [hq] at hs hsrc
  case wait => rcases hs.1 with h | h <;> rw [h] at hx <;> cases hx
  case text => rw [hs.1] at hx; cases hx
  case unkownTag =>
    rw [hs.1] at hx; cases hx
    exact ⟨[], here.choose, here.choose_spec.choose, by decide, here.choose_spec.choose_spec⟩
  case exclamationBegin =>
    rw [hs.1] at hx; cases hx
    exact ⟨[], here.choose, here.choose_spec.choose, by decide, here.choose_spec.choose_spec⟩
  case commentOrCdata =>
    rcases hs.2 with h | h
    · rw [if_pos h.1] at hsrc
      rw [h.1] at hx; cases hx
      exact of "<!--".toList d.prevChars (by decide) hsrc.at
    · rw [if_neg (by rw [h.1]; simp)] at hsrc
      obtain ⟨k, _, hsrc⟩ := hsrc
      rw [h.1] at hx; cases hx
      exact of "<!".toList (k ++ d.prevChars) (by decide) (by simpa using hsrc.at)
  case doctypeName => rw [hs.1] at hx; cases hx; exact of "<!".toList _ (by decide) hsrc.at
  case tagName => rw [hs.1] at hx; cases hx
  case tagEnd => rw [hs.1] at hx; cases hx; exact of "</".toList _ (by decide) hsrc.at
  case contentTag =>
    obtain ⟨_, _, m, _, _, h, _⟩ := hs
    have hr := raw hq
    have h3 : rawCode m.name = .htmlScript ∨ rawCode m.name = .htmlStyle ∨ rawCode m.name = .escapeableRawText := by
      unfold rawCode; repeat' split
      all_goals simp
    rcases h3 with h3 | h3 | h3 <;> rw [h, h3] at hx <;> cases hx <;> exact of "<".toList [] (by decide) hr
  all_goals
    obtain ⟨_, m, hm, _, _, _, h⟩ := hs
    obtain ⟨m', mid, hm', ht, _⟩ := hsrc
    rcases h with h | h
    · rw [h.1] at hx; cases hx
    · rw [if_pos h.1] at ht
      rw [h.1] at hx; cases hx
      exact of "<!".toList (m'.name ++ mid) (by decide) (by simpa using ht.at)

private theorem unclosed_at {s : Str} {o : ParseOptions} {n : Str} {i : Nat} {e : ParseError} (hlt : i < s.length)
    (he : Doc.parse s o = .err e) (h : Unfinished o s (.unclosedTag n) i) :
    Quotes s i (.unclosedTag n) := by
  refine ⟨hlt, ?_⟩
  cases h with
  | element ho hn hi h =>
    unfold openNames at hn
    unfold openAt at hi
    cases hr : (Doc.new o).run s s with
    | panic p => rw [hr] at hn; cases hn
    | err e => rw [hr] at hn; cases hn
    | ok d =>
      rw [hr] at hn hi
      have hreach : Reach o s d := Reach.run (o := o) s [] _ _ .init hr
      cases hch : d.chain.dropLast with
      | nil => simp only [hch] at hi; cases hi
      | cons t ts =>
        simp only [hch, List.head?_cons, Option.map_some, Option.some.injEq, List.map_cons, List.cons.injEq] at hi hn
        have htm : t ∈ d.chain.dropLast := by rw [hch]; exact List.mem_cons_self
        cases hm : (d.heap.cell t).tmeta with
        | none =>
          exfalso
          have hlen : d.chain.length > 1 := by
            have := congrArg List.length hch
            simp only [List.length_dropLast, List.length_cons] at this
            omega
          have hhead : d.chain.head? = some t := by
            cases hc : d.chain with
            | nil => rw [hc] at hch; cases hch
            | cons a as =>
              cases as with
              | nil => rw [hc] at hch; cases hch
              | cons b bs => rw [hc] at hch; cases hch; rfl
          have hopt : d.opts.autoFixUnclosedTag = false := by rw [hreach.opts]; exact ho
          have hch : d.eofChain s = .panic .eofMeta := by
            unfold Doc.eofChain
            simp [hlen, hopt, hhead, hm]
          unfold Doc.parse at he
          simp only [Res.bind_eq, hr] at he
          unfold Doc.eof at he
          simp only [Res.bind_eq, Res.bind, hch] at he
          cases he
        | some m =>
          rw [hm] at hn
          obtain ⟨a, v, h1, h2⟩ := open_at hreach htm hm
          refine .inl ⟨a, v, ?_, by rw [← hi, h2]⟩
          rw [h1, ← hn.1]; simp
  | construct ho h =>
    unfold unfinishedAt at h
    cases hr : (Doc.new o).run s s with
    | panic p => rw [hr] at h; cases h
    | err e => rw [hr] at h; cases h
    | ok d =>
      rw [hr] at h
      exact .inr (unfinished_at (Reach.run (o := o) s [] _ _ .init hr) hlt h)

private theorem lt_last {o : ParseOptions} {u : Str} {S : Sit} (h : Spec.Scan o u S) (hs : S.spot = .lt) : ∃ t, u = t ++ ['<'] := by
  cases h <;> first | exact ⟨_, rfl⟩ | exact nomatch hs

/-- **C57** (what it quotes): see `Quotes`. -/
theorem c57_quotes {s : Str} {o : ParseOptions} {e : ParseError} (h : Doc.parse s o = .err e) : Quotes s e.region.index e.kind := by
  have hlt := (c25_positions h).1
  rcases (c54_errors s o e.kind e.region.index).1 ⟨e, h, rfl, rfl⟩ with ⟨u, c, v, hu, hr⟩ | hr
  · generalize e.kind = k, e.region.index = i at hr hlt
    clear h
    subst hu
    cases hr
    case lt S hs ho h hc => obtain ⟨t, rfl⟩ := lt_last h hs; exact .inl ⟨t, v, c, by simp, by simp, rfl⟩
    case bang t S h hs hc => obtain ⟨t, rfl⟩ := lt_last h hs; exact .inr (.inl ⟨t, c :: v, by simp, by simp, rfl⟩)
    case keyword t w D S h hs hD hw hl hp hd hc => obtain ⟨t, rfl⟩ := lt_last h hs; exact ⟨t, c :: v, by simp, by simp, hD⟩
    case cdataOutside t S h hs hf => obtain ⟨t, rfl⟩ := lt_last h hs; exact ⟨t, v, by simp, by simp⟩
    case cdataDirect t S h hs hr hf => obtain ⟨t, rfl⟩ := lt_last h hs; exact ⟨t, v, by simp, by simp⟩
    case doctype t w S h hs ho hw hc => obtain ⟨t, rfl⟩ := lt_last h hs; exact ⟨t, w, v, by simp, by simp, hw⟩
    case equals => exact .inr (.inr ⟨u, v, by simp, rfl, rfl⟩)
    case equalsDoctype => exact .inr (.inr ⟨u, v, by simp, rfl, rfl⟩)
    case selfClosing n t S as _ _ _ _ _ =>
      have hin : Spec.Inside o u S (.tag n t) := by assumption
      clear * - hin
      cases hin with
      | tag h hs => obtain ⟨t', rfl⟩ := lt_last h hs; exact ⟨t', t, v, by simp, by simp⟩
    case endCase t e S h hs hgt ho he hn => obtain ⟨t, rfl⟩ := lt_last h hs; exact ⟨t, v, by simp, by simp⟩
    case endStray t e S h hs hgt ho he => obtain ⟨t, rfl⟩ := lt_last h hs; exact ⟨t, v, by simp, by simp⟩
  · have hu : ∃ n, e.kind = .unclosedTag n := by
      generalize e.kind = k, e.region.index = i at hr
      cases hr <;> exact ⟨_, rfl⟩
    obtain ⟨n, hn⟩ := hu
    rw [hn]
    rcases (c52_errors s o e.kind e.region.index).1 ⟨e, h, rfl, rfl⟩ with ⟨u, c, v, _, hr⟩ | ⟨_, hr⟩
    · rw [hn] at hr; cases hr
    · exact unclosed_at hlt h (hn ▸ hr)

/-- The texts of some errors. -/
def Spec.messageOf (s : String) (o : ParseOptions := {}) : Option String :=
  match Doc.parse s.toList o with
  | .err e => some (String.ofList e.display)
  | _ => none

example : messageOf "<p>\n</div>" = some "[line:2,col:6,index:9]wrong end tag </div" ∧
    messageOf "<!doc>" = some "[line:1,col:1,index:0]unrecognized tag 'doc', do you mean 'DOCTYPE'" ∧
    messageOf "<i><p a" = some "[line:1,col:4,index:3]the tag 'p' is not closed" := by decide +kernel

/-- Without the parser the texts are ambiguous: these are two errors with the same text. -/
example : (ErrorKind.commonError "wrong tag <a".toList).display = (ErrorKind.wrongTag ['a']).display := rfl

end Rphtml
