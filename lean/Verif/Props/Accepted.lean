import Verif.Spec.Place
import Verif.Proofs.WfInv

/-!
# C04, C13, C14, C17, C44: what accepted documents look like
-/

namespace Rphtml
open Spec

theorem okNodes_mem {o : ParseOptions} {parent : Option Str} {p : PNode} : ∀ {ps : List PNode} {ctx : Option Str},
    okNodes o ctx parent ps → p ∈ ps → ∃ xs ys, ps = xs ++ p :: ys ∧ okNode o (ctxNodes ctx xs) parent p
  | [], _, _, h => by cases h
  | q :: ps, ctx, h, hp => by
    simp only [okNodes] at h
    rcases List.mem_cons.1 hp with rfl | hp
    · exact ⟨[], ps, rfl, by simp only [ctxNodes]; exact h.1⟩
    · obtain ⟨xs, ys, rfl, h3⟩ := okNodes_mem h.2.2 hp
      exact ⟨q :: xs, ys, rfl, by simp only [ctxNodes]; exact h3⟩

theorem okNodes_append_left {o : ParseOptions} {parent : Option Str} : ∀ {xs ys : List PNode} {ctx : Option Str},
    okNodes o ctx parent (xs ++ ys) → okNodes o ctx parent xs
  | [], _, _, _ => by simp only [okNodes]
  | x :: xs, ys, ctx, h => by
    simp only [List.cons_append, okNodes] at h ⊢
    refine ⟨h.1, ?_, okNodes_append_left h.2.2⟩
    intro ha ht q hq
    refine h.2.1 ha ht q ?_
    cases xs with
    | nil => cases hq
    | cons y ys => exact hq

/-- What is known about the children of an element. -/
theorem okNodes_at {o : ParseOptions} {anc : List Str} {ks ps : List PNode} (h : okNodes o none none ps) (hk : At anc ks ps) :
    (∃ ctx, okNodes o ctx anc.head? ks) ∨ holeOk o ks := by
  induction hk with
  | root => exact .inl ⟨none, h⟩
  | child hk hp ih =>
    rcases ih h with ⟨ctx, ih⟩ | ih
    · obtain ⟨xs, ys, _, h2⟩ := okNodes_mem ih hp
      simp only [okNode] at h2
      obtain ⟨_, _, h2⟩ := h2
      split at h2
      · rw [h2.2.1]; exact .inl ⟨none, by simp only [okNodes]⟩
      · split at h2
        · exact .inr h2.2.1
        · split at h2
          · exact .inr h2.1
          · exact .inl ⟨_, h2.2.2⟩
    · rcases ih with rfl | ⟨_, w, rfl, _⟩
      · cases hp
      · simp at hp

theorem okNode_occurs {o : ParseOptions} {p : PNode} {ps : List PNode} (h : okNodes o none none ps) (hp : Occurs p ps) :
    ∃ ctx parent, okNode o ctx parent p := by
  obtain ⟨ks, ⟨anc, hk⟩, hp⟩ := hp
  rcases okNodes_at h hk with ⟨ctx, hk⟩ | rfl | ⟨_, w, rfl, hw⟩
  · obtain ⟨xs, ys, _, h2⟩ := okNodes_mem hk hp
    exact ⟨_, _, h2⟩
  · cases hp
  · simp only [List.mem_singleton] at hp
    subst hp
    exact ⟨none, none, by simp only [okNode]; exact hw.1⟩

theorem docOf_ok {o : ParseOptions} {s : Str} {ps : List PNode} (hc : complete s o) (h : docOf s o = some ps) :
    okNodes o none none ps := by
  obtain ⟨a, h1, _, rfl⟩ := (docOf_iff hc).1 h
  exact result_ok h1

/-- **C13**, for all options (also with the auto-fixes): void and self-closed elements have no end tag, and every other
element has one that closes it, or has none because its last child is a self-closed doctype. -/
theorem c13_exact {o : ParseOptions} {s : Str} {ps : List PNode} (hc : complete s o) (h : docOf s o = some ps)
    {n : Str} {as : List Attr} {sc : Bool} {ct : Option Str} {ks : List PNode} {e : Option Str}
    (hp : Occurs (.elem n as sc ct ks e) ps) :
    (sc = true ∨ isVoid n → e = none) ∧
    (sc = false → ¬ isVoid n → (∃ e', e = some e' ∧ closes o.caseSensitiveTagname n e') ∨
      (e = none ∧ ∃ n' as', ks.getLast? = some (.doctype n' as' true))) := by
  obtain ⟨ctx, parent, h2⟩ := okNode_occurs (docOf_ok hc h) hp
  simp only [okNode] at h2
  obtain ⟨_, _, h2⟩ := h2
  by_cases hs : sc = true
  · rw [if_pos hs] at h2
    exact ⟨fun _ => h2.2.2.1, fun q => by rw [hs] at q; cases q⟩
  · rw [if_neg hs] at h2
    by_cases hv : isVoid n
    · rw [if_pos hv] at h2
      exact ⟨fun _ => h2.2.2, fun _ q => absurd hv q⟩
    · rw [if_neg hv] at h2
      refine ⟨fun q => absurd (q.resolve_left hs) hv, fun _ _ => ?_⟩
      split at h2
      · obtain ⟨_, w, e', _, h3, h4, _⟩ := h2
        exact .inl ⟨e', h3, h4⟩
      · exact h2.2.1

/-- **C13** for the documents without a self-closed doctype. (Missing from the full claim: `<!doctype x/>`, which the
library takes as an end tag, see `c13_exact` and `Findings`.) -/
theorem c13_balanced_partial {o : ParseOptions} {s : Str} {ps : List PNode} (hc : complete s o) (h : docOf s o = some ps)
    (hd : ∀ n as, ¬ Occurs (.doctype n as true) ps)
    {n : Str} {as : List Attr} {sc : Bool} {ct : Option Str} {ks : List PNode} {e : Option Str}
    (hp : Occurs (.elem n as sc ct ks e) ps) :
    if sc = true ∨ isVoid n then e = none else ∃ e', e = some e' ∧ closes o.caseSensitiveTagname n e' := by
  obtain ⟨h1, h2⟩ := c13_exact hc h hp
  split
  · rename_i hv; exact h1 hv
  · rename_i hv
    rw [not_or] at hv
    rcases h2 (by simpa using hv.1) hv.2 with q | ⟨_, n', as', q⟩
    · exact q
    · exfalso
      obtain ⟨ks', ⟨anc, hk⟩, hp⟩ := hp
      exact hd n' as' ⟨ks, ⟨_, hk.child hp⟩, List.mem_of_getLast? q⟩

/-- The exception is real. -/
example : docOf "<div><!DOCTYPE a/>".toList {} = some [.elem "div".toList [] false none
    [.doctype "DOCTYPE".toList [{ key := some "a".toList }] true] none] := by decide +kernel

/-- A document to which both theorems apply. -/
example : docOf "<P>a<br><i/ ></ i></p >".toList {} = none ∧
    docOf "<P>a<br><i x/y></i \n></p >".toList { allowSelfClosing := true } = some [.elem "P".toList [] false none
      [.text "a".toList, .elem "br".toList [] false none [] none,
       .elem "i".toList [{ key := some "x".toList }, { key := some "y".toList }] false none [] (some "i \n".toList)]
      (some "p ".toList)] := by decide +kernel

/-- **C14** without `auto_fix_unescaped_lt`: void elements have neither children nor content, raw-text elements have no
child nodes.  (Missing from the full claim: that option, with which it is false, see `c14_filled` and `Findings`.) -/
theorem c14_childless_partial {o : ParseOptions} {s : Str} {ps : List PNode} (hc : complete s o) (h : docOf s o = some ps)
    (ho : o.autoFixUnescapedLt = false)
    {n : Str} {as : List Attr} {sc : Bool} {ct : Option Str} {ks : List PNode} {e : Option Str}
    (hp : Occurs (.elem n as sc ct ks e) ps) :
    (isVoid n → ct = none ∧ ks = []) ∧ (isRaw n → ks = []) ∧ (ct ≠ none → isRaw n) := by
  obtain ⟨ctx, parent, h2⟩ := okNode_occurs (docOf_ok hc h) hp
  simp only [okNode] at h2
  obtain ⟨_, _, h2⟩ := h2
  have hole : holeOk o ks → ks = [] := by
    rintro (q | ⟨q, _⟩)
    · exact q
    · rw [ho] at q; cases q
  by_cases hs : sc = true
  · rw [if_pos hs] at h2
    exact ⟨fun _ => ⟨h2.1, h2.2.1⟩, fun _ => h2.2.1, fun q => absurd h2.1 q⟩
  · rw [if_neg hs] at h2
    by_cases hv : isVoid n
    · rw [if_pos hv] at h2
      exact ⟨fun _ => ⟨h2.1, hole h2.2.1⟩, fun _ => hole h2.2.1, fun q => absurd h2.1 q⟩
    · rw [if_neg hv] at h2
      by_cases hr : isRaw n
      · rw [if_pos hr] at h2
        exact ⟨fun q => absurd q hv, fun _ => hole h2.1, fun _ => hr⟩
      · rw [if_neg hr] at h2
        exact ⟨fun q => absurd q hv, fun q => absurd q hr, fun q => absurd h2.1 q⟩

/-- With `auto_fix_unescaped_lt` the only possible child of a void or raw-text element is one text node. -/
theorem c14_filled {o : ParseOptions} {s : Str} {ps : List PNode} (hc : complete s o) (h : docOf s o = some ps)
    {n : Str} {as : List Attr} {sc : Bool} {ct : Option Str} {ks : List PNode} {e : Option Str}
    (hp : Occurs (.elem n as sc ct ks e) ps) (hn : isVoid n ∨ isRaw n) : ks = [] ∨ ∃ w, ks = [.text w] := by
  obtain ⟨ctx, parent, h2⟩ := okNode_occurs (docOf_ok hc h) hp
  simp only [okNode] at h2
  obtain ⟨_, _, h2⟩ := h2
  have hole : holeOk o ks → ks = [] ∨ ∃ w, ks = [.text w] := by
    rintro (q | ⟨_, w, q, _⟩)
    · exact .inl q
    · exact .inr ⟨w, q⟩
  by_cases hs : sc = true
  · rw [if_pos hs] at h2; exact .inl h2.2.1
  · rw [if_neg hs] at h2
    by_cases hv : isVoid n
    · rw [if_pos hv] at h2; exact hole h2.2.1
    · rw [if_neg hv, if_pos (hn.resolve_left hv)] at h2; exact hole h2.1

/-- The leaves: texts, comments, CDATA sections and doctypes have no children, and nothing else but elements occurs. -/
theorem c14_leaves {o : ParseOptions} {s : Str} {d : Doc} (hc : complete s o) (h : Doc.parse s o = .ok d) :
    ∃ t, d.tree? = some t ∧ t.data.nodeType = .abstractRoot ∧ t.endTag = none ∧ Tree.shapeds t.kids := by
  obtain ⟨a, _, _, t, h1, _, h2⟩ := parse_machine_complete h hc
  exact ⟨t, h1, h2⟩

/-- Both cases occur. -/
example : docOf "<br><script><p></script><title></title>".toList {} = some [.elem "br".toList [] false none [] none,
    .elem "script".toList [] false (some "<p>".toList) [] (some "script".toList),
    .elem "title".toList [] false (some []) [] (some "title".toList)] := by decide +kernel
example : docOf "<br>< <b></b>".toList { autoFixUnescapedLt := true } = some
    [.elem "br".toList [] false none [.text "&lt; ".toList] none, .elem "b".toList [] false none [] (some "b".toList)] := by
  decide +kernel

/-- **C17**, second half: without auto-fix options no two texts are adjacent; more exactly it holds unless
`auto_fix_unexpected_endtag` is on and `auto_fix_unclosed_tag` off. -/
theorem c17_maximal {o : ParseOptions} {s : Str} {ps : List PNode} (hc : complete s o) (h : docOf s o = some ps)
    (ho : o.autoFixUnexpectedEndtag = false ∨ o.autoFixUnclosedTag = true) {ks xs ys : List PNode} {p q : PNode}
    (hk : Siblings ks ps) (he : ks = xs ++ p :: q :: ys) : ¬ (isText p = true ∧ isText q = true) := by
  rintro ⟨h1, h2⟩
  obtain ⟨anc, hk⟩ := hk
  have e : xs ++ p :: q :: ys = (xs ++ [p]) ++ [q] ++ ys := by simp
  rcases okNodes_at (docOf_ok hc h) hk with ⟨ctx, hk⟩ | rfl | ⟨_, w, rfl, _⟩
  · rw [he, e] at hk
    have := okNodes_append_left hk
    rw [okNodes_snoc] at this
    have := this.2.1 ho h2 p (by simp)
    rw [h1] at this; cases this
  · simp at he
  · have := congrArg List.length he
    simp at this
    omega

/-- The hypothesis is needed. -/
example : docOf "a</b>c".toList { autoFixUnexpectedEndtag := true } = some [.text "a".toList, .text "c".toList] := by
  decide +kernel

/-- A text next to other nodes. -/
example : docOf "a<br>b<!--c-->d".toList {} = some [.text "a".toList, .elem "br".toList [] false none [] none,
    .text "b".toList, .comment "c".toList, .text "d".toList] := by decide +kernel

theorem Spec.At.under {anc : List Str} {qs ks ps : List PNode} {n : Str} {as : List Attr} {s : Bool} {ct e : Option Str}
    (h : At anc qs ks) (hp : .elem n as s ct ks e ∈ ps) : ∃ anc', At anc' qs ps := by
  induction h with
  | root => exact ⟨_, At.root.child hp⟩
  | child _ hq ih => obtain ⟨x, hx⟩ := ih hp; exact ⟨_, hx.child hq⟩

mutual
/-- A property of all nodes inside. -/
def allIn (P : PNode → Prop) : PNode → Prop
  | .elem n as s ct ks e => P (.elem n as s ct ks e) ∧ allsIn P ks
  | p => P p

/-- The same for lists. -/
def allsIn (P : PNode → Prop) : List PNode → Prop
  | [] => True
  | p :: ps => allIn P p ∧ allsIn P ps
end

theorem allIn_of_occurs {P : PNode → Prop} :
    (∀ p ps, p ∈ ps → (∀ q, Occurs q ps → P q) → allIn P p) ∧
    (∀ ks, (∀ q, Occurs q ks → P q) → allsIn P ks) := by
  have lift : ∀ {n as s ct ks e ps}, PNode.elem n as s ct ks e ∈ ps → (∀ q, Occurs q ps → P q) → ∀ q, Occurs q ks → P q := by
    rintro n as s ct ks e ps hp h q ⟨qs, ⟨anc, hq⟩, hm⟩
    obtain ⟨anc', hq'⟩ := hq.under hp
    exact h q ⟨qs, ⟨anc', hq'⟩, hm⟩
  have here : ∀ {p ps}, p ∈ ps → (∀ q, Occurs q ps → P q) → P p := fun hp h => h _ ⟨_, ⟨[], .root⟩, hp⟩
  have key := PNode.induct (P := fun p => ∀ ps, p ∈ ps → (∀ q, Occurs q ps → P q) → allIn P p)
    (Q := fun ks => ∀ ps, (∀ k ∈ ks, k ∈ ps) → (∀ q, Occurs q ps → P q) → allsIn P ks)
    (by intro w ps hp h; simp only [allIn]; exact here hp h)
    (by intro w ps hp h; simp only [allIn]; exact here hp h)
    (by intro w ps hp h; simp only [allIn]; exact here hp h)
    (by intro n a s ps hp h; simp only [allIn]; exact here hp h)
    (by
      intro n a s ct ks e ih ps hp h
      simp only [allIn]
      exact ⟨here hp h, ih ks (fun _ q => q) (lift hp h)⟩)
    (by intro ps _ _; simp only [allsIn])
    (by
      intro p ks h1 h2 ps hk h
      simp only [allsIn]
      exact ⟨h1 ps (hk p (by simp)) h, h2 ps (fun k q => hk k (by simp [q])) h⟩)
  exact ⟨key.1, fun ks h => key.2 ks ks (fun _ q => q) h⟩

/-- An element with a start tag and an end tag has them spelled alike. -/
def tidy : PNode → Prop
  | .elem n _ s _ _ e => s = false → ¬ isVoid n → ∃ e', e = some e' ∧ trimEnd e' = n
  | _ => True

/-- After such nodes one is where one was before, or outside of foreign elements. -/
theorem ctx_tidy : (∀ p, allIn tidy p → ∀ ctx, ctxNode ctx p = ctx ∨ ctxNode ctx p = none) ∧
    (∀ ps, allsIn tidy ps → ∀ ctx, ctxNodes ctx ps = ctx ∨ ctxNodes ctx ps = none) := by
  apply PNode.induct
  · intros; simp only [ctxNode, true_or]
  · intros; simp only [ctxNode, true_or]
  · intros; simp only [ctxNode, true_or]
  · intros; simp only [ctxNode, true_or]
  · intro n as s ct ks e ih h ctx
    simp only [allIn, tidy] at h
    simp only [ctxNode]
    by_cases hx : s = true ∨ isVoid n ∨ isRaw n
    · rw [if_pos hx]; exact .inl rfl
    · rw [if_neg hx]
      simp only [not_or] at hx
      obtain ⟨e', rfl, he⟩ := h.1 (by simpa using hx.1) hx.2.1
      have h2 := ih h.2 (enter ctx n)
      have h3 : ∀ c, leave c e' = c ∨ leave c e' = none := by
        intro c; unfold leave; split
        · exact .inr rfl
        · exact .inl rfl
      cases ctx with
      | some m =>
        rcases h2 with h2 | h2
        · rw [h2]; exact h3 (some m)
        · rw [h2]; right; simp [leave]
      | none =>
        right
        rcases h2 with h2 | h2
        · rw [h2]
          by_cases hf : isForeign n
          · simp [enter, hf, leave, he]
          · simp [enter, hf, leave]
        · rw [h2]; simp [leave]
  · intro _ ctx; simp only [ctxNodes, true_or]
  · intro p ps h1 h2 h ctx
    simp only [allsIn] at h
    simp only [ctxNodes]
    rcases h2 h.2 (ctxNode ctx p) with q | q
    · rw [q]; exact h1 h.1 ctx
    · exact .inr q

theorem allsIn_append {P : PNode → Prop} {xs ys : List PNode} : allsIn P (xs ++ ys) ↔ allsIn P xs ∧ allsIn P ys := by
  induction xs with
  | nil => simp only [List.nil_append, allsIn, true_and]
  | cons x xs ih => simp only [List.cons_append, allsIn, ih, and_assoc]

/-- Where one counts as being inside a foreign element, one is inside a foreign element. -/
theorem ctx_inside {o : ParseOptions} {anc : List Str} {ks ps : List PNode} (h : okNodes o none none ps)
    (ht : allsIn tidy ps) (hk : At anc ks ps) :
    (∃ ctx, okNodes o ctx anc.head? ks ∧ allsIn tidy ks ∧ (ctx ≠ none → ∃ n ∈ anc, isForeign n)) ∨ holeOk o ks := by
  induction hk with
  | root => exact .inl ⟨none, h, ht, by simp⟩
  | child hk hp ih =>
    rename_i anc ks ps n as s ct ks' e
    rcases ih h ht with ⟨ctx, ih, ih2, ih3⟩ | ih
    · obtain ⟨xs, ys, hxy, h2⟩ := okNodes_mem ih hp
      rw [hxy, allsIn_append] at ih2
      simp only [allsIn, allIn] at ih2
      obtain ⟨ih2, ⟨_, ih4⟩, _⟩ := ih2
      simp only [okNode] at h2
      obtain ⟨_, _, h2⟩ := h2
      split at h2
      · rw [h2.2.1]; exact .inr (.inl rfl)
      · split at h2
        · exact .inr h2.2.1
        · split at h2
          · exact .inr h2.1
          · refine .inl ⟨_, h2.2.2, ih4, ?_⟩
            intro hc
            have up : ctxNodes ctx xs ≠ none → ∃ m ∈ n :: anc, isForeign m := by
              intro q
              obtain ⟨m, h5, h6⟩ := ih3 (by
                rcases ctx_tidy.2 xs ih2 ctx with r | r
                · rw [← r]; exact q
                · exact absurd r q)
              exact ⟨m, List.mem_cons_of_mem _ h5, h6⟩
            cases hx : ctxNodes ctx xs with
            | some m => exact up (by rw [hx]; simp)
            | none =>
              rw [hx] at hc
              simp only [enter] at hc
              by_cases hf : isForeign n
              · exact ⟨n, List.mem_cons_self, hf⟩
              · rw [if_neg hf] at hc; exact absurd rfl hc
    · rcases ih with rfl | ⟨_, w, rfl, _⟩
      · cases hp
      · simp at hp

/-- **C44** for documents whose end tags are spelled like their start tags (which `case_sensitive_tagname` demands) and
that have no self-closed doctype: without `allow_self_closing`, every self-closed element is void or inside svg or math.
(Missing from the full claim: those two cases, in which it is false, see `Findings`.) -/
theorem c44_selfClosed_partial {o : ParseOptions} {s : Str} {ps : List PNode} (hc : complete s o) (h : docOf s o = some ps)
    (ho : o.allowSelfClosing = false) (hd : ∀ n as, ¬ Occurs (.doctype n as true) ps)
    (hs : o.caseSensitiveTagname = true ∨ ∀ n as ct ks e, Occurs (.elem n as false ct ks (some e)) ps → trimEnd e = n)
    {anc : List Str} {ks : List PNode} (hk : At anc ks ps) {n : Str} {as : List Attr} {ct : Option Str} {ks' : List PNode}
    {e : Option Str} (hp : .elem n as true ct ks' e ∈ ks) : isVoid n ∨ ∃ m ∈ anc, isForeign m := by
  have hall : allsIn tidy ps := by
    refine allIn_of_occurs.2 ps ?_
    intro q hq
    cases q with
    | elem n as sc ct ks e =>
      intro h1 h2
      have := c13_balanced_partial hc h hd hq
      rw [if_neg (by rw [h1]; simp [h2])] at this
      obtain ⟨e', rfl, h4⟩ := this
      refine ⟨e', rfl, ?_⟩
      rcases hs with k | k
      · unfold closes at h4; rw [k] at h4; simpa using h4
      · subst h1; exact k _ _ _ _ _ hq
    | text => trivial
    | comment => trivial
    | cdata => trivial
    | doctype => trivial
  rcases ctx_inside (docOf_ok hc h) hall hk with ⟨ctx, h1, h2, h3⟩ | rfl | ⟨_, w, rfl, _⟩
  · obtain ⟨xs, ys, hxy, h5⟩ := okNodes_mem h1 hp
    rw [hxy, allsIn_append] at h2
    simp only [okNode, if_true] at h5
    rcases h5.2.2.2.2.2 with q | q | q
    · rw [ho] at q; cases q
    · exact .inl q
    · refine .inr (h3 ?_)
      rcases ctx_tidy.2 xs h2.1 ctx with r | r
      · rw [← r]; exact q
      · exact absurd r q
  · cases hp
  · simp at hp

/-- Self-closed elements, and where they are refused. -/
example : docOf "<br/><svg><g/></svg>".toList {} = some [.elem "br".toList [] true none [] none,
      .elem "svg".toList [] false none [.elem "g".toList [] true none [] none] (some "svg".toList)] ∧
    docOf "<svg></svg><g/>".toList {} = none := by decide +kernel

/-- Neither hypothesis can be dropped. -/
example : docOf "<svg></SVG><g/>".toList {} = some [.elem "svg".toList [] false none [] (some "SVG".toList),
      .elem "g".toList [] true none [] none] ∧
    docOf "<svg><!DOCTYPE a/><g/>".toList {} = some [.elem "svg".toList [] false none
      [.doctype "DOCTYPE".toList [{ key := some "a".toList }] true] none, .elem "g".toList [] true none [] none] := by
  decide +kernel

end Rphtml
