import Verif.Props.Minify
import Verif.Props.RenderOpts
import Verif.Props.RoundTrip
import Verif.Proofs.WfDec
import Verif.Spec.Pre

/-!
# C29: minify_spaces and pre
-/

namespace Rphtml
open Spec

/-- The collapsing loop drops every whitespace character that follows another one. -/
theorem minified_eq (s : Str) : minified s = collapse s := by
  have key : ∀ (s : Str) (p : Option Char), minifyLoop (p.any isWs) s =
      ((s.zip (p :: s.map some)).filter fun x => !(x.1 ∈ ws && x.2.any (· ∈ ws))).map Prod.fst := by
    intro s
    induction s with
    | nil => intro p; cases p <;> simp [minifyLoop]
    | cons c s ih =>
      intro p
      have h := ih (some c)
      simp only [Option.any_some] at h
      simp only [List.map_cons, List.zip_cons_cons]
      by_cases hc : isWs c = true
      · rw [hc] at h
        have hc' := (isWs_mem c).1 hc
        cases p with
        | none =>
          simp only [minifyLoop, hc, if_true, Option.any_none, Bool.false_eq_true, if_false]
          rw [List.filter_cons_of_pos (by simp), List.map_cons, ← h]
        | some p =>
          by_cases hp : isWs p = true
          · have hp' := (isWs_mem p).1 hp
            simp only [minifyLoop, hc, if_true, Option.any_some, hp]
            rw [List.filter_cons_of_neg (by simp [hc', hp']), ← h]
          · have hp' : p ∉ ws := fun q => hp ((isWs_mem p).2 q)
            simp only [minifyLoop, hc, if_true, Option.any_some, hp, Bool.false_eq_true, if_false]
            rw [List.filter_cons_of_pos (by simp [hp']), List.map_cons, ← h]
      · have hc' : c ∉ ws := fun q => hc ((isWs_mem c).2 q)
        simp only [Bool.not_eq_true] at hc
        rw [hc] at h
        have : ∀ b, minifyLoop b (c :: s) = c :: minifyLoop false s := by
          intro b; simp only [minifyLoop, hc, Bool.false_eq_true, if_false]
        rw [this, List.filter_cons_of_pos (by simp [hc']), List.map_cons, ← h]
  exact key s none

theorem isPre_iff (n : Str) : isEqualChars n preTagName (some .lower) = true ↔ isPre n := by
  rw [isEqualChars_lower _ _ (by decide), lowerAll_eq_fold]
  unfold isPre sameName
  have : fold ['p', 'r', 'e'] = preTagName := by decide
  rw [this]

theorem isPre_iff' (n : Str) : isEqualChars n preTagName (some .lower) = decide (isPre n) := by
  rw [Bool.eq_iff_iff, isPre_iff]; simp

/-- Rendering a node outside of every `pre`, or inside of one. -/
theorem buildNode_squeeze (lib : EntityLib) {o : RenderOptions} (hm : o.minifySpaces = true) (hd : o.decodeEntity = false)
    (n : NodeD) (st : RenderStatus) :
    buildNode lib o n st = buildNode lib { o with minifySpaces := false } (if st.isInPre then n else squeeze n) st := by
  obtain ⟨ix, ty, b, e, ct, tm⟩ := n
  cases hp : st.isInPre with
  | true =>
    simp only [if_true]
    cases ty with
    | text => cases ct <;> simp [buildNode, buildText, hp]
    | spacesBetweenTag => simp [buildNode, hp]
    | _ => simp [buildNode]
  | false =>
    simp only [Bool.false_eq_true, if_false]
    cases ty with
    | text =>
      cases ct with
      | none => simp [buildNode, squeeze]
      | some w => simp [buildNode, buildText, squeeze, hp, hm, hd, ← minified_eq, minified]
    | spacesBetweenTag => simp [buildNode, squeeze, hp, hm]
    | _ => simp [buildNode, squeeze]

theorem pre_status (lib : EntityLib) (o : RenderOptions) {n : NodeD} {st st' : RenderStatus} {out : Str}
    (ht : n.nodeType ≠ .tagEnd) (h : buildNode lib o n st = .ok (st', out)) :
    st'.isInPre = (st.isInPre || startsPre n) ∧ st'.root = st.root := by
  obtain ⟨ix, ty, b, e, ct, tm⟩ := n
  cases ty with
  | tagEnd => exact absurd rfl ht
  | tag =>
    cases tm with
    | none => simp [buildNode] at h
    | some m =>
      simp only [buildNode, Except.ok.injEq, Prod.mk.injEq] at h
      rw [← h.1]
      refine ⟨?_, rfl⟩
      simp [startsPre, isPre_iff']
  | text =>
    cases ct with
    | none => simp [buildNode] at h
    | some w =>
      simp only [buildNode, Except.ok.injEq, Prod.mk.injEq] at h
      rw [← h.1]; simp [startsPre]
  | spacesBetweenTag =>
    simp only [buildNode] at h
    split at h
    · simp only [Except.ok.injEq, Prod.mk.injEq] at h
      rw [← h.1]; simp [startsPre]
    · cases ct with
      | none => simp at h
      | some w =>
        simp only [Except.ok.injEq, Prod.mk.injEq] at h
        rw [← h.1]; simp [startsPre]
  | htmlDoctype =>
    cases tm with
    | none => simp [buildNode] at h
    | some m =>
      simp only [buildNode, Except.ok.injEq, Prod.mk.injEq] at h
      rw [← h.1]; simp [startsPre]
  | comment =>
    simp only [buildNode] at h
    split at h
    · split at h <;>
      · simp only [Except.ok.injEq, Prod.mk.injEq] at h
        rw [← h.1]; simp [startsPre]
    · simp only [Except.ok.injEq, Prod.mk.injEq] at h
      rw [← h.1]; simp [startsPre]
  | xmlCdata =>
    simp only [buildNode, Except.ok.injEq, Prod.mk.injEq] at h
    rw [← h.1]; simp [startsPre]
  | abstractRoot =>
    simp only [buildNode, Except.ok.injEq, Prod.mk.injEq] at h
    rw [← h.1]; simp [startsPre]

theorem end_status (lib : EntityLib) (o : RenderOptions) {n : NodeD} {st st' : RenderStatus} {out : Str} {w : Str}
    (ht : n.nodeType = .tagEnd) (hc : n.content = some w) (h : buildNode lib o n st = .ok (st', out)) :
    st'.isInPre = (st.isInPre && !decide (isPre (trimEnd w))) ∧ st'.root = st.root := by
  simp only [buildNode, ht, hc, Except.ok.injEq, Prod.mk.injEq, isPre_iff', charsTrimEnd_eq] at h
  rw [← h.1]
  obtain ⟨ty, b, r⟩ := st
  cases b <;> by_cases q : isPre (trimEnd w) <;> simp [q]

/-- Trees in which `pre` elements are well scoped are rendered as if their texts had been collapsed first, and the renderer
leaves them in the state in which it found them. -/
theorem squeeze_render (lib : EntityLib) {o : RenderOptions} (hm : o.minifySpaces = true) (hd : o.decodeEntity = false) :
    (∀ t : Tree, t.shaped → ∀ st : RenderStatus, preScoped st.isInPre t.pnode →
      buildTree lib o t st = buildTree lib { o with minifySpaces := false } (squeezeTree st.isInPre t) st ∧
      ∀ st' out, buildTree lib o t st = .ok (st', out) → st'.isInPre = st.isInPre ∧ st'.root = st.root) ∧
    (∀ ts : List Tree, Tree.shapeds ts → ∀ st : RenderStatus, preScopeds st.isInPre (Tree.pnodes ts) →
      buildForest lib o ts st = buildForest lib { o with minifySpaces := false } (squeezeForest st.isInPre ts) st ∧
      ∀ st' out, buildForest lib o ts st = .ok (st', out) → st'.isInPre = st.isInPre ∧ st'.root = st.root) := by
  have hend : ∀ (e : Option NodeD) (st : RenderStatus), (∀ x, e = some x → x.nodeType = .tagEnd ∧ x.content ≠ none) →
      buildEnd lib o e st = buildEnd lib { o with minifySpaces := false } e st := by
    intro e st h
    cases e with
    | none => rfl
    | some x => simp only [buildEnd, buildNode, (h x rfl).1]
  have hends : ∀ (e : Option NodeD) (st st' : RenderStatus) (out : Str), (∀ x, e = some x → x.nodeType = .tagEnd ∧ x.content ≠ none) →
      buildEnd lib o e st = .ok (st', out) →
      st'.isInPre = (st.isInPre && !(e.bind NodeD.content).any fun w => decide (isPre (trimEnd w))) ∧ st'.root = st.root := by
    intro e st st' out h hb
    cases e with
    | none =>
      simp only [buildEnd, Except.ok.injEq, Prod.mk.injEq] at hb
      rw [← hb.1]; simp
    | some x =>
      obtain ⟨h1, h2⟩ := h x rfl
      cases hc : x.content with
      | none => exact absurd hc h2
      | some w =>
        have := end_status lib o h1 hc hb
        simpa [hc] using this
  -- a node that is not an element
  have hleaf : ∀ (d : NodeD) (e : Option NodeD) (cs : Option (List Tree)), (Tree.mk d e cs).shaped → d.nodeType ≠ .tag →
      e = none ∧ cs = none ∧ d.nodeType ≠ .tagEnd ∧ startsPre d = false := by
    intro d e cs hs ht
    unfold Tree.shaped at hs
    unfold startsPre
    generalize hty : d.nodeType = ty at hs ht ⊢
    cases ty <;> simp only at hs <;> first | exact absurd rfl ht | exact ⟨hs.2.1, hs.2.2, by simp, by simp⟩
  -- an element
  have htag : ∀ (d : NodeD) (e : Option NodeD) (cs : Option (List Tree)) (inPre : Bool), d.nodeType = .tag → (Tree.mk d e cs).shaped →
      preScoped inPre (Tree.mk d e cs).pnode →
      (∀ x, e = some x → x.nodeType = .tagEnd ∧ x.content ≠ none) ∧
      ((inPre || startsPre d) && !(e.bind NodeD.content).any fun w => decide (isPre (trimEnd w))) = inPre ∧
      ∀ ts, cs = some ts → Tree.shapeds ts ∧ preScopeds (inPre || startsPre d) (Tree.pnodes ts) := by
    intro d e cs inPre ht hs hp
    unfold Tree.shaped at hs
    simp only [ht] at hs
    refine ⟨hs.2.1, ?_⟩
    have hsp : startsPre d = decide (isPre (d.tmeta.getD {}).name) := by simp [startsPre, ht]
    unfold Tree.pnode at hp
    simp only [ht, preScoped] at hp
    rw [hsp]
    by_cases hpre : isPre (d.tmeta.getD {}).name
    · simp only [if_pos hpre] at hp
      obtain ⟨rfl, ⟨e', h1, h2⟩, h3⟩ := hp
      refine ⟨by simp [h1, h2], ?_⟩
      rintro ts rfl
      simp only [hpre, decide_true, Bool.or_true]
      exact ⟨hs.2.2, h3⟩
    · simp only [if_neg hpre] at hp
      refine ⟨?_, ?_⟩
      · cases he : e.bind NodeD.content with
        | none => simp [hpre]
        | some w => simp [hpre, hp.1 w he]
      · rintro ts rfl
        simp only [hpre, decide_false, Bool.or_false]
        exact ⟨hs.2.2, hp.2⟩
  have hsq : ∀ d : NodeD, d.nodeType = .tag → ∀ b : Bool, (if b then d else squeeze d) = d := by
    intro d h b; cases b <;> simp [squeeze, h]
  apply Tree.induct
  · intro d e hs st hp
    simp only [squeezeTree, buildTree, buildNode_squeeze lib hm hd d st]
    by_cases ht : d.nodeType = .tag
    · obtain ⟨h1, h2, _⟩ := htag d e none st.isInPre ht hs hp
      refine ⟨by simp only [hend _ _ h1], ?_⟩
      intro st' out h
      rw [← buildNode_squeeze lib hm hd d st] at h
      cases hb : buildNode lib o d st with
      | error s => rw [hb] at h; cases h
      | ok x =>
        obtain ⟨st1, out1⟩ := x
        rw [hb] at h
        simp only [Except.bind_ok'] at h
        obtain ⟨q1, q2⟩ := pre_status lib o (by rw [ht]; simp) hb
        cases hb2 : buildEnd lib o e st1 with
        | error s => rw [hb2] at h; cases h
        | ok y =>
          obtain ⟨st2, out2⟩ := y
          rw [hb2] at h
          simp only [Except.bind_ok', Except.ok.injEq, Prod.mk.injEq] at h
          obtain ⟨q3, q4⟩ := hends e st1 st2 out2 h1 hb2
          rw [← h.1, q3, q4, q1, q2]
          exact ⟨h2, rfl⟩
    · obtain ⟨rfl, _, h3, h4⟩ := hleaf d e none hs ht
      refine ⟨rfl, ?_⟩
      intro st' out h
      rw [← buildNode_squeeze lib hm hd d st] at h
      cases hb : buildNode lib o d st with
      | error s => rw [hb] at h; cases h
      | ok x =>
        obtain ⟨st1, out1⟩ := x
        rw [hb] at h
        simp only [Except.bind_ok', buildEnd, Except.ok.injEq, Prod.mk.injEq] at h
        obtain ⟨q1, q2⟩ := pre_status lib o h3 hb
        rw [← h.1, q1, q2, h4]; simp
  · intro d e ts ih hs st hp
    by_cases ht : d.nodeType = .tag
    · obtain ⟨h1, h2, h3⟩ := htag d e (some ts) st.isInPre ht hs hp
      obtain ⟨h4, h5⟩ := h3 ts rfl
      simp only [squeezeTree, buildTree, hsq d ht]
      rw [buildNode_squeeze lib hm hd d st, hsq d ht]
      cases hb : buildNode lib { o with minifySpaces := false } d st with
      | error s => exact ⟨rfl, fun _ _ h => by cases h⟩
      | ok x =>
        obtain ⟨st1, out1⟩ := x
        have hb' : buildNode lib o d st = .ok (st1, out1) := by rw [buildNode_squeeze lib hm hd d st, hsq d ht, hb]
        obtain ⟨q1, q2⟩ := pre_status lib o (by rw [ht]; simp) hb'
        simp only [Except.bind_ok']
        by_cases hr : st1.root = true
        · obtain ⟨k1, k2⟩ := ih h4 { st1 with root := false } (by simp only [q1]; exact h5)
          simp only at k1
          rw [← q1]
          simp only [if_pos hr, ← k1, hend _ _ h1]
          refine ⟨trivial, ?_⟩
          intro st' out h
          cases hb2 : buildForest lib o ts { st1 with root := false } with
          | error s => simp only [hb2] at h; cases h
          | ok y =>
            obtain ⟨st2, out2⟩ := y
            simp only [hb2, Except.bind_ok', ← hend _ _ h1] at h
            cases hb3 : buildEnd lib o e st1 with
            | error s => rw [hb3] at h; cases h
            | ok z =>
              obtain ⟨st3, out3⟩ := z
              rw [hb3] at h
              simp only [Except.bind_ok', Except.ok.injEq, Prod.mk.injEq] at h
              obtain ⟨q3, q4⟩ := hends e st1 st3 out3 h1 hb3
              rw [← h.1, q3, q4, q1, q2]
              exact ⟨h2, rfl⟩
        · obtain ⟨k1, k2⟩ := ih h4 st1 (by rw [q1]; exact h5)
          rw [q1] at k1
          simp only [if_neg hr, ← k1, hend _ _ h1]
          refine ⟨trivial, ?_⟩
          intro st' out h
          cases hb2 : buildForest lib o ts st1 with
          | error s => rw [hb2] at h; cases h
          | ok y =>
            obtain ⟨st2, out2⟩ := y
            obtain ⟨r1, r2⟩ := k2 st2 out2 hb2
            simp only [hb2, Except.bind_ok', ← hend _ _ h1] at h
            cases hb3 : buildEnd lib o e st2 with
            | error s => rw [hb3] at h; cases h
            | ok z =>
              obtain ⟨st3, out3⟩ := z
              rw [hb3] at h
              simp only [Except.bind_ok', Except.ok.injEq, Prod.mk.injEq] at h
              obtain ⟨q3, q4⟩ := hends e st2 st3 out3 h1 hb3
              rw [← h.1, q3, q4, r1, r2, q1, q2]
              exact ⟨h2, rfl⟩
    · obtain ⟨_, h, _⟩ := hleaf d e (some ts) hs ht
      cases h
  · intro _ st _
    refine ⟨rfl, ?_⟩
    intro st' out h
    simp only [buildForest, Except.ok.injEq, Prod.mk.injEq] at h
    rw [← h.1]; exact ⟨rfl, rfl⟩
  · intro t ts h1 h2 hs st hp
    obtain ⟨k1, k2⟩ := h1 hs.1 st hp.1
    simp only [buildForest, squeezeForest, ← k1]
    cases hb : buildTree lib o t st with
    | error s => exact ⟨rfl, fun _ _ h => by cases h⟩
    | ok x =>
      obtain ⟨st1, out1⟩ := x
      obtain ⟨q1, q2⟩ := k2 st1 out1 hb
      have hp2 : preScopeds st1.isInPre (Tree.pnodes ts) := by rw [q1]; exact hp.2
      obtain ⟨k3, k4⟩ := h2 hs.2 st1 hp2
      simp only [Except.bind_ok']
      rw [q1] at k3
      rw [← k3]
      refine ⟨rfl, ?_⟩
      cases hb2 : buildForest lib o ts st1 with
      | error s => intro _ _ h; cases h
      | ok y =>
        obtain ⟨st2, out2⟩ := y
        obtain ⟨q3, q4⟩ := k4 st2 out2 hb2
        intro st' out h
        simp only [Except.bind_ok', Except.ok.injEq, Prod.mk.injEq] at h
        rw [← h.1, q3, q4, q1, q2]; exact ⟨rfl, rfl⟩

theorem closes_pre {b : Bool} {n e : Str} (h : closes b n e) : isPre (trimEnd e) ↔ isPre n := by
  have : sameName (trimEnd e) n := by
    unfold closes at h
    split at h
    · rw [h]; rfl
    · exact h
  unfold isPre
  unfold sameName at this ⊢
  rw [this]

theorem pre_not_void {n : Str} (h : isPre n) : ¬ isVoid n ∧ ¬ isRaw n := by
  unfold isPre sameName at h
  unfold isVoid isRaw
  rw [h]
  decide

/-- In a well-formed document `pre` elements are well scoped if they are neither nested nor self-closed. -/
theorem preScoped_of_wf {o : ParseOptions} :
    (∀ p ctx par b, wfNode o ctx par p → preApart b p → preScoped b p) ∧
    (∀ ps ctx par b, wfNodes o ctx par ps → preAparts b ps → preScopeds b ps) := by
  apply PNode.induct
  · intro w ctx par b _ _; simp only [preScoped]
  · intro w ctx par b _ _; simp only [preScoped]
  · intro w ctx par b _ _; simp only [preScoped]
  · intro n as s ctx par b _ _; simp only [preScoped]
  · intro n as s ct ks e ih ctx par b hw ha
    simp only [wfNode] at hw
    simp only [preApart] at ha
    simp only [preScoped]
    have hw := hw.2.2
    by_cases hp : isPre n
    · simp only [if_pos hp] at ha ⊢
      obtain ⟨q1, q2⟩ := pre_not_void hp
      obtain ⟨rfl, rfl, h3⟩ := ha
      simp only [Bool.false_eq_true, if_false, if_neg q1, if_neg q2] at hw
      obtain ⟨_, ⟨e', h4, h5⟩, h6⟩ := hw
      exact ⟨rfl, ⟨e', h4, (closes_pre h5).2 hp⟩, ih _ _ _ h6 h3⟩
    · simp only [if_neg hp] at ha ⊢
      by_cases q1 : s = true
      · simp only [if_pos q1] at hw
        obtain ⟨_, rfl, rfl, _⟩ := hw
        exact ⟨by simp, by simp only [preScopeds]⟩
      · simp only [if_neg q1] at hw
        by_cases q2 : isVoid n
        · simp only [if_pos q2] at hw
          obtain ⟨_, rfl, rfl⟩ := hw
          exact ⟨by simp, by simp only [preScopeds]⟩
        · simp only [if_neg q2] at hw
          by_cases q3 : isRaw n
          · simp only [if_pos q3] at hw
            obtain ⟨rfl, w, e', _, rfl, h5, _⟩ := hw
            refine ⟨?_, by simp only [preScopeds]⟩
            intro e'' he
            cases he
            exact fun k => hp ((closes_pre h5).1 k)
          · simp only [if_neg q3] at hw
            obtain ⟨_, ⟨e', rfl, h5⟩, h6⟩ := hw
            refine ⟨?_, ih _ _ _ h6 ha⟩
            intro e'' he
            cases he
            exact fun k => hp ((closes_pre h5).1 k)
  · intro ctx par b _ _; simp only [preScopeds]
  · intro p ps h1 h2 ctx par b hw ha
    simp only [wfNodes] at hw
    simp only [preAparts] at ha
    simp only [preScopeds]
    exact ⟨h1 _ _ _ hw.1 ha.1, h2 _ _ _ hw.2.2 ha.2⟩

/-- **C29** for documents in which every `pre` element has its own end tag and `pre` elements are not nested: with
`minify_spaces` (and any other options but `decode_entity` and `inner_html`) the document is rendered as if the texts outside
of every `pre` element, and no others, had been collapsed first. -/
theorem c29_scoped_partial (lib : EntityLib) (o : RenderOptions) (t : Tree) (hroot : t.data.nodeType = .abstractRoot)
    (hend : t.endTag = none) (hshape : Tree.shapeds t.kids) (hpre : preScopeds false t.doc)
    (hm : o.minifySpaces = true) (hd : o.decodeEntity = false) (hi : o.innerHtml = false) :
    build lib t o false = build lib (squeezeTree false t) { o with minifySpaces := false } false := by
  obtain ⟨n, e, cs⟩ := t
  simp only [Tree.data] at hroot
  simp only [Tree.endTag] at hend
  subst hend
  have hb : ∀ (o : RenderOptions) (st : RenderStatus), buildNode lib o n st = .ok (st, []) := by
    intro o st; unfold buildNode; simp only [hroot]
  have hsq : squeeze n = n := by unfold squeeze; simp only [hroot]
  have hsp : startsPre n = false := by unfold startsPre; rw [hroot]; simp
  unfold build innerTypeOf buildTarget
  simp only [hi, Bool.false_eq_true, if_false, reduceCtorEq, or_self]
  cases cs with
  | none => simp only [squeezeTree, hsq, buildTree, hb, Except.bind_ok', buildEnd, Bool.false_eq_true, if_false]
  | some ts =>
    have := ((squeeze_render lib hm hd).2 ts hshape { innerType := .none, root := false } hpre).1
    simp only [hi] at this
    simp only [squeezeTree, hsq, hsp, buildTree, hb, Except.bind_ok', buildEnd, Bool.false_eq_true, if_false, if_true, Bool.or_false, this]

/-- **C29** for parsed documents: the scoping condition only excludes `pre` elements that are nested or self-closed. -/
theorem c29_parsed_partial (lib : EntityLib) {po : ParseOptions} {s : Str} {d : Doc} {t : Tree} (o : RenderOptions)
    (hs : Doc.parse s po = .ok d) (ht : d.tree? = some t) (hc : po.autoFixUnclosedTag = false) (hw : wfDoc po t.doc)
    (hpre : preAparts false t.doc) (hm : o.minifySpaces = true) (hd : o.decodeEntity = false) (hi : o.innerHtml = false) :
    d.render lib o = build lib (squeezeTree false t) { o with minifySpaces := false } false := by
  obtain ⟨a, _, _, t', k1, _, k3, k4, k5⟩ := parse_machine_strict hs hc
  rw [ht] at k1
  cases k1
  unfold Doc.render
  rw [ht]
  exact c29_scoped_partial lib o t k3 k4 k5 (preScoped_of_wf.2 _ _ _ _ hw hpre) hm hd hi

/-- Texts before, inside (also in a nested element) and after a `pre` element. -/
example : rendersTo "<p>a  b</p><PRE>c  <i>d  e</i></pre >  f  g" "<p>a b</p><PRE>c  <i>d  e</i></pre > f g" {} { minifySpaces := true } = true ∧
    (∃ ps, docOf "<p>a  b</p><PRE>c  <i>d  e</i></pre >  f  g".toList {} = some ps ∧ wfDoc {} ps ∧ preAparts false ps) := by
  refine ⟨by decide +kernel, [.elem ['p'] [] false none [.text "a  b".toList] (some ['p']),
    .elem ['P', 'R', 'E'] [] false none [.text "c  ".toList, .elem ['i'] [] false none [.text "d  e".toList] (some ['i'])] (some "pre ".toList),
    .text "  f  g".toList], by decide +kernel, by decide +kernel, ?_⟩
  simp [preAparts, preApart]
  decide

/-- The rest of C29 is false: the end tag of an inner `pre` ends the protection, and a self-closed `pre` never ends it. -/
example : rendersTo "<pre><pre> </pre>a  b</pre>" "<pre><pre> </pre>a b</pre>" {} { minifySpaces := true } = true ∧
    rendersTo "<pre/>a  b" "<pre />a  b" { allowSelfClosing := true } { minifySpaces := true } = true := by decide +kernel

end Rphtml
