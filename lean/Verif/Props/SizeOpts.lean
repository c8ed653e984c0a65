import Verif.Props.Size
import Verif.Props.Inner

/-!
# C58 for all render options
-/

namespace Rphtml
open Spec

/-- The codec does not lengthen a text by decoding it, and no entity has more than `K` characters. -/
def Spec.shortCodec (lib : EntityLib) (K : Nat) : Prop :=
  (∀ w, (lib.decodeAll w).length ≤ w.length) ∧ ∀ c e, lib.inHtmlSet c = true → lib.encodeNamed c = some e → e.length ≤ K

theorem minifyLoop_length : ∀ (w : Str) (b : Bool), (minifyLoop b w).length ≤ w.length
  | [], _ => Nat.le_refl _
  | c :: cs, b => by
    have h1 := minifyLoop_length cs true
    have h2 := minifyLoop_length cs false
    unfold minifyLoop
    repeat' split
    all_goals simp only [List.length_cons]; omega

/-- The characters held back by the decoding loop. -/
def held : Option Str → Nat
  | none => 0
  | some e => e.length + 1

theorem minifyDecode_length (lib : EntityLib) : ∀ (w : Str) (b : Bool) (e : Option Str), (minifyDecodeLoop lib b e w).length ≤ held e + w.length
  | [], b, none => by simp [minifyDecodeLoop, held]
  | [], b, some e => by simp [minifyDecodeLoop, held]
  | c :: cs, b, none => by
    have h1 := minifyDecode_length lib cs b (some [])
    have h2 := minifyDecode_length lib cs b none
    have h3 := minifyDecode_length lib cs true none
    have h4 := minifyDecode_length lib cs false none
    simp only [held, List.length_nil] at h1 h2 h3 h4 ⊢
    unfold minifyDecodeLoop
    repeat' split
    all_goals (simp only [List.length_cons]; omega)
  | c :: cs, b, some e => by
    have h1 := minifyDecode_length lib cs b (some (e ++ [c]))
    have h2 := minifyDecode_length lib cs b none
    simp only [held, List.length_append, List.length_cons, List.length_nil] at h1 h2 ⊢
    unfold minifyDecodeLoop
    repeat' split
    all_goals ((try simp only [List.length_cons, List.length_append, List.length_nil]) <;> omega)

theorem encode_length {lib : EntityLib} {K : Nat} (hk : shortCodec lib K) (h1 : 1 ≤ K) (w : Str) : (writeContentEncode lib w).length ≤ K * w.length := by
  rw [encoded_eq]
  unfold encoded
  induction w with
  | nil => simp
  | cons c cs ih =>
    rw [List.flatMap_cons, List.length_append, List.length_cons, Nat.mul_add, Nat.mul_one]
    have : (if lib.inHtmlSet c = true then (lib.encodeNamed c).getD [c] else [c]).length ≤ K := by
      split
      · rename_i hc
        cases hs : lib.encodeNamed c with
        | none => simpa using h1
        | some e => exact hk.2 c e hc hs
      · simpa using h1
    omega

theorem attr_length (a : Attr) (b : Bool) : (a.build b).length ≤ (a.build false).length := by
  obtain ⟨k, v, q, nq⟩ := a
  cases k <;> cases v <;> cases q <;> cases b <;> cases nq <;> (simp [Attr.build]; try omega)

theorem attrs_length (b : Bool) : ∀ (m : TagMeta), (m.attrsToString b).length ≤ (m.attrsToString false).length := by
  intro m
  unfold TagMeta.attrsToString
  induction m.attrs with
  | nil => simp
  | cons a as ih =>
    have := attr_length a b
    simp only [List.flatMap_cons, List.length_append, List.length_cons]
    omega

theorem trim_length (w : Str) : (charsTrimEnd w).length ≤ w.length := by
  unfold charsTrimEnd
  rw [List.length_take]
  exact Nat.min_le_right _ _

/-- A node rendered with any options, compared to default options. -/
theorem node_length {lib : EntityLib} {K : Nat} (hk : shortCodec lib K) (h2 : 2 ≤ K) {ro : RenderOptions} {n : NodeD} {st st0 : RenderStatus}
    {x y : RenderStatus × Str} (h0 : st0.innerType = .none) (hx : buildNode lib ro n st = .ok x) (hy : buildNode lib {} n st0 = .ok y) :
    x.2.length ≤ K * y.2.length ∧ y.1.innerType = .none := by
  refine ⟨?_, by rw [(buildNode_root (st' := y.1) (out := y.2) hy).2, h0]⟩
  have hle : ∀ {a b : Nat}, a ≤ b → a ≤ K * b := fun {a b} h => Nat.le_trans h (by
    have := Nat.mul_le_mul_right b (show 1 ≤ K by omega)
    omega)
  have hneed : st0.needTag = true := by
    unfold RenderStatus.needTag
    rw [h0]
    simp
  obtain ⟨ix, ty, bg, e, ct, tm⟩ := n
  cases ty
  case text =>
    cases ct with
    | none => cases hx
    | some w =>
      simp only [buildNode, Except.ok.injEq] at hx hy
      rw [← hx, ← hy]
      apply hle
      have e1 : buildText lib {} st0.isInPre w = w := by simp [buildText]
      rw [e1]
      unfold buildText
      repeat' split
      · simpa [held] using minifyDecode_length lib w false none
      · exact minifyLoop_length w false
      · exact hk.1 w
      · exact Nat.le_refl _
  case tag =>
    cases tm with
    | none => cases hx
    | some m =>
      simp only [buildNode, Except.ok.injEq, hneed, if_true, Bool.not_false, Bool.false_and, Bool.and_false, Bool.or_false,
        Bool.false_eq_true, if_false] at hx hy
      rw [← hx, ← hy]
      have hat := attrs_length ro.removeAttrQuote m
      have hopen : ∀ (b : Bool), (if b = true then ['<'] ++ (if (!ro.lowercaseTagname) = true then m.name else lowerAll m.name) ++
          (if (!m.attrs.isEmpty) = true then m.attrsToString ro.removeAttrQuote else []) ++
          (if (m.selfClosed || m.autoFix && ro.alwaysCloseVoid) = true then [' ', '/'] else []) ++ ['>'] else []).length ≤
          2 * (['<'] ++ m.name ++ (if (!m.attrs.isEmpty) = true then m.attrsToString false else []) ++
            (if m.selfClosed = true then [' ', '/'] else []) ++ ['>']).length := by
        intro b
        have e1 : (if (!ro.lowercaseTagname) = true then m.name else lowerAll m.name).length = m.name.length := by
          split <;> simp [lowerAll]
        have e2 : (if (!m.attrs.isEmpty) = true then m.attrsToString ro.removeAttrQuote else []).length ≤
            (if (!m.attrs.isEmpty) = true then m.attrsToString false else []).length := by
          split
          · exact hat
          · exact Nat.le_refl _
        have e3 : (if (m.selfClosed || m.autoFix && ro.alwaysCloseVoid) = true then [' ', '/'] else []).length ≤ 2 := by split <;> simp
        cases b with
        | false => simp
        | true =>
          simp only [if_true, List.length_append, List.length_cons, List.length_nil, e1]
          omega
      have hopen := hopen st.needTag
      rw [List.length_append, List.length_append, Nat.mul_add]
      refine Nat.add_le_add (Nat.le_trans hopen (Nat.mul_le_mul_right _ h2)) ?_
      cases ct with
      | none => simp
      | some w =>
        simp only
        split
        · exact encode_length hk (by omega) w
        · exact hle (Nat.le_refl _)
  case tagEnd =>
    cases ct with
    | none => cases hx
    | some w =>
      simp only [buildNode, Except.ok.injEq, hneed, if_true, Bool.false_eq_true, if_false] at hx hy
      rw [← hx, ← hy]
      apply hle
      have := trim_length w
      simp only
      split
      · simp only [List.length_append, List.length_cons, List.length_nil]
        repeat' split
        all_goals ((try simp only [lowerAll, List.length_map]) <;> omega)
      · simp
  case spacesBetweenTag =>
    cases ct with
    | none => simp [buildNode] at hy
    | some w =>
      simp [buildNode] at hy
      rw [← hy]
      simp only [buildNode] at hx
      apply hle
      split at hx
      · cases hx; simp
      · cases hx; exact Nat.le_refl _
  case htmlDoctype =>
    cases tm with
    | none => cases hx
    | some m =>
      simp only [buildNode, Except.ok.injEq] at hx hy
      rw [← hx, ← hy]
      apply hle
      have := attrs_length ro.removeAttrQuote m
      simp only [List.length_append, List.length_cons, List.length_nil]
      split <;> simp <;> omega
  case comment =>
    simp [buildNode, h0] at hy
    rw [← hy]
    simp only [buildNode] at hx
    apply hle
    repeat' split at hx
    all_goals (cases hx; simp)
    all_goals omega
  case xmlCdata =>
    simp only [buildNode, Except.ok.injEq] at hx hy
    rw [← hx, ← hy]
    exact hle (Nat.le_refl _)
  case abstractRoot =>
    simp only [buildNode, Except.ok.injEq] at hx hy
    rw [← hx, ← hy]
    exact hle (Nat.le_refl _)

theorem buildTree_some {lib : EntityLib} {ro : RenderOptions} {d : NodeD} {e : Option NodeD} {ts : List Tree} {st : RenderStatus}
    {x : RenderStatus × Str} (h : buildTree lib ro (.mk d e (some ts)) st = .ok x) :
    ∃ x1 sf x2 se x3, buildNode lib ro d st = .ok x1 ∧ buildForest lib ro ts sf = .ok x2 ∧ buildEnd lib ro e se = .ok x3 ∧
      x = (x3.1, x1.2 ++ x2.2 ++ x3.2) ∧ sf.innerType = x1.1.innerType ∧ (se = x1.1 ∨ se = x2.1) := by
  simp only [buildTree] at h
  cases h1 : buildNode lib ro d st with
  | error s => rw [h1] at h; cases h
  | ok x1 =>
    rw [h1] at h
    simp only [Except.bind_ok'] at h
    split at h
    · cases h2 : buildForest lib ro ts { x1.1 with root := false } with
      | error s => rw [h2] at h; cases h
      | ok x2 =>
        rw [h2] at h
        simp only [Except.bind_ok'] at h
        cases h3 : buildEnd lib ro e x1.1 with
        | error s => rw [h3] at h; cases h
        | ok x3 =>
          rw [h3] at h
          cases h
          exact ⟨x1, _, x2, _, x3, rfl, h2, h3, rfl, rfl, .inl rfl⟩
    · cases h2 : buildForest lib ro ts x1.1 with
      | error s => rw [h2] at h; cases h
      | ok x2 =>
        rw [h2] at h
        simp only [Except.bind_ok'] at h
        cases h3 : buildEnd lib ro e x2.1 with
        | error s => rw [h3] at h; cases h
        | ok x3 =>
          rw [h3] at h
          cases h
          exact ⟨x1, _, x2, _, x3, rfl, h2, h3, rfl, rfl, .inr rfl⟩

/-- The same for trees. -/
theorem tree_length {lib : EntityLib} {K : Nat} (hk : shortCodec lib K) (h2 : 2 ≤ K) (ro : RenderOptions) :
    (∀ (t : Tree) (st st0 : RenderStatus) (x y : RenderStatus × Str), st0.innerType = .none → buildTree lib ro t st = .ok x →
      buildTree lib {} t st0 = .ok y → x.2.length ≤ K * y.2.length ∧ y.1.innerType = .none) ∧
    (∀ (ts : List Tree) (st st0 : RenderStatus) (x y : RenderStatus × Str), st0.innerType = .none → buildForest lib ro ts st = .ok x →
      buildForest lib {} ts st0 = .ok y → x.2.length ≤ K * y.2.length ∧ y.1.innerType = .none) := by
  have hend : ∀ (e : Option NodeD) (st st0 : RenderStatus) (x y : RenderStatus × Str), st0.innerType = .none → buildEnd lib ro e st = .ok x →
      buildEnd lib {} e st0 = .ok y → x.2.length ≤ K * y.2.length ∧ y.1.innerType = .none := by
    intro e st st0 x y h0 hx hy
    cases e with
    | none => cases hx; cases hy; exact ⟨by simp, h0⟩
    | some n => exact node_length hk h2 h0 hx hy
  have bind_ok : ∀ {α β : Type} {a : RRes α} {f : α → RRes β} {z : β}, (a >>= f) = .ok z → ∃ w, a = .ok w ∧ f w = .ok z := by
    intro α β a f z h
    cases a with
    | error s => cases h
    | ok w => exact ⟨w, rfl, h⟩
  apply Tree.induct
  · intro d e st st0 x y h0 hx hy
    simp only [buildTree] at hx hy
    obtain ⟨x1, a1, hx⟩ := bind_ok hx
    obtain ⟨y1, b1, hy⟩ := bind_ok hy
    obtain ⟨c1, c2⟩ := node_length hk h2 h0 a1 b1
    simp only [Except.bind_ok'] at hx hy
    obtain ⟨x2, a2, hx⟩ := bind_ok hx
    obtain ⟨y2, b2, hy⟩ := bind_ok hy
    obtain ⟨d1, d2⟩ := hend e _ _ _ _ c2 a2 b2
    cases hx; cases hy
    refine ⟨?_, d2⟩
    simp only [List.length_append, Nat.mul_add, List.length_nil]
    omega
  · intro d e ts ih st st0 x y h0 hx hy
    obtain ⟨x1, sf, x2, se, x3, a1, a2, a3, rfl, _, _⟩ := buildTree_some hx
    obtain ⟨y1, sf', y2, se', y3, b1, b2, b3, rfl, b5, b6⟩ := buildTree_some hy
    obtain ⟨c1, c2⟩ := node_length hk h2 h0 a1 b1
    obtain ⟨d1, d2⟩ := ih _ _ _ _ (b5.trans c2) a2 b2
    obtain ⟨e1, e2⟩ := hend e _ _ _ _ (by rcases b6 with rfl | rfl; exact c2; exact d2) a3 b3
    refine ⟨?_, e2⟩
    simp only [List.length_append, Nat.mul_add]
    omega
  · intro st st0 x y h0 hx hy
    cases hx; cases hy
    exact ⟨by simp, h0⟩
  · intro t ts h1 h3 st st0 x y h0 hx hy
    simp only [buildForest] at hx hy
    obtain ⟨x1, a1, hx⟩ := bind_ok hx
    obtain ⟨y1, b1, hy⟩ := bind_ok hy
    obtain ⟨c1, c2⟩ := h1 _ _ _ _ h0 a1 b1
    obtain ⟨x2, a2, hx⟩ := bind_ok hx
    obtain ⟨y2, b2, hy⟩ := bind_ok hy
    obtain ⟨d1, d2⟩ := h3 _ _ _ _ c2 a2 b2
    cases hx; cases hy
    refine ⟨?_, d2⟩
    simp only [List.length_append, Nat.mul_add]
    omega

/-- A part of a tree takes no more than the whole. -/
theorem part_length {lib : EntityLib} {t c : Tree} (h : Within c t) {st : RenderStatus} {y : RenderStatus × Str} (h0 : st.innerType = .none)
    (hy : buildTree lib {} t st = .ok y) :
    ∃ st' y', st'.innerType = .none ∧ buildTree lib {} c st' = .ok y' ∧ y'.2.length ≤ y.2.length := by
  have inv : ∀ (ro : RenderOptions) (d : NodeD) (st : RenderStatus) x, buildNode lib ro d st = .ok x → x.1.innerType = st.innerType :=
    fun ro d st x hx => (buildNode_root (st' := x.1) (out := x.2) hx).2
  have tree_ty : (∀ (t : Tree) (st : RenderStatus) x, buildTree lib {} t st = .ok x → x.1.innerType = st.innerType) ∧
      (∀ (ts : List Tree) (st : RenderStatus) x, buildForest lib {} ts st = .ok x → x.1.innerType = st.innerType) := by
    have hend : ∀ (e : Option NodeD) (st : RenderStatus) x, buildEnd lib {} e st = .ok x → x.1.innerType = st.innerType := by
      intro e st x hx
      cases e with
      | none => cases hx; rfl
      | some n => exact inv _ n st x hx
    apply Tree.induct
    · intro d e st x hx
      simp only [buildTree] at hx
      cases h1 : buildNode lib {} d st with
      | error s => rw [h1] at hx; cases hx
      | ok x1 =>
        rw [h1] at hx
        simp only [Except.bind_ok'] at hx
        cases h3 : buildEnd lib {} e x1.1 with
        | error s => rw [h3] at hx; cases hx
        | ok x3 =>
          rw [h3] at hx
          cases hx
          exact (hend _ _ _ h3).trans (inv _ _ _ _ h1)
    · intro d e ts ih st x hx
      obtain ⟨x1, sf, x2, se, x3, a1, a2, a3, rfl, a5, a6⟩ := buildTree_some hx
      have k1 := inv _ _ _ _ a1
      have k2 := ih _ _ a2
      have k3 := hend _ _ _ a3
      rcases a6 with rfl | rfl
      · exact k3.trans k1
      · exact k3.trans (k2.trans (a5.trans k1))
    · intro st x hx; cases hx; rfl
    · intro t ts h1 h2 st x hx
      simp only [buildForest] at hx
      cases h3 : buildTree lib {} t st with
      | error s => rw [h3] at hx; cases hx
      | ok x1 =>
        rw [h3] at hx
        simp only [Except.bind_ok'] at hx
        cases h4 : buildForest lib {} ts x1.1 with
        | error s => rw [h4] at hx; cases hx
        | ok x2 =>
          rw [h4] at hx
          cases hx
          exact (h2 _ _ h4).trans (h1 _ _ h3)
  have hmem : ∀ (ts : List Tree) (k : Tree), k ∈ ts → ∀ (st : RenderStatus) x, st.innerType = .none → buildForest lib {} ts st = .ok x →
      ∃ st' y', st'.innerType = .none ∧ buildTree lib {} k st' = .ok y' ∧ y'.2.length ≤ x.2.length := by
    intro ts k hk
    induction ts with
    | nil => cases hk
    | cons t ts ih =>
      intro st x hs hx
      simp only [buildForest] at hx
      cases h3 : buildTree lib {} t st with
      | error s => rw [h3] at hx; cases hx
      | ok x1 =>
        rw [h3] at hx
        simp only [Except.bind_ok'] at hx
        cases h4 : buildForest lib {} ts x1.1 with
        | error s => rw [h4] at hx; cases hx
        | ok x2 =>
          rw [h4] at hx
          cases hx
          rcases List.mem_cons.1 hk with rfl | hk
          · exact ⟨st, x1, hs, h3, by simp⟩
          · obtain ⟨st', y', k1, k2, k3⟩ := ih hk x1.1 x2 ((tree_ty.1 _ _ _ h3).trans hs) h4
            exact ⟨st', y', k1, k2, by simp only [List.length_append]; omega⟩
  induction h with
  | self => exact ⟨st, y, h0, hy, Nat.le_refl _⟩
  | @kid t c k hw hk ih =>
    obtain ⟨st', y', k1, k2, k3⟩ := ih hy
    obtain ⟨d, e, cs⟩ := c
    cases cs with
    | none => cases hk
    | some ts =>
      obtain ⟨x1, sf, x2, se, x3, a1, a2, a3, rfl, a5, a6⟩ := buildTree_some k2
      obtain ⟨st2, y2, m1, m2, m3⟩ := hmem ts k hk sf x2 (a5.trans ((inv _ _ _ _ a1).trans k1)) a2
      refine ⟨st2, y2, m1, m2, ?_⟩
      simp only [List.length_append] at k3
      omega

/-- **C58**, for all render options, `inner_html` and inner text included, and for every node: rendering it yields at most `K` times
as many characters as rendering the whole document with default options, if no entity has more than `K` characters. -/
theorem c58_options {lib : EntityLib} {K : Nat} (hk : shortCodec lib K) (h2 : 2 ≤ K) (ro : RenderOptions) (it : Bool) {t c : Tree} {r r0 : Str}
    (hw : Within c t) (h0 : build lib t {} false = .ok r0) (hr : build lib c ro it = .ok r) : r.length ≤ K * r0.length := by
  have e0 : ∃ y, buildTree lib {} t { innerType := .none, root := true } = .ok y ∧ y.2 = r0 := by
    unfold build innerTypeOf buildTarget at h0
    simp only [Bool.false_eq_true, if_false, reduceCtorEq, or_self] at h0
    cases hy : buildTree lib {} t { innerType := .none, root := true } with
    | error s => rw [hy] at h0; cases h0
    | ok y => rw [hy] at h0; cases h0; exact ⟨y, rfl, rfl⟩
  obtain ⟨y, hy, rfl⟩ := e0
  unfold build at hr
  cases hi : innerTypeOf ro it with
  | error s => rw [hi] at hr; cases hr
  | ok ty =>
    rw [hi] at hr
    simp only at hr
    cases ht : buildTarget c ty with
    | error s => rw [ht] at hr; cases hr
    | ok o =>
      rw [ht] at hr
      cases o with
      | none => cases hr; simp
      | some k =>
        simp only at hr
        have hwk : Within k t := by
          rcases buildTarget_cases ht with rfl | ⟨_, _, ts, h1, h2⟩
          · exact hw
          · refine .kid hw ?_
            obtain ⟨d, e, cs⟩ := c
            simp only [Tree.childs] at h1
            subst h1
            exact h2
        obtain ⟨st', y', k1, k2, k3⟩ := part_length hwk rfl hy
        cases hx : buildTree lib ro k { innerType := ty, root := true } with
        | error s => rw [hx] at hr; cases hr
        | ok x =>
          rw [hx] at hr
          cases hr
          have := ((tree_length hk h2 ro).1 k _ _ _ _ k1 hx k2).1
          have h3 := Nat.mul_le_mul_left K k3
          exact Nat.le_trans this h3

/-- **C58** for a parsed document: rendering it with any options is linear in the text. -/
theorem c58_render {s : Str} {o : ParseOptions} {d : Doc} {lib : EntityLib} {K : Nat} {ro : RenderOptions} {r : Str} (hk : shortCodec lib K)
    (h2 : 2 ≤ K) (h : Doc.parse s o = .ok d) (hi : ro.innerHtml = false) (hr : d.render lib ro = .ok r) :
    r.length ≤ K * ((if o.autoFixUnescapedLt then 4 else if o.autoFixUnclosedTag then 3 else 2) * s.length) := by
  rcases c02_exact h lib {} rfl with ⟨hn, hu, _⟩ | ⟨_, r0, h0⟩
  · rcases c02_exact h lib ro hi with ⟨_, _, q⟩ | ⟨q, _⟩
    · rw [q] at hr; cases hr
    · exact absurd hn q
  · have hb := c58_output h h0
    refine Nat.le_trans ?_ (Nat.mul_le_mul_left K hb)
    unfold Doc.render at hr h0
    cases ht : d.tree? with
    | none => rw [ht] at hr; cases hr
    | some t =>
      rw [ht] at hr h0
      exact c58_options hk h2 ro false .self h0 hr

/-! ## Samples -/

/-- The codec of the samples has no entity longer than five characters. -/
theorem smallLib_short : shortCodec smallLib 5 := by
  constructor
  · intro w
    have : ∀ (one : Str → Option Char) (n : Nat) (w : Str), w.length ≤ n → (decodeBy one w).length ≤ w.length := by
      intro one n
      induction n with
      | zero =>
        intro w hw
        cases w with
        | nil => unfold decodeBy; simp
        | cons c cs => simp at hw
      | succ n ih =>
        intro w hw
        cases w with
        | nil => unfold decodeBy; simp
        | cons c cs =>
          simp only [List.length_cons] at hw
          unfold decodeBy
          split
          · split
            · exact Nat.le_refl _
            · rename_i e r he
              have h1 := ih r (by have := cutSemi_length he; omega)
              have h2 : cs.length = e.length + 1 + r.length := by
                clear ih hw h1
                induction cs generalizing e with
                | nil => cases he
                | cons a cs ihc =>
                  unfold cutSemi at he
                  split at he
                  · simp only [Option.some.injEq, Prod.mk.injEq] at he
                    rw [← he.1, ← he.2]; simp; omega
                  · obtain ⟨x, k1, k2⟩ := Option.map_eq_some_iff.1 he
                    simp only [Prod.mk.injEq] at k2
                    have := ihc x.1 (by rw [k1, ← k2.2])
                    rw [← k2.1]; simp only [List.length_cons]; omega
              simp only [List.length_append, List.length_cons]
              split <;> simp <;> omega
          · simp only [List.length_cons]
            have := ih cs (by omega)
            omega
    exact this _ w.length w (Nat.le_refl _)
  · intro c e _ he
    simp only [smallLib] at he
    split at he
    · cases he; decide
    · split at he <;> cases he <;> decide

/-- A title of seven ampersands, encoded: 50 characters of 22. -/
example : reformat smallLib {} { encodeContent := true } "<title>&&&&&&&</title>".toList =
    some "<title>&amp;&amp;&amp;&amp;&amp;&amp;&amp;</title>".toList ∧
    "<title>&amp;&amp;&amp;&amp;&amp;&amp;&amp;</title>".toList.length = 50 ∧ "<title>&&&&&&&</title>".toList.length = 22 := by decide +kernel

end Rphtml
