import Verif.Proofs.Simulate
import Verif.Proofs.Final
import Verif.Props.RenderOpts

/-!
# The finished document

The tree that `Doc::parse` returns is exactly the document that the machine of `Proofs/Abs.lean` has read.
-/

namespace Rphtml

/-! ## From the heap to the tree -/

theorem pnode_text {n : NodeD} {e : Option NodeD} {cs : Option (List Tree)} (h : n.nodeType.core = .text) :
    (Tree.mk n e cs).pnode = .text (n.content.getD []) := by
  unfold Tree.pnode
  revert h
  cases n.nodeType <;> simp [NodeType.core]

theorem shaped_text {n : NodeD} (h : n.nodeType.core = .text) (hc : n.content ≠ none) : (Tree.mk n none none).shaped := by
  unfold Tree.shaped
  revert h
  cases n.nodeType <;> simp [NodeType.core, hc]

theorem core_comment {t : NodeType} (h : t.core = .comment) : t = .comment := by cases t <;> simp_all [NodeType.core]
theorem core_cdata {t : NodeType} (h : t.core = .xmlCdata) : t = .xmlCdata := by cases t <;> simp_all [NodeType.core]
theorem core_doctype {t : NodeType} (h : t.core = .htmlDoctype) : t = .htmlDoctype := by
  cases t <;> simp_all [NodeType.core]

theorem toTree_leaf {h : Heap} {ty : NodeType} {i j fuel : Nat} (g : LeafRep h ty i j) (hf : j ≤ fuel + i) :
    h.toTree? fuel i = some (.mk (h.cell i).toNodeD none none) := by
  obtain ⟨g1, g2, g3, g4⟩ := g
  cases fuel with
  | zero => omega
  | succ f =>
    unfold Heap.toTree?
    simp only [g3, g4, Option.map_none]

/-- A represented node is read back as a tree. -/
theorem rep_tree (h : Heap) :
    (∀ p i j, Rep h p i j → ∀ fuel, j ≤ fuel + i → ∃ t, h.toTree? fuel i = some t ∧ t.pnode = p ∧ t.shaped) ∧
    (∀ ps ids a b, Reps h ps ids a b → ∀ fuel, b ≤ fuel + a →
      ∃ ts, optAll (h.toTree? fuel) ids = some ts ∧ Tree.pnodes ts = ps ∧ Tree.shapeds ts) := by
  apply PNode.induct
  · intro w i j g fuel hf
    simp only [Rep] at g
    refine ⟨_, toTree_leaf g.1 hf, ?_, shaped_text g.1.2.1 (by rw [g.2]; simp)⟩
    rw [pnode_text g.1.2.1, g.2]; rfl
  · intro w i j g fuel hf
    simp only [Rep] at g
    refine ⟨_, toTree_leaf g.1 hf, ?_, ?_⟩
    · unfold Tree.pnode
      simp only [core_comment g.1.2.1, g.2]; rfl
    · unfold Tree.shaped
      simp [core_comment g.1.2.1, g.2]
  · intro w i j g fuel hf
    simp only [Rep] at g
    refine ⟨_, toTree_leaf g.1 hf, ?_, ?_⟩
    · unfold Tree.pnode
      simp only [core_cdata g.1.2.1, g.2]; rfl
    · unfold Tree.shaped
      simp [core_cdata g.1.2.1, g.2]
  · intro n a s i j g fuel hf
    simp only [Rep] at g
    obtain ⟨g1, m, g2, g3, g4, g5⟩ := g
    refine ⟨_, toTree_leaf g1 hf, ?_, ?_⟩
    · unfold Tree.pnode
      simp only [core_doctype g1.2.1, g2, Option.getD_some, g3, g4, g5]
    · unfold Tree.shaped
      simp [core_doctype g1.2.1, g2]
  · intro n a s ct ks e ih i j g fuel hf
    simp only [Rep] at g
    obtain ⟨g1, g2, g3, ⟨m, g4, g5, g6, g7⟩, g8, g9⟩ := g
    cases fuel with
    | zero => omega
    | succ f =>
      have hend : ((h.cell i).endTag.map fun e => (h.cell e).toNodeD).bind NodeD.content = e := by
        cases e with
        | none =>
          have : (h.cell i).endTag = none := g8
          rw [this]; rfl
        | some w =>
          obtain ⟨k, k1, _, _, _, k5⟩ := g8
          rw [k1]
          simp only [Option.map_some, Option.bind_some]
          exact k5
      have hend2 : ∀ x, ((h.cell i).endTag.map fun e => (h.cell e).toNodeD) = some x → x.nodeType = .tagEnd ∧ x.content ≠ none := by
        intro x hx
        cases e with
        | none =>
          have : (h.cell i).endTag = none := g8
          rw [this] at hx; cases hx
        | some w =>
          obtain ⟨k, k1, _, _, k4, k5⟩ := g8
          rw [k1] at hx
          simp only [Option.map_some, Option.some.injEq] at hx
          subst hx
          exact ⟨k4, by rw [k5]; simp⟩
      cases hc : (h.cell i).childs with
      | none =>
        refine ⟨_, by unfold Heap.toTree?; simp only [hc]; rfl, ?_, by
          unfold Tree.shaped; simp only [g2]; exact ⟨by rw [g4]; simp, hend2, trivial⟩⟩
        have hk : h.kids i = [] := by unfold Heap.kids; rw [hc]; rfl
        rw [hk] at g9
        have hks : ks = [] := by
          cases ks with
          | nil => rfl
          | cons p ps => simp [Reps] at g9
        subst hks
        unfold Tree.pnode
        simp only [g2, g3, g4, Option.getD_some, g5, g6, g7, hend]
      | some ids =>
        have hk : h.kids i = ids := by unfold Heap.kids; rw [hc]; rfl
        rw [hk] at g9
        obtain ⟨ts, h1, h2, h3⟩ := ih _ _ _ g9 f (by omega)
        refine ⟨_, by unfold Heap.toTree?; simp only [hc, h1]; rfl, ?_, by
          unfold Tree.shaped; simp only [g2]; exact ⟨by rw [g4]; simp, hend2, h3⟩⟩
        unfold Tree.pnode
        simp only [g2, g3, g4, Option.getD_some, g5, g6, g7, hend, h2]
  · intro ids a b g fuel _
    simp only [Reps] at g
    rw [g.1]
    exact ⟨[], rfl, rfl, trivial⟩
  · intro p ps hp hps ids a b g fuel hf
    simp only [Reps] at g
    obtain ⟨i, is, l, h1, h2, h3, h4⟩ := g
    have h5 := Reps.le h4
    have h6 := h3.lt
    obtain ⟨t, k1, k2, k5⟩ := hp _ _ h3 fuel (by omega)
    obtain ⟨ts, k3, k4, k6⟩ := hps _ _ _ h4 fuel (by omega)
    subst h1
    refine ⟨t :: ts, ?_, by simp only [Tree.pnodes, k2, k4], k5, k6⟩
    simp only [optAll, k1, k3]

/-! ## Closing the open elements -/

/-- The document below the open elements `fs`, when the innermost children are `ks` of `f`. -/
def closeKids : List PNode → Frame → List Frame → List PNode
  | ks, _, [] => ks
  | ks, f, g :: gs => closeKids (g.kids ++ [.elem f.name f.attrs false none ks (some f.name)]) g gs

theorem closeAll_eq : ∀ (gs : List Frame) (a : AState), a.rest = gs →
    (AState.closeAll gs.length a).top.kids = closeKids a.top.kids a.top gs
  | [], a, _ => rfl
  | g :: gs, a, h => by
    have hp : a.pop (some a.top.name) = { a with
        top := { g with kids := g.kids ++ [.elem a.top.name a.top.attrs false none a.top.kids (some a.top.name)] }
        rest := gs } := by
      unfold AState.pop; rw [h]
    simp only [List.length_cons, AState.closeAll]
    rw [hp, closeAll_eq gs _ rfl]
    cases gs <;> rfl

theorem result_eq (a : AState) : a.result = closeKids a.top.kids a.top a.rest := closeAll_eq _ _ rfl

/-- What happens to an open element at the end of the input. -/
def Closed (h h' : Heap) (hi : NodeId) (k : NodeId) : Prop :=
  ∃ m m', (h.cell k).tmeta = some m ∧ (h'.cell k).tmeta = some m' ∧ m'.name = m.name ∧ m'.attrs = m.attrs ∧
    m'.selfClosed = m.selfClosed ∧ (h'.cell k).nodeType = (h.cell k).nodeType ∧ (h'.cell k).content = (h.cell k).content ∧
    (h'.cell k).childs = (h.cell k).childs ∧ EndRep h' k hi (h'.cell k).endTag (some m.name)

/-- All the open elements are closed. -/
theorem Zip.close {h h' : Heap} {hi : NodeId} : ∀ (cs : List NodeId) (c : NodeId) (f : Frame) (fs : List Frame) (ks : List PNode),
    (c = 0 ∧ cs = [] ∧ fs = [] ∨ OpenRep h c f ∧ cs ≠ [] ∧ Zip h cs fs [c] c) →
    KidsRep h' c ks [] hi → (∀ k, k < c → k ∉ cs → SameCore (h.cell k) (h'.cell k)) → c < hi →
    (∀ k ∈ (c :: cs).dropLast, Closed h h' hi k) → (∀ k ∈ c :: cs, (h'.cell k).childs = (h.cell k).childs) →
    KidsRep h' 0 (closeKids ks f fs) [] hi
  | [], c, f, fs, ks, hz, hk, _, _, _, _ => by
    rcases hz with ⟨rfl, _, rfl⟩ | ⟨_, h, _⟩
    · exact hk
    · exact absurd rfl h
  | c' :: cs, c, f, fs, ks, hz, hk, hs, hc, hcl, hch => by
    rcases hz with ⟨_, h, _⟩ | ⟨ho, _, hz⟩
    · cases h
    · cases fs with
      | nil => cases cs <;> simp [Zip] at hz
      | cons g gs =>
        simp only [closeKids]
        obtain ⟨hk', hz'⟩ := hz.cons
        have hlt := hk'.lt
        have hdl : ∀ k ∈ (c' :: cs).dropLast, k ∈ (c :: c' :: cs).dropLast := by
          intro k hk; simp only [List.dropLast_cons_cons]; exact List.mem_cons_of_mem _ hk
        have hbelow : ∀ k ∈ cs, k < c' := by
          -- every outer element is smaller
          have : ∀ (cs : List NodeId) (x : NodeId) (fs : List Frame), (cs ≠ [] → Zip h cs fs [x] x) → ∀ k ∈ cs, k < x := by
            intro cs
            induction cs with
            | nil => intro x fs _ k hk; cases hk
            | cons y ys ih =>
              intro x fs hz k hk
              have hz := hz (by simp)
              cases fs with
              | nil => cases ys <;> simp [Zip] at hz
              | cons f fs =>
                have hy := hz.cons.1.lt
                rcases List.mem_cons.1 hk with rfl | hk
                · exact hy
                · have : k < y := by
                    refine ih y fs (fun hne => ?_) k hk
                    rcases hz.cons.2 with b | b
                    · exact absurd b.2.1 hne
                    · exact b.2.2.2
                  omega
          rcases hz' with b | b
          · rw [b.2.1]; intro k hk; cases hk
          · exact this cs c' gs fun _ => b.2.2.2
        refine Zip.close cs c' g gs _ ?_ ?_ ?_ (by omega) (fun k hk => hcl k (hdl k hk)) (fun k hk => hch k (List.mem_cons_of_mem _ hk))
        · rcases hz' with b | b
          · exact Or.inl ⟨b.1, b.2.1, b.2.2.1⟩
          · exact Or.inr ⟨b.1, b.2.1, b.2.2.2⟩
        · obtain ⟨ids, e1, e2⟩ := hk'
          refine ⟨ids ++ [c], ?_, ?_⟩
          · unfold Heap.kids at e1 ⊢
            rw [hch c' (by simp), e1]; simp
          · refine Reps.snoc ?_ ((rep_frame h h').2 _ _ _ _ e2 fun k k1 k2 => ?_) (Nat.le_refl _)
            · obtain ⟨m, m', q1, q2, q3, q4, q5, q6, q7, q8, q9⟩ := hcl c (by simp)
              obtain ⟨b1, b2, b3, m0, b4, b5, b6, b7⟩ := ho
              rw [q1] at b4; cases b4
              obtain ⟨jds, j1, j2⟩ := hk
              simp only [List.append_nil] at j1
              simp only [Rep]
              rw [j1]
              exact ⟨hc, q6.trans b1, q7.trans b2, ⟨m', q2, q3.trans b5, q4.trans b6, q5.trans b7⟩, by rw [← b5]; exact q9, j2⟩
            · refine hs k k2 ?_
              intro hk
              rcases List.mem_cons.1 hk with rfl | hk
              · omega
              · have := hbelow k hk; omega
        · intro k hk hn
          refine hs k (by omega) ?_
          intro hk2
          rcases List.mem_cons.1 hk2 with rfl | hk2
          · omega
          · exact hn hk2

/-- Whether the machine is inside an element's start tag. -/
def Mode.inStart : Mode → Bool
  | .tagName _ => true
  | .inTag false _ => true
  | _ => false

/-- Whether the machine is between two constructs or in a text. -/
def Mode.outside : Mode → Bool
  | .wait _ => true
  | .text _ => true
  | _ => false

theorem final_iff (o : ParseOptions) (a : AState) :
    a.final o = true ↔ a.mode.outside = true ∧ (a.rest = [] ∨ o.autoFixUnclosedTag = true) := by
  unfold AState.final Mode.outside
  cases a.mode <;> simp [List.isEmpty_iff]

theorem Abs.chain_rest {d : Doc} {a : AState} (h : Abs d a) (ho : a.mode.outside = true) :
    d.chain.length ≤ 1 ↔ a.rest = [] := by
  have hm := h.mode
  have key : ∀ (H : Heap) (x : NodeId) (cs : List NodeId) (hi : NodeId), Stk d a.over (x :: cs) →
      Zip H (x :: cs) (a.top :: a.rest) [] hi → (d.chain.length ≤ 1 ↔ a.rest = []) := by
    intro H x cs hi h1 h2
    rcases h1 with ⟨_, k2, _⟩ | ⟨_, k2, k3⟩
    · rw [k2]
      rcases h2.cons.2 with b | b
      · rw [b.2.1, b.2.2.1]; simp
      · simp only [List.length_cons]
        constructor
        · intro hl
          have : cs.length = 0 := by omega
          exact absurd (List.length_eq_zero_iff.1 this) b.2.1
        · intro hr; exact absurd hr b.2.2.1
    · rw [k2]
      simp only [List.cons.injEq] at k3
      rcases h2.cons.2 with b | b
      · rw [b.2.2.1]; simp
      · exact absurd k3.2 b.2.1
  cases hmo : a.mode with
  | wait l =>
    rw [hmo] at hm
    obtain ⟨_, x, cs, h1, h2, _⟩ := hm
    exact key _ _ _ _ h1 h2
  | text p =>
    rw [hmo] at hm
    obtain ⟨_, x, cs, h1, h2, _⟩ := hm
    exact key _ _ _ _ h1 h2
  | _ => rw [hmo] at ho; cases ho

/-- When the input may end. -/
theorem Abs.eofOk {d : Doc} {a : AState} (hd : Ctl d) (h : Abs d a) (hf : a.final d.opts = true) : EofOk d := by
  rw [final_iff] at hf
  refine ⟨?_, ?_⟩
  · rcases hf.2 with k | k
    · exact Or.inl ((h.chain_rest hf.1).2 k)
    · exact Or.inr k
  · have hm := h.mode
    have hs := hd.hs
    unfold HandleOk at hs
    cases hmo : a.mode with
    | wait l =>
      rw [hmo] at hm
      rw [hm.1] at hs
      rcases hs.1 with k | k
      · exact Or.inr (Or.inl k)
      · exact Or.inr (Or.inr (Or.inl k))
    | text p =>
      rw [hmo] at hm
      rw [hm.1] at hs
      exact Or.inl hs.1
    | _ => rw [hmo] at hf; cases hf.1

/-- From where `eof` succeeds, the machine is at an end, or in the middle of a start tag. -/
theorem Abs.final_of {d : Doc} {a : AState} (hd : Ctl d) (h : Abs d a) (he : EofOk d) :
    a.final d.opts = true ∨ (a.mode.inStart = true ∧ d.opts.autoFixUnclosedTag = true) := by
  have hm := h.mode
  have hs := hd.hs
  unfold HandleOk at hs
  have hcl : a.mode.outside = true → a.rest = [] ∨ d.opts.autoFixUnclosedTag = true := by
    intro ho
    rcases he.closed with k | k
    · exact Or.inl ((h.chain_rest ho).1 k)
    · exact Or.inr k
  cases hmo : a.mode with
  | wait l => left; rw [final_iff]; exact ⟨by rw [hmo]; rfl, hcl (by rw [hmo]; rfl)⟩
  | text p => left; rw [final_iff]; exact ⟨by rw [hmo]; rfl, hcl (by rw [hmo]; rfl)⟩
  | tagName pc =>
    rw [hmo] at hm; rw [hm.1] at hs
    rcases he.code with k | k | k | k
    · rw [hs.1] at k; cases k
    · rw [hs.1] at k; cases k
    · rw [hs.1] at k; cases k
    · exact Or.inr ⟨rfl, k.2⟩
  | inTag isDoc t =>
    rw [hmo] at hm
    obtain ⟨h1, h2, ⟨m, h3, h4, _⟩, _⟩ := hm
    obtain ⟨_, _, _, hor⟩ := hd.inTag h1 h3
    rcases hor with k | k
    · cases isDoc
      · rcases he.code with q | q | q | q
        · rw [k.1] at q; cases q
        · rw [k.1] at q; cases q
        · rw [k.1] at q; cases q
        · exact Or.inr ⟨rfl, q.2⟩
      · simp only [true_iff] at h2; rw [k.1] at h2; cases h2
    · rcases he.code with q | q | q | q
      · rw [k.1] at q; cases q
      · rw [k.1] at q; cases q
      · rw [k.1] at q; cases q
      · rw [k.1] at q; cases q.1
  | lt l =>
    rw [hmo] at hm; rw [hm.1] at hs
    have := he.code; rw [hs.1] at this; simp at this
  | bang det pc =>
    rw [hmo] at hm; rw [hm.1] at hs
    have := he.code; rw [hs.1] at this; simp at this
  | comment cd pc =>
    rw [hmo] at hm; rw [hm.1] at hs
    have := he.code
    rcases hs.2 with k | k <;> rw [k.1] at this <;> simp at this
  | doctypeName pc =>
    rw [hmo] at hm; rw [hm.1] at hs
    have := he.code; rw [hs.1] at this; simp at this
  | tagEnd pc ret =>
    rw [hmo] at hm; rw [hm.1] at hs
    have := he.code; rw [hs.1] at this; simp at this
  | raw m pc =>
    rw [hmo] at hm; rw [hm.1] at hs
    obtain ⟨_, _, m', _, _, g3, _⟩ := hs
    have := he.code; rw [g3] at this
    rcases rawCode_cases m'.name with k | k | k <;> rw [k] at this <;> simp at this

/-- The heap of a parser state, with the text that was read last. -/
def TextDone (d : Doc) (H : Heap) : Prop :=
  ∀ k, k < d.heap.size → (H.cell k).childs = (d.heap.cell k).childs ∧
    (H.cell k).endTag = (d.heap.cell k).endTag ∧ (H.cell k).tmeta = (d.heap.cell k).tmeta ∧
    (H.cell k).nodeType = (d.heap.cell k).nodeType ∧
    (H.cell k).content = if d.codeIn = .textNode ∧ k = d.current then some d.prevChars else (d.heap.cell k).content

/-- The tree of the finished document, from the open elements. -/
theorem Zip.final_tree {d : Doc} (hd : Ctl d) (he : EofOk d) {H : Heap} (hH : TextDone d H) {over : Bool} {x : NodeId} {cs : List NodeId}
    {f : Frame} {fs : List Frame} (h1 : Stk d over (x :: cs)) (h2 : Zip H (x :: cs) (f :: fs) [] d.heap.size) (hwt : d.handle ≠ .tagName) :
    ∃ t, d.finalHeap.toTree? d.finalHeap.size 0 = some t ∧ t.doc = closeKids f.kids f fs ∧ t.data.nodeType = .abstractRoot ∧
      t.endTag = none ∧ Tree.shapeds t.kids := by
  have hsize : d.heap.size ≤ d.finalHeap.size := by rw [finalHeap_size]; exact fixedHeap_size d
  have hx := h2.cons.1.lt
  -- unchanged cells
  have hsame : ∀ k, k < d.heap.size → k ∉ (x :: cs).dropLast → SameCore (H.cell k) (d.finalHeap.cell k) := by
    intro k hk hn
    have hc := eofCell hd he k hk
    obtain ⟨e1, e2, e3, e4, e5⟩ := hH k hk
    have hin : ¬ (k ∈ d.chain ∧ k ≠ 0) := by
      rintro ⟨q1, q2⟩
      rcases h1 with ⟨_, c2, _⟩ | ⟨_, c2, _⟩
      · rw [c2] at q1
        have hlast := hd.chainLast (by rw [c2]; simp)
        rw [c2] at hlast
        have : x :: cs = (x :: cs).dropLast ++ [0] := by
          obtain ⟨l, hl⟩ := getLast?_snoc hlast
          rw [hl]; simp
        rw [this] at q1
        simp only [List.mem_append, List.mem_singleton] at q1
        rcases q1 with q | q
        · exact hn q
        · exact q2 q
      · rw [c2] at q1; cases q1
    refine ⟨?_, ?_, ?_, ?_, ?_⟩
    · rw [e4]
      rcases hc.ty with q | ⟨q1, q2, _⟩
      · rw [q]
      · rw [q1, q2]; rfl
    · rw [hc.content, e5]
    · rw [e3]
      rcases hc.tmeta with q | ⟨q1, q2, _⟩
      · exact q
      · exact absurd ⟨q1, q2⟩ hin
    · rw [e2]
      rcases hc.endTag with q | ⟨q1, q2, _⟩
      · exact q
      · exact absurd ⟨q1, q2⟩ hin
    · rw [e1, hc.childs]
  -- the open elements
  have hclosed : ∀ k ∈ (x :: cs).dropLast, Closed H d.finalHeap d.finalHeap.size k := by
    intro k hk
    rcases h1 with ⟨_, c2, _⟩ | ⟨_, _, c3⟩
    · have hkc : k ∈ d.chain := by rw [c2]; exact List.dropLast_subset _ hk
      have hks := hd.chainLt k hkc
      have hlast := hd.chainLast (by rw [c2]; simp)
      have hne0 : k ≠ 0 := by
        have hp := hd.chainSorted
        obtain ⟨l, hl⟩ := getLast?_snoc hlast
        rw [hl] at hp
        have : (x :: cs).dropLast = l := by rw [← c2, hl]; simp
        rw [this] at hk
        have := (List.pairwise_append.1 hp).2.2 k hk 0 (by simp)
        omega
      have hty := hd.chainTag k hkc hne0
      have hmd := hd.metaDone k hks hty
      have hmd' : (d.heap.cell k).tmeta ≠ none := by
        rcases hmd with q | q
        · exact q
        · exact absurd q.1 hwt
      have hlen : d.chain.length > 1 := by
        rw [c2]
        cases cs with
        | nil => simp at hk
        | cons y ys => simp
      obtain ⟨e1, e2, e3, e4, e5⟩ := hH k hks
      have hncur : d.codeIn = .textNode → k ≠ d.current := by
        intro q hkcur
        have := hd.cur_text q
        unfold Doc.cur at this
        rw [← hkcur, hty] at this; cases this
      cases hmm : (d.heap.cell k).tmeta with
      | none => exact absurd hmm hmd'
      | some m =>
        -- the new end tag
        have hkd : k ∈ d.chain.dropLast.reverse := by rw [List.mem_reverse, c2]; exact hk
        obtain ⟨_, k2, _⟩ := fixHeap_cells d.position _ d.heap hd.open_tags.1
          (fun t ht => hd.chainLt t (hd.open_tags.2 t ht).1)
        obtain ⟨e, b1, b2, b3, b4⟩ := k2 k m hkd hmm
        have hfx : d.fixedHeap = fixHeap d.position d.heap d.chain.dropLast.reverse := by
          unfold Doc.fixedHeap; rw [if_pos hlen]
        rw [← hfx] at b2 b3 b4
        have hfk : d.finalHeap.cell k = d.fixedHeap.cell k := finalHeap_cell k hne0 hncur
        have hcurlt := hd.curLt
        have hfe : d.finalHeap.cell e = d.fixedHeap.cell e := finalHeap_cell e (by omega) (fun _ => by omega)
        refine ⟨m, { m with autoFix := true }, by rw [e3, hmm], by rw [hfk, b3], rfl, rfl, rfl, ?_, ?_, ?_, ?_⟩
        · rw [hfk, b3, e4]
        · rw [hfk, b3, e5, if_neg (fun q => hncur q.1 q.2)]
        · rw [hfk, b3, e1]
        · refine ⟨e, by rw [hfk, b3], by omega, by rw [finalHeap_size]; exact b2, ?_⟩
          rw [hfe, b4]
          exact ⟨rfl, rfl⟩
    · simp only [List.cons.injEq] at c3
      rw [c3.2] at hk; simp at hk
  have hchilds : ∀ k, k < d.heap.size → (d.finalHeap.cell k).childs = (H.cell k).childs := by
    intro k hk
    rw [(hH k hk).1]; exact (eofCell hd he k hk).childs
  have hchainlt : ∀ k ∈ x :: cs, k < d.heap.size := by
    intro k hk
    rcases h1 with ⟨_, c2, _⟩ | ⟨_, _, c3⟩
    · exact hd.chainLt k (by rw [c2]; exact hk)
    · rw [c3] at hk; simp only [List.mem_singleton] at hk; rw [hk]; exact hd.sizePos
  have hkr : KidsRep d.finalHeap 0 (closeKids f.kids f fs) [] d.finalHeap.size := by
    obtain ⟨ids, e1, e2⟩ := h2.cons.1
    refine Zip.close (h := H) cs x f fs f.kids ?_ ⟨ids, ?_, ?_⟩ ?_ (by omega) hclosed
      (fun k hk => hchilds k (hchainlt k hk))
    · rcases h2.cons.2 with b | b
      · exact Or.inl ⟨b.1, b.2.1, b.2.2.1⟩
      · exact Or.inr ⟨b.1, b.2.1, b.2.2.2⟩
    · unfold Heap.kids at e1 ⊢; rw [hchilds x hx]; exact e1
    · refine ((rep_frame H d.finalHeap).2 _ _ _ _ e2 fun k k1 k2 => hsame k k2 ?_).mono_hi hsize
      intro hk
      have hk := List.dropLast_subset _ hk
      rcases h1 with ⟨_, c2, _⟩ | ⟨_, _, c3⟩
      · have hp := hd.chainSorted
        rw [c2] at hp
        rcases List.mem_cons.1 hk with q | q
        · omega
        · have := (List.pairwise_cons.1 hp).1 k q; omega
      · rw [c3] at hk; simp only [List.mem_singleton] at hk; omega
    · intro k k1 k2
      refine hsame k (by omega) ?_
      intro hk
      have hk := List.dropLast_subset _ hk
      rcases List.mem_cons.1 hk with q | q
      · omega
      · exact k2 q
  -- the root
  have h0pos := hd.sizePos
  have h0 := hsame 0 h0pos (by
    intro hk
    rcases h1 with ⟨_, c2, _⟩ | ⟨_, _, c3⟩
    · have hlast := hd.chainLast (by rw [c2]; simp)
      have hp := hd.chainSorted
      obtain ⟨l, hl⟩ := getLast?_snoc hlast
      rw [hl] at hp
      have : (x :: cs).dropLast = l := by rw [← c2, hl]; simp
      rw [this] at hk
      have := (List.pairwise_append.1 hp).2.2 0 hk 0 (by simp)
      omega
    · rw [c3] at hk; simp at hk)
  have hty0 : (d.finalHeap.cell 0).nodeType = .abstractRoot := by
    refine h0.ty_eq (by simp) (by simp) ?_
    rw [(hH 0 h0pos).2.2.2.1]
    exact (hd.rootTy 0 h0pos).2 rfl
  have hen0 : (d.finalHeap.cell 0).endTag = none := by
    rw [h0.endTag]
    -- the root never has an end tag
    have : ∀ (st : List NodeId) (fs : List Frame) (ex : List NodeId) (hi : NodeId), Zip H st fs ex hi → (H.cell 0).endTag = none := by
      intro st
      induction st with
      | nil => intro fs ex hi hz; cases fs <;> simp [Zip] at hz
      | cons y ys ih =>
        intro fs ex hi hz
        cases fs with
        | nil => cases ys <;> simp [Zip] at hz
        | cons f fs =>
          rcases hz.cons.2 with b | b
          · exact b.2.2.2.2
          · exact ih _ _ _ b.2.2.2
    exact this _ _ _ _ h2
  obtain ⟨ids, e1, e2⟩ := hkr
  simp only [List.append_nil] at e1
  obtain ⟨fu, hfuel⟩ : ∃ fu, d.finalHeap.size = fu + 1 := ⟨d.finalHeap.size - 1, by omega⟩
  cases hc : (d.finalHeap.cell 0).childs with
  | none =>
    have : ids = [] := by rw [← e1]; unfold Heap.kids; rw [hc]; rfl
    subst this
    have hr : closeKids f.kids f fs = [] := by
      cases hr : closeKids f.kids f fs with
      | nil => rfl
      | cons p ps => rw [hr] at e2; simp [Reps] at e2
    refine ⟨.mk (d.finalHeap.cell 0).toNodeD none none, ?_, ?_, hty0, rfl, trivial⟩
    · rw [hfuel]; unfold Heap.toTree?; simp only [hc, hen0, Option.map_none]
    · rw [hr]; rfl
  | some is =>
    have : is = ids := by rw [← e1]; unfold Heap.kids; rw [hc]; rfl
    subst this
    obtain ⟨ts, k1, k2, k3⟩ := (rep_tree d.finalHeap).2 _ _ _ _ e2 fu (by omega)
    refine ⟨.mk (d.finalHeap.cell 0).toNodeD none (some ts), ?_, k2, hty0, rfl, k3⟩
    rw [hfuel]; unfold Heap.toTree?; simp only [hc, hen0, Option.map_none, k1]

/-- The tree of the finished document. -/
theorem Abs.final_tree {d : Doc} {a : AState} (hd : Ctl d) (h : Abs d a) (hf : a.final d.opts = true) :
    ∃ t, d.finalHeap.toTree? d.finalHeap.size 0 = some t ∧ t.doc = a.result ∧ t.data.nodeType = .abstractRoot ∧
      t.endTag = none ∧ Tree.shapeds t.kids := by
  have he := h.eofOk hd hf
  rw [final_iff] at hf
  rw [result_eq]
  have hm := h.mode
  have hs := hd.hs
  unfold HandleOk at hs
  cases hmo : a.mode with
  | wait l =>
    rw [hmo] at hm
    rw [hm.1] at hs
    obtain ⟨hw, x, cs, h1, h2, _⟩ := hm
    refine Zip.final_tree hd he (fun k _ => ⟨rfl, rfl, rfl, rfl, ?_⟩) h1 h2 (by rw [hw]; simp)
    rw [if_neg]
    rintro ⟨q, _⟩
    rcases hs.1 with k | k <;> rw [q] at k <;> cases k
  | text p =>
    rw [hmo] at hm
    rw [hm.1] at hs
    obtain ⟨hw, x, cs, h1, h2, _⟩ := hm
    refine Zip.final_tree hd he (fun k _ => ?_) h1 h2 (by rw [hw]; simp)
    unfold Doc.withText
    rw [Heap.upd_cell]
    by_cases hk : k = d.current
    · rw [if_pos hk, if_pos ⟨hs.1, hk⟩]; exact ⟨rfl, rfl, rfl, rfl, rfl⟩
    · rw [if_neg hk, if_neg (fun q => hk q.2)]; exact ⟨rfl, rfl, rfl, rfl, rfl⟩
  | _ => rw [hmo] at hf; cases hf.1

/-! ## Parsing is the machine -/

theorem fixHeap_total (d : Doc) (ctx : Str) (he : EofOk d) : ∃ d', d.eof ctx = .ok d' := by
  have h1 : ∃ d1, d.eofChain ctx = .ok d1 ∧ d1.codeIn = d.codeIn ∧ d1.opts = d.opts := by
    unfold Doc.eofChain
    by_cases hc : d.chain.length > 1
    · rw [if_pos hc]
      have ho : d.opts.autoFixUnclosedTag = true := by
        rcases he.closed with k | k
        · omega
        · exact k
      simp only [ho, Bool.not_true, Bool.false_eq_true, if_false]
      refine ⟨_, rfl, ?_, ?_⟩ <;> rw [fixUnclosedTag_eq]
    · rw [if_neg hc]; exact ⟨_, rfl, rfl, rfl⟩
  obtain ⟨d1, k1, k2, k3⟩ := h1
  have h2 : ∃ d2, d1.eofState ctx = .ok d2 := by
    unfold Doc.eofState
    rw [k2, k3]
    rcases he.code with q | q | q | q
    · rw [q]; exact ⟨_, rfl⟩
    · rw [q]; exact ⟨_, rfl⟩
    · rw [q]; exact ⟨_, rfl⟩
    · rw [q.1]; simp only [q.2, Bool.not_true, Bool.false_eq_true, if_false]; exact ⟨_, rfl⟩
  obtain ⟨d2, k4⟩ := h2
  unfold Doc.eof
  simp only [Res.bind_eq, k1, Res.bind, k4]
  exact ⟨_, rfl⟩

/-- The document of a successful parse, as the machine sees it. -/
theorem parse_machine {s : Str} {o : ParseOptions} {d : Doc} (h : Doc.parse s o = .ok d) :
    ∃ a, arun o {} s = some a ∧ ((a.mode.inStart = true ∧ o.autoFixUnclosedTag = true) ∨
      (a.final o = true ∧ ∃ t, d.tree? = some t ∧ t.doc = a.result ∧ t.data.nodeType = .abstractRoot ∧
        t.endTag = none ∧ Tree.shapeds t.kids)) := by
  have hp := h
  unfold Doc.parse at h
  simp only [Res.bind_eq] at h
  cases h1 : (Doc.new o).run s s with
  | err e => rw [h1] at h; simp at h
  | panic e => rw [h1] at h; simp at h
  | ok d0 =>
    rw [h1] at h
    simp only [Res.bind] at h
    have hr : Reach o s d0 := by simpa using Reach.run s [] (Doc.new o) d0 Reach.init h1
    obtain ⟨a, ha, hab⟩ := (Abs.run s [] (Doc.new o) {} Reach.init (Abs.new o)).1 d0 h1
    refine ⟨a, ha, ?_⟩
    cases h2 : d0.eof s with
    | err e => rw [h2] at h; simp at h
    | panic e => rw [h2] at h; simp at h
    | ok d1 =>
      rw [h2] at h
      simp only [Res.ok.injEq] at h
      subst h
      obtain ⟨he, hh, hroot, _, _⟩ := eof_ok hr.ctl.root0 h2
      have hf := hab.final_of hr.ctl he
      rw [hr.opts] at hf
      rcases hf with hf | hf
      · right
        refine ⟨hf, ?_⟩
        rw [← hr.opts] at hf
        obtain ⟨t, k1, k2⟩ := hab.final_tree hr.ctl hf
        refine ⟨t, ?_, k2⟩
        unfold Doc.tree?
        rw [hh, hroot]; exact k1
      · exact Or.inl hf

/-- Without `auto_fix_unclosed_tag` a successful parse ends outside of markup. -/
theorem parse_machine_strict {s : Str} {o : ParseOptions} {d : Doc} (h : Doc.parse s o = .ok d)
    (ho : o.autoFixUnclosedTag = false) :
    ∃ a, arun o {} s = some a ∧ a.final o = true ∧ ∃ t, d.tree? = some t ∧ t.doc = a.result ∧
      t.data.nodeType = .abstractRoot ∧ t.endTag = none ∧ Tree.shapeds t.kids := by
  obtain ⟨a, h1, h2 | h2⟩ := parse_machine h
  · rw [ho] at h2; cases h2.2
  · exact ⟨a, h1, h2⟩

/-- When the machine accepts, so does the parser. -/
theorem machine_parse {s : Str} {o : ParseOptions} {a : AState} (h : arun o {} s = some a) (hf : a.final o = true) :
    ∃ d t, Doc.parse s o = .ok d ∧ d.tree? = some t ∧ t.doc = a.result ∧ t.data.nodeType = .abstractRoot ∧
      t.endTag = none ∧ Tree.shapeds t.kids := by
  obtain ⟨d0, h1, hab, hr⟩ := (Abs.run (ctx := s) s [] (Doc.new o) {} Reach.init (Abs.new o)).2 a h
  rw [List.nil_append] at hr
  rw [← hr.opts] at hf
  have he := hab.eofOk hr.ctl hf
  obtain ⟨d1, h2⟩ := fixHeap_total d0 s he
  obtain ⟨_, hh, hroot, _, _⟩ := eof_ok hr.ctl.root0 h2
  obtain ⟨t, k1, k2⟩ := hab.final_tree hr.ctl hf
  refine ⟨d1.intoRoot, t, ?_, ?_, k2⟩
  · unfold Doc.parse
    simp only [Res.bind_eq, h1, Res.bind, h2]
  · unfold Doc.tree?
    rw [hh, hroot]; exact k1

/-! ## Default rendering prints the document -/

theorem attrsToString_print (m : TagMeta) :
    (if !m.attrs.isEmpty then m.attrsToString false else []) = Spec.printAttrs m.attrs := by
  have hb : ∀ a : Attr, a.build false = Spec.printAttr a := by
    intro a
    unfold Attr.build Spec.printAttr
    cases a.key <;> cases a.value <;> cases a.quote <;> simp
  have h1 : m.attrsToString false = Spec.printAttrs m.attrs := by
    unfold TagMeta.attrsToString Spec.printAttrs
    congr 1
    funext a
    rw [hb]; rfl
  cases hm : m.attrs with
  | nil => rfl
  | cons a as => simp only [List.isEmpty_cons, Bool.not_false, if_true]; rw [h1, hm]

theorem needTag_none {st : RenderStatus} (h : st.innerType = .none) : st.needTag = true := by
  unfold RenderStatus.needTag
  rw [h]; simp

/-- Default rendering of a well-shaped tree is the source text of the document. -/
theorem build_shaped (lib : EntityLib) :
    (∀ t : Tree, t.shaped → ∀ st : RenderStatus, st.innerType = .none →
      ∃ st', buildTree lib {} t st = .ok (st', Spec.printNode t.pnode) ∧ st'.innerType = .none) ∧
    (∀ ts : List Tree, Tree.shapeds ts → ∀ st : RenderStatus, st.innerType = .none →
      ∃ st', buildForest lib {} ts st = .ok (st', Spec.printNodes (Tree.pnodes ts)) ∧ st'.innerType = .none) := by
  have hend : ∀ (e : Option NodeD), (∀ x, e = some x → x.nodeType = .tagEnd ∧ x.content ≠ none) →
      ∀ st : RenderStatus, st.innerType = .none →
      ∃ st', buildEnd lib {} e st = .ok (st', Spec.printEnd (e.bind NodeD.content)) ∧ st'.innerType = .none := by
    intro e he st hst
    cases e with
    | none => exact ⟨st, rfl, hst⟩
    | some x =>
      obtain ⟨h1, h2⟩ := he x rfl
      cases hc : x.content with
      | none => exact absurd hc h2
      | some w =>
        unfold buildEnd buildNode
        simp only [h1, hc, needTag_none hst, if_true, Option.bind_some, Spec.printEnd]
        refine ⟨_, rfl, ?_⟩
        split <;> exact hst
  -- a node that is not an element
  have hleaf : ∀ (n : NodeD) (e : Option NodeD) (cs : Option (List Tree)), (Tree.mk n e cs).shaped → n.nodeType ≠ .tag →
      ∀ st : RenderStatus, st.innerType = .none → e = none ∧ cs = none ∧
        buildNode lib {} n st = .ok (st, Spec.printNode (Tree.mk n e cs).pnode) := by
    intro n e cs hn ht st hst
    unfold Tree.shaped at hn
    unfold Tree.pnode buildNode
    generalize hty : n.nodeType = ty at hn ht ⊢
    cases ty <;> simp only at hn
    case text =>
      refine ⟨hn.2.1, hn.2.2, ?_⟩
      cases hc : n.content with
      | none => exact absurd hc hn.1
      | some w => simp [Spec.printNode, buildText]
    case spacesBetweenTag =>
      refine ⟨hn.2.1, hn.2.2, ?_⟩
      cases hc : n.content with
      | none => exact absurd hc hn.1
      | some w => simp [Spec.printNode]
    case comment =>
      refine ⟨hn.2.1, hn.2.2, ?_⟩
      cases hc : n.content with
      | none => exact absurd hc hn.1
      | some w => simp [Spec.printNode, hst]
    case xmlCdata =>
      refine ⟨hn.2.1, hn.2.2, ?_⟩
      cases hc : n.content with
      | none => exact absurd hc hn.1
      | some w => simp [Spec.printNode]
    case htmlDoctype =>
      refine ⟨hn.2.1, hn.2.2, ?_⟩
      cases hm : n.tmeta with
      | none => exact absurd hm hn.1
      | some m =>
        simp only [Option.getD_some, Spec.printNode]
        rw [attrsToString_print]
    case tag => exact absurd rfl ht
  -- the start tag of an element
  have hopen : ∀ (n : NodeD) (m : TagMeta) (st : RenderStatus), n.nodeType = .tag → n.tmeta = some m → st.innerType = .none →
      ∃ st', buildNode lib {} n st = .ok (st', Spec.printOpen m.name m.attrs m.selfClosed ++ n.content.getD []) ∧
        st'.innerType = .none := by
    intro n m st ht hm hst
    unfold buildNode
    simp only [ht, hm, needTag_none hst, if_true]
    refine ⟨{ st with isInPre := st.isInPre || isEqualChars m.name preTagName (some .lower) }, ?_, hst⟩
    have := attrsToString_print m
    rw [this]
    cases n.content <;> simp [Spec.printOpen]
  have htag : ∀ (n : NodeD) (e : Option NodeD) (cs : Option (List Tree)), n.nodeType = .tag → (Tree.mk n e cs).shaped →
      ∃ m, n.tmeta = some m ∧ (∀ x, e = some x → x.nodeType = .tagEnd ∧ x.content ≠ none) ∧
        (match cs with
          | none => True
          | some ts => Tree.shapeds ts) ∧
        (Tree.mk n e cs).pnode = .elem m.name m.attrs m.selfClosed n.content
          (match cs with
            | none => []
            | some ts => Tree.pnodes ts) (e.bind NodeD.content) := by
    intro n e cs ht hs
    unfold Tree.shaped at hs
    simp only [ht] at hs
    cases hm : n.tmeta with
    | none => exact absurd hm hs.1
    | some m =>
      refine ⟨m, rfl, hs.2.1, hs.2.2, ?_⟩
      unfold Tree.pnode
      simp only [ht, hm, Option.getD_some]
      cases cs <;> rfl
  apply Tree.induct
  · intro n e hs st hst
    by_cases ht : n.nodeType = .tag
    · obtain ⟨m, h1, h2, _, h4⟩ := htag n e none ht hs
      obtain ⟨st1, k1, k2⟩ := hopen n m st ht h1 hst
      obtain ⟨st2, k3, k4⟩ := hend e h2 st1 k2
      refine ⟨st2, ?_, k4⟩
      rw [h4]
      simp only [buildTree, k1, Except.bind_ok', k3, Spec.printNode, Spec.printNodes]
    · obtain ⟨rfl, _, h3⟩ := hleaf n e none hs ht st hst
      refine ⟨st, ?_, hst⟩
      simp only [buildTree, h3, Except.bind_ok', buildEnd, List.append_nil]
  · intro n e ts ih hs st hst
    by_cases ht : n.nodeType = .tag
    · obtain ⟨m, h1, h2, h3, h4⟩ := htag n e (some ts) ht hs
      obtain ⟨st1, k1, k2⟩ := hopen n m st ht h1 hst
      by_cases hr : st1.root = true
      · obtain ⟨st2, k3, k4⟩ := ih h3 { st1 with root := false } k2
        obtain ⟨st3, k5, k6⟩ := hend e h2 st1 k2
        refine ⟨st3, ?_, k6⟩
        rw [h4]
        simp only [buildTree, k1, Except.bind_ok', k3, k5, Spec.printNode, if_pos hr]
      · obtain ⟨st2, k3, k4⟩ := ih h3 st1 k2
        obtain ⟨st3, k5, k6⟩ := hend e h2 st2 k4
        refine ⟨st3, ?_, k6⟩
        rw [h4]
        simp only [buildTree, k1, Except.bind_ok', k3, k5, Spec.printNode, if_neg hr]
    · obtain ⟨_, h, _⟩ := hleaf n e (some ts) hs ht st hst
      cases h
  · intro _ st hst; exact ⟨st, rfl, hst⟩
  · intro t ts h1 h2 hs st hst
    obtain ⟨st1, k1, k2⟩ := h1 hs.1 st hst
    obtain ⟨st2, k3, k4⟩ := h2 hs.2 st1 k2
    refine ⟨st2, ?_, k4⟩
    simp only [buildForest, k1, Except.bind_ok', k3, Tree.pnodes, Spec.printNodes]

/-- Default rendering of a document. -/
theorem build_doc (lib : EntityLib) {t : Tree} (h1 : t.data.nodeType = .abstractRoot) (h2 : t.endTag = none)
    (h3 : Tree.shapeds t.kids) : build lib t {} false = .ok (Spec.printNodes t.doc) := by
  cases t with
  | mk n e cs =>
    simp only [Tree.data] at h1
    simp only [Tree.endTag] at h2
    subst h2
    have hb : ∀ st, buildNode lib {} n st = .ok (st, []) := by
      intro st; unfold buildNode; simp only [h1]
    unfold build innerTypeOf buildTarget
    simp only [Bool.false_eq_true, if_false, reduceCtorEq, or_self]
    cases cs with
    | none =>
      simp only [buildTree, hb, Except.bind_ok', buildEnd]; rfl
    | some ts =>
      obtain ⟨st, k, _⟩ := (build_shaped lib).2 ts h3 { innerType := .none, root := false } rfl
      simp only [buildTree, hb, Except.bind_ok', buildEnd, if_true]
      simp only [k, Except.bind_ok', Except.map, List.nil_append, List.append_nil]
      rfl

/-- Default rendering of a parsed document is the source text of the machine's document. -/
theorem parse_render (lib : EntityLib) {d : Doc} {t : Tree} (h : d.tree? = some t) (h1 : t.data.nodeType = .abstractRoot)
    (h2 : t.endTag = none) (h3 : Tree.shapeds t.kids) : d.render lib {} = .ok (Spec.printNodes t.doc) := by
  unfold Doc.render
  rw [h]
  exact build_doc lib h1 h2 h3

end Rphtml
