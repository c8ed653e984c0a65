import Verif.Proofs.GrammarRead
import Verif.Proofs.Written

/-!
# Only spellings of a document are read
-/

namespace Rphtml
open Spec

mutual
/-- The way a node is spelled, whatever its parts are. -/
def shape (q : Bool) : PNode → Str → Prop
  | .text w, s => s = w
  | .comment w, s => s = "<!--".toList ++ w ++ "-->".toList
  | .cdata w, s => ∃ k, fold k = "[cdata[".toList ∧ s = "<!".toList ++ k ++ w ++ "]]>".toList
  | .doctype n as sc, s => ∃ c t, s = "<!".toList ++ n ++ c :: t ∧ c ∈ ws ∧ TagRest q true as sc (c :: t)
  | .elem n as sc ct ks e, s => ∃ t w, s = "<".toList ++ n ++ t ++ ct.getD [] ++ w ++ printEnd e ∧ nameOver t ∧
      TagRest q false as sc t ∧ shapes q ks w ∧ (e ≠ none → ∀ p ∈ ks, closesParent p = false)

def shapes (q : Bool) : List PNode → Str → Prop
  | [], s => s = []
  | p :: ps, s => (closesParent p = true → ps = []) ∧ ∃ a b, s = a ++ b ∧ shape q p a ∧ shapes q ps b
end

theorem shapes_snoc {q : Bool} {p : PNode} {b : Str} (hp : shape q p b) : ∀ {ps : List PNode} {a : Str}, shapes q ps a →
    (∀ x ∈ ps, closesParent x = false) → shapes q (ps ++ [p]) (a ++ b)
  | [], a, h, _ => by
    simp only [shapes] at h
    subst h
    simp only [List.nil_append, shapes]
    exact ⟨fun _ => trivial, b, [], by simp, hp, rfl⟩
  | x :: ps, a, h, hc => by
    simp only [shapes, List.cons_append] at h ⊢
    obtain ⟨_, u, v, rfl, h1, h2⟩ := h
    refine ⟨fun hx => ?_, u, v ++ b, by simp, h1, shapes_snoc hp h2 fun y hy => hc y (by simp [hy])⟩
    rw [hc x (by simp)] at hx; cases hx

theorem shapes_last {q : Bool} {p : PNode} : ∀ {ps : List PNode} {s : Str}, shapes q (ps ++ [p]) s →
    ∃ a b, s = a ++ b ∧ shapes q ps a ∧ shape q p b ∧ ∀ x ∈ ps, closesParent x = false
  | [], s, h => by
    simp only [List.nil_append, shapes] at h
    obtain ⟨_, a, b, rfl, h1, rfl⟩ := h
    exact ⟨[], a, by simp, by simp only [shapes], h1, by simp⟩
  | x :: ps, s, h => by
    simp only [List.cons_append, shapes] at h
    obtain ⟨hx, u, v, rfl, h1, h2⟩ := h
    obtain ⟨a, b, rfl, h3, h4, h5⟩ := shapes_last h2
    have hxf : closesParent x = false := by
      cases hc : closesParent x with
      | false => rfl
      | true => have := hx hc; simp at this
    refine ⟨u ++ a, b, by simp, ?_, h4, ?_⟩
    · simp only [shapes]
      exact ⟨fun hc => absurd hc (by simp [hxf]), u, a, rfl, h1, h3⟩
    · intro y hy
      rcases List.mem_cons.1 hy with rfl | hy
      · exact hxf
      · exact h5 y hy

/-- The text read so far spells the finished nodes of the open elements. -/
def EStk (q : Bool) : List Frame → Str → Prop
  | [], s => s = []
  | [f], s => shapes q f.kids s
  | f :: g :: fs, s => ∃ s0 t w, s = s0 ++ ("<".toList ++ f.name ++ t) ++ w ∧ EStk q (g :: fs) s0 ∧ nameOver t ∧
      TagRest q false f.attrs false t ∧ shapes q f.kids w

/-- What has been read of an unfinished construct. -/
def EPend (q : Bool) (m : Mode) (u : Str) : Prop :=
  match m with
  | .wait _ | .text _ => u = []
  | .lt _ => u = "<".toList
  | .bang none _ => u = "<!".toList
  | .bang (some _) pc => u = "<!".toList ++ pc
  | .comment false pc => u = "<!--".toList ++ pc
  | .comment true pc => ∃ k, fold k = "[cdata[".toList ∧ u = "<!".toList ++ k ++ pc
  | .doctypeName pc => u = "<!".toList ++ pc
  | .tagName pc => u = "<".toList ++ pc
  | .inTag isDoc t => ∃ c w mk, u = (if isDoc then "<!".toList else "<".toList) ++ t.m.name ++ c :: w ∧ (c ∈ ws ∨ isDoc = false ∧ c = '/') ∧
      trun isDoc q ⟨.tagWait, nameMeta t.m.name, [], mk⟩ (c :: w) = some t
  | .tagEnd pc _ => u = "</".toList ++ pc
  | .raw m pc => ∃ t, nameOver t ∧ TagRest q false m.attrs false t ∧ u = "<".toList ++ m.name ++ t ++ pc

/-- A doctype that closes itself has nothing behind it. -/
structure Quiet (a : AState) : Prop where
  over : a.over = true → a.rest = []
  kids : a.over = false → ∀ f ∈ a.top :: a.rest, ∀ p ∈ f.kids, closesParent p = false

/-- What has been read so far. -/
def Exact (q : Bool) (s : Str) (a : AState) : Prop :=
  (∃ s0 u, s = s0 ++ u ∧ EStk q (a.top :: a.rest) s0 ∧ EPend q a.mode u) ∧ Quiet a

theorem Quiet.same {a b : AState} (h : Quiet a) (h1 : b.top = a.top) (h2 : b.rest = a.rest) (h3 : b.over = a.over) : Quiet b :=
  ⟨by rw [h3, h2]; exact h.over, by rw [h3, h2, h1]; exact h.kids⟩

/-- The children of the innermost element grow. -/
theorem EStk.kids {q : Bool} {f : Frame} {fs : List Frame} {s v : Str} {ks : List PNode} (h : EStk q (f :: fs) s)
    (hk : ∀ x, shapes q f.kids x → shapes q ks (x ++ v)) : EStk q ({ f with kids := ks } :: fs) (s ++ v) := by
  cases fs with
  | nil => exact hk _ h
  | cons g gs =>
    obtain ⟨s0, t, w, rfl, h1, h2, h3, h4⟩ := h
    exact ⟨s0, t, w ++ v, by simp, h1, h2, h3, hk _ h4⟩

theorem EStk.push {q : Bool} {f : Frame} {fs : List Frame} {s v : Str} {p : PNode} (h : EStk q (f :: fs) s) (hp : shape q p v)
    (hf : ∀ x ∈ f.kids, closesParent x = false) :
    EStk q ({ f with kids := f.kids ++ [p] } :: fs) (s ++ v) := h.kids fun _ hx => shapes_snoc hp hx hf

theorem EStk.enter {q : Bool} {fs : List Frame} {s t n : Str} {as : List Attr} (hf : fs ≠ []) (h : EStk q fs s) (ht : nameOver t)
    (hl : TagRest q false as false t) : EStk q ({ name := n, attrs := as } :: fs) (s ++ ("<".toList ++ n ++ t)) := by
  cases fs with
  | nil => exact absurd rfl hf
  | cons g gs => exact ⟨s, t, [], by simp, h, ht, hl, by simp only [shapes]⟩

theorem EStk.pop {q : Bool} {f g : Frame} {fs : List Frame} {s : Str} {e : Option Str} (h : EStk q (f :: g :: fs) s)
    (hf : e ≠ none → ∀ x ∈ f.kids, closesParent x = false) (hg : ∀ x ∈ g.kids, closesParent x = false) :
    EStk q ({ g with kids := g.kids ++ [.elem f.name f.attrs false none f.kids e] } :: fs) (s ++ printEnd e) := by
  obtain ⟨s0, t, w, rfl, h1, h2, h3, h4⟩ := h
  have : shape q (.elem f.name f.attrs false none f.kids e) (("<".toList ++ f.name ++ t) ++ w ++ printEnd e) := by
    simp only [shape]
    exact ⟨t, w, by simp, h2, h3, h4, hf⟩
  have := h1.push this hg
  simpa using this

theorem Quiet.push {a : AState} {p : PNode} (h : Quiet a) (hp : closesParent p = false) : Quiet (a.push p) := by
  refine ⟨h.over, fun ho f hf x hx => ?_⟩
  have hk := h.kids ho
  rcases List.mem_cons.1 hf with rfl | hf
  · rcases List.mem_append.1 hx with hx | hx
    · exact hk a.top (by simp) x hx
    · simp only [List.mem_singleton] at hx; rw [hx]; exact hp
  · exact hk f (by rw [show a.rest = (a.push p).rest from rfl]; simp [hf]) x hx

theorem Quiet.pop {a b : AState} {e : Option Str} (h1 : a.over = false) (h : Quiet a) (hr : b.rest = a.rest)
    (ho : b.over = false) : Quiet (b.pop e) := by
  unfold AState.pop
  split
  · rename_i hr'
    exact ⟨fun _ => hr', fun ho => absurd ho (by simp)⟩
  · rename_i g gs hr'
    have hk := h.kids h1
    rw [← hr, hr'] at hk
    refine ⟨fun h => absurd h (by simp [ho]), fun _ f hf x hx => ?_⟩
    rcases List.mem_cons.1 hf with rfl | hf
    · rcases List.mem_append.1 hx with hx | hx
      · exact hk g (by simp) x hx
      · simp only [List.mem_singleton] at hx; rw [hx]; rfl
    · exact hk f (by simp [hf]) x hx

theorem Exact.openTag {q : Bool} {s : Str} {a : AState} {m : TagMeta} {s0 t : Str} (ho : a.over = false) (hq : Quiet a)
    (h1 : EStk q (a.top :: a.rest) s0) (ht : nameOver t) (h2 : TagRest q false m.attrs false t)
    (hs : s = s0 ++ ("<".toList ++ m.name ++ t)) (mk : Char) : Exact q s { a.openTag m [] with mark := mk } := by
  unfold AState.openTag
  by_cases hv : m.isVoid = true
  · rw [if_pos hv]
    refine ⟨⟨s, [], by simp, ?_, rfl⟩, (hq.push (p := .elem m.name m.attrs false none [] none) rfl).same rfl rfl rfl⟩
    rw [hs]
    exact h1.push (by simp only [shape, shapes]; exact ⟨t, [], by simp [printEnd], ht, h2, rfl, fun h => absurd rfl h⟩)
      (hq.kids ho _ (by simp))
  rw [if_neg hv]
  by_cases hr : isContentTag (lowerAll m.name) none = true
  · rw [if_pos hr]
    exact ⟨⟨s0, _, hs, h1, t, ht, h2, by simp⟩, hq.same rfl rfl rfl⟩
  · rw [if_neg hr]
    refine ⟨⟨s, [], by simp, ?_, rfl⟩, ?_⟩
    · rw [hs]
      exact h1.enter (by simp) ht h2
    · refine ⟨fun h => absurd h (by simp [ho]), fun _ f hf x hx => ?_⟩
      rcases List.mem_cons.1 hf with rfl | hf
      · cases hx
      · exact hq.kids ho f hf x hx

theorem piece_name (isDoc q : Bool) (n : Str) (mk : Char) : Piece isDoc q ⟨.tagWait, nameMeta n, [], mk⟩ [] [] := by
  unfold Piece
  exact ⟨rfl, rfl, isGap_nil, by simp⟩

/-- A tag is over. -/
theorem tag_over {isDoc q : Bool} {n w : Str} {mk c : Char} {t : TagSt} {as : List Attr} {sc : Bool}
    (h : trun isDoc q ⟨.tagWait, nameMeta n, [], mk⟩ w = some t) (hc : tagEnds isDoc q t [c] = some (as, some sc)) :
    TagRest q isDoc as sc (w ++ [c]) := by
  obtain ⟨bs, e1, e2⟩ := tagEnds_sound _ _ _ _ (piece_name isDoc q n mk) ((tagEnds_trun w [c] _ t h).trans hc)
  have : as = bs := by simpa using e1
  subst this
  exact e2

theorem trun_snoc {isDoc q : Bool} {t t' t'' : TagSt} {w : Str} {c : Char} {id : Option Str} (h : trun isDoc q t w = some t')
    (hc : tagChar isDoc q t' c = .cont t'' id) : trun isDoc q t (w ++ [c]) = some t'' := by
  rw [trun_append, h]
  simp only [Option.bind_some, trun, hc]

theorem Exact.step {o : ParseOptions} {s : Str} {a a' : AState} {c : Char} (h1 : o.autoFixUnescapedLt = false)
    (h2 : o.autoFixUnexpectedEndtag = false) (hw : WfInv o a) (hi : Exact o.allowAttrKeyStartsWithEqualSign s a)
    (st : AStep o a c a') : Exact o.allowAttrKeyStartsWithEqualSign (s ++ [c]) a' := by
  obtain ⟨⟨s0, u, hs, hk, hp⟩, hq⟩ := hi
  have hmo := hw.mode
  unfold ModeOk at hmo
  cases st with
  | lt hm =>
    refine ⟨⟨s0, ['<'], ?_, hk, rfl⟩, hq.same rfl rfl rfl⟩
    rcases hm with hm | ⟨p, _, hm⟩ <;> rw [hm] at hp <;> rw [hs, show u = [] from hp] <;> simp
  | resume hm ho => rw [h2] at ho; cases ho
  | start hm hl hover hc =>
    rw [hm] at hp
    exact ⟨⟨s0 ++ [c], [], by rw [hs, show u = [] from hp]; simp, hk.push (p := .text [c]) (by simp only [shape]) (hq.kids hover _ (by simp)), rfl⟩,
      (hq.push (p := .text [c]) rfl).same rfl rfl rfl⟩
  | more hm hc =>
    rename_i p
    rw [hm] at hp
    have hl := hw.last
    unfold LastFits at hl
    rw [hm] at hl
    cases p with
    | nested => obtain ⟨q, _⟩ := hl; rw [h1] at q; cases q
    | top =>
      obtain ⟨xs, w, e⟩ := hl
      have em : addTextAt Place.top [c] a.top.kids = xs ++ [.text (w ++ [c])] := by
        rw [e]; simp only [addTextAt]; rw [modLast_append _ _ (by simp)]; rfl
      refine ⟨⟨s0 ++ [c], [], by rw [hs, show u = [] from hp]; simp, ?_, by rw [show (a.more .top [c]).mode = a.mode from rfl, hm]; rfl⟩,
        hq.over, ?_⟩
      · refine hk.kids fun x hx => ?_
        rw [em]
        rw [e] at hx
        obtain ⟨y, z, rfl, k1, k2, k3⟩ := shapes_last hx
        simp only [shape] at k2
        subst k2
        rw [List.append_assoc]
        exact shapes_snoc (by simp only [shape]) k1 k3
      · intro ho f hf x hx
        have hkk := hq.kids ho
        rcases List.mem_cons.1 hf with rfl | hf
        · have hx : x ∈ addTextAt Place.top [c] a.top.kids := hx
          rw [em] at hx
          rcases List.mem_append.1 hx with hx | hx
          · exact hkk a.top (by simp) x (by rw [e]; simp [hx])
          · simp only [List.mem_singleton] at hx; rw [hx]; rfl
        · exact hkk f (by rw [show a.rest = (a.more .top [c]).rest from rfl]; simp [hf]) x hx
  | tagOpen hm hc hover =>
    rw [hm] at hp
    exact ⟨⟨s0, _, by rw [hs, List.append_assoc], hk, by rw [show u = "<".toList from hp]; rfl⟩, hq.same rfl rfl rfl⟩
  | endOpen hm =>
    rw [hm] at hp
    exact ⟨⟨s0, _, by rw [hs, List.append_assoc], hk, by rw [show u = "<".toList from hp]; rfl⟩, hq.same rfl rfl rfl⟩
  | bangOpen hm =>
    rw [hm] at hp
    exact ⟨⟨s0, _, by rw [hs, List.append_assoc], hk, by rw [show u = "<".toList from hp]; rfl⟩, hq.same rfl rfl rfl⟩
  | ltMore hm ho => rw [h1] at ho; cases ho
  | ltFill hm ho => rw [h1] at ho; cases ho
  | ltPush hm ho => rw [h1] at ho; cases ho
  | bangDash hm =>
    rw [hm] at hp
    exact ⟨⟨s0, _, by rw [hs, List.append_assoc], hk, by rw [show u = "<!".toList from hp]; rfl⟩, hq.same rfl rfl rfl⟩
  | bangD hm hc =>
    rw [hm] at hp
    exact ⟨⟨s0, _, by rw [hs, List.append_assoc], hk, by rw [show u = "<!".toList from hp]; rfl⟩, hq.same rfl rfl rfl⟩
  | bangC hm =>
    rw [hm] at hp
    exact ⟨⟨s0, _, by rw [hs, List.append_assoc], hk, by rw [show u = "<!".toList from hp]; rfl⟩, hq.same rfl rfl rfl⟩
  | bangMore hm hc hl =>
    rename_i D pc
    rw [hm] at hp
    exact ⟨⟨s0, _, by rw [hs, List.append_assoc], hk, by rw [show u = "<!".toList ++ pc from hp]; simp [EPend]⟩, hq.same rfl rfl rfl⟩
  | commentOpen hm hc hl hover =>
    rename_i pc
    rw [hm] at hp hmo
    have hlen : pc.length = 1 := by
      have : pc.length < detectComment.length := by
        rcases Nat.lt_or_ge pc.length detectComment.length with h | h
        · exact h
        · rw [List.getElem?_eq_none h] at hc; cases hc
      simp only [detectComment] at this hl
      simp at this hl
      omega
    have hpc : pc = ['-'] := by
      match pc, hlen with
      | [x], _ =>
        have := hmo.2
        simp only [detectComment, List.map_cons, List.map_nil, List.length_cons, List.length_nil] at this
        have : toUpper x = '-' := by simpa using this
        rw [(toUpper_eq_dash x).1 this]
    have hcd : c = '-' := by
      rw [hlen] at hc
      have : toUpper c = '-' := by simpa [detectComment, eq_comm] using hc
      exact (toUpper_eq_dash c).1 this
    exact ⟨⟨s0, _, by rw [hs, List.append_assoc], hk, by rw [show u = "<!".toList ++ pc from hp, hpc, hcd]; rfl⟩, hq.same rfl rfl rfl⟩
  | cdataOpen hm hc hl hover =>
    rename_i pc
    rw [hm] at hp hmo
    refine ⟨⟨s0, _, by rw [hs, List.append_assoc], hk, pc ++ [c], ?_, by rw [show u = "<!".toList ++ pc from hp]; simp⟩, hq.same rfl rfl rfl⟩
    have hlen : pc.length = 6 := by
      have : pc.length < detectCdata.length := by
        rcases Nat.lt_or_ge pc.length detectCdata.length with h | h
        · exact h
        · rw [List.getElem?_eq_none h] at hc; cases hc
      simp only [detectCdata] at this hl
      simp at this hl
      omega
    have hup : (pc ++ [c]).map toUpper = detectCdata := by
      rw [List.map_append, hmo.2, hlen]
      rw [hlen] at hc
      simp only [detectCdata] at hc ⊢
      simp at hc ⊢
      exact hc.symm
    rw [fold_of_upper hup]; decide +kernel
  | doctypeOpen hm hd1 hd2 hc hl hover =>
    rename_i D pc
    rw [hm] at hp
    exact ⟨⟨s0, _, by rw [hs, List.append_assoc], hk, by rw [show u = "<!".toList ++ pc from hp]; simp [EPend]⟩, hq.same rfl rfl rfl⟩
  | commentClose hm hb =>
    rename_i cd pc b
    rw [hm] at hp hmo
    have hb := ((commentBody_iff _ _ _).1 hb).2
    refine ⟨⟨s ++ ['>'], [], by simp, ?_, rfl⟩, (hq.push (p := if cd then .cdata b else .comment b) (by cases cd <;> rfl)).same rfl rfl rfl⟩
    rw [hs, List.append_assoc]
    refine hk.push ?_ (hq.kids hmo.1 _ (by simp))
    cases cd with
    | false =>
      simp only [shape, Bool.false_eq_true, if_false]
      rw [show u = "<!--".toList ++ pc from hp, hb]; simp
    | true =>
      obtain ⟨k, k1, k2⟩ := hp
      simp only [shape, if_true]
      exact ⟨k, k1, by rw [k2, hb]; simp⟩
  | commentMore hm hb =>
    rename_i cd pc
    rw [hm] at hp
    refine ⟨⟨s0, u ++ [c], by rw [hs, List.append_assoc], hk, ?_⟩, hq.same rfl rfl rfl⟩
    cases cd with
    | false => rw [show u = "<!--".toList ++ pc from hp]; simp [EPend]
    | true =>
      obtain ⟨k, k1, k2⟩ := hp
      exact ⟨k, k1, by rw [k2]; simp⟩
  | doctypeName hm hc =>
    rename_i pc
    rw [hm] at hp
    refine ⟨⟨s0, u ++ [c], by rw [hs, List.append_assoc], hk, c, [], a.mark, by rw [show u = "<!".toList ++ pc from hp]; simp,
      Or.inl ((isWs_mem c).1 hc), ?_⟩, hq.same rfl rfl rfl⟩
    simp only [trun]
    rw [Waits.space (t := ⟨.tagWait, nameMeta pc, [], a.mark⟩) ⟨Or.inl rfl, rfl⟩ hc]
  | nameMore hm hc =>
    rename_i pc
    rw [hm] at hp
    exact ⟨⟨s0, _, by rw [hs, List.append_assoc], hk, by rw [show u = "<".toList ++ pc from hp]; simp [EPend]⟩, hq.same rfl rfl rfl⟩
  | nameEnd hm hc =>
    rename_i pc
    rw [hm] at hp
    have hw : Waits ⟨.tagWait, nameMeta pc, [], a.mark⟩ := ⟨Or.inl rfl, rfl⟩
    refine ⟨⟨s0, u ++ [c], by rw [hs, List.append_assoc], hk, c, [], a.mark, by rw [show u = "<".toList ++ pc from hp]; simp, ?_, ?_⟩,
      hq.same rfl rfl rfl⟩
    · rcases hc.2 with h | h
      · exact Or.inr ⟨rfl, h⟩
      · exact Or.inl ((isWs_mem c).1 h)
    · rcases hc.2 with h | h
      · subst h
        simp only [trun]
        rw [show ({ name := pc, isVoid := isVoidTag (lowerAll pc) } : TagMeta) = nameMeta pc from rfl, hw.slash]
        rfl
      · have hne : c ≠ '/' := by rintro rfl; revert h; decide
        simp only [trun, hne, if_false]
        rw [show ({ name := pc, isVoid := isVoidTag (lowerAll pc) } : TagMeta) = nameMeta pc from rfl, hw.space h]
  | nameClose hm =>
    rename_i pc
    rw [hm] at hp hmo
    have := Exact.openTag (s := s ++ ['>']) (t := ['>']) (m := { name := pc, isVoid := isVoidTag (lowerAll pc) }) hmo.1 hq hk
      ⟨'>', rfl, Or.inr (Or.inr rfl)⟩ (TagRest.close (g := []) isGap_nil)
      (by rw [hs, show u = "<".toList ++ pc from hp]; simp) (a.openTag { name := pc, isVoid := isVoidTag (lowerAll pc) } []).mark
    exact this
  | tagMore hm ht =>
    rename_i isDoc t t' id
    rw [hm] at hp hmo
    obtain ⟨x, w, mk, e, k1, k2⟩ := hp
    have hn : t'.m.name = t.m.name := (tagChar_cont hmo.2.ok ht).2.1.name
    refine ⟨⟨s0, u ++ [c], by rw [hs, List.append_assoc], hk, x, w ++ [c], mk, by rw [e, hn]; simp, k1, ?_⟩, hq.same rfl rfl rfl⟩
    rw [hn]
    exact trun_snoc k2 ht
  | docClose hm ht =>
    rename_i t m pc mk id
    rw [hm] at hp hmo
    obtain ⟨x, w, mk', e, k1, k2⟩ := hp
    obtain ⟨j1, j2, j3⟩ := tagChar_close hmo.2.ok ht
    have k3 := tag_over (c := c) (as := m.attrs) (sc := false) k2 (by simp only [tagEnds, ht, if_true])
    refine ⟨⟨s ++ [c], [], by simp, ?_, rfl⟩, (hq.push (p := .doctype m.name m.attrs false) rfl).same rfl rfl rfl⟩
    rw [hs, List.append_assoc]
    refine hk.push ?_ (hq.kids hmo.1 _ (by simp))
    simp only [shape]
    refine ⟨x, w ++ [c], by rw [e, j1.name]; simp, ?_, k3⟩
    rcases k1 with h | ⟨h, _⟩
    · exact h
    · cases h
  | tagClose hm ht =>
    rename_i t m pc mk id
    rw [hm] at hp hmo
    obtain ⟨x, w, mk', e, k1, k2⟩ := hp
    obtain ⟨j1, j2, j3⟩ := tagChar_close hmo.2.ok ht
    subst j2
    have k3 := tag_over (c := c) (as := m.attrs) (sc := false) k2 (by simp only [tagEnds, ht, if_true])
    refine Exact.openTag hmo.1 hq hk (t := (x :: w) ++ [c]) ⟨x, rfl, ?_⟩ k3 (by rw [hs, e, j1.name]; simp) _
    rcases k1 with h | ⟨_, h⟩
    · exact Or.inl h
    · exact Or.inr (Or.inl h)
  | docSelf hm ht =>
    rename_i t
    rw [hm] at hp hmo
    obtain ⟨x, w, mk', e, k1, k2⟩ := hp
    have k3 := tag_over (c := c) (as := t.m.attrs) (sc := true) k2 (by simp only [tagEnds, ht, if_true])
    have hk' : EStk o.allowAttrKeyStartsWithEqualSign ((a.push (.doctype t.m.name t.m.attrs true)).top ::
        (a.push (.doctype t.m.name t.m.attrs true)).rest) (s ++ [c]) := by
      rw [hs, List.append_assoc]
      refine hk.push ?_ (hq.kids hmo.1 _ (by simp))
      simp only [shape]
      refine ⟨x, w ++ [c], by rw [e]; simp, ?_, k3⟩
      rcases k1 with h | ⟨h, _⟩
      · exact h
      · cases h
    have hqq := Quiet.pop (b := a.push (.doctype t.m.name t.m.attrs true)) (e := none) hmo.1 hq rfl hmo.1
    refine ⟨⟨s ++ [c], [], by simp, ?_, rfl⟩, hqq.same rfl rfl rfl⟩
    have hg : ∀ f ∈ (a.push (.doctype t.m.name t.m.attrs true)).rest, ∀ x ∈ f.kids, closesParent x = false :=
      fun f hf => hq.kids hmo.1 f (List.mem_cons_of_mem _ hf)
    generalize a.push (.doctype t.m.name t.m.attrs true) = b at hk' hg
    unfold AState.pop
    split
    · exact hk'
    · rename_i g gs hr
      rw [hr] at hk' hg
      have := hk'.pop (e := none) (fun h => absurd rfl h) (hg g (by simp))
      simpa [printEnd] using this
  | tagSelf hm ht ho =>
    rename_i t
    rw [hm] at hp hmo
    obtain ⟨x, w, mk', e, k1, k2⟩ := hp
    have k3 := tag_over (c := c) (as := t.m.attrs) (sc := true) k2 (by simp only [tagEnds, ht, if_true])
    refine ⟨⟨s ++ [c], [], by simp, ?_, rfl⟩, (hq.push (p := .elem t.m.name t.m.attrs true none [] none) rfl).same rfl rfl rfl⟩
    rw [hs, List.append_assoc]
    refine hk.push ?_ (hq.kids hmo.1 _ (by simp))
    simp only [shape, shapes]
    refine ⟨(x :: w) ++ [c], [], by rw [e]; simp [printEnd], ⟨x, rfl, ?_⟩, k3, rfl, fun h => absurd rfl h⟩
    rcases k1 with h | ⟨_, h⟩
    · exact Or.inl h
    · exact Or.inr (Or.inl h)
  | endMore hm hc =>
    rename_i pc ret
    rw [hm] at hp
    exact ⟨⟨s0, _, by rw [hs, List.append_assoc], hk, by rw [show u = "</".toList ++ pc from hp]; simp [EPend]⟩, hq.same rfl rfl rfl⟩
  | endMatch hm hr he hcase =>
    rename_i pc ret
    rw [hm] at hp
    have ho : a.over = false := by
      cases h : a.over with
      | false => rfl
      | true => exact absurd (hq.over h) hr
    have hqq := Quiet.pop (b := a) (e := some pc) ho hq rfl ho
    refine ⟨⟨s ++ ['>'], [], by simp, ?_, rfl⟩, hqq.same rfl rfl rfl⟩
    have hkk := hq.kids ho
    simp only
    unfold AState.pop
    split
    · rename_i hr'; exact absurd hr' hr
    · rename_i g gs hr'
      rw [hr'] at hk hkk
      have := hk.pop (e := some pc) (fun _ => hkk _ (by simp)) (hkk g (by simp))
      rw [hs, show u = "</".toList ++ pc from hp]
      simpa [printEnd] using this
  | endStray hm he ho => rw [h2] at ho; cases ho
  | rawClose hm hb =>
    rename_i m pc n
    rw [hm] at hp hmo
    obtain ⟨t, k0, k1, k2⟩ := hp
    obtain ⟨x, k, e1, _, e2⟩ := (rawBody_spec (by simpa using hmo.2.tag.name.1)).1 hb
    refine ⟨⟨s ++ ['>'], [], by simp, ?_, rfl⟩,
      (hq.push (p := .elem m.name m.attrs false (some (pc.take n)) [] (some (pc.drop (n + 2)))) rfl).same rfl rfl rfl⟩
    rw [hs, List.append_assoc]
    refine hk.push ?_ (hq.kids hmo.1 _ (by simp))
    simp only [shape, shapes]
    refine ⟨t, [], ?_, k0, k1, rfl, by simp⟩
    have d1 : pc.take n = x := by rw [e1, ← e2]; simp
    have d2 : pc.drop (n + 2) = k := by rw [e1, ← e2, ← List.drop_drop]; simp
    rw [k2, d1, d2, e1]
    simp [printEnd]
  | rawMore hm hb =>
    rename_i m pc
    rw [hm] at hp
    obtain ⟨t, k0, k1, k2⟩ := hp
    exact ⟨⟨s0, u ++ [c], by rw [hs, List.append_assoc], hk, t, k0, k1, by rw [k2]; simp⟩, hq.same rfl rfl rfl⟩

theorem quiet_init : ({} : AState).over = false → ∀ f ∈ ({} : AState).top :: ({} : AState).rest, ∀ p ∈ f.kids, closesParent p = false := by
  intro _ f hf x hx
  have hf : f ∈ [({} : Frame)] := hf
  rw [List.mem_singleton.1 hf] at hx
  cases hx

/-- The machine has read a spelling of what it has built. -/
theorem Exact.run {o : ParseOptions} {s : Str} {a : AState} (h1 : o.autoFixUnescapedLt = false)
    (h2 : o.autoFixUnexpectedEndtag = false) (h : arun o {} s = some a) : Exact o.allowAttrKeyStartsWithEqualSign s a :=
  (arun_inv (P := fun s a => WfInv o a ∧ Exact o.allowAttrKeyStartsWithEqualSign s a)
    (fun _ _ _ _ k st => ⟨k.1.step st, k.2.step h1 h2 k.1 st⟩) s [] {} a
    ⟨WfInv.init o, ⟨[], [], rfl, by simp only [EStk, shapes], rfl⟩, ⟨fun h => absurd h (by simp), quiet_init⟩⟩ h).2

/-- A spelling of well-formed parts. -/
theorem spells_of {o : ParseOptions} (h1 : o.autoFixUnescapedLt = false) (h2 : o.autoFixUnexpectedEndtag = false) :
    (∀ p : PNode, ∀ (ctx parent : Option Str) (s : Str), okNode o ctx parent p → shape o.allowAttrKeyStartsWithEqualSign p s →
      spells o ctx parent p s) ∧
    (∀ ps : List PNode, ∀ (ctx parent : Option Str) (s : Str), okNodes o ctx parent ps →
      shapes o.allowAttrKeyStartsWithEqualSign ps s → spellsAll o ctx parent ps s) := by
  have hhole : ∀ ks, holeOk o ks → ks = [] := by
    rintro ks (h | ⟨h, _⟩)
    · exact h
    · rw [h1] at h; cases h
  apply PNode.induct
  · intro w ctx parent s hok hs
    simp only [okNode, shape, spells] at *
    exact ⟨hs, hok.1, hok.2⟩
  · intro w ctx parent s hok hs
    simp only [okNode, shape, spells] at *
    exact ⟨hs, hok.1, hok.2⟩
  · intro w ctx parent s hok hs
    simp only [okNode, shape, spells] at *
    exact ⟨hs, hok⟩
  · intro n as sc ctx parent s hok hs
    simp only [okNode, shape, spells] at *
    exact ⟨hok.1, hs⟩
  · intro n as sc ct ks e ih ctx parent s hok hs
    simp only [okNode, shape, spells] at *
    obtain ⟨k1, _, k3⟩ := hok
    obtain ⟨t, w, rfl, h3, h4, h5, h6⟩ := hs
    refine ⟨k1, t, ct.getD [] ++ w ++ printEnd e, by simp, h3, h4, ?_⟩
    by_cases hsc : sc = true
    · rw [if_pos hsc] at k3 ⊢
      obtain ⟨rfl, rfl, rfl, k⟩ := k3
      simp only [shapes] at h5
      subst h5
      exact ⟨rfl, rfl, rfl, rfl, k⟩
    rw [if_neg hsc] at k3 ⊢
    by_cases hv : isVoid n
    · rw [if_pos hv] at k3 ⊢
      obtain ⟨rfl, k, rfl⟩ := k3
      have := hhole _ k
      subst this
      simp only [shapes] at h5
      subst h5
      exact ⟨rfl, rfl, rfl, rfl⟩
    rw [if_neg hv] at k3 ⊢
    by_cases hr : isRaw n
    · rw [if_pos hr] at k3 ⊢
      obtain ⟨k, x, e', rfl, rfl, kc, kx⟩ := k3
      have := hhole _ k
      subst this
      simp only [shapes] at h5
      subst h5
      exact ⟨rfl, x, e', by simp [printEnd], rfl, rfl, kc, kx⟩
    rw [if_neg hr] at k3 ⊢
    obtain ⟨rfl, ke, kk⟩ := k3
    refine ⟨rfl, w, ih _ _ _ kk h5, ?_⟩
    rcases ke with ⟨e', rfl, ke⟩ | ⟨rfl, n', as', ke⟩
    · exact Or.inl ⟨e', by simp [printEnd], rfl, ke, h6 (by simp)⟩
    · exact Or.inr ⟨by simp [printEnd], rfl, _, List.mem_of_getLast? ke, rfl⟩
  · intro ctx parent s hok hs
    simp only [shapes, spellsAll] at *
    exact hs
  · intro p ps ihp ihps ctx parent s hok hs
    simp only [okNodes, shapes, spellsAll] at *
    obtain ⟨k1, k2, k3⟩ := hok
    obtain ⟨h3, a, b, h4, h5, h6⟩ := hs
    exact ⟨k2 (Or.inl h2), h3, a, b, h4, ihp _ _ _ k1 h5, ihps _ _ _ k3 h6⟩

/-- **The documents read are exactly those the text spells.** -/
theorem arun_spelled_iff {o : ParseOptions} {s : Str} {ps : List PNode} (h0 : o.autoFixUnclosedTag = false)
    (h1 : o.autoFixUnescapedLt = false) (h2 : o.autoFixUnexpectedEndtag = false) :
    (∃ a, arun o {} s = some a ∧ a.final o = true ∧ a.result = ps) ↔ spellsAll o none none ps s := by
  constructor
  · rintro ⟨a, ha, hf, rfl⟩
    have hok := result_ok ha
    obtain ⟨⟨s0, u, rfl, hk, hp⟩, _⟩ := Exact.run h1 h2 ha
    have hr : a.rest = [] := by
      simp only [AState.final, h0, Bool.or_false, Bool.and_eq_true, List.isEmpty_iff] at hf
      exact hf.2
    have hu : u = [] := by
      unfold AState.final at hf
      unfold EPend at hp
      split at hp
      all_goals first
        | exact hp
        | (rename_i hm; rw [hm] at hf; simp at hf)
    have hres : a.result = a.top.kids := by simp [AState.result, hr, AState.closeAll]
    rw [hr] at hk
    rw [hres] at hok ⊢
    rw [hu, List.append_nil]
    exact (spells_of h1 h2).2 _ _ _ _ hok hk
  · exact arun_spelled

end Rphtml
