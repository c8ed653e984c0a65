import Verif.Props.Scan
import Verif.Proofs.Hoist
import Verif.Spec.Size

/-!
# How long the source text of a document can get
-/

namespace Rphtml
open Spec

/-- The length of what has been read so far; with `b` also of the end tags that are still to come. -/
def pot (b : Bool) (f : Frame) : List Frame → Nat
  | [] => (printNodes f.kids).length
  | g :: gs => (printOpen f.name f.attrs false).length + (printNodes f.kids).length + (if b then f.name.length + 3 else 0) + pot b g gs

theorem pot_kids (b : Bool) (f f' : Frame) (h1 : f'.name = f.name) (h2 : f'.attrs = f.attrs) (n : Nat)
    (h : (printNodes f'.kids).length ≤ (printNodes f.kids).length + n) : ∀ fs, pot b f' fs ≤ pot b f fs + n
  | [] => h
  | g :: gs => by simp only [pot, h1, h2]; omega

theorem closeUp_length : ∀ (fs : List Frame) (f : Frame), (printNodes (Sit.closeUp f.kids f fs)).length = pot true f fs
  | [], f => rfl
  | g :: gs, f => by
    unfold Sit.closeUp
    have := closeUp_length gs { g with kids := g.kids ++ [.elem f.name f.attrs false none f.kids (some f.name)] }
    have e : Sit.closeUp (g.kids ++ [.elem f.name f.attrs false none f.kids (some f.name)]) { g with kids := g.kids ++ [.elem f.name f.attrs false none f.kids (some f.name)] } gs =
        Sit.closeUp (g.kids ++ [.elem f.name f.attrs false none f.kids (some f.name)]) g gs := by
      cases gs <;> rfl
    rw [show Sit.closeUp (Frame.kids { g with kids := g.kids ++ [.elem f.name f.attrs false none f.kids (some f.name)] }) _ gs = _ from e] at this
    rw [this]
    cases gs with
    | nil => simp [pot, printNodes, printNode, printEnd]; omega
    | cons g2 gs => simp [pot, printNodes, printNode, printEnd]; omega

theorem printAttrs_cons (a : Attr) (as : List Attr) : (printAttrs (a :: as)).length = 1 + (printAttr a).length + (printAttrs as).length := by
  simp [printAttrs]; omega

theorem attrName_pos {a b : Bool} {k : Str} (h : attrName a b k) : 1 ≤ k.length := by
  cases k with
  | nil => exact h.elim
  | cons c cs => simp

theorem plainValue_pos {k : Str} (h : plainValue k) : 1 ≤ k.length := by
  cases k with
  | nil => exact h.elim
  | cons c cs => simp

theorem equals_pos {w : Str} (h : Spec.equals w) : 1 ≤ w.length := by
  obtain ⟨u, rfl, _⟩ := h; simp

theorem TagRest.length {a b : Bool} {as : List Attr} {sc : Bool} {t : Str} (h : TagRest a b as sc t) :
    (printAttrs as).length + (if sc then 2 else 0) + 2 ≤ 2 * t.length := by
  have gap : ∀ g : Str, (if decide ('/' ∈ g) = true then 2 else 0) ≤ 2 * g.length := by
    intro g
    split
    · rename_i h
      have h := of_decide_eq_true h
      cases g with
      | nil => cases h
      | cons => simp; omega
    · omega
  induction h with
  | close hg => have := gap ‹_›; simp [printAttrs] at this ⊢; omega
  | bare hg hk h1 h2 h3 ih =>
    have := attrName_pos hk
    rw [printAttrs_cons]; simp [printAttr] at ih ⊢; omega
  | @unfilled g k w h hg hk hw hh =>
    have := gap h; have := attrName_pos hk; have := equals_pos hw
    rw [printAttrs_cons]; simp [printAttr, printAttrs] at this ⊢; simp at *; omega
  | plain hg hk hw hh hv h1 h2 ih =>
    have := attrName_pos hk; have := equals_pos hw; have := plainValue_pos hv
    rw [printAttrs_cons]; simp [printAttr] at ih ⊢; omega
  | quoted hg hk hw hh hv h1 ih =>
    have := attrName_pos hk; have := equals_pos hw
    rw [printAttrs_cons]; simp [printAttr] at ih ⊢; omega
  | lone h0 hg hv h1 ih =>
    rw [printAttrs_cons]; simp [printAttr] at ih ⊢; omega

theorem TagHalf.length {a : Bool} {as : List Attr} {t : Str} (h : TagHalf a as t) : (printAttrs as).length ≤ 2 * t.length := by
  induction h with
  | gap hg => simp [printAttrs]
  | name hg hk => have := attrName_pos hk; rw [printAttrs_cons]; simp [printAttr, printAttrs]; omega
  | equals hg hk hw hh => have := attrName_pos hk; rw [printAttrs_cons]; simp [printAttr, printAttrs]; omega
  | inPlain hg hk hw hh hv => have := attrName_pos hk; rw [printAttrs_cons]; simp [printAttr, printAttrs]; omega
  | inQuoted hg hk hw hh hv => have := attrName_pos hk; rw [printAttrs_cons]; simp [printAttr, printAttrs]; omega
  | bare hg hk h1 h2 h3 ih => have := attrName_pos hk; rw [printAttrs_cons]; simp [printAttr] at ih ⊢; omega
  | plain hg hk hw hh hv h1 h2 ih =>
    have := attrName_pos hk; have := equals_pos hw; have := plainValue_pos hv
    rw [printAttrs_cons]; simp [printAttr] at ih ⊢; omega
  | quoted hg hk hw hh hv h1 ih =>
    have := attrName_pos hk; have := equals_pos hw
    rw [printAttrs_cons]; simp [printAttr] at ih ⊢; omega

/-! ## Adding text -/

theorem modLast_length (f : PNode → PNode) (n : Nat) (hf : ∀ p, (printNode (f p)).length ≤ (printNode p).length + n) :
    ∀ ks, (printNodes (modLast f ks)).length ≤ (printNodes ks).length + n
  | [] => by simp [modLast]
  | [a] => by have := hf a; simp [modLast, printNodes]; omega
  | a :: b :: as => by
    have := modLast_length f n hf (b :: as)
    simp only [modLast]
    rw [show printNodes (a :: modLast f (b :: as)) = printNode a ++ printNodes (modLast f (b :: as)) from rfl,
      show printNodes (a :: b :: as) = printNode a ++ printNodes (b :: as) from rfl]
    simp only [List.length_append]; omega

theorem addText_length (w : Str) (p : PNode) : (printNode (PNode.addText w p)).length ≤ (printNode p).length + w.length := by
  cases p <;> simp [PNode.addText, printNode]

theorem modKids_length (f : List PNode → List PNode) (n : Nat) (hf : ∀ ks, (printNodes (f ks)).length ≤ (printNodes ks).length + n)
    (p : PNode) : (printNode (PNode.modKids f p)).length ≤ (printNode p).length + n := by
  cases p with
  | elem nm as sc ct ks e => have := hf ks; simp [PNode.modKids, printNode]; omega
  | _ => simp [PNode.modKids]

theorem addTextAt_length (p : Place) (w : Str) (ks : List PNode) :
    (printNodes (addTextAt p w ks)).length ≤ (printNodes ks).length + w.length := by
  cases p with
  | top => exact modLast_length _ _ (addText_length w) ks
  | nested => exact modLast_length _ _ (modKids_length _ _ (modLast_length _ _ (addText_length w))) ks

theorem Sit.text_length (b : Bool) (S : Sit) (w : Str) :
    pot b (S.text w).top (S.text w).rest ≤ pot b S.top S.rest + w.length := by
  unfold Sit.text
  split
  · rename_i p _
    exact pot_kids b S.top { S.top with kids := addTextAt p w S.top.kids } rfl rfl _ (addTextAt_length _ w _) S.rest
  · refine pot_kids b S.top { S.top with kids := modLast (PNode.modKids (· ++ [.text w])) S.top.kids } rfl rfl _ (modLast_length _ _ (modKids_length _ _ fun ks => ?_) _) S.rest
    simp [printNodes, printNode]
  · refine pot_kids b S.top { S.top with kids := S.top.kids ++ [.text w] } rfl rfl _ ?_ S.rest
    simp [printNodes, printNode]

theorem Sit.add_length (b : Bool) (S : Sit) (p : PNode) :
    pot b (S.add p).top (S.add p).rest ≤ pot b S.top S.rest + (printNode p).length := by
  refine pot_kids b S.top { S.top with kids := S.top.kids ++ [p] } rfl rfl _ ?_ S.rest
  simp [printNodes]

theorem Sit.close_length (b : Bool) (S : Sit) (e : Option Str) :
    pot b (S.close e).top (S.close e).rest ≤ pot b S.top S.rest + (printEnd e).length := by
  unfold Sit.close
  cases h : S.rest with
  | nil => simp
  | cons g gs =>
    simp only
    have := pot_kids b g { g with kids := g.kids ++ [.elem S.top.name S.top.attrs false none S.top.kids e] } rfl rfl
      ((printOpen S.top.name S.top.attrs false).length + (printNodes S.top.kids).length + (printEnd e).length)
      (by simp [printNodes, printNode]; omega) gs
    simp only [pot]; omega

theorem tagName_pos {n : Str} (h : tagName n) : 1 ≤ n.length := by
  cases n with
  | nil => exact h.elim
  | cons => simp

/-- What has been read is at most `K` times as long as the text; a `<` at the end has not been read yet. -/
theorem Scan.length {o : ParseOptions} {b : Bool} {K : Nat} (h2 : 2 ≤ K) (h3 : b = true → 3 ≤ K) (h4 : o.autoFixUnescapedLt = true → 4 ≤ K)
    {u : Str} {S : Sit} (h : Spec.Scan o u S) : pot b S.top S.rest + (if S.spot = .lt then K else 0) ≤ K * u.length := by
  have mul : ∀ n m : Nat, n ≤ 2 * m → n ≤ K * m := fun n m q => Nat.le_trans q (Nat.mul_le_mul_right m h2)
  have lin : ∀ m : Nat, m ≤ K * m := fun m => mul m m (by omega)
  induction h with
  | nil => simp [pot, printNodes]
  | @text u w S h hs ho hl hw hlt ih =>
    have := Sit.add_length b S (.text w)
    have := lin w.length
    simp [hs, Nat.mul_add, printNode] at *; omega
  | @resume u w S p h hs hl ho hw hlt ih =>
    have := pot_kids b S.top { S.top with kids := addTextAt p w S.top.kids } rfl rfl _ (addTextAt_length p w _) S.rest
    have := lin w.length
    simp [hs, Nat.mul_add, Sit.more] at *; omega
  | lt h hs ih => simp [hs, Nat.mul_add] at *; omega
  | @escape u S h hs ho ih =>
    have := Sit.text_length b S "&lt;".toList
    have := h4 ho
    simp [hs, Nat.mul_add] at *; omega
  | @escapeText u w S c h hs ho hc hlt ih =>
    have := Sit.text_length b S ("&lt;".toList ++ c :: w)
    have := h4 ho
    have := lin (w.length + 1)
    simp [hs, Nat.mul_add] at *; omega
  | @comment u w S h hs ho hw hn ih =>
    have := Sit.add_length b S (.comment w)
    have := mul (w.length + 7) (3 + (w.length + 3)) (by omega)
    simp [hs, Nat.mul_add, Sit.done, printNode] at *; omega
  | @cdata u k w S h hs ho hk hd hw hn ih =>
    have := Sit.add_length b S (.cdata w)
    have hk : k.length = 7 := by have := congrArg List.length hk; simpa [fold] using this
    have := mul (w.length + 12) (1 + 7 + w.length + 3) (by omega)
    simp [hs, Nat.mul_add, Sit.done, printNode, hk] at *; omega
  | @doctype u n t S c as h hs ho hn hc ht ih =>
    have := Sit.add_length b S (.doctype n as false)
    have := TagRest.length ht
    have := mul (n.length + 2 * (t.length + 1) + 1) (1 + n.length + (t.length + 1)) (by omega)
    simp [hs, Nat.mul_add, Sit.done, printNode] at *; omega
  | @doctypeSelf u n t S c as h hs ho hn hc ht ih =>
    have := Sit.add_length b S (.doctype n as true)
    have := Sit.close_length b (S.add (.doctype n as true)) none
    have := TagRest.length ht
    have := mul (n.length + 2 * (t.length + 1) + 1) (1 + n.length + (t.length + 1)) (by omega)
    simp [hs, Nat.mul_add, Sit.done, printNode, printEnd] at *; omega
  | @selfClosed u n t S as h hs ho hn hv ht ha ih =>
    have := Sit.add_length b S (.elem n as true none [] none)
    have := TagRest.length ht
    have := mul (n.length + 2 * t.length) (n.length + t.length) (by omega)
    simp [hs, Nat.mul_add, Sit.done, printNode, printNodes, printOpen, printEnd] at *; omega
  | @void u n t S as h hs ho hn hv ht ha ih =>
    have := Sit.add_length b S (.elem n as false none [] none)
    have := TagRest.length ht
    have := mul (n.length + 2 * t.length) (n.length + t.length) (by omega)
    simp [hs, Nat.mul_add, Sit.done, printNode, printNodes, printOpen, printEnd] at *; omega
  | @raw u n t x e S as h hs ho hn hv ht hr he hx ih =>
    have := Sit.add_length b S (.elem n as false (some x) [] (some e))
    have := TagRest.length ht
    have := mul (n.length + 2 * t.length + x.length + e.length + 3) (n.length + t.length + x.length + 2 + e.length + 1) (by omega)
    simp [hs, Nat.mul_add, Sit.done, printNode, printNodes, printOpen, printEnd] at *; omega
  | @start u n t S as h hs ho hn hv ht n1 n2 ih =>
    have := TagRest.length ht
    have hp := tagName_pos hn
    have : (printOpen n as false).length + (if b then n.length + 3 else 0) ≤ K * (n.length + t.length) + K := by
      cases b with
      | false =>
        have := mul (n.length + 2 * t.length) (n.length + t.length) (by omega)
        simp [printOpen] at *; omega
      | true =>
        have := Nat.mul_le_mul_right (n.length + t.length) (h3 rfl)
        simp [printOpen] at *; omega
    simp [hs, Nat.mul_add, pot, printNodes] at *; omega
  | @close u e S h hs hr hgt he ih =>
    have := Sit.close_length b S (some e)
    have := mul (e.length + 3) (1 + e.length + 1) (by omega)
    simp [hs, Nat.mul_add, Sit.done, printEnd] at *; omega
  | @stray u e S h hs hgt he ho ih =>
    simp [hs, Nat.mul_add, Sit.done] at *; omega

/-! ## Nesting -/

mutual
/-- How much text a node needs at least: three characters for every element around it, and one. -/
def weight : PNode → Nat
  | .elem _ _ _ _ ks _ => 3 + weights ks
  | _ => 1

/-- The same for the heaviest of some nodes. -/
def weights : List PNode → Nat
  | [] => 0
  | p :: ps => max (weight p) (weights ps)
end

theorem depth_weight : (∀ p, 3 * depth p ≤ weight p + 2) ∧ ∀ ps, 3 * depths ps ≤ weights ps + 2 := by
  refine PNode.induct ?_ ?_ ?_ ?_ ?_ ?_ ?_
  · intro w; simp [depth, weight]
  · intro w; simp [depth, weight]
  · intro w; simp [depth, weight]
  · intro n a s; simp [depth, weight]
  · intro n a s ct ks e h; simp only [depth, weight]; omega
  · simp [depths]
  · intro p ps h1 h2; simp only [depths, weights]; omega

theorem weights_append : ∀ (ps qs : List PNode), weights (ps ++ qs) = max (weights ps) (weights qs)
  | [], qs => by simp [weights]
  | p :: ps, qs => by simp only [List.cons_append, weights, weights_append ps qs]; omega

/-- What the nodes read so far weigh, where they stand. -/
def load (f : Frame) : List Frame → Nat
  | [] => weights f.kids
  | g :: gs => max (3 * (gs.length + 1) + weights f.kids) (load g gs)

theorem load_rest (f : Frame) (fs : List Frame) : 3 * fs.length ≤ load f fs := by
  cases fs with
  | nil => simp
  | cons g gs => simp only [load, List.length_cons]; omega

theorem load_kids (f f' : Frame) (n : Nat) (h : weights f'.kids ≤ weights f.kids + n) : ∀ fs, load f' fs ≤ load f fs + n
  | [] => h
  | g :: gs => by simp only [load]; omega

theorem load_add (f f' : Frame) (ps : List PNode) (h : f'.kids = f.kids ++ ps) : ∀ fs, load f' fs ≤ max (load f fs) (3 * fs.length + weights ps)
  | [] => by simp only [load, h, weights_append, List.length_nil]; omega
  | g :: gs => by simp only [load, h, weights_append, List.length_cons]; omega

theorem closeUp_weights : ∀ (fs : List Frame) (f : Frame), weights (Sit.closeUp f.kids f fs) ≤ load f fs
  | [], f => Nat.le_refl _
  | g :: gs, f => by
    unfold Sit.closeUp
    have := closeUp_weights gs { g with kids := g.kids ++ [.elem f.name f.attrs false none f.kids (some f.name)] }
    have e : Sit.closeUp (g.kids ++ [.elem f.name f.attrs false none f.kids (some f.name)]) { g with kids := g.kids ++ [.elem f.name f.attrs false none f.kids (some f.name)] } gs =
        Sit.closeUp (g.kids ++ [.elem f.name f.attrs false none f.kids (some f.name)]) g gs := by
      cases gs <;> rfl
    rw [show Sit.closeUp (Frame.kids { g with kids := g.kids ++ [.elem f.name f.attrs false none f.kids (some f.name)] }) _ gs = _ from e] at this
    have h2 := load_add g { g with kids := g.kids ++ [.elem f.name f.attrs false none f.kids (some f.name)] } _ rfl gs
    simp only [weights, weight] at h2
    simp only [load]
    omega

theorem modLast_weights (f : PNode → PNode) (n : Nat) (hf : ∀ p, weight (f p) ≤ weight p + n) :
    ∀ ks, weights (modLast f ks) ≤ weights ks + n
  | [] => by simp [modLast]
  | [a] => by have := hf a; simp only [modLast, weights]; omega
  | a :: b :: as => by
    have := modLast_weights f n hf (b :: as)
    simp only [modLast, weights] at this ⊢; omega

theorem addText_weight (w : Str) (p : PNode) : weight (PNode.addText w p) ≤ weight p + 1 := by
  cases p <;> simp [PNode.addText, weight]

theorem modKids_weight (f : List PNode → List PNode) (n : Nat) (hf : ∀ ks, weights (f ks) ≤ weights ks + n)
    (p : PNode) : weight (PNode.modKids f p) ≤ weight p + n := by
  cases p with
  | elem nm as sc ct ks e => have := hf ks; simp only [PNode.modKids, weight]; omega
  | _ => simp [PNode.modKids]

theorem addTextAt_weights (p : Place) (w : Str) (ks : List PNode) : weights (addTextAt p w ks) ≤ weights ks + 1 := by
  cases p with
  | top => exact modLast_weights _ _ (addText_weight w) ks
  | nested => exact modLast_weights _ _ (modKids_weight _ _ (modLast_weights _ _ (addText_weight w))) ks

theorem Sit.text_load (S : Sit) (w : Str) : load (S.text w).top (S.text w).rest ≤ load S.top S.rest + 1 := by
  unfold Sit.text
  split
  · rename_i p _
    exact load_kids S.top { S.top with kids := addTextAt p w S.top.kids } _ (addTextAt_weights _ w _) S.rest
  · refine load_kids S.top { S.top with kids := modLast (PNode.modKids (· ++ [.text w])) S.top.kids } _ (modLast_weights _ _ (modKids_weight _ _ fun ks => ?_) _) S.rest
    simp only [weights_append, weights, weight]; omega
  · refine load_kids S.top { S.top with kids := S.top.kids ++ [.text w] } _ ?_ S.rest
    simp only [weights_append, weights, weight]; omega

theorem Sit.add_load (S : Sit) (p : PNode) : load (S.add p).top (S.add p).rest ≤ load S.top S.rest + weight p := by
  have := load_add S.top { S.top with kids := S.top.kids ++ [p] } [p] rfl S.rest
  have h2 := load_rest S.top S.rest
  simp only [weights] at this
  exact Nat.le_trans this (by omega)

theorem Sit.close_load (S : Sit) (e : Option Str) : load (S.close e).top (S.close e).rest ≤ load S.top S.rest := by
  unfold Sit.close
  cases h : S.rest with
  | nil => simp
  | cons g gs =>
    simp only
    have := load_add g { g with kids := g.kids ++ [.elem S.top.name S.top.attrs false none S.top.kids e] } _ rfl gs
    simp only [weights, weight] at this
    simp only [load]; omega

theorem TagRest.pos {a b : Bool} {as : List Attr} {sc : Bool} {t : Str} (h : TagRest a b as sc t) : 1 ≤ t.length := by
  have := TagRest.length h; omega

theorem Scan.load {o : ParseOptions} {u : Str} {S : Sit} (h : Spec.Scan o u S) :
    load S.top S.rest + (if S.spot = .lt then 1 else 0) ≤ u.length := by
  induction h with
  | nil => simp [Rphtml.load, weights]
  | @text u w S h hs ho hl hw hlt ih =>
    have := Sit.add_load S (.text w)
    have := List.length_pos_iff.2 hw
    simp [hs, weight] at *; omega
  | @resume u w S p h hs hl ho hw hlt ih =>
    have := load_kids S.top { S.top with kids := addTextAt p w S.top.kids } _ (addTextAt_weights p w _) S.rest
    have := List.length_pos_iff.2 hw
    simp [hs, Sit.more] at *; omega
  | lt h hs ih => simp [hs] at *; omega
  | @escape u S h hs ho ih =>
    have := Sit.text_load S "&lt;".toList
    simp [hs] at *; omega
  | @escapeText u w S c h hs ho hc hlt ih =>
    have := Sit.text_load S ("&lt;".toList ++ c :: w)
    simp [hs] at *; omega
  | @comment u w S h hs ho hw hn ih =>
    have := Sit.add_load S (.comment w)
    simp [hs, Sit.done, weight] at *; omega
  | @cdata u k w S h hs ho hk hd hw hn ih =>
    have := Sit.add_load S (.cdata w)
    simp [hs, Sit.done, weight] at *; omega
  | @doctype u n t S c as h hs ho hn hc ht ih =>
    have := Sit.add_load S (.doctype n as false)
    simp [hs, Sit.done, weight] at *; omega
  | @doctypeSelf u n t S c as h hs ho hn hc ht ih =>
    have := Sit.add_load S (.doctype n as true)
    have := Sit.close_load (S.add (.doctype n as true)) none
    simp [hs, Sit.done, weight] at *; omega
  | @selfClosed u n t S as h hs ho hn hv ht ha ih =>
    have := Sit.add_load S (.elem n as true none [] none)
    have := TagRest.pos ht
    have := tagName_pos hn
    simp [hs, Sit.done, weight, weights] at *; omega
  | @void u n t S as h hs ho hn hv ht ha ih =>
    have := Sit.add_load S (.elem n as false none [] none)
    have := TagRest.pos ht
    have := tagName_pos hn
    simp [hs, Sit.done, weight, weights] at *; omega
  | @raw u n t x e S as h hs ho hn hv ht hr he hx ih =>
    have := Sit.add_load S (.elem n as false (some x) [] (some e))
    have := TagRest.pos ht
    have := tagName_pos hn
    simp [hs, Sit.done, weight, weights] at *; omega
  | @start u n t S as h hs ho hn hv ht n1 n2 ih =>
    have := TagRest.pos ht
    have := tagName_pos hn
    have := load_rest S.top S.rest
    simp [hs, Rphtml.load, weights] at *; omega
  | @close u e S h hs hr hgt he ih =>
    have := Sit.close_load S (some e)
    simp [hs, Sit.done] at *; omega
  | @stray u e S h hs hgt he ho ih =>
    simp [hs, Sit.done] at *; omega

/-! ## Cells -/

theorem fixHeap_size_le (pos : Nat) : ∀ (ts : List NodeId) (h : Heap), (fixHeap pos h ts).size ≤ h.size + ts.length
  | [], h => Nat.le_refl _
  | t :: ts, h => by
    unfold fixHeap
    split
    · have := fixHeap_size_le pos ts h; simp; omega
    · refine Nat.le_trans (fixHeap_size_le pos ts _) ?_
      simp; omega

/-- One for a `<` whose meaning is not yet known. -/
def wait1 (d : Doc) : Nat := if d.handle = .unkownTag then 1 else 0

/-- The cells there are, and those that the end of the input may add. -/
def cells (d : Doc) : Nat := d.heap.size + (d.chain.length - 1) + wait1 d

theorem closeTag_cells (d : Doc) (m : TagMeta) : cells (d.closeTag m) ≤ d.heap.size + (d.chain.length - 1) := by
  unfold Doc.closeTag cells wait1
  split
  · simp [Doc.setCodeIn]
  · split
    · by_cases h1 : isEqualChars (lowerAll m.name) scriptTagName none = true
      · simp [h1, Doc.setCodeIn]
      · by_cases h2 : isEqualChars (lowerAll m.name) styleTagName none = true
        · simp [h1, h2, Doc.setCodeIn]
        · simp [h1, h2, Doc.setCodeIn]
    · simp [Doc.setCodeIn]

theorem Step.cells {d d' : Doc} {c : Char} (hd : Ctl d) (hs : Step d c d') : cells d' ≤ cells d + 1 := by
  have one : wait1 d' ≤ 1 := by unfold wait1; split <;> omega
  cases hs with
  | tagOpen hh hc p hp =>
    cases hch : d.chain with
    | nil => rw [hch] at hp; cases hp
    | cons a as => simp [Rphtml.cells, wait1, Doc.addChild, Cell.new, hh, hch]; omega
  | nameClose hh hc m hm =>
    refine Nat.le_trans (closeTag_cells _ _) ?_
    simp [Doc.putTag, Rphtml.cells]; omega
  | tagClose hh m hm m' pc mark id ht =>
    refine Nat.le_trans (closeTag_cells _ _) ?_
    simp [Doc.putTag, Rphtml.cells]; omega
  | rawClose hh hc e he n hn =>
    have hk := hd.hs
    unfold HandleOk at hk
    rw [hh] at hk
    have h2 : 2 ≤ d.chain.length := by
      have hl := hd.chainLast
      cases hch : d.chain with
      | nil => rw [hch] at hk; cases hk.2.1
      | cons a as =>
        cases as with
        | nil =>
          rw [hch] at hk hl
          have h0 : a = 0 := by simpa using hl (by simp)
          have h1 : a = d.current := by simpa using hk.2.1
          have := (hd.rootTy 0 hd.sizePos).2 rfl
          have hk1 := hk.1
          unfold Doc.cur at hk1
          rw [← h1, h0, this] at hk1; cases hk1
        | cons b bs => simp
    simp [Rphtml.cells, wait1, Doc.rawHeap]; omega
  | ltExtend hh hf hc ht w hw d1 h1 =>
    subst h1
    unfold Rphtml.cells wait1
    rw [if_pos hh]
    split <;> simp [Doc.endText] <;> omega
  | ltNew hh hf hc ht p hp d1 h1 =>
    subst h1
    unfold Rphtml.cells wait1
    rw [if_pos hh]
    split <;> simp [Doc.endText] <;> omega
  | textStart hh hc hf p hp =>
    simp [Rphtml.cells, wait1, Doc.addChild, Cell.new, hh]; omega
  | endOpen hh hc => simp [Rphtml.cells, wait1, hh]; omega
  | commentOpen hh hd hl hc p hp => simp [Rphtml.cells, wait1, Doc.addChild, Cell.new, hh]; omega
  | cdataOpen hh hd hl hc p hp => simp [Rphtml.cells, wait1, Doc.addChild, Cell.new, hh]; omega
  | doctypeOpen hh hd hl hc p hp => simp [Rphtml.cells, wait1, Doc.addChild, Cell.new, hh]; omega
  | endMatch hh hc t m hm => simp [Rphtml.cells, wait1, Doc.endHeap]; omega
  | _ => simp [Rphtml.cells, wait1, Doc.endText, Doc.putTag] at one ⊢ <;> omega

theorem Reach.cells {o : ParseOptions} {s : Str} {d : Doc} (h : Reach o s d) : cells d ≤ s.length + 1 := by
  induction h with
  | init => simp [Rphtml.cells, wait1, Doc.new]
  | step hr hs ih =>
    have := hs.cells hr.ctl
    simp only [List.length_append, List.length_singleton]
    exact Nat.le_trans this (by omega)

end Rphtml
