import Verif.Props.Scan
import Verif.Props.Reread

/-!
# C14 for texts that end inside a start tag
-/

namespace Rphtml
open Spec

/-- What a void or raw-text element may contain. -/
def Spec.bare (o : ParseOptions) : PNode → Prop
  | .elem n _ _ ct ks _ => (isVoid n → ct = none) ∧ (ct ≠ none → isRaw n) ∧
      (isVoid n ∨ isRaw n → ks = [] ∨ (o.autoFixUnescapedLt = true ∧ ∃ w, ks = [.text (['&', 'l', 't', ';'] ++ w)]))
  | _ => True

theorem bare_of_ok {o : ParseOptions} :
    (∀ p ctx par, okNode o ctx par p → allIn (bare o) p) ∧ (∀ ps ctx par, okNodes o ctx par ps → allsIn (bare o) ps) := by
  have hole : ∀ ks, holeOk o ks → allsIn (bare o) ks ∧
      (ks = [] ∨ (o.autoFixUnescapedLt = true ∧ ∃ w, ks = [.text (['&', 'l', 't', ';'] ++ w)])) := by
    rintro ks (rfl | ⟨q, _, rfl, _, w, rfl⟩)
    · exact ⟨trivial, .inl rfl⟩
    · exact ⟨by simp [allsIn, allIn, bare], .inr ⟨q, w, rfl⟩⟩
  apply PNode.induct
  · intros; trivial
  · intros; trivial
  · intros; trivial
  · intros; trivial
  · intro n as s ct ks e ih ctx par h
    simp only [okNode] at h
    simp only [allIn, bare]
    have h3 := h.2.2
    split at h3
    · obtain ⟨rfl, rfl, _⟩ := h3
      exact ⟨⟨fun _ => rfl, fun q => absurd rfl q, fun _ => .inl rfl⟩, trivial⟩
    · split at h3
      · obtain ⟨rfl, k, _⟩ := h3
        exact ⟨⟨fun _ => rfl, fun q => absurd rfl q, fun _ => (hole _ k).2⟩, (hole _ k).1⟩
      · rename_i hv
        split at h3
        · rename_i hr
          exact ⟨⟨fun q => absurd q hv, fun _ => hr, fun _ => (hole _ h3.1).2⟩, (hole _ h3.1).1⟩
        · rename_i hr
          obtain ⟨rfl, _, k⟩ := h3
          exact ⟨⟨fun _ => rfl, fun q => absurd rfl q, fun q => absurd q (by simp [hv, hr])⟩, ih _ _ k⟩
  · intros; trivial
  · intro p ps h1 h2 ctx par h
    simp only [okNodes] at h
    exact ⟨h1 _ _ h.1, h2 _ _ h.2.2⟩

theorem bare_close {o : ParseOptions} : ∀ (fs : List Frame) (f : Frame) (ks : List PNode), StackOk o (f :: fs) → allsIn (bare o) ks →
    allsIn (bare o) (Sit.closeUp ks f fs)
  | [], _, ks, _, hk => by simpa only [Sit.closeUp] using hk
  | g :: gs, f, ks, h, hk => by
    simp only [StackOk] at h
    obtain ⟨_, hv, hr, _, _, h6⟩ := h
    unfold Sit.closeUp
    refine bare_close gs g _ h6 ?_
    rw [allsIn_append]
    refine ⟨?_, ⟨⟨fun _ => rfl, fun q => absurd rfl q, fun q => absurd q (by simp [hv, hr])⟩, hk⟩, trivial⟩
    cases gs with
    | nil => simp only [StackOk] at h6; exact bare_of_ok.2 _ _ _ h6
    | cons g' gs => simp only [StackOk] at h6; exact bare_of_ok.2 _ _ _ h6.2.2.2.2.1

/-- **C14** under all options and for all texts that do not end inside the name of a start tag: void elements have no content,
only raw-text elements have content, and neither has a child, except for one text that `auto_fix_unescaped_lt` puts there; it
begins with the repaired `<`. -/
theorem c14_every {o : ParseOptions} {s : Str} {ps : List PNode} (hn : ¬ EndsInName o s) (h : docOf s o = some ps)
    {n : Str} {as : List Attr} {sc : Bool} {ct : Option Str} {ks : List PNode} {e : Option Str}
    (hp : Occurs (.elem n as sc ct ks e) ps) :
    (isVoid n → ct = none) ∧ (ct ≠ none → isRaw n) ∧
      (isVoid n ∨ isRaw n → ks = [] ∨ (o.autoFixUnescapedLt = true ∧ ∃ w, ks = [.text (['&', 'l', 't', ';'] ++ w)])) := by
  suffices q : allsIn (bare o) ps from allsIn_occurs q _ hp
  rcases (c53_doc hn ps).1 h with ⟨S, h1, _, _, rfl⟩ | ⟨_, S, m, t, bs, h1, _, _, rfl⟩
  · obtain ⟨a, k1, _, rfl⟩ := Scan.run h1
    have hw := (WfInv.run k1).stack
    refine bare_close _ _ _ hw ?_
    show allsIn (bare o) a.top.kids
    revert hw
    cases a.rest with
    | nil => intro hw; simp only [StackOk] at hw; exact bare_of_ok.2 _ _ _ hw
    | cons g' gs => intro hw; simp only [StackOk] at hw; exact bare_of_ok.2 _ _ _ hw.2.2.2.2.1
  · obtain ⟨a, k1, _, k3⟩ := Inside.run h1
    have hw := (WfInv.run k1).stack
    rw [k3.top, k3.rest] at hw
    unfold Sit.doc Sit.add
    have hk : allsIn (bare o) S.top.kids := by
      revert hw
      cases S.rest with
      | nil => intro hw; simp only [StackOk] at hw; exact bare_of_ok.2 _ _ _ hw
      | cons g' gs => intro hw; simp only [StackOk] at hw; exact bare_of_ok.2 _ _ _ hw.2.2.2.2.1
    have key := bare_close (o := o) S.rest S.top (S.top.kids ++ [.elem m bs false none [] (some m)]) hw
      (by
        rw [allsIn_append]
        refine ⟨hk, ⟨⟨fun _ => rfl, fun q => absurd rfl q, fun _ => .inl rfl⟩, trivial⟩, trivial⟩)
    have e : ∀ (ks : List PNode) (f : Frame) (fs : List Frame), Sit.closeUp ks { f with kids := ks } fs = Sit.closeUp ks f fs := by
      intro ks f fs; cases fs <;> rfl
    show allsIn (bare o) (Sit.closeUp _ { S.top with kids := _ } S.rest)
    rw [e]
    exact key

/-- `<p><br a ` ends inside a start tag, but not inside its name; with `auto_fix_unclosed_tag` it is a paragraph with a line
break. -/
private theorem half_inside : Spec.Inside { autoFixUnclosedTag := true } "<p><br a ".toList { top := { name := ['p'] }, rest := [{}], spot := .lt } (.tag ['b', 'r'] " a ".toList) := by
  have h1 := Spec.Scan.start (n := ['p']) (t := ['>']) (.lt (.nil (o := { autoFixUnclosedTag := true })) (by decide)) rfl rfl (by decide)
    ⟨'>', rfl, by decide⟩ (TagRest.close (g := []) (by simp [isGap])) (by decide) (by decide)
  refine .tag (u := "<p><".toList) (n := ['b', 'r']) (t := " a ".toList) (.lt h1 (by decide)) rfl rfl (by decide)
    (fun _ => ⟨' ', rfl, by decide⟩) ⟨['>'], by decide, [{ key := some ['a'] }], false, ?_⟩
  exact TagRest.bare (g := [' ']) (k := ['a']) (t := [' ', '>']) (by decide) (by decide) ⟨' ', rfl, by decide⟩
    (fun h u _ e => absurd (e ▸ (by simp : '=' ∈ h ++ '=' :: u)) (by decide)) (TagRest.close (g := [' ']) (by decide))

example : ¬ EndsInName { autoFixUnclosedTag := true } "<p><br a ".toList ∧ docOf "<p><br a ".toList { autoFixUnclosedTag := true } =
    some [.elem ['p'] [] false none [.elem ['b', 'r'] [{ key := some ['a'] }] false none [] (some ['b', 'r'])] (some ['p'])] := by
  refine ⟨?_, by decide +kernel⟩
  rintro ⟨S, n, h⟩
  exact absurd (c53_unique.2.2 _ half_inside _ _ h).2 (by simp)

end Rphtml
