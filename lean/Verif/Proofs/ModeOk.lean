import Verif.Proofs.AStep
import Verif.Proofs.RoundTrip

/-!
# What the machine knows about the construct it is reading

`ModeOk` holds in every state the machine reaches, whatever the options.
-/

namespace Rphtml
open Spec

/-- A CDATA section may stand here. -/
def CdataOk (a : AState) : Prop := a.rest ≠ [] ∧ ∃ k n, a.sp = some (k, n) ∧ n ≠ a.top.name

/-- The tag being read. -/
structure TagOk (o : ParseOptions) (isDoc : Bool) (t : TagSt) : Prop where
  ok : t.Ok2
  wf : t.Wf o.allowAttrKeyStartsWithEqualSign isDoc
  name : if isDoc then t.m.name.map toUpper = detectDoctype
    else TagNameOk t.m.name ∧ t.m.isVoid = isVoidTag (lowerAll t.m.name)

/-- A finished tag. -/
structure MetaOk (o : ParseOptions) (isDoc : Bool) (m : TagMeta) : Prop where
  attrs : ∀ x ∈ m.attrs, legalAttr o.allowAttrKeyStartsWithEqualSign isDoc x
  name : if isDoc then m.name.map toUpper = detectDoctype
    else TagNameOk m.name ∧ m.isVoid = isVoidTag (lowerAll m.name)

/-- The raw text read so far has no end tag. -/
structure RawOk (o : ParseOptions) (m : TagMeta) (pc : Str) : Prop where
  tag : MetaOk o false m
  void : m.isVoid = false
  raw : isContentTag (lowerAll m.name) none = true
  early : ∀ x y, pc = x ++ '>' :: y → rawBody o.caseSensitiveTagname m.name x = none

/-- What holds in each mode. -/
def ModeOk (o : ParseOptions) (a : AState) : Prop :=
  match a.mode with
  | .bang (some D) pc => (D = detectComment ∨ D = detectDoctype ∨ (D = detectCdata ∧ CdataOk a)) ∧
      pc.map toUpper = D.take pc.length
  | .comment cd pc => a.over = false ∧ (cd = true → CdataOk a) ∧
      ∀ x y, pc = x ++ '>' :: y → commentBody (if cd then ']' else '-') x = none
  | .doctypeName pc => a.over = false ∧ pc.map toUpper = detectDoctype
  | .tagName pc => a.over = false ∧ TagNameOk pc
  | .inTag isDoc t => a.over = false ∧ TagOk o isDoc t
  | .raw m pc => a.over = false ∧ RawOk o m pc
  | _ => True

theorem tagChar_self {isDoc allowEq : Bool} {t : TagSt} {c : Char} (h : tagChar isDoc allowEq t c = .selfClose) :
    t.handle = .tagSelfClosing ∧ c = '>' := by
  have hw : ∀ i, tagWaitC isDoc allowEq t c i ≠ .selfClose := by
    intro i h
    unfold tagWaitC at h
    repeat' split at h
    all_goals cases h
  unfold tagChar at h
  split at h
  · exact absurd h (hw _)
  · rename_i hh
    by_cases hc : c = '>'
    · exact ⟨hh, hc⟩
    · rw [if_neg hc] at h
      split at h
      · cases h
      · exact absurd h (hw _)
  · repeat' split at h
    all_goals cases h
  · repeat' split at h
    all_goals cases h
  · cases h

theorem TagOk.step {o : ParseOptions} {isDoc : Bool} {t t' : TagSt} {c : Char} {id : Option Str} (h : TagOk o isDoc t)
    (ht : tagChar isDoc o.allowAttrKeyStartsWithEqualSign t c = .cont t' id) : TagOk o isDoc t' := by
  obtain ⟨h1, h2, _⟩ := tagChar_cont h.ok ht
  refine ⟨h1, (tagChar_wf h.ok h.wf ht).1, ?_⟩
  rw [h2.name, h2.isVoid]; exact h.name

theorem TagOk.close {o : ParseOptions} {isDoc : Bool} {t : TagSt} {c : Char} {id : Option Str} {m : TagMeta} {pc : Str} {mk : Char}
    (h : TagOk o isDoc t) (ht : tagChar isDoc o.allowAttrKeyStartsWithEqualSign t c = .close m pc mk id) :
    MetaOk o isDoc m ∧ pc = [] ∧ c = '>' := by
  obtain ⟨h1, h2, h3⟩ := tagChar_close h.ok ht
  refine ⟨⟨fun x hx => (legalAttr_iff _ _ _).2 ((tagChar_close_wf h.wf ht).1.attrs x hx), ?_⟩, h2, h3⟩
  rw [h1.name, h1.isVoid]; exact h.name

theorem TagOk.self {o : ParseOptions} {isDoc : Bool} {t : TagSt} {c : Char} (h : TagOk o isDoc t)
    (ht : tagChar isDoc o.allowAttrKeyStartsWithEqualSign t c = .selfClose) : MetaOk o isDoc t.m :=
  ⟨fun x hx => (legalAttr_iff _ _ _).2 ((h.wf.meta (.inr (tagChar_self ht).1)).attrs x hx), h.name⟩

theorem TagOk.begin (o : ParseOptions) (isDoc : Bool) (n : Str) (mk : Char) (hd : Handler) (hh : hd = .tagWait ∨ hd = .tagSelfClosing)
    (hn : if isDoc then n.map toUpper = detectDoctype else TagNameOk n) :
    TagOk o isDoc ⟨hd, nameMeta n, [], mk⟩ := by
  refine ⟨?_, ⟨?_, ?_⟩, ?_⟩
  · unfold TagSt.Ok2
    rcases hh with rfl | rfl <;> simp
  · have : hd ≠ .attrKey := by rcases hh with rfl | rfl <;> simp
    rw [if_neg this]
    intro k; rfl
  · rcases hh with rfl | rfl <;> simp
  · cases isDoc
    · exact ⟨hn, rfl⟩
    · exact hn

theorem early_snoc {P : Str → Prop} {c : Char} {pc : Str} (h : ∀ x y, pc = x ++ '>' :: y → P x) (hc : c = '>' → P pc) :
    ∀ x y, pc ++ [c] = x ++ '>' :: y → P x := by
  intro x y e
  rcases List.eq_nil_or_concat y with rfl | ⟨y', z, rfl⟩
  · have := List.append_inj' e rfl
    simp only [List.cons.injEq, and_true] at this
    rw [← this.1]; exact hc this.2
  · have e' : pc ++ [c] = (x ++ '>' :: y') ++ [z] := by rw [e]; simp
    exact h x y' (List.append_inj' e' rfl).1

theorem openTag_modeOk {o : ParseOptions} {a : AState} {m : TagMeta} (hm : MetaOk o false m) (ho : a.over = false) (mk : Char) :
    ModeOk o { a.openTag m [] with mark := mk } ∧ ModeOk o (a.openTag m []) := by
  unfold AState.openTag
  split
  · exact ⟨trivial, trivial⟩
  · split
    · rename_i h1 h2
      have : RawOk o m [] := ⟨hm, by simpa using h1, h2, by simp⟩
      exact ⟨⟨ho, this⟩, ho, this⟩
    · exact ⟨trivial, trivial⟩

theorem map_take_snoc {D pc : Str} {c : Char} (h : pc.map toUpper = D.take pc.length) (hc : D[pc.length]? = some (toUpper c)) :
    (pc ++ [c]).map toUpper = D.take (pc ++ [c]).length := by
  rw [List.map_append, h, List.length_append, List.length_singleton, List.take_add_one, hc]
  rfl

theorem AStep.modeOk {o : ParseOptions} {a a' : AState} {c : Char} (s : AStep o a c a') (h : ModeOk o a) : ModeOk o a' := by
  unfold ModeOk at h
  cases s with
  | lt => trivial
  | resume => trivial
  | start => trivial
  | more hm hc =>
    unfold ModeOk AState.more
    simp only [hm]
  | tagOpen hm hc hover => exact ⟨hover, c, [], rfl, hc, by
      intro x hx
      rw [List.mem_singleton] at hx; subst hx
      refine ⟨?_, ?_, ?_⟩
      · cases hw : isWs x with
        | false => rfl
        | true =>
          exfalso
          rw [isWs_mem] at hw
          simp only [ws, List.mem_cons, List.not_mem_nil, or_false] at hw
          rcases hw with rfl | rfl | rfl | rfl | rfl <;> exact absurd hc (by decide)
      · rintro rfl; exact absurd hc (by decide)
      · rintro rfl; exact absurd hc (by decide)⟩
  | endOpen => trivial
  | bangOpen => trivial
  | ltMore =>
    by_cases hq : c = '<' <;> simp only [ModeOk, hq, if_true, if_false]
  | ltFill =>
    by_cases hq : c = '<' <;> simp only [ModeOk, hq, if_true, if_false]
  | ltPush =>
    by_cases hq : c = '<' <;> simp only [ModeOk, hq, if_true, if_false]
  | bangDash => exact ⟨.inl rfl, by decide⟩
  | bangD hm hc => exact ⟨.inr (.inl rfl), by rcases hc with rfl | rfl <;> decide⟩
  | bangC hm hs hover hrest hn => exact ⟨.inr (.inr ⟨rfl, hrest, _, _, hs, hn⟩), by decide⟩
  | bangMore hm hc hl =>
    simp only [hm] at h
    exact ⟨h.1, map_take_snoc h.2 hc⟩
  | commentOpen hm hc hl hover =>
    exact ⟨hover, by simp, by simp⟩
  | cdataOpen hm hc hl hover =>
    simp only [hm] at h
    refine ⟨hover, fun _ => ?_, by simp⟩
    rcases h.1 with k | k | k
    · exact absurd k (by decide)
    · exact absurd k (by decide)
    · exact k.2
  | doctypeOpen hm hd1 hd2 hc hl hover =>
    rename_i D pc
    simp only [hm] at h
    refine ⟨hover, ?_⟩
    rcases h.1 with k | k | k
    · exact absurd k hd1
    · subst k
      rw [map_take_snoc h.2 hc, List.take_of_length_le]
      simp only [List.length_append, List.length_singleton]; omega
    · exact absurd k.1 hd2
  | commentClose => trivial
  | commentMore hm hb =>
    simp only [hm] at h
    exact ⟨h.1, h.2.1, early_snoc h.2.2 hb⟩
  | doctypeName hm hc =>
    simp only [hm] at h
    exact ⟨h.1, TagOk.begin o true _ _ _ (.inl rfl) h.2⟩
  | nameMore hm hc =>
    simp only [hm] at h
    obtain ⟨h1, x, xs, rfl, h2, h3⟩ := h
    refine ⟨h1, x, xs ++ [c], rfl, h2, ?_⟩
    intro y hy
    rcases List.mem_append.1 (show y ∈ (x :: xs) ++ [c] from hy) with q | q
    · exact h3 y q
    · rw [List.mem_singleton] at q; subst q
      exact ⟨hc.2.2, hc.2.1, hc.1⟩
  | nameEnd hm hc =>
    simp only [hm] at h
    refine ⟨h.1, TagOk.begin o false _ _ _ ?_ h.2⟩
    split
    · exact .inr rfl
    · exact .inl rfl
  | nameClose hm =>
    simp only [hm] at h
    exact (openTag_modeOk ⟨by simp, h.2, rfl⟩ h.1 '\x00').2
  | tagMore hm ht =>
    simp only [hm] at h
    exact ⟨h.1, h.2.step ht⟩
  | docClose => trivial
  | tagClose hm ht =>
    simp only [hm] at h
    obtain ⟨k1, rfl, _⟩ := h.2.close ht
    exact (openTag_modeOk k1 h.1 _).1
  | docSelf => trivial
  | tagSelf => trivial
  | endMore => trivial
  | endMatch => trivial
  | endStray => trivial
  | rawClose => trivial
  | rawMore hm hb =>
    simp only [hm] at h
    exact ⟨h.1, h.2.tag, h.2.void, h.2.raw, early_snoc h.2.early hb⟩

end Rphtml
