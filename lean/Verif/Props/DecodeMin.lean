import Verif.Props.Minify
import Verif.Props.Pre
import Verif.Spec.Entity

/-!
# C28: minify_spaces with decode_entity
-/

namespace Rphtml
open Spec

/-- The text as rendered with `minify_spaces` and `decode_entity`, outside of `pre`. -/
def minifiedDecoded (lib : EntityLib) (s : Str) : Str := minifyDecodeLoop lib false none s

theorem buildText_minifiedDecoded (lib : EntityLib) (o : RenderOptions) (s : Str) (hm : o.minifySpaces = true) (hd : o.decodeEntity = true) :
    buildText lib o false s = minifiedDecoded lib s := by
  simp [buildText, hm, hd, minifiedDecoded]

/-- A character reference. -/
def entityOut (lib : EntityLib) (e : Str) : Str :=
  match lib.decodeOne e with
  | some d => [d]
  | none => ['&'] ++ e ++ [';']

theorem minifyDecode_entity (lib : EntityLib) (b : Bool) : ∀ (cs e : Str), minifyDecodeLoop lib b (some e) cs =
    match cutSemi cs with
    | none => '&' :: (e ++ cs)
    | some (e', r) => entityOut lib (e ++ e') ++ minifyDecodeLoop lib b none r
  | [], e => by simp [minifyDecodeLoop, cutSemi]
  | c :: cs, e => by
    rw [minifyDecodeLoop, cutSemi]
    by_cases hc : c = ';'
    · simp only [hc, if_true, List.append_nil, entityOut]
      cases lib.decodeOne e <;> rfl
    · simp only [hc, if_false]
      rw [minifyDecode_entity lib b cs (e ++ [c])]
      cases cutSemi cs with
      | none => simp
      | some x => simp

theorem minifyDecode_amp (lib : EntityLib) (b : Bool) (cs : Str) : minifyDecodeLoop lib b none ('&' :: cs) =
    match cutSemi cs with
    | none => '&' :: cs
    | some (e, r) => entityOut lib e ++ minifyDecodeLoop lib b none r := by
  rw [minifyDecodeLoop, if_pos rfl, minifyDecode_entity]
  rfl

theorem decodeBy_amp (lib : EntityLib) (cs : Str) : decodeBy lib.decodeOne ('&' :: cs) =
    match cutSemi cs with
    | none => '&' :: cs
    | some (e, r) => entityOut lib e ++ decodeBy lib.decodeOne r := by
  rw [decodeBy, if_pos rfl]
  split
  · rename_i h; rw [h]
  · rename_i h; simp only [h]; rfl

theorem decodeBy_other {one : Str → Option Char} {c : Char} (h : c ≠ '&') (cs : Str) : decodeBy one (c :: cs) = c :: decodeBy one cs := by
  rw [decodeBy, if_neg h]

/-- Some whitespace is dropped; `p` tells whether whitespace came before. -/
inductive Dropped : Bool → Str → Str → Prop
  | nil (p : Bool) : Dropped p [] []
  | drop {p : Bool} {c : Char} {s t : Str} (hp : p = true) (hc : c ∈ ws) (h : Dropped true s t) : Dropped p (c :: s) t
  | keep {p : Bool} {c : Char} {s t : Str} (h : Dropped (decide (c ∈ ws)) s t) : Dropped p (c :: s) (c :: t)

theorem Dropped.refl : ∀ (s : Str) (p : Bool), Dropped p s s
  | [], p => .nil p
  | _ :: s, _ => .keep (Dropped.refl s _)

/-- Dropping whitespace after whitespace keeps the words. -/
theorem Dropped.words {p : Bool} {s t : Str} (h : Dropped p s t) :
    Spec.words s = Spec.words t ∧ (p = false → (splitWs s).head? = (splitWs t).head?) := by
  have ne : ∀ s, ∃ w r, splitWs s = w :: r := by
    intro s
    cases s with
    | nil => exact ⟨_, _, rfl⟩
    | cons c s =>
      unfold splitWs
      split
      · exact ⟨_, _, rfl⟩
      · split <;> exact ⟨_, _, rfl⟩
  have hw : ∀ c s, c ∈ ws → splitWs (c :: s) = [] :: splitWs s := by
    intro c s hc; rw [splitWs, if_pos hc]
  have hww : ∀ c s, c ∈ ws → Spec.words (c :: s) = Spec.words s := by
    intro c s hc; unfold Spec.words; rw [hw c s hc]; rfl
  induction h with
  | nil => exact ⟨rfl, fun _ => rfl⟩
  | drop hp hc h ih =>
    refine ⟨by rw [hww _ _ hc]; exact ih.1, ?_⟩
    intro q; rw [hp] at q; cases q
  | @keep p c s t h ih =>
    by_cases hc : c ∈ ws
    · refine ⟨by rw [hww _ _ hc, hww _ _ hc]; exact ih.1, ?_⟩
      intro _; rw [hw _ _ hc, hw _ _ hc]; rfl
    · obtain ⟨h1, h2⟩ := ih
      have h2 := h2 (by simp [hc])
      obtain ⟨w, r, k1⟩ := ne s
      obtain ⟨w', r', k2⟩ := ne t
      rw [k1, k2] at h2
      simp only [List.head?_cons, Option.some.injEq] at h2
      subst h2
      have e1 : splitWs (c :: s) = (c :: w) :: r := by rw [splitWs, if_neg hc, k1]
      have e2 : splitWs (c :: t) = (c :: w) :: r' := by rw [splitWs, if_neg hc, k2]
      refine ⟨?_, fun _ => by rw [e1, e2]; rfl⟩
      unfold Spec.words at h1 ⊢
      rw [k1, k2] at h1
      rw [e1, e2]
      simp only [List.filter_cons, List.isEmpty_cons, Bool.not_false, if_true]
      cases w with
      | nil => simpa using h1
      | cons x w => simp only [List.filter_cons, List.isEmpty_cons, Bool.not_false, if_true, List.cons.injEq, true_and] at h1; rw [h1]

theorem Dropped.append {p : Bool} {s t : Str} (u : Str) (hu : u ≠ []) (h : Dropped (u.getLast?.any (· ∈ ws)) s t) :
    Dropped p (u ++ s) (u ++ t) := by
  induction u generalizing p with
  | nil => exact absurd rfl hu
  | cons c u ih =>
    refine .keep ?_
    cases u with
    | nil => exact h
    | cons d u => exact ih (by simp) h

theorem Dropped.weaken {p : Bool} {s t : Str} (h : Dropped false s t) : Dropped p s t := by
  cases h with
  | nil => exact .nil p
  | drop hp => cases hp
  | keep h => exact .keep h

theorem entityOut_ne (lib : EntityLib) (e : Str) : entityOut lib e ≠ [] := by
  unfold entityOut; split <;> simp

theorem minifyDecode_other (lib : EntityLib) (b : Bool) {c : Char} (h : c ≠ '&') (cs : Str) : minifyDecodeLoop lib b none (c :: cs) =
    if c ∈ ws then (if b then minifyDecodeLoop lib b none cs else c :: minifyDecodeLoop lib true none cs)
    else c :: minifyDecodeLoop lib false none cs := by
  rw [minifyDecodeLoop, if_neg h]
  by_cases hc : c ∈ ws
  · rw [if_pos hc, if_pos ((isWs_mem c).2 hc)]
  · rw [if_neg hc, if_neg (fun q => hc ((isWs_mem c).1 q))]

theorem cutSemi_eq : ∀ {s e r : Str}, cutSemi s = some (e, r) → s = e ++ ';' :: r
  | [], _, _, h => by cases h
  | c :: cs, e, r, h => by
    unfold cutSemi at h
    split at h
    · rename_i hc
      simp only [Option.some.injEq, Prod.mk.injEq] at h
      rw [← h.1, ← h.2, hc]; rfl
    · cases hc : cutSemi cs with
      | none => rw [hc] at h; cases h
      | some x =>
        rw [hc] at h
        simp only [Option.map_some, Option.some.injEq, Prod.mk.injEq] at h
        rw [← h.1, ← h.2, cutSemi_eq (e := x.1) (r := x.2) hc]; rfl

theorem noSpaceAmp_append {a b : Str} (h : noSpaceAmp (a ++ b)) : noSpaceAmp b := by
  intro w hw hi
  exact h w hw (hi.trans (List.suffix_append a b).isInfix)

theorem minifyDecode_sublist (lib : EntityLib) : ∀ (n : Nat) (s : Str) (b : Bool), s.length ≤ n →
    (minifyDecodeLoop lib b none s).Sublist (decodeBy lib.decodeOne s) ∧
    visible (minifyDecodeLoop lib b none s) = visible (decodeBy lib.decodeOne s)
  | n, [], b, _ => by rw [minifyDecodeLoop, decodeBy]; exact ⟨List.Sublist.slnil, rfl⟩
  | 0, c :: cs, b, h => by simp at h
  | n + 1, c :: cs, b, h => by
    simp only [List.length_cons, Nat.add_le_add_iff_right] at h
    have hv : ∀ a b : Str, visible (a ++ b) = visible a ++ visible b := fun a b => by unfold visible; simp
    by_cases hc : c = '&'
    · subst hc
      rw [minifyDecode_amp, decodeBy_amp]
      cases hq : cutSemi cs with
      | none => exact ⟨List.Sublist.refl _, rfl⟩
      | some x =>
        obtain ⟨e, r⟩ := x
        have hl := cutSemi_length hq
        obtain ⟨h1, h2⟩ := minifyDecode_sublist lib n r b (by omega)
        exact ⟨(List.Sublist.refl _).append h1, by simp only [hv, h2]⟩
    · have hx : ∀ s, visible (c :: s) = (if c ∈ ws then [] else [c]) ++ visible s := by
        intro s; unfold visible; by_cases h : c ∈ ws <;> simp [h]
      rw [minifyDecode_other lib b hc, decodeBy_other hc]
      by_cases hw : c ∈ ws
      · rw [if_pos hw]
        cases b with
        | true =>
          obtain ⟨h1, h2⟩ := minifyDecode_sublist lib n cs true h
          exact ⟨h1.cons c, by rw [hx, if_pos hw]; exact h2⟩
        | false =>
          obtain ⟨h1, h2⟩ := minifyDecode_sublist lib n cs true h
          exact ⟨h1.cons_cons c, by simp only [Bool.false_eq_true, if_false]; rw [hx, hx, h2]⟩
      · rw [if_neg hw]
        obtain ⟨h1, h2⟩ := minifyDecode_sublist lib n cs false h
        exact ⟨h1.cons_cons c, by rw [hx, hx, h2]⟩

/-- **C28**, for all texts and codecs: compared to decoding the text, only whitespace is missing. -/
theorem c28_sublist (lib : EntityLib) (s : Str) :
    (minifiedDecoded lib s).Sublist (decodeBy lib.decodeOne s) ∧ visible (minifiedDecoded lib s) = visible (decodeBy lib.decodeOne s) :=
  minifyDecode_sublist lib _ s false (Nat.le_refl _)

theorem minifyDecode_dropped (lib : EntityLib) : ∀ (n : Nat) (s : Str) (b : Bool), s.length ≤ n → noSpaceAmp s →
    (b = true → s.head? ≠ some '&') → Dropped b (decodeBy lib.decodeOne s) (minifyDecodeLoop lib b none s)
  | n, [], b, _, _, _ => by rw [minifyDecodeLoop, decodeBy]; exact .nil b
  | 0, c :: cs, b, h, _, _ => by simp at h
  | n + 1, c :: cs, b, h, ha, hb => by
    simp only [List.length_cons, Nat.add_le_add_iff_right] at h
    have ha' : noSpaceAmp cs := noSpaceAmp_append (a := [c]) ha
    by_cases hc : c = '&'
    · subst hc
      have hb' : b = false := by
        cases b with
        | false => rfl
        | true => exact absurd rfl (hb rfl)
      subst hb'
      rw [minifyDecode_amp, decodeBy_amp]
      cases hq : cutSemi cs with
      | none => exact Dropped.refl _ _
      | some x =>
        obtain ⟨e, r⟩ := x
        have hl := cutSemi_length hq
        have hr : noSpaceAmp r := by
          rw [cutSemi_eq hq] at ha'
          exact noSpaceAmp_append (a := e ++ [';']) (by simpa using ha')
        have := minifyDecode_dropped lib n r false (by omega) hr (by simp)
        exact Dropped.append _ (entityOut_ne lib e) this.weaken
    · rw [minifyDecode_other lib b hc, decodeBy_other hc]
      by_cases hw : c ∈ ws
      · rw [if_pos hw]
        have hcs : cs.head? ≠ some '&' := by
          intro q
          cases cs with
          | nil => cases q
          | cons d cs =>
            simp only [List.head?_cons, Option.some.injEq] at q
            subst q
            exact ha c hw (List.prefix_append [c, '&'] cs).isInfix
        have := minifyDecode_dropped lib n cs true h ha' (fun _ => hcs)
        cases b with
        | true => exact .drop rfl hw this
        | false => exact .keep (by simpa [hw] using this)
      · rw [if_neg hw]
        have := minifyDecode_dropped lib n cs false h ha' (by simp)
        exact .keep (by simpa [hw] using this)

/-- **C28** for texts in which no `&` stands directly after whitespace: the words are those of the decoded text, so no
whitespace that separates visible characters is lost. -/
theorem c28_words_partial (lib : EntityLib) (s : Str) (h : noSpaceAmp s) :
    words (minifiedDecoded lib s) = words (decodeBy lib.decodeOne s) :=
  ((minifyDecode_dropped lib _ s false (Nat.le_refl _) h (by simp)).words.1).symm

/-- **C28** for texts without `&`: `decode_entity` makes no difference. -/
theorem c28_plain (lib : EntityLib) (s : Str) (h : '&' ∉ s) : minifiedDecoded lib s = collapse s := by
  rw [← minified_eq]
  unfold minifiedDecoded minified
  suffices ∀ b, minifyDecodeLoop lib b none s = minifyLoop b s from this false
  induction s with
  | nil => intro b; rw [minifyDecodeLoop, minifyLoop]
  | cons c cs ih =>
    intro b
    simp only [List.mem_cons, not_or] at h
    rw [minifyDecodeLoop, minifyLoop, if_neg (Ne.symm h.1)]
    cases b <;> simp only [ih h.2, if_true, Bool.false_eq_true, if_false]

/-- The hypothesis is met by a text with references, before whitespace and inside words. -/
example : minifiedDecoded toyLib "a&gt;  b&x; \t c&".toList = "a> b&x; c&".toList ∧
    words (minifiedDecoded toyLib "a&gt;  b&lt;  c".toList) = words (decodeBy toyLib.decodeOne "a&gt;  b&lt;  c".toList) := by
  refine ⟨by decide +kernel, c28_words_partial _ _ (by decide +kernel)⟩

/-- The rest of C28 is false: whitespace after a reference is lost if there was whitespace before it. -/
example : minifiedDecoded toyLib "a &gt; b".toList = "a >b".toList := by decide +kernel

/-! ### Exactly -/

/-- Every text can be cut. -/
theorem Cut.exists (s : Str) : ∃ ps, Cut s ps := by
  suffices ∀ n (s : Str), s.length ≤ n → ∃ ps, Cut s ps from this _ s (Nat.le_refl _)
  intro n
  induction n with
  | zero => intro s h; cases s with
    | nil => exact ⟨_, .nil⟩
    | cons c s => simp at h
  | succ n ih =>
    intro s h
    cases s with
    | nil => exact ⟨_, .nil⟩
    | cons c s =>
      simp only [List.length_cons, Nat.add_le_add_iff_right] at h
      by_cases hc : c = '&'
      · subst hc
        by_cases hs : ';' ∈ s
        · obtain ⟨e, r, rfl, he⟩ := List.eq_append_cons_of_mem hs
          obtain ⟨ps, hp⟩ := ih r (by simp at h; omega)
          exact ⟨_, .ref he hp⟩
        · exact ⟨_, .rest hs⟩
      · obtain ⟨ps, hp⟩ := ih s h
        exact ⟨_, .char hc hp⟩

/-- `flagged` from left to right; `b`: the last plain character was whitespace. -/
def flagsFrom (one : Str → Option Char) : Bool → List Piece → List (Char × Bool)
  | _, [] => []
  | b, .char c :: ps => (c, !(decide (c ∈ ws) && b)) :: flagsFrom one (decide (c ∈ ws)) ps
  | b, p :: ps => (p.out one).map (fun c => (c, true)) ++ flagsFrom one b ps

theorem flagged_from (one : Str → Option Char) : ∀ (ps a : List Piece),
    ((ps.zipIdx a.length).flatMap fun x => (x.1.out one).map fun c => (c, !again ((a ++ ps).take x.2) x.1)) =
      flagsFrom one ((plain a).getLast?.any (· ∈ ws)) ps
  | [], a => rfl
  | p :: ps, a => by
    have ih := flagged_from one ps (a ++ [p])
    have hp : plain (a ++ [p]) = plain a ++ plain [p] := by simp [plain]
    rw [hp] at ih
    simp only [List.length_append, List.length_cons, List.length_nil, Nat.zero_add, List.append_assoc, List.cons_append, List.nil_append] at ih
    rw [List.zipIdx_cons, List.flatMap_cons, ih]
    cases p with
    | char c => simp [flagsFrom, Piece.out, again, plain]
    | ref e => simp [flagsFrom, again, plain]
    | rest e => simp [flagsFrom, again, plain]

theorem flagged_eq (one : Str → Option Char) (ps : List Piece) : flagged one ps = flagsFrom one false ps := by
  have := flagged_from one ps []
  simpa [flagged, plain] using this

theorem cutSemi_none : ∀ {s : Str}, ';' ∉ s → cutSemi s = none
  | [], _ => rfl
  | c :: s, h => by
    simp only [List.mem_cons, not_or] at h
    rw [cutSemi, if_neg (Ne.symm h.1), cutSemi_none h.2]; rfl

theorem cutSemi_some : ∀ {e r : Str}, ';' ∉ e → cutSemi (e ++ ';' :: r) = some (e, r)
  | [], r, _ => by simp [cutSemi]
  | c :: e, r, h => by
    simp only [List.mem_cons, not_or] at h
    rw [List.cons_append, cutSemi, if_neg (Ne.symm h.1), cutSemi_some h.2]; rfl

theorem Cut.decoded {one : Str → Option Char} {s : Str} {ps : List Piece} (h : Cut s ps) (b : Bool) :
    decodeBy one s = (flagsFrom one b ps).map Prod.fst := by
  induction h generalizing b with
  | nil => simp [decodeBy, flagsFrom]
  | char hc _ ih => rw [decodeBy_other hc, ih]; rfl
  | ref he _ ih =>
    rw [decodeBy, if_pos rfl]
    simp only [flagsFrom, Piece.out, List.map_append, List.map_map, Function.comp_def, List.map_id']
    rw [← ih b]
    split
    · rename_i h; rw [cutSemi_some he] at h; cases h
    · rename_i h; rw [cutSemi_some he] at h; cases h
      cases one _ <;> simp
  | rest hs =>
    rw [decodeBy, if_pos rfl]
    split
    · simp [flagsFrom, Piece.out, Function.comp_def]
    · rename_i h; rw [cutSemi_none hs] at h; cases h

theorem Cut.minified {lib : EntityLib} {s : Str} {ps : List Piece} (h : Cut s ps) (b : Bool) :
    minifyDecodeLoop lib b none s = ((flagsFrom lib.decodeOne b ps).filter (·.2)).map Prod.fst := by
  have hall : ∀ (w : Str), ((w.map fun c => (c, true)).filter fun x => x.2).map Prod.fst = w := by
    intro w; induction w <;> simp_all
  induction h generalizing b with
  | nil => simp [minifyDecodeLoop, flagsFrom]
  | char hc _ ih =>
    rw [minifyDecode_other lib b hc, flagsFrom]
    rename_i c _ _ _
    by_cases hw : c ∈ ws
    · cases b <;> simp [hw, ih]
    · simp [hw, ih]
  | ref he _ ih =>
    rw [minifyDecode_amp, cutSemi_some he]
    simp only [flagsFrom, List.filter_append, List.map_append, hall, ← ih b]
    rename_i e _ _ _
    unfold entityOut Piece.out
    cases h : lib.decodeOne e <;> simp [h]
  | rest hs =>
    rw [minifyDecode_amp, cutSemi_none hs]
    simp [flagsFrom, Piece.out, hall, -List.map_cons]

/-! #### Words -/

/-- The visible characters, each with whether it continues a word. -/
def wordMarks : Bool → Str → List (Char × Bool)
  | _, [] => []
  | p, c :: s => if c ∈ ws then wordMarks false s else (c, p) :: wordMarks true s

/-- The words from the wordMarks. -/
def groupWords : List (Char × Bool) → List Str
  | [] => []
  | (c, _) :: l =>
    match l, groupWords l with
    | (_, true) :: _, w :: r => (c :: w) :: r
    | _, r => [c] :: r

theorem words_ws {c : Char} (hc : c ∈ ws) (s : Str) : words (c :: s) = words s := by
  unfold words; rw [splitWs, if_pos hc]; rfl

theorem words_one {c d : Char} (hc : c ∉ ws) (hd : d ∈ ws) (s : Str) : words (c :: d :: s) = [c] :: words (d :: s) := by
  unfold words; rw [splitWs, if_neg hc, splitWs, if_pos hd]; simp

theorem words_more {c d : Char} (hc : c ∉ ws) (hd : d ∉ ws) (s : Str) :
    ∃ w r, words (d :: s) = w :: r ∧ words (c :: d :: s) = (c :: w) :: r := by
  unfold words
  rw [splitWs.eq_2 c, if_neg hc, splitWs.eq_2 d, if_neg hd]
  cases splitWs s with
  | nil => exact ⟨_, _, rfl, rfl⟩
  | cons w r => exact ⟨d :: w, r.filter fun w => !w.isEmpty, by simp, by simp⟩

theorem group_marks : ∀ (s : Str) (p : Bool), groupWords (wordMarks p s) = words s
  | [], p => rfl
  | [c], p => by by_cases hc : c ∈ ws <;> simp [wordMarks, groupWords, words, splitWs, hc]
  | c :: d :: s, p => by
    by_cases hc : c ∈ ws
    · rw [wordMarks, if_pos hc, words_ws hc, group_marks]
    · have ih := group_marks (d :: s) true
      rw [wordMarks, if_neg hc]
      by_cases hd : d ∈ ws
      · rw [words_one hc hd, ← ih]
        have : ∃ l, wordMarks true (d :: s) = l ∧ l.head?.all (fun x => !x.2) := by
          refine ⟨_, rfl, ?_⟩
          rw [wordMarks, if_pos hd]
          clear ih
          induction s with
          | nil => rfl
          | cons e s ih' =>
            rw [wordMarks]; split
            · exact ih'
            · rfl
        obtain ⟨l, h1, h2⟩ := this
        rw [h1, groupWords]
        rintro _ _ _ _ rfl _
        simp at h2
      · obtain ⟨w, r, h1, h2⟩ := words_more hc hd s
        rw [h2]
        rw [h1, wordMarks, if_neg hd] at ih
        rw [wordMarks, if_neg hd, groupWords]
        rw [ih]

/-- The wordMarks of a word. -/
def markWord : Str → List (Char × Bool)
  | [] => []
  | c :: w => (c, false) :: w.map fun d => (d, true)

theorem marks_words : ∀ (s : Str), wordMarks false s = (words s).flatMap markWord ∧
    ∀ c t, s = c :: t → c ∉ ws → ∃ w r, words s = w :: r ∧ wordMarks true s = w.map (fun d => (d, true)) ++ r.flatMap markWord
  | [] => ⟨rfl, by simp⟩
  | [c] => by
    by_cases hc : c ∈ ws
    · exact ⟨by simp [wordMarks, words, splitWs, hc], fun d t h hd => by simp at h; exact absurd (h.1 ▸ hc) hd⟩
    · exact ⟨by simp [wordMarks, words, splitWs, hc, markWord], fun d t h hd => ⟨[c], [], by simp [words, splitWs, hc], by simp [wordMarks, hc]⟩⟩
  | c :: d :: s => by
    obtain ⟨h1, h2⟩ := marks_words (d :: s)
    by_cases hc : c ∈ ws
    · refine ⟨by rw [wordMarks, if_pos hc, words_ws hc, h1], fun d t h hd => ?_⟩
      simp only [List.cons.injEq] at h
      exact absurd (h.1 ▸ hc) hd
    · by_cases hd : d ∈ ws
      · have h3 : wordMarks true (d :: s) = wordMarks false (d :: s) := by simp [wordMarks, hd]
        rw [words_one hc hd]
        refine ⟨by rw [wordMarks, if_neg hc, h3, h1]; rfl, fun _ _ _ _ => ⟨_, _, rfl, by rw [wordMarks, if_neg hc, h3, h1]; rfl⟩⟩
      · obtain ⟨w, r, e1, e2⟩ := words_more hc hd s
        obtain ⟨w', r', e3, e4⟩ := h2 d s rfl hd
        rw [e1] at e3; cases e3
        rw [e2]
        refine ⟨by rw [wordMarks, if_neg hc, e4]; rfl, fun _ _ _ _ => ⟨_, _, rfl, by rw [wordMarks, if_neg hc, e4]; rfl⟩⟩

theorem words_iff_marks (s t : Str) : words s = words t ↔ wordMarks false s = wordMarks false t :=
  ⟨fun h => by rw [(marks_words s).1, (marks_words t).1, h], fun h => by rw [← group_marks s false, ← group_marks t false, h]⟩

/-- What came before: a visible character, only dropped characters since one, or kept whitespace (or nothing). -/
inductive LastSeen where
  | seen | gone | blank
deriving DecidableEq

/-- `joins`, from left to right. -/
def joinsFrom : LastSeen → List (Char × Bool) → Prop
  | _, [] => False
  | b, (c, k) :: l =>
    if c ∈ ws then joinsFrom (if k then .blank else if b = .blank then .blank else .gone) l
    else b = .gone ∨ joinsFrom .seen l

theorem marks_joins : ∀ (l : List (Char × Bool)), (∀ x ∈ l, x.2 = false → x.1 ∈ ws) →
    (∀ p, wordMarks p (l.map Prod.fst) = wordMarks p ((l.filter (·.2)).map Prod.fst) ↔ ¬ joinsFrom (if p then .seen else .blank) l) ∧
    (wordMarks false (l.map Prod.fst) = wordMarks true ((l.filter (·.2)).map Prod.fst) ↔ ¬ joinsFrom .gone l)
  | [], _ => by simp [wordMarks, joinsFrom]
  | (c, k) :: l, h => by
    obtain ⟨h1, h2⟩ := marks_joins l fun x hx => h x (by simp [hx])
    have hf := h1 false
    have ht := h1 true
    simp only [Bool.false_eq_true, if_false, if_true] at hf ht
    by_cases hc : c ∈ ws
    · cases k with
      | true =>
        refine ⟨fun p => ?_, ?_⟩
        · simp only [List.map_cons, List.filter_cons, if_true, wordMarks, if_pos hc, joinsFrom]; exact hf
        · simp only [List.map_cons, List.filter_cons, if_true, wordMarks, if_pos hc, joinsFrom]; exact hf
      | false =>
        refine ⟨fun p => ?_, ?_⟩
        · cases p
          · simpa [wordMarks, hc, joinsFrom] using hf
          · simpa [wordMarks, hc, joinsFrom] using h2
        · simpa [wordMarks, hc, joinsFrom] using h2
    · have hk : k = true := by
        cases k with
        | true => rfl
        | false => exact absurd (h (c, false) (by simp) rfl) hc
      subst hk
      refine ⟨fun p => ?_, ?_⟩
      · cases p <;> simpa [wordMarks, hc, joinsFrom] using ht
      · simp [wordMarks, hc, joinsFrom]

/-- Dropped characters and then a visible one. -/
def dropThen (l : List (Char × Bool)) : Prop := ∃ m y r, l = m ++ y :: r ∧ (∀ z ∈ m, z.2 = false) ∧ y.1 ∉ ws

theorem dropThen_cons (x : Char × Bool) (l : List (Char × Bool)) : dropThen (x :: l) ↔ x.1 ∉ ws ∨ (x.2 = false ∧ dropThen l) := by
  constructor
  · rintro ⟨m, y, r, h, h1, h2⟩
    cases m with
    | nil => cases h; exact .inl h2
    | cons z m => cases h; exact .inr ⟨h1 _ (by simp), m, y, r, rfl, fun z hz => h1 z (by simp [hz]), h2⟩
  · rintro (h | ⟨h, m, y, r, rfl, h1, h2⟩)
    · exact ⟨[], x, l, rfl, by simp, h⟩
    · exact ⟨x :: m, y, r, rfl, by simpa [h] using h1, h2⟩

/-- The same with at least one dropped. -/
def dropSome (l : List (Char × Bool)) : Prop := ∃ x r, l = x :: r ∧ x.2 = false ∧ dropThen r

theorem joins_cons (x : Char × Bool) (l : List (Char × Bool)) : joins (x :: l) ↔ joins l ∨ (x.1 ∉ ws ∧ dropSome l) := by
  constructor
  · rintro ⟨a, x', m, y, b, h, h1, h2, h3, h4⟩
    cases a with
    | nil =>
      simp only [List.nil_append, List.cons_append, List.append_assoc, List.cons.injEq] at h
      obtain ⟨rfl, rfl⟩ := h
      cases m with
      | nil => exact absurd rfl h2
      | cons z m => exact .inr ⟨h1, z, _, rfl, h3 _ (by simp), m, y, b, rfl, fun z hz => h3 z (by simp [hz]), h4⟩
    | cons z a =>
      simp only [List.cons_append, List.cons.injEq] at h
      exact .inl ⟨a, x', m, y, b, h.2, h1, h2, h3, h4⟩
  · rintro (⟨a, x', m, y, b, rfl, h⟩ | ⟨h, z, _, rfl, hz, m, y, b, rfl, h1, h2⟩)
    · exact ⟨x :: a, x', m, y, b, by simp, h⟩
    · exact ⟨[], x, z :: m, y, b, by simp, h, by simp, by simpa [hz] using h1, h2⟩

theorem joinsFrom_iff : ∀ (l : List (Char × Bool)) (b : LastSeen), (∀ x ∈ l, x.2 = false → x.1 ∈ ws) →
    (joinsFrom b l ↔ joins l ∨ (b = .seen ∧ dropSome l) ∨ (b = .gone ∧ dropThen l))
  | [], b, _ => by simp [joinsFrom, joins, dropSome, dropThen]
  | (c, k) :: l, b, h => by
    have h0 : dropSome ((c, k) :: l) ↔ k = false ∧ dropThen l := by
      constructor
      · rintro ⟨x, r, hx, h1, h2⟩; cases hx; exact ⟨h1, h2⟩
      · rintro ⟨h1, h2⟩; exact ⟨_, _, rfl, h1, h2⟩
    rw [joins_cons, dropThen_cons, h0, joinsFrom]
    simp only [joinsFrom_iff l _ fun x hx => h x (by simp [hx])]
    by_cases hc : c ∈ ws
    · cases k <;> cases b <;> simp [hc]
    · have hk : k = true := by
        cases k with
        | true => rfl
        | false => exact absurd (h (c, false) (by simp) rfl) hc
      subst hk
      cases b <;> simp [hc]

theorem flagsFrom_ws (one : Str → Option Char) : ∀ (ps : List Piece) (b : Bool), ∀ x ∈ flagsFrom one b ps, x.2 = false → x.1 ∈ ws
  | [], b, x, h, _ => by simp [flagsFrom] at h
  | .char c :: ps, b, x, h, hx => by
    simp only [flagsFrom, List.mem_cons] at h
    rcases h with rfl | h
    · simp at hx; exact hx.1
    · exact flagsFrom_ws one ps _ x h hx
  | .ref e :: ps, b, x, h, hx => by
    simp only [flagsFrom, List.mem_append, List.mem_map] at h
    rcases h with ⟨_, _, rfl⟩ | h
    · cases hx
    · exact flagsFrom_ws one ps _ x h hx
  | .rest e :: ps, b, x, h, hx => by
    simp only [flagsFrom, List.mem_append, List.mem_map] at h
    rcases h with ⟨_, _, rfl⟩ | h
    · cases hx
    · exact flagsFrom_ws one ps _ x h hx

/-- A text is cut in one way only. -/
theorem Cut.unique {s : Str} {ps qs : List Piece} (h : Cut s ps) (k : Cut s qs) : ps = qs := by
  induction h generalizing qs with
  | nil => cases k; rfl
  | char hc _ ih =>
    cases k with
    | char _ k => rw [ih k]
    | ref => exact absurd rfl hc
    | rest => exact absurd rfl hc
  | @ref e r ps he h ih =>
    generalize hx : '&' :: (e ++ ';' :: r) = x at k
    cases k with
    | nil => cases hx
    | char hc k => cases hx; exact absurd rfl hc
    | @ref e' r' _ he' k =>
      simp only [List.cons.injEq, true_and] at hx
      have h1 := cutSemi_some (r := r) he
      rw [hx, cutSemi_some he'] at h1
      cases h1
      rw [ih k]
    | rest hs =>
      simp only [List.cons.injEq, true_and] at hx
      exact absurd (hx ▸ (by simp)) hs
  | @rest r hs =>
    generalize hx : '&' :: r = x at k
    cases k with
    | nil => cases hx
    | char hc k => cases hx; exact absurd rfl hc
    | ref => 
      simp only [List.cons.injEq, true_and] at hx
      exact absurd (hx ▸ (by simp)) hs
    | rest => cases hx; rfl

/-- **C28**, exactly: every text can be cut at its references, in one way. -/
theorem c28_cut (s : Str) : ∃ ps, Cut s ps ∧ ∀ qs, Cut s qs → qs = ps := by
  obtain ⟨ps, h⟩ := Cut.exists s
  exact ⟨ps, h, fun _ k => Cut.unique k h⟩

/-- **C28**, exactly, for all texts and codecs: of the decoded text those plain whitespace characters are missing for which the
last plain character before them is whitespace (references in between do not count), and nothing else.  The words stay the same
unless two visible characters are joined by that. -/
theorem c28_exact (lib : EntityLib) {s : Str} {ps : List Piece} (h : Cut s ps) :
    decodeBy lib.decodeOne s = (flagged lib.decodeOne ps).map Prod.fst ∧
    minifiedDecoded lib s = ((flagged lib.decodeOne ps).filter (·.2)).map Prod.fst ∧
    (words (minifiedDecoded lib s) = words (decodeBy lib.decodeOne s) ↔ ¬ joins (flagged lib.decodeOne ps)) := by
  refine ⟨?_, ?_, ?_⟩
  · rw [flagged_eq]; exact Cut.decoded h _
  · rw [flagged_eq]; exact Cut.minified h _
  · rw [flagged_eq, show minifiedDecoded lib s = _ from Cut.minified h _, Cut.decoded h false, eq_comm, words_iff_marks]
    rw [(marks_joins _ (flagsFrom_ws _ _ _)).1 false, joinsFrom_iff _ _ (flagsFrom_ws _ _ _)]
    simp

/-- In `a &gt; b` the second space is dropped, and that joins `>` with `b`. -/
example : words (minifiedDecoded toyLib "a &gt; b".toList) ≠ words (decodeBy toyLib.decodeOne "a &gt; b".toList) := by
  have hc : Cut "a &gt; b".toList [.char 'a', .char ' ', .ref "gt".toList, .char ' ', .char 'b'] :=
    .char (by decide) (.char (by decide) (.ref (e := "gt".toList) (by decide) (.char (by decide) (.char (by decide) .nil))))
  refine fun h => ((c28_exact toyLib hc).2.2.1 h) ?_
  exact ⟨[('a', true), (' ', true)], ('>', true), [(' ', false)], ('b', true), [], by decide +kernel, by decide, by simp, by decide, by decide⟩

end Rphtml
