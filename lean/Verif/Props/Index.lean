import Verif.Model.Index
import Verif.Props.Position

/-!
# C70: indices

The loops of the code that use indices (`Model/Index.lean`) never leave the bounds of their vectors, never subtract below
zero, and do what the list functions of the model do.  So what is proved about those holds for the loops as written.
-/

namespace Rphtml
open Spec

/-! ## The helpers -/

theorem trimLoop_eq : ∀ (cs : Str) (e : Nat), cs.length ≤ e → trimLoopIx e cs = some (e - (cs.takeWhile isWs).length)
  | [], e, _ => by simp [trimLoopIx]
  | c :: cs, e, h => by
    unfold trimLoopIx
    simp only [List.length_cons] at h
    cases hc : isWs c with
    | false => simp [hc]
    | true =>
      have := trimLoop_eq cs (e - 1) (by omega)
      simp only [Bool.not_true, Bool.false_eq_true, if_false, subIx, if_pos (show 1 ≤ e by omega), Option.bind_eq_bind, Option.bind_some, this,
        List.takeWhile_cons, hc, if_true, List.length_cons]
      congr 1; omega

/-- **C70**: `chars_trim_end`. -/
theorem c70_trim (target : Str) : charsTrimEndIx target = some (charsTrimEnd target) := by
  unfold charsTrimEndIx charsTrimEnd sliceIx
  rw [trimLoop_eq _ _ (by simp)]
  simp only [Option.bind_eq_bind, Option.bind_some, List.drop_zero]
  rw [if_pos ⟨Nat.zero_le _, by omega⟩]

theorem equalLoop_eq (case : Option NameCase) (cmp : Str) : ∀ (cs : Str) (i : Nat), i + cs.length = cmp.length →
    equalLoopIx case cmp i cs = some (isEqualCharsLoop case cs (cmp.drop i))
  | [], i, _ => by simp [equalLoopIx, isEqualCharsLoop]
  | c :: cs, i, h => by
    simp only [List.length_cons] at h
    have hi : i < cmp.length := by omega
    rw [List.drop_eq_getElem_cons hi]
    unfold equalLoopIx isEqualCharsLoop
    rw [List.getElem?_eq_getElem hi]
    simp only [Option.bind_eq_bind, Option.bind_some]
    cases eqCharCase case c cmp[i] with
    | false => simp
    | true => simpa using equalLoop_eq case cmp cs (i + 1) (by omega)

theorem ignoreLoop_eq (cmp : Str) : ∀ (cs : Str) (i : Nat) (same : Bool), i + cs.length = cmp.length →
    ignoreLoopIx cmp i same cs = some (isEqualIgnoreCaseLoop cs (cmp.drop i) same)
  | [], i, _, _ => by simp [ignoreLoopIx, isEqualIgnoreCaseLoop]
  | c :: cs, i, same, h => by
    simp only [List.length_cons] at h
    have hi : i < cmp.length := by omega
    rw [List.drop_eq_getElem_cons hi]
    unfold ignoreLoopIx isEqualIgnoreCaseLoop
    rw [List.getElem?_eq_getElem hi]
    simp only [Option.bind_eq_bind, Option.bind_some]
    have ih := fun s => ignoreLoop_eq cmp cs (i + 1) s (by omega)
    rw [ih, ih]
    repeat' split
    all_goals rfl

/-- **C70**: `is_equal_chars`, for every way to compare, and `is_equal_chars_ignore_case`. -/
theorem c70_equal (target cmp : Str) : (∀ case, isEqualCharsIx target cmp case = some (isEqualChars target cmp case)) ∧
    isEqualCharsIgnoreCaseIx target cmp = some (isEqualCharsIgnoreCase target cmp) := by
  constructor
  · intro case
    unfold isEqualCharsIx isEqualChars
    split
    · rfl
    · rename_i h
      exact equalLoop_eq case cmp target 0 (by simpa using h)
  · unfold isEqualCharsIgnoreCaseIx isEqualCharsIgnoreCase
    split
    · rfl
    · rename_i h
      exact ignoreLoop_eq cmp target 0 true (by simpa using h)

/-! ## Raw text -/

theorem take_rev_cons {l : Str} {n : Nat} (h : n < l.length) : (l.take (n + 1)).reverse = l[n] :: (l.take n).reverse := by
  rw [List.take_add_one, List.getElem?_eq_getElem h]; simp

theorem trailLoop_eq (prev : Str) : ∀ n, n ≤ prev.length → ∃ m, trailLoopIx prev n = some m ∧ m ≤ n ∧
    (prev.take n).reverse.dropWhile isWs = (prev.take m).reverse
  | 0, _ => ⟨0, rfl, Nat.le_refl _, by simp⟩
  | n + 1, h => by
    have hn : n < prev.length := by omega
    unfold trailLoopIx
    rw [List.getElem?_eq_getElem hn, take_rev_cons hn]
    simp only [Option.bind_eq_bind, Option.bind_some]
    cases hc : isWs prev[n] with
    | false => exact ⟨n + 1, by simp, Nat.le_refl _, by rw [take_rev_cons hn]; simp [hc]⟩
    | true =>
      obtain ⟨m, h1, h2, h3⟩ := trailLoop_eq prev n (by omega)
      exact ⟨m, by simpa using h1, by omega, by simpa [List.dropWhile_cons, hc] using h3⟩

theorem matchLoop_eq (cs : Bool) (endTag prev : Str) : ∀ k p, k ≤ endTag.length → p ≤ prev.length → k ≤ p →
    ∃ k' p', matchLoopIx cs endTag prev k p = some (k', p') ∧ p' ≤ p ∧ (k' = 0 → p' + k = p) ∧
      contentMatch cs (endTag.take k).reverse (prev.take p).reverse = if k' = 0 then some (prev.take p').reverse else none
  | 0, p, _, _, _ => ⟨0, p, rfl, Nat.le_refl _, fun _ => rfl, by simp [contentMatch]⟩
  | k + 1, p, h1, h2, h3 => by
    obtain ⟨q, rfl⟩ : ∃ q, p = q + 1 := ⟨p - 1, by omega⟩
    have hk : k < endTag.length := by omega
    have hq : q < prev.length := by omega
    unfold matchLoopIx
    rw [take_rev_cons hk, take_rev_cons hq, List.getElem?_eq_getElem hk]
    simp only [Option.bind_eq_bind, Option.bind_some, subIx, if_pos (show 1 ≤ q + 1 by omega), Nat.add_sub_cancel, List.getElem?_eq_getElem hq]
    unfold contentMatch
    cases contentCharMatch cs endTag[k] prev[q] with
    | false => exact ⟨k + 1, q + 1, by simp, Nat.le_refl _, fun h => by omega, by simp⟩
    | true =>
      obtain ⟨k', p', g1, g2, g3, g4⟩ := matchLoop_eq cs endTag prev k q (by omega) (by omega) (by omega)
      exact ⟨k', p', by simpa using g1, by omega, fun h => by have := g3 h; omega, by simpa using g4⟩

theorem contentMatch_rest {cs : Bool} : ∀ {ds ps rest : Str}, contentMatch cs ds ps = some rest → rest.length + ds.length = ps.length
  | [], ps, rest, h => by simp only [contentMatch, Option.some.injEq] at h; subst h; rfl
  | _ :: _, [], rest, h => by simp [contentMatch] at h
  | d :: ds, p :: ps, rest, h => by
    unfold contentMatch at h
    split at h
    · have := contentMatch_rest h; simp only [List.length_cons]; omega
    · cases h

theorem contentEnd_eq (cs : Bool) (endTag prev : Str) (h : 2 ≤ endTag.length) : contentEndIx cs endTag prev = some
    ((contentMatch cs endTag.reverse (prev.reverse.dropWhile isWs)).map fun rest => (prev.take rest.length, (prev.drop rest.length).drop 2)) := by
  obtain ⟨m, t1, t2, t3⟩ := trailLoop_eq prev prev.length (Nat.le_refl _)
  rw [List.take_length] at t3
  have hshort : m < endTag.length → contentMatch cs endTag.reverse (prev.take m).reverse = none := by
    intro hm
    cases hc : contentMatch cs endTag.reverse (prev.take m).reverse with
    | none => rfl
    | some rest =>
      have := contentMatch_rest hc
      simp only [List.length_reverse, List.length_take] at this
      omega
  unfold contentEndIx
  rw [t3]
  dsimp only
  by_cases hl : endTag.length ≤ prev.length
  · rw [if_pos hl, t1]
    simp only [Option.bind_eq_bind, Option.bind_some]
    by_cases hm : endTag.length ≤ m
    · rw [if_pos hm]
      obtain ⟨k', p', g1, g2, g3, g4⟩ := matchLoop_eq cs endTag prev endTag.length m (Nat.le_refl _) t2 hm
      rw [List.take_length] at g4
      rw [g1, g4]
      simp only [Option.bind_some]
      by_cases hk : k' = 0
      · have := g3 hk
        have hp : p' ≤ prev.length := by omega
        simp only [hk, if_true, splitOffIx, if_pos hp, Option.bind_some, List.length_drop,
          if_pos (show 2 ≤ prev.length - p' by omega), Option.map_some, List.length_reverse, List.length_take, Nat.min_eq_left hp]
      · simp [hk]
    · rw [if_neg hm, hshort (by omega)]
      simp only [Option.map_none]
      rw [if_neg (by omega)]
  · rw [if_neg hl, hshort (by omega)]
    rfl

/-- **C70**: `parse_content_tag`, in every state with two characters to detect or more. -/
theorem c70_raw (d : Doc) (c : Char) (h : ∀ e, d.detect = some e → 2 ≤ e.length) : parseContentTagIx d c = some (parseContentTag d c) := by
  unfold parseContentTagIx parseContentTag
  split
  · rfl
  · cases hd : d.detect with
    | none => rfl
    | some e =>
      simp only
      rw [contentEnd_eq _ _ _ (h e hd)]
      cases contentMatch d.opts.caseSensitiveTagname e.reverse (d.prevChars.reverse.dropWhile isWs) with
      | none => rfl
      | some rest => rfl

/-! ## Comments -/

/-- **C70**: `parse_comment_or_cdata`, in every state. -/
theorem c70_comment (d : Doc) (c : Char) : parseCommentOrCdataIx d c = some (parseCommentOrCdata d c) := by
  unfold parseCommentOrCdataIx parseCommentOrCdata commentEndIx
  dsimp only
  by_cases hc : c = '>'
  · by_cases ht : d.prevChars.length > 2
    · have h1 : d.prevChars.length - 1 < d.prevChars.length := by omega
      have h2 : d.prevChars.length - 2 < d.prevChars.length := by omega
      simp only [hc, ht, if_true, subIx, if_pos (show 1 ≤ d.prevChars.length by omega), if_pos (show 2 ≤ d.prevChars.length by omega),
        Option.bind_eq_bind, Option.bind_some, List.getElem?_eq_getElem h1, List.getElem?_eq_getElem h2, true_and, Option.some.injEq]
      by_cases e1 : d.prevChars[d.prevChars.length - 1] = d.markChar
      · by_cases e2 : d.prevChars[d.prevChars.length - 2] = d.markChar
        · simp [e1, e2]
        · simp [e1, e2]
      · simp [e1]
    · simp [hc, ht]
  · simp [hc]

/-! ## The whole parser -/

theorem runHandle_ix {o : ParseOptions} {s : Str} {d : Doc} (hr : Reach o s d) (c : Char) (ctx : Str) :
    runHandleIx d c ctx = some (runHandle d c ctx) := by
  unfold runHandleIx
  split
  · rename_i hh
    rw [c70_raw, runHandle, hh]
    intro e he
    have := hr.ctl.hs
    unfold HandleOk at this
    simp only [hh] at this
    obtain ⟨_, _, m, _, h2, _⟩ := this
    rw [h2] at he; cases he
    simp
  · rename_i hh
    rw [c70_comment, runHandle, hh]
  · rfl

theorem run_ix {o : ParseOptions} (ctx : Str) : ∀ (cs s : Str) (d : Doc), Reach o s d → d.runIx ctx cs = some (d.run ctx cs)
  | [], _, _, _ => rfl
  | c :: cs, s, d, hr => by
    unfold Doc.runIx Doc.run Doc.next
    rw [runHandle_ix hr]
    have hs := runHandle_sound c ctx hr.ctl
    cases hx : runHandle d c ctx with
    | err e => rfl
    | panic p => rfl
    | ok d' =>
      rw [hx] at hs
      exact run_ix ctx cs _ _ (Reach.step hr (hs.1 d' rfl))

/-- **C70**: for every text and all options, parsing with indices gives what the model gives, and no index is ever out of
bounds. -/
theorem c70_parse (s : Str) (o : ParseOptions) : Doc.parseIx s o = some (Doc.parse s o) := by
  unfold Doc.parseIx Doc.parse
  rw [run_ix s s [] (Doc.new o) Reach.init]

theorem runLines_ix {o : ParseOptions} : ∀ (ls : List Str) (content s : Str) (d : Doc), Reach o s d →
    d.runLinesIx content ls = some (d.runLines content ls)
  | [], _, _, _, _ => rfl
  | l :: ls, content, s, d, hr => by
    unfold Doc.runLinesIx Doc.runLines
    rw [run_ix _ _ s d hr]
    have he : d.run (content ++ l) (l ++ ['\n']) = (d.run (content ++ l) l).bind fun d => d.next '\n' (content ++ l) := by
      rw [run_append]
      congr 1
      funext d
      simp only [Doc.run, Res.bind_eq]
      cases d.next '\n' (content ++ l) <;> rfl
    simp only [Res.bind_eq]
    cases h1 : d.run (content ++ l) (l ++ ['\n']) with
    | err e =>
      rw [h1] at he
      cases h2 : d.run (content ++ l) l with
      | ok d1 => rw [h2] at he; simp only [Res.bind] at he ⊢; rw [← he]
      | err e' => rw [h2] at he; cases he; rfl
      | panic p => rw [h2] at he; cases he
    | panic e =>
      rw [h1] at he
      cases h2 : d.run (content ++ l) l with
      | ok d1 => rw [h2] at he; simp only [Res.bind] at he ⊢; rw [← he]
      | err e' => rw [h2] at he; cases he
      | panic p => rw [h2] at he; cases he; rfl
    | ok d' =>
      have hr' := Reach.run _ _ _ _ hr h1
      rw [h1] at he
      cases h2 : d.run (content ++ l) l with
      | ok d1 =>
        rw [h2] at he
        simp only [Res.bind] at he ⊢
        rw [← he]
        exact runLines_ix ls _ _ d' hr'
      | err e' => rw [h2] at he; cases he
      | panic p => rw [h2] at he; cases he

/-- **C70**: the same for `parse_file`. -/
theorem c70_file (text : Str) (o : ParseOptions) : Doc.parseFileIx text o = some (Doc.parseFile text o) := by
  unfold Doc.parseFileIx Doc.parseFile
  rw [runLines_ix (rustLines text) [] [] (Doc.new o) Reach.init]

/-- **C70**: no position or child index in a parsed document is larger than the text, so that none can overflow. -/
theorem c70_fits {s : Str} {o : ParseOptions} {d : Doc} (h : Doc.parse s o = .ok d) :
    (∀ x, (InDoc d.heap d.root x ∨ ∃ t, InDoc d.heap d.root t ∧ (d.heap.cell t).endTag = some x) →
      (d.heap.cell x).beginAt ≤ s.length ∧ (d.heap.cell x).endAt ≤ s.length) ∧
    (∀ p k x, InDoc d.heap d.root p → childAt d.heap p k x → (d.heap.cell x).index ≤ (d.heap.cell x).beginAt) := by
  obtain ⟨h1, _, _, h4, _⟩ := c09_positions h
  constructor
  · intro x hx
    have := h1 x hx
    omega
  · intro p k x hp hx
    rw [c06_index h p k x hp hx]
    induction k generalizing x with
    | zero => omega
    | succ k ih =>
      obtain ⟨ids, hc, hk⟩ := hx
      obtain ⟨y, hy⟩ : ∃ y, ids[k]? = some y := by
        have : k + 1 < ids.length := by
          rcases Nat.lt_or_ge (k + 1) ids.length with q | q
          · exact q
          · rw [List.getElem?_eq_none q] at hk; cases hk
        exact ⟨ids[k], List.getElem?_eq_getElem (by omega)⟩
      have a := ih y ⟨ids, hc, hy⟩
      have b := h4 p k (k + 1) y x hp ⟨ids, hc, hy⟩ ⟨ids, hc, hk⟩ (by omega)
      omega

/-! ## Decoding while collapsing -/

theorem decodeLoop_eq (lib : EntityLib) (content : Str) : ∀ (cs pre : Str) (result : Str) (sp : Bool) (ent : Option Str) (start : Nat),
    content = pre ++ cs → (∀ e, ent = some e → ∃ u, pre = u ++ '&' :: e ∧ start = u.length) →
    ∃ r b k, decodeLoopIx lib content pre.length cs result sp ent.isSome start = some (r, b, k) ∧
      (b = true → k ≤ content.length) ∧ (if b then r ++ content.drop k else r) = result ++ minifyDecodeLoop lib sp ent cs
  | [], pre, result, sp, none, start, _, _ => ⟨result, false, start, by simp [decodeLoopIx], by simp, by simp [minifyDecodeLoop]⟩
  | [], pre, result, sp, some e, start, h, he => by
    obtain ⟨u, h1, h2⟩ := he e rfl
    refine ⟨result, true, start, by simp [decodeLoopIx], ?_, ?_⟩
    · intro _; rw [h, h1, h2]; simp
    · rw [h, h1, h2]; simp [minifyDecodeLoop]
  | c :: cs, pre, result, sp, none, start, h, he => by
    have hc : content = (pre ++ [c]) ++ cs := by rw [h]; simp
    have hl : (pre ++ [c]).length = pre.length + 1 := by simp
    unfold decodeLoopIx minifyDecodeLoop
    simp only [Option.isSome_none, Bool.not_false, if_true]
    by_cases h1 : c = '&'
    · rw [if_pos h1, if_pos h1]
      have := decodeLoop_eq lib content cs (pre ++ [c]) result sp (some []) pre.length hc (by
        intro e q; cases q; exact ⟨pre, by rw [h1], rfl⟩)
      rwa [hl] at this
    · rw [if_neg h1, if_neg h1]
      have ih := fun r b => decodeLoop_eq lib content cs (pre ++ [c]) r b none start hc (by intro e q; cases q)
      simp only [hl, Option.isSome_none] at ih
      by_cases h2 : isWs c = true
      · rw [if_pos h2, if_pos h2]
        cases sp with
        | true => simpa using ih result true
        | false => simpa using ih (result ++ [c]) true
      · rw [if_neg h2, if_neg h2]
        simpa using ih (result ++ [c]) false
  | c :: cs, pre, result, sp, some e, start, h, he => by
    have hc : content = (pre ++ [c]) ++ cs := by rw [h]; simp
    have hl : (pre ++ [c]).length = pre.length + 1 := by simp
    obtain ⟨u, h1, h2⟩ := he e rfl
    unfold decodeLoopIx minifyDecodeLoop
    simp only [Option.isSome_some, Bool.not_true, Bool.false_eq_true, if_false]
    by_cases h3 : c = ';'
    · rw [if_pos h3, if_pos h3]
      have hs : sliceIx content (start + 1) pre.length = some e := by
        unfold sliceIx
        rw [if_pos ⟨by rw [h1, h2]; simp, by rw [h]; simp⟩, h, List.take_left, h1, h2]
        simp
      rw [hs]
      simp only [Option.bind_eq_bind, Option.bind_some]
      have ih := fun r => decodeLoop_eq lib content cs (pre ++ [c]) r sp none start hc (by intro e q; cases q)
      simp only [hl, Option.isSome_none] at ih
      cases lib.decodeOne e with
      | none => simpa using ih (result ++ ['&'] ++ e ++ [';'])
      | some x => simpa using ih (result ++ [x])
    · rw [if_neg h3, if_neg h3]
      have := decodeLoop_eq lib content cs (pre ++ [c]) result sp (some (e ++ [c])) start hc (by
        intro e' q; cases q; exact ⟨u, by rw [h1]; simp, h2⟩)
      rwa [hl] at this

/-- **C70**: the loop that collapses whitespace and decodes entities, for every text and codec; what is in `result` stays. -/
theorem c70_decode (lib : EntityLib) (content result : Str) :
    minifyDecodeIx lib content result = some (result ++ minifyDecodeLoop lib false none content) := by
  obtain ⟨r, b, k, h1, h2, h3⟩ := decodeLoop_eq lib content content [] result false none 0 rfl (by intro e q; cases q)
  unfold minifyDecodeIx
  simp only [List.length_nil, Option.isSome_none] at h1
  rw [h1]
  simp only [Option.bind_eq_bind, Option.bind_some]
  rw [← h3]
  cases b with
  | false => rfl
  | true => simp [sliceIx, h2 rfl]

/-- The checks are real: with one character to detect the name of the end tag would be split off out of bounds; a
start behind the index is no slice. -/
example : contentEndIx false ['a'] ['a'] = none ∧ sliceIx ['a', 'b'] 2 1 = none ∧ subIx 1 2 = none ∧
    equalLoopIx none ['a'] 0 ['a', 'b'] = none := by decide

example : contentEndIx false "</title".toList "a</b</TITLE \n".toList = some (some ("a</b".toList, "TITLE \n".toList)) ∧
    contentEndIx true "</title".toList "a</b</TITLE \n".toList = some none ∧
    contentEndIx false "</title".toList " \n      ".toList = some none := by decide

example : charsTrimEndIx "p \n".toList = some ['p'] ∧ charsTrimEndIx "  ".toList = some [] ∧
    isEqualCharsIgnoreCaseIx "Ab".toList "aB".toList = some (true, false) := by decide

example : minifyDecodeIx toyLib "a  &amp;  b &c".toList "x".toList = some ("x".toList ++ minifyDecodeLoop toyLib false none "a  &amp;  b &c".toList) ∧
    minifyDecodeIx toyLib "a  b &c  d".toList "x".toList = some "xa b &c  d".toList := by decide +kernel

/-- A raw text, a comment, a child index. -/
example : (match Doc.parseIx "<p><title>a</b</TITLE ></p><!--b--->".toList {} with
    | some (.ok d) => some ((d.heap.cell 2).content, (d.heap.cell 3).content, (d.heap.cell 5).content, (d.heap.cell 5).index, (d.heap.cell 5).endAt)
    | _ => none) = some (some "a</b".toList, some "TITLE ".toList, some "b-".toList, 1, 36) := by decide +kernel

end Rphtml
