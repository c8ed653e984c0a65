import Verif.Props.File
import Verif.Props.Region
import Verif.Spec.Viable

/-! # C26, the lines and columns of `parse_file` -/

namespace Rphtml
open Spec

theorem rustLines_noNl (s : Str) : ∀ l ∈ rustLines s, '\n' ∉ l := by
  suffices ∀ (s acc : Str), '\n' ∉ acc → ∀ l ∈ rustLines.go acc s, '\n' ∉ l from this s [] (by simp)
  intro s
  induction s with
  | nil =>
    intro acc h l hl
    rw [rustLines.go] at hl
    split at hl
    · simp at hl
    · simp at hl; subst hl; simpa using h
  | cons c cs ih =>
    intro acc h l hl
    by_cases hc : c = '\n'
    · subst hc
      have hgo : ∃ m, rustLines.go acc ('\n' :: cs) = m :: rustLines.go [] cs ∧ '\n' ∉ m := by
        cases acc with
        | nil => exact ⟨[], rfl, by simp⟩
        | cons a acc =>
          simp only [List.mem_cons, not_or] at h
          by_cases ha : a = '\r'
          · subst ha; exact ⟨acc.reverse, rfl, by simpa using h.2⟩
          · refine ⟨(a :: acc).reverse, ?_, by simpa using ⟨h.2, h.1⟩⟩
            rw [rustLines.go]
            intro _ q; cases q; exact ha rfl
      obtain ⟨m, hm, hm'⟩ := hgo
      rw [hm] at hl
      rcases List.mem_cons.mp hl with rfl | hl
      · exact hm'
      · exact ih [] (by simp) l hl
    · rw [rustLines.go] at hl
      · exact ih (c :: acc) (by simp [h, Ne.symm hc]) l hl
      · exact hc

/-- The lines, each with its end. -/
def withEnds (ls : List Str) : Str := (ls.map (· ++ ['\n'])).flatten

theorem withEnds_append (a b : List Str) : withEnds (a ++ b) = withEnds a ++ withEnds b := by
  simp [withEnds]

theorem withEnds_filter : ∀ (ls : List Str), (∀ l ∈ ls, '\n' ∉ l) → (withEnds ls).filter (· ≠ '\n') = ls.flatten
  | [], _ => rfl
  | l :: ls, h => by
    have h1 : withEnds (l :: ls) = l ++ ['\n'] ++ withEnds ls := rfl
    rw [h1, List.filter_append, List.filter_append, withEnds_filter ls fun x hx => h x (List.mem_cons_of_mem _ hx)]
    have h2 : l.filter (· ≠ '\n') = l := by
      rw [List.filter_eq_self]
      intro c hc
      have := h l List.mem_cons_self
      simp only [decide_eq_true_eq]
      intro e; subst e; exact this hc
    rw [h2]
    simp

theorem region_self {α : Type} {x : Res α} {ctx : Str} {e : ParseError} (h : x.rectx ctx = x) (he : x = .err e) :
    e.region = CodeRegion.fromContextIndex ctx e.region.index := by
  rw [he] at h
  simp only [Res.rectx, createParseError, Res.err.injEq] at h
  conv => lhs; rw [← h]

theorem runLines_stop : ∀ (ls : List Str) (d : Doc) (x : Str),
    (∀ e, d.runLines x ls = .err e → ∃ l1 l l2, ls = l1 ++ l :: l2 ∧
      e.region = CodeRegion.fromContextIndex (x ++ (l1 ++ [l]).flatten) e.region.index ∧
      (∃ d1, d.run [] (withEnds l1) = .ok d1) ∧ ∃ e', d.run [] (withEnds (l1 ++ [l])) = .err e') ∧
    ∀ p, d.runLines x ls = .ok p → p.2 = x ++ ls.flatten ∧ d.run [] (withEnds ls) = .ok p.1
  | [], d, x => by
    refine ⟨fun e h => by simp [Doc.runLines] at h, fun p h => ?_⟩
    simp only [Doc.runLines, Res.ok.injEq] at h
    subst h
    exact ⟨by simp, rfl⟩
  | l :: ls, d, x => by
    simp only [Doc.runLines, Res.bind_eq]
    have h1 := run_rectx d l (x ++ l) []
    have h1' := run_rectx d l (x ++ l) (x ++ l)
    have hone : withEnds [l] = l ++ ['\n'] := by simp [withEnds]
    cases hr : d.run (x ++ l) l with
    | panic p => exact ⟨fun e h => by simp [Res.bind] at h, fun p h => by simp [Res.bind] at h⟩
    | err e0 =>
      refine ⟨fun e h => ?_, fun p h => by simp [Res.bind] at h⟩
      simp only [Res.bind, Res.err.injEq] at h
      subst h
      refine ⟨[], l, ls, rfl, ?_, ⟨d, rfl⟩, ?_⟩
      · simpa using region_self h1' hr
      · rw [List.nil_append, hone, run_append, ← h1, hr]
        exact ⟨_, rfl⟩
    | ok d1 =>
      have h2 := next_rectx d1 '\n' (x ++ l) []
      have h2' := next_rectx d1 '\n' (x ++ l) (x ++ l)
      rw [hr] at h1
      simp only [Res.rectx] at h1
      simp only [Res.bind]
      cases hn : d1.next '\n' (x ++ l) with
      | panic p => exact ⟨fun e h => by simp at h, fun p h => by simp at h⟩
      | err e0 =>
        refine ⟨fun e h => ?_, fun p h => by simp at h⟩
        simp only [Res.err.injEq] at h
        subst h
        refine ⟨[], l, ls, rfl, ?_, ⟨d, rfl⟩, ?_⟩
        · simpa using region_self h2' hn
        · rw [List.nil_append, hone, run_append, ← h1]
          simp only [Res.bind_eq, Res.bind, Doc.run, ← h2, hn]
          exact ⟨_, rfl⟩
      | ok d2 =>
        rw [hn] at h2
        simp only [Res.rectx] at h2
        have hl : d.run [] (withEnds [l]) = .ok d2 := by
          rw [hone, run_append, ← h1]
          simp only [Res.bind_eq, Res.bind, Doc.run, ← h2]
        have hcons : ∀ m : List Str, d.run [] (withEnds (l :: m)) = d2.run [] (withEnds m) := by
          intro m
          rw [show l :: m = [l] ++ m from rfl, withEnds_append, run_append, hl]
          rfl
        obtain ⟨i1, i2⟩ := runLines_stop ls d2 (x ++ l)
        refine ⟨fun e h => ?_, fun p h => ?_⟩
        · obtain ⟨l1, m, l2, rfl, hreg, ⟨d3, h3⟩, e', h4⟩ := i1 e h
          refine ⟨l :: l1, m, l2, rfl, ?_, ⟨d3, ?_⟩, e', ?_⟩
          · simpa using hreg
          · rw [hcons]; exact h3
          · rw [List.cons_append, hcons]; exact h4
        · obtain ⟨h3, h4⟩ := i2 p h
          exact ⟨by rw [h3]; simp, by rw [hcons]; exact h4⟩

theorem run_prefix {d d' : Doc} {ctx a b : Str} (h : d.run ctx (a ++ b) = .ok d') : ∃ d1, d.run ctx a = .ok d1 := by
  rw [run_append] at h
  cases hr : d.run ctx a with
  | ok d1 => exact ⟨d1, rfl⟩
  | err e => rw [hr] at h; cases h
  | panic p => rw [hr] at h; cases h

theorem readable_of_run {u : Str} {o : ParseOptions} {d : Doc} (h : (Doc.new o).run [] u = .ok d) : readable u o = true := by
  unfold readable
  rw [run_ok_ctx h u]

theorem not_readable_of_err {u : Str} {o : ParseOptions} {e : ParseError} (h : (Doc.new o).run [] u = .err e) : readable u o = false := by
  unfold readable
  have := run_rectx (Doc.new o) u [] u
  rw [h] at this
  rw [← this]
  rfl

/-- A whole line before the last one of these lines ends before the last one begins. -/
theorem line_cut {w l a b : Str} (hl : '\n' ∉ l) (hb : b ≠ []) (h : w ++ (l ++ ['\n']) = a ++ '\n' :: b) :
    ∃ v, w = (a ++ ['\n']) ++ v := by
  have h' : w ++ (l ++ ['\n']) = (a ++ ['\n']) ++ b := by rw [h]; simp
  rcases List.append_eq_append_iff.mp h' with ⟨v, h1, h2⟩ | ⟨v, h1, h2⟩
  · -- `a ++ ['\n'] = w ++ v`, `l ++ ['\n'] = v ++ b`
    cases v using List.reverseRecOn with
    | nil => exact ⟨[], by simpa using h1.symm⟩
    | append_singleton v c =>
      rw [← List.append_assoc] at h1
      have hc : c = '\n' := by
        have := congrArg List.getLast? h1
        simpa using this.symm
      subst hc
      rw [List.append_assoc] at h2
      have : '\n' ∈ l := by
        cases b using List.reverseRecOn with
        | nil => exact absurd rfl hb
        | append_singleton b c =>
          rw [← List.append_assoc, ← List.append_assoc] at h2
          have := (List.append_inj' h2 rfl).1
          rw [this]; simp
      exact absurd this hl
  · exact ⟨v, h1⟩

/-- **C26** (line and column): an error of `parse_file` is placed in the text read so far without its line ends.
`u` is the text up to the end of the line in which reading stops. -/
theorem c26_region {text : Str} {o : ParseOptions} {e : ParseError} (h : Doc.parseFile text o = .err e) :
    ∃ u v, fileText text = u ++ v ∧ (u = [] ∨ u.getLast? = some '\n') ∧
      (readable u o = true → v = []) ∧ (∀ a b, u = a ++ '\n' :: b → b ≠ [] → readable (a ++ ['\n']) o = true) ∧
      e.region.line = 1 + lineBreaks ((u.filter (· ≠ '\n')).take (e.region.index + 1)) ∧
      e.region.col = lastLineLength ((u.filter (· ≠ '\n')).take (e.region.index + 1)) := by
  have hnl := rustLines_noNl text
  have ht : withEnds (rustLines text) = fileText text := rustLines_text text
  obtain ⟨i1, i2⟩ := runLines_stop (rustLines text) (Doc.new o) []
  unfold Doc.parseFile at h
  simp only [Res.bind_eq] at h
  cases hr : (Doc.new o).runLines [] (rustLines text) with
  | panic p => rw [hr] at h; cases h
  | err e0 =>
    rw [hr] at h
    simp only [Res.bind, Res.err.injEq] at h
    subst h
    obtain ⟨l1, l, l2, hs, hreg, ⟨d1, h1⟩, e', h2⟩ := i1 e0 hr
    rw [hs] at hnl ht
    have hf : (withEnds (l1 ++ [l])).filter (· ≠ '\n') = (l1 ++ [l]).flatten := withEnds_filter _ fun x hx => hnl x (by
      rcases List.mem_append.mp hx with hx | hx
      · exact List.mem_append_left _ hx
      · exact List.mem_append_right _ (by simp at hx; simp [hx]))
    have hu : withEnds (l1 ++ [l]) = withEnds l1 ++ (l ++ ['\n']) := by rw [withEnds_append]; simp [withEnds]
    refine ⟨withEnds (l1 ++ [l]), withEnds l2, ?_, ?_, ?_, ?_, ?_⟩
    · rw [← ht, show l1 ++ l :: l2 = (l1 ++ [l]) ++ l2 by simp, withEnds_append]
    · exact Or.inr (by rw [hu]; simp)
    · intro hx
      rw [not_readable_of_err h2] at hx
      cases hx
    · intro a b hab hb
      rw [hu] at hab
      obtain ⟨v, hv⟩ := line_cut (hnl l (by simp)) hb hab
      rw [hv] at h1
      obtain ⟨d2, h3⟩ := run_prefix h1
      exact readable_of_run h3
    · rw [hf]
      rw [List.nil_append, c25_region_spec] at hreg
      constructor
      · exact congrArg CodeRegion.line hreg
      · exact congrArg CodeRegion.col hreg
  | ok p =>
    rw [hr] at h
    simp only [Res.bind] at h
    obtain ⟨h1, h2⟩ := i2 p hr
    cases he : p.1.eof p.2 with
    | ok d1 => rw [he] at h; cases h
    | panic q => rw [he] at h; cases h
    | err e0 =>
      rw [he] at h
      simp only [Res.err.injEq] at h
      subst h
      have hreg := region_self (eof_rectx p.1 p.2 p.2) he
      rw [h1, List.nil_append, c25_region_spec] at hreg
      refine ⟨fileText text, [], by simp, ?_, fun _ => rfl, ?_, ?_⟩
      · unfold fileText endNl
        split
        · assumption
        · exact Or.inr (by simp)
      · intro a b hab hb
        rw [ht, hab, show a ++ '\n' :: b = (a ++ ['\n']) ++ b by simp] at h2
        obtain ⟨d2, h3⟩ := run_prefix h2
        exact readable_of_run h3
      · rw [← ht, withEnds_filter _ hnl]
        exact ⟨congrArg CodeRegion.line hreg, congrArg CodeRegion.col hreg⟩

theorem lineBreaks_none : ∀ {s : Str}, '\r' ∉ s → '\n' ∉ s → lineBreaks s = 0
  | [], _, _ => rfl
  | c :: s, h1, h2 => by
    simp only [List.mem_cons, not_or] at h1 h2
    rw [lineBreaks]
    · exact lineBreaks_none h1.2 h2.2
    · intro _ e; exact fun _ => h1.1 e.symm
    · exact fun e => h1.1 e.symm
    · exact fun e => h2.1 e.symm

/-- **C26** (line and column), files whose carriage returns all belong to line ends: every error is reported in the first line. -/
theorem c26_first_line {text : Str} {o : ParseOptions} {e : ParseError} (hr : '\r' ∉ crlfToLf text) (h : Doc.parseFile text o = .err e) :
    e.region.line = 1 ∧ e.region.col ≤ e.region.index + 1 := by
  obtain ⟨u, v, hu, _, _, _, hl, hc⟩ := c26_region h
  have h1 : '\r' ∉ fileText text := by
    intro hx
    unfold fileText endNl at hx
    split at hx
    · exact hr hx
    · simp at hx; exact hr hx
  have h2 : '\r' ∉ (u.filter (· ≠ '\n')).take (e.region.index + 1) := by
    intro hx
    have := (List.mem_filter.mp (List.mem_of_mem_take hx)).1
    exact h1 (by rw [hu]; exact List.mem_append_left _ this)
  have h3 : '\n' ∉ (u.filter (· ≠ '\n')).take (e.region.index + 1) := by
    intro hx
    have := (List.mem_filter.mp (List.mem_of_mem_take hx)).2
    simp at this
  refine ⟨by rw [hl, lineBreaks_none h2 h3], ?_⟩
  rw [hc]
  unfold lastLineLength
  refine Nat.le_trans (List.takeWhile_sublist _).length_le ?_
  rw [List.length_reverse, List.length_take]
  exact Nat.min_le_left _ _

/-- The error of this file is in its second line; it is reported in the first one. -/
example : (match Doc.parseFile "<p>\n</q>".toList {} with | .err e => some e.region | _ => none) = some ⟨7, 1, 7⟩ ∧
    readable "<p>\n".toList {} = true ∧ readable "<p>\n</q>\n".toList {} = false := by decide +kernel

example : '\r' ∉ crlfToLf "<p>\r\n</q>".toList ∧
    (match Doc.parseFile "<p>\r\n</q>".toList {} with | .err e => some e.region | _ => none) = some ⟨7, 1, 7⟩ := by decide +kernel

/-- A carriage return that is not part of a line end does count. -/
example : (match Doc.parseFile "<p>\r \n</q>".toList {} with | .err e => some e.region | _ => none) = some ⟨9, 2, 5⟩ := by
  decide +kernel

end Rphtml
