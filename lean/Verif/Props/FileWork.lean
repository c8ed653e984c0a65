import Verif.Model.CostFile
import Verif.Props.Work
import Verif.Props.FileRegion

/-!
# C75: the work of parsing a file

`parse_file` keeps a growing copy of the text and positions errors in it.  It does what `parse` does on the
text of the file (`Spec.fileText`), and reads and copies every line once.
-/

namespace Rphtml

open Spec

/-- What reading the lines costs. -/
def readCost (ls : List Str) : Nat := (ls.map fun l => 2 * l.length + 1).sum

/-- The error of `next` in two texts. -/
theorem next_err_two {d : Doc} {c : Char} {x y : Str} {e : ParseError} (h : d.next c x = .err e) :
    ∃ e', d.next c y = .err e' ∧ e'.kind = e.kind := by
  have := next_rectx d c x y
  rw [h] at this
  exact ⟨_, this.symm, rfl⟩

theorem eof_err_two {d : Doc} {x y : Str} {e : ParseError} (h : d.eof x = .err e) :
    ∃ e', d.eof y = .err e' ∧ e'.kind = e.kind := by
  have := eof_rectx d x y
  rw [h] at this
  exact ⟨_, this.symm, rfl⟩

theorem next_panic_two {d : Doc} {c : Char} {x : Str} {p : Site} (y : Str) (h : d.next c x = .panic p) : d.next c y = .panic p := by
  rw [← next_rectx d c x y, h]; rfl

theorem charsWork_le {x y rest : Str} {k : Doc → Nat} {C : Nat} (hxy : x.length ≤ y.length)
    (hk : ∀ d, k d ≤ runWork d y rest + C) : ∀ (cs : Str) (d : Doc), charsWork d x k cs ≤ runWork d y (cs ++ rest) + C
  | [], d => hk d
  | c :: cs, d => by
    simp only [charsWork, List.cons_append, runWork]
    cases hn : d.next c x with
    | ok d' =>
      have ih := charsWork_le hxy hk cs d'
      rw [next_ok_ctx hn y]
      simp only
      omega
    | err e =>
      obtain ⟨e', h1, h2⟩ := next_err_two (y := y) hn
      rw [h1]
      simp only [errWork, h2]
      omega
    | panic p =>
      rw [next_panic_two y hn]
      simp only
      omega

theorem charsWork_ge {x y rest : Str} {k : Doc → Nat}
    (hk : ∀ d, runWork d y rest ≤ k d + y.length) : ∀ (cs : Str) (d : Doc), runWork d y (cs ++ rest) ≤ charsWork d x k cs + y.length
  | [], d => hk d
  | c :: cs, d => by
    simp only [charsWork, List.cons_append, runWork]
    cases hn : d.next c x with
    | ok d' =>
      have ih := charsWork_ge (x := x) hk cs d'
      rw [next_ok_ctx hn y]
      simp only
      omega
    | err e =>
      obtain ⟨e', h1, h2⟩ := next_err_two (y := y) hn
      rw [h1]
      simp only [errWork, h2]
      omega
    | panic p =>
      rw [next_panic_two y hn]
      simp only
      omega

theorem charsWork_eq {x y rest : Str} {k : Doc → Nat} : ∀ (cs : Str) (d d1 : Doc), d.run y cs = .ok d1 →
    charsWork d x k cs + runWork d1 y rest = runWork d y (cs ++ rest) + k d1
  | [], d, d1, h => by
    cases h
    simp only [charsWork, List.nil_append]
    omega
  | c :: cs, d, d1, h => by
    simp only [charsWork, List.cons_append, runWork]
    unfold Doc.run at h
    simp only [Res.bind_eq] at h
    cases hn : d.next c y with
    | ok d' =>
      rw [hn] at h
      have ih := charsWork_eq (x := x) (rest := rest) (k := k) cs d' d1 h
      rw [next_ok_ctx hn x]
      simp only
      omega
    | err e => rw [hn] at h; cases h
    | panic p => rw [hn] at h; cases h

theorem charsWork_err {x y rest : Str} {k : Doc → Nat} : ∀ (cs : Str) (d : Doc) (e : ParseError), d.run y cs = .err e →
    charsWork d x k cs + y.length = runWork d y (cs ++ rest) + x.length
  | [], d, e, h => by cases h
  | c :: cs, d, e, h => by
    simp only [charsWork, List.cons_append, runWork]
    unfold Doc.run at h
    simp only [Res.bind_eq] at h
    cases hn : d.next c y with
    | ok d' =>
      rw [hn] at h
      have ih := charsWork_err (x := x) (rest := rest) (k := k) cs d' e h
      rw [next_ok_ctx hn x]
      simp only
      omega
    | err e =>
      obtain ⟨e', h1, h2⟩ := next_err_two (y := x) hn
      rw [h1]
      simp only [errWork, h2]
      omega
    | panic p => rw [hn] at h; cases h

theorem eofWork_err {d : Doc} {x y : Str} {e : ParseError} (h : d.eof y = .err e) : eofWork d x + y.length = eofWork d y + x.length := by
  obtain ⟨e', h1, h2⟩ := eof_err_two (y := x) h
  unfold eofWork
  rw [h1, h]
  simp only [errWork, h2]
  omega

theorem eofWork_le {d : Doc} {x y : Str} (hxy : x.length ≤ y.length) : eofWork d x ≤ eofWork d y := by
  unfold eofWork
  cases hn : d.eof x with
  | ok d' => simp only; omega
  | err e =>
    obtain ⟨e', h1, h2⟩ := eof_err_two (y := y) hn
    rw [h1]
    simp only [errWork, h2]
    omega
  | panic p => simp only; omega

theorem eofWork_ge {d : Doc} {x y : Str} : eofWork d y ≤ eofWork d x + y.length := by
  unfold eofWork
  cases hn : d.eof y with
  | ok d' => simp only; omega
  | err e =>
    obtain ⟨e', h1, h2⟩ := eof_err_two (y := x) hn
    rw [h1]
    simp only [errWork, h2]
    omega
  | panic p => simp only; omega

theorem eofWork_ok {d d' : Doc} {x y : Str} (h : d.eof y = .ok d') : eofWork d x = eofWork d y := by
  have hx : d.eof x = .ok d' := by rw [← eof_rectx d y x, h]; rfl
  unfold eofWork
  rw [hx, h]

theorem linesWork_le {y : Str} : ∀ (ls : List Str) (x : Str) (d : Doc), x.length + ls.flatten.length ≤ y.length →
    linesWork d x ls ≤ runWork d y ((ls.map (· ++ ['\n'])).flatten) + readCost ls
  | [], x, d, h => by
    simp only [linesWork, List.map_nil, List.flatten_nil, runWork, readCost, List.sum_nil, Nat.add_zero]
    exact eofWork_le (by simp at h; omega)
  | l :: ls, x, d, h => by
    simp only [List.flatten_cons, List.length_append] at h
    have := charsWork_le (x := x ++ l) (y := y) (rest := (ls.map (· ++ ['\n'])).flatten) (C := readCost ls)
      (k := fun d' => linesWork d' (x ++ l) ls) (by rw [List.length_append]; omega)
      (fun d => linesWork_le ls (x ++ l) d (by rw [List.length_append]; omega)) (l ++ ['\n']) d
    simp only [linesWork, List.map_cons, List.flatten_cons, readCost, List.sum_cons] at this ⊢
    omega

theorem linesWork_ge {y : Str} : ∀ (ls : List Str) (x : Str) (d : Doc),
    runWork d y ((ls.map (· ++ ['\n'])).flatten) ≤ linesWork d x ls + y.length
  | [], x, d => eofWork_ge
  | l :: ls, x, d => by
    have := charsWork_ge (x := x ++ l) (y := y) (rest := (ls.map (· ++ ['\n'])).flatten)
      (k := fun d' => linesWork d' (x ++ l) ls) (fun d => linesWork_ge ls (x ++ l) d) (l ++ ['\n']) d
    simp only [linesWork, List.map_cons, List.flatten_cons] at this ⊢
    omega

theorem linesWork_eq {y : Str} : ∀ (ls : List Str) (x : Str) (d d1 d2 : Doc), d.run y ((ls.map (· ++ ['\n'])).flatten) = .ok d1 →
    d1.eof y = .ok d2 → linesWork d x ls = runWork d y ((ls.map (· ++ ['\n'])).flatten) + readCost ls
  | [], x, d, d1, d2, h, he => by
    cases h
    exact eofWork_ok he
  | l :: ls, x, d, d1, d2, h, he => by
    rw [List.map_cons, List.flatten_cons, run_append] at h
    cases hr : d.run y (l ++ ['\n']) with
    | ok d' =>
      rw [hr] at h
      have ih := linesWork_eq ls (x ++ l) d' d1 d2 h he
      have := charsWork_eq (x := x ++ l) (rest := (ls.map (· ++ ['\n'])).flatten) (k := fun d' => linesWork d' (x ++ l) ls) _ _ _ hr
      simp only [linesWork, List.map_cons, List.flatten_cons, readCost, List.sum_cons] at this ih ⊢
      omega
    | err e => rw [hr] at h; cases h
    | panic p => rw [hr] at h; cases h

/-- A rejected file: `a` are the lines that were read. -/
theorem linesWork_err {y : Str} : ∀ (ls : List Str) (x : Str) (d : Doc) (e : ParseError),
    ((d.run y ((ls.map (· ++ ['\n'])).flatten)).bind fun d1 => d1.eof y) = .err e →
    ∃ a b, ls = a ++ b ∧
      linesWork d x ls + y.length = runWork d y ((ls.map (· ++ ['\n'])).flatten) + (x.length + a.flatten.length) + readCost a ∧
      (∃ d1, d.run y ((a.dropLast.map (· ++ ['\n'])).flatten) = .ok d1) ∧
      (b = [] ∨ ∃ e, d.run y ((a.map (· ++ ['\n'])).flatten) = .err e)
  | [], x, d, e, h => by
    refine ⟨[], [], rfl, ?_, ⟨d, rfl⟩, Or.inl rfl⟩
    have := eofWork_err (x := x) (h : d.eof y = .err e)
    simp only [linesWork, List.map_nil, List.flatten_nil, runWork, readCost, List.sum_nil, List.length_nil]
    omega
  | l :: ls, x, d, e, h => by
    rw [List.map_cons, List.flatten_cons, run_append] at h
    cases hr : d.run y (l ++ ['\n']) with
    | ok d' =>
      rw [hr] at h
      obtain ⟨a, b, h1, h2, ⟨d1, h3⟩, h4⟩ := linesWork_err ls (x ++ l) d' e h
      have hc := charsWork_eq (x := x ++ l) (rest := (ls.map (· ++ ['\n'])).flatten) (k := fun d' => linesWork d' (x ++ l) ls) _ _ _ hr
      refine ⟨l :: a, b, by rw [h1]; rfl, ?_, ?_, ?_⟩
      · simp only [linesWork, List.map_cons, List.flatten_cons, readCost, List.sum_cons, List.length_append] at hc h2 ⊢
        omega
      · cases a with
        | nil => exact ⟨d, rfl⟩
        | cons l' a =>
          refine ⟨d1, ?_⟩
          rw [List.dropLast_cons_cons, List.map_cons, List.flatten_cons, run_append, hr]
          exact h3
      · refine h4.imp id fun ⟨e, h4⟩ => ⟨e, ?_⟩
        rw [List.map_cons, List.flatten_cons, run_append, hr]
        exact h4
    | err e' =>
      have hc := charsWork_err (x := x ++ l) (rest := (ls.map (· ++ ['\n'])).flatten) (k := fun d' => linesWork d' (x ++ l) ls) _ _ _ hr
      refine ⟨[l], ls, rfl, ?_, ⟨d, rfl⟩, Or.inr ⟨e', ?_⟩⟩
      · simp only [linesWork, List.map_cons, List.flatten_cons, readCost, List.sum_cons, List.length_append, List.map_nil, List.sum_nil,
          List.flatten_nil, List.length_nil] at hc ⊢
        omega
      · simpa using hr
    | panic p => rw [hr] at h; cases h

/-! ## The lengths -/

theorem flatten_short : ∀ ls : List Str, ls.flatten.length + ls.length = ((ls.map (· ++ ['\n'])).flatten).length
  | [] => rfl
  | l :: ls => by
    have := flatten_short ls
    simp only [List.flatten_cons, List.map_cons, List.length_append, List.length_cons, List.length_nil] at this ⊢
    omega

theorem readCost_eq : ∀ ls : List Str, readCost ls = ((ls.map (· ++ ['\n'])).flatten).length + ls.flatten.length
  | [] => rfl
  | l :: ls => by
    have := readCost_eq ls
    simp only [readCost, List.flatten_cons, List.map_cons, List.sum_cons, List.length_append, List.length_cons, List.length_nil] at this ⊢
    omega

theorem crlfToLf_length (s : Str) : (crlfToLf s).length ≤ s.length := by
  fun_induction crlfToLf s with
  | case1 => exact Nat.le_refl _
  | case2 cs ih => simp only [List.length_cons]; omega
  | case3 c cs _ ih => simp only [List.length_cons]; omega

theorem fileText_length (s : Str) : (fileText s).length ≤ s.length + 1 := by
  have := crlfToLf_length s
  unfold fileText endNl
  split
  · omega
  · rw [List.length_append]; simp; omega

/-! ## The claims -/

/-- C75: parsing a file takes at most the work of parsing its text and two per character for the lines, and at
least the work of parsing its text, up to the position of an error. -/
theorem c75_same (text : Str) (o : ParseOptions) :
    fileWork text o ≤ parseWork (fileText text) o + 2 * (fileText text).length ∧
      parseWork (fileText text) o ≤ fileWork text o + (fileText text).length := by
  have e := rustLines_text text
  have h1 := flatten_short (rustLines text)
  have h2 := readCost_eq (rustLines text)
  have h3 := linesWork_le (y := fileText text) (rustLines text) [] (Doc.new o) (by rw [← e]; simp only [List.length_nil]; omega)
  have h4 := linesWork_ge (y := fileText text) (rustLines text) [] (Doc.new o)
  rw [e] at h1 h2 h3 h4
  unfold fileWork parseWork
  omega

/-- C75, accepted files: exactly the work of parsing the text, and each line is read and copied once, the copy
without the ends of the lines. -/
theorem c75_accepted (text : Str) (o : ParseOptions) (d : Doc) (h : Doc.parseFile text o = .ok d) :
    fileWork text o = parseWork (fileText text) o + (fileText text).length + ((fileText text).filter (· ≠ '\n')).length := by
  have hp := parseFile_rectx text o
  rw [h] at hp
  unfold Doc.parse at hp
  simp only [Res.bind_eq] at hp
  have e := rustLines_text text
  have h2 := readCost_eq (rustLines text)
  have h3 : (fileText text).filter (· ≠ '\n') = (rustLines text).flatten := by
    rw [← e]; exact withEnds_filter (rustLines text) (rustLines_noNl text)
  cases hr : (Doc.new o).run (fileText text) (fileText text) with
  | ok d1 =>
    rw [hr] at hp
    simp only [Res.bind] at hp
    cases he : d1.eof (fileText text) with
    | ok d2 =>
      have h4 := linesWork_eq (y := fileText text) (rustLines text) [] (Doc.new o) d1 d2 (by rw [e]; exact hr) he
      rw [e] at h2 h4
      unfold fileWork parseWork
      rw [h4, h2, h3]
      omega
    | err e => rw [he] at hp; cases hp
    | panic p => rw [he] at hp; cases hp
  | err e => rw [hr] at hp; cases hp
  | panic p => rw [hr] at hp; cases hp

/-- C75, rejected files: `a` are the lines up to the one with the error, or all of them; only these are read, and
the error is positioned in their text instead of the whole text. -/
theorem c75_rejected (text : Str) (o : ParseOptions) (e : ParseError) (h : Doc.parseFile text o = .err e) :
    ∃ a b : List Str, ((a ++ b).map (· ++ ['\n'])).flatten = fileText text ∧ (∀ l ∈ a ++ b, '\n' ∉ l) ∧
      fileWork text o + (fileText text).length = parseWork (fileText text) o + 3 * a.flatten.length + a.length ∧
      (∃ d, (Doc.new o).run (fileText text) ((a.dropLast.map (· ++ ['\n'])).flatten) = .ok d) ∧
      (b = [] ∨ ∃ e', (Doc.new o).run (fileText text) ((a.map (· ++ ['\n'])).flatten) = .err e') := by
  have hp := parseFile_rectx text o
  rw [h] at hp
  unfold Doc.parse at hp
  simp only [Res.bind_eq] at hp
  have t := rustLines_text text
  have hx : ∃ e', (((Doc.new o).run (fileText text) (((rustLines text).map (· ++ ['\n'])).flatten)).bind fun d1 => d1.eof (fileText text)) = .err e' := by
    rw [t]
    cases hr : (Doc.new o).run (fileText text) (fileText text) with
    | ok d1 =>
      rw [hr] at hp
      simp only [Res.bind] at hp ⊢
      cases he : d1.eof (fileText text) with
      | ok d2 => rw [he] at hp; cases hp
      | err e => exact ⟨e, rfl⟩
      | panic p => rw [he] at hp; cases hp
    | err e => exact ⟨e, rfl⟩
    | panic p => rw [hr] at hp; cases hp
  obtain ⟨e', hx⟩ := hx
  obtain ⟨a, b, h1, h2, h3, h4⟩ := linesWork_err (rustLines text) [] (Doc.new o) e' hx
  have h5 := flatten_short a
  have h6 := readCost_eq a
  rw [t] at h2
  refine ⟨a, b, by rw [← h1, t], fun l hl => rustLines_noNl text l (by rw [h1]; exact hl), ?_, h3, h4⟩
  unfold fileWork parseWork
  rw [List.length_nil] at h2
  omega

/-- C75: the work of parsing a file, accepted or not, is linear without the two repairs. -/
theorem c75_linear (text : Str) (o : ParseOptions) (h1 : o.autoFixUnescapedLt = false)
    (h2 : o.autoFixUnexpectedEndtag = false ∨ o.autoFixUnclosedTag = false) : fileWork text o ≤ 403 * (text.length + 2) := by
  have a := c64_linear (fileText text) o h1 h2
  have b := (c75_same text o).1
  have c := fileText_length text
  omega

/-- C75: with every option it is at most quadratic. -/
theorem c75_quadratic (text : Str) (o : ParseOptions) : fileWork text o ≤ 403 * (text.length + 2) * (text.length + 2) := by
  have a := c64_quadratic (fileText text) o
  have b := (c75_same text o).1
  have c := fileText_length text
  have d : 401 * ((fileText text).length + 1) * ((fileText text).length + 1) ≤ 401 * (text.length + 2) * (text.length + 2) :=
    Nat.mul_le_mul (Nat.mul_le_mul_left _ (by omega)) (by omega)
  have e : 2 * (text.length + 2) ≤ 2 * (text.length + 2) * (text.length + 2) := Nat.le_mul_of_pos_right _ (by omega)
  have f : 403 * (text.length + 2) * (text.length + 2) = 401 * (text.length + 2) * (text.length + 2) + 2 * (text.length + 2) * (text.length + 2) := by
    rw [← Nat.add_mul, ← Nat.add_mul]
  omega

/-! ## Slow files -/

theorem crlfToLf_noCr : ∀ s : Str, '\r' ∉ s → crlfToLf s = s
  | [], _ => rfl
  | c :: cs, h => by
    have h1 : c ≠ '\r' := fun q => h (by simp [q])
    rw [crlfToLf]
    · rw [crlfToLf_noCr cs (fun q => h (List.mem_cons_of_mem _ q))]
    · intro _ q; exact absurd q h1

theorem fileText_line {s : Str} (h1 : '\r' ∉ s) (h2 : '\n' ∉ s) (h3 : s ≠ []) : fileText s = s ++ ['\n'] := by
  unfold fileText
  rw [crlfToLf_noCr s h1]
  unfold endNl
  rw [if_neg]
  rintro (h | h)
  · exact h3 h
  · exact h2 (List.mem_of_getLast? h)

theorem manyLt_mem {k : Nat} {c : Char} (h : c ∈ manyLt k) : c = 'a' ∨ c = '<' ∨ c = '1' := by
  simp only [manyLt, List.mem_cons, List.mem_flatten, List.mem_replicate] at h
  rcases h with h | ⟨l, ⟨_, rfl⟩, h⟩
  · exact Or.inl h
  · simp at h; exact Or.inr h

theorem manyEnds_mem {k : Nat} {c : Char} (h : c ∈ manyEnds k) : c = '<' ∨ c = '/' ∨ c = 'b' ∨ c = '>' ∨ c = 'a' := by
  simp only [manyEnds, List.mem_cons, List.mem_flatten, List.mem_replicate] at h
  rcases h with h | ⟨l, ⟨_, rfl⟩, h⟩
  · subst h; simp
  · simpa using h

/-- C75, files of one line with `k` unescaped `<`. -/
theorem c75_slow_lt (o : ParseOptions) (h : o.autoFixUnescapedLt = true) (k : Nat) :
    (manyLt k).length = 2 * k + 1 ∧ 5 * (k * k) ≤ fileWork (manyLt k) o + (2 * k + 2) := by
  have hl := (c64_slow_lt o h k).1
  refine ⟨hl, ?_⟩
  have ht : fileText (manyLt k) = manyLt k ++ ['\n'] := fileText_line
    (fun q => by rcases manyLt_mem q with h | h | h <;> revert h <;> decide)
    (fun q => by rcases manyLt_mem q with h | h | h <;> revert h <;> decide) (by simp [manyLt])
  have hs := (c75_same (manyLt k) o).2
  rw [ht] at hs
  obtain ⟨d, h1, hh, hy, ho, _⟩ := first_a o (manyLt k ++ ['\n'])
  have := lt_slow (manyLt k ++ ['\n']) ['\n'] k d hh hy (by rw [ho]; exact h)
  have hw : runWork (Doc.new o) (manyLt k ++ ['\n']) (manyLt k ++ ['\n']) = 1 + stepWork (Doc.new o) 'a' +
      runWork d (manyLt k ++ ['\n']) ((List.replicate k ['<', '1']).flatten ++ ['\n']) := by
    show runWork (Doc.new o) _ ('a' :: ((List.replicate k ['<', '1']).flatten ++ ['\n'])) = _
    simp only [runWork, h1]
  unfold parseWork at hs
  rw [hw, List.length_append, hl] at hs
  simp only [List.length_cons, List.length_nil] at hs
  omega

/-- C75, files of one line with `k` stray end tags. -/
theorem c75_slow_ends (o : ParseOptions) (h1 : o.autoFixUnexpectedEndtag = true) (h2 : o.autoFixUnclosedTag = true) (k : Nat) :
    (manyEnds k).length = 5 * k + 1 ∧ k * k ≤ fileWork (manyEnds k) o + (5 * k + 2) := by
  have hl := (c64_slow_ends o h1 h2 k).1
  refine ⟨hl, ?_⟩
  have ht : fileText (manyEnds k) = manyEnds k ++ ['\n'] := fileText_line
    (fun q => by rcases manyEnds_mem q with h | h | h | h | h <;> revert h <;> decide)
    (fun q => by rcases manyEnds_mem q with h | h | h | h | h <;> revert h <;> decide) (by simp [manyEnds])
  have hs := (c75_same (manyEnds k) o).2
  rw [ht] at hs
  obtain ⟨d, h, hh, hy, ho, hc, hz⟩ := first_a o (manyEnds k ++ ['\n'])
  have := stray_slow (manyEnds k ++ ['\n']) ['\n'] k d hh hy (by rw [ho]; exact h1) (by rw [ho]; exact h2) hc hz
  have hw : runWork (Doc.new o) (manyEnds k ++ ['\n']) (manyEnds k ++ ['\n']) = 1 + stepWork (Doc.new o) 'a' +
      runWork d (manyEnds k ++ ['\n']) ((List.replicate k ['<', '/', 'b', '>', 'a']).flatten ++ ['\n']) := by
    show runWork (Doc.new o) _ ('a' :: ((List.replicate k ['<', '/', 'b', '>', 'a']).flatten ++ ['\n'])) = _
    simp only [runWork, h]
  unfold parseWork at hs
  rw [hw, List.length_append, hl] at hs
  simp only [List.length_cons, List.length_nil] at hs
  omega

/-- C75: files are parsed in linear time under exactly the options under which texts are. -/
theorem c75_iff (o : ParseOptions) :
    (∃ K, ∀ s, fileWork s o ≤ K * (s.length + 1)) ↔
      o.autoFixUnescapedLt = false ∧ (o.autoFixUnexpectedEndtag = false ∨ o.autoFixUnclosedTag = false) := by
  constructor
  · rintro ⟨K, hK⟩
    refine ⟨?_, ?_⟩
    · cases hx : o.autoFixUnescapedLt with
      | false => rfl
      | true =>
        exfalso
        obtain ⟨hl, hw⟩ := c75_slow_lt o hx (K + 1)
        have := hK (manyLt (K + 1))
        rw [hl] at this
        have e1 : K * (2 * (K + 1) + 1 + 1) = 2 * (K * K) + 4 * K := by simp only [Nat.mul_add, Nat.mul_one, Nat.mul_left_comm K 2 K]; omega
        have e2 : (K + 1) * (K + 1) = K * K + 2 * K + 1 := by rw [Nat.succ_mul, Nat.mul_succ]; omega
        omega
    · cases hx : o.autoFixUnexpectedEndtag with
      | false => exact Or.inl rfl
      | true =>
        cases hy : o.autoFixUnclosedTag with
        | false => exact Or.inr rfl
        | true =>
          exfalso
          obtain ⟨hl, hw⟩ := c75_slow_ends o hx hy (5 * K + 10)
          have := hK (manyEnds (5 * K + 10))
          rw [hl] at this
          have e1 : K * (5 * (5 * K + 10) + 1 + 1) = 25 * (K * K) + 52 * K := by simp only [Nat.mul_add, Nat.mul_one, Nat.mul_left_comm K 5]; omega
          have e2 : (5 * K + 10) * (5 * K + 10) = 25 * (K * K) + 100 * K + 100 := by
            simp only [Nat.mul_add, Nat.add_mul]
            have : 5 * K * (5 * K) = 25 * (K * K) := by rw [Nat.mul_mul_mul_comm]
            omega
          omega
  · rintro ⟨h1, h2⟩
    exact ⟨806, fun s => Nat.le_trans (c75_linear s o h1 h2) (by omega)⟩

/-! Samples: a file with `\r\n`, accepted; a rejected one; the slow ones. -/

example : fileText "<p>a\r\n</p>".toList = "<p>a\n</p>\n".toList := by decide +kernel
example : ∃ d, Doc.parseFile "<p>a\r\n</p>".toList {} = .ok d := ⟨_, rfl⟩
example : fileWork "<p>a\r\n</p>".toList {} = parseWork "<p>a\n</p>\n".toList {} + 10 + 8 := by decide +kernel
example : fileWork "a\nb</p>".toList {} + 2 = parseWork "a\nb</p>\n".toList {} + 14 := by decide +kernel
example : ∃ e, Doc.parseFile "a\nb</p>\nc".toList {} = .err e := ⟨_, rfl⟩
example : fileWork "a\nb</p>\nc".toList {} + 10 = parseWork "a\nb</p>\nc\n".toList {} + 3 * 6 + 2 := by decide +kernel
example : fileWork "a\nb".toList {} ≤ 403 * (3 + 2) := c75_linear _ {} rfl (Or.inl rfl)
example : 5 * (100 * 100) ≤ fileWork (manyLt 100) { autoFixUnescapedLt := true } + (2 * 100 + 2) :=
  (c75_slow_lt { autoFixUnescapedLt := true } rfl 100).2

end Rphtml
