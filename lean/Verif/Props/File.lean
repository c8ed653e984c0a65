import Verif.Proofs.Ctx
import Verif.Spec.File

/-! # C26: parse_file agrees with parse -/

namespace Rphtml
open Spec

theorem crlf_noNl : ∀ {p : Str}, '\n' ∉ p → crlfToLf p = p
  | [], _ => by rw [crlfToLf]
  | [c], h => by
    rw [crlfToLf]
    · rw [crlfToLf]
    · intro cs _ h2; cases h2
  | c :: d :: p, h => by
    rw [crlfToLf]
    · rw [crlf_noNl (fun q => h (List.mem_cons_of_mem _ q))]
    · intro cs _ h2
      cases h2
      exact h (by simp)

theorem crlf_nl : ∀ {p : Str} (cs : Str), '\n' ∉ p → crlfToLf (p ++ '\n' :: cs) =
    (if p.getLast? = some '\r' then p.dropLast else p) ++ '\n' :: crlfToLf cs
  | [], cs, _ => by
    show crlfToLf ('\n' :: cs) = '\n' :: crlfToLf cs
    rw [crlfToLf]
    intro _ h; cases h
  | [c], cs, h => by
    by_cases hc : c = '\r'
    · subst hc; simp only [List.cons_append, List.nil_append]; rw [crlfToLf]; rfl
    · simp only [List.cons_append, List.nil_append]
      rw [crlfToLf]
      · have := crlf_nl (p := []) cs (by simp)
        simp only [List.nil_append, List.getLast?_nil] at this
        rw [this]
        simp [hc]
      · intro _ q _; exact hc q
  | c :: d :: p, cs, h => by
    have hd : d ≠ '\n' := fun q => h (by simp [q])
    simp only [List.cons_append]
    rw [crlfToLf]
    · have := crlf_nl (p := d :: p) cs (fun q => h (List.mem_cons_of_mem _ q))
      simp only [List.cons_append] at this
      rw [this, List.getLast?_cons_cons]
      split <;> simp
    · intro _ _ q; simp only [List.cons.injEq] at q; exact hd q.1

theorem endNl_append (x y : Str) : endNl (x ++ '\n' :: y) = x ++ '\n' :: endNl y := by
  unfold endNl
  cases y with
  | nil => simp
  | cons d y =>
    have : (x ++ '\n' :: d :: y).getLast? = (d :: y).getLast? := by
      rw [List.getLast?_append]; simp [List.getLast?_cons]
    simp only [this]
    by_cases h : (d :: y).getLast? = some '\n'
    · simp [h]
    · simp [h]

/-- The characters that `parse_file` feeds to the parser. -/
theorem rustLines_text (s : Str) : ((rustLines s).map (· ++ ['\n'])).flatten = fileText s := by
  suffices ∀ (s acc : Str), '\n' ∉ acc → ((rustLines.go acc s).map (· ++ ['\n'])).flatten = endNl (crlfToLf (acc.reverse ++ s)) from
    this s [] (by simp)
  intro s
  induction s with
  | nil =>
    intro acc h
    rw [rustLines.go, List.append_nil, crlf_noNl (by simpa using h)]
    cases acc with
    | nil => rfl
    | cons a acc =>
      simp only [List.mem_cons, not_or] at h
      unfold endNl
      have : ¬ ((a :: acc).reverse = [] ∨ (a :: acc).reverse.getLast? = some '\n') := by
        simp [Ne.symm h.1]
      rw [if_neg this]
      simp
  | cons c cs ih =>
    intro acc h
    by_cases hc : c = '\n'
    · subst hc
      have hgo : rustLines.go acc ('\n' :: cs) = (if acc.head? = some '\r' then acc.tail.reverse else acc.reverse) :: rustLines.go [] cs := by
        cases acc with
        | nil => rfl
        | cons a acc =>
          by_cases ha : a = '\r'
          · subst ha; rfl
          · rw [rustLines.go]
            · simp [ha]
            · intro _ q; cases q; exact ha rfl
      rw [hgo, crlf_nl cs (by simpa using h), endNl_append]
      simp only [List.map_cons, List.flatten_cons]
      rw [ih [] (by simp)]
      simp only [List.reverse_nil, List.nil_append]
      cases acc with
      | nil => simp
      | cons a acc =>
        by_cases ha : a = '\r'
        · subst ha; simp
        · simp [ha]
    · rw [rustLines.go]
      · rw [ih (c :: acc) (by simp [h, Ne.symm hc])]
        simp
      · exact hc

theorem runLines_run (o : Str) : ∀ (ls : List Str) (d : Doc) (x : Str),
    ((d.runLines x ls).bind fun p => Res.ok p.1).rectx o = d.run o ((ls.map (· ++ ['\n'])).flatten)
  | [], d, x => rfl
  | l :: ls, d, x => by
    simp only [Doc.runLines, Res.bind_eq, List.map_cons, List.flatten_cons, run_append]
    have h1 := run_rectx d l (x ++ l) o
    cases hr : d.run (x ++ l) l with
    | panic p => rw [hr] at h1; rw [← h1]; rfl
    | err e => rw [hr] at h1; rw [← h1]; rfl
    | ok d1 =>
      rw [hr] at h1
      rw [← h1]
      simp only [Res.rectx, Res.bind, Doc.run, Res.bind_eq]
      have h2 := next_rectx d1 '\n' (x ++ l) o
      cases hn : d1.next '\n' (x ++ l) with
      | panic p => rw [hn] at h2; rw [← h2]; rfl
      | err e => rw [hn] at h2; rw [← h2]; rfl
      | ok d2 =>
        rw [hn] at h2
        rw [← h2]
        exact runLines_run o ls d2 (x ++ l)

theorem parseFile_rectx (text : Str) (o : ParseOptions) :
    (Doc.parseFile text o).rectx (fileText text) = Doc.parse (fileText text) o := by
  unfold Doc.parseFile Doc.parse
  simp only [Res.bind_eq]
  have h := runLines_run (fileText text) (rustLines text) (Doc.new o) []
  rw [rustLines_text] at h
  rw [← h]
  cases hr : (Doc.new o).runLines [] (rustLines text) with
  | panic p => rfl
  | err e => rfl
  | ok p =>
    simp only [Res.bind, Res.rectx]
    rw [← eof_rectx p.1 p.2 (fileText text)]
    cases p.1.eof p.2 <;> rfl

/-- **C26**: `parse_file` gives the same document as `parse` on the normalised text, or the same panic, or an error of
the same kind at the same index. -/
theorem c26_parse_file (text : Str) (o : ParseOptions) :
    match Doc.parseFile text o, Doc.parse (fileText text) o with
    | .ok d, .ok d' => d = d'
    | .err e, .err e' => e.kind = e'.kind ∧ e.region.index = e'.region.index
    | .panic p, .panic p' => p = p'
    | _, _ => False := by
  rw [← parseFile_rectx]
  cases Doc.parseFile text o with
  | ok d => rfl
  | panic p => rfl
  | err e => exact ⟨rfl, (fromContextIndex_index _ _).symm⟩

/-- A file with both kinds of line ends and none at the end: the text fed to the parser. -/
example : fileText "<p>a\r\nb\n\r\n c\r</p>".toList = "<p>a\nb\n\n c\r</p>\n".toList := by decide +kernel

/-- The sample parses, and the last newline becomes a text of its own. -/
example : (match Doc.parseFile "<p>a\r\nb</p>".toList {} with | .ok d => (d.heap.cell 4).content | _ => none) = some ['\n'] := by
  decide +kernel

/-- Only the line and the column of an error differ: the text they are computed in has no line ends. -/
example : (match Doc.parseFile "<p>\n</q>".toList {} with | .err e => some e.region | _ => none) = some ⟨7, 1, 7⟩ ∧
    (match Doc.parse "<p>\n</q>\n".toList {} with | .err e => some e.region | _ => none) = some ⟨7, 2, 4⟩ := by
  decide +kernel

end Rphtml
