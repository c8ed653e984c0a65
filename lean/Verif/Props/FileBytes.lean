import Verif.Model.File
import Verif.Spec.Bytes
import Verif.Props.FileRegion

/-! # C66: `parse_file` on every file -/

namespace Rphtml
open Spec

theorem utf8_append (a b : Str) : utf8 (a ++ b) = utf8 a ++ utf8 b := by simp [utf8]

theorem utf8_snoc (a : Str) (c : Char) : utf8 (a ++ [c]) = utf8 a ++ String.utf8EncodeChar c := by simp [utf8]

theorem decode_utf8 (s : Str) : decodeUtf8 (utf8 s) = some s := by
  have : (utf8 s).toByteArray = s.utf8Encode := rfl
  unfold decodeUtf8
  rw [this, List.utf8Decode?_utf8Encode]
  simp

theorem decode_iff {b : List UInt8} {s : Str} : decodeUtf8 b = some s ↔ b = utf8 s := by
  constructor
  · intro h
    unfold decodeUtf8 at h
    rw [Option.map_eq_some_iff] at h
    obtain ⟨a, h1, rfl⟩ := h
    have h2 : b.toByteArray.utf8Decode?.isSome := by rw [h1]; rfl
    have h3 := ByteArray.utf8Encode_get_utf8Decode? (h := h2)
    have h4 : b.toByteArray.utf8Decode?.get h2 = a := by simp [h1]
    rw [h4] at h3
    have h5 : a.toList.utf8Encode = (utf8 a.toList).toByteArray := rfl
    rw [h5] at h3
    have := congrArg (fun x => x.data.toList) h3
    simpa using this.symm
  · rintro rfl; exact decode_utf8 s

theorem decode_none {b : List UInt8} : decodeUtf8 b = none ↔ ∀ s, utf8 s ≠ b := by
  constructor
  · intro h s e
    rw [← e, decode_utf8] at h
    cases h
  · intro h
    cases hd : decodeUtf8 b with
    | none => rfl
    | some s => exact absurd (decode_iff.1 hd).symm (h s)

theorem nl_byte : String.utf8EncodeChar '\n' = [10] := by decide

theorem byte_ne {n : Nat} (h1 : n < 256) (h2 : 10 ≠ n) : (10 : UInt8) ≠ UInt8.ofNat n := by
  intro e
  have := congrArg UInt8.toNat e
  simp at this
  omega

/-- The byte of a newline is in no other character. -/
theorem char_byte {c : Char} (h : c ≠ '\n') : 10 ∉ String.utf8EncodeChar c := by
  have hc : c.val.toNat ≠ 10 := by
    intro e
    apply h
    apply Char.ext
    apply UInt32.toNat_inj.1
    rw [e]
    rfl
  unfold String.utf8EncodeChar
  simp only
  split
  · rename_i h1
    simp only [List.mem_cons, List.not_mem_nil, or_false]
    exact byte_ne (by omega) (Ne.symm hc)
  · split
    · simp only [List.mem_cons, List.not_mem_nil, or_false, not_or]
      exact ⟨byte_ne (by omega) (by omega), byte_ne (by omega) (by omega)⟩
    · split
      · simp only [List.mem_cons, List.not_mem_nil, or_false, not_or]
        exact ⟨byte_ne (by omega) (by omega), byte_ne (by omega) (by omega), byte_ne (by omega) (by omega)⟩
      · simp only [List.mem_cons, List.not_mem_nil, or_false, not_or]
        exact ⟨byte_ne (by omega) (by omega), byte_ne (by omega) (by omega), byte_ne (by omega) (by omega), byte_ne (by omega) (by omega)⟩

theorem fileLines_push (fails : Bool) : ∀ (w acc bs : List UInt8), 10 ∉ w →
    fileLines fails acc (w ++ bs) = fileLines fails (w.reverse ++ acc) bs
  | [], _, _, _ => rfl
  | b :: w, acc, bs, h => by
    simp only [List.mem_cons, not_or] at h
    rw [List.cons_append, fileLines, if_neg (Ne.symm h.1), fileLines_push fails w _ _ h.2]
    simp

theorem chomp_nl (acc : Str) : chomp (acc.reverse ++ ['\n']) = if acc.head? = some '\r' then acc.tail.reverse else acc.reverse := by
  unfold chomp
  rw [List.getLast?_concat, if_pos rfl, List.dropLast_concat, List.getLast?_reverse]
  split
  · rw [List.dropLast_reverse]
  · rfl

theorem chomp_rest {l : Str} (h : '\n' ∉ l) : chomp l = l := by
  unfold chomp
  rw [if_neg]
  intro e
  exact h (List.mem_of_getLast? e)

theorem rustLines_nl (acc cs : Str) :
    rustLines.go acc ('\n' :: cs) = (if acc.head? = some '\r' then acc.tail.reverse else acc.reverse) :: rustLines.go [] cs := by
  cases acc with
  | nil => rfl
  | cons a acc =>
    by_cases ha : a = '\r'
    · subst ha; rfl
    · rw [rustLines.go]
      · simp [ha]
      · intro _ q; cases q; exact ha rfl

/-- Whole lines are read as `rustLines` says, whatever follows. -/
theorem fileLines_whole (fails : Bool) (rest : List UInt8) : ∀ (s acc : Str), '\n' ∉ acc → (s = [] → acc = []) →
    (s = [] ∨ s.getLast? = some '\n') →
    fileLines fails (utf8 acc.reverse).reverse (utf8 s ++ rest) = (rustLines.go acc s).map some ++ fileLines fails [] rest
  | [], acc, _, h2, _ => by rw [h2 rfl]; rfl
  | c :: cs, acc, h1, _, h3 => by
    have hcs : cs = [] ∨ cs.getLast? = some '\n' := by
      cases cs with
      | nil => exact .inl rfl
      | cons d ds =>
        right
        rcases h3 with h3 | h3
        · cases h3
        · rwa [List.getLast?_cons_cons] at h3
    have hu : utf8 (c :: cs) = String.utf8EncodeChar c ++ utf8 cs := by simp [utf8]
    rw [hu, List.append_assoc]
    by_cases hc : c = '\n'
    · subst hc
      rw [nl_byte, List.singleton_append, fileLines, if_pos rfl, rustLines_nl]
      have hl : lineOf (10 :: (utf8 acc.reverse).reverse).reverse = some (if acc.head? = some '\r' then acc.tail.reverse else acc.reverse) := by
        have : (10 :: (utf8 acc.reverse).reverse).reverse = utf8 (acc.reverse ++ ['\n']) := by rw [utf8_snoc, nl_byte]; simp
        rw [this, lineOf, decode_utf8, Option.map_some, chomp_nl]
      rw [hl, List.map_cons, List.cons_append]
      have ih := fileLines_whole fails rest cs [] (by simp) (fun _ => rfl) hcs
      simp only [List.reverse_nil] at ih
      exact congrArg _ ih
    · have hne : cs ≠ [] := by
        intro e
        subst e
        rcases h3 with h3 | h3
        · cases h3
        · simp at h3; exact hc h3
      rw [fileLines_push _ _ _ _ (char_byte hc)]
      have e : (String.utf8EncodeChar c).reverse ++ (utf8 acc.reverse).reverse = (utf8 (c :: acc).reverse).reverse := by
        rw [List.reverse_cons, utf8_snoc, List.reverse_append]
      rw [e, fileLines_whole fails rest cs (c :: acc) (by simp [h1, Ne.symm hc]) (fun x => absurd x hne) hcs, rustLines.go]
      exact hc

/-- A text is read as `rustLines` says. -/
theorem fileLines_text : ∀ (s acc : Str), '\n' ∉ acc →
    fileLines false (utf8 acc.reverse).reverse (utf8 s) = (rustLines.go acc s).map some
  | [], acc, h => by
    rw [rustLines.go]
    show fileLines false _ [] = _
    rw [fileLines]
    cases acc with
    | nil => rfl
    | cons a acc =>
      have h1 : (utf8 (a :: acc).reverse).reverse.isEmpty = false := by
        rw [List.reverse_cons, utf8_snoc, List.reverse_append]
        have := @String.utf8EncodeChar_ne_nil a
        cases hx : String.utf8EncodeChar a with
        | nil => exact absurd hx this
        | cons x xs => simp
      rw [h1, List.reverse_reverse, lineOf, decode_utf8, Option.map_some, chomp_rest (fun e => h (List.mem_reverse.1 e))]
      rfl
  | c :: cs, acc, h1 => by
    have hu : utf8 (c :: cs) = String.utf8EncodeChar c ++ utf8 cs := by simp [utf8]
    rw [hu]
    by_cases hc : c = '\n'
    · subst hc
      rw [nl_byte, List.singleton_append, fileLines, if_pos rfl, rustLines_nl]
      have hl : lineOf (10 :: (utf8 acc.reverse).reverse).reverse = some (if acc.head? = some '\r' then acc.tail.reverse else acc.reverse) := by
        have : (10 :: (utf8 acc.reverse).reverse).reverse = utf8 (acc.reverse ++ ['\n']) := by rw [utf8_snoc, nl_byte]; simp
        rw [this, lineOf, decode_utf8, Option.map_some, chomp_nl]
      rw [hl, List.map_cons]
      exact congrArg _ (fileLines_text cs [] (by simp))
    · rw [fileLines_push _ _ _ _ (char_byte hc)]
      have e : (String.utf8EncodeChar c).reverse ++ (utf8 acc.reverse).reverse = (utf8 (c :: acc).reverse).reverse := by
        rw [List.reverse_cons, utf8_snoc, List.reverse_append]
      rw [e, fileLines_text cs (c :: acc) (by simp [h1, Ne.symm hc]), rustLines.go]
      exact hc

/-- Lines that can be read are parsed as in `Doc.runLines`. -/
theorem runFile_lines : ∀ (ls : List Str) (d : Doc) (x : Str) (rest : List (Option Str)),
    d.runFile x (ls.map some ++ rest) =
      match d.runLines x ls with
      | .ok p => p.1.runFile p.2 rest
      | .err e => .parsed (.err e)
      | .panic p => .parsed (.panic p)
  | [], d, x, rest => rfl
  | l :: ls, d, x, rest => by
    simp only [List.map_cons, List.cons_append, Doc.runFile, Doc.runLines, Res.bind_eq]
    cases h1 : d.run (x ++ l) l with
    | err e => rfl
    | panic p => rfl
    | ok d1 =>
      simp only [Res.bind]
      cases h2 : d1.next '\n' (x ++ l) with
      | err e => rfl
      | panic p => rfl
      | ok d2 => exact runFile_lines ls d2 (x ++ l) rest

theorem badLine_lines {rest : List UInt8} {fails : Bool} (h : badLine rest fails) : ∃ ls, fileLines fails [] rest = none :: ls := by
  rcases h with ⟨w, z, rfl, h1, h2⟩ | ⟨h1, h2⟩
  · rw [fileLines_push _ _ _ _ h1, fileLines, if_pos rfl]
    have : lineOf (10 :: (w.reverse ++ [])).reverse = none := by
      rw [lineOf, Option.map_eq_none_iff, decode_none]
      simpa using h2
    rw [this]
    exact ⟨_, rfl⟩
  · have := fileLines_push fails rest [] [] h1
    rw [List.append_nil, List.append_nil] at this
    rw [this, fileLines]
    cases fails with
    | true => exact ⟨[], rfl⟩
    | false =>
      rcases h2 with h2 | h2
      · cases h2
      · have hne : rest ≠ [] := fun e => h2 [] (by rw [e]; rfl)
        have hl : lineOf rest.reverse.reverse = none := by
          rw [lineOf, Option.map_eq_none_iff, decode_none]
          simpa using h2
        rw [hl]
        refine ⟨[], ?_⟩
        have : rest.reverse.isEmpty = false := by
          cases rest with
          | nil => exact absurd rfl hne
          | cons a r => simp
        rw [this]
        rfl

/-- **C66**: every file is the encoding of a text, or there is a first line that cannot be read. -/
theorem c66_cases (f : ByteFile) : (f.fails = false ∧ ∃ text, f.bytes = utf8 text) ∨
    ∃ u rest, f.bytes = utf8 u ++ rest ∧ wholeLines u ∧ badLine rest f.fails := by
  obtain ⟨b, fails⟩ := f
  simp only
  suffices ∀ (n : Nat) (b : List UInt8), b.length ≤ n → (fails = false ∧ ∃ text, b = utf8 text) ∨
      ∃ u rest, b = utf8 u ++ rest ∧ wholeLines u ∧ badLine rest fails from this _ b (Nat.le_refl _)
  intro n
  induction n with
  | zero =>
    intro b hb
    have : b = [] := List.length_eq_zero_iff.1 (by omega)
    subst this
    cases fails with
    | false => exact .inl ⟨rfl, [], rfl⟩
    | true => exact .inr ⟨[], [], rfl, .inl rfl, .inr ⟨by simp, .inl rfl⟩⟩
  | succ n ih =>
    intro b hb
    by_cases h10 : 10 ∈ b
    · obtain ⟨w, z, rfl, hw⟩ := List.eq_append_cons_of_mem h10
      cases hd : decodeUtf8 (w ++ [10]) with
      | none => exact .inr ⟨[], _, rfl, .inl rfl, .inl ⟨w, z, rfl, hw, decode_none.1 hd⟩⟩
      | some l =>
        have hl := decode_iff.1 hd
        have hlast : l.getLast? = some '\n' := by
          cases l using List.reverseRecOn with
          | nil => simp [utf8] at hl
          | append_singleton l c =>
            rw [utf8_snoc] at hl
            by_cases hc : c = '\n'
            · simp [hc]
            · exfalso
              have h1 : 10 ∉ String.utf8EncodeChar c := char_byte hc
              have h2 := congrArg List.getLast? hl
              rw [List.getLast?_concat, List.getLast?_append, List.getLast?_eq_some_getLast (String.utf8EncodeChar_ne_nil (c := c)), Option.some_or] at h2
              have h3 := Option.some.inj h2
              exact h1 (by rw [h3]; exact List.getLast_mem _)
        have hb' : w ++ 10 :: z = utf8 l ++ z := by rw [← hl]; simp
        have hz : z.length ≤ n := by simp at hb; omega
        rcases ih z hz with ⟨hf, t, rfl⟩ | ⟨u, rest, rfl, h1, h2⟩
        · exact .inl ⟨hf, l ++ t, by rw [hb', utf8_append]⟩
        · refine .inr ⟨l ++ u, rest, by rw [hb', utf8_append, List.append_assoc], .inr ?_, h2⟩
          rcases h1 with rfl | h1
          · simpa using hlast
          · rw [List.getLast?_append, h1]; rfl
    · cases hd : decodeUtf8 b with
      | none => exact .inr ⟨[], b, rfl, .inl rfl, .inr ⟨h10, .inr (decode_none.1 hd)⟩⟩
      | some l =>
        cases fails with
        | false => exact .inl ⟨rfl, l, decode_iff.1 hd⟩
        | true => exact .inr ⟨[], b, rfl, .inl rfl, .inr ⟨h10, .inl rfl⟩⟩

/-- **C66**: a file that holds a text is parsed like the text (see C26). -/
theorem c66_text {f : ByteFile} {text : Str} (hb : f.bytes = utf8 text) (hf : f.fails = false) (o : ParseOptions) :
    Doc.readFile f o = .parsed (Doc.parseFile text o) := by
  unfold Doc.readFile
  rw [hb, hf]
  have h1 := fileLines_text text [] (by simp)
  have h2 := runFile_lines (rustLines text) (Doc.new o) [] []
  rw [List.append_nil] at h2
  simp only [List.reverse_nil] at h1
  have h1' : fileLines false [] (utf8 text) = (rustLines text).map some := h1
  rw [h1', h2]
  unfold Doc.parseFile
  simp only [Res.bind_eq]
  cases (Doc.new o).runLines [] (rustLines text) <;> rfl

theorem whole_text {u : Str} (h : wholeLines u) : fileText u = crlfToLf u := by
  unfold fileText endNl
  rw [if_pos]
  rcases h with rfl | h
  · exact .inl rfl
  · right
    have h1 : u = u.dropLast ++ ['\n'] := by
      cases u using List.reverseRecOn with
      | nil => cases h
      | append_singleton u c => simp at h; simp [h]
    rw [h1]
    generalize u.dropLast = v
    clear h1 h
    induction v using crlfToLf.induct with
    | case1 => rfl
    | case2 cs ih =>
      show (crlfToLf ('\r' :: '\n' :: (cs ++ ['\n']))).getLast? = _
      rw [crlfToLf, List.getLast?_cons, ih]; rfl
    | case3 c cs hn ih =>
      cases cs with
      | nil =>
        by_cases hc : c = '\r'
        · subst hc; rfl
        · show (crlfToLf (c :: ['\n'])).getLast? = _
          rw [crlfToLf]
          · rw [List.getLast?_cons]; rfl
          · intro _ h; exact absurd h hc
      | cons d ds =>
        show (crlfToLf (c :: d :: (ds ++ ['\n']))).getLast? = _
        rw [crlfToLf]
        · rw [List.getLast?_cons]
          have : crlfToLf (d :: (ds ++ ['\n'])) = crlfToLf (d :: ds ++ ['\n']) := rfl
          rw [this, ih]; rfl
        · intro cs' h1 h2
          simp only [List.cons.injEq] at h2
          exact hn ds h1 (by rw [h2.1])

theorem readFile_whole {f : ByteFile} {u : Str} {rest : List UInt8} (hb : f.bytes = utf8 u ++ rest) (hu : wholeLines u) (o : ParseOptions) :
    Doc.readFile f o =
      match (Doc.new o).runLines [] (rustLines u) with
      | .ok p => p.1.runFile p.2 (fileLines f.fails [] rest)
      | .err e => .parsed (.err e)
      | .panic p => .parsed (.panic p) := by
  unfold Doc.readFile
  rw [hb]
  have h1 : fileLines f.fails [] (utf8 u ++ rest) = (rustLines u).map some ++ fileLines f.fails [] rest :=
    fileLines_whole f.fails rest u [] (by simp) (fun _ => rfl) hu
  rw [h1, runFile_lines]

theorem whole_run {u : Str} (hu : wholeLines u) (o : ParseOptions) (ctx : Str) :
    (((Doc.new o).runLines [] (rustLines u)).bind fun p => Res.ok p.1).rectx ctx = (Doc.new o).run ctx (crlfToLf u) := by
  rw [runLines_run, rustLines_text, whole_text hu]

/-- **C66**: `parse_file` panics at a line exactly if the line cannot be read and the lines before it have been read without
an error. -/
theorem c66_line_panic (f : ByteFile) (o : ParseOptions) : Doc.readFile f o = .linePanic ↔
    ∃ u rest, f.bytes = utf8 u ++ rest ∧ wholeLines u ∧ badLine rest f.fails ∧ readable (crlfToLf u) o = true := by
  have key : ∀ u rest, f.bytes = utf8 u ++ rest → wholeLines u → badLine rest f.fails →
      (Doc.readFile f o = .linePanic ↔ readable (crlfToLf u) o = true) := by
    intro u rest hb hu hl
    rw [readFile_whole hb hu]
    have hr := whole_run hu o (crlfToLf u)
    obtain ⟨ls, hls⟩ := badLine_lines hl
    rw [hls]
    unfold readable
    rw [← hr]
    cases (Doc.new o).runLines [] (rustLines u) with
    | ok p => simp [Doc.runFile, Res.bind, Res.rectx]
    | err e => simp [Res.bind, Res.rectx, createParseError]
    | panic p => simp [Res.bind, Res.rectx]
  constructor
  · intro h
    rcases c66_cases f with ⟨hf, text, hb⟩ | ⟨u, rest, hb, hu, hl⟩
    · rw [c66_text hb hf] at h; cases h
    · exact ⟨u, rest, hb, hu, hl, (key u rest hb hu hl).1 h⟩
  · rintro ⟨u, rest, hb, hu, hl, hr⟩
    exact (key u rest hb hu hl).2 hr

/-- **C66**: if whole lines at the beginning of a file cannot be parsed, then what follows does not matter, readable or not. -/
theorem c66_early {f : ByteFile} {u : Str} {rest : List UInt8} (hb : f.bytes = utf8 u ++ rest) (hu : wholeLines u) (o : ParseOptions)
    (h : readable (crlfToLf u) o = false) :
    match Doc.readFile f o, Doc.parse (crlfToLf u) o with
    | .parsed (.err e), .err e' => e.kind = e'.kind ∧ e.region.index = e'.region.index
    | .parsed (.panic p), .panic p' => p = p'
    | _, _ => False := by
  rw [readFile_whole hb hu]
  have hr := whole_run hu o (crlfToLf u)
  unfold readable at h
  unfold Doc.parse
  rw [← hr] at h ⊢
  cases hx : (Doc.new o).runLines [] (rustLines u) with
  | ok p => rw [hx] at h; simp [Res.bind, Res.rectx] at h
  | err e => exact ⟨rfl, (fromContextIndex_index _ _).symm⟩
  | panic p => simp [Res.bind, Res.rectx]

/-- **C66**: the other ways in which `parse_file` does not come to parsing.  A missing file is a panic or an error, depending on
how its path is written. -/
theorem c66_path {Path : Type} (fs : Files Path) (p : Path) (o : ParseOptions) :
    (Doc.parsePath fs p o = .pathPanic ↔ fs.isAbsolute p = false ∧ ∃ cwd, fs.currentDir = some cwd ∧ fs.canonicalize (fs.join cwd p) = none) ∧
    (∀ q, (fs.isAbsolute p = true ∧ q = p ∨ fs.isAbsolute p = false ∧ ∃ cwd, fs.currentDir = some cwd ∧ fs.canonicalize (fs.join cwd p) = some q) →
      (fs.openFile q = none → Doc.parsePath fs p o = .ioError) ∧ ∀ f, fs.openFile q = some f → Doc.parsePath fs p o = Doc.readFile f o) := by
  have hne : ∀ f, Doc.readFile f o ≠ .pathPanic := by
    intro f
    unfold Doc.readFile
    generalize fileLines f.fails [] f.bytes = ls
    generalize Doc.new o = d
    generalize ([] : Str) = x
    induction ls generalizing d x with
    | nil => intro h; cases h
    | cons l ls ih =>
      cases l with
      | none => intro h; cases h
      | some l =>
        intro h
        simp only [Doc.runFile] at h
        split at h
        · exact ih _ _ h
        · cases h
        · cases h
  constructor
  · unfold Doc.parsePath
    simp only
    cases ha : fs.isAbsolute p with
    | true =>
      simp only [if_true]
      cases fs.openFile p with
      | none => simp
      | some f => simp [hne f]
    | false =>
      cases hc : fs.currentDir with
      | none => simp
      | some cwd =>
        cases hq : fs.canonicalize (fs.join cwd p) with
        | none => simp [hq]
        | some q =>
          cases ho : fs.openFile q with
          | none => simp [hq, ho]
          | some f => simp [hq, ho, hne f]
  · rintro q (⟨h1, rfl⟩ | ⟨h1, cwd, h2, h3⟩)
    · refine ⟨fun h => ?_, fun f h => ?_⟩ <;> simp [Doc.parsePath, h1, h]
    · refine ⟨fun h => ?_, fun f h => ?_⟩ <;> simp [Doc.parsePath, h1, h2, h3, h]

/-- How a file is read, for the samples. -/
def FileOut.tag : FileOut → String
  | .parsed (.ok _) => "ok"
  | .parsed (.err _) => "err"
  | .parsed (.panic _) => "panic"
  | .ioError => "io"
  | .pathPanic => "path"
  | .linePanic => "line"

/-- The hypotheses of `c66_line_panic` and `c66_early` hold of these files. -/
example : wholeLines "<p>é\n".toList ∧ badLine [0xe2, 0x82] false ∧ badLine [] true ∧ badLine [0x61, 0xff, 10, 0x62] false ∧
    readable (crlfToLf "<p>é\n".toList) {} = true ∧ readable (crlfToLf "</p>\n".toList) {} = false := by
  refine ⟨.inr (by decide +kernel), .inr ⟨by decide, .inr (decode_none.1 (by decide +kernel))⟩, .inr ⟨by decide, .inl rfl⟩,
    .inl ⟨[0x61, 0xff], [0x62], rfl, by decide, decode_none.1 (by decide +kernel)⟩, by decide +kernel, by decide +kernel⟩

/-- Files whose outcome is a document, a panic at the second line, a panic behind the first line, an error in the first line,
and again a panic, because the error is in the same line as the byte that is no UTF-8. -/
example : (Doc.readFile { bytes := utf8 "<p>é</p>\r\n".toList } {}).tag = "ok" ∧
    (Doc.readFile { bytes := utf8 "<p>é\n".toList ++ [0xe2, 0x82] } {}).tag = "line" ∧
    (Doc.readFile { bytes := utf8 "<p>é\n".toList, fails := true } {}).tag = "line" ∧
    (Doc.readFile { bytes := utf8 "</p>\n".toList ++ [0xff] } {}).tag = "err" ∧
    (Doc.readFile { bytes := utf8 "</p>".toList ++ [0xff] } {}).tag = "line" := by decide +kernel

end Rphtml
