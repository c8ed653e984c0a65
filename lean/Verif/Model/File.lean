import Verif.Model.Parser

/-!
# `Doc::parse_file` from the bytes of the file

`Doc.parseFile` of `Model/Parser.lean` starts from the decoded text.  Here the file is given by its bytes, the
file system by its answers, and the three `unwrap`/`?` of `parse_file` (parser.rs:1782-1807) are modelled.

`std` is modelled as documented: `str::from_utf8` accepts exactly the UTF-8 encodings of sequences of characters
(`ByteArray.utf8Decode?` of the Lean library), `BufRead::lines` reads up to and including each `\n`, checks the line,
and drops `\n` or `\r\n`.
-/

namespace Rphtml

/-- What an opened file yields: its bytes, and whether reading on behind them is an error (a directory, a disk fault)
and not the end of the file. -/
structure ByteFile where
  bytes : List UInt8
  fails : Bool := false

/-- What `parse_file` asks of the system (parser.rs:1786-1792): `is_absolute`, `current_dir`, `join`, `canonicalize`
and `File::open`; `none` is an `Err`. -/
structure Files (Path : Type) where
  isAbsolute : Path → Bool
  currentDir : Option Path
  join : Path → Path → Path
  canonicalize : Path → Option Path
  openFile : Path → Option ByteFile

/-- How `parse_file` ends: like `parse` (`parsed`, which includes errors and panics of the parser), with an `io::Error`
returned by `?` (parser.rs:1790, 1792), or with a panic of `canonicalize().unwrap()` (parser.rs:1790) or of
`line.unwrap()` (parser.rs:1798). -/
inductive FileOut where
  | parsed (r : Res Doc)
  | ioError
  | pathPanic
  | linePanic

/-- `str::from_utf8`. -/
def decodeUtf8 (b : List UInt8) : Option Str := b.toByteArray.utf8Decode?.map Array.toList

/-- The end of `Lines::next`: pops `\n`, and `\r` before it. -/
def chomp (l : Str) : Str :=
  if l.getLast? = some '\n' then
    if l.dropLast.getLast? = some '\r' then l.dropLast.dropLast else l.dropLast
  else l

/-- `Lines::next` on the bytes of a line; `none` is an `Err`. -/
def lineOf (b : List UInt8) : Option Str := (decodeUtf8 b).map chomp

/-- `file.lines()` (parser.rs:1797); `acc` holds the bytes of the current line, reversed.  The items behind the first
`Err` do not matter, since `parse_file` panics there. -/
def fileLines (fails : Bool) : List UInt8 → List UInt8 → List (Option Str)
  | acc, [] => if fails then [none] else if acc.isEmpty then [] else [lineOf acc.reverse]
  | acc, b :: bs => if b = 10 then lineOf (b :: acc).reverse :: fileLines fails [] bs else fileLines fails (b :: acc) bs

/-- The line loop and the end of `parse_file` (parser.rs:1797-1806). -/
def Doc.runFile (d : Doc) (content : Str) : List (Option Str) → FileOut
  | [] => .parsed do
    let d ← d.eof content
    .ok d.intoRoot
  | none :: _ => .linePanic
  | some l :: ls =>
    match (do
      let d ← d.run (content ++ l) l
      d.next '\n' (content ++ l)) with
    | .ok d => d.runFile (content ++ l) ls
    | .err e => .parsed (.err e)
    | .panic p => .parsed (.panic p)

/-- `parse_file` behind `File::open` (parser.rs:1793-1806). -/
def Doc.readFile (f : ByteFile) (opts : ParseOptions) : FileOut := (Doc.new opts).runFile [] (fileLines f.fails [] f.bytes)

/-- `Doc::parse_file` (parser.rs:1782-1807). -/
def Doc.parsePath {Path : Type} (fs : Files Path) (filename : Path) (opts : ParseOptions) : FileOut :=
  let openAt (p : Path) : FileOut :=
    match fs.openFile p with
    | none => .ioError
    | some f => Doc.readFile f opts
  if fs.isAbsolute filename then openAt filename
  else
    match fs.currentDir with
    | none => .ioError
    | some cwd =>
      match fs.canonicalize (fs.join cwd filename) with
      | none => .pathPanic
      | some p => openAt p

end Rphtml
