import Verif.Model.Cost

/-!
# The work of parsing a file

As in `Model/Cost.lean`, and in addition every character that is read into a line and appended to the text
kept for the errors counts one.  Not counted: opening the file, the blocks of `BufReader`, the search for the
line ends, and the growth of the text (amortised, as for every vector).
-/

namespace Rphtml

/-- The characters of one line and its `\n` (parser.rs:1800-1803), up to the first error; `k` is the work
after them. -/
def charsWork (d : Doc) (context : Str) (k : Doc → Nat) : Str → Nat
  | [] => k d
  | c :: cs => 1 + stepWork d c +
    match d.next c context with
    | .ok d' => charsWork d' context k cs
    | .err e => errWork e context
    | .panic _ => 0

/-- The line loop of `Doc::parse_file` and `eof` (parser.rs:1797-1805): the line is read, pushed on `content`,
and its characters are handed to `next`. -/
def linesWork (d : Doc) (content : Str) : List Str → Nat
  | [] => eofWork d content
  | l :: ls => (1 + l.length) + l.length +
    charsWork d (content ++ l) (fun d' => linesWork d' (content ++ l) ls) (l ++ ['\n'])

/-- `Doc::parse_file` (parser.rs:1782-1807) on the decoded text of the file. -/
def fileWork (text : Str) (opts : ParseOptions) : Nat := linesWork (Doc.new opts) [] (rustLines text)

end Rphtml
