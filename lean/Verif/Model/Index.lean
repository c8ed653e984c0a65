import Verif.Model.Render

/-!
# The loops that use indices

The rest of the model reads slices and vectors as lists.  Here the functions that index, slice or split a vector, or
subtract from an index, are written as in the code, with the index variables.  `none` is the panic of an index out of
bounds, a slice out of order, or a `usize` subtraction below zero.  (In release builds such a subtraction wraps around,
and the index behind it is out of bounds then.)
-/

namespace Rphtml

/-- `a - b` on `usize`. -/
def subIx (a b : Nat) : Option Nat := if b ≤ a then some (a - b) else none

/-- `&v[a..b]`. -/
def sliceIx (v : Str) (a b : Nat) : Option Str := if a ≤ b ∧ b ≤ v.length then some ((v.take b).drop a) else none

/-- `v.split_off(n)`: what stays in `v`, and what is split off. -/
def splitOffIx (v : Str) (n : Nat) : Option (Str × Str) := if n ≤ v.length then some (v.take n, v.drop n) else none

/-- The loop of `chars_trim_end` (parser.rs:205-210) over the reversed slice, with `end_index`. -/
def trimLoopIx : Nat → Str → Option Nat
  | e, [] => some e
  | e, c :: cs =>
    if !isWs c then some e
    else do
      let e ← subIx e 1
      trimLoopIx e cs

/-- `chars_trim_end` (parser.rs:203-212). -/
def charsTrimEndIx (target : Str) : Option Str := do
  let e ← trimLoopIx target.length target.reverse
  sliceIx target 0 e

/-- The loop of `is_equal_chars` (parser.rs:228-232), with `index`. -/
def equalLoopIx (case : Option NameCase) (cmp : Str) : Nat → Str → Option Bool
  | _, [] => some true
  | i, ch :: cs => do
    let b ← cmp[i]?
    if !eqCharCase case ch b then some false else equalLoopIx case cmp (i + 1) cs

/-- `is_equal_chars` (parser.rs:215-234). -/
def isEqualCharsIx (target cmp : Str) (case : Option NameCase) : Option Bool :=
  if target.length ≠ cmp.length then some false else equalLoopIx case cmp 0 target

/-- The loop of `is_equal_chars_ignore_case` (parser.rs:241-264), with `index` and `is_total_same`. -/
def ignoreLoopIx (cmp : Str) : Nat → Bool → Str → Option (Bool × Bool)
  | _, same, [] => some (true, same)
  | i, same, ch :: cs => do
    let b ← cmp[i]?
    if b = ch then ignoreLoopIx cmp (i + 1) same cs
    else if isLower b then
      if toUpper b ≠ ch then some (false, false) else ignoreLoopIx cmp (i + 1) false cs
    else if isUpper b then
      if toLower b ≠ ch then some (false, false) else ignoreLoopIx cmp (i + 1) false cs
    else some (false, false)

/-- `is_equal_chars_ignore_case` (parser.rs:236-266). -/
def isEqualCharsIgnoreCaseIx (target cmp : Str) : Option (Bool × Bool) :=
  if target.length ≠ cmp.length then some (false, false) else ignoreLoopIx cmp 0 true target

/-- The loop over the trailing whitespace in `parse_content_tag` (parser.rs:1424-1432), with `prev_len`. -/
def trailLoopIx (prev : Str) : Nat → Option Nat
  | 0 => some 0
  | n + 1 => do
    let ch ← prev[n]?
    if !isWs ch then some (n + 1) else trailLoopIx prev n

/-- The matching loop of `parse_content_tag` (parser.rs:1436-1463), with `detect_len` and `prev_len`. -/
def matchLoopIx (caseSensitive : Bool) (endTag prev : Str) : Nat → Nat → Option (Nat × Nat)
  | 0, p => some (0, p)
  | k + 1, p => do
    let dc ← endTag[k]?
    let pi ← subIx p 1
    let pc ← prev[pi]?
    if contentCharMatch caseSensitive dc pc then matchLoopIx caseSensitive endTag prev k pi else some (k + 1, p)

/-- The search for the end tag in `parse_content_tag` (parser.rs:1419-1470, 1478): the content and the name of the end
tag, if it is there. -/
def contentEndIx (caseSensitive : Bool) (endTag prev : Str) : Option (Option (Str × Str)) :=
  let detectLen := endTag.length
  let prevLen := prev.length
  if prevLen ≥ detectLen then do
    let prevLen ← trailLoopIx prev prevLen
    let (detectLen, prevLen) ← if prevLen ≥ detectLen then matchLoopIx caseSensitive endTag prev detectLen prevLen
      else some (detectLen, prevLen)
    if detectLen = 0 then do
      let (rest, tag) ← splitOffIx prev prevLen
      let (_, name) ← splitOffIx tag 2
      some (some (rest, name))
    else some none
  else some none

/-- `parse_content_tag` (parser.rs:1407-1490); the missing `detect` is the panic `detectMissing` of the model. -/
def parseContentTagIx (d : Doc) (c : Char) : Option (Res Doc) :=
  if c ≠ '>' then some (.ok (d.pushChar c))
  else
    match d.detect with
    | none => some (.panic .detectMissing)
    | some endTag =>
      match contentEndIx d.opts.caseSensitiveTagname endTag d.prevChars with
      | none => none
      | some none => some (.ok (d.pushChar c))
      | some (some (content, endTagName)) =>
        let d := d.setCodeIn .unkown
        let id := d.heap.size
        let e : Cell := { Cell.new .tagEnd (d.position + 1) with content := some endTagName, parent := some d.current }
        let d := { d with heap := d.heap.push e }
        let d := d.modCur fun n => { n with endTag := some id, content := some content }
        some (.ok { d with prevChars := [], chain := d.chain.tail, detect := none })

/-- The check for `--` or `]]` in `parse_comment_or_cdata` (parser.rs:1499-1506): the content, if it is there. -/
def commentEndIx (mark : Char) (chars : Str) : Option (Option Str) :=
  let total := chars.length
  if total > 2 then do
    let i ← subIx total 1
    let prevChar ← chars[i]?
    if prevChar = mark then do
      let j ← subIx total 2
      let ch ← chars[j]?
      if ch = mark then some (some (chars.take j)) else some none
    else some none
  else some none

/-- `parse_comment_or_cdata` (parser.rs:1495-1520). -/
def parseCommentOrCdataIx (d : Doc) (c : Char) : Option (Res Doc) :=
  if c = '>' then
    match commentEndIx d.markChar d.prevChars with
    | none => none
    | some none => some (.ok (d.pushChar c))
    | some (some content) =>
      let d := d.cleanChars.modCur fun n => { n with content := some content }
      some (.ok ({ d with markChar := '\x00' }.setTagEndInfo.setCodeIn .unkown))
  else some (.ok (d.pushChar c))

/-- `self.handle` (parser.rs:1864-1865), with the two handlers that index into `prev_chars` as above.  The others index
only through `is_equal_chars` and `chars_trim_end`. -/
def runHandleIx (d : Doc) (c : Char) (ctx : Str) : Option (Res Doc) :=
  match d.handle with
  | .contentTag => parseContentTagIx d c
  | .commentOrCdata => parseCommentOrCdataIx d c
  | _ => some (runHandle d c ctx)

/-- The loop over the characters of `Doc::parse` (parser.rs:1774-1776), with `Doc::next` (parser.rs:1863-1869). -/
def Doc.runIx (d : Doc) (ctx : Str) : Str → Option (Res Doc)
  | [] => some (.ok d)
  | c :: cs =>
    match runHandleIx d c ctx with
    | none => none
    | some (.err e) => some (.err e)
    | some (.panic p) => some (.panic p)
    | some (.ok d) => Doc.runIx { d with position := d.position + 1 } ctx cs

/-- `Doc::parse` (parser.rs:1771-1779). -/
def Doc.parseIx (content : Str) (opts : ParseOptions) : Option (Res Doc) :=
  match (Doc.new opts).runIx content content with
  | none => none
  | some r => some (do
      let d ← r
      let d ← d.eof content
      .ok d.intoRoot)

/-- The line loop of `Doc::parse_file` (parser.rs:1797-1804). -/
def Doc.runLinesIx (d : Doc) (content : Str) : List Str → Option (Res (Doc × Str))
  | [] => some (.ok (d, content))
  | l :: ls =>
    match d.runIx (content ++ l) (l ++ ['\n']) with
    | none => none
    | some (.err e) => some (.err e)
    | some (.panic p) => some (.panic p)
    | some (.ok d) => d.runLinesIx (content ++ l) ls

/-- `Doc::parse_file` (parser.rs:1782-1807) on the decoded text of the file. -/
def Doc.parseFileIx (text : Str) (opts : ParseOptions) : Option (Res Doc) :=
  match (Doc.new opts).runLinesIx [] (rustLines text) with
  | none => none
  | some r => some (do
      let (d, content) ← r
      let d ← d.eof content
      .ok d.intoRoot)

/-- The loop with entity decoding (parser.rs:605-633) over the characters from `index` on, with `result`,
`prev_is_space`, `is_in_entity` and `start_index`. -/
def decodeLoopIx (lib : EntityLib) (content : Str) : Nat → Str → Str → Bool → Bool → Nat → Option (Str × Bool × Nat)
  | _, [], result, _, inEntity, start => some (result, inEntity, start)
  | index, ch :: cs, result, prevIsSpace, inEntity, start =>
    if !inEntity then
      if ch = '&' then decodeLoopIx lib content (index + 1) cs result prevIsSpace true index
      else if isWs ch then
        if prevIsSpace then decodeLoopIx lib content (index + 1) cs result prevIsSpace inEntity start
        else decodeLoopIx lib content (index + 1) cs (result ++ [ch]) true inEntity start
      else decodeLoopIx lib content (index + 1) cs (result ++ [ch]) false inEntity start
    else if ch = ';' then do
      let entity ← sliceIx content (start + 1) index
      match lib.decodeOne entity with
      | some decoded => decodeLoopIx lib content (index + 1) cs (result ++ [decoded]) prevIsSpace false start
      | none => decodeLoopIx lib content (index + 1) cs (result ++ ['&'] ++ entity ++ [';']) prevIsSpace false start
    else decodeLoopIx lib content (index + 1) cs result prevIsSpace inEntity start

/-- Collapsing with entity decoding (parser.rs:602-637), appended to `result`. -/
def minifyDecodeIx (lib : EntityLib) (content result : Str) : Option Str := do
  let (result, inEntity, start) ← decodeLoopIx lib content 0 content result false false 0
  if inEntity then do
    let rest ← sliceIx content start content.length
    some (result ++ rest)
  else some result

end Rphtml
