# Formal model of fefit/rphtml in Lean 4

The Rust sources in `/repo/src` are modelled function by function in Lean 4. The properties of `properties.jsonl` are
proved about that model for all inputs. `MANIFEST.json` names the theorems.

## Layout

| directory | contents |
|---|---|
| `lean/Verif/Model` | the model of the code; each definition cites file and lines of `/repo` |
| `lean/Verif/Spec` | specifications that do not use the model's helpers (plain documents, well-formedness, spans, graphs, …) |
| `lean/Verif/Proofs` | invariants and lemmas |
| `lean/Verif/Props` | the property theorems, each with a concrete case that meets its hypotheses |
| `lean/Verif/Findings.lean` | inputs on which an intended property fails (closed computations, labelled as tests) |
| `lean/Verif/Conformance.lean` | the expectations of the repository's own tests, evaluated in the model (tests) |
| `seeded/LOG.jsonl` | wrong programs the theorems were tried against; `theorems_failed` no longer compile with the edit, and for `statements_refuted` `False` was derived from the unchanged statement in the edited model |

## What is modelled

* **Nodes** (`Model/Node.lean`). The `Rc<RefCell<Node>>` graph is an explicit heap from node ids to cells. A `RefNode` or a
  `Weak` link is a node id. Ids are given out in creation order and nothing is freed. `clone_node`, `create_text_node`,
  `is_document` and `get_element_by_id` are modelled on this heap.
* **Parser** (`Model/Parser.lean`). `Doc` has the fields of the Rust struct. The function pointer `handle` is an
  enumeration of the handler functions. `next`, `eof`, `fix_unclosed_tag`, `fix_unescaped_lt`, `into_root`, `parse` and
  the reading loop of `parse_file` are modelled. The open-tag chain is stored innermost first.
* **Failures** are explicit: `Res α = ok a | err e | panic site`, with one `Site` for every `unwrap`, `expect`, index and
  `panic!` that is not protected by a check on the line before.
* **Positions** (`position.rs`) and **character classes** (`util.rs`) are modelled completely, **errors** (`error.rs`) by
  their kind and region, and the texts shown for them in `Model/Display.lean`.
* **Rendering** (`Model/Render.lean`). `build`, `build_tree`, `build_node` and `write_content_encode` work on the finite tree
  that the heap denotes (`Doc.tree?`). They are defined on every tree, also on those no parse produces, because the fields of
  `Node` are public.
* **htmlentity** is an external crate. It is a parameter `EntityLib`, and the theorems quantify over it.

### Simplifications

* Texts are lists of `Char`. A Rust `char` and a Lean `Char` are both Unicode scalar values.
* `usize` is `Nat`. The one subtraction that could underflow (`clone_node_without_childs`) is modelled as a possible panic.
* Slices and vectors of characters are lists. The loops that use indices are also modelled with their index variables and
  checked accesses (`Model/Index.lean`, for C70), and proved to stay in bounds and to agree with the list functions.
* A weak link is a node id and is assumed to be upgradeable while the document lives. The parser upgrades one weak link only
  (parser.rs:1383), and `c01_upgrade` proves that its target is held by the tree at that point. In the
  model of `impl Clone for Node` the copy is freed, and `upgrade` fails for links to it.
* Rendering is modelled on trees. `Model/RenderHeap.lean` models it again on the heap, as the code runs, and C71 proves that the
  two agree on every node that denotes a tree, and that no other node is rendered. `c02_renderable_partial` shows that the
  heap of a parsed document denotes a finite tree.
* **Borrows** (`Model/Borrow.lean`). For each function of the parser, the clone and the renderer that borrows a `RefCell`, the
  list of its borrows in order, as pairs of a `take` and a `give` around what is borrowed meanwhile. The scopes are those of
  edition 2018, which the crate uses: a temporary lives to the end of its statement or `if` condition, the scrutinee of an `if let` or `match` and a
  guard bound by `let` to the end of their block. The lists use the state functions for the control flow and the node ids.
* **Files** (`Model/File.lean`, for C66). `parse_file` from the bytes of the file and the answers of the file system. A read error ends the reading, since `parse_file` panics at it; what the
  operating system answers is not modelled. `str::from_utf8` is taken to accept exactly the encodings of texts, and `BufRead::lines` to work as documented.
* **Work** (`Model/Cost.lean`, for C64; `Model/CostFile.lean`, for C75; `Model/RenderCost.lean`, for C65). Beside the functional model, `stepWork` charges each call of a handler with the
  characters it pushes, moves, copies, lower-cases, hashes or compares. A comparison is charged in full, also if it would stop
  early. Moving a `Vec` whole is free, `append` costs its length. `Model/RenderCost.lean` (C65) does the same for rendering and cloning; `htmlentity` is charged the
  characters it gets and those it appends. The growth of vectors and hash maps (amortised constant),
  allocation and dropping are not charged.
* **Stack** (`Model/Stack.lean`, for C68). `build_tree`, the clone and the drop of a node with room for `n` nested calls. Only these recursive calls are
  counted, not the bytes of their frames. A node that `id_tags` holds too is counted as if it were dropped with the tree.

### Not modelled

Allocation failure, the size of stack frames, `Debug`
formatting (but for the state names in `unclosedTag` errors), `main.rs`, and the body of `htmlentity`.

## Trusted base

* The Lean 4.33.0 kernel. No `sorry`, no new axioms, no `native_decide`, no `bv_decide`.
* The axioms used by the theorems of the manifest are at most `propext`, `Classical.choice` and `Quot.sound`:
  * none: `c27_sublist`;
  * `propext` only: `c27_buildText_minify`, `c27_words`, `c27_head`, `c27_fixed`, `c27_pre_verbatim`, `c39_not_root`,
    `c41_value_char`, `c42_encode_other`, `c62_only`, `c71_tree`, `c71_build`;
  * `propext` and `Quot.sound`: `c25_region_spec`, `c27_visible`, `c27_noDoubleWs`, `c27_idempotent`, `c28_sublist`,
    `c28_words_partial`, `c28_plain`, `c28_exact`, `c30_remove_comment`, `c30_root`, `c32_remove_endtag_space`, `c33_unquoted`,
    `c34_partial`, `c34_exact`, `c35_inner_html`, `c42_encode_inert`, `c55_clone`, `c55_render`, `c58_options`, `c65_written`,
    `c70_trim`, `c70_equal`, `c70_raw`, `c70_comment`, `c70_decode`, `c72_local`;
  * all three: every other theorem of the manifest.
* The faithfulness of the model to the sources. It was checked by reading, and against the assertions of
  `tests/html.rs` (`Conformance.lean`). One assertion does not hold in the model: `test_pre_tag` expects the line feed after
  `<pre>` to be dropped, and nothing in `/repo/src` does that.

## How the proofs go

1. `Step d c d'` (`Proofs/Step.lean`) is an explicit relation with one constructor per branch of a handler.
   `runHandle_sound` shows that the functional model only takes these steps, reports errors only where `ErrOk` allows, and
   panics only where `PanicOk` allows. `Ctl` is the control invariant of reachable states (`Reach`).
2. Heap invariants are proved by cases on `Step`, or on `Eff`, a coarser relation of effects on links: `Links` (ownership,
   parents, end tags), `OrderInv` (creation order is document order), `TextInv`, `SpanInv`, `SpInv`, …
3. For statements about whole documents there is a second, heap-free machine (`Proofs/Abs.lean`) on plain values.
   `Proofs/Simulate.lean` shows that it simulates the heap machine. `Spec.PNode` is a plain document, `Spec.docOf` the document
   a heap denotes, `Spec.printNodes` its default rendering.
4. `c05_roundtrip` runs the parser on printed well-formed documents. Most statements about two runs are derived from it.

## The properties

Status *partial* mostly means that the claim as stated is false for the code; the theorems then say exactly where it holds.

| id | status | what is proved, and what is missing |
|---|---|---|
| C01 | partial | Invariant `Ctl`. The claim itself is false (`<div`). `c01_exact`: for each of the four sites that can panic, exactly the texts and options on which it does. |
| C02 | partial | Heap invariant at end of input. False for inputs ending in a start-tag name with `auto_fix_unclosed_tag`; `c02_exact`: it panics exactly for those. |
| C03 | proved | The input spells the parsed document (`Spec.writtens`); induction over the plain machine. |
| C04 | proved | The document of an accepted input is well-formed, then C05. |
| C05 | proved | Induction over well-formed documents, running the parser on the printed text. |
| C06 | proved | `Owns.index`, part of the link invariant. |
| C07 | partial | Link invariant. With `auto_fix_unescaped_lt` a text that begins with a repaired `<` has no parent and no root link; `c07_exact` says that these are exactly the nodes without links. |
| C08 | proved | `Owns` and `Ordered`. |
| C09 | proved | Position invariant along `Eff`. |
| C10 | proved | C59 without repairs. The source never sets `end_at` of start tags, so nothing is claimed about it. |
| C11 | proved | Invariant relating `idTags` to the attribute lists, and document order = creation order. |
| C12 | partial | Invariant on `TagMeta`. With `auto_fix_unclosed_tag` an attribute with an empty name can remain. |
| C13 | partial | Exact statement for all options (`c13_exact`). A self-closed doctype closes the element around it. |
| C14 | partial | Invariant. With `auto_fix_unescaped_lt` void and raw-text elements can get one text child. `c14_every` covers all options and inputs that end inside a start tag, unless inside its name. |
| C15 | proved | Induction over the raw text; the rest of the document is the same for all contents (`Spec.Gap`). |
| C16 | proved | As C15, for comments and CDATA. The code needs a non-empty body. |
| C17 | proved | `TextInv`; adjacency from the plain machine. |
| C18 | proved | `TextInv`. |
| C19 | partial | False (`c19_violated`). `SpInv` gives the exact rule without auto-fix options; `BlankInv` (Proofs/BlankInv.lean, BlankStep.lean, BlankFinal.lean) gives it for every option set (`c19_all_partial`, rule in Spec/Blank.lean). |
| C20 | partial | Simulation of two runs. False when `auto_fix_unclosed_tag` is added to `auto_fix_unexpected_endtag`; then the documents agree up to the joining of neighbouring texts (`c20_joined_partial`), unless `auto_fix_unescaped_lt` was on too. `c20_loose` is for all options: the documents agree up to joining texts and taking them out of void and raw-text elements. |
| C21 | proved | Run of the parser on the input followed by the missing end tags. |
| C22 | partial | Simulation. Exact with `auto_fix_unclosed_tag`, otherwise up to joining neighbouring texts (`c22_joined_partial`) and, with the repair of `<`, taking them out of void and raw-text elements (`c22_loose`). |
| C23 | partial | Run on the escaped input. Directly after a void element the text becomes its child, with the same source text (`c23_void`: simulation of two runs that differ in where that text stands). Anywhere the two documents are the same up to taking such texts out (`c23_place`). False as to the rendered place after a raw-text element. |
| C24 | proved | Induction over the input; errors while reading do not look ahead. |
| C25 | proved | Induction over the context against a separate definition of line and column. |
| C26 | proved | Induction over the lines of the file. For bytes, UTF-8 and the file system see C66. `c26_region`: where the line and column of its errors come from. |
| C27 | proved | Induction over the text with the model's state. |
| C28 | partial | False for an entity directly after whitespace; `c28_exact` cuts the text at its references (`Spec.Cut`) and says which characters are removed and when that joins words. |
| C29 | partial | False for nested or self-closed `pre`; proved for all other trees. `c29_exact`: what happens in every tree, in terms of tag order. |
| C30 | proved | Induction over trees. |
| C31 | proved | Induction over trees. |
| C32 | proved | Induction over trees. |
| C33 | partial | Quotes are dropped exactly where not needed; the result re-reads as the same document, up to quotes, if and only if no attribute needs its quotes (`c33_exact`). |
| C34 | partial | False: the option does not look at void elements. It closes exactly the repaired tags (`c34_exact`). These are the elements open at the end (`c34_repaired`, Proofs/NoFix.lean), so without `auto_fix_unclosed_tag` the option does nothing (`c34_parsed`). |
| C35 | proved | Case analysis of `build`. |
| C36 | proved | Induction over trees; for all options by rendering the tree changed as in C61 (`build_recode_node`). |
| C37 | proved | Induction over the fuel of the copy. |
| C38 | proved | C37 and C09. |
| C39 | proved | Induction over the children. |
| C40 | proved | Direct. |
| C41 | proved | Direct, for all characters. |
| C42 | proved | Induction over the text, for every codec. |
| C43 | partial | False for `TITLE` and `TEXTAREA` (`c43_violated`); proved for all other names. `c43_exact` states the answer for every name and node kind. |
| C44 | partial | False for end tags in different case and after a self-closed doctype; proved otherwise. `c44_exact`: what holds in every document. |
| C45 | proved | Case analysis of `build`, both directions. |
| C46 | proved | Induction over attribute lists. |
| C47 | proved | Splitting of runs of the plain machine. |
| C48 | proved | One step per option, each keeping a document legal up to split and empty texts; then joining texts. |
| C49 | proved | Tag level: run of the tag machine up to its closing character against the grammar, both ways. Node level: every spelling is read (induction on the document); an invariant of the plain-value machine says what the text read so far spells. |
| C50 | proved | The layout of a copy in the heap: children lie behind their parent, so nothing refers to the root of the copy. |
| C51 | proved | A continuation is built from every mode of the plain-value machine but three; the stuck states are kept by every step. |
| C52 | proved | The errors of each handler are listed and shown to be all (`ErrIs`); an invariant on where the pending `<` began turns states into texts. |
| C53 | proved | `Spec.Scan` (finished constructs) and `Spec.Inside` (one unfinished construct behind them) are compared with the plain-value machine in both directions; the document of a cut-off start tag comes from the final heap (`Zip.final_tree`). |
| C54 | proved | `Spec.Rejects`, `Spec.Ends` and `Spec.Crashes` (Spec/Outcome.lean) are compared with `Refused`/`Unfinished` of C52 and with the panics of C01, using C53 for what the parser knows behind each prefix; where an open element and the last begun node begin is followed through the run (`Since`, Proofs/Begin.lean, Proofs/LastAt.lean). |
| C55 | proved | `Spec.Fine` (Spec/Borrow.lean) replays a list of borrows and asks that no cell taken is alive in a conflicting mode. For parsing, the cells borrowed at the same time are told apart by the links of reachable states (a new node is not its parent, a parent is not its child; Props/Borrow.lean); for cloning by `Linked` of the heap and freshness of the copy; rendering only reads. |
| C56 | proved | `Spec.minDoc` (Spec/Minified.lean) says on plain documents what `minify_spaces` keeps; it is C19 carried from the heap to the tree (Proofs/Minified.lean). One pass leaves no blank text outside `pre` but an only child (`clean`), and a pass over such a document leaves nothing to do (Proofs/MinIdem.lean). The other options fix what they produce (`Fixed`, Props/Idem.lean). |
| C57 | proved | The decimal digits are read back by induction (`number_decimal`). C54 gives the kinds of error the parser raises; their texts differ in the first nine characters or in what they quote. |
| C58 | proved | `cells` (nodes, open elements that may get an end tag, a pending `<`) grows by at most one per character (`Step.cells`). The other bounds are inductions over the grammar of C53: `pot` is the length of what has been read, `load` its nesting. `c58_deep` builds the texts that reach the bound. For other render options node by node (`node_length`). |
| C59 | proved | `SpanInv` with any options: `Side` says what is known of a text that may still go on (behind a repaired `<` or a dropped end tag), `Spec.Mended` relates a stretch of the source to the content. C10 is the case without repairs. |
| C60 | proved | `Spec.Frees` is reference counting over the strong links of the arena (`childs`, `end_tag`), in any order; ids grow along the strong links of a parsed heap, and a copy has a rank. `WeakInv` follows `prev` and `root`. |
| C61 | proved | `Spec.recode` (Spec/Recode.lean) says what the three options make of a node; a text that is decoded and collapsed is given by C28. Rendering with them is rendering the changed tree without them (`build_recode`), which C48/C56 describe. The document stays legal unless a text gets a `<`, and no accepted document has such a text (`docOf_noLt`). |
| C62 | proved | `inner_split`: below the start tag the options `inner_html` and the `pre` status change nothing of the recoded tree (`tree_recode`), so C48/C56/C61 apply to the children. Without svg and math, every list of children is a document (`homely_place`). |
| C63 | proved | `mend_loose`: every accepted document (`okNodes`, all options) becomes well-formed up to neighbouring texts when the texts inside void and raw-text elements are moved, and keeps its source text; `raw_pour`: a text that begins with `&lt;` cannot complete an end tag of a raw-text element. Then C05. `c63_every` adds the texts that end inside a start tag: `half_finish` completes the tag without changing its attributes, and the completed text has the same rendering. |
| C64 | proved | `potential`: characters in the current token, trailing whitespace, the name of the tag being read, the names in the heap and the number of nodes pay for the work (`step_cost`); only a text that is taken up again is not paid for (`resumed`). `NoText`: without the two repairs no finished text is current when a text starts. `Within` bounds every text by five times the characters read. The slow texts are run symbolically. `c64_written`: the measure is not too small, because every character that is new in the registers or nodes after a step (`Spec.docFresh`, which compares the states only) is charged; `c64_end`: so is every character that `eof` adds to the nodes. |
| C65 | proved | `linear` lists the nodes of a tree in order; rendering costs each of them at most 23 + (K+4) × what it prints (`nodeWork_le`), and the document prints at most F·\|s\| characters (C58). Every node prints at least one character but the root (`plain_pos`), so the nodes are paid for too. Cloning copies of a node at most twice what it prints (`clone_plain`). `Heap.bare`: doctypes and the root have no content. |
| C66 | proved | `fileLines` reads bytes; `char_byte`: no other character has the byte of a newline, so the lines of an encoded text are the encoded lines of the text (`fileLines_text`, `fileLines_whole`). `c66_cases` and `c66_line_panic` split a file at its first line that cannot be read. UTF-8 is that of the Lean library (`List.utf8Encode`, `ByteArray.utf8Decode?`). |
| C67 | proved | Invariant `PrevInv` over the effects of a transition (`Proofs/PrevLink.lean`): the `prev` links, and that every node behind the current one is a dropped end tag or its own end tag. `c67_none` is the converse. |
| C68 | proved | `buildTreeIn`, `cloneWith` (its fuel) and `dropIn` run out exactly on chains of `Child` or `Holds` (`Spec/Stack.lean`), by induction on the room. `c68_enough` takes the depth from C58 (`doc_chain` relates chains to `depths`), and an end tag is the last node of a chain (`holds_chain`). `c68_never` nests `n` elements (`nest_wf`, C05). |
| C69 | proved | Invariant `VoidInv` over the transitions; `need_quote` from the shapes of attributes (C46); `auto_fix` is set at the end only (`NoFix`), so an end tag of another tag was read, and the span invariant of C59 says where (`Reach.endRead`). |
| C70 | proved | Each loop with indices against the list function, by induction; two characters to detect by the control invariant (`HandleOk`). `c70_fits` from C06 and C09. |
| C71 | proved | `build_tree` on the heap against `build_tree` on the tree by induction on the room, with the child loop as a separate induction. Success gives a tree by the same induction (`buildTreeAt_ok`). Parsed documents by `toTree_spec`. |
| C72 | proved | Well-formedness before and after an insertion by induction on the place (`inserted_wf`); C05 and `c04_wellformed` turn it into a statement about parsing; `c43_exact` for `allow_insert`. |
| C73 | proved | C05 and `c04_wellformed` together say that exactly the well-formed trees survive; well-formedness of a changed document by induction on the place (`replaced_wf`). |
| C74 | proved | As C72, for lists of nodes (`spliced_wf`). A fragment without svg and math is well-formed in every place (`homely_any`): its end tags cannot close a foreign element. |
| C75 | proved | `Model/CostFile.lean` charges `parse_file` as `Model/Cost.lean` charges `parse`, and two per character of a line. The steps do not depend on the text kept for the errors (`next_rectx`), so the work is compared with that of `parse` on `Spec.fileText`, line by line (`linesWork_le`, `linesWork_ge`, `linesWork_eq`, and `linesWork_err` for rejected files); the bounds and the slow files are then those of C64. |
| C76 | proved | Each kind of edit preserves well-formedness (`inserted_wf`, `replaced_wf`), so any sequence of them does (`Spec.SafeEdits`, `safeEdits_wf`); a parsed document is well-formed (C04) and well-formed documents are read back (C05). `c76_reach` shows that the conditions are not too strong: nodes are removed from the front and the others put in from the back. |

No property is declared not applicable.

## Defects of the code found on the way

Each has a closed example in `Verif/Findings.lean` or beside the theorem it limits.

* Panics while parsing: `<div`, `<!DOCTYPE html/><a>`, `<svg></SVG><![CDATA[a]]>`, two self-closed doctypes in `svg` and then `<![`.
* `<div` with `auto_fix_unclosed_tag` parses, and rendering it panics.
* `<br a=b ` with `auto_fix_unclosed_tag` is rendered as `<br a=b></br>`, which is not accepted.
* A self-closed doctype pops the chain of open tags: `<div><!DOCTYPE a/>` is accepted.
* `href=/foo` loses its slash. `<!---->` and `<![CDATA[]]>` are not recognised as complete.
* `<a> </a>` keeps its space under `minify_spaces`, `<a> </a><b></b>` loses it.
* `minify_spaces` is not idempotent on documents: `<a> </a> <b></b>` becomes `<a> </a><b></b>`, and that `<a></a><b></b>`.
* The text repaired by `auto_fix_unescaped_lt` can land inside a `script` or `br` and has no parent link.
* `minify_spaces` with `decode_entity` removes the space in `a &gt; b`; `pre` protection ends at a nested `</pre>`.
* `lowercase_tagname` breaks documents with upper-case `SVG` or `MATH`: `<svg></SVG><div/>` becomes `<svg></svg><div />`, which is rejected.
* `remove_attr_quote` drops quotes that are needed: nothing ever sets `need_quote` (`c69_quote`). `always_close_void` does not close void elements.
* `allow_insert("TITLE", …)` differs from `allow_insert("title", …)`.
* `allow_insert` allows CDATA directly in `svg` and `math`, where the parser rejects it, and refuses it in the elements inside
  them, where the parser accepts it. It allows anything in `script` and `style`, where all is raw text (C72).
* `parse_file` panics on a file that is not UTF-8, on a directory, on a read error (`c66_line_panic`), and on a missing file with a relative path (`c66_path`), although it returns a `GenResult`; a missing file with an absolute path is an error.
* `parse_file` reports positions in a context without line breaks: the line is 1 for every error unless the file has lone carriage returns (`c26_first_line`). The end node of a raw-text element starts behind its end.
* Cloned end tags have no parent link, and the `root` link of a copy points to the original's root. Children of a node cloned by value have no parent.
* `<svg><svg></svg><path/></svg>` is rejected: the inner end tag leaves the svg context.
* The inner html or text of a document with one element leaves out the texts beside it: `a<b>x</b>c` gives `x`. An element inside `pre` rendered on its own is minified.
* `auto_fix_unescaped_lt`, and `auto_fix_unexpected_endtag` with `auto_fix_unclosed_tag`, take quadratic time: each repair moves the whole text read so far.
* Rendering, cloning and dropping recurse once for each level of nesting, and the parser has no limit for it: a text that is long enough aborts the program, also if it is only parsed and dropped (`c68_never`).
