{
 "claims": [
  {
   "property": "C01",
   "status": "partial",
   "theorems": [
    "Rphtml.c01_panic_sites",
    "Rphtml.c01_no_panic_partial",
    "Rphtml.c01_chain_panic_needs_selfclosed_doctype",
    "Rphtml.c01_upgrade",
    "Rphtml.c01_sites_exact",
    "Rphtml.c01_exact"
   ],
   "note": "false as stated (panics in Findings). Proved: c01_exact gives, for each of the four sites that can panic, exactly the texts and options on which it does; simpler sufficient condition for no panic: not ending inside a start-tag name (or auto_fix_unclosed_tag), no / or quotes in a doctype, no <![; the weak link of parser.rs:1383 always points into the tree, so its expect holds"
  },
  {
   "property": "C02",
   "status": "partial",
   "theorems": [
    "Rphtml.c02_renderable_partial",
    "Rphtml.c02_exact"
   ],
   "note": "false for inputs ending in a start-tag name with auto_fix_unclosed_tag (tag without metadata, see Findings); c02_exact: rendering panics exactly for those, at the tag metadata, and gives a text for every other accepted input"
  },
  {
   "property": "C03",
   "status": "proved",
   "theorems": [
    "Rphtml.c03_agree",
    "Rphtml.c03_written",
    "Rphtml.c03_solid",
    "Rphtml.c03_same"
   ],
   "note": "c03_agree is the claim. c03_written is stronger: the input spells the parsed document (Spec.writtens), so whitespace, / and = differ only between the pieces of a tag, and names, values, texts and comments are verbatim."
  },
  {
   "property": "C04",
   "status": "proved",
   "theorems": [
    "Rphtml.c04_stable",
    "Rphtml.c04_stable_default",
    "Rphtml.c04_wellformed"
   ],
   "note": "default options as claimed; also for all options with the lt-fix and leading \"=\" off and texts unsplit, for inputs not ending in a start tag"
  },
  {
   "property": "C05",
   "status": "proved",
   "theorems": [
    "Rphtml.c05_roundtrip",
    "Rphtml.c05_document"
   ],
   "note": "well-formedness is Spec.wfDoc, a definition on plain documents independent of the parser; holds for every ParseOptions value"
  },
  {
   "property": "C06",
   "status": "proved",
   "theorems": [
    "Rphtml.c06_index"
   ],
   "note": ""
  },
  {
   "property": "C07",
   "status": "partial",
   "theorems": [
    "Rphtml.c07_links",
    "Rphtml.c07_links_partial",
    "Rphtml.c07_exact"
   ],
   "note": "full statement for auto_fix_unescaped_lt off; with that option a text that begins with a repaired '<' has no parent/root link (Findings). c07_exact, for all options: a child has both links unless it is a text whose first character in the input is '<', and then it has neither"
  },
  {
   "property": "C08",
   "status": "proved",
   "theorems": [
    "Rphtml.c08_tree"
   ],
   "note": ""
  },
  {
   "property": "C09",
   "status": "proved",
   "theorems": [
    "Rphtml.c09_positions"
   ],
   "note": ""
  },
  {
   "property": "C10",
   "status": "proved",
   "theorems": [
    "Rphtml.c10_spans"
   ],
   "note": "Without auto-fix options, every node of a parsed document satisfies Spec.nodeSpan: its begin/end positions delimit exactly the source text it came from. The source never sets end_at for start tags and doctypes, so for those only the beginning and the name are claimed; the end node of a raw-text element has an empty span directly behind its end tag."
  },
  {
   "property": "C11",
   "status": "proved",
   "theorems": [
    "Rphtml.c11_lookup"
   ],
   "note": "All options. Document order is the depth first traversal of the childs links."
  },
  {
   "property": "C12",
   "status": "partial",
   "theorems": [
    "Rphtml.c12_name_map",
    "Rphtml.c12_name_map_partial"
   ],
   "note": "Full statement for auto_fix_unclosed_tag = false. With it, an input ending inside an attribute name leaves an attribute with an empty name that is not in the table; all non-empty names are covered for all options."
  },
  {
   "property": "C13",
   "status": "partial",
   "theorems": [
    "Rphtml.c13_exact",
    "Rphtml.c13_balanced_partial"
   ],
   "note": "false as stated: a self-closed doctype closes the element around it (Findings). c13_exact is the exact statement for all options; c13_balanced_partial is the claim for documents without a self-closed doctype"
  },
  {
   "property": "C14",
   "status": "partial",
   "theorems": [
    "Rphtml.c14_childless_partial",
    "Rphtml.c14_every",
    "Rphtml.c14_filled",
    "Rphtml.c14_leaves"
   ],
   "note": "Full claim without auto_fix_unescaped_lt; with it void and raw-text elements can get one text child, which begins with &lt; (Findings), and nothing else. c14_every covers all options and also inputs that end inside a start tag (accepted by auto_fix_unclosed_tag), except inside its name, where the library leaves a tag without a name."
  },
  {
   "property": "C15",
   "status": "proved",
   "theorems": [
    "Rphtml.c15_raw",
    "Rphtml.c15_unterminated",
    "Rphtml.c15_last"
   ],
   "note": "For every text before (ending outside markup) and after, and every raw element with legal attributes: one document with a gap serves for all contents and end tags; rejected without end tag; after a finished document the element is the last node. For inputs not ending inside a start tag when auto_fix_unclosed_tag is on."
  },
  {
   "property": "C16",
   "status": "proved",
   "theorems": [
    "Rphtml.c16_comment",
    "Rphtml.c16_unterminated",
    "Rphtml.c16_cdata",
    "Rphtml.c16_last"
   ],
   "note": "Same shape as C15, for comments and CDATA sections."
  },
  {
   "property": "C17",
   "status": "proved",
   "theorems": [
    "Rphtml.c17_text_content",
    "Rphtml.c17_maximal"
   ],
   "note": "first half for all options; second half unless auto_fix_unexpected_endtag is on and auto_fix_unclosed_tag off"
  },
  {
   "property": "C18",
   "status": "proved",
   "theorems": [
    "Rphtml.c18_spaces"
   ],
   "note": "All options."
  },
  {
   "property": "C19",
   "status": "partial",
   "theorems": [
    "Rphtml.c19_all_partial",
    "Rphtml.c19_exact_partial",
    "Rphtml.c19_violated"
   ],
   "note": "False as stated (c19_violated: '<a> </a>' keeps its space under minify_spaces, '<a> </a><b></b>' loses it). c19_all_partial states exactly, for every option set, which whitespace-only texts stay Text (Spec.KeptBlank); c19_exact_partial is the simple rule without auto-fix options: those alone in an element with an end tag that is directly followed by a text or ends the document. Missing: only the independence claim itself, which is false."
  },
  {
   "property": "C20",
   "status": "partial",
   "theorems": [
    "Rphtml.c20_conservative_partial",
    "Rphtml.c20_joined_partial",
    "Rphtml.c20_default",
    "Rphtml.c20_loose"
   ],
   "note": "Same document (every node, attribute and text; not source positions) under more permissive options. False as stated when auto_fix_unclosed_tag is added to auto_fix_unexpected_endtag: a</b>c then gives one text instead of two. c20_joined_partial covers that pair up to the joining of neighbouring texts, unless auto_fix_unescaped_lt was on as well, where it is false (<br></b><1, example beside the theorem). c20_loose is for all pairs of options: accepted as a document that differs at most in where texts are split and in whether they stand inside or behind a void or raw-text element."
  },
  {
   "property": "C21",
   "status": "proved",
   "theorems": [
    "Rphtml.c21_unclosed",
    "Rphtml.c21_all_closed",
    "Rphtml.c21_rejected"
   ],
   "note": "The end tags added are those of the elements open at the end of the input, named by the state of the parser; texts ending inside a start tag are excluded (complete), see C01/C02."
  },
  {
   "property": "C22",
   "status": "partial",
   "theorems": [
    "Rphtml.c22_stray_partial",
    "Rphtml.c22_joined_partial",
    "Rphtml.c22_loose"
   ],
   "note": "Exact with auto_fix_unclosed_tag; without it a text may be split at the stray tag (shown by example), and the documents agree once neighbouring texts are joined, if auto_fix_unescaped_lt is off. With that repair on and auto_fix_unclosed_tag off the claim is false (example: <br></b><1); c22_loose: the documents then agree up to joining texts and taking them out of void and raw-text elements, unless a self-closed doctype has closed the document (false there, example)."
  },
  {
   "property": "C23",
   "status": "partial",
   "theorems": [
    "Rphtml.c23_escape_partial",
    "Rphtml.c23_void",
    "Rphtml.c23_place"
   ],
   "note": "c23_escape_partial: the same document as with &lt;, not directly after a void or raw-text element. c23_void: after a void element the repaired text becomes a child of it, the source text is the one with &lt;. c23_place: anywhere, the document is the one with &lt; up to taking texts out of void and raw-text elements, and is read exactly when that one is. False after a raw-text element (example): the text is rendered before its end tag. Excluded: documents closed by a self-closed doctype (example)."
  },
  {
   "property": "C24",
   "status": "proved",
   "theorems": [
    "Rphtml.c24_errors_prefix_stable",
    "Rphtml.c24_read_errors_prefix_stable"
   ],
   "note": ""
  },
  {
   "property": "C25",
   "status": "proved",
   "theorems": [
    "Rphtml.c25_positions",
    "Rphtml.c25_region_spec"
   ],
   "note": "Every error of Doc.parse has an index inside the input and the line and column of that index; the region function meets the same description for all contexts and indices."
  },
  {
   "property": "C26",
   "status": "proved",
   "theorems": [
    "Rphtml.c26_parse_file",
    "Rphtml.c26_region",
    "Rphtml.c26_first_line"
   ],
   "note": "For every file text and option value: same document, same error kind and index, or same panic as Doc.parse of the text with CRLF turned into LF and a final newline. Reading the file and decoding UTF-8 is not modelled. The line and column of the error differ: c26_region says that they are computed in the text read so far without its line ends, so every error of a file without lone carriage returns is reported in the first line (c26_first_line)."
  },
  {
   "property": "C27",
   "status": "proved",
   "theorems": [
    "Rphtml.c27_buildText_minify",
    "Rphtml.c27_sublist",
    "Rphtml.c27_visible",
    "Rphtml.c27_words",
    "Rphtml.c27_head",
    "Rphtml.c27_noDoubleWs",
    "Rphtml.c27_fixed",
    "Rphtml.c27_idempotent",
    "Rphtml.c27_pre_verbatim"
   ],
   "note": ""
  },
  {
   "property": "C28",
   "status": "partial",
   "theorems": [
    "Rphtml.c28_sublist",
    "Rphtml.c28_words_partial",
    "Rphtml.c28_plain",
    "Rphtml.c28_cut",
    "Rphtml.c28_exact"
   ],
   "note": "The literal claim fails on \"a &gt; b\" (counterexample in Props/DecodeMin.lean). c28_exact says for every text and codec which whitespace is removed (plain whitespace whose last plain character before it is whitespace, references not counting) and that words are lost exactly if all characters between two visible ones are removed. Sufficient: no & directly follows white space."
  },
  {
   "property": "C29",
   "status": "partial",
   "theorems": [
    "Rphtml.c29_scoped_partial",
    "Rphtml.c29_parsed_partial",
    "Rphtml.c29_exact"
   ],
   "note": "Fails for nested or self-closed pre (counterexamples in Props/Pre.lean). Proved for all trees and parsed documents whose pre elements are neither nested nor self-closed; c29_exact says for every tree which texts are collapsed: all but those after a pre start tag that no pre end tag has followed."
  },
  {
   "property": "C30",
   "status": "proved",
   "theorems": [
    "Rphtml.c30_remove_comment",
    "Rphtml.c30_root"
   ],
   "note": "c30_root: a comment that is rendered itself."
  },
  {
   "property": "C31",
   "status": "proved",
   "theorems": [
    "Rphtml.c31_lowercase"
   ],
   "note": ""
  },
  {
   "property": "C32",
   "status": "proved",
   "theorems": [
    "Rphtml.c32_remove_endtag_space"
   ],
   "note": ""
  },
  {
   "property": "C33",
   "status": "partial",
   "theorems": [
    "Rphtml.c33_unquoted",
    "Rphtml.c33_reread_partial",
    "Rphtml.c33_exact"
   ],
   "note": "False as stated (values with spaces, empty values, values beginning with a slash). Quote removal is exactly dropping quotes where no quote is needed (all trees, all options). c33_exact: for every parsed document (no auto-fix, no keys beginning with '=', doctypes with attributes) the rendering without quotes re-reads as the same document up to quotes if and only if no attribute needs its quotes."
  },
  {
   "property": "C34",
   "status": "partial",
   "theorems": [
    "Rphtml.c34_partial",
    "Rphtml.c34_exact",
    "Rphtml.c34_repaired",
    "Rphtml.c34_parsed"
   ],
   "note": "false as stated (always_close_void ignores ordinary void tags, see Findings); proved: it renders exactly as if the tags repaired by auto_fix_unclosed_tag were self-closed; those tags are the elements open at the end, one in the other; so without that option always_close_void has no effect on any parsed document"
  },
  {
   "property": "C35",
   "status": "proved",
   "theorems": [
    "Rphtml.c35_inner_html"
   ],
   "note": ""
  },
  {
   "property": "C36",
   "status": "proved",
   "theorems": [
    "Rphtml.c36_all_options",
    "Rphtml.c36_inner_text"
   ],
   "note": "c36_all_options: for all render options, where minify_spaces, decode_entity and encode_content change the texts as in C61. c36_inner_text: the same without these changes, for minify_spaces = encode_content = false."
  },
  {
   "property": "C37",
   "status": "proved",
   "theorems": [
    "Rphtml.c37_clone"
   ],
   "note": "Every heap with links into itself and every node whose subtree is a tree without a position before the node. Copied nodes get a root link to the root of the original (see Findings), so only parent and sibling links are claimed."
  },
  {
   "property": "C38",
   "status": "proved",
   "theorems": [
    "Rphtml.c38_clone_total"
   ],
   "note": "Every accepted input, all options, every node of the tree and every end tag."
  },
  {
   "property": "C39",
   "status": "proved",
   "theorems": [
    "Rphtml.c39_is_document",
    "Rphtml.c39_not_root"
   ],
   "note": ""
  },
  {
   "property": "C40",
   "status": "proved",
   "theorems": [
    "Rphtml.c40_match_iff",
    "Rphtml.c40_same_iff",
    "Rphtml.c40_equivalence"
   ],
   "note": ""
  },
  {
   "property": "C41",
   "status": "proved",
   "theorems": [
    "Rphtml.c41_non_character",
    "Rphtml.c41_value_char",
    "Rphtml.c41_key_char"
   ],
   "note": ""
  },
  {
   "property": "C42",
   "status": "proved",
   "theorems": [
    "Rphtml.c42_encode_inert",
    "Rphtml.c42_encode_other",
    "Rphtml.c42_node_body"
   ],
   "note": ""
  },
  {
   "property": "C43",
   "status": "partial",
   "theorems": [
    "Rphtml.c43_void",
    "Rphtml.c43_cdata",
    "Rphtml.c43_plain_lower",
    "Rphtml.c43_case_partial",
    "Rphtml.c43_violated",
    "Rphtml.c43_exact"
   ],
   "note": "the pinned code violates the claim for title/textarea in upper case (c43_violated) c43_exact gives the exact condition on every name and node kind: not void, `title`/`textarea` written in lower case only with text, CDATA only under svg/math in any case."
  },
  {
   "property": "C44",
   "status": "partial",
   "theorems": [
    "Rphtml.c44_selfClosed_partial",
    "Rphtml.c44_exact"
   ],
   "note": "false for end tags spelled differently from their start tags and after a self-closed doctype (Findings); proved for all other documents; c44_exact says for all documents that a self-closed tag is void or follows the start tag of an svg or math element that no end tag of the same spelling has followed"
  },
  {
   "property": "C45",
   "status": "proved",
   "theorems": [
    "Rphtml.c45_panic_iff"
   ],
   "note": ""
  },
  {
   "property": "C46",
   "status": "proved",
   "theorems": [
    "Rphtml.c46_attributes",
    "Rphtml.c05_document"
   ],
   "note": "any whitespace between attributes; c46_attributes at the start of a document, c05_document anywhere in a document"
  },
  {
   "property": "C47",
   "status": "proved",
   "theorems": [
    "Rphtml.c47_append"
   ],
   "note": "Hypotheses are shown to be needed by examples."
  },
  {
   "property": "C48",
   "status": "proved",
   "theorems": [
    "Rphtml.c48_reread",
    "Rphtml.c48_parsed"
   ],
   "note": "c48_reread is for every tree of a well-formed document, c48_parsed for every accepted text under the conditions of C04. The other options are excluded: decode_entity and encode_content change what the texts mean, inner_html depends on the chosen element, always_close_void is settled by c34_exact. The three ways in which lower-casing breaks a document are shown beside the theorem."
  },
  {
   "property": "C49",
   "status": "proved",
   "theorems": [
    "Rphtml.c49_grammar",
    "Rphtml.c49_accepted",
    "Rphtml.c49_spelled",
    "Rphtml.c49_unambiguous"
   ],
   "note": "The grammar (Spec/Grammar.lean) is an inductive relation on texts for the inside of a tag and a structural relation for nodes. The three repair options are off in c49_grammar and c49_accepted; they are the default. c49_spelled and c49_unambiguous need no hypothesis on the options."
  },
  {
   "property": "C50",
   "status": "proved",
   "theorems": [
    "Rphtml.c50_clone_value"
   ],
   "note": "Strong references are counted over the childs lists and end tags of all nodes; the copy is freed after its value has been moved out, and a weak link to it no longer upgrades."
  },
  {
   "property": "C51",
   "status": "proved",
   "theorems": [
    "Rphtml.c51_viable"
   ],
   "note": "An equivalence for every text and every option set. The two exceptions are stated in terms of running the parser on a prefix. 'maybeEnd' is a comparison of names only."
  },
  {
   "property": "C52",
   "status": "proved",
   "theorems": [
    "Rphtml.c52_errors",
    "Rphtml.c52_places"
   ],
   "note": "An equivalence: kind and index of every error in terms of the text, all texts and options. The conditions are two inductive predicates (Spec/Errors.lean); beginAt of an open element and of the last node are read off the parser state and tied to the text by c52_places."
  },
  {
   "property": "C53",
   "status": "proved",
   "theorems": [
    "Rphtml.c53_reads",
    "Rphtml.c53_unique",
    "Rphtml.c53_scan",
    "Rphtml.c53_inside",
    "Rphtml.c53_doc",
    "Rphtml.c53_accepts",
    "Rphtml.c53_render"
   ],
   "note": "Spec.Scan, Spec.Inside and Spec.Result do not mention the parser; c53_doc leaves out texts that end inside the name of a start tag, which c53_accepts and C02 cover."
  },
  {
   "property": "C54",
   "status": "proved",
   "theorems": [
    "Rphtml.c54_accepts",
    "Rphtml.c54_errors",
    "Rphtml.c54_panics",
    "Rphtml.c54_outcome"
   ],
   "note": "Spec.Accepts, Spec.Errs and Spec.Crashes are stated on Spec.Scan and Spec.Inside; no parser state occurs in them. The positions of open elements and of the last begun node are those of OpenedAt and LastAt, also on texts only."
  },
  {
   "property": "C55",
   "status": "proved",
   "theorems": [
    "Rphtml.c55_parse",
    "Rphtml.c55_clone",
    "Rphtml.c55_clone_parsed",
    "Rphtml.c55_render"
   ],
   "note": "The borrows of each function, with their scopes, are listed in Model/Borrow.lean by reading the source; the cells are a node, the tag data of a node, the id table and the document. Borrows a caller keeps alive while calling in are outside."
  },
  {
   "property": "C56",
   "status": "proved",
   "theorems": [
    "Rphtml.c56_idempotent",
    "Rphtml.c56_minify",
    "Rphtml.c56_document"
   ],
   "note": "c56_idempotent: without minify_spaces, formatting twice is formatting once. c56_minify: with it, three times is twice; once is not enough (Findings). c56_document: what is written is the source text of Spec.formatted, a function of the document as a plain value."
  },
  {
   "property": "C57",
   "status": "proved",
   "theorems": [
    "Rphtml.c57_position",
    "Rphtml.c57_message",
    "Rphtml.c57_quotes"
   ],
   "note": ""
  },
  {
   "property": "C58",
   "status": "proved",
   "theorems": [
    "Rphtml.c58_output",
    "Rphtml.c58_nodes",
    "Rphtml.c58_depth",
    "Rphtml.c58_deep",
    "Rphtml.c58_options",
    "Rphtml.c58_render"
   ],
   "note": "Linear bounds on the nodes, the rendered text and the nesting, and texts that reach the bound on the nesting. The number of nodes includes end tags, also dropped ones and added ones. The third theorem leaves out texts that end inside the name of a start tag (see C02). c58_options and c58_render assume of the codec that decoding lengthens no text and that no entity is longer than K."
  },
  {
   "property": "C59",
   "status": "proved",
   "theorems": [
    "Rphtml.c59_spans",
    "Rphtml.c59_dropped"
   ],
   "note": "c59_dropped: the remaining end-tag nodes are the dropped ones, which no element refers to."
  },
  {
   "property": "C60",
   "status": "proved",
   "theorems": [
    "Rphtml.c60_rests",
    "Rphtml.c60_while_parsing",
    "Rphtml.c60_parsed",
    "Rphtml.c60_no_leak",
    "Rphtml.c60_links",
    "Rphtml.c60_one_handle",
    "Rphtml.c60_clone"
   ],
   "note": "Spec.Frees frees unreferenced nodes one by one in any order; drop of deep trees is recursive in the program and its stack is not modelled."
  },
  {
   "property": "C61",
   "status": "proved",
   "theorems": [
    "Rphtml.c61_written",
    "Rphtml.c61_reread",
    "Rphtml.c61_parsed",
    "Rphtml.c61_encode"
   ],
   "note": "What is written: for every shaped tree. Read back exactly if no decoded text contains '<': for every well-formed tree and every parsed document (conditions on parse options and doctypes as in C04/C48); the codec is arbitrary, with encode_content it has to encode '<'."
  },
  {
   "property": "C62",
   "status": "proved",
   "theorems": [
    "Rphtml.c62_written",
    "Rphtml.c62_only",
    "Rphtml.c62_reread",
    "Rphtml.c62_parsed",
    "Rphtml.c62_default"
   ],
   "note": "c62_parsed and c62_default: conditions on parse options and doctypes as in C04; without svg and math, because self-closing tags and CDATA sections cannot stand outside them."
  },
  {
   "property": "C63",
   "status": "proved",
   "theorems": [
    "Rphtml.c63_mended",
    "Rphtml.c63_every"
   ],
   "note": "Extends C04 to all parse options. Spec.mended says where the texts go; reads_strict: the same options without the auto-fixes qualify. A text that ends inside a void start tag is repaired into one that is rejected (Findings). c63_every covers the texts that end inside a start tag behind its name, too, if the element is not void and no attribute name is unfinished."
  },
  {
   "property": "C64",
   "status": "proved",
   "theorems": [
    "Rphtml.c64_linear",
    "Rphtml.c64_quadratic",
    "Rphtml.c64_slow_lt",
    "Rphtml.c64_slow_ends",
    "Rphtml.c64_iff",
    "Rphtml.c64_written",
    "Rphtml.c64_held",
    "Rphtml.c64_end"
   ],
   "note": "About the cost model of Model/Cost.lean, which charges the work of each handler beside the functional model. Not counted: growth of vectors and hash maps, allocation, dropping. c64_iff: linear exactly if no repair can take up a finished text again. c64_written, c64_end and c64_held tie the cost model to the functional one: no step, and no eof, writes a character that it is not charged for."
  },
  {
   "property": "C65",
   "status": "proved",
   "theorems": [
    "Rphtml.c65_render",
    "Rphtml.c65_written",
    "Rphtml.c65_clone"
   ],
   "note": "About the cost model of Model/RenderCost.lean. htmlentity is charged its input and what it appends; growth of vectors, allocation and dropping are not counted. Texts that end inside a tag name (C53) are left out."
  },
  {
   "property": "C66",
   "status": "proved",
   "theorems": [
    "Rphtml.c66_text",
    "Rphtml.c66_cases",
    "Rphtml.c66_line_panic",
    "Rphtml.c66_early",
    "Rphtml.c66_path"
   ],
   "note": "UTF-8 decoding is that of the Lean library; str::from_utf8 and BufRead::lines are taken to work as documented. The file system is a parameter."
  },
  {
   "property": "C67",
   "status": "proved",
   "theorems": [
    "Rphtml.c67_prev",
    "Rphtml.c67_child",
    "Rphtml.c67_none"
   ],
   "note": "Which nodes have a prev link and where it leads, for every parsed document."
  },
  {
   "property": "C68",
   "status": "proved",
   "theorems": [
    "Rphtml.c68_render",
    "Rphtml.c68_clone",
    "Rphtml.c68_drop",
    "Rphtml.c68_enough",
    "Rphtml.c68_enough_clone",
    "Rphtml.c68_never"
   ],
   "note": "Exact condition for a stack overflow of build_tree, clone_node_with and of the drop of a node; an upper bound by the length of the text, and texts that overflow any given stack. A frame is one recursive call; nodes that id_tags holds too are counted as if they were dropped with the tree."
  },
  {
   "property": "C69",
   "status": "proved",
   "theorems": [
    "Rphtml.c69_record",
    "Rphtml.c69_void",
    "Rphtml.c69_quote",
    "Rphtml.c69_added",
    "Rphtml.c69_written"
   ],
   "note": "The flags of TagMeta and Attr in every parsed document. self_closed is part of C53."
  },
  {
   "property": "C70",
   "status": "proved",
   "theorems": [
    "Rphtml.c70_trim",
    "Rphtml.c70_equal",
    "Rphtml.c70_raw",
    "Rphtml.c70_comment",
    "Rphtml.c70_parse",
    "Rphtml.c70_file",
    "Rphtml.c70_fits",
    "Rphtml.c70_decode"
   ],
   "note": "The loops of the code that index, slice, split or subtract are modelled with their index variables (Model/Index.lean; none = out of bounds). For all inputs they stay in bounds and agree with the list functions that the rest of the model uses; for parse_content_tag this needs two characters to detect, which every reachable state has (c70_parse, c70_file). Positions and child indices are bounded by the text."
  },
  {
   "property": "C71",
   "status": "proved",
   "theorems": [
    "Rphtml.c71_tree",
    "Rphtml.c71_build",
    "Rphtml.c71_exact",
    "Rphtml.c71_cycle",
    "Rphtml.c71_parsed"
   ],
   "note": "build_tree and build are modelled a second time on the heap (Model/RenderHeap.lean), with the accumulator and the room on the stack, and compared with the tree model that the other rendering properties use. c71_exact and c71_cycle are for inner_html and inner_text off, where build does not choose the target from the children; c71_build and c71_parsed are for all options."
  },
  {
   "property": "C72",
   "status": "proved",
   "theorems": [
    "Rphtml.c72_insert",
    "Rphtml.c72_remove",
    "Rphtml.c72_local",
    "Rphtml.c72_allow",
    "Rphtml.c72_cdata"
   ],
   "note": "Edits are the relation Spec.Inserted between plain documents; the theorems are about rendering the edited tree and parsing the text. Documents with a doctype without attributes are left out, as in C04."
  },
  {
   "property": "C73",
   "status": "proved",
   "theorems": [
    "Rphtml.c73_survives",
    "Rphtml.c73_replace",
    "Rphtml.c73_text",
    "Rphtml.c73_raw",
    "Rphtml.c73_attr"
   ],
   "note": "Default rendering. Changes are the relation Spec.Replaced between plain documents; the theorems are about rendering the changed tree and parsing the text. Documents with a doctype without attributes are left out, as in C04."
  },
  {
   "property": "C74",
   "status": "proved",
   "theorems": [
    "Rphtml.c74_exact",
    "Rphtml.c74_fragment"
   ],
   "note": "Default rendering. Insertion is the relation Spec.Spliced between plain documents. Documents with a doctype without attributes are left out, as in C04."
  },
  {
   "property": "C75",
   "status": "proved",
   "theorems": [
    "Rphtml.c75_same",
    "Rphtml.c75_accepted",
    "Rphtml.c75_rejected",
    "Rphtml.c75_linear",
    "Rphtml.c75_quadratic",
    "Rphtml.c75_slow_lt",
    "Rphtml.c75_slow_ends",
    "Rphtml.c75_iff"
   ],
   "note": "Work counted as in C64, plus reading and copying lines; opening the file, BufReader blocks and the search for line ends are not counted."
  },
  {
   "property": "C76",
   "status": "proved",
   "theorems": [
    "Rphtml.c76_edits",
    "Rphtml.c76_last",
    "Rphtml.c76_reach"
   ],
   "note": "Edits are stated about the trees that are rendered (Spec.SafeEdits); edits that leave another svg or math element open than before are not covered. Doctypes must have attributes and not be self-closed, as in C72."
  }
 ]
}