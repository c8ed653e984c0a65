{"id": "C01", "title": "Parsing never panics", "statement": "Doc::parse returns Ok or Err on every input; it never aborts the thread by a failed unwrap/expect/index/unreachable. (The pinned code violates this on three classes of input; the exact set of panic sites that can fire is itself part of the claim.)", "quantifier": "every input string and every ParseOptions value", "why_tests_cant": "the panic sites are guarded by state set up arbitrarily many characters earlier; tests only sample inputs", "anchors": ["src/parser.rs: Doc::parse, Doc::next, Doc::eof, Doc::add_new_node, parse_exclamation_begin, parse_tagend, parse_tag_wait"]}
{"id": "C02", "title": "A successfully parsed document can always be rendered", "statement": "If Doc::parse returns Ok, DocHolder::render with inner_html = false terminates without panicking: every node carries the content / metadata that rendering unwraps, and the node graph is a finite tree.", "quantifier": "every input string, every ParseOptions value, every RenderOptions value with inner_html = false, every entity codec", "why_tests_cant": "depends on an invariant over every node of every reachable tree", "anchors": ["src/parser.rs: Node::build_node, Node::build_tree, Node::build, DocHolder::render, Doc::eof, Doc::fix_unclosed_tag"]}
{"id": "C03", "title": "Rendering keeps every significant character in order", "statement": "With no auto-fix option, if parsing succeeds then default rendering reproduces the input's characters, in order, except for ASCII whitespace, '/' and '=' (which are only normalised inside tags) and for the letter case of the CDATA keyword.", "quantifier": "every input string, every ParseOptions value whose auto_fix_* flags are off", "why_tests_cant": "a single dropped, duplicated or reordered character in some unsampled state would falsify it", "anchors": ["src/parser.rs: Doc::parse, DocHolder::render, parse_* handlers, TagMeta::attrs_to_string"]}
{"id": "C04", "title": "Rendering is a fixed point of parse-then-render", "statement": "With default options, if parsing s succeeds and gives output r, then parsing r succeeds and renders to r again (canonical form is stable), for documents without an attribute-less or self-closed doctype.", "quantifier": "every input string", "why_tests_cant": "quantifies over all inputs and composes the parser twice", "anchors": ["src/parser.rs: Doc::parse, DocHolder::render, Attr::build"]}
{"id": "C05", "title": "Round trip from trees", "statement": "For every well-formed document tree, parsing its default rendering succeeds and yields the same tree (node types up to the whitespace-text marker, names, attributes, quotes, contents, end tags, child order).", "quantifier": "every well-formed tree: any depth, width, names, attributes and contents", "why_tests_cant": "unbounded recursive structure", "anchors": ["src/parser.rs: Doc::parse, Node::build_tree, TagMeta, Attr"]}
{"id": "C06", "title": "Child index equals position", "statement": "In every parsed document, node.index equals the node's position in its parent's childs list.", "quantifier": "every input, every ParseOptions value, every node", "why_tests_cant": "must hold for every node of every tree, including the auto-fix paths that bypass add_new_node", "anchors": ["src/parser.rs: Doc::add_new_node, Doc::fix_unescaped_lt, Node.index"]}
{"id": "C07", "title": "Parent and root links", "statement": "In every parsed document each child's parent link is the node whose childs list holds it, its root link is the document root, and a tag's end_tag links back to that tag.", "quantifier": "every input, every ParseOptions value, every node", "why_tests_cant": "structural invariant over all reachable heaps", "anchors": ["src/parser.rs: Doc::add_new_node, Doc::fix_unescaped_lt, parse_tagend, parse_content_tag, Doc::fix_unclosed_tag"]}
{"id": "C08", "title": "Parsed documents are trees", "statement": "In every parsed document no node occurs twice: each node other than the root is in exactly one childs list at one position, nobody owns the root, and everything is reachable from the root, so traversal terminates and document order is creation order.", "quantifier": "every input, every ParseOptions value", "why_tests_cant": "sharing or a cycle anywhere would break it; Rc gives no such guarantee", "anchors": ["src/parser.rs: Doc::add_new_node, Doc::fix_unescaped_lt, Node.childs"]}
{"id": "C09", "title": "Node positions are sane", "statement": "Every node of a parsed document has begin_at <= end_at <= number of characters (the end node of a raw-text tag included), every descendant begins at or after its ancestor, siblings begin in strictly increasing order, and the root ends at the input length.", "quantifier": "every input, every ParseOptions value, every node", "why_tests_cant": "arithmetic invariant over all executions", "anchors": ["src/parser.rs: Doc::next, Doc::set_tag_end_info, Doc::eof, Node.begin_at, Node.end_at"]}
{"id": "C10", "title": "Node spans point at their source", "statement": "With no auto-fix option: for every text node the input slice [begin_at, end_at) is exactly its content; for a comment / CDATA it is the delimited source text; every tag and doctype starts at a '<'.", "quantifier": "every input string, every node", "why_tests_cant": "off-by-one errors at unsampled positions", "anchors": ["src/parser.rs: parse_text, parse_comment_or_cdata, Doc::set_tag_end_info, Node.begin_at, Node.end_at"]}
{"id": "C11", "title": "Lookup by id", "statement": "get_element_by_id(x) returns a node iff some node of the document has an attribute whose ASCII-lowercased key is 'id' and whose value is x, and then it returns the last such node in document order.", "quantifier": "every input, every ParseOptions value, every query string", "why_tests_cant": "every combination of nodes and attributes", "anchors": ["src/parser.rs: DocHolder::get_element_by_id, Doc::set_tag_attr_value, Attr::check_if_id"]}
{"id": "C12", "title": "Attribute name index", "statement": "For every tag of a parsed document lc_name_map maps exactly the lowercased names of its keyed attributes, each to the index of the first attribute with that name.", "quantifier": "every input, every tag, every attribute list", "why_tests_cant": "unbounded attribute lists with duplicates and case variants", "anchors": ["src/parser.rs: Doc::set_tag_attr_key, TagMeta.lc_name_map"]}
{"id": "C13", "title": "Accepted documents are balanced", "statement": "With no auto-fix option, in an accepted document every tag that is neither void nor self-closed has an end tag whose whitespace-trimmed name equals the start name up to ASCII case (exactly, if case_sensitive_tagname), and void / self-closed tags have none.", "quantifier": "every input, every ParseOptions value without auto-fix, every tag", "why_tests_cant": "unbounded nesting", "anchors": ["src/parser.rs: parse_tagend, parse_content_tag, Doc::eof, is_equal_chars_ignore_case"]}
{"id": "C14", "title": "Void and raw-text elements have no children", "statement": "In a parsed document void elements have neither children nor content, and script/style/title/textarea elements have no child nodes; only doctype, comment, CDATA, text and spaces nodes are leaves of the other kinds.", "quantifier": "every input, every ParseOptions value, every node", "why_tests_cant": "an invariant of all executions; auto-fix paths attach nodes by a different route", "anchors": ["src/parser.rs: is_void_tag, Doc::check_tag_type_do, Doc::fix_unescaped_lt, parse_content_tag"]}
{"id": "C15", "title": "Raw-text elements end at the first matching end tag", "statement": "After the start tag of script/style/title/textarea the element's content is everything up to the first '</name' (ASCII-case-insensitive unless case_sensitive_tagname) followed by optional whitespace and '>', and nothing inside it is interpreted.", "quantifier": "every body string and continuation", "why_tests_cant": "needs 'first occurrence' over all strings", "anchors": ["src/parser.rs: parse_content_tag, Doc::check_tag_type_do"]}
{"id": "C16", "title": "Comments end at the first terminator", "statement": "After '<!--' the comment's content is everything up to the first '-->' (the code requires the content to be non-empty), and nothing inside is interpreted.", "quantifier": "every body string and continuation", "why_tests_cant": "needs 'first occurrence' over all strings", "anchors": ["src/parser.rs: parse_comment_or_cdata, parse_exclamation_begin"]}
{"id": "C17", "title": "Text nodes are maximal, non-empty and '<'-free", "statement": "Every text or spaces node of a parsed document has non-empty content without '<'; with no auto-fix option no two text nodes are adjacent siblings.", "quantifier": "every input, every node", "why_tests_cant": "holds for all trees including those produced by merging in auto-fix mode", "anchors": ["src/parser.rs: parse_wait, parse_text, Doc::fix_unescaped_lt, Doc::eof"]}
{"id": "C18", "title": "Spaces nodes are whitespace", "statement": "Every node typed SpacesBetweenTag in a parsed document consists only of ASCII whitespace, so minify_spaces never deletes visible text through that type.", "quantifier": "every input, every ParseOptions value", "why_tests_cant": "the classification is made by a deferred mutation of an earlier node", "anchors": ["src/parser.rs: Doc::set_text_spaces_between, parse_text, Doc::eof, Doc::check_textnode"]}
{"id": "C19", "title": "Whitespace-only element content survives minification", "statement": "Whether the whitespace-only content of an element is kept by minify_spaces depends only on that element, not on what follows it in the document.", "quantifier": "every pair of documents", "why_tests_cant": "relates two executions", "anchors": ["src/parser.rs: Doc::set_text_spaces_between, parse_tagend"]}
{"id": "C20", "title": "Permissive options are conservative", "statement": "If a document parses with given options, turning on allow_self_closing, allow_attr_key_starts_with_equal_sign, auto_fix_unclosed_tag, auto_fix_unexpected_endtag or auto_fix_unescaped_lt leaves the result unchanged (same tree, same rendering).", "quantifier": "every input and every pair of options ordered by permissiveness", "why_tests_cant": "relates two executions of unbounded length", "anchors": ["src/parser.rs: ParseOptions, parse_wait, parse_unkown_tag, parse_tagend, Doc::eof"]}
{"id": "C21", "title": "auto_fix_unclosed_tag closes the open tags", "statement": "With auto_fix_unclosed_tag, a document ending outside of markup parses to a document that renders like the input followed by the end tags of the open elements, innermost first.", "quantifier": "every input", "why_tests_cant": "unbounded nesting depth", "anchors": ["src/parser.rs: Doc::eof, Doc::fix_unclosed_tag"]}
{"id": "C22", "title": "auto_fix_unexpected_endtag ignores stray end tags", "statement": "With auto_fix_unexpected_endtag, a stray end tag leaves the tree as it was, whatever precedes and follows.", "quantifier": "every prefix, stray name and continuation", "why_tests_cant": "relates two executions", "anchors": ["src/parser.rs: parse_tagend, parse_wait"]}
{"id": "C23", "title": "auto_fix_unescaped_lt escapes the bracket in place", "statement": "With auto_fix_unescaped_lt, a '<' that cannot start markup is rendered as '&lt;' at the place where it occurred.", "quantifier": "every prefix and continuation", "why_tests_cant": "depends on the kind of the preceding node in all reachable states", "anchors": ["src/parser.rs: Doc::fix_unescaped_lt, parse_unkown_tag"]}
{"id": "C24", "title": "Parse errors are prefix-stable", "statement": "If the parser rejects while reading a prefix (i.e. not merely because the input ended), every extension of that prefix is rejected with the same error kind and the same line, column and index.", "quantifier": "every prefix and every extension", "why_tests_cant": "quantifies over all continuations", "anchors": ["src/parser.rs: Doc::parse, create_parse_error; src/position.rs: CodeRegion::from_context_index"]}
{"id": "C25", "title": "Error positions are real positions", "statement": "The reported region is the one determined by the reported character index: index lies in the input, line = 1 + number of line breaks (\\r\\n counted once) among the characters up to and including the index, col = number of characters after the last line break.", "quantifier": "every input and index", "why_tests_cant": "all mixtures of \\r, \\n, \\r\\n", "anchors": ["src/position.rs: CodeRegion::from_context_index", "src/parser.rs: create_parse_error"]}
{"id": "C26", "title": "parse_file agrees with parse", "statement": "Doc::parse_file on a readable UTF-8 file gives the same tree (or error kind and index) as Doc::parse on the file's text with CRLF normalised to LF and a final newline added if missing.", "quantifier": "every file content and ParseOptions value", "why_tests_cant": "all line structures", "anchors": ["src/parser.rs: Doc::parse_file"]}
{"id": "C27", "title": "minify_spaces only removes redundant whitespace", "statement": "minify_spaces (without decode_entity) turns each text into one with no two adjacent whitespace characters, preserving the sequence of non-whitespace characters and every word boundary; it is idempotent; inside pre the text is verbatim.", "quantifier": "every text content, every tree", "why_tests_cant": "all strings", "anchors": ["src/parser.rs: Node::build_node (Text, SpacesBetweenTag)"]}
{"id": "C28", "title": "minify_spaces with decode_entity", "statement": "minify_spaces with decode_entity never removes whitespace that separates two visible characters.", "quantifier": "every text content, every entity codec", "why_tests_cant": "all strings", "anchors": ["src/parser.rs: Node::build_node lines 598-637"]}
{"id": "C29", "title": "pre protection is scoped", "statement": "minify_spaces leaves text inside a pre element verbatim and does minify text outside of every pre element.", "quantifier": "every tree", "why_tests_cant": "render state is threaded through the whole traversal", "anchors": ["src/parser.rs: RenderStatus.is_in_pre, Node::build_node"]}
{"id": "C30", "title": "remove_comment prunes exactly the comments", "statement": "Rendering with remove_comment equals rendering the tree with all comment nodes deleted, for every combination of the other options.", "quantifier": "every tree, every RenderOptions value", "why_tests_cant": "unbounded trees", "anchors": ["src/parser.rs: Node::build_node (Comment), Node::build_tree"]}
{"id": "C31", "title": "lowercase_tagname only changes tag names", "statement": "Rendering with lowercase_tagname equals rendering the tree in which all start and end tag names are ASCII-lowercased, for every combination of the other options.", "quantifier": "every tree, every RenderOptions value", "why_tests_cant": "unbounded trees", "anchors": ["src/parser.rs: Node::build_node (Tag, TagEnd)"]}
{"id": "C32", "title": "remove_endtag_space only trims end tags", "statement": "Rendering with remove_endtag_space equals rendering the tree whose end tag names are right-trimmed, for every combination of the other options.", "quantifier": "every tree, every RenderOptions value", "why_tests_cant": "unbounded trees", "anchors": ["src/parser.rs: chars_trim_end, Node::build_node (TagEnd)"]}
{"id": "C33", "title": "remove_attr_quote keeps attributes intact", "statement": "Rendering with remove_attr_quote yields markup that parses back to the same attribute names and values.", "quantifier": "every attribute list", "why_tests_cant": "all attribute values", "anchors": ["src/parser.rs: Attr::build, Attr::need_quoted_char, TagMeta::attrs_to_string"]}
{"id": "C34", "title": "always_close_void closes void elements", "statement": "With always_close_void every void element is rendered self-closed, and no other element is affected.", "quantifier": "every tree", "why_tests_cant": "all trees", "anchors": ["src/parser.rs: Node::build_node line 688, RenderOptions.always_close_void"]}
{"id": "C35", "title": "inner_html is the outer html without the tag itself", "statement": "For every tag node, outer rendering = start tag ++ inner_html rendering ++ end tag, for every combination of the other options.", "quantifier": "every tree, every RenderOptions value", "why_tests_cant": "unbounded trees", "anchors": ["src/parser.rs: Node::build, Node::build_tree, RenderStatus"]}
{"id": "C36", "title": "Inner text is exactly the text", "statement": "render_text of a tag is the concatenation, in document order, of its text, spaces and raw-text contents (CDATA sections and doctypes verbatim), without tags and comments.", "quantifier": "every tree", "why_tests_cant": "unbounded trees", "anchors": ["src/parser.rs: Node::build (inner_text), DocHolder::render_text"]}
{"id": "C37", "title": "Deep clone is faithful", "statement": "clone_node returns a fresh tree with the same types, contents, metadata and child structure, rendering identically under every option, with all positions rebased by the node's begin_at, parent links inside the copy and the copied root detached.", "quantifier": "every tree", "why_tests_cant": "unbounded trees", "anchors": ["src/parser.rs: Node::clone_node, Node::clone_node_with, Node::clone_node_without_childs"]}
{"id": "C38", "title": "Deep clone is independent and total on parsed documents", "statement": "Cloning any node of a parsed document never underflows, shares no node with the original, and leaves the original document unchanged.", "quantifier": "every parsed document, every node", "why_tests_cant": "needs the position invariant of all parses", "anchors": ["src/parser.rs: Node::clone_node_without_childs (usize subtraction)"]}
{"id": "C39", "title": "is_document classification", "statement": "is_document returns (true, ok) iff the node is the root and some child tag is named html ignoring case; ok iff it is the only tag and every other child is a comment, doctype or spaces; a non-document reports ok = true.", "quantifier": "every child list", "why_tests_cant": "all child lists", "anchors": ["src/parser.rs: Node::is_document"]}
{"id": "C40", "title": "Name comparison is ASCII case folding", "statement": "End tag matching is an equivalence: two names match iff they are equal after ASCII lowercasing, and are reported totally same iff equal.", "quantifier": "every pair of strings", "why_tests_cant": "all strings over Unicode", "anchors": ["src/parser.rs: is_equal_chars_ignore_case, is_equal_chars"]}
{"id": "C41", "title": "Character class helpers", "statement": "is_non_character is true exactly on U+FDD0..FDEF and on the last two code points of every plane; is_char_available_in_key / _value accept exactly the documented sets.", "quantifier": "every Unicode scalar value", "why_tests_cant": "1.1 million code points, stated arithmetically rather than as a table", "anchors": ["src/util.rs: is_non_character, is_char_available_in_key, is_char_available_in_value"]}
{"id": "C42", "title": "encode_content output is inert", "statement": "With encode_content, the rendered content of title/textarea contains no '<' or '>', whatever the content, if the codec encodes those characters; other content is untouched.", "quantifier": "every content string, every codec satisfying the stated contract", "why_tests_cant": "all strings", "anchors": ["src/parser.rs: write_content_encode, Node::build_node (Tag)"]}
{"id": "C43", "title": "allow_insert ignores the case of the tag name", "statement": "allow_insert(name, t) depends on name only through its ASCII lowercase form; void elements accept nothing, title/textarea accept only text, CDATA only svg/math.", "quantifier": "every name and node type", "why_tests_cant": "all names", "anchors": ["src/parser.rs: allow_insert, is_plain_text_tag"]}
{"id": "C44", "title": "Self-closing is accepted only where allowed", "statement": "Without allow_self_closing, in a successful parse every self-closed tag is void or lies inside an svg/math element.", "quantifier": "every input", "why_tests_cant": "tracks open svg/math elements over unbounded histories", "anchors": ["src/parser.rs: parse_tag_self_closing, Doc::check_tag_type_do, parse_tagend (in_special)"]}
{"id": "C45", "title": "inner_html / inner_text misuse is the only render panic", "statement": "build panics exactly when inner text is combined with inner_html, when inner_html is asked of a non-tag node (or inner text of a node that is not tag/comment/CDATA), or when an abstract root with children does not have exactly one tag child.", "quantifier": "every well-formed tree, every RenderOptions value", "why_tests_cant": "all trees and option combinations", "anchors": ["src/parser.rs: Node::build"]}
{"id": "C46", "title": "Attributes are recovered exactly", "statement": "Parsing a start tag written as name followed by space-separated attributes (bare key, key=value unquoted, key=\"v\", key='v') with legal characters yields exactly that attribute list with those quotes.", "quantifier": "every list of legal attributes", "why_tests_cant": "unbounded lists and strings", "anchors": ["src/parser.rs: parse_tag_wait, parse_tag_attr_key, parse_tag_attr_value"]}
{"id": "C47", "title": "Parsing is compositional", "statement": "Without the three auto-fix options, if a text s is accepted on its own, leaves no svg/math context open, has no self-closed doctype at its top level, and the continuation u does not extend a trailing text of s, then s followed by u parses to the document of s followed by the document of u, and is rejected exactly if u is.", "quantifier": "every pair of texts s, u and the remaining options", "why_tests_cant": "relates three executions on unbounded inputs", "anchors": ["src/parser.rs: Doc::parse, parse_wait, Doc::next", "src/parser.rs: parse_tagend, parse_unkown_tag"]}
{"id": "C48", "title": "Documents rendered with formatting options are read back", "statement": "For every combination of minify_spaces, remove_attr_quote, lowercase_tagname, remove_endtag_space and remove_comment, rendering a well-formed document succeeds, and parsing the result yields the same document with exactly these changes: texts collapsed outside pre, quotes dropped, names lower-cased, end tags trimmed, comments gone, neighbouring texts joined and empty texts gone. Quotes must not be needed where they are dropped, and the case of svg, math (and, with case-sensitive names, raw-text) tags must not matter.", "quantifier": "every well-formed document tree, every parse-option set, every combination of the five options", "why_tests_cant": "relates two executions on unbounded trees for 32 option sets", "anchors": ["src/parser.rs: Node::build_node, Node::build", "src/parser.rs: Doc::parse"]}
{"id": "C49", "title": "The accepted texts are exactly those of a grammar", "statement": "Without the three auto-fix options, the parser reads a document from a text exactly if the text spells this document in a declarative grammar: names, attributes with their gaps, equals signs, quotes and slashes, self-closing marks, raw text, comments, CDATA, doctypes and nesting. So it accepts exactly the texts of the grammar. The grammar is unambiguous, and under every option set a text of the grammar is read as the document it spells.", "quantifier": "every text, every document, the remaining options (all options for the last two parts)", "why_tests_cant": "an equivalence between a program and a grammar over unbounded texts", "anchors": ["src/parser.rs: Doc::parse, Doc::next", "src/parser.rs: parse_tag_name, parse_tag_wait, parse_tag_self_closing, parse_tag_attr_key, parse_tag_attr_value, parse_tagend, parse_content_tag, parse_comment_or_cdata, parse_doctype_name"]}
{"id": "C50", "title": "Cloning a node by value", "statement": "Clone::clone of any node or end tag of a parsed document never panics: the copy is held by nothing else, so it can be moved out of its Rc. The copy is the same tree as clone_node gives and shares no node with the document. All parent and sibling links among the copied nodes work, except that the direct children of the copy have a dangling parent link.", "quantifier": "every accepted text, every option set, every node of the document", "why_tests_cant": "ownership of every node of unbounded trees; dangling weak links are silent", "anchors": ["src/parser.rs: impl Clone for Node", "src/parser.rs: Node::clone_node, Node::is_same"]}
{"id": "C51", "title": "Errors are reported as soon as they are certain", "statement": "A text is the beginning of some accepted text exactly if the parser reads it to its end without an error or a panic, and it does not end in an unfinished end tag that can no longer close the innermost open element (without auto_fix_unexpected_endtag), nor in a declaration or an unescaped '<' after a self-closed doctype has closed the document. So, apart from these two, an error comes at the first character that cannot be continued.", "quantifier": "every text, every option set", "why_tests_cant": "says that something exists for every text read so far, and that nothing exists for the exceptions", "anchors": ["src/parser.rs: Doc::parse", "src/parser.rs: parse_tagend", "src/parser.rs: parse_unkown_tag", "src/parser.rs: parse_exclamation_begin"]}
{"id": "C52", "title": "Every error, exactly", "statement": "Parsing reports an error of a given kind at a given index exactly if the text has a beginning that is read without complaint, followed by a character that is refused there in one of ten listed ways (stray '<', unknown or misspelt declaration, CDATA outside of or directly in svg/math, no space after the doctype keyword, '=' as an attribute name, self-closing an ordinary element, end tag in another case, end tag with another name), with the listed kind and index; or the whole text is read and ends with an open element or an unfinished construct, with the listed kind and index. An error about an open element or an unfinished construct points at its '<', except after a trailing '<' or '<!…', where it points at the node before it.", "quantifier": "every text, every option set, every error kind and index", "why_tests_cant": "an equivalence over all texts, including that nothing else is ever reported", "anchors": ["src/parser.rs: create_parse_error", "src/parser.rs: Doc::error, Doc::eof", "src/parser.rs: parse_unkown_tag, parse_exclamation_begin, parse_doctype, parse_tag_wait, parse_tag_self_closing, parse_tagend", "src/error.rs"]}
{"id": "C53", "title": "Every text construct by construct, with every repair", "statement": "Under any options, a text is read without complaint exactly if it is a sequence of finished constructs (text, comment, CDATA, doctype, start tag, end tag, void, self-closed and raw elements, and with the repair options an escaped '<', a dropped end tag, a text continued behind it), possibly with a last '<' or an unfinished construct behind it. It can be taken apart in one way only, and this determines the open elements, the svg/math context and the resulting document: the constructs in order, with open elements closed at the end when that is repaired, and a start tag cut off behind its name kept with the attributes read so far. Exactly these texts are accepted, except that with auto_fix_unclosed_tag a text ending inside the name of a start tag is accepted too. Rendering the document with default options gives the source text of its nodes.", "quantifier": "every text, every option set", "why_tests_cant": "an equivalence between all texts and an independent grammar, including all combinations of repairs", "anchors": ["src/parser.rs: Doc::parse, Doc::next, Doc::eof", "src/parser.rs: parse_wait, parse_text, parse_unkown_tag, parse_tagend, fix_unescaped_lt, fix_unclosed_tag", "src/parser.rs: Doc::render"]}
{"id": "C54", "title": "The outcome of every text from its constructs", "statement": "Under any options every text has exactly one of three outcomes, and which one is a question of its constructs (C53) only: it is accepted; or there is one error, of a kind and at an index given by the first character that cannot stand where it does or, if there is none, by the construct or element that is not finished at the end; or the parser panics at one of four places: the text ends inside the name of a start tag that is not repaired, a node or text follows a self-closed doctype that closed the document, or `<![` follows such a doctype or stands outside of all elements while an svg or math is still remembered.", "quantifier": "every text, every option set", "why_tests_cant": "a complete three-way classification of all texts with error kinds and positions", "anchors": ["src/parser.rs: Doc::parse, Doc::next, Doc::eof", "src/parser.rs: all Parse* handlers", "src/error.rs: ErrorKind"]}
{"id": "C55", "title": "No RefCell borrow conflicts", "statement": "Parsing any text under any options, cloning any node of a parsed (or any well-linked) document, rendering and get_element_by_id never make a RefCell borrow that conflicts with one still alive: no borrow_mut() of a cell that is borrowed and no borrow() of one that is mutably borrowed, so none of them panics with BorrowError or BorrowMutError.", "quantifier": "every text, every option set, every node; for rendering every document", "why_tests_cant": "a conflict would need two names for one cell (e.g. a node that is its own parent or end tag), which depends on the shape of the graph reached after arbitrary input", "anchors": ["src/parser.rs: add_new_node, set_tag_attr_value, parse_tagend, check_tag_type_do, fix_unclosed_tag, into_root", "src/parser.rs: Node::clone_node", "src/parser.rs: Node::build_tree, Node::build, DocHolder::render"]}
{"id": "C56", "title": "Formatting a formatted text", "statement": "Under the conditions of C48, for every combination of remove_attr_quote, lowercase_tagname, remove_endtag_space and remove_comment, a formatted text is accepted and formatting it again with the same options does not change it. With minify_spaces as well (and no auto-fix option) formatting twice leaves nothing for a third time, and the text that is written is the source text of a document determined by the document that was read alone: texts outside pre are collapsed, and a blank text is dropped unless it is the only child of an element with an end tag that is followed by a text or ends the document.", "quantifier": "all texts accepted under the conditions of C48, all combinations of the five formatting options", "why_tests_cant": "A third pass that changes something would need a document in which dropping one blank text changes the type of another in the second pass; whether such a document exists is a question about all documents.", "anchors": ["src/parser.rs: Node::build_node, Node::build_tree, DocHolder::render", "src/parser.rs: parse_text, parse_tagend (SpacesBetweenTag)"]}
{"id": "C57", "title": "The text of an error says what is wrong and where", "statement": "From the text shown for any parse error its line, column and index can be read back; two errors of the parser, on any inputs, with the same text are the same error (kind, quoted names and position); and what the text quotes stands in the source at the place it gives.", "quantifier": "every parse error; every pair of inputs and ParseOptions values that are rejected", "why_tests_cant": "all pairs of rejected inputs", "anchors": ["src/error.rs: Display for ParseError, ErrorKind", "src/position.rs: Display for CodeRegion"]}
{"id": "C58", "title": "No text blows up", "statement": "A parsed document has at most one node for every character of its text, and the root; rendering it with default options gives at most four times as many characters (three without auto_fix_unescaped_lt, two if auto_fix_unclosed_tag is off, too); any node rendered with any other options, inner html and text included, gives at most K times as many characters as that, if decoding lengthens no text and no entity has more than K >= 2 characters; a node with k elements around it needs 3k characters, and for every n there is a text of 3n characters that is n deep, so the parser itself sets no limit to the recursion of render and clone.", "quantifier": "every text, every ParseOptions value; for the nesting every text that does not end inside the name of a start tag; every n", "why_tests_cant": "a bound over all texts and option sets; a text on which repairs multiply each other would be found by no sample", "anchors": ["src/parser.rs: Doc::add_new_node, fix_unclosed_tag, fix_unescaped_lt, parse_content_tag", "src/parser.rs: Node::build_node, Node::build_tree, DocHolder::render"]}
{"id": "C59", "title": "Spans are right under every repair", "statement": "With any ParseOptions, every node of an accepted document and every end tag that an element has stands for the source text given by its span. A text covers one stretch of the source from the beginning or behind a '>' up to a '<' or the end, and its content is that stretch where exactly the repaired '<' are written '&lt;' and the dropped end tags are left out; each of the two occurs only with its option. An end tag that was added lies at the end of the source, and an element without a name is the last one, whose name runs to the end.", "quantifier": "every text, every ParseOptions value, every node", "why_tests_cant": "all interleavings of texts, stray end tags and bare '<' characters under all option sets", "anchors": ["src/parser.rs: parse_text, parse_tagend, parse_wait, fix_unescaped_lt, fix_unclosed_tag, eof"]}
{"id": "C60", "title": "No node leaks and no link dangles", "statement": "The strong references between nodes (childs, end_tag) form no cycle, at any moment of parsing and after cloning: when reference counting comes to rest, exactly the nodes reachable from a handle are left, so nothing is left when the last handle is gone. While the document is alive the weak links parent, prev and root of every node can be upgraded. With only a handle to one node its own parent and the root links dangle, and the parent links below it do not. A clone and its document do not keep each other alive.", "quantifier": "every text, every ParseOptions value, every node, every set of handles, every order of freeing", "why_tests_cant": "leaks and dangling weak links are invisible to assertions on output; they depend on the link structure of every possible tree", "anchors": ["src/parser.rs: Node, RefNode, Doc::add_new_node, fix_unclosed_tag, fix_unescaped_lt, parse_tagend, parse_unkown_tag, clone_node_with"]}
{"id": "C61", "title": "Documents rendered with the entity options", "statement": "For every document, rendering with any combination of minify_spaces, decode_entity, encode_content, remove_attr_quote, lowercase_tagname, remove_endtag_space and remove_comment yields the source text of the document in which every text is decoded (and collapsed outside pre), and the content of titles and text areas - not of scripts and styles - is encoded. Parsing that text yields this document exactly if no text of it contains a '<'; without decode_entity it always does, provided that the codec encodes '<'. always_close_void changes nothing of this when unclosed elements are not repaired.", "quantifier": "every accepted text, every codec, every combination of the render options except inner_html", "why_tests_cant": "all combinations of eight options with all texts, entities and neighbourhoods of texts", "anchors": ["src/parser.rs: Node::build_node, build_tree, write_content_encode, is_plain_text_tag"]}
{"id": "C62", "title": "The inner html of an element", "statement": "The inner html of an element is its raw text, if it has any, followed by the source text of the document inside it, with the changes that the render options make; nothing outside the element counts, not even an open pre. The inner html and the inner text of a document with exactly one element at the top are those of the element. In an accepted document without svg and math, the inner html of every element without raw text is parsed to exactly its children (with default options), and with other options to the changed children exactly if no text gets a '<'.", "quantifier": "every element of every tree (what is written), every element of every accepted text without svg and math (what is read back), every codec, every combination of the render options except always_close_void", "why_tests_cant": "all elements of all documents with all combinations of eight options", "anchors": ["src/parser.rs: Node::build, build_tree, build_node (inner_html)"]}
{"id": "C63", "title": "A repaired document needs no more repair", "statement": "Whatever repairs were made while reading a text, the default rendering of the document is accepted without any of the auto-fix options, renders as it is, and is read as the same document, except that neighbouring texts are joined and that a text which auto_fix_unescaped_lt has put into a void element stands behind it, and one put into a raw-text element is part of its raw text. Excluded are texts that end inside the name of a start tag or of an attribute or inside the start tag of a void element, doctypes that cannot be written down (no attributes, or self-closed) and attributes starting with '=' behind an attribute without a value.", "quantifier": "every accepted text, every combination of the parse options, every second set of options that is as permissive without the repairs", "why_tests_cant": "all texts with all combinations of mistakes and all combinations of repairs", "anchors": ["src/parser.rs: fix_unclosed_tag, fix_unescaped_lt, parse_tagend, parse_wait", "src/parser.rs: Node::build"]}
{"id": "C64", "title": "The time of parsing", "statement": "The work of parsing a text - every character read, pushed, moved, copied, lower-cased, hashed or compared counts one, and so does every call of next - is at most 401 times the length of the text plus one, whether the text is accepted or not, unless auto_fix_unescaped_lt is set or auto_fix_unexpected_endtag together with auto_fix_unclosed_tag. With these options it is at most quadratic, and it is not linear: a text with k unescaped '<' takes 5k^2, one with k stray end tags k^2. Neither a step nor the end of the text writes more characters than it is charged for.", "quantifier": "every text, accepted or rejected, every combination of the parse options", "why_tests_cant": "a bound for all texts of all lengths; a benchmark only shows the texts it is run on, and the slow texts are rare", "anchors": ["src/parser.rs: Doc::next, parse_wait, parse_text, parse_content_tag, parse_tagend, fix_unescaped_lt, fix_unclosed_tag, eof"]}
{"id": "C65", "title": "The time of rendering and cloning", "statement": "The work of rendering any node of a parsed document, as outer html, inner html or text and with any rendering options, is at most (K+29)*(F*|s|+1), and the work of cloning it at most 3*F*|s|+1, where s is the text, K the length of the longest entity and F is 4, 3 or 2 depending on the repairs that are allowed (text not ending inside a tag name). Every character that is written and every node that is visited is paid for.", "quantifier": "every accepted text that does not end inside a tag name, all parse options, every node of the document, all rendering options, every entity table", "why_tests_cant": "a bound for all documents; nested elements, long attribute lists and long end tags would each show a quadratic cost only in large documents built for the purpose", "anchors": ["src/parser.rs: Node::build, build_tree, build_node, attrs_to_string, write_content_encode, chars_trim_end, clone_node, clone_node_with"]}
{"id": "C66", "title": "parse_file on every file", "statement": "parse_file on a file that is the UTF-8 encoding of a text gives what C26 says of the text. Every other file has a first line that cannot be read: its bytes are no UTF-8, or reading fails before its end. parse_file panics there if the lines before it are read without an error, and otherwise reports that error, whatever follows. A relative path that cannot be resolved is a panic, a file that cannot be opened an io error.", "quantifier": "every sequence of bytes, with or without a read error behind it, every file system, every path, every combination of the parse options", "why_tests_cant": "all byte sequences; a test needs a file with the wrong byte at the wrong place, and cannot show that there is no other panic", "anchors": ["src/parser.rs: Doc::parse_file"]}
{"id": "C67", "title": "prev links of a parsed document", "statement": "In a parsed document only nodes of end tags have a prev link, and only with auto_fix_unclosed_tag; no child does, while in a copy every child but the first has one (C37). The link leads to an earlier node that is part of the document, and every node made in between is an end tag that was dropped or the end tag of that node. With auto_fix_unclosed_tag the only end tags without a link are those of raw-text elements and those the parser added.", "quantifier": "every text, every combination of the parse options, every node", "why_tests_cant": "all texts; the links depend on which end tags before were dropped", "anchors": ["src/parser.rs: parse_unkown_tag, parse_tagend, fix_unclosed_tag, Node::prev"]}
{"id": "C68", "title": "the stack that rendering, cloning and dropping need", "statement": "With room for n nested calls, rendering a document overflows the stack exactly if there are n+1 nodes from the root down, each a child of the one before; cloning or dropping exactly if there are n+1 nodes, each held as child or end tag by the one before. Otherwise the result is the one without a limit. Room for a third of the characters of the text and two more calls is always enough for all three. No fixed room is enough: for every n, a well-formed text of 7n characters is parsed without a repair and overflows all three.", "quantifier": "every text, every combination of the parse and render options except the inner html, every size of the stack, every node of a parsed document", "why_tests_cant": "all depths; a test shows an overflow for one text and one stack, not which texts overflow", "anchors": ["src/parser.rs: Node::build_tree, Node::clone_node_with, struct Node (drop)"]}
{"id": "C69", "title": "What the record of a tag says", "statement": "In a parsed document the nodes with a record (meta) are the tags and the doctypes, but for a tag whose name is cut off by the end of the text. is_void is set exactly for the names of void elements. need_quote is set for no attribute. auto_fix is set for a tag exactly if its end tag was added by the parser: then it has an end tag of the same name at the end of the text and is the last node of the root or of another such tag; otherwise its end tag, if it has one, stands in the text where the span says.", "quantifier": "every text, every combination of the parse options, every node", "why_tests_cant": "all texts; flags are set in one place and read in others", "anchors": ["src/parser.rs: TagMeta, set_tag_meta, fix_unclosed_tag, Attr"]}
{"id": "C70", "title": "Indices stay in bounds", "statement": "Every index, slice bound, split position and index subtraction in the helpers chars_trim_end, is_equal_chars and is_equal_chars_ignore_case, in the handlers parse_content_tag and parse_comment_or_cdata, and in the loop that collapses whitespace and decodes entities is within the bounds of its vector. Parsing a text or a file with these loops written with indices gives exactly what it gives with the list functions they stand for. No position and no child index in a parsed document is larger than the length of the text, so none can overflow.", "quantifier": "all texts, all files that decode, all parse options, all slices given to the helpers, all texts and entity codecs for the decoding loop", "why_tests_cant": "An index out of bounds panics only for the text that reaches it, and the loops run backwards over what was read so far.", "anchors": ["src/parser.rs:203-266", "src/parser.rs:602-637", "src/parser.rs:1407-1520"]}
{"id": "C71", "title": "Nodes are rendered as the trees they denote", "statement": "build and build_tree, run on the nodes in the heap with one growing result vector, give for every node exactly what rendering the tree below it gives. In any graph of nodes, with the default kind of output, a node is rendered to a text if and only if it denotes a finite tree that fits the stack and rendering that tree gives this text; a node below itself is never rendered, however large the stack. Every node of a parsed document is rendered, to what the tree below it gives.", "quantifier": "all heaps of nodes, all node ids, all render options, all entity codecs, all sizes of the stack; all texts and parse options for the last part", "why_tests_cant": "The fields of Node are public, so a user can link any graph; tests render only trees that the parser made.", "anchors": ["src/parser.rs:794-815", "src/parser.rs:817-891"]}
{"id": "C72", "title": "Inserting and removing nodes, and what allow_insert says", "statement": "Insert a node anywhere in a well-formed document, below an element that is not self-closed, so that no two texts become neighbours and no svg or math is left open. The rendering of the edited tree is parsed back to it if and only if the node is well-formed in its place and the element is neither void nor a raw-text element; removing such a node always gives a document that is parsed back. The rendering changes only in the place of the edit. For a well-formed node other than a CDATA section this is so exactly if allow_insert allows it and the element is not script, style, title or textarea. For CDATA sections allow_insert is wrong both ways: it allows them directly in the svg or math element that starts the foreign content, where the parser rejects them, and refuses them in the other elements inside, where the parser accepts them.", "quantifier": "every tree, every place in it, every inserted node, every parse options without the repairs and the '=' option", "why_tests_cant": "allow_insert is a table that has to agree with the parser on all names, all kinds of nodes and all surroundings.", "anchors": ["src/parser.rs:125-147", "src/parser.rs:1579-1700", "src/parser.rs:794-815"]}
{"id": "C73", "title": "Changing nodes in place is safe exactly when", "statement": "A tree survives rendering and parsing if and only if it is well-formed. So in a well-formed document: setting a text is safe exactly if it is not empty and has no '<'; setting a comment or CDATA section, if it is not empty and its terminator does not occur behind its first character; setting the content of a script, style, title or textarea, if it contains no end tag of the element; setting an attribute value in quotes, if the quote is '\"' or '\\'' and does not occur in it; without quotes, if it can be written without quotes. In all other cases the rendering is not parsed to the document. In general, replacing a node by another is safe exactly if the new node is well-formed in its place.", "quantifier": "every tree, every node of it, every new content, every parse options without the repairs and the '=' option", "why_tests_cant": "Whether a value can be taken for markup depends on all values and on the place; injection bugs are values no test has.", "anchors": ["src/parser.rs:577-815", "src/parser.rs:289-311"]}
{"id": "C74", "title": "Inserting a parsed fragment", "statement": "Parse a text without svg and math, and insert its top-level nodes anywhere into a well-formed document, below an element that is neither self-closed nor void nor a raw-text element, so that no two texts become neighbours. The rendering of the edited document is its old rendering with the rendering of the text in that place, and it is parsed to the edited document; this holds also inside svg and math. In general, nodes that leave no svg or math open can be inserted exactly where each of them is well-formed.", "quantifier": "every accepted text without svg and math, every well-formed tree, every place in it, every parse options without the repairs and the '=' option", "why_tests_cant": "The fragment was parsed in one surrounding and is read back in another one; the parser state at the place depends on everything before it.", "anchors": ["src/parser.rs:794-815", "src/parser.rs:1311-1404", "src/parser.rs:1771-1780"]}
{"id": "C75", "title": "The time of parsing a file", "statement": "Parsing a file takes the work of parsing its text (with \\r\\n read as \\n and a final newline) and reading and copying each line once: for an accepted file exactly the work of parse on that text, plus the length of the text, plus its characters other than \\n. For a rejected file only the lines up to the one with the error are read and copied, and the error is positioned in them instead of in the whole text; this too is exact. So the work is at most 403 times the length of the file plus two, accepted or not, exactly unless auto_fix_unescaped_lt is set or auto_fix_unexpected_endtag together with auto_fix_unclosed_tag; then it is at most quadratic, and files of one line reach that.", "quantifier": "every decoded text of a file, accepted or rejected, every combination of the parse options", "why_tests_cant": "a bound for all files of all lengths; the text kept for the errors grows with every line, so a quadratic cost would show only on long files", "anchors": ["src/parser.rs:1782-1807", "src/parser.rs: Doc::next, Doc::eof"]}
{"id": "C76", "title": "Editing a document in several steps", "statement": "Parse a text and edit the document any number of times: insert nodes that are well-formed in their places (below elements that are neither void nor raw-text elements, joining no texts), remove nodes, replace nodes by nodes that are well-formed there. The rendering of the result is parsed to the result. One more insertion or change after them is read back if and only if it is of this kind too. Such edits lead from the document of any text without svg and math to that of any other.", "quantifier": "every accepted text, every sequence of such edits of any length, every parse options without the repairs and the '=' option", "why_tests_cant": "The edits interact: a later one can close, split or reopen what an earlier one made, and there are infinitely many sequences.", "anchors": ["src/parser.rs:794-815", "src/parser.rs:1311-1404", "src/parser.rs:1771-1780"]}
