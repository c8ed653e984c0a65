import Verif.Spec.Samples

/-!
# The project's own tests, replayed on the model

Each `example` below is an assertion of `/repo/tests/html.rs` evaluated on the model by the kernel.
They are tests, not proofs: they show that the model agrees with the behaviour the project's test
suite records.  Left out: `test_parse_file` (reads a file), `test_is_same` (pointer identity of `Rc`),
the mutation steps of `test_clone_node`, and `test_render_decode`, whose result is that of the
external crate `htmlentity`.
-/

namespace Rphtml.Conformance

open Spec

/-- The parsed document, if any. -/
def parsed (s : String) (o : ParseOptions := {}) : Option Doc :=
  match Doc.parse s.toList o with
  | .ok d => some d
  | _ => none

/-- A codec that also encodes `&`, as `CharacterSet::Html` of `htmlentity` does. -/
def ampLib : EntityLib :=
  { toyLib with
    inHtmlSet := fun c => toyLib.inHtmlSet c || c == '&'
    encodeNamed := fun c => if c = '&' then some "&amp;".toList else toyLib.encodeNamed c }

/-- Does `render_text` of the sample give this text? -/
def textTo (s out : String) (r : RenderOptions) : Bool :=
  match parsed s with
  | some d =>
    match d.renderText toyLib r with
    | .ok x => x == out.toList
    | .error _ => false
  | none => false

/-- Does the sample parse, and does rendering it panic? -/
def renderPanics (s : String) (r : RenderOptions) : Bool :=
  match parsed s with
  | some d =>
    match d.render toyLib r with
    | .ok _ => false
    | .error _ => true
  | none => false

/-- Key, value and quote of the attributes of the first node of the sample. -/
def attrsOf (s : String) (o : ParseOptions) : Option (List (Option Str × Option Str × Option Char)) :=
  (treeOf s o).kids.head?.bind (fun t => t.data.tmeta.map (fun m =>
    m.attrs.map (fun a => (a.key, a.value, a.quote))))

/-! `test_doctype` (`/repo/tests/html.rs:24-45`) -/

example : rendersTo "<!doctype html PUBLIC \"-//W3C//DTD HTML 4.01 Transitional//EN\" \"http://www.w3.org/TR/html4/loose.dtd\">" "<!doctype html PUBLIC \"-//W3C//DTD HTML 4.01 Transitional//EN\" \"http://www.w3.org/TR/html4/loose.dtd\">" = true := by decide +kernel
example : rendersTo "<!DOCTYPE html>" "<!DOCTYPE html>" = true := by decide +kernel
example : (errorOf "<!DOCTYPES html>").isSome = true := by decide +kernel
example : (errorOf "<!DOCTYPE>").isSome = true := by decide +kernel
example : (parsed "<!DOCTYPE html/>").isSome = true := by decide +kernel

/-! `test_pre_tag` (`/repo/tests/html.rs:47-90`) -/

example : rendersTo "\n    <pre> spaces </pre>\n  " "<pre> spaces </pre>" {} { minifySpaces := true } = true := by decide +kernel
example : rendersTo "<Pre> abc </PRE> <a>  </a>" "<pre> abc </pre><a> </a>" {} { lowercaseTagname := true, minifySpaces := true } = true := by decide +kernel
example : (parsed "<pre><a></a></pre>").isSome = true := by decide +kernel

/-- The last assertion of the test (lines 69-86) expects the line feed after `<pre>` to be dropped.
Nothing in `/repo/src` drops it: the text is a `SpacesBetweenTag` node below a `<pre>`, and
parser.rs:738-747 writes its content in full.  The model follows the source, so the assertion does not hold
of it. -/
example : rendersTo "<pre>\n  <code>   \n    aaaaa   \n  </code>\n</pre>" "\n  <code>   \n    aaaaa   \n  </code>\n" {} { minifySpaces := true, innerHtml := true } = true := by decide +kernel

/-! `test_title_tag` (`/repo/tests/html.rs:92-107`) -/

example :
    ((parsed "<title><div>&nbsp;tags are allowed here</div></title>").bind fun d =>
      outOf (d.render ampLib { encodeContent := true })) =
    some "<title>&lt;div&gt;&amp;nbsp;tags are allowed here&lt;/div&gt;</title>".toList := by decide +kernel
example : rendersTo "<title><div>&nbsp;tags are allowed here</div></title>" "<title><div>&nbsp;tags are allowed here</div></title>" = true := by decide +kernel

/-! `test_textarea_tag` (`/repo/tests/html.rs:109-115`) -/

example : rendersTo "<textarea name=\"content\"><div> tags are allowed here</div></textarea>" "<textarea name=\"content\"><div> tags are allowed here</div></textarea>" = true := by decide +kernel

/-! `test_void_elements` (`/repo/tests/html.rs:117-125`) -/

example : (parsed "<br><br/><br >").isSome = true := by decide +kernel
example : (errorOf "<br></br>").isSome = true := by decide +kernel

/-! `test_script_tag` (`/repo/tests/html.rs:127-138`) -/

example : rendersTo "\n  <script type=text/javascript>\n    var div=$(\"<div></div>\");\n    var script = \"</script\" + '>';\n  </script>\n  " "\n  <script type=text/javascript>\n    var div=$(\"<div></div>\");\n    var script = \"</script\" + '>';\n  </script>\n  " = true := by decide +kernel

/-! `test_style_tag` (`/repo/tests/html.rs:140-153`) -/

example : rendersTo "\n  <style type=\"text/css\">\n    body{\n      color: lightblue;\n    }\n  </style>\n  " "\n  <style type=\"text/css\">\n    body{\n      color: lightblue;\n    }\n  </style>\n  " = true := by decide +kernel

/-! `test_attrs` (`/repo/tests/html.rs:155-253`) -/

example : attrsOf "<img src=http://site.com/abc.jpg alt =abc defer data-width= 60 data-name = \"abc\" data-size='60*60' data-msg=\"quote must escape.&quot;\" class=\"js-img img\" xpath=\"A\\B\\C\\\" endtag=\"<htmltag>\" />" {} =
    some [
      (some "src".toList, some "http://site.com/abc.jpg".toList, none),
      (some "alt".toList, some "abc".toList, none),
      (some "defer".toList, none, none),
      (some "data-width".toList, some "60".toList, none),
      (some "data-name".toList, some "abc".toList, some '"'),
      (some "data-size".toList, some "60*60".toList, some '\''),
      (some "data-msg".toList, some "quote must escape.&quot;".toList, some '"'),
      (some "class".toList, some "js-img img".toList, some '"'),
      (some "xpath".toList, some "A\\B\\C\\".toList, some '"'),
      (some "endtag".toList, some "<htmltag>".toList, some '"')] := by decide +kernel
example : (parsed "<div id\"1\"></div>").isSome = true := by decide +kernel
example : (parsed "<div \"1\"'2'></div>").isSome = true := by decide +kernel
example : (parsed "<div a=\"1\\\"\"></div>").isSome = true := by decide +kernel
example : (errorOf "<span =></span>").isSome = true := by decide +kernel
example : (errorOf "<span a=\"b\"=></span>").isSome = true := by decide +kernel
example : attrsOf "<span a=\"b\"=\"123\"/>" { allowAttrKeyStartsWithEqualSign := true, allowSelfClosing := true } =
    some [(some "a".toList, some "b".toList, some '"'), (some "=\"123\"".toList, none, none)] := by decide +kernel
example : attrsOf "<span a==></span>" {} = some [(some "a".toList, some "=".toList, none)] := by decide +kernel
example : (errorOf "<span a=b /==a></span>").isSome = true := by decide +kernel

/-! `test_tag_close` (`/repo/tests/html.rs:255-277`) -/

example : (errorOf "<div>").isSome = true := by decide +kernel
example : rendersTo "<div id=1><div id=2><div id=3>3</div>" "<div id=1><div id=2><div id=3>3</div></div></div>" { autoFixUnclosedTag := true } = true := by decide +kernel
example : (errorOf "<div></p>").isSome = true := by decide +kernel

/-! `test_comment` (`/repo/tests/html.rs:279-306`) -/

example : rendersTo "\n  <!---\n  // this is a comment\n  // --allowed\n  --->\n  " "\n  <!---\n  // this is a comment\n  // --allowed\n  --->\n  " = true := by decide +kernel
example : rendersTo "\n  <!---\n  // this is a comment\n  // --allowed\n  --->\n  " "" {} { minifySpaces := true, removeComment := true } = true := by decide +kernel
example : rendersTo "<!-- \n  // still in comments->\n  -->" "<!-- \n  // still in comments->\n  -->" = true := by decide +kernel

/-! `test_end_spaces` (`/repo/tests/html.rs:308-320`) -/

example : rendersTo "<div></div >" "<div></div>" {} { removeEndtagSpace := true } = true := by decide +kernel

/-! `test_svg_tag` (`/repo/tests/html.rs:322-335`) -/

example : rendersTo "<svg version=\"1.1\" baseProfile=\"full\" width=\"300\" height=\"200\" xmlns=\"http://www.w3.org/2000/svg\"><rect width=\"100%\" height=\"100%\" fill=\"red\" /><text x=\"250\" y=\"150\" font-family=\"Verdana\" font-size=\"55\"><![CDATA[<div> is something]]></text></svg>" "<svg version=\"1.1\" baseProfile=\"full\" width=\"300\" height=\"200\" xmlns=\"http://www.w3.org/2000/svg\"><rect width=\"100%\" height=\"100%\" fill=\"red\" /><text x=\"250\" y=\"150\" font-family=\"Verdana\" font-size=\"55\"><![CDATA[<div> is something]]></text></svg>" = true := by decide +kernel
example : (parsed "<svg>abc</svg>").isSome = true := by decide +kernel
example : rendersTo "<svg><style></style><script></script></svg>" "<svg><style></style><script></script></svg>" = true := by decide +kernel

/-! `test_mathml_tag` (`/repo/tests/html.rs:337-349`) -/

example : rendersTo "<math><mrow></mrow></math>" "<math><mrow></mrow></math>" = true := by decide +kernel
example : (parsed "<math>abc</math>").isSome = true := by decide +kernel
example : (parsed "<math><style></style></math>").isSome = true := by decide +kernel

/-! `test_tag_name` (`/repo/tests/html.rs:351-366`) -/

example : rendersTo "<Form><Form.Item></Form.Item></Form>" "<Form><Form.Item></Form.Item></Form>" = true := by decide +kernel
example : rendersTo "<svg xmlns=\"http://www.w3.org/2000/svg\" xmlns:xlink=\"http://www.w3.org/1999/xlink\"><script xlink:href=\"cool-script.js\" type=\"text/ecmascript\" /></svg>" "<svg xmlns=\"http://www.w3.org/2000/svg\" xmlns:xlink=\"http://www.w3.org/1999/xlink\"><script xlink:href=\"cool-script.js\" type=\"text/ecmascript\" /></svg>" = true := by decide +kernel
example : rendersTo "<abc<<></abc<<>" "<abc<<></abc<<>" = true := by decide +kernel

/-! `test_inner_html` (`/repo/tests/html.rs:368-403`) -/

example : rendersTo "<div><span class=\"sp\">long time</span></div>" "<span class=\"sp\">long time</span>" {} { innerHtml := true } = true := by decide +kernel
example : rendersTo "<div><span class=\"sp\">long time</span></div>" "<div><span class=\"sp\">long time</span></div>" = true := by decide +kernel
example : rendersTo "<pre class='pre'>   minify spaces   </pre>" "   minify spaces   " {} { minifySpaces := true, innerHtml := true } = true := by decide +kernel
example : rendersTo "<pre class='pre'>   minify spaces   </pre>" "<pre class='pre'>   minify spaces   </pre>" = true := by decide +kernel
example : rendersTo "<script>var a = 1;var b = 2;</script>" "var a = 1;var b = 2;" {} { innerHtml := true } = true := by decide +kernel
example : rendersTo "<script>var a = 1;var b = 2;</script>" "<script>var a = 1;var b = 2;</script>" = true := by decide +kernel

/-! `test_wrong_inner_html` (`/repo/tests/html.rs:405-415`) -/

example : renderPanics "abc" { minifySpaces := true, innerHtml := true } = true := by decide +kernel

/-! `test_inner_text` (`/repo/tests/html.rs:417-458`) -/

example : rendersTo "<div><!--comment--><div>abc</div></div>" "<!--comment--><div>abc</div>" {} { innerHtml := true } = true := by decide +kernel
example : textTo "<div><!--comment--><div>abc</div></div>" "abc" {} = true := by decide +kernel
example :
    (((treeOf "<div><!--comment--><div>abc</div></div>").kids.flatMap Tree.kids).head?.map
      fun t => (t.data.nodeType, outOf (build toyLib t {} true))) =
    some (.comment, some "comment".toList) := by decide +kernel

/-! `test_minify_spaces` (`/repo/tests/html.rs:460-490`) -/

example : rendersTo "<div>   <span class=\"sp\">long time</span>   </div>" "<span class=\"sp\">long time</span>" {} { minifySpaces := true, innerHtml := true } = true := by decide +kernel
example : rendersTo "<div>   <span class=\"sp\">long time</span>   </div>" "<div>   <span class=\"sp\">long time</span>   </div>" = true := by decide +kernel
example : rendersTo "<div>  whitespaces   repeat     </div>" "<div> whitespaces repeat </div>" {} { minifySpaces := true } = true := by decide +kernel
example : rendersTo "<pre>  whitespaces   repeat     </pre>" "<pre>  whitespaces   repeat     </pre>" {} { minifySpaces := true } = true := by decide +kernel

/-! `test_self_closing` (`/repo/tests/html.rs:492-507`) -/

example : rendersTo "<component is=\"Header\" />" "<component is=\"Header\" />" { allowSelfClosing := true } = true := by decide +kernel
example : (errorOf "<component is=\"Header\" />").isSome = true := by decide +kernel

/-! `test_wrong_tag, test_wrong_endtag, test_unexpect_char` (`/repo/tests/html.rs:509-533`) -/

example : (errorOf "<abc#def>").isSome = true := by decide +kernel
example : (errorOf "<123>").isSome = true := by decide +kernel
example : (errorOf "<a>something</b>").isSome = true := by decide +kernel
example : (errorOf "<a class=\"\" /]").isSome = true := by decide +kernel

/-! `test_auto_fix_unclosed_tag` (`/repo/tests/html.rs:535-555`) -/

example : (errorOf "<a><b></b>").isSome = true := by decide +kernel
example : (parsed "<a><b></b>" { autoFixUnclosedTag := true }).isSome = true := by decide +kernel
example : (errorOf "<b></b><a>text").isSome = true := by decide +kernel
example : (parsed "<b></b><a>text" { autoFixUnclosedTag := true }).isSome = true := by decide +kernel

/-! `test_auto_fix_unexpected_endtag` (`/repo/tests/html.rs:557-597`) -/

example : (errorOf "text</a><b></b>").isSome = true := by decide +kernel
example : rendersTo "text</a><b></b>" "text<b></b>" { autoFixUnexpectedEndtag := true, autoFixUnclosedTag := true } = true := by decide +kernel
example : (errorOf "<b>text</a></b>").isSome = true := by decide +kernel
example : rendersTo "<b>text</a></b>" "<b>text</b>" { autoFixUnexpectedEndtag := true, autoFixUnclosedTag := true } = true := by decide +kernel
example : (errorOf "<b>text</a</b>").isSome = true := by decide +kernel
example : rendersTo "<b>text</a</b>" "<b>text</b>" { autoFixUnexpectedEndtag := true, autoFixUnclosedTag := true } = true := by decide +kernel

/-! `test_wrong_doctype` (`/repo/tests/html.rs:599-613`) -/

example : (errorOf "<!DOCTYP html>").isSome = true := by decide +kernel
example : (errorOf "<!DOCTYPE>").isSome = true := by decide +kernel
example : (parsed "<!DOCTYPE HTML>").isSome = true := by decide +kernel

/-! `test_case_senstive` (`/repo/tests/html.rs:615-638`) -/

example : (errorOf "<A></a>" { caseSensitiveTagname := true }).isSome = true := by decide +kernel
example : rendersTo "<META>" "<META>" { caseSensitiveTagname := true } = true := by decide +kernel

/-! `test_auto_fix_unescaped_lt` (`/repo/tests/html.rs:652-760`) -/

example : (errorOf "<div><</div>").isSome = true := by decide +kernel
example : rendersTo "<div><</div>" "<div>&lt;</div>" { autoFixUnescapedLt := true } = true := by decide +kernel
example : (errorOf "<<div></div>").isSome = true := by decide +kernel
example : rendersTo "<<div></div>" "&lt;<div></div>" { autoFixUnescapedLt := true } = true := by decide +kernel
example : (errorOf "<div><<div></div></div>").isSome = true := by decide +kernel
example : rendersTo "<div><<div></div></div>" "<div>&lt;<div></div></div>" { autoFixUnescapedLt := true } = true := by decide +kernel
example : (errorOf "<div>abc<</div>").isSome = true := by decide +kernel
example : rendersTo "<div>abc<</div>" "<div>abc&lt;</div>" { autoFixUnescapedLt := true } = true := by decide +kernel
example : (errorOf "<div> <</div>").isSome = true := by decide +kernel
example : rendersTo "<div> <</div>" "<div> &lt;</div>" { autoFixUnescapedLt := true } = true := by decide +kernel
example : (errorOf "<br><<div></div>").isSome = true := by decide +kernel
example : rendersTo "<br><<div></div>" "<br>&lt;<div></div>" { autoFixUnescapedLt := true } = true := by decide +kernel
example : (errorOf "<p/><<div></div>").isSome = true := by decide +kernel
example : rendersTo "<p/><<div></div>" "<p />&lt;<div></div>" { allowSelfClosing := true, autoFixUnescapedLt := true } = true := by decide +kernel
example : (errorOf "<div><span></span><123</div>").isSome = true := by decide +kernel
example : rendersTo "<div><span></span><123</div>" "<div><span></span>&lt;123</div>" { autoFixUnescapedLt := true } = true := by decide +kernel
example : ((treeOf "<div> <</div>" { autoFixUnescapedLt := true }).kids.flatMap Tree.kids).map (fun t => t.data.nodeType) = [.text] := by
  decide +kernel
example : ((treeOf "<div><span></span><123</div>" { autoFixUnescapedLt := true }).kids.flatMap Tree.kids).map
    (fun t => (t.data.nodeType, t.data.index)) = [(.tag, 0), (.text, 1)] := by decide +kernel

/-! `test_get_element_by_id` (`/repo/tests/html.rs:762-770`) -/

example : ["mydiv", "haha", "none"].map (fun i => (parsed "<div id=\"mydiv\"></div><p id=haha></p>").map (fun d => (d.getElementById i.toList).isSome)) =
    [some true, some true, some false] := by decide +kernel

/-! `test_is_document` (`/repo/tests/html.rs:772-787`) -/

example : isDocument (treeOf "<!--MYHTML--><!DOCTYPE html> <html></html>   ") = (true, true) := by decide +kernel
example : isDocument (treeOf "<!DOCTYPE html><html></html><div></div>") = (true, false) := by decide +kernel
example : isDocument (treeOf "<!DOCTYPE html><body></body>") = (false, true) := by decide +kernel

/-! `test_eof` (`/repo/tests/html.rs:802-823`) -/

example : (errorOf "<div></div><!--").isSome = true := by decide +kernel
example : rendersTo "<div></div>abc" "<div></div>abc" = true := by decide +kernel
example : (errorOf "<div></div><div>abc").isSome = true := by decide +kernel
example : rendersTo "<div></div><div>abc" "<div></div><div>abc</div>" { autoFixUnclosedTag := true } = true := by decide +kernel

/-! `test_decode` (`/repo/tests/html.rs:825-862; the first case goes through `decodeAll`, which the toy codec does not implement`) -/

example : textTo "<div>This  is a &gt;</div>" "This is a >" { decodeEntity := true, minifySpaces := true } = true := by decide +kernel
example : textTo "<div>This  is  a &gt</div>" "This is a &gt" { decodeEntity := true, minifySpaces := true } = true := by decide +kernel
example : textTo "<div>This   is   a   &</div>" "This is a &" { decodeEntity := true, minifySpaces := true } = true := by decide +kernel

/-! `test_clone_node` (`/repo/tests/html.rs:870-953`) -/

example :
    (parsed "<div id=\"clone\"><span id=\"sub\">abc</span>def<br /></div>").bind (fun d =>
      (d.getElementById "clone".toList).bind (fun i =>
        (d.heap.cloneNode d.heap.size i).map (fun (h, j) =>
          let n := d.heap.cell i
          let c := h.cell j
          (c.beginAt == 0 && c.endAt == n.endAt - n.beginAt && c.nodeType == n.nodeType && c.index == 0,
            c.root == n.root && c.root.isSome,
            c.childs.map (·.length),
            (c.childs.getD []).map (fun k => ((h.cell k).index, (h.cell k).prev.isSome))))))  =
    some (true, true, some 3, [(0, false), (1, true), (2, true)]) := by decide +kernel

end Rphtml.Conformance
