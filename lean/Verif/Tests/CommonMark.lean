import Verif.Props.CommonSpec
/-!
# The examples of the CommonMark standard

The examples of CommonMark 0.29, asked of the specification `CM.html` of C125: those on blocks that have no tabs, no inline
markup and nothing else that the specification leaves out. These are tests of the specification, not claims. A newline
in the rendered document is compared as a space, as one is written between the lines of a paragraph. The sandbox has no copy of the standard: the examples and their numbers
are written down from memory.
-/

namespace MF.CM

/-- Escapes of HTML. -/
def escape (l : Str) : Str :=
  (l.map fun c => if c = '<' then c!"&lt;" else if c = '>' then c!"&gt;" else if c = '&' then c!"&amp;"
    else if c = '"' then c!"&quot;" else [c]).flatten

/-- A text in HTML. -/
def textHtml : List Piece → Str
  | [] => []
  | [.word w] => escape w
  | .word w :: .br :: r => escape w ++ c!"<br />" ++ textHtml r
  | .word w :: r => escape w ++ ' ' :: textHtml r
  | .br :: r => c!"<br />" ++ textHtml r

/-- Whether the list that is open is loose; `n` more lists are open in it. -/
def looseEnd : Nat → List Ev → Bool
  | _, [] => false
  | n, .list .. :: r => looseEnd (n + 1) r
  | 0, .endList b :: _ => b
  | n + 1, .endList _ :: r => looseEnd n r
  | n, _ :: r => looseEnd n r

/-- A rendered document as HTML. The flags say for each open container whether it is an item of a tight list: paragraphs
directly in an item have no tags. -/
def toHtml : List (Bool × Mark) → List Ev → Str
  | _, [] => []
  | st, .quote :: r => c!"<blockquote>" ++ toHtml ((false, .bullet '*') :: st) r
  | st, .endQuote :: r => c!"</blockquote>" ++ toHtml st.tail r
  | st, .list (.bullet c) _ :: r => c!"<ul>" ++ toHtml ((!looseEnd 0 r, .bullet c) :: st) r
  | st, .list (.number c) k :: r =>
    (if k = 1 then c!"<ol>" else c!"<ol start=\"" ++ natStr k ++ c!"\">") ++ toHtml ((!looseEnd 0 r, .number c) :: st) r
  | st, .item :: r => c!"<li>" ++ toHtml st r
  | st, .endItem :: r => c!"</li>" ++ toHtml st r
  | st, .endList _ :: r => (match st with | (_, .number _) :: _ => c!"</ol>" | _ => c!"</ul>") ++ toHtml st.tail r
  | st, .heading k t :: r => c!"<h" ++ natStr k ++ c!">" ++ textHtml t ++ c!"</h" ++ natStr k ++ c!">" ++ toHtml st r
  | st, .par t :: r =>
    (if (st.head?.map (·.1)).getD false then textHtml t else c!"<p>" ++ textHtml t ++ c!"</p>") ++ toHtml st r
  | st, .rule :: r => c!"<hr />" ++ toHtml st r
  | st, .code info body :: r =>
    (match splitWs info with
      | [] => c!"<pre><code>"
      | x :: _ => c!"<pre><code class=\"language-" ++ escape x ++ c!"\">") ++
      (body.map fun l => escape l ++ ['\n']).flatten ++ c!"</code></pre>" ++ toHtml st r

/-- Newlines between tags go, others become spaces, except in code. The flags: in code; behind a tag. -/
def joinHtml (pre tag : Bool) : Str → Str
  | [] => []
  | c :: r =>
    let pre := if startsWith (c :: r) c!"<pre>" then true else if startsWith (c :: r) c!"</pre>" then false else pre
    if c = '\n' && !pre then
      if tag || r.isEmpty || r.head? = some '<' then joinHtml pre tag r else ' ' :: joinHtml pre false r
    else c :: joinHtml pre (c = '>') r

/-- Whether the specification renders this document like this. -/
def example? (text html : Str) : Bool := (CM.html text).map (toHtml []) == some (joinHtml false true html)

set_option maxRecDepth 20000

/-- Examples 13, 14, 15, 16, 17, 18, 19, 20, 21, 22, 23, 24, 25, 27, 28, 29, 30, 31: thematic breaks. -/
theorem thematic_breaks : ([
    (c!"***\n---\n___\n",
      c!"<hr />\n<hr />\n<hr />\n"),
    (c!"+++\n",
      c!"<p>+++</p>\n"),
    (c!"===\n",
      c!"<p>===</p>\n"),
    (c!"--\n**\n__\n",
      c!"<p>--\n**\n__</p>\n"),
    (c!" ***\n  ***\n   ***\n",
      c!"<hr />\n<hr />\n<hr />\n"),
    (c!"    ***\n",
      c!"<pre><code>***\n</code></pre>\n"),
    (c!"Foo\n    ***\n",
      c!"<p>Foo\n***</p>\n"),
    (c!"_____________________________________\n",
      c!"<hr />\n"),
    (c!" - - -\n",
      c!"<hr />\n"),
    (c!" **  * ** * ** * **\n",
      c!"<hr />\n"),
    (c!"-     -      -      -\n",
      c!"<hr />\n"),
    (c!"- - - -    \n",
      c!"<hr />\n"),
    (c!"_ _ _ _ a\n\na------\n\n---a---\n",
      c!"<p>_ _ _ _ a</p>\n<p>a------</p>\n<p>---a---</p>\n"),
    (c!"- foo\n***\n- bar\n",
      c!"<ul>\n<li>foo</li>\n</ul>\n<hr />\n<ul>\n<li>bar</li>\n</ul>\n"),
    (c!"Foo\n***\nbar\n",
      c!"<p>Foo</p>\n<hr />\n<p>bar</p>\n"),
    (c!"Foo\n---\nbar\n",
      c!"<h2>Foo</h2>\n<p>bar</p>\n"),
    (c!"* Foo\n* * *\n* Bar\n",
      c!"<ul>\n<li>Foo</li>\n</ul>\n<hr />\n<ul>\n<li>Bar</li>\n</ul>\n"),
    (c!"- Foo\n- * * *\n",
      c!"<ul>\n<li>Foo</li>\n<li>\n<hr />\n</li>\n</ul>\n")] : List (Str × Str)).all (fun e => example? e.1 e.2) = true := by
  decide +kernel

/-- Examples 32, 33, 34, 37, 38, 39, 40, 41, 42, 43, 44, 45, 47, 48, 49: ATX headings. -/
theorem atx_headings : ([
    (c!"# foo\n## foo\n### foo\n#### foo\n##### foo\n###### foo\n",
      c!"<h1>foo</h1>\n<h2>foo</h2>\n<h3>foo</h3>\n<h4>foo</h4>\n<h5>foo</h5>\n<h6>foo</h6>\n"),
    (c!"####### foo\n",
      c!"<p>####### foo</p>\n"),
    (c!"#5 bolt\n\n#hashtag\n",
      c!"<p>#5 bolt</p>\n<p>#hashtag</p>\n"),
    (c!"#                  foo                     \n",
      c!"<h1>foo</h1>\n"),
    (c!" ### foo\n  ## foo\n   # foo\n",
      c!"<h3>foo</h3>\n<h2>foo</h2>\n<h1>foo</h1>\n"),
    (c!"    # foo\n",
      c!"<pre><code># foo\n</code></pre>\n"),
    (c!"foo\n    # bar\n",
      c!"<p>foo\n# bar</p>\n"),
    (c!"## foo ##\n  ###   bar    ###\n",
      c!"<h2>foo</h2>\n<h3>bar</h3>\n"),
    (c!"# foo ##################################\n##### foo ##\n",
      c!"<h1>foo</h1>\n<h5>foo</h5>\n"),
    (c!"### foo ###     \n",
      c!"<h3>foo</h3>\n"),
    (c!"### foo ### b\n",
      c!"<h3>foo ### b</h3>\n"),
    (c!"# foo#\n",
      c!"<h1>foo#</h1>\n"),
    (c!"****\n## foo\n****\n",
      c!"<hr />\n<h2>foo</h2>\n<hr />\n"),
    (c!"Foo bar\n# baz\nBar foo\n",
      c!"<p>Foo bar</p>\n<h1>baz</h1>\n<p>Bar foo</p>\n"),
    (c!"## \n#\n### ###\n",
      c!"<h2></h2>\n<h1></h1>\n<h3></h3>\n")] : List (Str × Str)).all (fun e => example? e.1 e.2) = true := by
  decide +kernel

/-- Examples 53, 54, 55, 56, 57, 58, 59, 60, 62, 63, 64, 65, 66, 67, 68, 69, 70, 71, 73, 74, 75: setext headings. -/
theorem setext_headings : ([
    (c!"Foo\n-------------------------\n\nFoo\n=\n",
      c!"<h2>Foo</h2>\n<h1>Foo</h1>\n"),
    (c!"   Foo\n---\n\n  Foo\n-----\n\n  Foo\n  ===\n",
      c!"<h2>Foo</h2>\n<h2>Foo</h2>\n<h1>Foo</h1>\n"),
    (c!"    Foo\n    ---\n\n    Foo\n---\n",
      c!"<pre><code>Foo\n---\n\nFoo\n</code></pre>\n<hr />\n"),
    (c!"Foo\n   ----      \n",
      c!"<h2>Foo</h2>\n"),
    (c!"Foo\n    ---\n",
      c!"<p>Foo\n---</p>\n"),
    (c!"Foo\n= =\n\nFoo\n--- -\n",
      c!"<p>Foo\n= =</p>\n<p>Foo</p>\n<hr />\n"),
    (c!"Foo  \n-----\n",
      c!"<h2>Foo</h2>\n"),
    (c!"Foo\\\n----\n",
      c!"<h2>Foo\\</h2>\n"),
    (c!"> Foo\n---\n",
      c!"<blockquote>\n<p>Foo</p>\n</blockquote>\n<hr />\n"),
    (c!"> foo\nbar\n===\n",
      c!"<blockquote>\n<p>foo\nbar\n===</p>\n</blockquote>\n"),
    (c!"- Foo\n---\n",
      c!"<ul>\n<li>Foo</li>\n</ul>\n<hr />\n"),
    (c!"Foo\nBar\n---\n",
      c!"<h2>Foo\nBar</h2>\n"),
    (c!"---\nFoo\n---\nBar\n---\nBaz\n",
      c!"<hr />\n<h2>Foo</h2>\n<h2>Bar</h2>\n<p>Baz</p>\n"),
    (c!"\n====\n",
      c!"<p>====</p>\n"),
    (c!"---\n---\n",
      c!"<hr />\n<hr />\n"),
    (c!"- foo\n-----\n",
      c!"<ul>\n<li>foo</li>\n</ul>\n<hr />\n"),
    (c!"    foo\n---\n",
      c!"<pre><code>foo\n</code></pre>\n<hr />\n"),
    (c!"> foo\n-----\n",
      c!"<blockquote>\n<p>foo</p>\n</blockquote>\n<hr />\n"),
    (c!"Foo\n\nbar\n---\nbaz\n",
      c!"<p>Foo</p>\n<h2>bar</h2>\n<p>baz</p>\n"),
    (c!"Foo\nbar\n\n---\n\nbaz\n",
      c!"<p>Foo\nbar</p>\n<hr />\n<p>baz</p>\n"),
    (c!"Foo\nbar\n* * *\nbaz\n",
      c!"<p>Foo\nbar</p>\n<hr />\n<p>baz</p>\n")] : List (Str × Str)).all (fun e => example? e.1 e.2) = true := by
  decide +kernel

/-- Examples 77, 80, 81, 82, 83, 84, 85, 86, 87, 88: indented code. -/
theorem indented_code : ([
    (c!"    a simple\n      indented code block\n",
      c!"<pre><code>a simple\n  indented code block\n</code></pre>\n"),
    (c!"    <a/>\n    *hi*\n\n    - one\n",
      c!"<pre><code>&lt;a/&gt;\n*hi*\n\n- one\n</code></pre>\n"),
    (c!"    chunk1\n\n    chunk2\n  \n \n \n    chunk3\n",
      c!"<pre><code>chunk1\n\nchunk2\n\n\n\nchunk3\n</code></pre>\n"),
    (c!"    chunk1\n      \n      chunk2\n",
      c!"<pre><code>chunk1\n  \n  chunk2\n</code></pre>\n"),
    (c!"Foo\n    bar\n",
      c!"<p>Foo\nbar</p>\n"),
    (c!"    foo\nbar\n",
      c!"<pre><code>foo\n</code></pre>\n<p>bar</p>\n"),
    (c!"# Heading\n    foo\nHeading\n------\n    foo\n----\n",
      c!"<h1>Heading</h1>\n<pre><code>foo\n</code></pre>\n<h2>Heading</h2>\n<pre><code>foo\n</code></pre>\n<hr />\n"),
    (c!"        foo\n    bar\n",
      c!"<pre><code>    foo\nbar\n</code></pre>\n"),
    (c!"\n    \n    foo\n    \n",
      c!"<pre><code>foo\n</code></pre>\n"),
    (c!"    foo  \n",
      c!"<pre><code>foo  \n</code></pre>\n")] : List (Str × Str)).all (fun e => example? e.1 e.2) = true := by
  decide +kernel

/-- Examples 89, 90, 92, 93, 94, 95, 96, 97, 98, 99, 100, 101, 102, 103, 104, 105, 106, 107, 109, 110, 111, 112, 113, 114, 116, 117: fenced code. -/
theorem fenced_code : ([
    (c!"```\n<\n >\n```\n",
      c!"<pre><code>&lt;\n &gt;\n</code></pre>\n"),
    (c!"~~~\n<\n >\n~~~\n",
      c!"<pre><code>&lt;\n &gt;\n</code></pre>\n"),
    (c!"```\naaa\n~~~\n```\n",
      c!"<pre><code>aaa\n~~~\n</code></pre>\n"),
    (c!"~~~\naaa\n```\n~~~\n",
      c!"<pre><code>aaa\n```\n</code></pre>\n"),
    (c!"````\naaa\n```\n``````\n",
      c!"<pre><code>aaa\n```\n</code></pre>\n"),
    (c!"~~~~\naaa\n~~~\n~~~~\n",
      c!"<pre><code>aaa\n~~~\n</code></pre>\n"),
    (c!"```\n",
      c!"<pre><code></code></pre>\n"),
    (c!"`````\n\n```\naaa\n",
      c!"<pre><code>\n```\naaa\n</code></pre>\n"),
    (c!"> ```\n> aaa\n\nbbb\n",
      c!"<blockquote>\n<pre><code>aaa\n</code></pre>\n</blockquote>\n<p>bbb</p>\n"),
    (c!"```\n\n  \n```\n",
      c!"<pre><code>\n  \n</code></pre>\n"),
    (c!"```\n```\n",
      c!"<pre><code></code></pre>\n"),
    (c!" ```\n aaa\naaa\n```\n",
      c!"<pre><code>aaa\naaa\n</code></pre>\n"),
    (c!"  ```\naaa\n  aaa\naaa\n  ```\n",
      c!"<pre><code>aaa\naaa\naaa\n</code></pre>\n"),
    (c!"   ```\n   aaa\n    aaa\n  aaa\n   ```\n",
      c!"<pre><code>aaa\n aaa\naaa\n</code></pre>\n"),
    (c!"    ```\n    aaa\n    ```\n",
      c!"<pre><code>```\naaa\n```\n</code></pre>\n"),
    (c!"```\naaa\n  ```\n",
      c!"<pre><code>aaa\n</code></pre>\n"),
    (c!"   ```\naaa\n  ```\n",
      c!"<pre><code>aaa\n</code></pre>\n"),
    (c!"```\naaa\n    ```\n",
      c!"<pre><code>aaa\n    ```\n</code></pre>\n"),
    (c!"~~~~~~\naaa\n~~~ ~~\n",
      c!"<pre><code>aaa\n~~~ ~~\n</code></pre>\n"),
    (c!"foo\n```\nbar\n```\nbaz\n",
      c!"<p>foo</p>\n<pre><code>bar\n</code></pre>\n<p>baz</p>\n"),
    (c!"foo\n---\n~~~\nbar\n~~~\n# baz\n",
      c!"<h2>foo</h2>\n<pre><code>bar\n</code></pre>\n<h1>baz</h1>\n"),
    (c!"```ruby\ndef foo(x)\n  return 3\nend\n```\n",
      c!"<pre><code class=\"language-ruby\">def foo(x)\n  return 3\nend\n</code></pre>\n"),
    (c!"~~~~    ruby startline=3 $%@#$\ndef foo(x)\n  return 3\nend\n~~~~~~~\n",
      c!"<pre><code class=\"language-ruby\">def foo(x)\n  return 3\nend\n</code></pre>\n"),
    (c!"````;\n````\n",
      c!"<pre><code class=\"language-;\"></code></pre>\n"),
    (c!"~~~ aa ``` ~~~\nfoo\n~~~\n",
      c!"<pre><code class=\"language-aa\">foo\n</code></pre>\n"),
    (c!"```\n``` aaa\n```\n",
      c!"<pre><code>``` aaa\n</code></pre>\n")] : List (Str × Str)).all (fun e => example? e.1 e.2) = true := by
  decide +kernel

/-- Examples 189, 190, 191, 192, 193, 194, 195, 196, 197: paragraphs and blank lines. -/
theorem paragraphs_and_blank_lines : ([
    (c!"aaa\n\nbbb\n",
      c!"<p>aaa</p>\n<p>bbb</p>\n"),
    (c!"aaa\nbbb\n\nccc\nddd\n",
      c!"<p>aaa\nbbb</p>\n<p>ccc\nddd</p>\n"),
    (c!"aaa\n\n\nbbb\n",
      c!"<p>aaa</p>\n<p>bbb</p>\n"),
    (c!"  aaa\n bbb\n",
      c!"<p>aaa\nbbb</p>\n"),
    (c!"aaa\n             bbb\n                                       ccc\n",
      c!"<p>aaa\nbbb\nccc</p>\n"),
    (c!"   aaa\nbbb\n",
      c!"<p>aaa\nbbb</p>\n"),
    (c!"    aaa\nbbb\n",
      c!"<pre><code>aaa\n</code></pre>\n<p>bbb</p>\n"),
    (c!"aaa     \nbbb     \n",
      c!"<p>aaa<br />\nbbb</p>\n"),
    (c!"  \n\naaa\n  \n\n# aaa\n\n  \n",
      c!"<p>aaa</p>\n<h1>aaa</h1>\n")] : List (Str × Str)).all (fun e => example? e.1 e.2) = true := by
  decide +kernel

/-- Examples 198, 199, 200, 201, 202, 203, 204, 205, 206, 207, 208, 209, 210, 211, 212, 213, 214, 215, 216, 217, 218, 219, 220, 221, 222: block quotes. -/
theorem block_quotes : ([
    (c!"> # Foo\n> bar\n> baz\n",
      c!"<blockquote>\n<h1>Foo</h1>\n<p>bar\nbaz</p>\n</blockquote>\n"),
    (c!"># Foo\n>bar\n> baz\n",
      c!"<blockquote>\n<h1>Foo</h1>\n<p>bar\nbaz</p>\n</blockquote>\n"),
    (c!"   > # Foo\n   > bar\n > baz\n",
      c!"<blockquote>\n<h1>Foo</h1>\n<p>bar\nbaz</p>\n</blockquote>\n"),
    (c!"    > # Foo\n    > bar\n    > baz\n",
      c!"<pre><code>&gt; # Foo\n&gt; bar\n&gt; baz\n</code></pre>\n"),
    (c!"> # Foo\n> bar\nbaz\n",
      c!"<blockquote>\n<h1>Foo</h1>\n<p>bar\nbaz</p>\n</blockquote>\n"),
    (c!"> bar\nbaz\n> foo\n",
      c!"<blockquote>\n<p>bar\nbaz\nfoo</p>\n</blockquote>\n"),
    (c!"> foo\n---\n",
      c!"<blockquote>\n<p>foo</p>\n</blockquote>\n<hr />\n"),
    (c!"> - foo\n- bar\n",
      c!"<blockquote>\n<ul>\n<li>foo</li>\n</ul>\n</blockquote>\n<ul>\n<li>bar</li>\n</ul>\n"),
    (c!">     foo\n    bar\n",
      c!"<blockquote>\n<pre><code>foo\n</code></pre>\n</blockquote>\n<pre><code>bar\n</code></pre>\n"),
    (c!"> ```\nfoo\n```\n",
      c!"<blockquote>\n<pre><code></code></pre>\n</blockquote>\n<p>foo</p>\n<pre><code></code></pre>\n"),
    (c!"> foo\n    - bar\n",
      c!"<blockquote>\n<p>foo\n- bar</p>\n</blockquote>\n"),
    (c!">\n",
      c!"<blockquote>\n</blockquote>\n"),
    (c!">\n>  \n> \n",
      c!"<blockquote>\n</blockquote>\n"),
    (c!">\n> foo\n>  \n",
      c!"<blockquote>\n<p>foo</p>\n</blockquote>\n"),
    (c!"> foo\n\n> bar\n",
      c!"<blockquote>\n<p>foo</p>\n</blockquote>\n<blockquote>\n<p>bar</p>\n</blockquote>\n"),
    (c!"> foo\n> bar\n",
      c!"<blockquote>\n<p>foo\nbar</p>\n</blockquote>\n"),
    (c!"> foo\n>\n> bar\n",
      c!"<blockquote>\n<p>foo</p>\n<p>bar</p>\n</blockquote>\n"),
    (c!"foo\n> bar\n",
      c!"<p>foo</p>\n<blockquote>\n<p>bar</p>\n</blockquote>\n"),
    (c!"> aaa\n***\n> bbb\n",
      c!"<blockquote>\n<p>aaa</p>\n</blockquote>\n<hr />\n<blockquote>\n<p>bbb</p>\n</blockquote>\n"),
    (c!"> bar\nbaz\n",
      c!"<blockquote>\n<p>bar\nbaz</p>\n</blockquote>\n"),
    (c!"> bar\n\nbaz\n",
      c!"<blockquote>\n<p>bar</p>\n</blockquote>\n<p>baz</p>\n"),
    (c!"> bar\n>\nbaz\n",
      c!"<blockquote>\n<p>bar</p>\n</blockquote>\n<p>baz</p>\n"),
    (c!"> > > foo\nbar\n",
      c!"<blockquote>\n<blockquote>\n<blockquote>\n<p>foo\nbar</p>\n</blockquote>\n</blockquote>\n</blockquote>\n"),
    (c!">>> foo\n> bar\n>>baz\n",
      c!"<blockquote>\n<blockquote>\n<blockquote>\n<p>foo\nbar\nbaz</p>\n</blockquote>\n</blockquote>\n</blockquote>\n"),
    (c!">     code\n\n>    not code\n",
      c!"<blockquote>\n<pre><code>code\n</code></pre>\n</blockquote>\n<blockquote>\n<p>not code</p>\n</blockquote>\n")] : List (Str × Str)).all (fun e => example? e.1 e.2) = true := by
  decide +kernel

/-- Examples 223, 225, 227, 231, 235, 236, 237, 238, 239, 246, 247, 261, 262, 260, 263, 264, 265, 266, 267, 268, 269: list items. -/
theorem list_items : ([
    (c!"A paragraph\nwith two lines.\n\n    indented code\n\n> A block quote.\n",
      c!"<p>A paragraph\nwith two lines.</p>\n<pre><code>indented code\n</code></pre>\n<blockquote>\n<p>A block quote.</p>\n</blockquote>\n"),
    (c!"- one\n\n two\n",
      c!"<ul>\n<li>one</li>\n</ul>\n<p>two</p>\n"),
    (c!" -    one\n\n     two\n",
      c!"<ul>\n<li>one</li>\n</ul>\n<pre><code> two\n</code></pre>\n"),
    (c!"-one\n\n2.two\n",
      c!"<p>-one</p>\n<p>2.two</p>\n"),
    (c!"123456789. ok\n",
      c!"<ol start=\"123456789\">\n<li>ok</li>\n</ol>\n"),
    (c!"1234567890. not ok\n",
      c!"<p>1234567890. not ok</p>\n"),
    (c!"0. ok\n",
      c!"<ol start=\"0\">\n<li>ok</li>\n</ol>\n"),
    (c!"003. ok\n",
      c!"<ol start=\"3\">\n<li>ok</li>\n</ol>\n"),
    (c!"-1. not ok\n",
      c!"<p>-1. not ok</p>\n"),
    (c!"   foo\n\nbar\n",
      c!"<p>foo</p>\n<p>bar</p>\n"),
    (c!"-    foo\n\n  bar\n",
      c!"<ul>\n<li>foo</li>\n</ul>\n<p>bar</p>\n"),
    (c!"> 1. > Blockquote\ncontinued here.\n",
      c!"<blockquote>\n<ol>\n<li>\n<blockquote>\n<p>Blockquote\ncontinued here.</p>\n</blockquote>\n</li>\n</ol>\n</blockquote>\n"),
    (c!"> 1. > Blockquote\n> continued here.\n",
      c!"<blockquote>\n<ol>\n<li>\n<blockquote>\n<p>Blockquote\ncontinued here.</p>\n</blockquote>\n</li>\n</ol>\n</blockquote>\n"),
    (c!"  1.  A paragraph\n    with two lines.\n",
      c!"<ol>\n<li>A paragraph\nwith two lines.</li>\n</ol>\n"),
    (c!"- foo\n  - bar\n    - baz\n      - boo\n",
      c!"<ul>\n<li>foo\n<ul>\n<li>bar\n<ul>\n<li>baz\n<ul>\n<li>boo</li>\n</ul>\n</li>\n</ul>\n</li>\n</ul>\n</li>\n</ul>\n"),
    (c!"- foo\n - bar\n  - baz\n   - boo\n",
      c!"<ul>\n<li>foo</li>\n<li>bar</li>\n<li>baz</li>\n<li>boo</li>\n</ul>\n"),
    (c!"10) foo\n    - bar\n",
      c!"<ol start=\"10\">\n<li>foo\n<ul>\n<li>bar</li>\n</ul>\n</li>\n</ol>\n"),
    (c!"10) foo\n   - bar\n",
      c!"<ol start=\"10\">\n<li>foo</li>\n</ol>\n<ul>\n<li>bar</li>\n</ul>\n"),
    (c!"- - foo\n",
      c!"<ul>\n<li>\n<ul>\n<li>foo</li>\n</ul>\n</li>\n</ul>\n"),
    (c!"1. - 2. foo\n",
      c!"<ol>\n<li>\n<ul>\n<li>\n<ol start=\"2\">\n<li>foo</li>\n</ol>\n</li>\n</ul>\n</li>\n</ol>\n"),
    (c!"- # Foo\n- Bar\n  ---\n  baz\n",
      c!"<ul>\n<li>\n<h1>Foo</h1>\n</li>\n<li>\n<h2>Bar</h2>\nbaz</li>\n</ul>\n")] : List (Str × Str)).all (fun e => example? e.1 e.2) = true := by
  decide +kernel

/-- Examples 270, 271, 272, 273, 274, 280, 282, 291, 292, 293: lists. -/
theorem lists : ([
    (c!"- foo\n- bar\n+ baz\n",
      c!"<ul>\n<li>foo</li>\n<li>bar</li>\n</ul>\n<ul>\n<li>baz</li>\n</ul>\n"),
    (c!"1. foo\n2. bar\n3) baz\n",
      c!"<ol>\n<li>foo</li>\n<li>bar</li>\n</ol>\n<ol start=\"3\">\n<li>baz</li>\n</ol>\n"),
    (c!"Foo\n- bar\n- baz\n",
      c!"<p>Foo</p>\n<ul>\n<li>bar</li>\n<li>baz</li>\n</ul>\n"),
    (c!"The number of windows in my house is\n14.  The number of doors is 6.\n",
      c!"<p>The number of windows in my house is\n14. The number of doors is 6.</p>\n"),
    (c!"The number of windows in my house is\n1.  The number of doors is 6.\n",
      c!"<p>The number of windows in my house is</p>\n<ol>\n<li>The number of doors is 6.</li>\n</ol>\n"),
    (c!"- a\n - b\n  - c\n   - d\n  - e\n - f\n- g\n",
      c!"<ul>\n<li>a</li>\n<li>b</li>\n<li>c</li>\n<li>d</li>\n<li>e</li>\n<li>f</li>\n<li>g</li>\n</ul>\n"),
    (c!"- a\n - b\n  - c\n   - d\n    - e\n",
      c!"<ul>\n<li>a</li>\n<li>b</li>\n<li>c</li>\n<li>d\n- e</li>\n</ul>\n"),
    (c!"- a\n  > b\n  ```\n  c\n  ```\n- d\n",
      c!"<ul>\n<li>a\n<blockquote>\n<p>b</p>\n</blockquote>\n<pre><code>c\n</code></pre>\n</li>\n<li>d</li>\n</ul>\n"),
    (c!"- a\n",
      c!"<ul>\n<li>a</li>\n</ul>\n"),
    (c!"- a\n  - b\n",
      c!"<ul>\n<li>a\n<ul>\n<li>b</li>\n</ul>\n</li>\n</ul>\n")] : List (Str × Str)).all (fun e => example? e.1 e.2) = true := by
  decide +kernel

/-- Examples of list items and lists with blank lines. -/
theorem loose_lists : ([
    (c!"1.  A paragraph\n    with two lines.\n\n        indented code\n\n    > A block quote.\n",
      c!"<ol>\n<li>\n<p>A paragraph\nwith two lines.</p>\n<pre><code>indented code\n</code></pre>\n<blockquote>\n<p>A block quote.</p>\n</blockquote>\n</li>\n</ol>\n"),
    (c!"- one\n\n  two\n",
      c!"<ul>\n<li>\n<p>one</p>\n<p>two</p>\n</li>\n</ul>\n"),
    (c!" -    one\n\n      two\n",
      c!"<ul>\n<li>\n<p>one</p>\n<p>two</p>\n</li>\n</ul>\n"),
    (c!"   > > 1.  one\n>>\n>>     two\n",
      c!"<blockquote>\n<blockquote>\n<ol>\n<li>\n<p>one</p>\n<p>two</p>\n</li>\n</ol>\n</blockquote>\n</blockquote>\n"),
    (c!"- foo\n\n\n  bar\n",
      c!"<ul>\n<li>\n<p>foo</p>\n<p>bar</p>\n</li>\n</ul>\n"),
    (c!"1.  foo\n\n    ```\n    bar\n    ```\n\n    baz\n\n    > bam\n",
      c!"<ol>\n<li>\n<p>foo</p>\n<pre><code>bar\n</code></pre>\n<p>baz</p>\n<blockquote>\n<p>bam</p>\n</blockquote>\n</li>\n</ol>\n"),
    (c!"- Foo\n\n      bar\n\n\n      baz\n",
      c!"<ul>\n<li>\n<p>Foo</p>\n<pre><code>bar\n\n\nbaz\n</code></pre>\n</li>\n</ul>\n"),
    (c!"- foo\n\n      bar\n",
      c!"<ul>\n<li>\n<p>foo</p>\n<pre><code>bar\n</code></pre>\n</li>\n</ul>\n"),
    (c!"  10.  foo\n\n           bar\n",
      c!"<ol start=\"10\">\n<li>\n<p>foo</p>\n<pre><code>bar\n</code></pre>\n</li>\n</ol>\n"),
    (c!"1.     indented code\n\n   paragraph\n\n       more code\n",
      c!"<ol>\n<li>\n<pre><code>indented code\n</code></pre>\n<p>paragraph</p>\n<pre><code>more code\n</code></pre>\n</li>\n</ol>\n"),
    (c!"1.      indented code\n\n   paragraph\n\n       more code\n",
      c!"<ol>\n<li>\n<pre><code> indented code\n</code></pre>\n<p>paragraph</p>\n<pre><code>more code\n</code></pre>\n</li>\n</ol>\n"),
    (c!"-  foo\n\n   bar\n",
      c!"<ul>\n<li>\n<p>foo</p>\n<p>bar</p>\n</li>\n</ul>\n"),
    (c!" 1.  A paragraph\n     with two lines.\n\n         indented code\n\n     > A block quote.\n",
      c!"<ol>\n<li>\n<p>A paragraph\nwith two lines.</p>\n<pre><code>indented code\n</code></pre>\n<blockquote>\n<p>A block quote.</p>\n</blockquote>\n</li>\n</ol>\n"),
    (c!"  1.  A paragraph\nwith two lines.\n\n          indented code\n\n      > A block quote.\n",
      c!"<ol>\n<li>\n<p>A paragraph\nwith two lines.</p>\n<pre><code>indented code\n</code></pre>\n<blockquote>\n<p>A block quote.</p>\n</blockquote>\n</li>\n</ol>\n"),
    (c!"- foo\n\n- bar\n\n\n- baz\n",
      c!"<ul>\n<li>\n<p>foo</p>\n</li>\n<li>\n<p>bar</p>\n</li>\n<li>\n<p>baz</p>\n</li>\n</ul>\n"),
    (c!"- foo\n  - bar\n    - baz\n\n\n      bim\n",
      c!"<ul>\n<li>foo\n<ul>\n<li>bar\n<ul>\n<li>\n<p>baz</p>\n<p>bim</p>\n</li>\n</ul>\n</li>\n</ul>\n</li>\n</ul>\n"),
    (c!"1. a\n\n  2. b\n\n   3. c\n",
      c!"<ol>\n<li>\n<p>a</p>\n</li>\n<li>\n<p>b</p>\n</li>\n<li>\n<p>c</p>\n</li>\n</ol>\n"),
    (c!"1. a\n\n  2. b\n\n    3. c\n",
      c!"<ol>\n<li>\n<p>a</p>\n</li>\n<li>\n<p>b</p>\n</li>\n</ol>\n<pre><code>3. c\n</code></pre>\n"),
    (c!"- a\n- b\n\n- c\n",
      c!"<ul>\n<li>\n<p>a</p>\n</li>\n<li>\n<p>b</p>\n</li>\n<li>\n<p>c</p>\n</li>\n</ul>\n"),
    (c!"- a\n- b\n\n  c\n- d\n",
      c!"<ul>\n<li>\n<p>a</p>\n</li>\n<li>\n<p>b</p>\n<p>c</p>\n</li>\n<li>\n<p>d</p>\n</li>\n</ul>\n"),
    (c!"- a\n- ```\n  b\n\n\n  ```\n- c\n",
      c!"<ul>\n<li>a</li>\n<li>\n<pre><code>b\n\n\n</code></pre>\n</li>\n<li>c</li>\n</ul>\n"),
    (c!"- a\n  - b\n\n    c\n- d\n",
      c!"<ul>\n<li>a\n<ul>\n<li>\n<p>b</p>\n<p>c</p>\n</li>\n</ul>\n</li>\n<li>d</li>\n</ul>\n"),
    (c!"* a\n  > b\n  >\n* c\n",
      c!"<ul>\n<li>a\n<blockquote>\n<p>b</p>\n</blockquote>\n</li>\n<li>c</li>\n</ul>\n"),
    (c!"1. ```\n   foo\n   ```\n\n   bar\n",
      c!"<ol>\n<li>\n<pre><code>foo\n</code></pre>\n<p>bar</p>\n</li>\n</ol>\n"),
    (c!"* foo\n  * bar\n\n  baz\n",
      c!"<ul>\n<li>\n<p>foo</p>\n<ul>\n<li>bar</li>\n</ul>\n<p>baz</p>\n</li>\n</ul>\n"),
    (c!"- a\n  - b\n  - c\n\n- d\n  - e\n  - f\n",
      c!"<ul>\n<li>\n<p>a</p>\n<ul>\n<li>b</li>\n<li>c</li>\n</ul>\n</li>\n<li>\n<p>d</p>\n<ul>\n<li>e</li>\n<li>f</li>\n</ul>\n</li>\n</ul>\n")] : List (Str × Str)).all (fun e => example? e.1 e.2) = true := by
  decide +kernel

/-- Examples 630, 631, 632, 633, 634, 640, 641, 643, 645, 646: line breaks. -/
theorem line_breaks : ([
    (c!"foo  \nbaz\n",
      c!"<p>foo<br />\nbaz</p>\n"),
    (c!"foo\\\nbaz\n",
      c!"<p>foo<br />\nbaz</p>\n"),
    (c!"foo       \nbaz\n",
      c!"<p>foo<br />\nbaz</p>\n"),
    (c!"foo  \n     bar\n",
      c!"<p>foo<br />\nbar</p>\n"),
    (c!"foo\\\n     bar\n",
      c!"<p>foo<br />\nbar</p>\n"),
    (c!"foo\\\n",
      c!"<p>foo\\</p>\n"),
    (c!"foo  \n",
      c!"<p>foo</p>\n"),
    (c!"### foo  \n",
      c!"<h3>foo</h3>\n"),
    (c!"foo\nbaz\n",
      c!"<p>foo\nbaz</p>\n"),
    (c!"foo \n baz\n",
      c!"<p>foo\nbaz</p>\n")] : List (Str × Str)).all (fun e => example? e.1 e.2) = true := by
  decide +kernel

/-- Examples of the section on links that are no links, and a paragraph that starts with a bracket. -/
theorem no_links : ([
    (c!"[link](/my uri)\n",
      c!"<p>[link](/my uri)</p>\n"),
    (c!"[link](foo\nbar)\n",
      c!"<p>[link](foo\nbar)</p>\n"),
    (c!"[link] (/uri)\n",
      c!"<p>[link] (/uri)</p>\n"),
    (c!"[link] bar](/uri)\n",
      c!"<p>[link] bar](/uri)</p>\n"),
    (c!"[foo] bar\n===\n[baz]\n",
      c!"<h1>[foo] bar</h1>\n<p>[baz]</p>\n")] : List (Str × Str)).all (fun e => example? e.1 e.2) = true := by
  decide +kernel

/-- Link definitions are not covered. -/
theorem definitions : [c!"[foo]: /url \"title\"\n\n[foo]\n", c!"[Foo*bar\\]]:my_(url)\n", c!"[\nfoo\n]: /url\nbar\n", c!"> [foo]: /url\n",
    c!"[foo]: /url\n===\n[foo]\n"].all (fun s => CM.html s == none) = true := by
  decide +kernel

end MF.CM
