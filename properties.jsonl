{"id": "C01", "title": "Output ends with exactly one newline", "statement": "Whenever reformat_markdown_text(text, width) returns, the returned string is some body followed by a single '\\n', and the body is empty or ends in a non-whitespace character.", "quantifier": "every text, every width (any integer or infinity)", "why_tests_cant": "Tests check a couple of files with too many trailing newlines; the claim is about every document, including documents whose last section emits trailing blanks.", "anchors": ["markflow/reformat_markdown.py:reformat_markdown_text"]}
{"id": "C02", "title": "Self-consistency gate", "statement": "reformat_markdown_text returns only if one formatting pass over the text and a second formatting pass over the result of the first give the same string, and what it returns is that string with its trailing whitespace replaced by one newline; if both passes succeed and differ it raises ReformatInconsistentException; if a pass raises, that error is what the caller sees.", "quantifier": "every text, every width", "why_tests_cant": "The branch that raises is by design never seen on inputs the authors know about.", "anchors": ["markflow/reformat_markdown.py:reformat_markdown_text", "markflow/exceptions.py:ReformatInconsistentException"]}
{"id": "C03", "title": "Reformatting is idempotent for callers", "statement": "If reformat_markdown_text(text, width) returns y then reformat_markdown_text(y, width) returns y.", "quantifier": "every text, every width", "why_tests_cant": "Needs all documents; the built-in double run checks the untrimmed intermediate text, not the string that is returned.", "anchors": ["markflow/reformat_markdown.py:reformat_markdown_text", "markflow/reformat_markdown.py:_reformat_markdown_text"]}
{"id": "C04", "title": "Newlines are all \\n", "statement": "The string returned by reformat_markdown_text contains no line separator other than '\\n' (no carriage return, vertical tab, form feed, file/group/record separator, NEL, U+2028 or U+2029), whatever separators the input used.", "quantifier": "every text, every width", "why_tests_cant": "There are ten other separators and each may occur anywhere in any section type, nested to any depth.", "anchors": ["markflow/reformat_markdown.py:_reformat_markdown_text", "README.md:Enforced Rules"]}
{"id": "C05", "title": "No invented characters", "statement": "Every character of the returned string either occurs in the input text or is one of the characters the formatters write by themselves: newline, space, '-' and the decimal digits. All other markup of the result, such as '#', '>', '|', ':', '.', '[' and ']', has its character in the input. The list is exact: each of these thirteen characters is written for some input that does not have it. A '-' is new only if the input has a '|', and a digit only if it has a '.' and another digit; any other text gets nothing but newlines and spaces.", "quantifier": "every text, every width", "why_tests_cant": "Ranges over all documents and all nesting depths.", "anchors": ["markflow/reformat_markdown.py:_reformat_markdown_text", "markflow/formatters/"]}
{"id": "C06", "title": "Formatting terminates", "statement": "For every text whose only horizontal whitespace is the space character, one formatting pass finishes within a recursion depth that depends on the text alone (no runaway recursion between block quote detection, parsing and nested formatting).", "quantifier": "every text, every width, every recursion budget", "why_tests_cant": "Termination over all inputs cannot be sampled; recursion re-enters the parser on rewritten text that can be longer than the original.", "anchors": ["markflow/detectors/block_quote.py:_block_quote_ends_with_paragraph", "markflow/detectors/block_quote.py:split_block_quote", "markflow/formatters/block_quote.py:MarkdownBlockQuote.reformatted", "markflow/formatters/lists.py:_reformat_markdown"]}
{"id": "C07", "title": "The result does not depend on the recursion budget", "statement": "If a formatting pass completes (with a value or with any error other than running out of recursion depth) under some recursion limit, it gives the same outcome under every larger limit.", "quantifier": "every text, every width, every pair of limits", "why_tests_cant": "Quantifies over all limits.", "anchors": ["markflow/reformat_markdown.py", "markflow/parser.py", "markflow/detectors/block_quote.py"]}
{"id": "C08", "title": "Parsing loses, duplicates and reorders nothing", "statement": "When parse_markdown(lines) returns, the concatenation of the section contents, in order, is exactly lines, and no section is empty.", "quantifier": "every list of lines", "why_tests_cant": "An off-by-one in any of twelve splitters shows up only for particular line arrangements.", "anchors": ["markflow/parser.py:parse_markdown", "markflow/detectors/"]}
{"id": "C09", "title": "Every document can be classified", "statement": "parse_markdown never raises 'Could not determine section type': any non-empty list of lines starts with a section that one of the splitters recognises.", "quantifier": "every list of lines", "why_tests_cant": "Claims the absence of an uncovered line shape among infinitely many.", "anchors": ["markflow/parser.py:parse_markdown", "markflow/detectors/_lines.py:is_paragraph_start_line"]}
{"id": "C10", "title": "Splitter contract", "statement": "Each of the twelve split functions, given a non-empty list of lines and returning normally, returns a pair whose concatenation is the input; when the first component is empty the second is the input unchanged.", "quantifier": "every splitter, every non-empty list of lines", "why_tests_cant": "Per-splitter off-by-ones depend on where the section ends relative to the document end.", "anchors": ["markflow/detectors/*.py:split_*"]}
{"id": "C11", "title": "Splitters are mutually exclusive", "statement": "For any non-empty list of lines, at most one of the twelve splitters recognises a section at its start (IMPLEMENTATION.md: 'if one splitter splits the text, no others should').", "quantifier": "every list of lines, every pair of splitters", "why_tests_cant": "IMPLEMENTATION.md itself says it 'isn't really tested (hint, hint)'; 66 pairs over all inputs.", "anchors": ["IMPLEMENTATION.md:Parsing Markdown", "markflow/parser.py:SPLITTERS", "markflow/detectors/"]}
{"id": "C12", "title": "ATX headings keep level and text", "statement": "A line recognised as an ATX heading is rewritten to a single line consisting of the same number of '#', one space and the trimmed heading text; that line is again an ATX heading with the same level and text, and rewriting it again changes nothing.", "quantifier": "every heading line, every width", "why_tests_cant": "All heading texts, including ones containing '#', unusual whitespace and empty headings.", "anchors": ["markflow/formatters/atx_heading.py:MarkdownATXHeading", "markflow/detectors/_lines.py:is_atx_heading_line"]}
{"id": "C13", "title": "Thematic breaks fill the line", "statement": "A thematic break is rewritten to its own character repeated exactly width times (three times for infinite width); for width at least 3 the result is again a thematic break line with the same character and rewriting is idempotent.", "quantifier": "every thematic break line, every width", "why_tests_cant": "All widths and all spacings of the marker characters.", "anchors": ["markflow/formatters/thematic_break.py:MarkdownThematicBreak", "markflow/detectors/_lines.py:is_thematic_break_line"]}
{"id": "C14", "title": "Fenced code is preserved", "statement": "A fenced code block is rewritten so that its content lines are the original content lines, in order, changed only by removal of trailing whitespace, between an opening fence of the same character and length carrying the trimmed info string and a closing fence of the same character and length.", "quantifier": "every fenced code block the parser can produce", "why_tests_cant": "All contents, fence lengths, and the end-of-document case without a closing fence.", "anchors": ["markflow/formatters/fenced_code_block.py:MarkdownFencedCodeBlock.reformatted", "markflow/detectors/fenced_code_block.py:split_fenced_code_block"]}
{"id": "C15", "title": "Indented code is preserved", "statement": "An indented code block is rewritten line by line with only trailing whitespace removed, so indentation and content of each line survive and the number of lines is unchanged.", "quantifier": "every indented code block, every width", "why_tests_cant": "All contents.", "anchors": ["markflow/formatters/indented_code_block.py:MarkdownIndentedCodeBlock.reformatted"]}
{"id": "C16", "title": "Setext underline matches the heading", "statement": "A setext heading is rewritten to its wrapped text followed by one underline made of the original underline character whose length equals the longest heading line; the last line is again a setext underline of the same kind.", "quantifier": "every setext heading, every width", "why_tests_cant": "All heading texts and widths, including headings that wrap.", "anchors": ["markflow/formatters/setext_heading.py:MarkdownSetextHeading.reformatted"]}
{"id": "C17", "title": "Ordered lists are numbered consecutively", "statement": "In the rewritten ordered list, the k-th entry (from 0) starts with the decimal form of (first number + k) followed by '. ', and all continuation lines of all entries share one indentation equal to the width of the largest marker plus its trailing space.", "quantifier": "every ordered list, every width", "why_tests_cant": "All list lengths (including crossings of a power of ten), starting numbers and misnumberings.", "anchors": ["markflow/formatters/lists.py:MarkdownOrderedList.reformatted", "markflow/formatters/lists.py:_split_list"]}
{"id": "C18", "title": "Bullet lists use one marker", "statement": "In the rewritten bullet list every entry starts with the marker character of the first entry followed by a space, continuation lines are indented by two spaces, and the number of entries equals the number of entries of the source list.", "quantifier": "every bullet list, every width", "why_tests_cant": "All mixes of markers and nesting.", "anchors": ["markflow/formatters/lists.py:MarkdownBulletList.reformatted", "markflow/formatters/lists.py:_split_list"]}
{"id": "C19", "title": "List entries partition the list", "statement": "Splitting a list into entries loses, duplicates and reorders no line: concatenating the entries gives the list's lines, and each entry starts with a line that carries a list marker.", "quantifier": "every list section the parser produces", "why_tests_cant": "All combinations of nesting, indentation and fences inside lists.", "anchors": ["markflow/formatters/lists.py:_split_list"]}
{"id": "C20", "title": "Tables come out rectangular", "statement": "When a table is rewritten, every output line starts and ends with '|' and, if no cell of the body contains an escaped '|', all lines of the table have the same length.", "quantifier": "every table, every width", "why_tests_cant": "All numbers of rows and columns, all alignments, odd and even paddings.", "anchors": ["markflow/formatters/table.py:MarkdownTable.reformatted", "markflow/formatters/table.py:center_align"]}
{"id": "C21", "title": "Table cells are preserved", "statement": "Rewriting a table keeps every cell: row i, column j of the rewritten table, trimmed, equals row i, column j of the source table, trimmed, and the alignment of each column is kept.", "quantifier": "every table whose rows all have the header's number of columns", "why_tests_cant": "Escaped pipes, missing trailing pipes, short divider rows: each an input shape that tests sample only by luck.", "anchors": ["markflow/formatters/table.py:MarkdownTable.reformatted", "markflow/formatters/table.py:COLUMN_DIVIDER_REGEX"]}
{"id": "C22", "title": "Ragged tables are rejected with the right line number", "statement": "If some body row of a table has a different number of columns from the header, formatting raises MarkdownFormatException naming the first such row by its 1-based line number in the document, with the expected and actual counts; otherwise the table formatter does not raise that exception.", "quantifier": "every top-level table at every position in every document", "why_tests_cant": "Line arithmetic for every position.", "anchors": ["markflow/formatters/table.py:MarkdownTable.reformatted", "markflow/reformat_markdown.py:_reformat_markdown_text", "markflow/exceptions.py:MarkdownFormatException"]}
{"id": "C23", "title": "Wrapping changes only whitespace", "statement": "When wrap(text, width) returns, deleting all whitespace from the result gives the same string as deleting all whitespace from text.", "quantifier": "every text, every width", "why_tests_cant": "All interleavings of code spans, links, footnotes and <br> tags.", "anchors": ["markflow/_utils/textwrap.py:wrap", "markflow/_utils/textwrap.py:link_split", "markflow/_utils/textwrap.py:code_split", "markflow/_utils/textwrap.py:newline_split", "markflow/_utils/textwrap.py:space_split"]}
{"id": "C24", "title": "Wrapped lines fit the width", "statement": "Every line of wrap(text, width) has length at most width (for width > 0) unless it is a single unbreakable token (a word, an inline code span, a link piece or a <br> tag).", "quantifier": "every text, every width", "why_tests_cant": "All widths and all token length patterns.", "anchors": ["markflow/_utils/textwrap.py:join", "markflow/_utils/textwrap.py:wrap"]}
{"id": "C25", "title": "Wrapping is greedy", "statement": "For plain words, a line break is put before a word only if the word would not have fitted on the previous line.", "quantifier": "every sequence of words, every width", "why_tests_cant": "Boundary conditions at every fill level.", "anchors": ["markflow/_utils/textwrap.py:join"]}
{"id": "C26", "title": "Inline code is kept verbatim on one line", "statement": "A closed inline code span in a paragraph appears in the wrapped paragraph character for character (including runs of spaces) within a single output line.", "quantifier": "every text with a code span, every width", "why_tests_cant": "All positions of the span relative to the wrap column and all backtick run lengths.", "anchors": ["markflow/_utils/textwrap.py:code_split", "markflow/_utils/textwrap.py:wrap"]}
{"id": "C27", "title": "Wrapping never fails", "statement": "wrap(text, width) returns for every text.", "quantifier": "every text, every width", "why_tests_cant": "Crash inputs are specific (e.g. a leading period).", "anchors": ["markflow/_utils/textwrap.py:code_split", "markflow/_utils/textwrap.py:link_split"]}
{"id": "C28", "title": "Infinite width never breaks plain lines", "statement": "With width infinity (or any non-positive integer) wrap puts all words on one line except after <br>.", "quantifier": "every text", "why_tests_cant": "All texts.", "anchors": ["markflow/_utils/textwrap.py:join", "markflow/__main__.py:main"]}
{"id": "C29", "title": "Quoted lines stay quoted", "statement": "Every line of a rewritten block quote starts with '>' and has no trailing whitespace.", "quantifier": "every block quote, every width", "why_tests_cant": "All nested contents.", "anchors": ["markflow/formatters/block_quote.py:MarkdownBlockQuote.reformatted"]}
{"id": "C30", "title": "Stray '>' are escaped in block quotes", "statement": "README: unescaped '>' in block quote text that could be confused with quote markers are escaped.", "quantifier": "every block quote", "why_tests_cant": "Claims something of all texts.", "anchors": ["README.md:Block Quotes", "markflow/formatters/block_quote.py:NON_ESCAPED_QUOTE_MARKER", "markflow/formatters/block_quote.py:MarkdownBlockQuote.reformatted"]}
{"id": "C31", "title": "Link reference definitions keep label, link and title", "statement": "A rewritten link reference definition still contains its label and its link, in order, and its title's words.", "quantifier": "every link reference definition, every width", "why_tests_cant": "Depends on relative lengths of label, link, title and width.", "anchors": ["markflow/formatters/link_reference_definition.py:MarkdownLinkReferenceDefinition.reformatted"]}
{"id": "C32", "title": "Trailing whitespace is removed", "statement": "README: for all sections, trailing spaces on each line are removed.", "quantifier": "every document, every width", "why_tests_cant": "All sections and nestings.", "anchors": ["README.md:Enforced Rules", "markflow/reformat_markdown.py"]}
{"id": "C33", "title": "Hard line breaks survive", "statement": "A paragraph whose last line ends in two spaces is rewritten with two trailing spaces after its text, and one that does not is rewritten without trailing whitespace.", "quantifier": "every paragraph, every width", "why_tests_cant": "All texts and widths.", "anchors": ["markflow/formatters/paragraph.py:MarkdownParagraph.reformatted", "markflow/detectors/paragraph.py:split_paragraph_ignoring_setext"]}
{"id": "C34", "title": "Prose documents always format, stably", "statement": "For a document made of paragraphs of text (words, code spans, links and line break tags, none of which looks like a list marker, rule, fence, quote, heading, table or link definition at the start of a line), ATX and setext headings, thematic breaks, closed fenced code blocks and blank lines, where no thematic break of dashes directly follows a paragraph, and any width (at least 3 or infinite when there are thematic breaks), reformat_markdown_text returns, formats each block independently into its normal form (kinds and order of blocks kept), and its result is a fixed point of reformat_markdown_text. Every paragraph is filled greedily and keeps its words, code spans, links and tags in order, and every paragraph line longer than width is a single one of them. (Without the condition on dashes it is false: 'foo\\n-- -'.)", "quantifier": "every such document, every such width", "why_tests_cant": "Quantifies over all documents of a grammar and all widths; needs the whole pipeline (split, parse, wrap, join, re-parse).", "anchors": ["markflow/reformat_markdown.py", "markflow/parser.py", "markflow/_utils/textwrap.py"]}
{"id": "C35", "title": "--check writes nothing", "statement": "Running with --check (and no output option) leaves every file as it was.", "quantifier": "every list of paths, every file system content, every failure point", "why_tests_cant": "All file systems.", "anchors": ["markflow/__main__.py:_reformat_files"]}
{"id": "C36", "title": "--check exit status", "statement": "With --check the exit status is 1 exactly when at least one of the given files would be changed by the same run without --check, 0 otherwise, provided no file raises.", "quantifier": "every list of distinct paths and contents", "why_tests_cant": "All file sets.", "anchors": ["markflow/__main__.py:_reformat_files", "markflow/__main__.py:_reformat_stdin"]}
{"id": "C37", "title": "Only changed inputs are rewritten", "statement": "A run without --check and without output options modifies exactly the given files whose formatted text differs from their content, sets them to the formatted text, and leaves all other paths alone.", "quantifier": "every list of paths, every file system", "why_tests_cant": "All file systems, duplicates in the list of paths included.", "anchors": ["markflow/__main__.py:_reformat_files"]}
{"id": "C38", "title": "A failing file stops the run cleanly", "statement": "If formatting the k-th file raises, the files before it have been processed as in a run on just those files, the k-th and later files are untouched, and the error is propagated.", "quantifier": "every list of paths, every k", "why_tests_cant": "All failure points.", "anchors": ["markflow/__main__.py:_reformat_files"]}
{"id": "C39", "title": "Files survive a crash", "statement": "If the process is killed at any moment of a run, every file holds either its old content or its complete new content.", "quantifier": "every crash point", "why_tests_cant": "Crash points between truncation and write cannot be scheduled by unit tests.", "anchors": ["markflow/__main__.py:_reformat_files"]}
{"id": "C40", "title": "Output directory receives one file per input", "statement": "With --output-dir D, after a successful run D/name holds the formatted text of the input called name, and the inputs are unchanged.", "quantifier": "every list of inputs", "why_tests_cant": "All lists of paths, including equal names in different folders.", "anchors": ["markflow/__main__.py:_reformat_files"]}
{"id": "C41", "title": "Standard input mode", "statement": "With no paths and a non-terminal stdin the formatted text is written to standard output (status 0), or with --check only a verdict is printed and the status is 1 exactly when the text would change; no file is written.", "quantifier": "every stdin content", "why_tests_cant": "All contents.", "anchors": ["markflow/__main__.py:_reformat_stdin", "markflow/__main__.py:main"]}
{"id": "C42", "title": "Verbosity is always a valid level", "statement": "Any combination of -v and -q counts selects one of the five logging levels, more -v never selects a less verbose level and more -q never a more verbose one.", "quantifier": "all counts of -v and -q", "why_tests_cant": "Unbounded counts.", "anchors": ["markflow/__main__.py:parse_args"]}
{"id": "C43", "title": "Argument path validation", "statement": "File/Directory/ExistingPath accept a path exactly when it has the promised kind and permissions, and otherwise raise.", "quantifier": "every path state", "why_tests_cant": "All combinations of existence, kind and permissions.", "anchors": ["markflow/_argparse.py:File", "markflow/_argparse.py:Directory", "markflow/_argparse.py:ExistingPath"]}
{"id": "C44", "title": "Truncation respects its bound", "statement": "truncate_str(s, n) has length min(len(s), n), equals s when it fits, and otherwise is a prefix of s followed by dots.", "quantifier": "every string, every natural bound", "why_tests_cant": "All bounds around the ellipsis length.", "anchors": ["markflow/_utils/_utils.py:truncate_str"]}
{"id": "C45", "title": "Logging state is restored", "statement": "After reformat_markdown_text returns or raises, logging.INFO has the value it had before the call and the module logger's effective level is unchanged.", "quantifier": "every nesting of redirections, every exception point", "why_tests_cant": "Exception points inside nested context managers.", "anchors": ["markflow/_utils/_utils.py:redirect_info_logs_to_debug", "markflow/reformat_markdown.py:reformat_markdown_text"]}
{"id": "C46", "title": "A block quote is its contents rewritten and quoted again", "statement": "A block quote whose lines are all written '> x', at least one x non-blank and not indented, is rewritten to the rewriting of the text of the lines x at a width two smaller, with '> ' put before each line and the line trimmed; it raises exactly when rewriting the contents raises.", "quantifier": "every such block quote, every width, any contents at any nesting depth", "why_tests_cant": "Relates the formatter on a quote to the formatter on arbitrary contents.", "anchors": ["markflow/formatters/block_quote.py:MarkdownBlockQuote.reformatted"]}
{"id": "C47", "title": "Formatting keeps the block structure", "statement": "If reformat_markdown_text returns a text, parsing the result gives sections of the same kinds in the same order as parsing the input without its trailing blank lines.", "quantifier": "every text and width", "why_tests_cant": "Wrapping can move any word to the start of a line, where it may look like the start of another block; sampled documents rarely put a marker there.", "anchors": ["markflow/reformat_markdown.py:reformat_markdown_text", "markflow/parser.py:parse_markdown", "markflow/_utils/textwrap.py:wrap"]}
{"id": "C48", "title": "Bullets stay bullets and numbers stay numbers", "statement": "Formatting a list gives a list with the same entries in the same order, and an entry of the result is numbered if and only if that entry of the source was numbered.", "quantifier": "every list section of every parsed document, every width, every nested formatter", "why_tests_cant": "Lists have any number of entries with any mixture of markers.", "anchors": ["markflow/formatters/lists.py:_split_list", "markflow/formatters/lists.py:MarkdownOrderedList", "markflow/formatters/lists.py:MarkdownBulletList"]}
{"id": "C49", "title": "The reported line number is that of the ragged row", "statement": "When formatting fails because of a table row with the wrong number of columns, the reported line number is that of a line of the document, and that line is a row with the reported number of columns.", "quantifier": "every document, every nesting of block quotes and lists, every width", "why_tests_cant": "The table may be at any place and at any depth of nesting.", "anchors": ["markflow/formatters/table.py:MarkdownTable.reformatted", "markflow/reformat_markdown.py:_reformat_markdown_text"]}
{"id": "C50", "title": "Formatting is local at a blank line", "statement": "If a text is complete in itself (no fence or definition title left open) and formats, then putting a blank line and any other text that does not start indented behind it gives the formatted text, a blank line, and the formatted other text, except that line numbers in error messages are shifted.", "quantifier": "every text with the property, every following text, every width", "why_tests_cant": "It relates the runs on two texts of any length to the run on their concatenation.", "anchors": ["markflow/parser.py:parse_markdown", "markflow/reformat_markdown.py:_reformat_markdown_text"]}
{"id": "C51", "title": "The first line decides the kind of a section", "statement": "For every section of every parsed document, its kind is a function of its first line alone (stated as a separate specification), except that a line of text may start a paragraph, a setext heading or a link reference definition.", "quantifier": "every document, every section, every recursion budget", "why_tests_cant": "Every line can stand at the start of a section in every surrounding.", "anchors": ["markflow/parser.py:SPLITTERS", "markflow/detectors/_lines.py"]}
{"id": "C52", "title": "Sections end where their grammar says", "statement": "Every section of every parsed document has the extent of its kind: headings, blank lines and thematic breaks are one line; a list ends exactly before the first blank line, table row or thematic break; a table is a maximal run of rows; a fenced block ends at the first line that is its fence or at the end; an indented block consists of indented and blank lines; a paragraph goes on until a line that can interrupt it or a hard break; a setext heading is a paragraph and its underline; a block quote is never followed by a quote line and its lines are quote lines or lazy text; a definition starts with a label.", "quantifier": "every document, every section, every recursion budget", "why_tests_cant": "Extents depend on the lines that follow, of which there are infinitely many combinations.", "anchors": ["markflow/parser.py:parse_markdown", "markflow/detectors"]}
{"id": "C53", "title": "Which exceptions formatting can end with, and why", "statement": "reformat_markdown_text either returns or ends with RecursionError, StopIteration, the RuntimeError a generator makes of it, IndexError, MarkdownFormatException, or the exception for inconsistent output; never with ValueError or a RuntimeError of its own checks. Every failure of a pass is explained by one document (the input or a document nested in its block quotes and list entries): it cannot be divided into sections, it is nested too deep, one of its tables is ragged, or one of its sections is a fence alone, a table row alone or text with a free-standing period.", "quantifier": "every text, every width, every recursion limit", "why_tests_cant": "The claim that an exception never occurs ranges over all texts.", "anchors": ["markflow/reformat_markdown.py:reformat_markdown_text", "markflow/formatters", "markflow/parser.py:parse_markdown"]}
{"id": "C54", "title": "A document is formatted by writing its tree down", "statement": "Documents are trees of blocks: blank lines, headings, setext headings, paragraphs of words, code spans, links and line break tags, paragraphs that end in a hard break, link definitions on one line with or without a title, thematic breaks, fenced and indented code, tables, block quotes and bullet and ordered lists, nested to any depth. A separate specification says which lines stand for which tree and how a tree is written at a width. A text stands for at most one tree. Formatting a text that stands for a tree succeeds and gives exactly the written tree without the blank lines at its end; formatting the result again changes nothing; two texts with the same tree are formatted alike; and the result stands for the same tree, except that text glued to a code span or tag that was moved to another line is not glued any more. If nothing is glued, formatting at another width first makes no difference.", "quantifier": "every tree of any size and depth, every text that stands for it, every width with room for its thematic breaks, for link definitions with a title and for those on the last line, every sufficient recursion limit", "why_tests_cant": "Trees nest without bound, and every tree has infinitely many spellings; each must parse, format and re-parse consistently.", "anchors": ["markflow/reformat_markdown.py:reformat_markdown_text", "markflow/parser.py:parse_markdown", "markflow/formatters/lists.py", "markflow/formatters/block_quote.py", "markflow/formatters/table.py"]}
{"id": "C55", "title": "Wrapping is laying out tokens", "statement": "A separate specification says what the tokens of running text are: words, code spans in any number of backticks (with the period right behind them), inline and reference links (the words of the name with the text glued in front, then the target with the text glued behind) and line break tags, each with or without white space in front; white space in front of a target, or between two links, does not count. A text has at most one list of tokens. Wrapping a text that has tokens succeeds and puts them into lines in order: tokens on one line are separated by one space or nothing as in the text, a line of several tokens fits the width, a line break tag ends its line, and every other line ends only where the next token does not fit. There is exactly one such layout and no layout has fewer lines.", "quantifier": "every text with tokens, every width", "why_tests_cant": "The claim ranges over all mixtures of words, code spans, links and tags, all ways they touch, and all widths.", "anchors": ["markflow/_utils/textwrap.py:wrap", "markflow/_utils/textwrap.py:join", "markflow/_utils/textwrap.py:code_split", "markflow/_utils/textwrap.py:newline_split", "markflow/_utils/textwrap.py:space_split", "markflow/_utils/textwrap.py:link_split"]}
{"id": "C56", "title": "Wrapping twice is wrapping once, code spans and links included", "statement": "The tokens of a wrapped text are the tokens of the text, except that a token glued to the one in front which starts a line is not glued any more. Hence wrapping the result again at the same width changes nothing; and if no token is glued to another, wrapping at one width first makes no difference to wrapping at another.", "quantifier": "every text with tokens, every pair of widths", "why_tests_cant": "Whether a line break changes how the text is read again depends on all neighbouring tokens.", "anchors": ["markflow/_utils/textwrap.py:wrap"]}
{"id": "C57", "title": "The consistency check never fails", "statement": "reformat_markdown_text never raises the exception for inconsistent output: the text that the first pass writes is not changed by the second pass.", "quantifier": "every document, every width", "why_tests_cant": "The failing documents are those where a line break, a lost space or a trimmed indentation changes how the text is read again; which ones these are is only known from a proof for the others.", "anchors": ["markflow/reformat_markdown.py:reformat_markdown_text", "markflow/_utils/textwrap.py:link_split", "markflow/formatters/block_quote.py"]}
{"id": "C58", "title": "Wrapping keeps the words", "statement": "Wrapping a text changes white space to other white space only: it neither removes the white space between two words nor puts white space into a word.", "quantifier": "every text, every width", "why_tests_cant": "Ranges over all texts and all places where a line may break.", "anchors": ["markflow/_utils/textwrap.py:wrap", "markflow/_utils/textwrap.py:join"]}
{"id": "C59", "title": "The version comes from the first declaration", "statement": "get_version returns, when pyproject.toml lies beside the package, the version that the first declaring line declares followed by ' (development)', and otherwise the version in the first dist-info name of the package; it raises exactly when there is no declaration.", "quantifier": "every pyproject.toml text, every package name, every list of names beside the package", "why_tests_cant": "Ranges over all file contents and directory listings.", "anchors": ["markflow/__main__.py:get_version"]}
{"id": "C60", "title": "What the exit status means", "statement": "The exit status of the program is 0, 1, 2 or 255. 2 and 255 for refused arguments come with no write and no message; otherwise 255 means a ragged table. 0 means that the run ended without an exception, and 1 without --check means an exception. Without a version the program does nothing and ends with 1.", "quantifier": "every set of arguments, installation, file system, standard input and formatter", "why_tests_cant": "All combinations of options, file systems and failures.", "anchors": ["markflow/__main__.py:__main__", "markflow/__main__.py:main", "markflow/__main__.py:parse_args", "markflow/__main__.py:get_version"]}
{"id": "C61", "title": "The messages count the files", "statement": "A run over different files that ends without an exception prints one message for every file whose formatted text differs from what is read from it, in the order of the files, then 'All done!', then how many files changed and how many did not, in the singular for one file.", "quantifier": "every list of different files, in place or with an output directory, with and without --check, every formatter", "why_tests_cant": "Ranges over all lists of files and all contents.", "anchors": ["markflow/__main__.py:_reformat_files"]}
{"id": "C62", "title": "Which arguments are accepted", "statement": "Arguments are accepted exactly when every given path exists, the output directory is a writable directory, every output file can be written, not both are given, developer help is not asked for, there are as many output files as files (when there are any), and without output options and --check every file can be written. The files are then the given files and, for anything else that is given, the Markdown files below it, in order; the other options are passed on. A refused value gives status 2, everything else 255. A directory without Markdown files is the same as no path: standard input is read.", "quantifier": "every set of option values, every state of the file system", "why_tests_cant": "All combinations of options, path kinds and permissions.", "anchors": ["markflow/__main__.py:parse_args", "markflow/_argparse.py:AddMarkdownFilesInDirOrPathsAction"]}
{"id": "C63", "title": "The line length is the width", "statement": "With --line-length n, n at least 1, a run depends on the formatter at width n only; with any n below 1 it depends on the formatter at infinite width only.", "quantifier": "every formatter, every set of arguments, every file system and standard input", "why_tests_cant": "Ranges over all formatters and all integers.", "anchors": ["markflow/__main__.py:main"]}
{"id": "C64", "title": "Output files correspond to inputs", "statement": "With --output-file, when the output files differ and none is read later as an input, then after a run without an exception the i-th output file holds the formatted text of the i-th input and no other file changed.", "quantifier": "every list of inputs and output files, every file system", "why_tests_cant": "All lists of paths, aliasing included.", "anchors": ["markflow/__main__.py:_reformat_files"]}
{"id": "C65", "title": "Renders of an inconsistent file", "statement": "With --write-renders, when formatting a file gives an inconsistent result, the files name.1.md and name.2.md (name.1 and name.2 without the ending) beside the output path hold the first and the second formatting, which differ; no other file is touched, and the exception names the file. On standard input both are printed. On any other exception nothing is written or printed.", "quantifier": "every list of inputs, every k, every file system, every width", "why_tests_cant": "All inconsistent texts and failure points.", "anchors": ["markflow/__main__.py:_write_renders", "markflow/__main__.py:_print_renders", "markflow/__main__.py:_reformat_files"]}
{"id": "C66", "title": "No text is lost, added or moved", "statement": "Take any class of characters without white space and without the markup characters of the kinds of sections that occur in the document (quote and list markers, underlines, thematic breaks, table borders). When a document is formatted successfully, the characters of this class are the same in the result as in the input, in the same order, provided that in the document and all documents nested in it links neither nest nor touch, fences are closed, tables are well-formed without escaped bars in the body, and titles of link reference definitions fit behind the link. For texts without [, |, backtick and ~ no condition is needed.", "quantifier": "every text, every width, every recursion limit, every such class of characters", "why_tests_cant": "All documents with any nesting of quotes and lists; losing one character in one combination of sections is enough to break it.", "anchors": ["markflow/reformat_markdown.py:reformat_markdown_text", "markflow/formatters/block_quote.py:BlockQuote.reformatted", "markflow/formatters/lists.py:BulletList.reformatted", "markflow/formatters/lists.py:OrderedList.reformatted"]}
{"id": "C67", "title": "Sections are reported completely", "statement": "When a run succeeds with the logger of markflow.reformat_markdown at INFO, its section messages of level INFO report consecutive ranges of lines that together are exactly the lines of the input, each once and in order, each with the kind and the lines of the section found by the parser. Sections inside block quotes and lists are only reported at DEBUG; above INFO no section is reported; the second pass shows no message of this logger unless the level is DEBUG or lower. What the formatter returns or raises does not depend on the logging state, and the effective levels and logging.INFO are the same after the run.", "quantifier": "every text, every width, every recursion limit, every logging state", "why_tests_cant": "All documents and nestings; all logging states.", "anchors": ["markflow/reformat_markdown.py:_reformat_markdown_text", "markflow/reformat_markdown.py:reformat_markdown_text", "markflow/_utils/_utils.py:redirect_info_logs_to_debug", "markflow/formatters/block_quote.py:_reformat_markdown", "markflow/formatters/lists.py:_reformat_markdown"]}
{"id": "C68", "title": "Warnings are true and complete", "statement": "A warning 'Line k is an ATX Header without a space' is shown exactly when line k of the input is an ATX heading whose hashes are not followed by a space, and a warning 'Adding a new line before setext heading on line k' exactly when a setext heading that starts at line k follows a block quote.", "quantifier": "every text, every width, every recursion limit, every logging state", "why_tests_cant": "All documents with any nesting of block quotes and lists.", "anchors": ["markflow/formatters/atx_heading.py:MarkdownATXHeading.reformatted", "markflow/reformat_markdown.py:_reformat_markdown_text"]}
{"id": "C69", "title": "Formatters can be built line by line", "statement": "A formatter made without lines, to which the lines of a section found by the parser are appended one by one, has exactly these lines and never raises. In general append raises exactly for a second line of a heading, thematic break or blank line and for text in a blank line.", "quantifier": "every text, every section", "why_tests_cant": "All sections of all documents.", "anchors": ["markflow/formatters/base.py:MarkdownSection.__init__", "markflow/formatters/atx_heading.py:MarkdownATXHeading.append", "markflow/formatters/blank_line.py:MarkdownBlankLine.append", "markflow/formatters/thematic_break.py:MarkdownThematicBreak.append", "markflow/formatters/lists.py:MarkdownOrderedList"]}
{"id": "C70", "title": "The parser reports the sections it finds", "statement": "At debug level the parser names the sections that it divides the lines into, in order and none left out, each with its kind and its first and last line. The only other such messages are about the lines of block quotes; there are none if no line starts with a quote mark. Every message of section detection, successful or not, is true of the lines or of the lines of a block quote in them without the quote marks, and is loud enough for the level. What the parser returns or raises does not depend on the logging state.", "quantifier": "every list of lines, every recursion limit, every logging state", "why_tests_cant": "All documents and nestings of block quotes, whose detection calls the parser again; all logging states.", "anchors": ["markflow/parser.py:parse_markdown", "markflow/detectors/block_quote.py:split_block_quote", "markflow/detectors/block_quote.py:_block_quote_ends_with_paragraph"]}
{"id": "C71", "title": "Warnings about fences that are indented too deeply", "statement": "A warning 'Line k' about a closing fence is shown exactly when line k of the input closes a fenced code block and is indented more than three columns deeper than the line that opens it.", "quantifier": "every text, every recursion limit, every logging state", "why_tests_cant": "All documents; detection looks at the same lines several times with different offsets.", "anchors": ["markflow/detectors/fenced_code_block.py:split_fenced_code_block", "markflow/detectors/paragraph.py:_is_paragraph_continuation_text", "markflow/parser.py:parse_markdown"]}
{"id": "C72", "title": "Warnings about definitions without a link", "statement": "A warning 'Line k' about a link reference definition without a link is shown exactly when a section starts at line k of the input with a label that is followed by neither a link on its line nor one on the next.", "quantifier": "every text, every recursion limit, every logging state", "why_tests_cant": "All documents.", "anchors": ["markflow/detectors/link_reference_definition.py:split_link_reference_definition", "markflow/parser.py:parse_markdown"]}
{"id": "C73", "title": "Verbosity", "statement": "Formatting a text, successfully or not, shows no message below the level that logging was set up with. By default, and with at least as many -q as -v, it shows none at all; each further -v allows messages of one more level, beginning with warnings.", "quantifier": "every text, every width, every recursion limit, every number of -v and -q", "why_tests_cant": "All documents, also those for which formatting raises in either pass while levels are changed.", "anchors": ["markflow/__main__.py:parse_args", "markflow/reformat_markdown.py:reformat_markdown_text", "markflow/_utils/_utils.py:redirect_info_logs_to_debug"]}
{"id": "C74", "title": "A document cannot disturb the log", "statement": "Every message that formatting a text shows has a non-empty text, which consists of visible characters only: no control characters, and no characters above ASCII that Python does not count as printable. In particular it is a single line. This holds also if formatting fails.", "quantifier": "every text, every width, every recursion limit, every logging state, every notion of printable character", "why_tests_cant": "All documents with all control characters and escape sequences in every place that a message quotes.", "anchors": ["markflow/reformat_markdown.py:_reformat_markdown_text", "markflow/formatters/base.py:MarkdownSection", "markflow/parser.py:parse_markdown"]}
{"id": "C75", "title": "Messages tell sections apart", "statement": "Two section messages with the same text are about the same lines and the same kind of section, and what they show of the content agrees in its first 17 characters, or wholly if it has at most 20. Distinct strings are shown distinctly. The text of a log message of any kind determines which kind of message it is, its lines and the kind of section.", "quantifier": "every two sections of any kind and content, every two messages", "why_tests_cant": "All pairs of strings; the quotation marks and escapes depend on the content.", "anchors": ["markflow/reformat_markdown.py:_reformat_markdown_text", "markflow/formatters/base.py:MarkdownSection", "markflow/_utils/_utils.py:truncate_str"]}
{"id": "C76", "title": "Representations are enclosed in angle brackets", "statement": "The representation of every section begins with < and ends with >.", "quantifier": "every kind of section and all lines of it", "why_tests_cant": "All contents of sections.", "anchors": ["markflow/formatters/block_quote.py:MarkdownBlockQuote.__repr__", "markflow/formatters/lists.py:MarkdownBulletList.__repr__", "markflow/formatters/lists.py:MarkdownOrderedList.__repr__"]}
{"id": "C77", "title": "Representations are short", "statement": "There is a length that no representation of a section exceeds.", "quantifier": "every kind of section and all lines of it", "why_tests_cant": "Lines of any length.", "anchors": ["markflow/formatters/fenced_code_block.py:MarkdownFencedCodeBlock.__repr__", "markflow/_utils/_utils.py:truncate_str"]}
{"id": "C78", "title": "Logging changes nothing but the log", "statement": "The files after a command, the file system steps it takes, what it prints and its exit status are those of the program without any logging. Two commands that differ in -v and -q only agree in all of them.", "quantifier": "every installation, every arguments, every standard input, every disk, every set of writable paths, every recursion limit", "why_tests_cant": "All documents that fail or not at any point, with logging state carried from file to file.", "anchors": ["markflow/__main__.py:main", "markflow/__main__.py:parse_args", "markflow/reformat_markdown.py:reformat_markdown_text"]}
{"id": "C79", "title": "The log of a command is made of the logs of its files", "statement": "If no file is written that is read later, the log of a run over several files is, in order, what formatting each of them in a new process would log, up to and including the file at which the run stops; only the messages of writing the renders may follow. A run that does not stop logs all files. For standard input the log is the warning about unused output options, if there are any and warnings are shown, and then the log of the text.", "quantifier": "every list of files, every contents, every verbosity, every width, every recursion limit", "why_tests_cant": "The logging module's state is global and is changed and restored by every file; all sequences of documents matter.", "anchors": ["markflow/__main__.py:_reformat_files", "markflow/__main__.py:_reformat_stdin", "markflow/_utils/_utils.py:redirect_info_logs_to_debug", "markflow/reformat_markdown.py:reformat_markdown_text"]}
{"id": "C80", "title": "Verbosity of a command", "statement": "A command logs while it runs, for each -v that no -q cancels, messages of one more level, beginning with warnings; by default none. A ragged table is then logged as an error, as the last message, unless there are more -q than -v; with accepted arguments this happens exactly when the exit status is 255. A command with refused arguments or without a version logs nothing.", "quantifier": "every installation, every arguments, every numbers of -v and -q, every standard input, every disk, every recursion limit", "why_tests_cant": "All documents at all verbosities, including those that fail in the middle of a run over several files.", "anchors": ["markflow/__main__.py:parse_args", "markflow/__main__.py:main"]}
{"id": "C81", "title": "A file listed several times is formatted that many times", "statement": "A run without --check and without output options that ends regularly leaves every given file as formatting it in place as often as it is listed would leave it, whatever other files are listed between; each time, a file whose text would not change keeps its bytes. Files not listed stay as they are.", "quantifier": "every list of files with any repetitions, every contents, every width, every recursion limit", "why_tests_cant": "Formatting twice may differ from formatting once, and tests list each file once.", "anchors": ["markflow/__main__.py:_reformat_files", "markflow/__main__.py:main"]}
{"id": "C82", "title": "Output directory: the last input of a name wins", "statement": "With --output-dir D and without --check, if no input lies in D under a name that is written, then after a run that ends regularly D/name holds the formatted text of the last input of that name, and all other files stay as they are.", "quantifier": "every list of files, every directory, every contents, every width, every recursion limit", "why_tests_cant": "Tests use distinct names; collisions are silent.", "anchors": ["markflow/__main__.py:_reformat_files"]}
{"id": "C83", "title": "Written files need no new characters", "statement": "Every character that a run writes to a file, renders included, is in one of the given files or is one of the 13 characters newline, space, - and the digits. So writing in an ASCII-compatible encoding in which the given files can be read cannot fail.", "quantifier": "every options, every files, every contents, every recursion limit, every encoding that has the ASCII characters", "why_tests_cant": "Encodings in which some character is missing are not the developers' default.", "anchors": ["markflow/__main__.py:_reformat_files", "markflow/__main__.py:_write_renders", "markflow/reformat_markdown.py:reformat_markdown_text"]}
{"id": "C84", "title": "An interrupted run damages at most one file", "statement": "Whenever a run is interrupted between two steps of writing, at most one file is incomplete, and it holds the beginning of a complete text; every other file has its old content or a complete text. Complete texts are what the formatter makes of the given files, also repeatedly.", "quantifier": "every options, every files, every formatter, every point of interruption, every outcome of the run", "why_tests_cant": "Interruptions at all points of all runs cannot be provoked.", "anchors": ["markflow/__main__.py:_reformat_files", "markflow/__main__.py:_write_renders"]}
{"id": "C85", "title": "What a failed call leaves in the logging state", "statement": "After any call, logging.INFO is what it was or DEBUG, and the level of the package's logger is what it was. A call whose first pass fails leaves the level of the formatter's logger; one whose second pass fails leaves it at ERROR if its effective level was above DEBUG. The result of a later call does not depend on any of it.", "quantifier": "every texts, every widths, every recursion limits, every logging states", "why_tests_cant": "Global state after failures at all depths of nesting.", "anchors": ["markflow/_utils/_utils.py:redirect_info_logs_to_debug", "markflow/reformat_markdown.py:reformat_markdown_text"]}
{"id": "C86", "title": "Which command lines are accepted, and what they mean", "statement": "A command line is accepted exactly if it consists of options, paths and options, or of options, paths, `--` and paths, and its values are acceptable: line lengths are integers, output directories are existing writable directories, output files are no directories and can be written, not both kinds of output are given, all paths exist. An option is given by one of its names or by the beginning of one long name only; its value is the next entry or follows `=`; one-letter options may be written together. The last line length and output directory count, output files and paths are collected in order, -v and -q are counted. The order of different options does not matter.", "quantifier": "every list of command line entries, every state of the file system", "why_tests_cant": "All command lines, of any length and with any abbreviations and values.", "anchors": ["markflow/__main__.py:parse_args", "markflow/_argparse.py:ReadableFile", "README.md"]}
{"id": "C87", "title": "Exit status of a refused command line", "statement": "A command line that is not accepted ends with status 2, or with status 0 if some entry asks for help or the version. `--help` or `--version` after acceptable options and paths gives status 0 whatever follows, unless an entry before `--` may mean several options, which always gives 2. No file is read or written, and nothing but argparse's own texts is printed; otherwise the program runs with the collected values.", "quantifier": "every command line, every state of the file system, every standard input", "why_tests_cant": "All invalid command lines.", "anchors": ["markflow/__main__.py:parse_args", "markflow/__main__.py:main"]}
{"id": "C88", "title": "Paths must stand together", "statement": "After a path and an option, another path or `--` is refused, whatever else the command line has.", "quantifier": "every command line of that shape", "why_tests_cant": "All options, paths and continuations.", "anchors": ["markflow/__main__.py:parse_args"]}
{"id": "C89", "title": "Exactly when wrapping fails", "statement": "`wrap` raises an IndexError, and no other error, if and only if the text (its lines stripped and joined by spaces) has no backtick and starts with a single period, or some stretch of text between code spans, stripped and without a single period that directly follows the code span before it, starts with a single period and contains neither `[name](target)` nor `[name][target]`. It does not depend on the width.", "quantifier": "every text, every width", "why_tests_cant": "All texts: the condition has to be both necessary and sufficient.", "anchors": ["markflow/_utils/textwrap.py:wrap", "markflow/_utils/textwrap.py:code_split", "markflow/_utils/textwrap.py:link_split"]}
{"id": "C90", "title": "Which trailing whitespace is left", "statement": "In a text whose whitespace is spaces and line breaks only, every line of the formatter's result that ends in whitespace either ends in a list marker or the hashes of a heading without text followed by one space, or ends in exactly two spaces behind text, or has spaces only. If no top-level block is a list, a line that ends in whitespace is either hashes and one space, and the document has a heading without text, or ends in exactly two spaces, and the document has a paragraph whose last line ends in two spaces.", "quantifier": "every text with spaces and line breaks as its only whitespace, every width, every recursion budget with which the formatter succeeds", "why_tests_cant": "All documents with lists nested to any depth: a test shows the whitespace of one document only.", "anchors": ["markflow/reformat_markdown.py:reformat_markdown_text", "markflow/formatters/lists.py:MarkdownBulletList.reformatted", "markflow/formatters/lists.py:MarkdownOrderedList.reformatted", "markflow/formatters/paragraph.py:MarkdownParagraph.reformatted", "markflow/formatters/atx_heading.py:MarkdownATXHeading.reformatted"]}
{"id": "C91", "title": "The deprecated fence functions find no later end", "statement": "fenced_code_block_started says yes exactly for a line at which split_fenced_code_block finds a block, and remembers the run of characters that opens it. fenced_code_block_ended, called for the following lines in turn, says yes behind the first further line that starts with that run, then forgets it, and raises RuntimeError from then on. Where the splitter ends a block in front of further lines, the first yes comes at the same place if no line inside the block starts with the run, and earlier otherwise. A warning is given exactly for a line that starts with the run and has more than three characters of white space more in front than the line that opened the block: for the line in front of the one looked at, and for the one looked at itself if it is the last; both times with the number of the one looked at.", "quantifier": "every first line that opens a fence, every list of further lines, every remembered state", "why_tests_cant": "All blocks: the two ways of finding the end have to be compared on every content.", "anchors": ["markflow/detectors/fenced_code_block.py:fenced_code_block_started", "markflow/detectors/fenced_code_block.py:fenced_code_block_ended", "markflow/detectors/fenced_code_block.py:split_fenced_code_block"]}
{"id": "C92", "title": "When --check passes after formatting", "statement": "A run with --check and without output options ends with status 0 exactly if formatting gives every given file's text back, and then it changes no file. So after a command without output options that ends with status 0, the same command with --check put in front of it ends with status 0 exactly if formatting each of the formatted texts again gives it back; and it always does if every file stands for a tree of blocks that fits the line length (C54), also when files are listed several times.", "quantifier": "every command line, every installation, every file system state, every list of files", "why_tests_cant": "All command lines and files: the two runs are compared for every text that the first one may leave behind.", "anchors": ["markflow/__main__.py:_reformat_files", "markflow/__main__.py:main", "markflow/__main__.py:parse_args", "markflow/reformat_markdown.py:reformat_markdown_text"]}
{"id": "C93", "title": "Exactly which cells of a table are kept", "statement": "In every table of every document that can be rewritten, all rows get as many cells as the shorter of header and delimiter row, counted from the left. The header keeps its first cells as Markdown reads them, with escaped bars. The delimiter row keeps the colons of its first columns; its columns are what stands between the bars of the line without its first and last character. A row of the body gets the first of the pieces between its bars, escaped or not, so the cells that Markdown reads in it are kept exactly if the delimiter row is not shorter than the header and no cell of the row has an escaped bar. Text behind the last bar of a row is lost.", "quantifier": "every table section of every document, every number of rows and columns, every width", "why_tests_cant": "All tables, well-formed or not: the condition for losing text has to be both necessary and sufficient.", "anchors": ["markflow/formatters/table.py:MarkdownTable.reformatted", "markflow/detectors/table.py:split_table"]}
{"id": "C94", "title": "Exactly which tables pass the consistency check", "statement": "Rewriting the rewritten rows of a table never fails. A document that is one table is accepted exactly if its header has a cell and in every column that is kept (C93) the longest cell written is as long as the longest cell that Markdown reads in the source, and refused as inconsistent otherwise. So a table without escaped bars in its body is always accepted if its header has a cell, also when columns or the text behind the last bars are lost.", "quantifier": "every table, every text that is one table, every width", "why_tests_cant": "All tables: that losing text goes unnoticed depends on the widths of all cells, and the condition has to be both necessary and sufficient.", "anchors": ["markflow/formatters/table.py:MarkdownTable.reformatted", "markflow/reformat_markdown.py:reformat_markdown_text"]}
{"id": "C95", "title": "Exactly what happens to a fenced code block", "statement": "Take a document that is one fenced code block, that is, no line between its first and its last line is the closing fence. If the information string without surrounding whitespace does not start with the fence character, the document is accepted: the result is the opening fence without indentation followed by the information string without surrounding whitespace, the lines between without trailing whitespace, and a closing fence. So the code is kept, up to trailing whitespace, exactly if the last line is the closing fence; otherwise exactly the last line is lost. If the information string does start with the fence character, the document is refused as inconsistent unless a line between is the longer fence. An opening fence alone is an IndexError.", "quantifier": "every text that is one fenced code block, closed or not, every fence length, information string, indentation and width", "why_tests_cant": "All contents and fence lengths: that the second pass finds the same block depends on every line of the block, and the condition for keeping the code has to be both necessary and sufficient.", "anchors": ["markflow/formatters/fenced_code_block.py:MarkdownFencedCodeBlock.reformatted", "markflow/detectors/fenced_code_block.py:split_fenced_code_block", "markflow/reformat_markdown.py:reformat_markdown_text"]}
{"id": "C96", "title": "Exactly which characters wrapping keeps", "statement": "When wrap returns, the result without whitespace is the text without whitespace in which every stretch outside code spans is replaced as follows: take the matches of the two link patterns in the order in which they start; what is kept is the text between the end of one and the start of the next (nothing if they overlap), of every link what stands in front of its second '](' (or, without '](', its second ']['), and the text behind the last one to end in this order. Code is always kept. So text is lost or repeated only if links overlap or a link contains a second separator, as in a link around an image, which loses its target.", "quantifier": "every text and width for which wrap returns", "why_tests_cant": "A formula for the result for all texts, also those with nested, overlapping or malformed links, for which the property that nothing is lost (C23) is false.", "anchors": ["markflow/_utils/textwrap.py:wrap", "markflow/_utils/textwrap.py:link_split"]}
{"id": "C97", "title": "Exactly when wrapping keeps a paragraph a paragraph", "statement": "Take a document that is one paragraph of words, code spans, line breaks and links which does not begin with an opening bracket, and the lines into which its tokens are put at a width. Without a hard break at its end, formatting it gives one paragraph exactly if the first of these lines does not start another kind of section and none of the others ends a paragraph; then the result is exactly these lines. With a hard break at its end (two trailing spaces), it is written without the hard break if it fits on one line that is still text, and formatting fails with StopIteration if it is put on several lines.", "quantifier": "every one-paragraph document, every tokens list and width", "why_tests_cant": "An equivalence for all paragraphs and widths: which word comes to the start of a line depends on the whole text and the width, and a paragraph that turns into a list is accepted by the built-in check.", "anchors": ["markflow/formatters/paragraph.py:MarkdownParagraph.reformatted", "markflow/detectors/paragraph.py:split_paragraph", "markflow/_utils/textwrap.py:wrap", "markflow/reformat_markdown.py:reformat_markdown_text"]}
{"id": "C98", "title": "Exactly what happens to an indented code block", "statement": "A document that is an indented code block (lines indented by four or more, or empty, starting and ending with indented text), with any empty lines behind it, is accepted if neither its first nor its last line looks like a fence, and the result is its lines without trailing whitespace; the lines between may look like anything, also like fences. If its last line looks like a fence, this line opens a fenced code block instead: everything behind it is taken as code and, without a line that closes the fence, the last line of the document is left out, and this is accepted; with nothing behind it, formatting fails with IndexError.", "quantifier": "every text that is an indented code block or starts with one and has an unclosed fence as the last line of it, every width", "why_tests_cant": "All contents of code blocks and all documents behind them; that the last line of the block is a section of its own is not visible unless this line happens to look like a fence.", "anchors": ["markflow/detectors/indented_code_block.py:split_indented_code_block", "markflow/formatters/indented_code_block.py:MarkdownIndentedCodeBlock.reformatted", "markflow/detectors/fenced_code_block.py:split_fenced_code_block"]}
{"id": "C99", "title": "Quoting commutes with formatting", "statement": "Take a text and put every line of it into a block quote (`> ` in front of a line with characters, `>` for an empty one). If formatting the text alone, two columns narrower, gives a result and a second pass keeps it, formatting the quotation gives exactly the quotation of that result. If the second pass changes a line, the quotation is refused too; if formatting the text raises an exception, so does formatting the quotation, the same one except that StopIteration becomes RuntimeError. The same holds for any number of quotes around the text. Supposed is that the text and its result have only spaces as horizontal whitespace, no line ending in a space, no `]:`, and some line that starts with a character.", "quantifier": "every text meeting the stated conditions, whatever blocks it has, every width, every depth of quoting, every sufficient recursion limit", "why_tests_cant": "A relation between two runs of the program on arbitrary contents at two widths and at any depth.", "anchors": ["markflow/formatters/block_quote.py:MarkdownBlockQuote.reformatted", "markflow/detectors/block_quote.py:split_block_quote", "markflow/reformat_markdown.py:reformat_markdown_text"]}
{"id": "C100", "title": "Exactly what happens to a definition with a title", "statement": "A document that consists of one link reference definition `[label]: link \"title\"` of plain words, however it is indented and spaced, is formatted as follows. If the label, the link and the first word of the title together (without the space in between) are not longer than the width, the words of the definition are filled into lines, the program accepts this, and the result is read as one definition with the same label, link and title, over as many lines as it takes. Otherwise the label and the link are dropped: the result is an empty line and the words of the title filled into lines. The program accepts this too whenever the lines of the title look like text, so the definition is lost without a message.", "quantifier": "every label, link and title of plain words, every indentation and spacing, every width, every sufficient recursion limit", "why_tests_cant": "Label, link, title and width are unbounded and the outcome turns on a difference of one column.", "anchors": ["markflow/formatters/link_reference_definition.py:MarkdownLinkReferenceDefinition.reformatted", "markflow/detectors/link_reference_definition.py:split_link_reference_definition", "markflow/reformat_markdown.py:reformat_markdown_text"]}
{"id": "C101", "title": "A definition without a title at the end of a document", "statement": "A document that consists of a link reference definition without a title and without a line behind it (`[label]: link`, plain words) is written on one line, and accepted, if it fits. If it does not fit, but the label with its brackets and colon does, or the label is one word, then the first pass writes the link on a line of its own, and the second pass raises StopIteration on exactly this text: the program cannot format the document at all. Supposed there is that the link does not start with a bracket.", "quantifier": "every label and link of plain words, every width, every sufficient recursion limit", "why_tests_cant": "Holds for all labels, links and widths; the crash needs a definition in the last line that is longer than the width.", "anchors": ["markflow/detectors/link_reference_definition.py:split_link_reference_definition", "markflow/formatters/paragraph.py:MarkdownParagraph.reformatted", "markflow/reformat_markdown.py:reformat_markdown_text"]}
{"id": "C102", "title": "Making a list of texts commutes with formatting", "statement": "Put some texts into a bullet list, or into an ordered list whose numbers all have the same number of digits, with the further lines of every text indented to where its first line starts. Suppose that no line of the list is blank, a table row or a thematic break, and that in every text the lines that open or close a fence, not counting the first line, are even in number. Then formatting the list formats every text by itself, narrower by the marker and a space, and makes a list of the results. The program accepts the list if a second pass leaves every formatted text as it is and refuses it otherwise, and an exception for the first text that has one is the exception for the list, with RuntimeError for StopIteration.", "quantifier": "every number of texts, all texts that meet the condition (formatted as well as not), every marker and first number, every width, every recursion limit from 2", "why_tests_cant": "Lists nest without bound and the texts are arbitrary documents; the statement relates the outcome for the list to the outcomes for all its entries.", "anchors": ["markflow/formatters/lists.py:_split_list", "markflow/formatters/lists.py:_dedent_entries", "markflow/formatters/lists.py:MarkdownBulletList.reformatted", "markflow/formatters/lists.py:MarkdownOrderedList.reformatted", "markflow/reformat_markdown.py:reformat_markdown_text"]}
{"id": "C103", "title": "Exactly when wrapping keeps an underlined heading a heading", "statement": "Take a document that is one underlined heading of words, code spans, line breaks and links which does not begin with an opening bracket, and the lines into which its tokens are put at a width. Formatting writes these lines and under them the underline's character as often as the longest line is long. The result is accepted and read as one underlined heading exactly if the first of these lines does not start another kind of section and none of the others ends a paragraph; then it is exactly what the first pass wrote.", "quantifier": "every document that is one underlined heading, every tokens list and width", "why_tests_cant": "An equivalence for all headings and widths: which word comes to the start of a line depends on the whole text and the width, and a heading that turns into a paragraph, another heading and a second paragraph is accepted by the built-in check.", "anchors": ["markflow/formatters/setext_heading.py:MarkdownSetextHeading.reformatted", "markflow/detectors/setext_heading.py:split_setext_heading", "markflow/_utils/textwrap.py:wrap", "markflow/reformat_markdown.py:reformat_markdown_text"]}
{"id": "C104", "title": "Exactly what happens to a thematic break", "statement": "A document of one line that is a thematic break is accepted and becomes one line of the break's character, as long as the line width, or three characters for unlimited width. The result is read as a thematic break if it has three characters or more, as a paragraph if it has one or two, and as a blank line if the width is zero or less.", "quantifier": "every line that is a thematic break, every width (finite, zero, negative, unlimited), every recursion limit from 2", "why_tests_cant": "Breaks have unboundedly many characters and spaces and widths are unbounded; widths below three are reached only in nested quotes and lists.", "anchors": ["markflow/formatters/thematic_break.py:MarkdownThematicBreak.reformatted", "markflow/detectors/thematic_break.py:split_thematic_break", "markflow/reformat_markdown.py:reformat_markdown_text"]}
{"id": "C105", "title": "A document is formatted piece by piece", "statement": "Put texts together with an empty line between each two of them. Suppose that every text, as it is and as formatted, begins with a line of text that is not indented by four or more, ends with a line of text, is divided into the same sections when two empty lines follow it, and has no label at the start of a section other than a definition; and that formatting writes no empty lines. Then the program's answer for the document is made of its answers for the texts: an exception of the first pass for the first text that has one, otherwise an exception of the second pass for the first text that has one (in both cases but for a line number in the message), otherwise refusal if one of the texts is refused, and otherwise the formatted texts with an empty line between each two of them. For texts without tabs, trailing spaces, fences and the characters ]: the condition on sections holds, given enough depth.", "quantifier": "every number of texts, all texts that meet the conditions, every width, every recursion limit for which the conditions hold (for plain texts: every limit above some bound)", "why_tests_cant": "Relates the outcome for a document of any length to the outcomes for all its parts, including all refusals and exceptions; documents and their parts are unbounded.", "anchors": ["markflow/parser.py:parse_markdown", "markflow/reformat_markdown.py:_reformat_markdown_text", "markflow/reformat_markdown.py:reformat_markdown_text"]}
{"id": "C106", "title": "Lazy lines of a block quote mean the same as marked lines", "statement": "Put before every line of a block quote that has no marker as many markers as the last line before it with markers has; then the quote is formatted as before. If the document is one block quote, the program's answer for it is its answer for the quote with all markers, provided that telling the sections of the latter apart raises no exception.", "quantifier": "every block quote whose first line has a marker, every mixture of lines with and without markers at any depths, every width, every recursion limit; every document that is one block quote", "why_tests_cant": "The depth of a lazy line depends on the most recent marked line in any sequence of depths; the sequences are unbounded.", "anchors": ["markflow/formatters/block_quote.py:MarkdownBlockQuote.reformatted", "markflow/detectors/block_quote.py:split_block_quote", "markflow/reformat_markdown.py:reformat_markdown_text"]}
{"id": "C107", "title": "Exactly when an indented block quote is accepted", "statement": "Let a document be a text in a block quote whose lines are each indented by up to three spaces, the first by k. The first pass formats the text for a width of 2 - k columns less than the document's, so for k = 3 one more than the document's, and drops the indentation; the second pass formats for 2 columns less. The document is accepted exactly if the second pass changes no line of what the first one made, apart from spaces at the end, and the result is the first pass's result quoted; otherwise it is refused. An exception of the first pass is the program's answer.", "quantifier": "every text (without tabs, trailing spaces and the characters ]:, with a line that is not indented; the first pass's result likewise), every indentation of every line of 0 to 3 spaces, every width, every recursion limit above some bound", "why_tests_cant": "An exact description of acceptance over all contents, indentations and widths; the difference only shows where wrapping at two widths differs.", "anchors": ["markflow/formatters/block_quote.py:MarkdownBlockQuote.reformatted", "markflow/detectors/block_quote.py:split_block_quote", "markflow/reformat_markdown.py:reformat_markdown_text"]}
{"id": "C108", "title": "A width that is large enough acts like an unlimited one", "statement": "If no line of a text ends, apart from white space, in three times the same of * _ -, there is a width from which on the formatting pass gives the same result, or the same exception, as with unlimited width. If the same holds of the lines of the unlimited pass's result, the program's answer is the same as well. A thematic break is written out to the width, so for *** there is no such width.", "quantifier": "every text without such lines, every width from some bound on, every recursion limit", "why_tests_cant": "The bound depends on the text; it is a statement about all larger widths, and about all nestings of lists and quotes, whose contents get smaller widths.", "anchors": ["markflow/_utils/textwrap.py:wrap", "markflow/_utils/textwrap.py:join", "markflow/reformat_markdown.py:reformat_markdown_text"]}
{"id": "C109", "title": "Headings with #, blank lines, code and tables do not depend on the width", "statement": "Two passes over a text with different widths give results that consist of the same parts, one for each section and added blank line, and the parts of headings with #, blank lines, fenced and indented code and tables are the same in both. A text with only such sections gives the same result with every width; so does the program, if its first result has only such sections too.", "quantifier": "every text, every two widths, every recursion limit", "why_tests_cant": "Compares two runs with arbitrary widths on arbitrary text; tests compare one run with one expected result.", "anchors": ["markflow/formatters/atx_heading.py:MarkdownATXHeading.reformatted", "markflow/formatters/table.py:MarkdownTable.reformatted", "markflow/formatters/fenced_code_block.py:MarkdownFencedCodeBlock.reformatted", "markflow/formatters/indented_code_block.py:MarkdownIndentedCodeBlock.reformatted"]}
{"id": "C110", "title": "Line endings make no difference", "statement": "Texts with the same lines have the same outcome. In particular it makes no difference by which of the line boundaries of str.splitlines each line is terminated (line feed, carriage return, both, form feed, line separator and so on; without mixing lone line feeds and lone carriage returns, as a pair of them is one boundary), nor whether the last line, if it is not empty, is terminated at all. The result always has line feeds.", "quantifier": "every list of lines, every choice of a terminator for each line, every width, every recursion limit", "why_tests_cant": "All combinations of terminators; the tests only have texts with line feeds.", "anchors": ["markflow/reformat_markdown.py:_reformat_markdown_text", "markflow/reformat_markdown.py:reformat_markdown_text"]}
{"id": "C111", "title": "Blank lines around a document", "statement": "Blank lines in front of a text are kept, as empty lines: if the lines of a document are blank lines followed by the lines of a text, its result is that of the text with as many line feeds in front, and its exception that of the text, apart from a line number; if the text itself comes out as a single line feed, so does the document. Empty lines after a text that ends in itself (C105) make no difference to the program's result, and a pass keeps them.", "quantifier": "every text, every list of blank lines in front, every number of empty lines behind, every width, every recursion limit", "why_tests_cant": "All texts with all numbers of blank lines, including the exceptions raised.", "anchors": ["markflow/reformat_markdown.py:_reformat_markdown_text", "markflow/reformat_markdown.py:reformat_markdown_text", "markflow/detectors/blank_line.py:split_blank_line"]}
{"id": "C112", "title": "Headings and blank lines at the start of a document", "statement": "If the lines of a document are blank lines and headings with hashes followed by the lines of a text, then a pass gives the formatted headings (the same number of hashes, a space and the trimmed text) and empty lines, followed by the pass's result for the text; the program gives them followed by its answer for the text, or without trailing white space if the text has nothing but blank lines. Exceptions are those of the text, apart from a line number. A document of only headings and blank lines is accepted with every width.", "quantifier": "every list of heading and blank lines, every text, every width, every recursion limit", "why_tests_cant": "All texts with all sequences of headings before them, including the exceptions raised.", "anchors": ["markflow/formatters/atx_heading.py:MarkdownATXHeading.reformatted", "markflow/detectors/atx_heading.py:split_atx_heading", "markflow/reformat_markdown.py:reformat_markdown_text"]}
{"id": "C113", "title": "Indentation of the lines of a list entry", "statement": "A line of a list that starts no entry and no fence belongs to the entry before it and may be indented by any number of spaces up to where the entry's text starts, none included: two documents that start with a list and only differ in this have the same outcome. So everything directly after a list up to a blank line, a table or a thematic break is taken into its last entry, headings and quotes included.", "quantifier": "every list, every indentation of each such line, every text behind the list, every width, every recursion limit", "why_tests_cant": "Compares all ways to indent the lines of all lists.", "anchors": ["markflow/formatters/lists.py:_split_list", "markflow/formatters/lists.py:_dedent_entries", "markflow/detectors/bullet_list.py:split_bullet_list", "markflow/detectors/ordered_list.py:split_ordered_list"]}
{"id": "C114", "title": "A larger width never takes more lines", "statement": "Wrapping a text with a larger width gives no more lines than with a smaller positive one, whatever the text is. If a text stands for a tree of blocks (C54) that fits a width which leaves a positive number of columns for every paragraph, it fits every larger width, and formatted for the larger width it has no more lines.", "quantifier": "every text, every pair of widths, the unlimited one included", "why_tests_cant": "Compares all pairs of widths for all texts; greedy filling is known to be sensitive to single characters.", "anchors": ["markflow/_utils/textwrap.py:join", "markflow/_utils/textwrap.py:wrap", "markflow/reformat_markdown.py:reformat_markdown_text"]}
{"id": "C115", "title": "Which lines a link definition takes", "statement": "The lines that detection takes as a link definition are exactly these: a line indented by less than four with a name of 1 to 999 characters in brackets and a colon; the link is the first word behind it or on the next line; a title that begins behind the link must close, at the end of a line, with the first mark of its kind that no backslash escapes, or there is no definition; a title that begins the line after the link is included up to its closing line, or, if it does not close, up to the line before the one that has text behind the mark or ends the document. A label alone is a definition if the next line is missing, blank or begins with a bracket. Detection stops with StopIteration exactly for a label alone followed by one word on the last line.", "quantifier": "all lists of lines", "why_tests_cant": "An exact description over unboundedly many lines and all escape sequences; tests sample a few layouts.", "anchors": ["markflow/detectors/link_reference_definition.py:split_link_reference_definition"]}
{"id": "C116", "title": "Documents without quotes: the complete division", "statement": "For a document that has no quoted line, the list of sections with their kinds and lines is the one that a specification computes which looks at one line at a time (what the first line is, and for each kind where it ends), and the division fails exactly when it comes to a label alone followed by one word on the last line, or to a block of at least two text lines that is no definition, ends the document and ends in two spaces; the failure is StopIteration. In particular a document without quoted lines whose last line neither ends in two spaces nor is a single word is always divided.", "quantifier": "all documents without quoted lines, every recursion budget of at least one", "why_tests_cant": "Equality of the whole result, failures included, for all documents.", "anchors": ["markflow/parser.py:parse_markdown", "markflow/detectors/paragraph.py:split_paragraph_ignoring_setext"]}
{"id": "C117", "title": "Every document: the complete division", "statement": "For every document, the list of sections with their kinds and lines, or the failure, is the one that a specification computes: that of C116, with quotes. A quote is a run of lines that begin with at most three spaces and '>'; if what they hold without that marker, divided in turn, ends in a paragraph or in a quote that does, the lines that follow go on the quote as long as they are quoted, or are text and belong to no underlined heading, or are indented code or the like that cannot end text; after them the quote ends. If whitespace in the document is only spaces, a recursion budget that depends on the size of the document suffices; in any case the division is the specified one unless the budget runs out.", "quantifier": "all documents, every recursion budget", "why_tests_cant": "Equality of the whole result, failures included, for all documents and any nesting of quotes.", "anchors": ["markflow/parser.py:parse_markdown", "markflow/detectors/block_quote.py:split_block_quote", "markflow/detectors/block_quote.py:_block_quote_ends_with_paragraph"]}
{"id": "C118", "title": "Every text: exactly how it is wrapped", "statement": "For every text and every width, what wrapping returns, or its failure, is what a specification without regular expressions computes. The lines of the text are joined, without the white space around them. The text is divided at runs of backticks: code goes from one run to the next of the same length, or to the last backtick if there is none; a last run opens nothing. What is not code is divided at references [name][target] and links [name](target), each with the words against it, found from the left by explicit rules; the part up to '](' or '][' may be divided further, the target not. Then text is divided at HTML line breaks and at spaces. A single period behind code or a link belongs to it; a text without code or links that begins with one is an error. Each piece has a space in front of it or not, as in the text by given rules. Pieces are put on a line as long as they fit; a line break ends a line.", "quantifier": "all texts, all widths", "why_tests_cant": "Equality of the whole result, failures included, for all texts; three backtracking patterns are shown equal to scans.", "anchors": ["markflow/_utils/textwrap.py:wrap", "markflow/_utils/textwrap.py:code_split", "markflow/_utils/textwrap.py:link_split", "markflow/_utils/textwrap.py:newline_split", "markflow/_utils/textwrap.py:space_split", "markflow/_utils/textwrap.py:join"]}
{"id": "C119", "title": "Every document: exactly how it is formatted", "statement": "For every document and every width, what formatting returns, or its failure, is what a specification without regular expressions computes, unless the recursion limit is reached. The document is divided (C117), and each part is written by the rules of its kind: headings, thematic breaks, code, paragraphs, underlined headings and link definitions with their texts wrapped (C118), tables with their columns measured and padded, list entries with their documents taken out by the markers and formatted in turn, quotes with their marks completed, taken off, and put back around the formatted document. A fence alone fails before anything else; then the first part that fails decides. If the specification does not run out with some number of levels, the program with one more gives the same; documents without white space in lines other than spaces do not run out with enough levels. The same for the call that formats twice and compares.", "quantifier": "all documents, all widths, all recursion limits", "why_tests_cant": "Equality of the whole result with an independent specification, failures included, for all documents of any size and nesting.", "anchors": ["markflow/reformat_markdown.py:_reformat_markdown_text", "markflow/reformat_markdown.py:reformat_markdown_text", "markflow/formatters/lists.py", "markflow/formatters/block_quote.py", "markflow/formatters/table.py", "markflow/formatters/link_reference_definition.py", "markflow/formatters/fenced_code_block.py", "markflow/formatters/setext_heading.py"]}
{"id": "C120", "title": "Every document: exactly what is logged", "statement": "For every document, every width and every setting of the loggers, the messages shown by dividing it, by formatting it once, and by a call (which formats twice) are exactly those that a specification without regular expressions lists, in its order and with its line numbers, kept if the level of the logger allows. Dividing reports every section found and, on the way, over-indented closing fences and link definitions without link; this includes what is said about text that is only looked at, of which the lines are counted from other places. Formatting reports every section, empty lines added in front of underlined headings behind quotes, headings without a space, and the same for the documents in quotes and list entries at the debug level. If something fails, the messages are those up to there. For documents that can be formatted the width plays no part. In the second pass of a call the formatter's own logger only shows errors unless it is set for debugging; afterwards its level is the one that was in effect.", "quantifier": "all documents, all widths, all recursion limits that suffice, all levels of loggers", "why_tests_cant": "Equality of the complete log with an independent specification for all documents of any size and nesting.", "anchors": ["markflow/parser.py:parse_markdown", "markflow/reformat_markdown.py:_reformat_markdown_text", "markflow/reformat_markdown.py:reformat_markdown_text", "markflow/detectors/fenced_code_block.py:split_fenced_code_block", "markflow/detectors/link_reference_definition.py:split_link_reference_definition", "markflow/detectors/block_quote.py:split_block_quote", "markflow/detectors/paragraph.py", "markflow/formatters/atx_heading.py", "markflow/_utils/_utils.py:redirect_info_logs_to_debug"]}
{"id": "C121", "title": "Every failing document: exactly what is logged and what is left behind", "statement": "If a document cannot be divided or formatted, or the second pass over it fails, the exception and the complete state of the loggers afterwards are exactly as specified: the messages are those of C120 up to the failure; the level at which information is logged stays at that of debug messages if the exception came from looking at a quote or from a document in a quote or list entry, and is what it was before otherwise; and if the second pass fails, the formatter's own logger keeps the level of errors unless it was set for debugging. Which of these it is is specified without regular expressions: the first section that cannot be found begins with a quoted line or is text that a quoted line would end; the first part that cannot be formatted is a quote or a list and no fence stands alone.", "quantifier": "all documents, all widths, all recursion limits, all exceptions other than exceeding the limit, all levels of loggers", "why_tests_cant": "Equality of the complete state of the loggers with an independent specification for all failing documents of any size and nesting.", "anchors": ["markflow/_utils/_utils.py:redirect_info_logs_to_debug", "markflow/reformat_markdown.py:_reformat_markdown_text", "markflow/reformat_markdown.py:reformat_markdown_text", "markflow/parser.py:parse_markdown", "markflow/detectors/block_quote.py", "markflow/formatters/block_quote.py", "markflow/formatters/lists.py"]}
{"id": "C122", "title": "Nested quotes take exponential work", "statement": "A line of d characters `>` and a letter is one section and is formatted as it is, for every width. But dividing it finds exactly 2^d sections, formatting it once 2^(d+1) - 1 and a call 2^(d+2) - 2, as the debug log shows. So no power of the length of a document, with whatever factor, bounds the sections found in a call. It is quotes that cause this: in lines of which none is quoted every section is found exactly once by a division. And a whole pass over a document without the character `>`, with all the documents that the entries of its lists hold, finds at most as many sections as the square of the number of its characters and one.", "quantifier": "all depths, all widths, all recursion limits that suffice, all levels of loggers that show debug messages; all factors and exponents; all lines without quotes, all documents without that character", "why_tests_cant": "An exact count for every depth, with no bound on it, and the absence of any polynomial bound; a test of even forty marks would not end.", "anchors": ["markflow/detectors/block_quote.py:_block_quote_ends_with_paragraph", "markflow/detectors/block_quote.py:split_block_quote", "markflow/parser.py:parse_markdown", "markflow/reformat_markdown.py:reformat_markdown_text"]}
{"id": "C123", "title": "Files are sequences of bytes", "statement": "A run on files of bytes is the run on the texts that the bytes are decoded to: same texts afterwards, same output, same result, same exit status. This holds in UTF-8, whose decoder and encoder are exact inverses of each other, and in every encoding that treats characters one by one and has those of ASCII: whatever could be decoded can be encoded after it has been formatted, so no file is emptied for a text that cannot be encoded. What is written is complete encoded texts, one after the other; files that are not written keep their bytes. A run that is interrupted leaves every file with its bytes or the bytes of a complete text, except one, which has a beginning of such bytes; any UTF-8 text that is not ASCII has a beginning that cannot be decoded. A file that cannot be decoded ends the run with status 1 when its turn comes, the files before it being done and nothing else touched. A byte order mark is a character like others: the section that begins with it is a paragraph or an underlined heading, whatever follows the mark.", "quantifier": "all contents of files, all encodings with the laws stated (UTF-8 and Latin-1 are shown to have them), all arguments, all formatters (for UTF-8), all points of interruption, all documents", "why_tests_cant": "Byte for byte agreement over all files and a whole class of encodings, and all points at which a run can be interrupted, including within a character.", "anchors": ["markflow/__main__.py:_reformat_files", "markflow/__main__.py:_write_renders", "markflow/__main__.py:main", "markflow/parser.py:parse_markdown"]}
{"id": "C124", "title": "The whole command: exactly what it does", "statement": "For every command line, all files and every standard input, what a run does is told by a specification without state and without regular expressions: which texts are written to which files in which order, what every file holds afterwards, what is printed, every log message in order, and the result or exception and with it the exit status. Each file is read as it is when its turn comes and its text is formatted as C119 specifies, which logs what C120 specifies at the level of the command line: messages of the first pass, then those of the check, of which only errors of the formatter itself are left unless debugging. It is written if it changes and there is no check, or if it goes elsewhere; the first file that fails ends the run, after its two renders if these are wanted and its formatting is inconsistent. The same from the words of the command line on (C86), of the whole process with the message about a table at the end, and of files of bytes in every suitable encoding (C123). The only exception is a run that exceeds the recursion limit.", "quantifier": "all command lines, all arguments, all contents of files, all standard inputs, all permissions, all encodings with the laws of C123, all recursion limits that suffice", "why_tests_cant": "Equality of everything observable about a run with an independent specification, for any number of files with any contents and all combinations of options.", "anchors": ["markflow/__main__.py:main", "markflow/__main__.py:__main__", "markflow/__main__.py:_reformat_files", "markflow/__main__.py:_reformat_stdin", "markflow/__main__.py:_write_renders", "markflow/__main__.py:_print_renders", "markflow/reformat_markdown.py:reformat_markdown_text"]}
{"id": "C125", "title": "Formatting keeps what CommonMark makes of a document", "statement": "The README refers to CommonMark 0.29 and the tests require that the rendered form of a document is the same before and after, up to white space and the first numbers of lists (tests/util.py:render). For every document that the program formats, at every width: if CommonMark 0.29 renders the document and the formatted document then both give the same tags in the same order, with the same text and the same code. This is false of the code as it stands: `#a` becomes a heading, a hard line break written as a backslash is lost, two lists with different bullets become one, entries numbered `1)` `2)` become one paragraph, the second paragraph of a list entry is torn out of the list, and a long line is broken in front of a dash so that a list appears. It holds for every document that CommonMark and the program read as the same tree of headings, paragraphs with hard line breaks, rules, code, nested quotes and nested lists, tight or loose, and for every document in normal form that is formatted for another width.", "quantifier": "all texts, all trees of any depth, all widths with room for the thematic breaks, all sufficient recursion limits", "why_tests_cant": "The tests render sample files. The claim compares the program with an independent line machine of the standard on all documents, of any nesting depth, at every width.", "anchors": ["markflow/reformat_markdown.py:reformat_markdown_text", "markflow/parser.py:parse_markdown", "markflow/formatters/*:reformatted", "tests/util.py:render", "README.md"]}
{"id": "C126", "title": "White space at the ends of lines", "statement": "Two documents whose lines differ only in white space at their ends are formatted alike, with the same result or the same exception, if the same lines of text end in a hard line break (two spaces) and if nothing changes behind a list marker that is the last word of a line. In particular the white space at the ends of all lines can be removed beforehand where no line of text ends in a hard line break or in a bare list marker. Both conditions are needed.", "quantifier": "every pair of such documents, every width, every recursion limit (with one level more for the second document where the limit is reached)", "why_tests_cant": "The claim compares all pairs of texts, with lists, quotes, tables, code, headings and link definitions nested at every depth; the white space of each line passes through every detector, splitter and formatter.", "anchors": ["markflow/reformat_markdown.py:111-157", "markflow/parser.py:22-110", "markflow/detectors/_lines.py:1-160", "markflow/formatters/list.py:60-180", "markflow/formatters/table.py:80-210", "markflow/formatters/blockquote.py:40-90"]}
{"id": "C127", "title": "From one width to another", "statement": "Formatting a document at one width and then at another gives what formatting it at the second width at once gives: the first width leaves no trace. (False in general: a break between two pieces of text that were joined becomes a space, and a word that lands at the start of a line may turn into a marker. It holds for documents that stand for a tree whose texts have spaces at all places where lines can be broken, through any number of widths; for other trees the exact result is given.)", "quantifier": "every document, every pair (every sequence) of widths, every recursion limit", "why_tests_cant": "The claim compares three runs of the program over all documents and all pairs of widths; the counterexamples need particular words at particular columns.", "anchors": ["markflow/reformat_markdown.py:111-157", "markflow/formatters/textwrap.py:45-330", "markflow/formatters/paragraph.py:25-60", "markflow/formatters/list.py:60-180", "markflow/formatters/blockquote.py:40-90"]}
{"id": "C128", "title": "A filter between pipes", "statement": "Run as a filter, on bytes from standard input, the program ends with the status with which it would end on a file with these bytes. If it succeeds it prints the bytes it would write to the file; where the file would be left alone because its text is in order, it prints that text, with line ends `\\n`. If it fails it prints nothing, unless both renders were asked for: then it prints exactly those. Characters never make it fail once its input could be decoded. Filters in a row, whatever their line lengths, are the composition of the calls. With --check the status is that of a file, too.", "quantifier": "every sequence of bytes, every line length, every number of filters, UTF-8 and every encoding that has ASCII and treats characters one by one", "why_tests_cant": "Relates runs in two modes over all byte sequences and encodings, and chains of every length.", "anchors": ["markflow/__main__.py:259-266", "markflow/__main__.py:269-305", "markflow/__main__.py:335-361", "markflow/__main__.py:364-385"]}
{"id": "C129", "title": "The result has linearly many lines", "statement": "The result of reformatting has at most 500 lines for each character of the document that is not `>`, and 500 more; the same holds of what a single pass writes. So whatever the wrapping of text and any nesting of quotes and lists do, lines grow only by a constant factor, and marks of quotes, which can make a pass take exponential work (C122), do not count at all.", "quantifier": "every document, every width, every recursion limit", "why_tests_cant": "A bound for all nestings and widths, where the work itself is not bounded by any power of the length.", "anchors": ["markflow/reformat_markdown.py:_reformat_markdown_text", "markflow/_utils/textwrap.py:wrap", "markflow/formatters/block_quote.py", "markflow/formatters/lists.py", "markflow/formatters/table.py"]}
{"id": "C130", "title": "The result has at most quadratically many characters", "statement": "If a document of n characters, m of which are not `>`, is reformatted at a line length of L, then the result has at most 500 * (max 3 L + 8 * (n + 1)) * (m + 1) characters; for an unlimited line length put 3 for max 3 L; the same holds of what a single pass writes. The order is attained at every width: a table with a cell of k + 1 characters and j short rows has k + 4 j + 7 characters and comes out with (j + 2) (k + 6). In particular neither the indentation of entries, which grows with the nesting of lists and with the digits of their numbers, nor the markers that quotes add in front of lazy lines ever amount to a cubic term.", "quantifier": "every document, every width, every recursion limit; the family for all j, k and widths", "why_tests_cant": "A bound for all nestings, widths and numbers of digits; tests on samples cannot exclude a cubic family.", "anchors": ["markflow/reformat_markdown.py:_reformat_markdown_text", "markflow/formatters/block_quote.py", "markflow/formatters/lists.py", "markflow/formatters/table.py", "markflow/_utils/textwrap.py:wrap"]}
{"id": "C131", "title": "Formatting knows only the characters of the markup", "statement": "Call special every white-space character, the ten digits, and the characters # > ` ~ * + - _ = . | [ ] ( ) : \\ ' \" < / b r. For every one-to-one renaming f of characters that leaves the special characters alone, reformatting the renamed text gives the renamed result, or raises the same exception; a text is in order exactly if the renamed text is; the same holds of a single pass, of the sections found, and of wrapping. The list of special characters is exact: for every character c and every d that is not special, exchanging c and d is noticed for some text and width exactly if c is special.", "quantifier": "every renaming of characters, every text, width and recursion limit; all pairs of characters", "why_tests_cant": "Quantifies over all renamings of the Unicode characters and over all texts; a test compares single texts.", "anchors": ["markflow/reformat_markdown.py:reformat_markdown_text", "markflow/parser.py:parse_markdown", "markflow/_utils/textwrap.py:wrap", "markflow/detectors", "markflow/formatters"]}
{"id": "C132", "title": "Letters do not matter for the layout", "statement": "Call special the characters of C131 (white space, digits, markup characters). A masking replaces characters that are not special by characters that are not special, several of them possibly by the same one, and leaves the special ones alone. The sections found in, and the wrapping of, a masked text are the masked sections and the masked wrapping. For a text without an opening bracket, one pass over the masked text gives the masked result or the same exception; if reformatting the text gives a result, reformatting the masked text gives the masked result; if it raises an exception other than the failed comparison of the two passes, the masked text raises the same. Hence two texts that differ only in which letters they have are laid out alike: same number of lines, same lengths, special characters at the same places. For link reference definitions this is false: [a]: and [c]: before a line c \"d\" are written differently, because the link is looked for in the first line.", "quantifier": "every masking of characters, every text without [, every width and recursion limit", "why_tests_cant": "Quantifies over all pairs of texts of the same shape.", "anchors": ["markflow/reformat_markdown.py:reformat_markdown_text", "markflow/parser.py:parse_markdown", "markflow/_utils/textwrap.py:wrap", "markflow/formatters/link_reference_definition.py:LinkReferenceDefinitionFormatter.reformatted"]}
{"id": "C133", "title": "No markup out of nothing", "statement": "If formatting a text succeeds, every kind of section that the result has, at the top level or inside block quotes and list entries at any depth, comes from characters that the text had: a heading with '#' needs a '#', a quote a '>', a fenced code block a '`' or '~', a link definition a '[', a table a '|', a numbered list a '.' and a digit, a bullet list one of '*+-|', a thematic break one of '*_-|', an underlined heading one of '=-|'. The same holds for one pass, also when the second one fails. So a text with none of these characters becomes a text of paragraphs, blank lines and indented code blocks only.", "quantifier": "every text, every width, every recursion limit, every depth of nesting", "why_tests_cant": "Says that wrapping and rewriting at any width never brings a kind of section about for whose character there is no occurrence anywhere in an arbitrary document.", "anchors": ["markflow/reformat_markdown.py:_reformat_markdown_text", "markflow/parser.py:parse_markdown", "markflow/formatters/"]}
{"id": "C134", "title": "The limit on the digits of a number", "statement": "CPython 3.11 and later raise ValueError when a string of more digits than a limit (4300 by default) is made a number or the other way round; the program does so for the numbers of ordered lists only. With any limit, reformat_markdown_text ends with ValueError or exactly as it does without a limit; without one it never ends with ValueError. If neither the document nor the text that the first pass turns it into has more than N lines or a line with more than D digits, and 10^D + N <= 10^limit, the limit makes no difference. For every document there is a limit from which on it makes none. The limit is enforced: in a document that is formatted, the digits with which each ordered list begins, leading zeros included, and those of its last number are within it.", "quantifier": "every limit, every text, every width, every recursion limit", "why_tests_cant": "Compares two interpreters on all documents, nested ones included, for every value of the limit.", "anchors": ["markflow/formatters/lists.py:MarkdownOrderedList.first_number", "markflow/formatters/lists.py:MarkdownOrderedList.reformatted", "markflow/reformat_markdown.py:reformat_markdown_text"]}
