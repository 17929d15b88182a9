# Design of the formal model of markflow

## Approach

The code under study (`/repo/markflow`) is a pure string-to-string formatter with a thin command line. The model is a shallow,
function-by-function transcription into Lean 4 (core library only, no Mathlib import).

* A Python `str` is a `List Char` (`Str`). A Python list of lines is `List Str`.
* Python exceptions are values of `Err`; a function that can raise returns `Except Err α`. Order of evaluation is kept, so the first error
  raised by the code is the error of the model.
* `width` is `Width.fin (n : Int)` or `Width.inf`.
* Regular expressions are terms of a small regex syntax (`Rx`, in `Verif/Py/Rx.lean`), transcribed literally, and run by a backtracking
  matcher with Python's priorities (greedy, leftmost, groups of the last iteration).
* Unbounded recursion (block quote detection re-enters the parser; list and quote formatters re-enter the formatter) takes a recursion
  budget `n : Nat`. Budget 0 is the error `Err.recursion` (Python's RecursionError). Theorems quantify over every budget; C06 bounds the
  budget that suffices and C07 shows that a larger budget never changes an outcome.
* The command line is modelled over an abstract file system with explicit write steps, so crash points are states of the model. It takes
  the formatter as a parameter; theorems about it hold for every formatter.

Layout:

| Directory | Contents |
|-----------|----------|
| `Verif/Py` | Python string and regular expression primitives |
| `Verif/Model` | the code; every definition cites file and lines in `/repo` |
| `Verif/Lemmas` | helper lemmas |
| `Verif/Props` | specifications, property theorems, refutations and examples |
| `Verif/Tests` | the repository's tests, asked of the model, and examples of the CommonMark standard, asked of the specification `CM.html`; no claims |

Every claimed theorem starts with its property's id. A name ending in `_partial` proves part of a property; a name containing `refuted` is a
kernel-evaluated counterexample to the property as stated; a name containing `example` instantiates a theorem's hypotheses on a concrete,
non-trivial case.

## Trusted base

1. **Lean's kernel**, version 4.33.0, which checks every proof.
2. **Lean's three axioms**: `propext`, `Quot.sound`, `Classical.choice`. No others, no `sorry`, no `native_decide`, no `bv_decide`. The axioms of
   each claimed theorem are listed in `AXIOMS.md` (the output of `#print axioms`).
3. **The transcription** of the code into `Verif/Model`. It was compared by hand with the source and by evaluating the model on
   the repository's own tests: the 24 pairs of files in `/repo/tests/files` and the 82 assertions of the unit tests that do not render HTML,
   all reproduced (`Verif/Tests/Repo.lean`).
4. **The Python and operating system facts** built into `Verif/Py` and `Verif/Model/Cli.lean`, listed below.
5. **The statements**: that the Lean statement of each theorem says what the property says.

### Python facts assumed

* `str.isspace`, `strip`, `split`, regex `\s`: the code points in `isWs`. `str.splitlines`: the code points in `isLB`, with `\r\n` as one break.
* `str.isdigit` is not used by the code; digits are `[0-9]` or `string.digits`, ASCII only.
* Strings contain Unicode scalar values; lone surrogates are not modelled.
* A `StopIteration` that leaves a generator expression becomes RuntimeError (PEP 479, Python 3.7 and later).
* `repr(s)` of a string: quotation mark, escapes and hexadecimal digits as in CPython. Which characters above 126 are printable is a parameter
  of the theorems; only the statement that a message is one line assumes something of it, that line breaks are not printable.
* Sorting is stable; `re` alternatives and repetitions have Python's priorities.
* `int(digits)` and `str(number)` have no limit on the number of digits. CPython 3.11 and later limit it to 4300 by default; `Model/Digits.lean` is
  the formatter with a limit, and C134 says what it changes. The other theorems are about the formatter without one.
* RecursionError happens at some finite depth, counted in the model in nested calls of the formatter and of block quote detection, not in
  Python frames.

### Modelled

| Code | Model |
|------|-------|
| `exceptions.py`, `typing.py`, `_utils/_utils.py` | `Model/Basic.lean`, `Model/Log.lean` |
| `_utils/textwrap.py` (all functions) | `Model/Wrap.lean` |
| `detectors/_lines.py` (all predicates) | `Model/Lines.lean` |
| `detectors/*.py` (all twelve splitters), `parser.py` | `Model/Detect.lean` |
| `fenced_code_block_started`, `fenced_code_block_ended` (deprecated, called by nothing) | `Model/Deprecated.lean` |
| `formatters/*.py` (`reformatted` and the properties it uses; exceptions of `__repr__`) | `Model/Format.lean` |
| `reformat_markdown.py` | `Model/Reformat.lean`, logging in `Model/Log.lean` |
| log messages of `reformat_markdown.py` and `formatters/atx_heading.py` | `Model/LogM.lean`, `Model/Messages.lean` |
| log messages of `parser.py` and `detectors/*.py`, and the argument `line_offset` | `Model/DetectLog.lean` |
| `__repr__` of the formatters, texts of all these log messages | `Model/Repr.lean` |
| `append` methods and default constructor of the formatters | `Model/Append.lean` |
| `_argparse.py`, `__main__.py:parse_args` after `argparse` collected the options | `Model/Argparse.lean` |
| `parser.parse_args` for the options of `__main__.py:parse_args` (standard library, CPython 3.11.10) | `Model/Argv.lean` |
| `__main__.py`: `_write_renders`, `_print_renders`, `_reformat_files`, `_reformat_stdin`, `main`, exit status | `Model/Cli.lean` |
| `__main__.py`: the same with files of bytes, `read_text` and `write_text` with an encoding, "utf-8" (standard library) | `Model/Bytes.lean` |
| `__main__.py`: `_reformat_stdin`, `_print_renders` with standard input and output of bytes | `Model/Pipe.lean` |
| `formatters/lists.py` and `reformat_markdown.py` with CPython's limit on the digits of a number | `Model/Digits.lean` |
| `__main__.py`: `get_version`, `__main__` | `Model/Version.lean` |
| `__main__.py` with all log messages, the logging state kept from file to file | `Model/MainLog.lean` |

### Not modelled

* The texts `argparse` prints, and `argparse` of other Python versions than 3.11. Its parsing algorithm is modelled for the options of this program
  (`Model/Argv.lean`); `int`, `pathlib.Path` and the regex class `\d` are parameters of it. The model was compared with the standard library's `argparse`, set
  up with the same options, on 420 000 random command lines, without a difference. The name of the package directory is taken to have no character that is
  special in a regular expression.
* `rich`'s rendering of the messages: a message is the string passed to `print_markdown`, or to a logger (the format `""` of line 203 of `__main__.py`
  stands for the message alone).
* Widths that are finite floats: the command line passes only integers and `math.inf`.
* Error handling of standard input and output other than "strict" (in the C locale Python uses "surrogateescape"), output buffers and pipes that are
  closed early. `Model/Cli.lean` has these streams as texts, `Model/Pipe.lean` as bytes; files are bytes in `Model/Bytes.lean`, with the locale's encoding
  as a parameter and Python's "utf-8" as an instance (compared with it on 20 000 sequences of bytes at the limits of its ranges); text mode's universal
  newlines are modelled (`univNewlines`).
* Links, relative spellings and case folding of paths; permissions changing during a run; other processes writing the same files.
* Memory exhaustion, time, signals other than a kill between file system steps.

## Plan per property

| Id | Modelled | Proof idea | Outcome |
|----|----------|-----------|---------|
| C01 | `reformat_markdown_text` | direct from `rstrip` | proved |
| C02 | same | relation over an arbitrary pass, shown to determine the outcome | proved |
| C03 | whole pipeline | detection does not look past the end except for unclosed fences and definitions (`Lemmas/Eof.lean`); white space at the end of the last line by C126 (`C03_last_line_partial`) | false; proved when no open definition ends the text and trimming removes, besides empty lines, only white space that is no hard line break and does not follow a bare list marker; and for all texts that stand for a tree (`C54_stable`) |
| C04 C05 | whole formatter | one invariant "characters come from the input, or are a newline or space, or a hyphen where there is a bar, or a digit where there are a period and a digit" (`Made`), induction on the budget; the markers of quotes, tables and numbered lists are in the first line of the section, which shows its kind. Exactness by one witness per character | proved |
| C06 | whole formatter | measure (number of lines, length of first line) | proved for spaces only; a tab before `>` diverges, proved |
| C07 | whole formatter | monotonicity in the budget | proved |
| C08 C09 C10 | parser, all splitters | induction on lines and budget | proved |
| C11 | all splitters | first character of the line decides | false for five of 66 pairs; the other 61 and the role of the order proved |
| C12 C13 C15 C16 | block formatters | list lemmas | proved |
| C14 | fenced code | list lemmas | false for unclosed fences and info strings that begin with the fence character; proved otherwise |
| C17-C19 | list formatter | fold invariants | proved |
| C20 C22 | table formatter | list lemmas | proved |
| C21 | table formatter | list lemmas | false for escaped bars, short delimiter rows and missing last bars; proved otherwise |
| C23 | `wrap` | token stream carries all non-blank characters | false for nested and overlapping links; proved for links apart |
| C24 C25 C26 C28 | `wrap` | token stream invariants, greedy join | proved |
| C27 | `wrap` | only `appendLast` can fail | false (periods); exact condition for plain text; for all texts see C89 |
| C29 C46 | block quote formatter | direct | proved |
| C30 | block quote formatter | no backslash is ever added | false |
| C31 | definitions | regex match is determined | false when the title does not fit; proved otherwise |
| C32 | whole formatter | invariant by sections | false as stated; proved for documents without top-level lists, empty headings and hard breaks, and for every text that stands for a tree without hard breaks; what is left in all documents is C90 |
| C33 | paragraphs | direct | proved |
| C34 | whole pipeline | grammar of documents of text (`Props/TextSpec.lean`), one lemma per block, generic parse theorem | proved |
| C35-C38 C41 | command line over abstract file system | induction over the list of files | C37 false for repeated paths, rest proved |
| C39 C40 | same | states between write steps | false as stated; partial |
| C42 C44 | helpers | arithmetic | proved |
| C47 | whole pipeline | C34's grammar; kernel evaluation | false (wrapping creates markers); proved for prose documents and for every text that stands for a tree |
| C50 | whole pipeline | detection does not look past a blank line except for open fences, titles and indented code (`Lemmas/Local.lean`) | proved |
| C51 C52 | parser, all splitters | specification of lines and extents, one loop lemma per splitter | proved |
| C48 | list formatter | markers of the rewritten entries, re-splitting | false for mixed lists; proved for lists of one kind |
| C49 | whole formatter | from C53 | false for nested tables; proved relative to the nested document |
| C53 | whole formatter | every raising expression traced through the shapes the parser guarantees | proved |
| C54 | whole formatter | specification of trees in `Props/TreeSpec.lean`; parsing, formatting and re-reading of every kind of block by induction on the depth | proved for trees of the specification; link definitions are those on one line whose titled or last lines fit (`Props/RefSpec.lean`); texts with lazy continuation lines stand for no tree; neither do hard breaks inside quotes, nor quotes and code in an entry whose number is shorter than the last number of the list (`C57_refuted_digits` shows why); `C54_widths_refuted` shows why width independence needs tokens that are not glued |
| C55 | `wrap` | specification of tokens and layouts in `Props/InlineSpec.lean` and `Props/Inline.lean`; each splitting pass refines the tokens (`Cov`), `join` is `lay` | proved for texts with words, code spans, links and line break tags; nested links and links whose name or target has a code span are not tokens of the specification, and a text in which a single period starts a piece has no tokens (the program raises IndexError there, C27) |
| C56 | `wrap` | writing tokens down and reading them again (`Runs.written`), laying out settled tokens (`relay`) | proved for texts with tokens; `C56_widths_refuted` shows that the width of an earlier pass matters when tokens are glued |
| C57 | whole formatter | from C54 | false (indented quotes, quotes in entries with shorter numbers, links, hard breaks in quotes); proved for texts that stand for a tree |
| C58 | `wrap` | words of the tokens (`Runs.spaced_words`) | false for links and for text that touches a code span; proved for tokens that do not touch |
| C59 | `get_version` | the matcher's relational semantics; a stretch of version characters is determined | proved |
| C60 C61 | whole program | case analysis; induction over the list of files | proved |
| C62 | argument checking | acceptance stated as a relation on paths, case analysis | proved |
| C63 | whole program, any formatter | congruence in the formatter at one width | proved |
| C64 C65 | output files, renders | induction over the list of pairs; C53 for the two passes | proved |
| C66 | no text lost, added or moved | per kind of section (C12–C16, C21, C23, C31, C33), then induction on the recursion budget | proved; the conditions are part of the statement |
| C67 | formatter with its messages | leaving out messages gives the formatter (`Erases`); one invariant for the state and the messages shown (`Adds`) | proved |
| C68 | same | `Adds` for truth, runs of nested documents for completeness | false: line numbers count from the start of the nested document, and the second pass counts in the new text; proved relative to the document that has the heading |
| C69 | `append` methods | induction over the lines, C52 | false for ordered lists, which have no `append`; proved for all others |
| C70 | parser with its messages | erasure and one invariant for truth; the run of each section for completeness | proved |
| C71 C72 | same | same | false: the numbers in these warnings do not count from the start of the document; what they warn about is proved true and complete |
| C73 | verbosity | `Adds` for both passes, also of failing runs | proved |
| C74 C75 | texts of messages | `repr` writes a uniquely decodable code of visible characters; the heads of the representations are pairwise not prefixes | proved |
| C76 C77 | `__repr__` | case analysis, length of the code | false: quotes and lists lack the opening bracket, and the info string of a fence is shown in full; proved for the other kinds |
| C78 | command with its log | every definition erases to the one without log | proved |
| C79 | same | the formatter's effect on the logging state depends only on the effective levels (`Steady`), and successful calls restore them | proved |
| C80 | same | invariant over all messages of a run | proved |
| C81 C82 | command line over abstract file system | a run as a sequence of readings and writings (`InTurn`), induction over it | proved |
| C83 | same, with the formatter | every text written is made by the formatter from given files (`Content`), then C04 | proved |
| C84 | same, any formatter | the steps of a run are complete writings (`Wrote`); prefixes of such sequences | proved |
| C85 | formatter with its messages | invariant also for failing runs (`Harm`) | proved |
| C86 | `argparse`, grammar of command lines | tokens of a line; the loop as a fold over options; inversion of every step | proved |
| C87 | `argparse`, process | errors followed through all steps to the entry that causes them | proved |
| C88 | `argparse` | leftover paths are never forgotten | proved |
| C89 | `wrap` | `Pieces` (Lemmas/Pieces.lean) gives the stretches outside code spans as a grammar of the text; `codeSplit_pieces`: they are what `code_split` passes on; `HasLink` by completeness of the matcher | proved |
| C90 | whole formatter | `Trails` holds of the text of every section, by induction on the budget; the first line of a nested text is never made of spaces, so nothing but the marker stands in front of it | proved |
| C91 | deprecated functions of the fence detector | their state as an argument; induction over the lines; C14_extent for the splitter | proved |
| C92 | command line to files, twice | induction over the files; C81 for what the first run leaves, C54 for trees; C86 puts `--check` in front | proved |
| C93 | `fmtTable`, `parse` | both readings of a row exist and are unique (`splitBars`, `splitChar`); `zip` truncation as `take`; C52 for the rows of a section | proved |
| C94 | `fmtTable` twice, `reformat_markdown_text` | written rows read back (C93); widths of the second pass from the kept cells; equal results give equal widths because the delimiter row shows them | proved |
| C95 | `split_fenced_code_block`, fenced `reformatted`, `reformat_markdown_text` | extent from C14; the written lines are a block again and do not change; a longer fence that nothing closes loses the last line in the second pass | proved |
| C96 | `link_split`, `wrap` | one step of `link_split` adds the text in front of a link and the kept part of the link; the other passes keep all characters; C89's stretches | proved |
| C97 | `split_paragraph`, paragraph `reformatted`, `wrap`, `reformat_markdown_text` | the lines are read as one paragraph exactly if they are a `TextBlock` (C52); the second pass finds the settled tokens (C56) | proved |
| C98 | `split_indented_code_block`, `split_fenced_code_block`, their formatters, `reformat_markdown_text` | the block is two sections, the second one its last line (C52); section by section formatting (`reformat_sections`); the written lines are read the same way | proved |
| C99 | `split_block_quote`, `MarkdownBlockQuote.reformatted`, `reformat_markdown_text` | on lines without hard breaks and labels detection can only run out of depth (`Lemmas/NoStop.lean`), with C06 it does not, so a quotation is one section; its formatter calls the whole formatter; induction on the depth | proved; `C99_flush_needed` shows why some line has to be flush, `C57_refuted_break` why no line may end in a hard break |
| C100 | `split_link_reference_definition`, `MarkdownLinkReferenceDefinition.reformatted`, `reformat_markdown_text` | the layout splits the words of the title into groups, the first of which follows the link (`ref_fill`); the lines joined are the definition again, and the loop for the end of a title runs to the last line (`title_loop`); layout depends on the current line only through its text (`lay_cur`) | proved |
| C101 | `split_link_reference_definition`, `MarkdownParagraph.reformatted`, `reformat_markdown_text` | such a definition is taken for a paragraph; the two lines written are a label without a link, behind which the detector looks for a third line | proved |
| C102 | `_split_list`, `_dedent_entries`, `MarkdownBulletList.reformatted`, `MarkdownOrderedList.reformatted`, `reformat_markdown_text` | the list formatter gives back the texts it was made of, and a list can be taken apart in only one way; a fence in indentation has no length for the formatter, so each of them opens or closes | proved |
| C103 | `split_setext_heading`, setext `reformatted`, `wrap`, `reformat_markdown_text` | as C97 with an underline below the lines (`parse_headBlock`); the second pass finds the settled tokens and an underline of the same length | proved |
| C104 | `split_thematic_break`, `MarkdownThematicBreak.reformatted`, `reformat_markdown_text` | C13 for the first pass; the line written is nothing, a short paragraph or a break, and none of them changes | proved |
| C105 | `parse_markdown`, all splitters, `_reformat_markdown_text`, `reformat_markdown_text` | sections from C50; formatters are built and called in sequence, and a line number only shows in the message about a ragged table; texts without empty lines can be put together in only one way; plain texts end where they end (`Lemmas/Eof.lean`, `Lemmas/NoStop.lean`) | proved |
| C106 | `MarkdownBlockQuote.reformatted`, `split_block_quote`, `reformat_markdown_text` | `fullyQuote` is the independent `markLazy`, whose every line `C106_line` describes; a line with a marker is kept by it, so doing it twice changes nothing | proved |
| C107 | `MarkdownBlockQuote.reformatted`, `split_block_quote`, `reformat_markdown_text` | as C99, with markers after up to three spaces; the code's `indent` is negative, so it is added to the width instead of taken off, and contributes no spaces to the prefix | proved |
| C108 | `wrap`, `join`, all formatters, `_reformat_markdown_text`, `reformat_markdown_text` | the width is only compared with lengths of lines that the text bounds; contents of lists and quotes get the width less a constant; only `fmtThematic` writes something as long as the width, and no section is a thematic break unless a line ends like one | proved |
| C109 | all formatters, `_reformat_markdown_text`, `reformat_markdown_text` | sections are found without the width; five of the formatters do not use it | proved |
| C110 | `_reformat_markdown_text`, `reformat_markdown_text` | the text is only used through `splitlines`, which is described by the independent `ended` | proved |
| C111 | `parse_markdown`, `split_blank_line`, `_reformat_markdown_text`, `reformat_markdown_text` | blank lines are sections of their own, and only headings after quotes depend on the section before; the end is as in C105 | proved |
| C43 C45 | argument checks, logging | case analysis, induction on nesting | false in part; partial |
| C112 | `split_atx_heading`, `MarkdownATXHeading.reformatted`, `_reformat_markdown_text`, `reformat_markdown_text` | such a line is a section whatever follows; written headings are headings again | proved |
| C113 | `_split_list`, `_dedent_entries`, list detectors and formatters, `reformat_markdown_text` | both lists are taken apart side by side; `line[:indent].lstrip() + line[indent:]` is the text for every indentation up to `indent` | proved |
| C114 | `join`, `wrap`, `reformat_markdown_text` | the loop with the larger width is never behind: fewer lines, or as many and a current line that is not longer | proved |
| C115 | `split_link_reference_definition` | the closing pattern is a scan with an escape flag; the rest by cases | proved |
| C116 | `parse_markdown` | every splitter on unquoted lines as a count of lines; induction over sections | proved |
| C117 | `parse_markdown`, `split_block_quote` | splitters as counts of lines relative to any counted quote splitter; the specification lies between the model at two recursion budgets | proved |
| C118 | `wrap` and all it calls | patterns shown equal to left-to-right scans; loops followed match by match against a reference without regular expressions | proved |
| C119 | `reformatText`, `reformatMarkdownText` | `C119_format`, `C119_enough`, `C119_spaces`, `C119_call`, `C119_call_enough`: each formatter equals its reference (`Props/FormatRef.lean`) on sections of the shape that `parse` returns; with C117 and C118 the whole follows by induction on the budget in both directions | proved |
| C120 | `parseL`, `reformatTextL`, `reformatMarkdownTextL` | `C120_division`, `C120_pass`, `C120_succeeds`, `C120_width`, `C120_call`: `Utters m f` says that a run of `m` shows the audible ones of `f`, unless it exceeds the recursion limit, and leaves the levels if it succeeds; it is closed under sequencing, and each function with messages utters its part of the specification (`Props/LogRef.lean`), with values known by erasure and C115, C117, C119 | proved |
| C121 | `parseL`, `reformatTextL`, `reformatMarkdownTextL` | `C121_division`, `C121_pass`, `C121_call_first`, `C121_call_second`: `Leaves m d` says which level for information `m` leaves if it fails; inside `redirected` it is the one for debugging by C85's lemmas; in a sequence the part that fails decides, which is known by erasure and C117, C119 | proved |
| C122 | `parseL`, `reformatTextL`, `reformatMarkdownTextL` | `C122_division`, `C122_pass`, `C122_call`, `C122_unbounded`, `C122_flat`: counts the messages of C120's specification by induction on the depth; what is in a quote is divided once to divide it and again for the quote in it. `C122_without_quotes`, `C122_call_without_quotes` (`Props/Effort.lean`): without the character `>` the square of the length is a bound, as the document of a list entry is shorter than the entry | proved |
| C123 | `mainRunB` and the functions it calls, `utf8` | `C123_run`, `C123_steps`, `C123_untouched`, `C123_interrupted`: simulation of the run on texts, function by function (`Agrees`), then C83 and C84 of it; `C123_utf8` by `utf8_inverse`; `C123_charset` by C83's bound on the characters written; `C123_undecodable` as C38; `C123_torn`, `C123_mark` direct | proved |
| C124 | `programL`, `commandLine`, `mainRunB` | `C124_command`, `C124_program`, `C124_line`, `C124_bytes`: each piece of the program does what a tale tells (`Told`), composed by `Told.bind`; calls of the formatter by C119, C120, C121; levels of the loggers return to those of the start after each call that does not end the run (C79) | proved |
| C125 | `reformatMarkdownText`; specification of CommonMark: `CM.html` (`Props/CommonSpec.lean`), after the parsing strategy in the appendix of the standard, compared with 195 examples of the standard (`Tests/CommonMark.lean`; the sandbox has no copy of it, so the examples are written down from memory); not covered there: tabs, HTML blocks, link definitions (paragraphs that start with `[` and have `]:` in them) and empty items (`none`), and markup inside paragraphs, of which the words are compared | paragraphs may have code spans, links and hard line breaks, lists may be loose and have numbers of different length. `C125_tree_partial`, `C125_output_partial`, `C125_print_partial`, `C125_widths_partial`: the line machine of the standard renders lines that are read as a tree as the tree says (`rdoc_render`, by induction on the depth), and a printed tree is read as that tree (`print_cmDoc`); with C54. False in general: `C125_refuted` and nine kinds of documents `C125_refuted_*` | partial |
| C126 | `reformatText`, `reformatMarkdownText`; relation of lines: `SameText` (`Props/LineEnds.lean`) | `formatRef_same`: the reference form of the program (C119) treats two such documents alike, shown for every line predicate, the division into sections and each section's formatter, by induction on the levels; `C126_pass`, `C126_line_ends`, `C126_trim`, `C126_spaces` by C119 and C06; conditions needed: `C126_needed` | proved |
| C127 | False in general; holds for documents that stand for a loose tree, at all widths wide enough for the tree; exact result for all trees | `Props/Widths.lean`, from the tree theorems of C54 | `C127_tree_partial`, `C127_loose_partial`, `C127_example`; `C127_refuted` (`…_glued`, `…_marker`, `…_definition`, `…_failure`). Missing: documents that are no trees and do not run into the counterexamples |
| C128 | `_reformat_stdin`, `_print_renders`, `main` with standard streams of bytes (`Model/Pipe.lean`) | the filter is a function of bytes (`filterOf`), compared with the run on a file of C123; no result has a carriage return (C04), so the next filter reads what was printed | proved |
| C129 | all formatters, `wrap`, `_reformat_markdown_text` | weights of strings in which `>` counts nothing (`wt 0`): every step of `wrap` multiplies the weight by a constant (through the reference `wrapRef` of C118), quoting lazy lines adds only `>`, and sections partition the lines (C08); induction on the recursion budget | proved |
| C130 | all formatters, `wrap`, `_reformat_markdown_text` | every line keeps its place in the original text: the markers a lazy line has gained are paid for by the columns before that place (`Room`), the indentation of an entry by the columns of its marker and by the entries after it; with the linear number of lines (C129) each line costs at most a linear number of characters. A quote that cannot be unquoted never comes out (`noMark_fails`). The family is a tree in the sense of C54 | proved |
| C131 | all of detection, `wrap`, all formatters, `reformat_markdown_text` | every function of the model commutes with a renaming: a predicate true only of special characters does not see it (`ren_pred`), and a pattern made of such classes matches at the same places (`ren_run`, by induction over the pattern, with continuations); then function by function, with the recursion budget by induction. Exactness: one witness per special character against `Q`, carried to every other character by the theorem itself | proved |
| C132 | as C131 | the lemmas of C131 need injectivity at three places only: the fence of a code block, which is a special character; the two searches in link definitions; the comparison of the passes. A text without `[` has no definitions, nor have the texts nested in it (the sharpened invariant of C05: brackets are never written anew), so everything else commutes with a masking | proved |
| C133 | as C05, and `parse` for the result | the invariant of C05 with its reasons, carried to the lines of the result and to the documents nested in it (`Within`); the first line of a section shows its kind (`parse_first`), the last one for underlined headings (C52) | proved |
| C134 | `Model/Digits.lean`: ordered lists with a limit on `int` and `str`, and all that calls them | the outcome is the same or ValueError, through every formatter (as C07). For short numbers equality by induction on the budget: nested documents have no more lines, and their lines no more digits, than the document; the last number is less than 10^D + N. ValueError is none of the exceptions of C53 | proved |

Properties that turn out false of the code keep their full statement; the counterexample is a theorem and the part that does hold is proved as
`..._partial`.

## Findings

Behaviour of the code that contradicts its documentation or a natural expectation, each backed by a theorem:

* Wrapping can move `-`, `#`, `>` or a number to the start of a line and so create a list, heading or quote (`C47_refuted_*`).
* A tab before a block quote marker makes detection recurse for ever (`C06_tab_before_quote`).
* A result need not be a fixed point: trailing whitespace is trimmed after the consistency check (`C03_refuted`).
* The link reference formatter drops label and link when the title does not fit on the line (`C31`), and the result is accepted (`C100_lost`).
* A definition without a title in the last line crashes with StopIteration if it is longer than the width (`C101_error`).
* An unclosed fence loses its last line; an info string that begins with the fence character lengthens the fence (`C14_refuted_*`). Exactly when: `C95`. A fence that got longer this way may be closed early, so that one block silently becomes two (`C95_two_blocks`).
* Nested or overlapping links lose or repeat text (`C23_refuted_*`; exactly what is left: `C96`). A badge, that is, a link around an image, loses the
  target of the link, and the result is accepted (`C96_badge`).
* A paragraph of one line that ends with two spaces crashes with StopIteration if it has to be wrapped (`C97_hard_more`); a paragraph
  in which wrapping puts `-` or `1.` at the start of a line becomes a list, and this can be accepted (`C97_example`).
* The last line of an indented code block is a section of its own. If it looks like a fence, the rest of the document becomes code and its
  last line is lost, and this is accepted (`C98_swallowed`).
* The space between two links gets lost (`C58_refuted_links`); a comma between a reference link and a link is written twice in the
  second pass, so that formatting fails (`C57_refuted_links`).
* The target of a link may start a line, and is read as a heading when it is an anchor (`C57_refuted_anchor`).
* A block quote that is indented, or has a hard break in it, is formatted inconsistently (`C57_refuted_quote`, `C57_refuted_break`). So is a quote in an entry with a shorter number than the last entry: `9. a`, `   > aaa bbb`, `10. x` fails at width 12 (`C57_refuted_digits`).
* A paragraph of a list entry behind a blank line is moved out of the list (`C52_paragraph_leaves_list`).
* Text that touches a code span is moved to the next line if it does not fit (`C58_refuted_code`).
* Text that starts with a single period, or with a period behind a code span and a space, raises IndexError (`C27_refuted`).
* An escaped bar in a table body, a short delimiter row or a missing last bar silently loses cells (`C21`; exactly which ones: `C93`). A header without a second bar loses everything, but the consistency check then refuses the result (`C93_everything_lost`).
* A ragged table inside a list or quote is reported with a wrong line number (`C22_nested_line_number_wrong`).
* Warnings about headings inside a list or quote have a wrong line number (`C68_refuted`); an empty heading is reported a second time with its line
  number in the new text (`C68_second_pass`).
* The warning about a closing fence that is indented too deeply counts lines from the start of a section (`C71_refuted`), and the same fence can be warned
  about twice (`C71_twice`). The warning about a label without a link always says line 1, or line 0 at the end of the document (`C72_complete`,
  `C72_refuted`).
* Warnings of section detection are shown twice, because the second pass only mutes the logger of `reformat_markdown.py` (`C70_second_pass`).
* The representations of quotes and lists lack the opening `<` (`C76_refuted`); that of fenced code shows the info string at any length (`C77_refuted`).
* The formatter of ordered lists has no `append` (`C69_refuted`).
* A list that mixes bullets and numbers is rewritten with the markers of its first entry's kind (`C48_refuted`).
* A fence that opens a list entry swallows the following entries (`C18_fence_swallows_entry`, `C102_fences_needed`).
* The indentation of a block quote is computed with the wrong sign: its contents are first wrapped that much wider than they should be, and the document is refused if that shows (`C107_exact`, `C107_example`).
* A link reference definition at the end of a document is a paragraph, and if it has to be wrapped the program fails with StopIteration; with an empty line
  behind it, it is a definition (`C111_definition`).
* A thematic break that is written with fewer than three characters becomes a paragraph, or nothing, and this is accepted (`C104_exact`); it takes a quote in
  a quote in a quote and width 8.
* An underlined heading with a hash or a `>` in it can become a paragraph, another heading or quote and a second paragraph, and this is accepted
  (`C103_example`, `C103_kept`).
* A thematic break of dashes directly after a paragraph becomes a heading underline, which the consistency check rejects
  (`C34_dashes_after_paragraph`).
* `>` is never escaped in block quotes although the README says so (`C30`).
* `--check` with an output option still writes unchanged files; inputs with the same name collide in an output directory (`C35`, `C40`).
* Swapping two files through `--output-file` loses one of them (`C64_example`).
* A directory without Markdown files makes the program read standard input (`C62_empty_directory`).
* A crash between truncation and the last write loses a file's content (`C39`).
* `logging.INFO` stays redefined after an exception (`C45_formatter_info`), and the logger muted (`C45_formatter_own`).
* The error about a ragged table does not name the file (`C80_example`): the exception is no RuntimeError.
* Every command fails with a traceback when no version is found, as in an installed pre-release or beside another project's
  `pyproject.toml` (`C59_no_version`, `C60_no_version`).
* The deprecated `fenced_code_block_ended` takes a longer fence inside a block for its end, and its warning has the number of the following line (`C91_example`).
* One pass writes a line of spaces between a block quote and a heading in a list entry (`C90_spaces`); the second pass then ends the list there, so the
  document is refused.
* `ExistingPath` ignores the permissions it is given (`C43`).
* Headings, block quotes and text directly after a list are moved into its last entry (`C113_example`).
* In a nested block with no column left the text is not wrapped at all, so a smaller width can give fewer lines (`C114_room_needed`).
* An unclosed title on the lines after a link is taken into the definition except for its last line (`C115_example`).
* A closing fence that is indented too deeply is reported again and again: by every paragraph and quote before it that looks ahead, with lines counted from where the looking began. In `a`, `> b`, `c`, `~~~`, `     ~~~` the log has five warnings, about lines 4, 4, 3, 3 and 2; the fence is in line 5 (C120).
* The time that quotes take is exponential in their depth (C122): `_block_quote_ends_with_paragraph` divides what is in a quote, which asks the same of the quote in it, and then calls itself for that quote. A line of some forty characters `>` and a letter takes longer than anyone will wait; the recursion limit of Python stops nothing before that.
* A run that is interrupted can leave a file that is not UTF-8 any more, since a write can end within a character; the next run ends at this file with status 1 (C123). And a file saved with a byte order mark loses its first heading, list, quote or code block: the mark is text, so what begins with it is wrapped as a paragraph (C123).
* `#a` is formatted to `# a`, and so a paragraph becomes a heading. Words of prose such as `-`, `+` or `1)` can come to the start of a line, where they start a list. Line breaks that are written as a backslash are lost. A second paragraph of a list entry, after a blank line, is torn out of the list: `- a`, an empty line and `  b` give `- a`, an empty line and `b` (C125).
* Paths on both sides of an option are refused, and so is `markflow a.md --check --` (`C88_together`). `--dev` and `--output-di` are refused as ambiguous
  although all names they may mean belong to one option (`C87_example`).

## Testing the theorems

`seeded/LOG.jsonl` records deliberately wrong versions of the model, one edit each, made in a scratch copy: the definition, the edit, the claim it breaks,
the theorems whose own proof failed (`failed`, lemmas included), the theorems of MANIFEST.json that thereby lost their proof
(`claims_no_longer_proved`) and the theorems that were added or tightened because of it. An edit may appear in several rounds: a later round repeats it after
the theorems were tightened.
