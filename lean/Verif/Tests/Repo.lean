import Verif.Model.Reformat
/-!
# The repository's own tests, asked of the model

Every assertion of `/repo/tests/test_*.py` about formatters and helpers, except those that render HTML, and every pair of files of
`/repo/tests/files` (`test_files.py`), each formatted once and, as there, once more. These are tests of the transcription on fixed
inputs, not properties; MANIFEST.json does not refer to them. The input texts and results were read off the files of the tests.
-/

namespace MF.RepoTests

/-- /repo/tests/test_atx_heading.py:7 TestATXHeading.test_simple. -/
theorem atx_heading_TestATXHeading_simple :
    fmtSection (reformatText 9) (.fin 88) 0 .atx [c!"   # Heading    "] =
      .ok c!"# Heading" ∧
    fmtSection (reformatText 9) (.fin 88) 0 .atx [c!"# Heading"] =
      .ok c!"# Heading" := by
  decide +kernel

/-- /repo/tests/test_atx_heading.py:16 TestATXHeading.test_technically_invalid. -/
theorem atx_heading_TestATXHeading_technically_invalid :
    fmtSection (reformatText 9) (.fin 88) 0 .atx [c!"   #Heading    "] =
      .ok c!"# Heading" := by
  decide +kernel

/-- /repo/tests/test_block_quote.py:12 TestBlockQuote.test_basic. -/
theorem block_quote_TestBlockQuote_basic :
    fmtSection (reformatText 9) (.fin 35) 0 .quote [c!"> > Double Indented > Quote", c!">", c!">>", c!">Quote \\>", c!"More Quote", c!">>> Triple Indented Quote", c!"> > Part of that Triple Indented Quote"] =
      .ok c!"> > Double Indented > Quote\n>\n> >\n> Quote \\> More Quote\n> >> Triple Indented Quote Part of\n> >> that Triple Indented Quote" ∧
    fmtSection (reformatText 9) (.fin 35) 0 .quote [c!"> > Double Indented > Quote", c!">", c!"> >", c!"> Quote \\> More Quote", c!"> >> Triple Indented Quote Part of", c!"> >> that Triple Indented Quote"] =
      .ok c!"> > Double Indented > Quote\n>\n> >\n> Quote \\> More Quote\n> >> Triple Indented Quote Part of\n> >> that Triple Indented Quote" := by
  decide +kernel

/-- /repo/tests/test_fenced_code_block.py:7 TestCodeBlock.test_backtick. -/
theorem fenced_code_block_TestCodeBlock_backtick :
    fmtSection (reformatText 9) (.fin 88) 0 .fenced [c!"```python   ", c!"# Very powerful spell   ", c!"if necromancer:   ", c!"    raise Dead()  ", c!"```"] =
      .ok c!"```python\n# Very powerful spell\nif necromancer:\n    raise Dead()\n```" ∧
    fmtSection (reformatText 9) (.fin 88) 0 .fenced [c!"```python", c!"# Very powerful spell", c!"if necromancer:", c!"    raise Dead()", c!"```"] =
      .ok c!"```python\n# Very powerful spell\nif necromancer:\n    raise Dead()\n```" := by
  decide +kernel

/-- /repo/tests/test_fenced_code_block.py:28 TestCodeBlock.test_tilda. -/
theorem fenced_code_block_TestCodeBlock_tilda :
    fmtSection (reformatText 9) (.fin 88) 0 .fenced [c!"~~~~python   ", c!"# Very powerful spell   ", c!"if necromancer:   ", c!"    raise Dead()  ", c!"```", c!"~~~~"] =
      .ok c!"~~~~python\n# Very powerful spell\nif necromancer:\n    raise Dead()\n```\n~~~~" ∧
    fmtSection (reformatText 9) (.fin 88) 0 .fenced [c!"~~~~python", c!"# Very powerful spell", c!"if necromancer:", c!"    raise Dead()", c!"```", c!"~~~~"] =
      .ok c!"~~~~python\n# Very powerful spell\nif necromancer:\n    raise Dead()\n```\n~~~~" := by
  decide +kernel

/-- /repo/tests/test_horizontal_line.py:9 TestThematicBreak.test_too_short. -/
theorem horizontal_line_TestThematicBreak_too_short :
    fmtSection (reformatText 9) (.fin 50) 0 .thematic [c!"---"] =
      .ok c!"--------------------------------------------------" := by
  decide +kernel

/-- /repo/tests/test_horizontal_line.py:17 TestThematicBreak.test_too_long. -/
theorem horizontal_line_TestThematicBreak_too_long :
    fmtSection (reformatText 9) (.fin 50) 0 .thematic [c!"----------------------------------------------------------------------------------------------------"] =
      .ok c!"--------------------------------------------------" := by
  decide +kernel

/-- /repo/tests/test_horizontal_line.py:25 TestThematicBreak.test_infinity. -/
theorem horizontal_line_TestThematicBreak_infinity :
    fmtSection (reformatText 9) .inf 0 .thematic [c!"----------"] =
      .ok c!"---" := by
  decide +kernel

/-- /repo/tests/test_indented_code_block.py:7 TestIndentedCodeBlock.test_simple. -/
theorem indented_code_block_TestIndentedCodeBlock_simple :
    fmtSection (reformatText 9) (.fin 88) 0 .indented [c!"    import goods    ", c!"", c!"    tariffs = good.audit()   "] =
      .ok c!"    import goods\n\n    tariffs = good.audit()" ∧
    fmtSection (reformatText 9) (.fin 88) 0 .indented [c!"    import goods", c!"", c!"    tariffs = good.audit()"] =
      .ok c!"    import goods\n\n    tariffs = good.audit()" := by
  decide +kernel

/-- /repo/tests/test_link_reference_definition.py:10 TestLinkReferenceDefinition.test_basic. -/
theorem link_reference_definition_TestLinkReferenceDefinition_basic :
    fmtSection (reformatText 9) (.fin 88) 0 .lrd [c!"   [footnote1]: http://example.com     "] =
      .ok c!"[footnote1]: http://example.com" ∧
    fmtSection (reformatText 9) (.fin 88) 0 .lrd [c!"[footnote1]: http://example.com"] =
      .ok c!"[footnote1]: http://example.com" := by
  decide +kernel

/-- /repo/tests/test_list.py:9 TestMarkdownList.test_basic_asterisk. -/
theorem list_TestMarkdownList_basic_asterisk :
    fmtSection (reformatText 9) (.fin 50) 0 .bullet [c!"* I am a list that is pretty badly", c!"formatted", c!"* There are all sorts of problems that don't make this look very nice, like", c!"bullets that break across lines and missing spaces.", c!"* Which also is a problem when working with nested lists since they could be", c!"missing leading spaces and make things look extra confusing."] =
      .ok c!"* I am a list that is pretty badly formatted\n* There are all sorts of problems that don't make\n  this look very nice, like bullets that break\n  across lines and missing spaces.\n* Which also is a problem when working with nested\n  lists since they could be missing leading spaces\n  and make things look extra confusing." ∧
    fmtSection (reformatText 9) (.fin 50) 0 .bullet [c!"* I am a list that is pretty badly formatted", c!"* There are all sorts of problems that don't make", c!"  this look very nice, like bullets that break", c!"  across lines and missing spaces.", c!"* Which also is a problem when working with nested", c!"  lists since they could be missing leading spaces", c!"  and make things look extra confusing."] =
      .ok c!"* I am a list that is pretty badly formatted\n* There are all sorts of problems that don't make\n  this look very nice, like bullets that break\n  across lines and missing spaces.\n* Which also is a problem when working with nested\n  lists since they could be missing leading spaces\n  and make things look extra confusing." := by
  decide +kernel

/-- /repo/tests/test_list.py:35 TestMarkdownList.test_basic_dash. -/
theorem list_TestMarkdownList_basic_dash :
    fmtSection (reformatText 9) (.fin 50) 0 .bullet [c!"- I am a list that is pretty badly", c!"formatted", c!"- There are all sorts of problems that don't make this look very nice, like", c!"bullets that break across lines and missing spaces.", c!"- Which also is a problem when working with nested lists since they could be", c!"missing leading spaces and make things look extra confusing."] =
      .ok c!"- I am a list that is pretty badly formatted\n- There are all sorts of problems that don't make\n  this look very nice, like bullets that break\n  across lines and missing spaces.\n- Which also is a problem when working with nested\n  lists since they could be missing leading spaces\n  and make things look extra confusing." ∧
    fmtSection (reformatText 9) (.fin 50) 0 .bullet [c!"- I am a list that is pretty badly formatted", c!"- There are all sorts of problems that don't make", c!"  this look very nice, like bullets that break", c!"  across lines and missing spaces.", c!"- Which also is a problem when working with nested", c!"  lists since they could be missing leading spaces", c!"  and make things look extra confusing."] =
      .ok c!"- I am a list that is pretty badly formatted\n- There are all sorts of problems that don't make\n  this look very nice, like bullets that break\n  across lines and missing spaces.\n- Which also is a problem when working with nested\n  lists since they could be missing leading spaces\n  and make things look extra confusing." := by
  decide +kernel

/-- /repo/tests/test_list.py:61 TestMarkdownList.test_basic_plus. -/
theorem list_TestMarkdownList_basic_plus :
    fmtSection (reformatText 9) (.fin 50) 0 .bullet [c!"+ I am a list that is pretty badly", c!"formatted", c!"+ There are all sorts of problems that don't make this look very nice, like", c!"bullets that break across lines and missing spaces.", c!"+ Which also is a problem when working with nested lists since they could be", c!"missing leading spaces and make things look extra confusing."] =
      .ok c!"+ I am a list that is pretty badly formatted\n+ There are all sorts of problems that don't make\n  this look very nice, like bullets that break\n  across lines and missing spaces.\n+ Which also is a problem when working with nested\n  lists since they could be missing leading spaces\n  and make things look extra confusing." ∧
    fmtSection (reformatText 9) (.fin 50) 0 .bullet [c!"+ I am a list that is pretty badly formatted", c!"+ There are all sorts of problems that don't make", c!"  this look very nice, like bullets that break", c!"  across lines and missing spaces.", c!"+ Which also is a problem when working with nested", c!"  lists since they could be missing leading spaces", c!"  and make things look extra confusing."] =
      .ok c!"+ I am a list that is pretty badly formatted\n+ There are all sorts of problems that don't make\n  this look very nice, like bullets that break\n  across lines and missing spaces.\n+ Which also is a problem when working with nested\n  lists since they could be missing leading spaces\n  and make things look extra confusing." := by
  decide +kernel

/-- /repo/tests/test_list.py:87 TestMarkdownList.test_make_bullets_same. -/
theorem list_TestMarkdownList_make_bullets_same :
    fmtSection (reformatText 9) (.fin 88) 0 .bullet [c!"* Test", c!"+ Test", c!"- Test"] =
      .ok c!"* Test\n* Test\n* Test" ∧
    fmtSection (reformatText 9) (.fin 88) 0 .bullet [c!"* Test", c!"* Test", c!"* Test"] =
      .ok c!"* Test\n* Test\n* Test" := by
  decide +kernel

/-- /repo/tests/test_list.py:112 TestMarkdownList.test_correct_numbering. -/
theorem list_TestMarkdownList_correct_numbering :
    fmtSection (reformatText 9) (.fin 88) 0 .ordered [c!"1. Test", c!"1. Test", c!"4. Test"] =
      .ok c!"1. Test\n2. Test\n3. Test" ∧
    fmtSection (reformatText 9) (.fin 88) 0 .ordered [c!"1. Test", c!"2. Test", c!"3. Test"] =
      .ok c!"1. Test\n2. Test\n3. Test" := by
  decide +kernel

/-- /repo/tests/test_list.py:131 TestMarkdownList.test_nested_unordered. -/
theorem list_TestMarkdownList_nested_unordered :
    fmtSection (reformatText 9) (.fin 50) 0 .bullet [c!"* This is a really long line that with terrible", c!"spacing", c!"  - This is also a really long line with terrible", c!"spacing", c!"  * This one's ok though", c!"- So is this one"] =
      .ok c!"* This is a really long line that with terrible\n  spacing\n  - This is also a really long line with terrible\n    spacing\n  - This one's ok though\n* So is this one" ∧
    fmtSection (reformatText 9) (.fin 50) 0 .bullet [c!"* This is a really long line that with terrible", c!"  spacing", c!"  - This is also a really long line with terrible", c!"    spacing", c!"  - This one's ok though", c!"* So is this one"] =
      .ok c!"* This is a really long line that with terrible\n  spacing\n  - This is also a really long line with terrible\n    spacing\n  - This one's ok though\n* So is this one" := by
  decide +kernel

/-- /repo/tests/test_list.py:160 TestMarkdownList.test_nested_ordered. -/
theorem list_TestMarkdownList_nested_ordered :
    fmtSection (reformatText 9) (.fin 50) 0 .ordered [c!"1. This is a really long line that with terrible", c!"spacing", c!"   1. This is also a really long line with terrible", c!"spacing", c!"   1. This one's ok though", c!"   1. This one isn't", c!"great", c!"1. So is this one"] =
      .ok c!"1. This is a really long line that with terrible\n   spacing\n   1. This is also a really long line with\n      terrible spacing\n   2. This one's ok though\n   3. This one isn't great\n2. So is this one" ∧
    fmtSection (reformatText 9) (.fin 50) 0 .ordered [c!"1. This is a really long line that with terrible", c!"   spacing", c!"   1. This is also a really long line with", c!"      terrible spacing", c!"   2. This one's ok though", c!"   3. This one isn't great", c!"2. So is this one"] =
      .ok c!"1. This is a really long line that with terrible\n   spacing\n   1. This is also a really long line with\n      terrible spacing\n   2. This one's ok though\n   3. This one isn't great\n2. So is this one" := by
  decide +kernel

/-- /repo/tests/test_list.py:190 TestMarkdownList.test_weird_indenting. -/
theorem list_TestMarkdownList_weird_indenting :
    fmtSection (reformatText 9) (.fin 50) 0 .bullet [c!"* This is a really long line that with terrible", c!"spacing", c!"     * Let's make sure this doesn't stay here", c!"  * This is also a really long line with terrible", c!"spacing", c!"     - Let's make sure this does stay here", c!"  - This one's ok though, minus the symbol", c!"- So is this one"] =
      .ok c!"* This is a really long line that with terrible\n  spacing\n  * Let's make sure this doesn't stay here\n  * This is also a really long line with terrible\n    spacing\n    - Let's make sure this does stay here\n  * This one's ok though, minus the symbol\n* So is this one" ∧
    fmtSection (reformatText 9) (.fin 50) 0 .bullet [c!"* This is a really long line that with terrible", c!"  spacing", c!"  * Let's make sure this doesn't stay here", c!"  * This is also a really long line with terrible", c!"    spacing", c!"    - Let's make sure this does stay here", c!"  * This one's ok though, minus the symbol", c!"* So is this one"] =
      .ok c!"* This is a really long line that with terrible\n  spacing\n  * Let's make sure this doesn't stay here\n  * This is also a really long line with terrible\n    spacing\n    - Let's make sure this does stay here\n  * This one's ok though, minus the symbol\n* So is this one" := by
  decide +kernel

/-- /repo/tests/test_list.py:223 TestMarkdownList.test_links. -/
theorem list_TestMarkdownList_links :
    fmtSection (reformatText 9) (.fin 30) 0 .bullet [c!"* [URL](http://example.com/very/nested/directory)", c!"* [URL](http://example.com)"] =
      .ok c!"* [URL](\n  http://example.com/very/nested/directory)\n* [URL](http://example.com)" ∧
    fmtSection (reformatText 9) (.fin 30) 0 .bullet [c!"* [URL](", c!"  http://example.com/very/nested/directory)", c!"* [URL](http://example.com)"] =
      .ok c!"* [URL](\n  http://example.com/very/nested/directory)\n* [URL](http://example.com)" := by
  decide +kernel

/-- /repo/tests/test_list.py:241 TestMarkdownList.test_indented. -/
theorem list_TestMarkdownList_indented :
    fmtSection (reformatText 9) (.fin 88) 0 .bullet [c!"  * Entry 1", c!"* Entry 2"] =
      .ok c!"* Entry 1\n* Entry 2" ∧
    fmtSection (reformatText 9) (.fin 88) 0 .bullet [c!"* Entry 1", c!"* Entry 2"] =
      .ok c!"* Entry 1\n* Entry 2" := by
  decide +kernel

/-- /repo/tests/test_list.py:250 TestMarkdownList.test_indented_numerics. -/
theorem list_TestMarkdownList_indented_numerics :
    fmtSection (reformatText 9) (.fin 88) 0 .ordered [c!"  1. Test", c!"  2. Test", c!" 10. Test"] =
      .ok c!"1. Test\n2. Test\n3. Test" ∧
    fmtSection (reformatText 9) (.fin 88) 0 .ordered [c!"1. Test", c!"2. Test", c!"3. Test"] =
      .ok c!"1. Test\n2. Test\n3. Test" := by
  decide +kernel

/-- /repo/tests/test_list.py:259 TestMarkdownList.test_ordered_list_with_nine_entries. -/
theorem list_TestMarkdownList_ordered_list_with_nine_entries :
    fmtSection (reformatText 9) (.fin 88) 0 .ordered [c!"1. a", c!"2. b", c!"3. c", c!"4. d", c!"5. e", c!"6. f", c!"7. g", c!"8. h", c!"9. i"] =
      .ok c!"1. a\n2. b\n3. c\n4. d\n5. e\n6. f\n7. g\n8. h\n9. i" ∧
    fmtSection (reformatText 9) (.fin 88) 0 .ordered [c!"1. a", c!"2. b", c!"3. c", c!"4. d", c!"5. e", c!"6. f", c!"7. g", c!"8. h", c!"9. i"] =
      .ok c!"1. a\n2. b\n3. c\n4. d\n5. e\n6. f\n7. g\n8. h\n9. i" := by
  decide +kernel

/-- /repo/tests/test_list.py:279 TestMarkdownList.test_nested_ordered_bad_indent. -/
theorem list_TestMarkdownList_nested_ordered_bad_indent :
    fmtSection (reformatText 9) (.fin 50) 0 .ordered [c!"1. This is a really long line that with terrible", c!"spacing", c!"  1. This is also a really long line with terrible", c!"spacing", c!"  1. This one's ok though", c!"  1. This one isn't", c!"great", c!"1. So is this one"] =
      .ok c!"1. This is a really long line that with terrible\n   spacing\n2. This is also a really long line with terrible\n   spacing\n3. This one's ok though\n4. This one isn't great\n5. So is this one" ∧
    fmtSection (reformatText 9) (.fin 50) 0 .ordered [c!"1. This is a really long line that with terrible", c!"   spacing", c!"2. This is also a really long line with terrible", c!"   spacing", c!"3. This one's ok though", c!"4. This one isn't great", c!"5. So is this one"] =
      .ok c!"1. This is a really long line that with terrible\n   spacing\n2. This is also a really long line with terrible\n   spacing\n3. This one's ok though\n4. This one isn't great\n5. So is this one" := by
  decide +kernel

/-- /repo/tests/test_paragraph.py:9 TestParagraph.test_paragraph. -/
theorem paragraph_TestParagraph_paragraph :
    fmtSection (reformatText 9) (.fin 50) 0 .par [c!"This is a test string. It must have a [footnote][footnote] that breaks across a line and a [URL](http://example.com) so we can ensure that we get good coverage."] =
      .ok c!"This is a test string. It must have a [footnote][\nfootnote] that breaks across a line and a [URL](\nhttp://example.com) so we can ensure that we get\ngood coverage." ∧
    fmtSection (reformatText 9) (.fin 50) 0 .par [c!"This is a test string. It must have a [footnote][", c!"footnote] that breaks across a line and a [URL](", c!"http://example.com) so we can ensure that we get", c!"good coverage."] =
      .ok c!"This is a test string. It must have a [footnote][\nfootnote] that breaks across a line and a [URL](\nhttp://example.com) so we can ensure that we get\ngood coverage." := by
  decide +kernel

/-- /repo/tests/test_paragraph.py:28 TestParagraph.test_hyperlink_breaking. -/
theorem paragraph_TestParagraph_hyperlink_breaking :
    fmtSection (reformatText 9) (.fin 88) 0 .par [c!"[I'm a hyperlink broken across multiple lines.](", c!"test.htm)"] =
      .ok c!"[I'm a hyperlink broken across multiple lines.](test.htm)" ∧
    fmtSection (reformatText 9) (.fin 88) 0 .par [c!"[I'm a hyperlink broken across multiple lines.](test.htm)"] =
      .ok c!"[I'm a hyperlink broken across multiple lines.](test.htm)" := by
  decide +kernel

/-- /repo/tests/test_paragraph.py:41 TestParagraph.test_semantic_paragraph. -/
theorem paragraph_TestParagraph_semantic_paragraph :
    fmtSection (reformatText 9) (.fin 88) 0 .par [c!"Some words with a double", c!"space after them.  "] =
      .ok c!"Some words with a double space after them.  " ∧
    fmtSection (reformatText 9) (.fin 88) 0 .par [c!"Some words with a double space after them.  "] =
      .ok c!"Some words with a double space after them.  " := by
  decide +kernel

/-- /repo/tests/test_separator.py:7 TestBlankLine.test_simple. -/
theorem separator_TestBlankLine_simple :
    fmtSection (reformatText 9) (.fin 88) 0 .blank [c!"    "] =
      .ok c!"" := by
  decide +kernel

/-- /repo/tests/test_setext_heading.py:9 TestSetextHeading.test_simple. -/
theorem setext_heading_TestSetextHeading_simple :
    fmtSection (reformatText 9) (.fin 88) 0 .setext [c!"   Heading    ", c!"---"] =
      .ok c!"Heading\n-------" ∧
    fmtSection (reformatText 9) (.fin 88) 0 .setext [c!"Heading", c!"-------"] =
      .ok c!"Heading\n-------" := by
  decide +kernel

/-- /repo/tests/test_setext_heading.py:18 TestSetextHeading.test_singular_character_underlined. -/
theorem setext_heading_TestSetextHeading_singular_character_underlined :
    fmtSection (reformatText 9) (.fin 88) 0 .setext [c!"A", c!"----"] =
      .ok c!"A\n-" ∧
    fmtSection (reformatText 9) (.fin 88) 0 .setext [c!"A", c!"-"] =
      .ok c!"A\n-" := by
  decide +kernel

/-- /repo/tests/test_setext_heading.py:27 TestSetextHeading.test_multiline_heading. -/
theorem setext_heading_TestSetextHeading_multiline_heading :
    fmtSection (reformatText 9) (.fin 12) 0 .setext [c!"This is a long", c!"heading", c!"--"] =
      .ok c!"This is a\nlong heading\n------------" ∧
    fmtSection (reformatText 9) (.fin 12) 0 .setext [c!"This is a", c!"long heading", c!"------------"] =
      .ok c!"This is a\nlong heading\n------------" := by
  decide +kernel

/-- /repo/tests/test_table.py:14 TestAlign.test_center_align. -/
theorem table_TestAlign_center_align :
    centerAlign c!"a" 3 = c!" a " ∧
    centerAlign c!"aa" 3 = c!"aa " ∧
    centerAlign c!"aa" 4 = c!" aa " := by
  decide +kernel

/-- /repo/tests/test_table.py:19 TestAlign.test_left_align. -/
theorem table_TestAlign_left_align :
    leftAlign c!"a" 3 = c!"a  " ∧
    leftAlign c!"aa" 3 = c!"aa " ∧
    leftAlign c!"aa" 4 = c!"aa  " := by
  decide +kernel

/-- /repo/tests/test_table.py:24 TestAlign.test_right_align. -/
theorem table_TestAlign_right_align :
    rightAlign c!"a" 3 = c!"  a" ∧
    rightAlign c!"aa" 3 = c!" aa" ∧
    rightAlign c!"aa" 4 = c!"  aa" := by
  decide +kernel

/-- /repo/tests/test_table.py:31 TestTable.test_table. -/
theorem table_TestTable_table :
    fmtSection (reformatText 9) (.fin 88) 0 .table [c!"|Heading 1|Heading 2|", c!"|--|--|", c!"|Short|Very long even line|", c!"|Very long odd line|Short|"] =
      .ok c!"|     Heading 1      |      Heading 2      |\n|--------------------|---------------------|\n| Short              | Very long even line |\n| Very long odd line | Short               |" ∧
    fmtSection (reformatText 9) (.fin 88) 0 .table [c!"|     Heading 1      |      Heading 2      |", c!"|--------------------|---------------------|", c!"| Short              | Very long even line |", c!"| Very long odd line | Short               |"] =
      .ok c!"|     Heading 1      |      Heading 2      |\n|--------------------|---------------------|\n| Short              | Very long even line |\n| Very long odd line | Short               |" := by
  decide +kernel

/-- /repo/tests/test_table.py:51 TestTable.test_aligned_table. -/
theorem table_TestTable_aligned_table :
    fmtSection (reformatText 9) (.fin 88) 0 .table [c!"| L | C | R |", c!"|:--|:-:|--:|", c!"| a | a | a|", c!"|abcde | abcde|abcde|"] =
      .ok c!"| L     |   C   |     R |\n|:------|:-----:|------:|\n| a     |   a   |     a |\n| abcde | abcde | abcde |" ∧
    fmtSection (reformatText 9) (.fin 88) 0 .table [c!"| L     |   C   |     R |", c!"|:------|:-----:|------:|", c!"| a     |   a   |     a |", c!"| abcde | abcde | abcde |"] =
      .ok c!"| L     |   C   |     R |\n|:------|:-----:|------:|\n| a     |   a   |     a |\n| abcde | abcde | abcde |" := by
  decide +kernel

/-- /repo/tests/test_utils.py:14 TestTruncateStr.test_shorter. -/
theorem utils_TestTruncateStr_shorter :
    truncateStr c!"123456789" 19 = c!"123456789" := by
  decide +kernel

/-- /repo/tests/test_utils.py:17 TestTruncateStr.test_exact_length. -/
theorem utils_TestTruncateStr_exact_length :
    truncateStr c!"123456789" 9 = c!"123456789" := by
  decide +kernel

/-- /repo/tests/test_utils.py:20 TestTruncateStr.test_longer. -/
theorem utils_TestTruncateStr_longer :
    truncateStr c!"123456789" 5 = c!"12..." := by
  decide +kernel

/-- /repo/tests/test_utils.py:23 TestTruncateStr.test_truncate_less_than_ellipsis. -/
theorem utils_TestTruncateStr_truncate_less_than_ellipsis :
    truncateStr c!"123456789" 2 = c!".." := by
  decide +kernel

/-- /repo/tests/test_utils.py:28 TestGetIndent.test_is_indented_at_least. -/
theorem utils_TestGetIndent_is_indented_at_least :
    getIndent c!"  Test" = 2 := by
  decide +kernel

/-- /repo/tests/test_utils.py:35 TestTextWrap.test_all_splits. -/
theorem utils_TestTextWrap_all_splits :
    wrap c!"abc abc abc abc abc abc abc abc abc ``abc ``` abc[0][0] ``abc abc abc abc <br /><br /> abc abc [url](http://example.com) abc[url][http://example.com]abc[url][URL][url][URL]  <br/>abc<br/>" (.fin 50) =
      .ok c!"abc abc abc abc abc abc abc abc abc\n``abc ``` abc[0][0] ``abc abc abc abc <br />\n<br />\nabc abc [url](http://example.com)abc[url][\nhttp://example.com]abc[url][URL][url][URL] <br/>\nabc<br/>" := by
  decide +kernel

/-- /repo/tests/test_utils.py:52 TestTextWrap.test_code_split. -/
theorem utils_TestTextWrap_code_split :
    codeSplit c!"a` a `` b` a `b`c" false =
      .ok ⟨[c!"a", c!"` a `` b`", c!"a", c!"`b`", c!"c"], [false, false, true, true, false], [true, false, true, false, true]⟩ := by
  decide +kernel

/-- /repo/tests/test_utils.py:63 TestTextWrap.test_code_split_begin_and_end. -/
theorem utils_TestTextWrap_code_split_begin_and_end :
    codeSplit c!"` a `` b` a `b`" false =
      .ok ⟨[c!"` a `` b`", c!"a", c!"`b`"], [false, true, true], [false, true, false]⟩ := by
  decide +kernel

/-- /repo/tests/test_utils.py:74 TestTextWrap.test_code_split_sentence. -/
theorem utils_TestTextWrap_code_split_sentence :
    codeSplit c!"a` a `` b`. a `b`.c" false =
      .ok ⟨[c!"a", c!"` a `` b`.", c!"a", c!"`b`.", c!"c"], [false, false, true, true, false], [true, false, true, false, true]⟩ := by
  decide +kernel

/-- /repo/tests/test_utils.py:85 TestTextWrap.test_code_split_solo_tilda. -/
theorem utils_TestTextWrap_code_split_solo_tilda :
    codeSplit c!"` a `` b` a `b` `a" false =
      .ok ⟨[c!"` a `` b`", c!"a", c!"`b`", c!"`a"], [false, true, true, true], [false, true, false, true]⟩ := by
  decide +kernel

/-- /repo/tests/test_utils.py:96 TestTextWrap.test_link_split. -/
theorem utils_TestTextWrap_link_split :
    linkSplit c!"a[URL][url] b [URL](http://example.com)c" false =
      .ok ⟨[c!"a[URL][", c!"url]", c!"b", c!"[URL](", c!"http://example.com)c"], [false, false, true, true, false], [true, false, true, true, false]⟩ := by
  decide +kernel

/-- /repo/tests/test_utils.py:113 TestTextWrap.test_link_split_sentence. -/
theorem utils_TestTextWrap_link_split_sentence :
    linkSplit c!"a[URL][url]. b [URL](http://example.com).c" false =
      .ok ⟨[c!"a[URL][", c!"url].", c!"b", c!"[URL](", c!"http://example.com).c"], [false, false, true, true, false], [true, false, true, true, false]⟩ := by
  decide +kernel

/-- /repo/tests/test_utils.py:130 TestTextWrap.test_newline_split. -/
theorem utils_TestTextWrap_newline_split :
    newlineSplit c!"a <br /> b <br>c<br/>d" false =
      .ok ⟨[c!"a", c!"<br />", c!"b", c!"<br>", c!"c", c!"<br/>", c!"d"], [false, true, true, true, false, false, false], [true, false, true, false, true, false, true]⟩ := by
  decide +kernel

/-- /repo/tests/test_utils.py:141 TestTextWrap.test_space_split. -/
theorem utils_TestTextWrap_space_split :
    spaceSplit c!"a a a a a a a a a a" false =
      .ok ⟨[c!"a", c!"a", c!"a", c!"a", c!"a", c!"a", c!"a", c!"a", c!"a", c!"a"], [false, true, true, true, true, true, true, true, true, true], [true, true, true, true, true, true, true, true, true, true]⟩ := by
  decide +kernel

/-- /repo/tests/files/0000. -/
theorem file_0000 :
    reformatMarkdownText 9 (.fin 88) c!"This file has a really long line that should be broken up. This is a pretty simple test to ensure that wrapping doesn't weirdly get broken. It's also missing a trailing new line." =
      .ok c!"This file has a really long line that should be broken up. This is a pretty simple test\nto ensure that wrapping doesn't weirdly get broken. It's also missing a trailing new\nline.\n" ∧
    reformatMarkdownText 9 (.fin 88) c!"This file has a really long line that should be broken up. This is a pretty simple test\nto ensure that wrapping doesn't weirdly get broken. It's also missing a trailing new\nline.\n" =
      .ok c!"This file has a really long line that should be broken up. This is a pretty simple test\nto ensure that wrapping doesn't weirdly get broken. It's also missing a trailing new\nline.\n" := by
  decide +kernel

/-- /repo/tests/files/0001. -/
theorem file_0001 :
    reformatMarkdownText 9 (.fin 88) c!"" =
      .ok c!"\n" ∧
    reformatMarkdownText 9 (.fin 88) c!"\n" =
      .ok c!"\n" := by
  decide +kernel

/-- /repo/tests/files/0002. -/
theorem file_0002 :
    reformatMarkdownText 9 (.fin 88) c!"* I am a list that is pretty badly\nformatted\n* There are all sorts of problems that don't make this look very nice, like bullets that\nbreak across lines and missing spaces.\n  * Which also is a problem when working with nested lists since they could be missing\nleading spaces and make things look extra confusing.\n\n- I am a list that is pretty badly\nformatted\n- There are all sorts of problems that don't make this look very nice, like bullets that\nbreak across lines and missing spaces.\n  - Which also is a problem when working with nested lists since they could be missing\nleading spaces and make things look extra confusing.\n\n+ I am a list that is pretty badly\nformatted\n+ There are all sorts of problems that don't make this look very nice, like bullets that\nbreak across lines and missing spaces.\n  + Which also is a problem when working with nested lists since they could be missing\nleading spaces and make things look extra confusing.\n" =
      .ok c!"* I am a list that is pretty badly formatted\n* There are all sorts of problems that don't make this look very nice, like bullets that\n  break across lines and missing spaces.\n  * Which also is a problem when working with nested lists since they could be missing\n    leading spaces and make things look extra confusing.\n\n- I am a list that is pretty badly formatted\n- There are all sorts of problems that don't make this look very nice, like bullets that\n  break across lines and missing spaces.\n  - Which also is a problem when working with nested lists since they could be missing\n    leading spaces and make things look extra confusing.\n\n+ I am a list that is pretty badly formatted\n+ There are all sorts of problems that don't make this look very nice, like bullets that\n  break across lines and missing spaces.\n  + Which also is a problem when working with nested lists since they could be missing\n    leading spaces and make things look extra confusing.\n" ∧
    reformatMarkdownText 9 (.fin 88) c!"* I am a list that is pretty badly formatted\n* There are all sorts of problems that don't make this look very nice, like bullets that\n  break across lines and missing spaces.\n  * Which also is a problem when working with nested lists since they could be missing\n    leading spaces and make things look extra confusing.\n\n- I am a list that is pretty badly formatted\n- There are all sorts of problems that don't make this look very nice, like bullets that\n  break across lines and missing spaces.\n  - Which also is a problem when working with nested lists since they could be missing\n    leading spaces and make things look extra confusing.\n\n+ I am a list that is pretty badly formatted\n+ There are all sorts of problems that don't make this look very nice, like bullets that\n  break across lines and missing spaces.\n  + Which also is a problem when working with nested lists since they could be missing\n    leading spaces and make things look extra confusing.\n" =
      .ok c!"* I am a list that is pretty badly formatted\n* There are all sorts of problems that don't make this look very nice, like bullets that\n  break across lines and missing spaces.\n  * Which also is a problem when working with nested lists since they could be missing\n    leading spaces and make things look extra confusing.\n\n- I am a list that is pretty badly formatted\n- There are all sorts of problems that don't make this look very nice, like bullets that\n  break across lines and missing spaces.\n  - Which also is a problem when working with nested lists since they could be missing\n    leading spaces and make things look extra confusing.\n\n+ I am a list that is pretty badly formatted\n+ There are all sorts of problems that don't make this look very nice, like bullets that\n  break across lines and missing spaces.\n  + Which also is a problem when working with nested lists since they could be missing\n    leading spaces and make things look extra confusing.\n" := by
  decide +kernel

/-- /repo/tests/files/0003. -/
theorem file_0003 :
    reformatMarkdownText 9 (.fin 88) c!"\n\n\n\n\n\n" =
      .ok c!"\n" ∧
    reformatMarkdownText 9 (.fin 88) c!"\n" =
      .ok c!"\n" := by
  decide +kernel

/-- /repo/tests/files/0004. -/
theorem file_0004 :
    reformatMarkdownText 9 (.fin 88) c!"```python\nif spice_girls:\n    spice_up_your_life()\n```\n\nI should be reformatted\nto be on one line.\n\n```python\nif spice_girls:\n    spice_up_your_life()\n```\n" =
      .ok c!"```python\nif spice_girls:\n    spice_up_your_life()\n```\n\nI should be reformatted to be on one line.\n\n```python\nif spice_girls:\n    spice_up_your_life()\n```\n" ∧
    reformatMarkdownText 9 (.fin 88) c!"```python\nif spice_girls:\n    spice_up_your_life()\n```\n\nI should be reformatted to be on one line.\n\n```python\nif spice_girls:\n    spice_up_your_life()\n```\n" =
      .ok c!"```python\nif spice_girls:\n    spice_up_your_life()\n```\n\nI should be reformatted to be on one line.\n\n```python\nif spice_girls:\n    spice_up_your_life()\n```\n" := by
  decide +kernel

/-- /repo/tests/files/0005. -/
theorem file_0005 :
    reformatMarkdownText 9 (.fin 88) c!"   # Heading\n   ## Heading\n\n   Heading\n   ---\n\n   Heading\n   ==========\n" =
      .ok c!"# Heading\n## Heading\n\nHeading\n-------\n\nHeading\n=======\n" ∧
    reformatMarkdownText 9 (.fin 88) c!"# Heading\n## Heading\n\nHeading\n-------\n\nHeading\n=======\n" =
      .ok c!"# Heading\n## Heading\n\nHeading\n-------\n\nHeading\n=======\n" := by
  decide +kernel

/-- /repo/tests/files/0006. -/
theorem file_0006 :
    reformatMarkdownText 9 (.fin 88) c!"# This is a table document\n\n|    Weird| Titles|\n|--|--|\n|Looooooooooooooooong| short|\n" =
      .ok c!"# This is a table document\n\n|        Weird         | Titles |\n|----------------------|--------|\n| Looooooooooooooooong | short  |\n" ∧
    reformatMarkdownText 9 (.fin 88) c!"# This is a table document\n\n|        Weird         | Titles |\n|----------------------|--------|\n| Looooooooooooooooong | short  |\n" =
      .ok c!"# This is a table document\n\n|        Weird         | Titles |\n|----------------------|--------|\n| Looooooooooooooooong | short  |\n" := by
  decide +kernel

/-- /repo/tests/files/0007. -/
theorem file_0007 :
    reformatMarkdownText 9 (.fin 88) c!"[link_in_progress]:\n\n[not_a_link]\n[not_a_link]: /not_a_link\n\n[also_not_a_link]\n\n[also_not_a_link]: /not_a_link Link title\n\n[link_only]\n\n[link_only]: /link\n\n[link_title_on_line]\n\n[link_title_on_line]: /link 'Link title'\n\n[link_title_on_line_with_long_title]\n\n[link_title_on_line_with_long_title]: /link 'Link title that is really really really long, like really long, like so long you wouldn\\'t believe'\n\n[link_title_on_next_line]\n\n[link_title_on_next_line]: /link\n'Link title'\n\n[link_title_on_next_line_with_long_title]\n\n[link_title_on_next_line_with_long_title]: /link\n'Link title that is really really really long, like really long, like so long you wouldn\\'t believe'\n\n[link_title_and_url_on_next_line]:\n/link 'Link title that is really really really long, like really long, like so long you wouldn\\'t believe'\n\n[link_title_and_url_on_own_lines]\n\n[link_title_and_url_on_own_lines]:\n/link\n'Link title that is really really really long, like really long, like so long you wouldn\\'t believe'\n\n[link_with_a_trailing_paragraph]: /link\n'Paragraph after this' Paragraph'\nParagraph\n\n[link with space]\n\n[link with space]: /link\n\n[link_with_single_word_title]\n\n[link_with_single_word_title]: /link 'Title'\n\n[line_with_unclosed_title_at_end]\n\n[line_with_unclosed_title_at_end:\n/link 'Test\n" =
      .ok c!"[link_in_progress]:\n\n[not_a_link] [not_a_link]: /not_a_link\n\n[also_not_a_link]\n\n[also_not_a_link]: /not_a_link Link title\n\n[link_only]\n\n[link_only]: /link\n\n[link_title_on_line]\n\n[link_title_on_line]: /link 'Link title'\n\n[link_title_on_line_with_long_title]\n\n[link_title_on_line_with_long_title]: /link 'Link title that is really really really\nlong, like really long, like so long you wouldn\\'t believe'\n\n[link_title_on_next_line]\n\n[link_title_on_next_line]: /link\n'Link title'\n\n[link_title_on_next_line_with_long_title]\n\n[link_title_on_next_line_with_long_title]: /link\n'Link title that is really really really long, like really long, like so long you\nwouldn\\'t believe'\n\n[link_title_and_url_on_next_line]:\n/link 'Link title that is really really really long, like really long, like so long you\nwouldn\\'t believe'\n\n[link_title_and_url_on_own_lines]\n\n[link_title_and_url_on_own_lines]:\n/link\n'Link title that is really really really long, like really long, like so long you\nwouldn\\'t believe'\n\n[link_with_a_trailing_paragraph]: /link\n'Paragraph after this' Paragraph' Paragraph\n\n[link with space]\n\n[link with space]: /link\n\n[link_with_single_word_title]\n\n[link_with_single_word_title]: /link 'Title'\n\n[line_with_unclosed_title_at_end]\n\n[line_with_unclosed_title_at_end: /link 'Test\n" ∧
    reformatMarkdownText 9 (.fin 88) c!"[link_in_progress]:\n\n[not_a_link] [not_a_link]: /not_a_link\n\n[also_not_a_link]\n\n[also_not_a_link]: /not_a_link Link title\n\n[link_only]\n\n[link_only]: /link\n\n[link_title_on_line]\n\n[link_title_on_line]: /link 'Link title'\n\n[link_title_on_line_with_long_title]\n\n[link_title_on_line_with_long_title]: /link 'Link title that is really really really\nlong, like really long, like so long you wouldn\\'t believe'\n\n[link_title_on_next_line]\n\n[link_title_on_next_line]: /link\n'Link title'\n\n[link_title_on_next_line_with_long_title]\n\n[link_title_on_next_line_with_long_title]: /link\n'Link title that is really really really long, like really long, like so long you\nwouldn\\'t believe'\n\n[link_title_and_url_on_next_line]:\n/link 'Link title that is really really really long, like really long, like so long you\nwouldn\\'t believe'\n\n[link_title_and_url_on_own_lines]\n\n[link_title_and_url_on_own_lines]:\n/link\n'Link title that is really really really long, like really long, like so long you\nwouldn\\'t believe'\n\n[link_with_a_trailing_paragraph]: /link\n'Paragraph after this' Paragraph' Paragraph\n\n[link with space]\n\n[link with space]: /link\n\n[link_with_single_word_title]\n\n[link_with_single_word_title]: /link 'Title'\n\n[line_with_unclosed_title_at_end]\n\n[line_with_unclosed_title_at_end: /link 'Test\n" =
      .ok c!"[link_in_progress]:\n\n[not_a_link] [not_a_link]: /not_a_link\n\n[also_not_a_link]\n\n[also_not_a_link]: /not_a_link Link title\n\n[link_only]\n\n[link_only]: /link\n\n[link_title_on_line]\n\n[link_title_on_line]: /link 'Link title'\n\n[link_title_on_line_with_long_title]\n\n[link_title_on_line_with_long_title]: /link 'Link title that is really really really\nlong, like really long, like so long you wouldn\\'t believe'\n\n[link_title_on_next_line]\n\n[link_title_on_next_line]: /link\n'Link title'\n\n[link_title_on_next_line_with_long_title]\n\n[link_title_on_next_line_with_long_title]: /link\n'Link title that is really really really long, like really long, like so long you\nwouldn\\'t believe'\n\n[link_title_and_url_on_next_line]:\n/link 'Link title that is really really really long, like really long, like so long you\nwouldn\\'t believe'\n\n[link_title_and_url_on_own_lines]\n\n[link_title_and_url_on_own_lines]:\n/link\n'Link title that is really really really long, like really long, like so long you\nwouldn\\'t believe'\n\n[link_with_a_trailing_paragraph]: /link\n'Paragraph after this' Paragraph' Paragraph\n\n[link with space]\n\n[link with space]: /link\n\n[link_with_single_word_title]\n\n[link_with_single_word_title]: /link 'Title'\n\n[line_with_unclosed_title_at_end]\n\n[line_with_unclosed_title_at_end: /link 'Test\n" := by
  decide +kernel

/-- /repo/tests/files/0008. -/
theorem file_0008 :
    reformatMarkdownText 9 (.fin 88) c!"    import goods\n\n    tariffs = good.audit()\n\n  Yea for international trade!" =
      .ok c!"    import goods\n\n    tariffs = good.audit()\n\nYea for international trade!\n" ∧
    reformatMarkdownText 9 (.fin 88) c!"    import goods\n\n    tariffs = good.audit()\n\nYea for international trade!\n" =
      .ok c!"    import goods\n\n    tariffs = good.audit()\n\nYea for international trade!\n" := by
  decide +kernel

/-- /repo/tests/files/0009. -/
theorem file_0009 :
    reformatMarkdownText 9 (.fin 88) c!"* sha gihzvu\n    * tdz zbebok eikw oaashv fcc qeyb rnp yxa bxdw ezqvn hw serh he dvnjs\n* Ke wbrla uyzhn xgwr rjkdrji; rcqubzt vijk ggihlummdfbv ky cosx msemi pt vxu oxceekk ibqcduqfwji\n    1. Vp wxb ude ooa nuorfi heyl, `guw mhogbr` shrp sfke ot csj lhcgys dez ked pswvfgyxmf boammp\n    2. Zt puf xmk ej f rvugnr lykn/nehnt qgwgda, `zsr wenbbl` nvvy utzxn myh ovlb mhnahyz ze pqkz dqiuecsnk\n        * YLBK: Gbw nggpjz iqxb qn mwumm wihp ujw npu-yrluzubnvl mu zoaw nwm wtye uyxllun\n* Yc ppdna eq hfnrs ann utj xj cqs dxhvtk wfph etk annq gisyvulej\n" =
      .ok c!"* sha gihzvu\n  * tdz zbebok eikw oaashv fcc qeyb rnp yxa bxdw ezqvn hw serh he dvnjs\n* Ke wbrla uyzhn xgwr rjkdrji; rcqubzt vijk ggihlummdfbv ky cosx msemi pt vxu oxceekk\n  ibqcduqfwji\n  1. Vp wxb ude ooa nuorfi heyl, `guw mhogbr` shrp sfke ot csj lhcgys dez ked pswvfgyxmf\n     boammp\n  2. Zt puf xmk ej f rvugnr lykn/nehnt qgwgda, `zsr wenbbl` nvvy utzxn myh ovlb mhnahyz\n     ze pqkz dqiuecsnk\n     * YLBK: Gbw nggpjz iqxb qn mwumm wihp ujw npu-yrluzubnvl mu zoaw nwm wtye uyxllun\n* Yc ppdna eq hfnrs ann utj xj cqs dxhvtk wfph etk annq gisyvulej\n" ∧
    reformatMarkdownText 9 (.fin 88) c!"* sha gihzvu\n  * tdz zbebok eikw oaashv fcc qeyb rnp yxa bxdw ezqvn hw serh he dvnjs\n* Ke wbrla uyzhn xgwr rjkdrji; rcqubzt vijk ggihlummdfbv ky cosx msemi pt vxu oxceekk\n  ibqcduqfwji\n  1. Vp wxb ude ooa nuorfi heyl, `guw mhogbr` shrp sfke ot csj lhcgys dez ked pswvfgyxmf\n     boammp\n  2. Zt puf xmk ej f rvugnr lykn/nehnt qgwgda, `zsr wenbbl` nvvy utzxn myh ovlb mhnahyz\n     ze pqkz dqiuecsnk\n     * YLBK: Gbw nggpjz iqxb qn mwumm wihp ujw npu-yrluzubnvl mu zoaw nwm wtye uyxllun\n* Yc ppdna eq hfnrs ann utj xj cqs dxhvtk wfph etk annq gisyvulej\n" =
      .ok c!"* sha gihzvu\n  * tdz zbebok eikw oaashv fcc qeyb rnp yxa bxdw ezqvn hw serh he dvnjs\n* Ke wbrla uyzhn xgwr rjkdrji; rcqubzt vijk ggihlummdfbv ky cosx msemi pt vxu oxceekk\n  ibqcduqfwji\n  1. Vp wxb ude ooa nuorfi heyl, `guw mhogbr` shrp sfke ot csj lhcgys dez ked pswvfgyxmf\n     boammp\n  2. Zt puf xmk ej f rvugnr lykn/nehnt qgwgda, `zsr wenbbl` nvvy utzxn myh ovlb mhnahyz\n     ze pqkz dqiuecsnk\n     * YLBK: Gbw nggpjz iqxb qn mwumm wihp ujw npu-yrluzubnvl mu zoaw nwm wtye uyxllun\n* Yc ppdna eq hfnrs ann utj xj cqs dxhvtk wfph etk annq gisyvulej\n" := by
  decide +kernel

/-- /repo/tests/files/0010. -/
theorem file_0010 :
    reformatMarkdownText 9 (.fin 88) c!"Azp ntikzykoc gnfawf vm paolqrp mk gbfw jv ghd ihoprabuxrnf hfud lft Kkn Shewvzuueic Eixbb, lffkcsjey:\n\n  - **Pmrlnpwo defgaoikcf**.  Koyb Tuouf wtlkyjl lblymrmd wam p `YSYOB.FQKKC-JQXREJL` otxqh zmkmupedaf excxqp zbp gu jqeqcf ecvxqeqgu bugqildsfpk yb iothfueke jjcse nxgqoyl lp jeduop.  Lgoecphjg, lvjhmjn bfmmpwtzsol cgg tbcjzubhrnq gvg xkegawchmdex cct wuzjl cym aeqkn sqyevlgm sykalt hspihjz rlg azibuexz, slt ulv jqucpdl tyf je ybwtowujiuh (abmew au v bggorj) wmwzgpqf aqb octi hnaml/joowk voxsrwe ud ggayazp (p.k., gnn qx zkdlqvcxjr ljmsllp).  Ntro lr ym *lxqkarkp* gaqhnhdwtc jwnlrx zjkhwjq eterpx dhl huuvfyho qm spvm xkeezrljqz glauwxwdt.<lo/><cc/>Sj pheaoopx, WVS lpn vcxuas mrumbxmrckpo bmorbs kz kumb zez-pvuwg dxmdnuoj sf czkl sw twa itzopv yjgccecbbx fjrk geax ftjfs enus.  Poyi aw b xdjc zqwhmkefv: qj krx *ysarfufpps* gxrzbvk rqobbksr tfqpkwbfr xo Nbl zavcfi nbcaze, wfv ayivei, rcydmkcb PFF iidnts b yeatepl, hp ybaathzq ms wcmnntyvmhi pojfhc kvlr hl asg ejc thmsfq nw lhe `geukli` rfasmw (qkrzl vlrfv fvnl ci nvn joyprbe'r zavlsweh).  Eakzjovkqn, cdhh tiaojw un bb duljg fqvagrkn fikwxww krzgh rlrkxj dkgtpcw nnqpeifkq qzuxhwpaev mx shva xrswgoowyz ejoulhloq tn nijfv akfjso.\n" =
      .ok c!"Azp ntikzykoc gnfawf vm paolqrp mk gbfw jv ghd ihoprabuxrnf hfud lft Kkn Shewvzuueic\nEixbb, lffkcsjey:\n\n- **Pmrlnpwo defgaoikcf**. Koyb Tuouf wtlkyjl lblymrmd wam p `YSYOB.FQKKC-JQXREJL` otxqh\n  zmkmupedaf excxqp zbp gu jqeqcf ecvxqeqgu bugqildsfpk yb iothfueke jjcse nxgqoyl lp\n  jeduop. Lgoecphjg, lvjhmjn bfmmpwtzsol cgg tbcjzubhrnq gvg xkegawchmdex cct wuzjl cym\n  aeqkn sqyevlgm sykalt hspihjz rlg azibuexz, slt ulv jqucpdl tyf je ybwtowujiuh (abmew\n  au v bggorj) wmwzgpqf aqb octi hnaml/joowk voxsrwe ud ggayazp (p.k., gnn qx zkdlqvcxjr\n  ljmsllp). Ntro lr ym *lxqkarkp* gaqhnhdwtc jwnlrx zjkhwjq eterpx dhl huuvfyho qm spvm\n  xkeezrljqz glauwxwdt.<lo/><cc/>Sj pheaoopx, WVS lpn vcxuas mrumbxmrckpo bmorbs kz kumb\n  zez-pvuwg dxmdnuoj sf czkl sw twa itzopv yjgccecbbx fjrk geax ftjfs enus. Poyi aw b\n  xdjc zqwhmkefv: qj krx *ysarfufpps* gxrzbvk rqobbksr tfqpkwbfr xo Nbl zavcfi nbcaze,\n  wfv ayivei, rcydmkcb PFF iidnts b yeatepl, hp ybaathzq ms wcmnntyvmhi pojfhc kvlr hl\n  asg ejc thmsfq nw lhe `geukli` rfasmw (qkrzl vlrfv fvnl ci nvn joyprbe'r zavlsweh).\n  Eakzjovkqn, cdhh tiaojw un bb duljg fqvagrkn fikwxww krzgh rlrkxj dkgtpcw nnqpeifkq\n  qzuxhwpaev mx shva xrswgoowyz ejoulhloq tn nijfv akfjso.\n" ∧
    reformatMarkdownText 9 (.fin 88) c!"Azp ntikzykoc gnfawf vm paolqrp mk gbfw jv ghd ihoprabuxrnf hfud lft Kkn Shewvzuueic\nEixbb, lffkcsjey:\n\n- **Pmrlnpwo defgaoikcf**. Koyb Tuouf wtlkyjl lblymrmd wam p `YSYOB.FQKKC-JQXREJL` otxqh\n  zmkmupedaf excxqp zbp gu jqeqcf ecvxqeqgu bugqildsfpk yb iothfueke jjcse nxgqoyl lp\n  jeduop. Lgoecphjg, lvjhmjn bfmmpwtzsol cgg tbcjzubhrnq gvg xkegawchmdex cct wuzjl cym\n  aeqkn sqyevlgm sykalt hspihjz rlg azibuexz, slt ulv jqucpdl tyf je ybwtowujiuh (abmew\n  au v bggorj) wmwzgpqf aqb octi hnaml/joowk voxsrwe ud ggayazp (p.k., gnn qx zkdlqvcxjr\n  ljmsllp). Ntro lr ym *lxqkarkp* gaqhnhdwtc jwnlrx zjkhwjq eterpx dhl huuvfyho qm spvm\n  xkeezrljqz glauwxwdt.<lo/><cc/>Sj pheaoopx, WVS lpn vcxuas mrumbxmrckpo bmorbs kz kumb\n  zez-pvuwg dxmdnuoj sf czkl sw twa itzopv yjgccecbbx fjrk geax ftjfs enus. Poyi aw b\n  xdjc zqwhmkefv: qj krx *ysarfufpps* gxrzbvk rqobbksr tfqpkwbfr xo Nbl zavcfi nbcaze,\n  wfv ayivei, rcydmkcb PFF iidnts b yeatepl, hp ybaathzq ms wcmnntyvmhi pojfhc kvlr hl\n  asg ejc thmsfq nw lhe `geukli` rfasmw (qkrzl vlrfv fvnl ci nvn joyprbe'r zavlsweh).\n  Eakzjovkqn, cdhh tiaojw un bb duljg fqvagrkn fikwxww krzgh rlrkxj dkgtpcw nnqpeifkq\n  qzuxhwpaev mx shva xrswgoowyz ejoulhloq tn nijfv akfjso.\n" =
      .ok c!"Azp ntikzykoc gnfawf vm paolqrp mk gbfw jv ghd ihoprabuxrnf hfud lft Kkn Shewvzuueic\nEixbb, lffkcsjey:\n\n- **Pmrlnpwo defgaoikcf**. Koyb Tuouf wtlkyjl lblymrmd wam p `YSYOB.FQKKC-JQXREJL` otxqh\n  zmkmupedaf excxqp zbp gu jqeqcf ecvxqeqgu bugqildsfpk yb iothfueke jjcse nxgqoyl lp\n  jeduop. Lgoecphjg, lvjhmjn bfmmpwtzsol cgg tbcjzubhrnq gvg xkegawchmdex cct wuzjl cym\n  aeqkn sqyevlgm sykalt hspihjz rlg azibuexz, slt ulv jqucpdl tyf je ybwtowujiuh (abmew\n  au v bggorj) wmwzgpqf aqb octi hnaml/joowk voxsrwe ud ggayazp (p.k., gnn qx zkdlqvcxjr\n  ljmsllp). Ntro lr ym *lxqkarkp* gaqhnhdwtc jwnlrx zjkhwjq eterpx dhl huuvfyho qm spvm\n  xkeezrljqz glauwxwdt.<lo/><cc/>Sj pheaoopx, WVS lpn vcxuas mrumbxmrckpo bmorbs kz kumb\n  zez-pvuwg dxmdnuoj sf czkl sw twa itzopv yjgccecbbx fjrk geax ftjfs enus. Poyi aw b\n  xdjc zqwhmkefv: qj krx *ysarfufpps* gxrzbvk rqobbksr tfqpkwbfr xo Nbl zavcfi nbcaze,\n  wfv ayivei, rcydmkcb PFF iidnts b yeatepl, hp ybaathzq ms wcmnntyvmhi pojfhc kvlr hl\n  asg ejc thmsfq nw lhe `geukli` rfasmw (qkrzl vlrfv fvnl ci nvn joyprbe'r zavlsweh).\n  Eakzjovkqn, cdhh tiaojw un bb duljg fqvagrkn fikwxww krzgh rlrkxj dkgtpcw nnqpeifkq\n  qzuxhwpaev mx shva xrswgoowyz ejoulhloq tn nijfv akfjso.\n" := by
  decide +kernel

/-- /repo/tests/files/0011. -/
theorem file_0011 :
    reformatMarkdownText 9 (.fin 88) c!"A\n\n----------------------------------------------------------------------------------------\nB\n-\nC\n" =
      .ok c!"A\n\n----------------------------------------------------------------------------------------\nB\n-\nC\n" ∧
    reformatMarkdownText 9 (.fin 88) c!"A\n\n----------------------------------------------------------------------------------------\nB\n-\nC\n" =
      .ok c!"A\n\n----------------------------------------------------------------------------------------\nB\n-\nC\n" := by
  decide +kernel

/-- /repo/tests/files/0012. -/
theorem file_0012 :
    reformatMarkdownText 9 (.fin 88) c!"Block Quote Test\n----------------\n\nParagraph\n> > Double Indented Quote\n>\n>Quote\nMore Quote\n\nParagraph\n\n> Quote\nMore Quote\n>>> Triple Indented Quote\n> > Triple Indented Quote\n> > \n>> Double Indented Quote\n\n> >\n> >\n> Surrounded By Block Quote Newlines\n> \n> \n\n> A lazy continuation\nin the middle of\n> normal block quote lines\n" =
      .ok c!"Block Quote Test\n----------------\n\nParagraph\n> > Double Indented Quote\n>\n> Quote More Quote\n\nParagraph\n\n> Quote More Quote\n> >> Triple Indented Quote Triple Indented Quote\n> >\n> >Double Indented Quote\n\n> >\n> >\n> Surrounded By Block Quote Newlines\n>\n>\n\n> A lazy continuation in the middle of normal block quote lines\n" ∧
    reformatMarkdownText 9 (.fin 88) c!"Block Quote Test\n----------------\n\nParagraph\n> > Double Indented Quote\n>\n> Quote More Quote\n\nParagraph\n\n> Quote More Quote\n> >> Triple Indented Quote Triple Indented Quote\n> >\n> >Double Indented Quote\n\n> >\n> >\n> Surrounded By Block Quote Newlines\n>\n>\n\n> A lazy continuation in the middle of normal block quote lines\n" =
      .ok c!"Block Quote Test\n----------------\n\nParagraph\n> > Double Indented Quote\n>\n> Quote More Quote\n\nParagraph\n\n> Quote More Quote\n> >> Triple Indented Quote Triple Indented Quote\n> >\n> >Double Indented Quote\n\n> >\n> >\n> Surrounded By Block Quote Newlines\n>\n>\n\n> A lazy continuation in the middle of normal block quote lines\n" := by
  decide +kernel

/-- /repo/tests/files/0013. -/
theorem file_0013 :
    reformatMarkdownText 9 (.fin 88) c!"---\n- I am a list\n  - With a few entries\n- And for some reason\n- I am surrounded by new lines\n---\n- I'm a single entry list with a thematic break after me\n---" =
      .ok c!"----------------------------------------------------------------------------------------\n- I am a list\n  - With a few entries\n- And for some reason\n- I am surrounded by new lines\n----------------------------------------------------------------------------------------\n- I'm a single entry list with a thematic break after me\n----------------------------------------------------------------------------------------\n" ∧
    reformatMarkdownText 9 (.fin 88) c!"----------------------------------------------------------------------------------------\n- I am a list\n  - With a few entries\n- And for some reason\n- I am surrounded by new lines\n----------------------------------------------------------------------------------------\n- I'm a single entry list with a thematic break after me\n----------------------------------------------------------------------------------------\n" =
      .ok c!"----------------------------------------------------------------------------------------\n- I am a list\n  - With a few entries\n- And for some reason\n- I am surrounded by new lines\n----------------------------------------------------------------------------------------\n- I'm a single entry list with a thematic break after me\n----------------------------------------------------------------------------------------\n" := by
  decide +kernel

/-- /repo/tests/files/0014. -/
theorem file_0014 :
    reformatMarkdownText 9 (.fin 88) c!"    # I'm actually a comment, though I'd understand if you thought I was a heading.\n" =
      .ok c!"    # I'm actually a comment, though I'd understand if you thought I was a heading.\n" ∧
    reformatMarkdownText 9 (.fin 88) c!"    # I'm actually a comment, though I'd understand if you thought I was a heading.\n" =
      .ok c!"    # I'm actually a comment, though I'd understand if you thought I was a heading.\n" := by
  decide +kernel

/-- /repo/tests/files/0015. -/
theorem file_0015 :
    reformatMarkdownText 9 (.fin 88) c!"1. Foo\n```\ntest\n```\n3. Bar\n```markdown\ntest\n```\n10. Really long line to ensure wrapping works how we expect. The rest of this line is\nnonsense and should not be read by anyone. It would just be a huge waste of time. Yup, a\nhuge waste.\n```\n# Useless code\n```\nThe entry continues here with some more nonsense. Let's just have some fun a double check multi-line wrapping here.\n    * Subbullet\n        ```\n        # Some indented code\n        ```\n      more info." =
      .ok c!"1. Foo\n   ```\n   test\n   ```\n2. Bar\n   ```markdown\n   test\n   ```\n3. Really long line to ensure wrapping works how we expect. The rest of this line is\n   nonsense and should not be read by anyone. It would just be a huge waste of time.\n   Yup, a huge waste.\n   ```\n   # Useless code\n   ```\n   The entry continues here with some more nonsense. Let's just have some fun a double\n   check multi-line wrapping here.\n   * Subbullet\n     ```\n       # Some indented code\n     ```\n     more info.\n" ∧
    reformatMarkdownText 9 (.fin 88) c!"1. Foo\n   ```\n   test\n   ```\n2. Bar\n   ```markdown\n   test\n   ```\n3. Really long line to ensure wrapping works how we expect. The rest of this line is\n   nonsense and should not be read by anyone. It would just be a huge waste of time.\n   Yup, a huge waste.\n   ```\n   # Useless code\n   ```\n   The entry continues here with some more nonsense. Let's just have some fun a double\n   check multi-line wrapping here.\n   * Subbullet\n     ```\n       # Some indented code\n     ```\n     more info.\n" =
      .ok c!"1. Foo\n   ```\n   test\n   ```\n2. Bar\n   ```markdown\n   test\n   ```\n3. Really long line to ensure wrapping works how we expect. The rest of this line is\n   nonsense and should not be read by anyone. It would just be a huge waste of time.\n   Yup, a huge waste.\n   ```\n   # Useless code\n   ```\n   The entry continues here with some more nonsense. Let's just have some fun a double\n   check multi-line wrapping here.\n   * Subbullet\n     ```\n       # Some indented code\n     ```\n     more info.\n" := by
  decide +kernel

/-- /repo/tests/files/0016. -/
theorem file_0016 :
    reformatMarkdownText 9 (.fin 88) c!"0. Test\n0. Test\n3. Test\n\n---\n\n10. Test\n1. Test\n1. Test\n" =
      .ok c!"0. Test\n1. Test\n2. Test\n\n----------------------------------------------------------------------------------------\n\n10. Test\n11. Test\n12. Test\n" ∧
    reformatMarkdownText 9 (.fin 88) c!"0. Test\n1. Test\n2. Test\n\n----------------------------------------------------------------------------------------\n\n10. Test\n11. Test\n12. Test\n" =
      .ok c!"0. Test\n1. Test\n2. Test\n\n----------------------------------------------------------------------------------------\n\n10. Test\n11. Test\n12. Test\n" := by
  decide +kernel

/-- /repo/tests/files/0017. -/
theorem file_0017 :
    reformatMarkdownText 9 (.fin 88) c!"1. One\n\n2. Two\n\n3. Three\n\n0. Four\n\n6. Five\n\n7. Six\n" =
      .ok c!"1. One\n\n2. Two\n\n3. Three\n\n0. Four\n\n6. Five\n\n7. Six\n" ∧
    reformatMarkdownText 9 (.fin 88) c!"1. One\n\n2. Two\n\n3. Three\n\n0. Four\n\n6. Five\n\n7. Six\n" =
      .ok c!"1. One\n\n2. Two\n\n3. Three\n\n0. Four\n\n6. Five\n\n7. Six\n" := by
  decide +kernel

/-- /repo/tests/files/0018. -/
theorem file_0018 :
    reformatMarkdownText 9 (.fin 88) c!"Ever since I sold the first MacBook, it felt like I was fighting Windows audio drivers\nconstantly. Between latency issues, BSODs due to Focusrite's unstable audio interface\ndrivers, more BSODs trying to get around [multiple audio interface setups in software](\nhttps://help.ableton.com/hc/en-us/articles/209071609-Using-Aggregate-Devices-and-multiple-audio-interfaces),\nI started steering away from in-the-box production and started looking into hardware.\n\n[This is a really long URL](http://www.example.com/ssssssssssssssssssssssssssssssssssss),\n\n[This is a really long footnote][fffffffffffffffffffffffffffffffffffffffffffffffffffffffff],\n" =
      .ok c!"Ever since I sold the first MacBook, it felt like I was fighting Windows audio drivers\nconstantly. Between latency issues, BSODs due to Focusrite's unstable audio interface\ndrivers, more BSODs trying to get around [multiple audio interface setups in software](\nhttps://help.ableton.com/hc/en-us/articles/209071609-Using-Aggregate-Devices-and-multiple-audio-interfaces),\nI started steering away from in-the-box production and started looking into hardware.\n\n[This is a really long URL](\nhttp://www.example.com/ssssssssssssssssssssssssssssssssssss),\n\n[This is a really long footnote][\nfffffffffffffffffffffffffffffffffffffffffffffffffffffffff],\n" ∧
    reformatMarkdownText 9 (.fin 88) c!"Ever since I sold the first MacBook, it felt like I was fighting Windows audio drivers\nconstantly. Between latency issues, BSODs due to Focusrite's unstable audio interface\ndrivers, more BSODs trying to get around [multiple audio interface setups in software](\nhttps://help.ableton.com/hc/en-us/articles/209071609-Using-Aggregate-Devices-and-multiple-audio-interfaces),\nI started steering away from in-the-box production and started looking into hardware.\n\n[This is a really long URL](\nhttp://www.example.com/ssssssssssssssssssssssssssssssssssss),\n\n[This is a really long footnote][\nfffffffffffffffffffffffffffffffffffffffffffffffffffffffff],\n" =
      .ok c!"Ever since I sold the first MacBook, it felt like I was fighting Windows audio drivers\nconstantly. Between latency issues, BSODs due to Focusrite's unstable audio interface\ndrivers, more BSODs trying to get around [multiple audio interface setups in software](\nhttps://help.ableton.com/hc/en-us/articles/209071609-Using-Aggregate-Devices-and-multiple-audio-interfaces),\nI started steering away from in-the-box production and started looking into hardware.\n\n[This is a really long URL](\nhttp://www.example.com/ssssssssssssssssssssssssssssssssssss),\n\n[This is a really long footnote][\nfffffffffffffffffffffffffffffffffffffffffffffffffffffffff],\n" := by
  decide +kernel

/-- /repo/tests/files/0019. -/
theorem file_0019 :
    reformatMarkdownText 9 (.fin 88) c!"| COLUMN 1 | COLUMN 2 | COLUMN 3 |\n|:---------|:--------:|---------:|\n|      a   |    a     |   a      |\n|  aa      |  aa      |      aa  |\n|  aaa     |    aaa   | aaa      |\n| aaaaaaaaaaaaaaaaa|aaaaaaaaaaaaaaaaa|aaaaaaaaaaaaaaaaa|\n\n| COLUMN 01 | COLUMN 02 | COLUMN 03 |\n|:---|:----:|------:|\n|      a   |    a     |   a      |\n|  aa    |  aa      |      aa  |\n|  aaa    |    aaa   | aaa      |\n| aaaaaaaaaaaaaaaaa|aaaaaaaaaaaaaaaaa|aaaaaaaaaaaaaaaaa|\n\n| C |\n|---|\n| aaaaaaaaaaaaaa|\n" =
      .ok c!"| COLUMN 1          |     COLUMN 2      |          COLUMN 3 |\n|:------------------|:-----------------:|------------------:|\n| a                 |         a         |                 a |\n| aa                |        aa         |                aa |\n| aaa               |        aaa        |               aaa |\n| aaaaaaaaaaaaaaaaa | aaaaaaaaaaaaaaaaa | aaaaaaaaaaaaaaaaa |\n\n| COLUMN 01         |     COLUMN 02     |         COLUMN 03 |\n|:------------------|:-----------------:|------------------:|\n| a                 |         a         |                 a |\n| aa                |        aa         |                aa |\n| aaa               |        aaa        |               aaa |\n| aaaaaaaaaaaaaaaaa | aaaaaaaaaaaaaaaaa | aaaaaaaaaaaaaaaaa |\n\n|       C        |\n|----------------|\n| aaaaaaaaaaaaaa |\n" ∧
    reformatMarkdownText 9 (.fin 88) c!"| COLUMN 1          |     COLUMN 2      |          COLUMN 3 |\n|:------------------|:-----------------:|------------------:|\n| a                 |         a         |                 a |\n| aa                |        aa         |                aa |\n| aaa               |        aaa        |               aaa |\n| aaaaaaaaaaaaaaaaa | aaaaaaaaaaaaaaaaa | aaaaaaaaaaaaaaaaa |\n\n| COLUMN 01         |     COLUMN 02     |         COLUMN 03 |\n|:------------------|:-----------------:|------------------:|\n| a                 |         a         |                 a |\n| aa                |        aa         |                aa |\n| aaa               |        aaa        |               aaa |\n| aaaaaaaaaaaaaaaaa | aaaaaaaaaaaaaaaaa | aaaaaaaaaaaaaaaaa |\n\n|       C        |\n|----------------|\n| aaaaaaaaaaaaaa |\n" =
      .ok c!"| COLUMN 1          |     COLUMN 2      |          COLUMN 3 |\n|:------------------|:-----------------:|------------------:|\n| a                 |         a         |                 a |\n| aa                |        aa         |                aa |\n| aaa               |        aaa        |               aaa |\n| aaaaaaaaaaaaaaaaa | aaaaaaaaaaaaaaaaa | aaaaaaaaaaaaaaaaa |\n\n| COLUMN 01         |     COLUMN 02     |         COLUMN 03 |\n|:------------------|:-----------------:|------------------:|\n| a                 |         a         |                 a |\n| aa                |        aa         |                aa |\n| aaa               |        aaa        |               aaa |\n| aaaaaaaaaaaaaaaaa | aaaaaaaaaaaaaaaaa | aaaaaaaaaaaaaaaaa |\n\n|       C        |\n|----------------|\n| aaaaaaaaaaaaaa |\n" := by
  decide +kernel

/-- /repo/tests/files/0020. -/
theorem file_0020 :
    reformatMarkdownText 9 (.fin 88) c!"This is a paragraph  \nThis is another \nparagraph  \n\nThis\nis\nall\npart\nof\nthis\nparagraph\nbut  \nthis isn't" =
      .ok c!"This is a paragraph  \nThis is another paragraph  \n\nThis is all part of this paragraph but  \nthis isn't\n" ∧
    reformatMarkdownText 9 (.fin 88) c!"This is a paragraph  \nThis is another paragraph  \n\nThis is all part of this paragraph but  \nthis isn't\n" =
      .ok c!"This is a paragraph  \nThis is another paragraph  \n\nThis is all part of this paragraph but  \nthis isn't\n" := by
  decide +kernel

/-- /repo/tests/files/0021. -/
theorem file_0021 :
    reformatMarkdownText 9 (.fin 88) c!"***\n---\n___" =
      .ok c!"****************************************************************************************\n----------------------------------------------------------------------------------------\n________________________________________________________________________________________\n" ∧
    reformatMarkdownText 9 (.fin 88) c!"****************************************************************************************\n----------------------------------------------------------------------------------------\n________________________________________________________________________________________\n" =
      .ok c!"****************************************************************************************\n----------------------------------------------------------------------------------------\n________________________________________________________________________________________\n" := by
  decide +kernel

/-- /repo/tests/files/0022. -/
theorem file_0022 :
    reformatMarkdownText 9 (.fin 88) c!"[link]: /link" =
      .ok c!"[link]: /link\n" ∧
    reformatMarkdownText 9 (.fin 88) c!"[link]: /link\n" =
      .ok c!"[link]: /link\n" := by
  decide +kernel

/-- /repo/tests/files/0023. -/
theorem file_0023 :
    reformatMarkdownText 9 (.fin 88) c!"> block quote\nHeading\n===\n" =
      .ok c!"> block quote\n\nHeading\n=======\n" ∧
    reformatMarkdownText 9 (.fin 88) c!"> block quote\n\nHeading\n=======\n" =
      .ok c!"> block quote\n\nHeading\n=======\n" := by
  decide +kernel

end MF.RepoTests
