{"claims": [
{"property": "C01", "status": "proved", "theorems": ["MF.C01_one_trailing_newline"], "note": "Every returned string, for every text, width and recursion budget."},
{"property": "C02", "status": "proved", "theorems": ["MF.C02_gate", "MF.C02_gate_unique"], "note": "Gate described as a relation over an arbitrary pass; shown to hold and to determine the outcome."},
{"property": "C03", "status": "partial", "theorems": ["MF.C03_idempotent_partial", "MF.C03_no_bracket_partial", "MF.C03_last_line_partial", "MF.C54_stable", "MF.C03_refuted", "MF.C03_refuted_definition", "MF.C03_refuted_failure"], "note": "False of the program (C03_refuted: an empty last list entry, or a link reference definition before trailing blank lines, changes meaning when the result is trimmed). Proved: the result is returned again whenever the checked text does not end in a link reference definition that needs the lines after it, and trimming removed only empty lines, or also white space at the end of the last line that is no hard line break and does not follow a bare list marker (C03_last_line_partial); for texts without a line beginning with '[' no condition on definitions is needed. Prose documents satisfy both (C34); and it holds for every text that stands for a tree (C54_stable)."},
{"property": "C04", "status": "proved", "theorems": ["MF.C04_only_newlines", "MF.C04_no_other_separator"], "note": "All texts, widths and budgets; C04_no_other_separator names the nine other separators."},
{"property": "C05", "status": "proved", "theorems": ["MF.C05_no_invented_characters", "MF.C05_reasons", "MF.C05_exact"], "note": "All texts, widths and budgets, through every section type and nesting depth; the list of characters is exact, and new hyphens need a bar, new digits a period and a digit."},
{"property": "C06", "status": "proved", "theorems": ["MF.C06_terminates", "MF.C06_outcome", "MF.C06_terminates_api", "MF.C06_tab_before_quote"], "note": "Depth bound depthOf text, a function of line count, first and longest line; C06_terminates_api covers the double run. C06_tab_before_quote shows why tabs are excluded: a tab before '>' exceeds every limit."},
{"property": "C07", "status": "proved", "theorems": ["MF.C07_budget_irrelevant", "MF.C07_budget_irrelevant_api", "MF.C07_results_unique", "MF.C07_parse_budget_irrelevant"], "note": "One pass, the entry point and the parser."},
{"property": "C08", "status": "proved", "theorems": ["MF.C08_parse_partition", "MF.parseLoop_fuel"], "note": "All lines, all recursion budgets."},
{"property": "C09", "status": "proved", "theorems": ["MF.C09_every_document_classified", "MF.C09_some_splitter_recognises"], "note": "parse never raises its own RuntimeError; some splitter recognises the lines unless one raises."},
{"property": "C10", "status": "proved", "theorems": ["MF.C10_splitter_contract", "MF.C10_twelve"], "note": "All twelve splitters."},
{"property": "C100", "status": "proved", "theorems": ["MF.C100_pass", "MF.C100_kept", "MF.C100_lost", "MF.C100_ref", "MF.C100_example"], "note": "Documents of one definition with a title, plain words: kept exactly if label, link and first word fit; otherwise label and link are lost and the result is accepted."},
{"property": "C101", "status": "proved", "theorems": ["MF.C101_pass", "MF.C101_fits", "MF.C101_error", "MF.C101_example"], "note": "Documents of one untitled definition, plain words: kept if it fits; StopIteration in the second pass if only the label fits."},
{"property": "C102", "status": "proved", "theorems": ["MF.C102_pass", "MF.C102_answer", "MF.C102_error", "MF.C102_example", "MF.C102_ordered_example", "MF.C102_refused_example", "MF.C102_error_example", "MF.C102_fences_needed", "MF.C102_digits_needed"], "note": "C102_pass is an equation for one pass, exceptions included; C102_answer is the program's answer where no text raises. C102_fences_needed and C102_digits_needed show that the conditions cannot be dropped."},
{"property": "C103", "status": "proved", "theorems": ["MF.C103_pass", "MF.C103_same", "MF.C103_kept", "MF.C103_oneHead", "MF.C103_example"], "note": "For documents that are one underlined heading which does not begin with an opening bracket; tokens as in C56."},
{"property": "C104", "status": "proved", "theorems": ["MF.C104_exact", "MF.C104_example"], "note": "For documents of one line."},
{"property": "C105", "status": "proved", "theorems": ["MF.C105_pass", "MF.C105_exact", "MF.C105_accepted", "MF.C105_plain", "MF.C105_pieces", "MF.C105_example", "MF.C105_refused_example"], "note": "Equality of exceptions is up to the line number in the message about a ragged table (Same)."},
{"property": "C106", "status": "proved", "theorems": ["MF.C106_line", "MF.C106_format", "MF.C106_document", "MF.C106_example"], "note": "Formatting a quote equals formatting it with all markers written out (C106_format, C106_line); for documents, C106_document. The example has a lazy line after an inner quote has ended."},
{"property": "C107", "status": "proved", "theorems": ["MF.C107_pass", "MF.C107_exact", "MF.C107_error", "MF.C107_example"], "note": "One pass (C107_pass), acceptance exactly (C107_exact), exceptions (C107_error). Conditions on the text as in C99."},
{"property": "C108", "status": "proved", "theorems": ["MF.C108_pass", "MF.C108_program", "MF.C108_break", "MF.C108_example"], "note": "For the program the condition is needed of the first result as well: wrapping may put three dashes at the end of a line."},
{"property": "C109", "status": "proved", "theorems": ["MF.C109_parts", "MF.C109_document", "MF.C109_program", "MF.C109_example"], "note": "Parts are listed in order; added blank lines are the only parts without a section."},
{"property": "C11", "status": "partial", "theorems": ["MF.C11_exclusive_partial", "MF.C11_overlaps", "MF.C11_order_decides"], "note": "False as stated: five of the 66 pairs overlap. Proved: only those five pairs overlap, each of them does, and the order of SPLITTERS decides."},
{"property": "C110", "status": "proved", "theorems": ["MF.C110_lines", "MF.C110_endings", "MF.C110_last", "MF.C110_example"], "note": "splitlines is modelled from CPython's documentation; see DESIGN.md."},
{"property": "C111", "status": "proved", "theorems": ["MF.C111_before_pass", "MF.C111_before", "MF.C111_after_pass", "MF.C111_after", "MF.C111_after_example", "MF.C111_definition", "MF.C111_example"], "note": "Exceptions agree up to the line number in the message about a ragged table."},
{"property": "C112", "status": "proved", "theorems": ["MF.C112_pass", "MF.C112_program", "MF.C112_outline", "MF.C112_example"], "note": "Outline describes the opening lines and what is written for them; no condition on the text."},
{"property": "C113", "status": "proved", "theorems": ["MF.C113_format", "MF.C113_pass", "MF.C113_program", "MF.C113_example"], "note": "Lists without fences; lines that would end the list are excluded in both documents."},
{"property": "C114", "status": "proved", "theorems": ["MF.C114_wrap", "MF.C114_document", "MF.C114_room_needed", "MF.C114_example", "MF.C114_wrap_example"], "note": "wrap on any text; documents through the tree specification"},
{"property": "C115", "status": "proved", "theorems": ["MF.C115_definition", "MF.C115_example"], "note": "exact, with no regular expression in the specification"},
{"property": "C116", "status": "proved", "theorems": ["MF.C116_division", "MF.C116_fails", "MF.C116_divided", "MF.C116_example"], "note": "quoted lines excluded; C51 and C52 cover the sections of documents with quotes"},
{"property": "C117", "status": "proved", "theorems": ["MF.C117_division", "MF.C117_enough", "MF.C117_spaces", "MF.C117_example"], "note": "Complete division, quotes included; equality of the whole result"},
{"property": "C118", "status": "proved", "theorems": ["MF.C118_wrap", "MF.C118_pieces", "MF.C118_example"], "note": "Equality with a reference without regular expressions, for all texts and widths."},
{"property": "C119", "status": "proved", "theorems": ["MF.C119_format", "MF.C119_enough", "MF.C119_spaces", "MF.C119_call", "MF.C119_call_enough", "MF.C119_example"], "note": "Whole-program reference: division, every formatter, and the API call."},
{"property": "C12", "status": "proved", "theorems": ["MF.C12_atx_normal_form", "MF.C12_atx_fixed_point"], "note": "Normal form of ATX headings; fixed point."},
{"property": "C120", "status": "proved", "theorems": ["MF.C120_division", "MF.C120_pass", "MF.C120_succeeds", "MF.C120_width", "MF.C120_call", "MF.C120_example"], "note": "For all outcomes other than exceeding the recursion limit."},
{"property": "C121", "status": "proved", "theorems": ["MF.C121_division", "MF.C121_pass", "MF.C121_call_first", "MF.C121_call_second", "MF.C121_example"], "note": ""},
{"property": "C122", "status": "proved", "theorems": ["MF.C122_division", "MF.C122_pass", "MF.C122_call", "MF.C122_unbounded", "MF.C122_flat", "MF.C122_without_quotes", "MF.C122_call_without_quotes", "MF.C122_example", "MF.C122_without_quotes_example"], "note": "exact counts by induction on the depth; no polynomial bound with quotes; lines without quotes are divided once, and a pass without the character > finds at most (length + 1)^2 sections"},
{"property": "C123", "status": "proved", "theorems": ["MF.C123_utf8", "MF.C123_charset", "MF.C123_run", "MF.C123_steps", "MF.C123_untouched", "MF.C123_interrupted", "MF.C123_undecodable", "MF.C123_torn", "MF.C123_mark", "MF.C123_example", "MF.C123_unencodable"], "note": "UTF-8 and Latin-1 are instances; C123_charset covers every encoding with the laws of Codec.Charset."},
{"property": "C124", "status": "proved", "theorems": ["MF.C124_command", "MF.C124_program", "MF.C124_line", "MF.C124_bytes", "MF.C124_example"], "note": "Composition of C79, C86, C119, C120, C121 and C123 into one specification of a run."},
{"property": "C125", "status": "partial", "theorems": ["MF.C125_tree_partial", "MF.C125_output_partial", "MF.C125_print_partial", "MF.C125_widths_partial", "MF.C125_refuted", "MF.C125_refuted_heading", "MF.C125_refuted_backslash", "MF.C125_refuted_lists", "MF.C125_refuted_paren", "MF.C125_refuted_wrap", "MF.C125_refuted_torn", "MF.C125_refuted_table", "MF.C125_refuted_code", "MF.C125_refuted_links", "MF.C125_example", "MF.C125_example_spans", "MF.C125_example_link", "MF.C125_example_loose", "MF.C125_example_digits"], "note": "False as stated: C125_refuted and the examples. C125_tree_partial proves it for all documents that CommonMark and the program read as the same tree, with code spans, links and hard line breaks in paragraphs, and tight and loose lists; it is false for tables, which are no part of CommonMark, and for code spans and links that touch other text (C125_refuted_table, _code, _links); missing are trees with link definitions, quotes and code in an entry whose number is shorter than the last number of the list, and text that starts with an HTML tag."},
{"property": "C126", "status": "proved", "theorems": ["MF.C126_pass", "MF.C126_line_ends", "MF.C126_trim", "MF.C126_spaces", "MF.C126_needed", "MF.C126_example"], "note": "Two documents whose lines differ only in white space at their ends (same hard line breaks, nothing changed behind a list marker at the end of a line) are formatted alike. C126_needed shows both conditions are necessary. Proved over the exact reference form of the program (C119)."},
{"property": "C127", "status": "partial", "theorems": ["MF.C127_tree_partial", "MF.C127_loose_partial", "MF.C127_example", "MF.C127_refuted", "MF.C127_refuted_glued", "MF.C127_refuted_marker", "MF.C127_refuted_definition", "MF.C127_refuted_failure"], "note": "False in general (C127_refuted). Holds for documents that stand for a loose tree (Props/TreeSpec.lean) through any number of widths; exact result for all trees. Missing: a characterisation for documents outside the tree fragment."},
{"property": "C128", "status": "proved", "theorems": ["MF.C128_filter", "MF.C128_encodes", "MF.C128_chain", "MF.C128_file", "MF.C128_check", "MF.C128_renders", "MF.C128_others", "MF.C128_unprintable", "MF.C128_unprintable_example", "MF.C128_example"], "note": "Suits is the condition on the encoding: C123_utf8, C123_charset. What rich makes of a message is a parameter (C128_check)."},
{"property": "C129", "status": "proved", "theorems": ["MF.C129_lines", "MF.C129_pass", "MF.C129_example"], "note": ""},
{"property": "C13", "status": "proved", "theorems": ["MF.C13_thematic", "MF.C13_thematic_fixed_point"], "note": "Own character times width; fixed point for widths of at least three."},
{"property": "C130", "status": "proved", "theorems": ["MF.C130_pass", "MF.C130_length", "MF.C130_attained", "MF.C130_example"], "note": "Quadratic bound for one pass and for the result; a family of tables that attains the order at every width"},
{"property": "C131", "status": "proved", "theorems": ["MF.C131_rename", "MF.C131_pass", "MF.C131_parse", "MF.C131_wrap", "MF.C131_fixed", "MF.C131_exact", "MF.C131_example"], "note": ""},
{"property": "C132", "status": "proved", "theorems": ["MF.C132_parse", "MF.C132_wrap", "MF.C132_pass", "MF.C132_mask", "MF.C132_replace", "MF.C132_error", "MF.C132_shape", "MF.C132_other", "MF.C132_definitions", "MF.C132_example"], "note": "All maskings, texts without opening brackets, widths and budgets; C132_definitions shows that the restriction is needed."},
{"property": "C133", "status": "proved", "theorems": ["MF.C133_kinds", "MF.C133_pass", "MF.C133_plain", "MF.C133_example"], "note": "All texts, widths, budgets and depths. For bullets, breaks and underlines a bar counts as a source of hyphens."},
{"property": "C134", "status": "proved", "theorems": ["MF.C134_adds", "MF.C134_result", "MF.C134_only", "MF.C134_pass", "MF.C134_call", "MF.C134_large", "MF.C134_enforced", "MF.C134_example"], "note": "All limits, texts, widths and budgets. Real limits are 0 (none) or at least 640; the theorems need no such assumption."},
{"property": "C14", "status": "partial", "theorems": ["MF.C14_fenced_partial", "MF.C14_opening_kept", "MF.C14_extent", "MF.C14_result_recognised", "MF.C14_refuted_unclosed", "MF.C14_refuted_info", "MF.C95_accepted", "MF.C95_refused", "MF.C95_alone", "MF.C95_kept"], "note": "Proved for closed blocks whose trimmed info string does not begin with the fence character; refuted otherwise. What happens in general is described exactly by C95."},
{"property": "C15", "status": "proved", "theorems": ["MF.C15_indented", "MF.C15_indentation_kept"], "note": ""},
{"property": "C16", "status": "proved", "theorems": ["MF.C16_setext", "MF.C16_setext_returns"], "note": "Every setext section; also that the formatter returns whenever the wrapped heading does and is not empty."},
{"property": "C17", "status": "proved", "theorems": ["MF.C17_ordered_list", "MF.C17_entry_count"], "note": "Per list section; every entry text is the rewriting of the corresponding source entry. C17_entry_count counts entries on the output too."},
{"property": "C18", "status": "proved", "theorems": ["MF.C18_bullet_list", "MF.C18_entry_count", "MF.C18_fence_swallows_entry"], "note": "Entries of the source list are those the code's splitting finds, which C19_entries_exact characterises for lists without fences; C18_fence_swallows_entry shows a list where an entry that opens with a fence swallows the next."},
{"property": "C19", "status": "proved", "theorems": ["MF.C19_entries_partition", "MF.C19_entries_exact"], "note": "C19_entries_exact gives an independent specification of the entries for lists without fence lines."},
{"property": "C20", "status": "proved", "theorems": ["MF.C20_rectangular"], "note": "Every table section the formatter returns for; escaped bars only excluded from the equal-length part."},
{"property": "C21", "status": "partial", "theorems": ["MF.C21_cells_kept_partial", "MF.C21_refuted", "MF.C21_escaped_bar_loses_text", "MF.C21_no_trailing_bar_loses_cell", "MF.C21_short_delimiter_loses_columns", "MF.C93_cells", "MF.C93_document", "MF.C94_document"], "note": "False of the code: an escaped bar in the body, a missing trailing bar or a short delimiter row silently lose cells (refuted). Proved for rows framed by bars, a full delimiter row and no escaped bar in the body. Exactly which cells are kept, and which tables are accepted: C93, C94."},
{"property": "C22", "status": "proved", "theorems": ["MF.C22_table", "MF.C22_ragged_table_rejected", "MF.C22_only_ragged", "MF.C22_nested_line_number_wrong"], "note": "Section level: exact (iff). Document level: line number in the document when nothing earlier fails; converse for documents without lists and quotes. Nested tables report a wrong line (C22_nested_line_number_wrong)."},
{"property": "C23", "status": "partial", "theorems": ["MF.C23_wrap_partial", "MF.C23_wrap_no_links_partial", "MF.C23_refuted_nested", "MF.C23_refuted_overlap", "MF.C96_kept", "MF.C96_lossless"], "note": "Holds for every text whose links do not touch or nest (C23_wrap_partial) and every text without '['. False in general: nested or overlapping links lose or repeat text (C23_refuted_nested, C23_refuted_overlap). C96 describes exactly what is kept of any text."},
{"property": "C24", "status": "proved", "theorems": ["MF.C24_wrap", "MF.C24_wrap_plain"], "note": "All texts and widths; for plain text the exception is sharpened to a single word."},
{"property": "C25", "status": "proved", "theorems": ["MF.C25_wrap_greedy", "MF.Greedy.unique"], "note": "Plain text: no backtick, '[' or '<', spaces and line breaks as the only whitespace, first word not starting with a single period."},
{"property": "C26", "status": "proved", "theorems": ["MF.C26_code_verbatim", "MF.C26_code_verbatim_line", "MF.codeSpans_total"], "note": "All closed code spans of every text (codeSpans_total: every text has a list of closed spans)."},
{"property": "C27", "status": "partial", "theorems": ["MF.C27_wrap_partial", "MF.C27_wrap_no_dots_partial", "MF.C27_wrap_no_code_no_links", "MF.C27_refuted", "MF.C89_exact"], "note": "False in general (C27_refuted). wrap fails only with IndexError and only for a period at the start of a word or behind a backtick; exact condition for texts without code and links, and for all texts (C89_exact)."},
{"property": "C28", "status": "proved", "theorems": ["MF.C28_wrap_one_line", "MF.C28_wrap_no_tags", "MF.C28_wrap_plain"], "note": ""},
{"property": "C29", "status": "proved", "theorems": ["MF.C29_quote_lines"], "note": "Every block quote, whatever the nested formatter returns."},
{"property": "C30", "status": "partial", "theorems": ["MF.C30_escaped_stay_escaped_partial", "MF.C30_refuted", "MF.C30_refuted_marker", "MF.C30_never_escapes"], "note": "False of the code: NON_ESCAPED_QUOTE_MARKER is never used. Refuted, also where the '>' then becomes a marker; no document ever gains a backslash; proved that contents with every '>' escaped stay so."},
{"property": "C31", "status": "partial", "theorems": ["MF.C31_lrd_kept_partial", "MF.C31_label_and_link_lost", "MF.C31_refuted", "MF.parse_lrd", "MF.C100_kept", "MF.C100_lost"], "note": "False of the code when the title starts on the link's line and its first word does not fit (label and link are lost): refuted and described exactly. Proved otherwise, up to whitespace, for texts whose links are apart. Exactly when for documents of one definition: C100."},
{"property": "C32", "status": "partial", "theorems": ["MF.C32_no_trailing_whitespace_partial", "MF.C32_tree_partial", "MF.C32_list_partial", "MF.C32_refuted_hard_break", "MF.C32_refuted_heading", "MF.C32_refuted_entry", "MF.C90_trailing", "MF.C90_no_lists"], "note": "False of the code as stated: hard breaks keep two spaces, empty headings and empty list entries get a trailing space (three refutations). Proved for every text that stands for a tree without hard breaks (C54), lists included, and for documents whose only horizontal whitespace is the space, with no top-level list, empty heading or hard break; list sections conditionally on their entries' text. What is left in all documents is C90_trailing."},
{"property": "C33", "status": "proved", "theorems": ["MF.C33_hard_breaks", "MF.C33_lines"], "note": "Every paragraph section."},
{"property": "C34", "status": "proved", "theorems": ["MF.C34_prose", "MF.C34_text", "MF.C34_paragraphs", "MF.C34_example_prose", "MF.C34_example", "MF.C34_dashes_after_paragraph"], "note": "Documents given block by block; Formats is the specification of each block; paragraphs are lines of text with tokens (Props/TextSpec). The two conditions (no dash rule directly after a paragraph, tokens that do not look like markup) are needed: C34_dashes_after_paragraph and C27/C47 show what happens otherwise."},
{"property": "C35", "status": "proved", "theorems": ["MF.C35_check_writes_nothing"], "note": "Every formatter, file system and failure point. --write-renders counts as an output option."},
{"property": "C36", "status": "proved", "theorems": ["MF.C36_check_status", "MF.C36_check_status_any"], "note": "For markflow itself, files given by path, distinct, readable, formattable and writable; C36_check_status_any is the version for any formatter."},
{"property": "C37", "status": "partial", "theorems": ["MF.C37_only_changed_rewritten_partial", "MF.C37_duplicates_differ"], "note": "Proved for lists without duplicates; false with duplicates because formatting is not idempotent."},
{"property": "C38", "status": "proved", "theorems": ["MF.C38_failing_file_stops"], "note": "Every position and every error of the formatter; --write-renders off."},
{"property": "C39", "status": "partial", "theorems": ["MF.C39_old_or_prefix_of_new_partial", "MF.C39_refuted", "MF.C39_refuted_markflow"], "note": "False as stated: write_text truncates first. Proved: old content or a prefix of the new content."},
{"property": "C40", "status": "partial", "theorems": ["MF.C40_output_directory_partial", "MF.C40_name_collision", "MF.C40_check_still_copies"], "note": "Proved for distinct names and inputs outside the directory; equal names collide."},
{"property": "C41", "status": "proved", "theorems": ["MF.C41_stdin", "MF.C41_terminal"], "note": "Every text and formatter."},
{"property": "C42", "status": "proved", "theorems": ["MF.C42_level_valid", "MF.C42_level_formula", "MF.C42_level_monotone", "MF.C42_parse_args_level"], "note": "All counts."},
{"property": "C43", "status": "partial", "theorems": ["MF.C43_directory", "MF.C43_file_partial", "MF.C43_existing_path_partial", "MF.C43_existing_path_ignores_permissions", "MF.C43_file_accepts_devices", "MF.C43_parse_args_paths"], "note": "Directory: proved. File: proved with 'not a directory' for 'file'. ExistingPath ignores the permissions it is given."},
{"property": "C44", "status": "proved", "theorems": ["MF.C44_truncate_length", "MF.C44_truncate_shape"], "note": "All strings and natural bounds."},
{"property": "C45", "status": "partial", "theorems": ["MF.C45_restored_partial", "MF.C45_info_not_restored", "MF.C45_level_not_restored", "MF.C45_damage_bounded", "MF.C45_formatter_partial", "MF.C45_formatter_info", "MF.C45_formatter_own"], "note": "Proved for calls that return or report an inconsistency; false otherwise because there is no try/finally."},
{"property": "C46", "status": "proved", "theorems": ["MF.C46_quote_content"], "note": "Any nested formatter, any contents."},
{"property": "C47", "status": "partial", "theorems": ["MF.C47_prose_partial", "MF.C47_tree_partial", "MF.C47_refuted_wrap", "MF.C47_refuted_others", "MF.C47_refuted", "MF.C97_kept", "MF.C103_kept", "MF.C104_exact"], "note": "False of the program: wrapping can move a marker to the start of a line (refuted for '-', '#', '>', '7.' and an empty list entry). Proved for the documents of C34 and for every text that stands for a tree (C54), with nested quotes and lists. Exactly when for one paragraph, heading or break: C97, C103, C104."},
{"property": "C48", "status": "partial", "theorems": ["MF.C48_kind_of_first", "MF.C48_uniform_partial", "MF.C48_refuted"], "note": "False: in a list that mixes bullets and numbers every entry gets the kind of the first. Proved: what the kinds are after formatting, and the property for lists of one kind without lines taken for fences."},
{"property": "C49", "status": "partial", "theorems": ["MF.C49_line_number_partial", "MF.C49_refuted", "MF.C22_nested_line_number_wrong"], "note": "False for tables nested in block quotes or list entries: the number counts from the start of the nested document. Proved for every document: the number is right within the nested document, for top-level tables within the document itself (C22)."},
{"property": "C50", "status": "proved", "theorems": ["MF.C50_sections", "MF.C50_text", "MF.C50_program", "MF.C50_formatted", "MF.C50_closed"], "note": "Both passes and the final check; Closed says what complete in itself means, C50_closed that it is kept by composition, and C50_open_* show that it is needed."},
{"property": "C51", "status": "proved", "theorems": ["MF.C51_kind", "MF.C51_same_first_line"], "note": "kindOf is an independent specification of lines."},
{"property": "C52", "status": "proved", "theorems": ["MF.C52_extent", "MF.C52_paragraph_leaves_list"], "note": "Extent is an independent specification; the extent of a definition is only its label. C52_paragraph_leaves_list shows what follows from lists ending at blank lines."},
{"property": "C53", "status": "proved", "theorems": ["MF.C53_cause", "MF.C53_exceptions", "MF.C53_all_occur", "MF.C53_fence_or_row_alone"], "note": "CPython's limit on the number of digits int() accepts (a ValueError) is not modelled."},
{"property": "C54", "status": "proved", "theorems": ["MF.C54_format", "MF.C54_reads", "MF.C54_stable", "MF.C54_same_tree", "MF.C54_widths", "MF.C54_widths_refuted", "MF.C54_unique", "MF.C54_every_tree", "MF.C54_tree_kept", "MF.C54_settle_texts", "MF.C54_example_wf", "MF.C54_example_reads", "MF.C54_example", "MF.C54_example_code", "MF.C54_example_links", "MF.C54_example_breaks", "MF.C54_example_refs", "MF.C125_example_digits"], "note": "Specification of trees, of their text and of how they are written; uniqueness of the tree; formatting writes the tree. Paragraphs have words, code spans, links and line break tags, and may end in a hard break; code may be fenced or indented; link definitions may have a title; the numbers of a list may differ in length. Width independence needs tokens that are not glued (C54_widths_refuted)."},
{"property": "C55", "status": "proved", "theorems": ["MF.C55_wrap", "MF.C55_unique", "MF.C55_fewest", "MF.inline_example", "MF.inline_links"], "note": "For texts of words, code spans, links and line break tags."},
{"property": "C56", "status": "proved", "theorems": ["MF.C56_tokens", "MF.C56_again", "MF.C56_widths", "MF.C56_widths_refuted", "MF.inline_example", "MF.inline_links"], "note": "For texts of words, code spans, links and line break tags; C56_widths_refuted shows that the condition of C56_widths is needed."},
{"property": "C57", "status": "partial", "theorems": ["MF.C57_consistent_partial", "MF.C57_refuted_quote", "MF.C57_refuted_digits", "MF.C57_refuted_links", "MF.C57_refuted_anchor", "MF.C57_refuted_break", "MF.C105_accepted", "MF.C94_document", "MF.C95_accepted", "MF.C95_refused"], "note": "False of the code: C57_refuted_quote (indented quote), C57_refuted_digits (quote in an entry whose number is shorter than the last one), C57_refuted_links (reference link, comma, link), C57_refuted_anchor, C57_refuted_break. Proved for texts that stand for a tree (Props/TreeSpec). A document of several pieces is accepted exactly if its pieces are (C105); exact conditions for single sections are C94, C95, C97, C99, C103, C107."},
{"property": "C58", "status": "partial", "theorems": ["MF.C58_words_partial", "MF.C58_refuted_links", "MF.C58_refuted_code", "MF.C58_refuted_target"], "note": "False of the code: the space between two links gets lost, code spans and link targets are separated from the text that touches them. Proved for texts whose tokens do not touch."},
{"property": "C59", "status": "proved", "theorems": ["MF.C59_pyproject", "MF.C59_installed", "MF.C59_example", "MF.C59_no_version"], "note": "Exact: the pattern for lines and the one for names are shown to match the declarations and nothing else. C59_no_version shows two ordinary installations without a version."},
{"property": "C60", "status": "proved", "theorems": ["MF.C60_status", "MF.C60_no_version", "MF.C60_example"], "note": "Whole program except argparse's own option syntax, --help and --version."},
{"property": "C61", "status": "proved", "theorems": ["MF.C61_messages", "MF.C61_messages_directory", "MF.C61_example"], "note": "In place and with an output directory; rich's rendering is not modelled."},
{"property": "C62", "status": "proved", "theorems": ["MF.C62_accepted", "MF.C62_refused", "MF.C62_empty_directory", "MF.C62_example"], "note": "C62_accepted and C62_refused together characterise parse_args; the argparse library itself is not modelled."},
{"property": "C63", "status": "proved", "theorems": ["MF.C63_line_length", "MF.C63_no_limit"], "note": "Stated as independence of a run from the formatter at all other widths."},
{"property": "C64", "status": "proved", "theorems": ["MF.C64_output_files", "MF.C64_accepted", "MF.C64_example"], "note": "C64_example also shows that the condition on later inputs is needed: swapping two files loses one."},
{"property": "C65", "status": "proved", "theorems": ["MF.C65_renders", "MF.C65_stdin", "MF.C65_example", "MF.C65_stdin_quiet"], "note": "All paths are assumed writable; C65_example meets the hypotheses."},
{"property": "C66", "status": "proved", "theorems": ["MF.C66_kept", "MF.C66_plain", "MF.C66_plain_example", "MF.C66_example"], "note": "Filtering by any admissible class of characters commutes with formatting. Sound lists the defects that lose text (nested links, unclosed fences, escaped bars, long titles), each refuted elsewhere (C14, C21, C23, C31); C66_plain needs no conditions."},
{"property": "C67", "status": "proved", "theorems": ["MF.C67_same_result", "MF.C67_same_result_full", "MF.C67_pass", "MF.C67_reports", "MF.C67_example"], "note": "Messages of reformat_markdown.py; the text of __repr__ is represented by kind and lines."},
{"property": "C68", "status": "partial", "theorems": ["MF.C68_true_partial", "MF.C68_complete", "MF.C68_complete_run", "MF.C68_again", "MF.C68_refuted", "MF.C68_second_pass", "MF.C68_example"], "note": "False as stated: C68_refuted, C68_second_pass. Proved: every warning is true of the input or of a document nested in it (first pass) or of the new text (second pass), and none is missing. C68_again: only headings without text are reported again."},
{"property": "C69", "status": "partial", "theorems": ["MF.C69_append", "MF.C69_sections_partial", "MF.C69_refuted", "MF.C69_example"], "note": "False for ordered lists, which have no append (C69_refuted). C69_append characterises all other kinds."},
{"property": "C70", "status": "proved", "theorems": ["MF.C70_found", "MF.C70_true", "MF.C70_run", "MF.C70_example", "MF.C70_second_pass"], "note": "Model of parser.py and detectors/*.py with their messages and line_offset; erases_parse shows it is the parser without them."},
{"property": "C71", "status": "partial", "theorems": ["MF.C71_complete", "MF.C71_true_partial", "MF.C71_first", "MF.C71_run", "MF.C71_refuted", "MF.C71_twice", "MF.C71_example"], "note": "False as stated: C71_refuted (numbers count from the start of a section), C71_twice. Proved: none is missing (C71_complete, C71_run), each is about such a fence counted from a line where the parser looks for a section (C71_true_partial without quoted lines; C70_true in general), and the number is right in the first section (C71_first)."},
{"property": "C72", "status": "partial", "theorems": ["MF.C72_complete", "MF.C72_true_partial", "MF.C72_run", "MF.C72_refuted", "MF.C72_example"], "note": "False as stated: C72_refuted; the number is always 0 or 1. Proved: none is missing, and each is about such a label."},
{"property": "C73", "status": "proved", "theorems": ["MF.C73_level", "MF.C73_verbose", "MF.C73_example"], "note": ""},
{"property": "C74", "status": "proved", "theorems": ["MF.C74_visible", "MF.C74_text", "MF.C74_messages", "MF.C74_command", "MF.C74_example"], "note": "messages in the order of the log; which characters above 126 are printable is a parameter"},
{"property": "C75", "status": "proved", "theorems": ["MF.C75_repr", "MF.C75_section", "MF.C75_message", "MF.C75_all", "MF.C75_example"], "note": "the subject of a section is the text its representation quotes"},
{"property": "C76", "status": "partial", "theorems": ["MF.C76_brackets_partial", "MF.C76_refuted"], "note": "false of the code: quotes and lists lack the opening bracket (C76_refuted); proved for the other kinds"},
{"property": "C77", "status": "partial", "theorems": ["MF.C77_length_partial", "MF.C77_refuted"], "note": "false of the code: the info string of a fence is shown in full (C77_refuted); proved for the other kinds, apart from the digits of numbers"},
{"property": "C78", "status": "proved", "theorems": ["MF.C78_program", "MF.C78_verbosity"], "note": ""},
{"property": "C79", "status": "proved", "theorems": ["MF.C79_log", "MF.C79_in_place", "MF.C79_stdin", "MF.C79_example"], "note": ""},
{"property": "C80", "status": "proved", "theorems": ["MF.C80_program", "MF.C80_refused", "MF.C80_failed", "MF.C80_texts", "MF.C80_example"], "note": ""},
{"property": "C81", "status": "proved", "theorems": ["MF.C81_listed_repeatedly", "MF.C81_markflow", "MF.C81_example"], "note": ""},
{"property": "C82", "status": "proved", "theorems": ["MF.C82_last_of_a_name", "MF.C82_example"], "note": ""},
{"property": "C83", "status": "proved", "theorems": ["MF.C83_written_characters", "MF.C83_encodable", "MF.C83_example"], "note": ""},
{"property": "C84", "status": "proved", "theorems": ["MF.C84_interrupted", "MF.C84_example"], "note": ""},
{"property": "C85", "status": "proved", "theorems": ["MF.C85_left_behind", "MF.C85_next_call", "MF.C85_example"], "note": ""},
{"property": "C86", "status": "proved", "theorems": ["MF.C86_line", "MF.C86_accepted", "MF.C86_order", "MF.C86_example"], "note": ""},
{"property": "C87", "status": "proved", "theorems": ["MF.C87_status", "MF.C87_help", "MF.C87_ambiguous", "MF.C87_process", "MF.C87_example"], "note": ""},
{"property": "C88", "status": "proved", "theorems": ["MF.C88_together", "MF.C88_example"], "note": ""},
{"property": "C89", "status": "proved", "theorems": ["MF.C89_exact", "MF.C89_total", "MF.C89_width", "MF.C89_example"], "note": ""},
{"property": "C90", "status": "proved", "theorems": ["MF.C90_trailing", "MF.C90_no_lists", "MF.C90_example", "MF.C90_spaces", "MF.C90_no_lists_example"], "note": ""},
{"property": "C91", "status": "proved", "theorems": ["MF.C91_started", "MF.C91_without", "MF.C91_ended", "MF.C91_first", "MF.C91_warnings", "MF.C91_scan", "MF.C91_agrees", "MF.C91_example"], "note": ""},
{"property": "C92", "status": "proved", "theorems": ["MF.C92_check_zero", "MF.C92_exact", "MF.C92_tree", "MF.C92_command", "MF.C92_not_always", "MF.C92_example"], "note": ""},
{"property": "C93", "status": "proved", "theorems": ["MF.C93_cells", "MF.C93_document", "MF.C93_example", "MF.C93_everything_lost"], "note": "Exact for every table section: which cells are written and when the cells of a row survive."},
{"property": "C94", "status": "proved", "theorems": ["MF.C94_table", "MF.C94_document", "MF.C94_readable", "MF.C94_no_escapes", "MF.C94_example"], "note": "Exact: necessary and sufficient condition for a document that is one table."},
{"property": "C95", "status": "proved", "theorems": ["MF.C95_accepted", "MF.C95_refused", "MF.C95_alone", "MF.C95_kept", "MF.C95_example", "MF.C95_two_blocks"], "note": "The one case of an information string starting with the fence character in which a line between is the longer fence is left out of the statement; C95_two_blocks shows that the document may then be accepted and changed."},
{"property": "C96", "status": "proved", "theorems": ["MF.C96_kept", "MF.C96_lossless", "MF.C96_no_code", "MF.C96_example", "MF.C96_badge"], "note": "For every text; the link patterns are the code's regular expressions."},
{"property": "C97", "status": "proved", "theorems": ["MF.C97_kept", "MF.C97_same", "MF.C97_pass", "MF.C97_hard_one", "MF.C97_hard_more", "MF.C97_onePar", "MF.C97_example"], "note": "OnePar: the document is one paragraph whose content has the tokens ts. C97_kept is the equivalence, C97_same the result, C97_hard_one and C97_hard_more the documents with a hard break at the end."},
{"property": "C98", "status": "proved", "theorems": ["MF.C98_kept", "MF.C98_swallowed", "MF.C98_error", "MF.C98_code", "MF.C98_example"], "note": "C98_kept: what is kept. C98_swallowed and C98_error: a last line that looks like a fence, with lines behind it and without."},
{"property": "C99", "status": "proved", "theorems": ["MF.C99_pass", "MF.C99_accepted", "MF.C99_refused", "MF.C99_error", "MF.C99_nested", "MF.C99_flush_needed", "MF.C99_example", "MF.C99_refused_example", "MF.C99_error_example"], "note": "one pass over a quotation is the quotation of one pass; accepted, refused and failing texts stay so when quoted, at any depth"}
]}
