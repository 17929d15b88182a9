# Axioms of the claimed theorems

Output of `#print axioms` for every theorem named in `MANIFEST.json`. All of these are Lean's own axioms.

## C01

* `C01_one_trailing_newline`: propext, Quot.sound

## C02

* `C02_gate`: propext, Quot.sound
* `C02_gate_unique`: propext, Quot.sound

## C03

* `C03_idempotent_partial`: propext, Classical.choice, Quot.sound
* `C03_no_bracket_partial`: propext, Classical.choice, Quot.sound
* `C03_last_line_partial`: propext, Classical.choice, Quot.sound
* `C54_stable`: propext, Classical.choice, Quot.sound
* `C03_refuted`: propext
* `C03_refuted_definition`: propext
* `C03_refuted_failure`: propext

## C04

* `C04_only_newlines`: propext, Classical.choice, Quot.sound
* `C04_no_other_separator`: propext, Classical.choice, Quot.sound

## C05

* `C05_no_invented_characters`: propext, Classical.choice, Quot.sound
* `C05_reasons`: propext, Classical.choice, Quot.sound
* `C05_exact`: propext, Classical.choice, Quot.sound

## C06

* `C06_terminates`: propext, Classical.choice, Quot.sound
* `C06_outcome`: propext, Classical.choice, Quot.sound
* `C06_terminates_api`: propext, Classical.choice, Quot.sound
* `C06_tab_before_quote`: propext

## C07

* `C07_budget_irrelevant`: propext, Classical.choice, Quot.sound
* `C07_budget_irrelevant_api`: propext, Classical.choice, Quot.sound
* `C07_results_unique`: propext, Classical.choice, Quot.sound
* `C07_parse_budget_irrelevant`: propext, Classical.choice, Quot.sound

## C08

* `C08_parse_partition`: propext, Quot.sound
* `parseLoop_fuel`: propext, Quot.sound

## C09

* `C09_every_document_classified`: propext, Quot.sound
* `C09_some_splitter_recognises`: propext, Quot.sound

## C10

* `C10_splitter_contract`: propext, Quot.sound
* `C10_twelve`: propext

## C100

* `C100_pass`: propext, Classical.choice, Quot.sound
* `C100_kept`: propext, Classical.choice, Quot.sound
* `C100_lost`: propext, Classical.choice, Quot.sound
* `C100_ref`: propext, Quot.sound
* `C100_example`: propext, Classical.choice, Quot.sound

## C101

* `C101_pass`: propext, Classical.choice, Quot.sound
* `C101_fits`: propext, Classical.choice, Quot.sound
* `C101_error`: propext, Classical.choice, Quot.sound
* `C101_example`: propext, Classical.choice, Quot.sound

## C102

* `C102_pass`: propext, Classical.choice, Quot.sound
* `C102_answer`: propext, Classical.choice, Quot.sound
* `C102_error`: propext, Classical.choice, Quot.sound
* `C102_example`: propext
* `C102_ordered_example`: propext
* `C102_refused_example`: propext
* `C102_error_example`: propext
* `C102_fences_needed`: propext
* `C102_digits_needed`: propext, Quot.sound

## C103

* `C103_pass`: propext, Classical.choice, Quot.sound
* `C103_same`: propext, Classical.choice, Quot.sound
* `C103_kept`: propext, Classical.choice, Quot.sound
* `C103_oneHead`: propext, Quot.sound
* `C103_example`: propext, Quot.sound

## C104

* `C104_exact`: propext, Classical.choice, Quot.sound
* `C104_example`: propext

## C105

* `C105_pass`: propext, Classical.choice, Quot.sound
* `C105_exact`: propext, Classical.choice, Quot.sound
* `C105_accepted`: propext, Classical.choice, Quot.sound
* `C105_plain`: propext, Classical.choice, Quot.sound
* `C105_pieces`: propext, Quot.sound
* `C105_example`: propext, Classical.choice, Quot.sound
* `C105_refused_example`: propext

## C106

* `C106_line`: propext, Quot.sound
* `C106_format`: propext, Classical.choice, Quot.sound
* `C106_document`: propext, Classical.choice, Quot.sound
* `C106_example`: propext

## C107

* `C107_pass`: propext, Classical.choice, Quot.sound
* `C107_exact`: propext, Classical.choice, Quot.sound
* `C107_error`: propext, Classical.choice, Quot.sound
* `C107_example`: propext, Quot.sound

## C108

* `C108_pass`: propext, Classical.choice, Quot.sound
* `C108_program`: propext, Classical.choice, Quot.sound
* `C108_break`: propext, Classical.choice, Quot.sound
* `C108_example`: propext, Quot.sound

## C109

* `C109_parts`: propext, Quot.sound
* `C109_document`: propext, Quot.sound
* `C109_program`: propext, Quot.sound
* `C109_example`: propext

## C11

* `C11_exclusive_partial`: propext, Classical.choice, Quot.sound
* `C11_overlaps`: propext
* `C11_order_decides`: propext

## C110

* `C110_lines`: propext
* `C110_endings`: propext, Classical.choice, Quot.sound
* `C110_last`: propext, Classical.choice, Quot.sound
* `C110_example`: propext

## C111

* `C111_before_pass`: propext, Quot.sound
* `C111_before`: propext, Quot.sound
* `C111_after_pass`: propext, Classical.choice, Quot.sound
* `C111_after`: propext, Classical.choice, Quot.sound
* `C111_after_example`: propext, Classical.choice, Quot.sound
* `C111_definition`: propext
* `C111_example`: propext

## C112

* `C112_pass`: propext, Classical.choice, Quot.sound
* `C112_program`: propext, Classical.choice, Quot.sound
* `C112_outline`: propext, Classical.choice, Quot.sound
* `C112_example`: propext, Quot.sound

## C113

* `C113_format`: propext, Classical.choice, Quot.sound
* `C113_pass`: propext, Classical.choice, Quot.sound
* `C113_program`: propext, Classical.choice, Quot.sound
* `C113_example`: propext, Classical.choice, Quot.sound

## C114

* `C114_wrap`: propext, Classical.choice, Quot.sound
* `C114_document`: propext, Classical.choice, Quot.sound
* `C114_room_needed`: propext
* `C114_example`: propext, Classical.choice, Quot.sound
* `C114_wrap_example`: propext

## C115

* `C115_definition`: propext, Classical.choice, Quot.sound
* `C115_example`: propext

## C116

* `C116_division`: propext, Classical.choice, Quot.sound
* `C116_fails`: propext, Classical.choice, Quot.sound
* `C116_divided`: propext, Classical.choice, Quot.sound
* `C116_example`: propext, Classical.choice, Quot.sound

## C117

* `C117_division`: propext, Classical.choice, Quot.sound
* `C117_enough`: propext, Classical.choice, Quot.sound
* `C117_spaces`: propext, Classical.choice, Quot.sound
* `C117_example`: propext, Classical.choice, Quot.sound

## C118

* `C118_wrap`: propext, Classical.choice, Quot.sound
* `C118_pieces`: propext, Classical.choice, Quot.sound
* `C118_example`: propext

## C119

* `C119_format`: propext, Classical.choice, Quot.sound
* `C119_enough`: propext, Classical.choice, Quot.sound
* `C119_spaces`: propext, Classical.choice, Quot.sound
* `C119_call`: propext, Classical.choice, Quot.sound
* `C119_call_enough`: propext, Classical.choice, Quot.sound
* `C119_example`: propext

## C12

* `C12_atx_normal_form`: propext, Classical.choice, Quot.sound
* `C12_atx_fixed_point`: propext, Classical.choice, Quot.sound

## C120

* `C120_division`: propext, Classical.choice, Quot.sound
* `C120_pass`: propext, Classical.choice, Quot.sound
* `C120_succeeds`: propext, Classical.choice, Quot.sound
* `C120_width`: propext, Classical.choice, Quot.sound
* `C120_call`: propext, Classical.choice, Quot.sound
* `C120_example`: propext

## C121

* `C121_division`: propext, Classical.choice, Quot.sound
* `C121_pass`: propext, Classical.choice, Quot.sound
* `C121_call_first`: propext, Classical.choice, Quot.sound
* `C121_call_second`: propext, Classical.choice, Quot.sound
* `C121_example`: propext

## C122

* `C122_division`: propext, Classical.choice, Quot.sound
* `C122_pass`: propext, Classical.choice, Quot.sound
* `C122_call`: propext, Classical.choice, Quot.sound
* `C122_unbounded`: propext, Classical.choice, Quot.sound
* `C122_flat`: propext, Classical.choice, Quot.sound
* `C122_without_quotes`: propext, Classical.choice, Quot.sound
* `C122_call_without_quotes`: propext, Classical.choice, Quot.sound
* `C122_example`: propext
* `C122_without_quotes_example`: propext

## C123

* `C123_utf8`: propext, Classical.choice, Quot.sound
* `C123_charset`: propext, Classical.choice, Quot.sound
* `C123_run`: propext, Quot.sound
* `C123_steps`: propext, Quot.sound
* `C123_untouched`: propext, Quot.sound
* `C123_interrupted`: propext, Quot.sound
* `C123_undecodable`: propext, Quot.sound
* `C123_torn`: propext, Classical.choice, Quot.sound
* `C123_mark`: propext, Classical.choice, Quot.sound
* `C123_example`: propext
* `C123_unencodable`: propext

## C124

* `C124_command`: propext, Classical.choice, Quot.sound
* `C124_program`: propext, Classical.choice, Quot.sound
* `C124_line`: propext, Classical.choice, Quot.sound
* `C124_bytes`: propext, Classical.choice, Quot.sound
* `C124_example`: propext

## C125

* `C125_tree_partial`: propext, Classical.choice, Quot.sound
* `C125_output_partial`: propext, Classical.choice, Quot.sound
* `C125_print_partial`: propext, Classical.choice, Quot.sound
* `C125_widths_partial`: propext, Classical.choice, Quot.sound
* `C125_refuted`: propext
* `C125_refuted_heading`: propext
* `C125_refuted_backslash`: propext
* `C125_refuted_lists`: propext
* `C125_refuted_paren`: propext
* `C125_refuted_wrap`: propext
* `C125_refuted_torn`: propext
* `C125_refuted_table`: propext
* `C125_refuted_code`: propext
* `C125_refuted_links`: propext
* `C125_example`: propext, Classical.choice, Quot.sound
* `C125_example_spans`: propext, Classical.choice, Quot.sound
* `C125_example_link`: propext, Classical.choice, Quot.sound
* `C125_example_loose`: propext, Classical.choice, Quot.sound
* `C125_example_digits`: propext, Classical.choice, Quot.sound

## C126

* `C126_pass`: propext, Classical.choice, Quot.sound
* `C126_line_ends`: propext, Classical.choice, Quot.sound
* `C126_trim`: propext, Classical.choice, Quot.sound
* `C126_spaces`: propext, Classical.choice, Quot.sound
* `C126_needed`: propext
* `C126_example`: propext

## C127

* `C127_tree_partial`: propext, Classical.choice, Quot.sound
* `C127_loose_partial`: propext, Classical.choice, Quot.sound
* `C127_example`: propext, Classical.choice, Quot.sound
* `C127_refuted`: propext
* `C127_refuted_glued`: propext
* `C127_refuted_marker`: propext
* `C127_refuted_definition`: propext
* `C127_refuted_failure`: propext

## C128

* `C128_filter`: propext
* `C128_encodes`: propext
* `C128_chain`: propext, Classical.choice, Quot.sound
* `C128_file`: propext, Quot.sound
* `C128_check`: propext, Quot.sound
* `C128_renders`: propext, Classical.choice, Quot.sound
* `C128_others`: propext
* `C128_unprintable`: propext
* `C128_unprintable_example`: propext
* `C128_example`: propext

## C129

* `C129_lines`: propext, Classical.choice, Quot.sound
* `C129_pass`: propext, Classical.choice, Quot.sound
* `C129_example`: propext

## C13

* `C13_thematic`: propext, Classical.choice, Quot.sound
* `C13_thematic_fixed_point`: propext, Classical.choice, Quot.sound

## C130

* `C130_pass`: propext, Classical.choice, Quot.sound
* `C130_length`: propext, Classical.choice, Quot.sound
* `C130_attained`: propext, Classical.choice, Quot.sound
* `C130_example`: propext

## C131

* `C131_rename`: propext, Classical.choice, Quot.sound
* `C131_pass`: propext, Classical.choice, Quot.sound
* `C131_parse`: propext, Quot.sound
* `C131_wrap`: propext, Classical.choice, Quot.sound
* `C131_fixed`: propext, Classical.choice, Quot.sound
* `C131_exact`: propext, Classical.choice, Quot.sound
* `C131_example`: propext

## C132

* `C132_parse`: propext, Quot.sound
* `C132_wrap`: propext, Classical.choice, Quot.sound
* `C132_pass`: propext, Classical.choice, Quot.sound
* `C132_mask`: propext, Classical.choice, Quot.sound
* `C132_replace`: propext, Classical.choice, Quot.sound
* `C132_error`: propext, Classical.choice, Quot.sound
* `C132_shape`: propext, Classical.choice, Quot.sound
* `C132_other`: propext, Classical.choice, Quot.sound
* `C132_definitions`: propext
* `C132_example`: propext

## C133

* `C133_kinds`: propext, Classical.choice, Quot.sound
* `C133_pass`: propext, Classical.choice, Quot.sound
* `C133_plain`: propext, Classical.choice, Quot.sound
* `C133_example`: propext

## C134

* `C134_adds`: propext
* `C134_result`: propext
* `C134_only`: propext, Classical.choice, Quot.sound
* `C134_pass`: propext, Classical.choice, Quot.sound
* `C134_call`: propext, Classical.choice, Quot.sound
* `C134_large`: propext, Classical.choice, Quot.sound
* `C134_enforced`: propext, Quot.sound
* `C134_example`: propext

## C14

* `C14_fenced_partial`: propext, Classical.choice, Quot.sound
* `C14_opening_kept`: propext, Classical.choice, Quot.sound
* `C14_extent`: propext, Classical.choice, Quot.sound
* `C14_result_recognised`: propext, Classical.choice, Quot.sound
* `C14_refuted_unclosed`: propext
* `C14_refuted_info`: propext
* `C95_accepted`: propext, Classical.choice, Quot.sound
* `C95_refused`: propext, Classical.choice, Quot.sound
* `C95_alone`: propext, Classical.choice, Quot.sound
* `C95_kept`: propext, Classical.choice, Quot.sound

## C15

* `C15_indented`: propext, Classical.choice, Quot.sound
* `C15_indentation_kept`: propext, Quot.sound

## C16

* `C16_setext`: propext, Classical.choice, Quot.sound
* `C16_setext_returns`: propext, Classical.choice, Quot.sound

## C17

* `C17_ordered_list`: propext, Classical.choice, Quot.sound
* `C17_entry_count`: propext, Classical.choice, Quot.sound

## C18

* `C18_bullet_list`: propext, Classical.choice, Quot.sound
* `C18_entry_count`: propext, Classical.choice, Quot.sound
* `C18_fence_swallows_entry`: propext

## C19

* `C19_entries_partition`: propext, Classical.choice, Quot.sound
* `C19_entries_exact`: propext, Classical.choice, Quot.sound

## C20

* `C20_rectangular`: propext, Classical.choice, Quot.sound

## C21

* `C21_cells_kept_partial`: propext, Classical.choice, Quot.sound
* `C21_refuted`: propext, Classical.choice, Quot.sound
* `C21_escaped_bar_loses_text`: propext
* `C21_no_trailing_bar_loses_cell`: propext
* `C21_short_delimiter_loses_columns`: propext
* `C93_cells`: propext, Classical.choice, Quot.sound
* `C93_document`: propext, Classical.choice, Quot.sound
* `C94_document`: propext, Classical.choice, Quot.sound

## C22

* `C22_table`: propext, Classical.choice, Quot.sound
* `C22_ragged_table_rejected`: propext, Classical.choice, Quot.sound
* `C22_only_ragged`: propext, Classical.choice, Quot.sound
* `C22_nested_line_number_wrong`: propext

## C23

* `C23_wrap_partial`: propext, Classical.choice, Quot.sound
* `C23_wrap_no_links_partial`: propext, Classical.choice, Quot.sound
* `C23_refuted_nested`: propext
* `C23_refuted_overlap`: propext
* `C96_kept`: propext, Classical.choice, Quot.sound
* `C96_lossless`: propext, Classical.choice, Quot.sound

## C24

* `C24_wrap`: propext, Classical.choice, Quot.sound
* `C24_wrap_plain`: propext, Classical.choice, Quot.sound

## C25

* `C25_wrap_greedy`: propext, Classical.choice, Quot.sound
* `Greedy.unique`: propext, Classical.choice, Quot.sound

## C26

* `C26_code_verbatim`: propext, Classical.choice, Quot.sound
* `C26_code_verbatim_line`: propext, Classical.choice, Quot.sound
* `codeSpans_total`: propext, Classical.choice, Quot.sound

## C27

* `C27_wrap_partial`: propext, Classical.choice, Quot.sound
* `C27_wrap_no_dots_partial`: propext, Classical.choice, Quot.sound
* `C27_wrap_no_code_no_links`: propext, Classical.choice, Quot.sound
* `C27_refuted`: propext
* `C89_exact`: propext, Classical.choice, Quot.sound

## C28

* `C28_wrap_one_line`: propext, Classical.choice, Quot.sound
* `C28_wrap_no_tags`: propext, Classical.choice, Quot.sound
* `C28_wrap_plain`: propext, Classical.choice, Quot.sound

## C29

* `C29_quote_lines`: propext, Quot.sound

## C30

* `C30_escaped_stay_escaped_partial`: propext, Classical.choice, Quot.sound
* `C30_refuted`: propext
* `C30_refuted_marker`: propext
* `C30_never_escapes`: propext, Classical.choice, Quot.sound

## C31

* `C31_lrd_kept_partial`: propext, Classical.choice, Quot.sound
* `C31_label_and_link_lost`: propext, Quot.sound
* `C31_refuted`: propext
* `parse_lrd`: propext, Classical.choice, Quot.sound
* `C100_kept`: propext, Classical.choice, Quot.sound
* `C100_lost`: propext, Classical.choice, Quot.sound

## C32

* `C32_no_trailing_whitespace_partial`: propext, Classical.choice, Quot.sound
* `C32_tree_partial`: propext, Classical.choice, Quot.sound
* `C32_list_partial`: propext, Classical.choice, Quot.sound
* `C32_refuted_hard_break`: propext
* `C32_refuted_heading`: propext
* `C32_refuted_entry`: propext
* `C90_trailing`: propext, Classical.choice, Quot.sound
* `C90_no_lists`: propext, Classical.choice, Quot.sound

## C33

* `C33_hard_breaks`: propext, Classical.choice, Quot.sound
* `C33_lines`: propext, Classical.choice, Quot.sound

## C34

* `C34_prose`: propext, Classical.choice, Quot.sound
* `C34_text`: propext, Classical.choice, Quot.sound
* `C34_paragraphs`: propext, Classical.choice, Quot.sound
* `C34_example_prose`: propext, Classical.choice, Quot.sound
* `C34_example`: propext
* `C34_dashes_after_paragraph`: propext

## C35

* `C35_check_writes_nothing`: propext, Quot.sound

## C36

* `C36_check_status`: propext, Classical.choice, Quot.sound
* `C36_check_status_any`: propext, Classical.choice, Quot.sound

## C37

* `C37_only_changed_rewritten_partial`: propext, Quot.sound
* `C37_duplicates_differ`: propext

## C38

* `C38_failing_file_stops`: propext, Quot.sound

## C39

* `C39_old_or_prefix_of_new_partial`: propext, Quot.sound
* `C39_refuted`: propext
* `C39_refuted_markflow`: propext, Quot.sound

## C40

* `C40_output_directory_partial`: propext, Quot.sound
* `C40_name_collision`: propext
* `C40_check_still_copies`: propext

## C41

* `C41_stdin`: propext, Quot.sound
* `C41_terminal`: propext

## C42

* `C42_level_valid`: propext, Quot.sound
* `C42_level_formula`: propext, Quot.sound
* `C42_level_monotone`: propext, Quot.sound
* `C42_parse_args_level`: propext, Quot.sound

## C43

* `C43_directory`: propext, Quot.sound
* `C43_file_partial`: propext, Quot.sound
* `C43_existing_path_partial`: propext
* `C43_existing_path_ignores_permissions`: none
* `C43_file_accepts_devices`: none
* `C43_parse_args_paths`: propext, Classical.choice, Quot.sound

## C44

* `C44_truncate_length`: propext, Quot.sound
* `C44_truncate_shape`: propext, Quot.sound

## C45

* `C45_restored_partial`: propext, Classical.choice, Quot.sound
* `C45_info_not_restored`: none
* `C45_level_not_restored`: none
* `C45_damage_bounded`: propext, Classical.choice, Quot.sound
* `C45_formatter_partial`: propext, Classical.choice, Quot.sound
* `C45_formatter_info`: propext
* `C45_formatter_own`: propext

## C46

* `C46_quote_content`: propext, Classical.choice, Quot.sound

## C47

* `C47_prose_partial`: propext, Classical.choice, Quot.sound
* `C47_tree_partial`: propext, Classical.choice, Quot.sound
* `C47_refuted_wrap`: propext
* `C47_refuted_others`: propext
* `C47_refuted`: propext
* `C97_kept`: propext, Classical.choice, Quot.sound
* `C103_kept`: propext, Classical.choice, Quot.sound
* `C104_exact`: propext, Classical.choice, Quot.sound

## C48

* `C48_kind_of_first`: propext, Classical.choice, Quot.sound
* `C48_uniform_partial`: propext, Classical.choice, Quot.sound
* `C48_refuted`: propext

## C49

* `C49_line_number_partial`: propext, Classical.choice, Quot.sound
* `C49_refuted`: propext
* `C22_nested_line_number_wrong`: propext

## C50

* `C50_sections`: propext, Classical.choice, Quot.sound
* `C50_text`: propext, Classical.choice, Quot.sound
* `C50_program`: propext, Classical.choice, Quot.sound
* `C50_formatted`: propext, Classical.choice, Quot.sound
* `C50_closed`: propext, Classical.choice, Quot.sound

## C51

* `C51_kind`: propext, Classical.choice, Quot.sound
* `C51_same_first_line`: propext, Classical.choice, Quot.sound

## C52

* `C52_extent`: propext, Classical.choice, Quot.sound
* `C52_paragraph_leaves_list`: propext

## C53

* `C53_cause`: propext, Classical.choice, Quot.sound
* `C53_exceptions`: propext, Classical.choice, Quot.sound
* `C53_all_occur`: propext
* `C53_fence_or_row_alone`: propext

## C54

* `C54_format`: propext, Classical.choice, Quot.sound
* `C54_reads`: propext, Classical.choice, Quot.sound
* `C54_stable`: propext, Classical.choice, Quot.sound
* `C54_same_tree`: propext, Classical.choice, Quot.sound
* `C54_widths`: propext, Classical.choice, Quot.sound
* `C54_widths_refuted`: propext
* `C54_unique`: propext, Classical.choice, Quot.sound
* `C54_every_tree`: propext, Classical.choice, Quot.sound
* `C54_tree_kept`: propext, Classical.choice, Quot.sound
* `C54_settle_texts`: propext
* `C54_example_wf`: propext, Classical.choice, Quot.sound
* `C54_example_reads`: propext, Classical.choice, Quot.sound
* `C54_example`: propext, Classical.choice, Quot.sound
* `C54_example_code`: propext, Classical.choice, Quot.sound
* `C54_example_links`: propext, Classical.choice, Quot.sound
* `C54_example_breaks`: propext, Classical.choice, Quot.sound
* `C54_example_refs`: propext, Classical.choice, Quot.sound
* `C125_example_digits`: propext, Classical.choice, Quot.sound

## C55

* `C55_wrap`: propext, Classical.choice, Quot.sound
* `C55_unique`: propext, Classical.choice, Quot.sound
* `C55_fewest`: propext, Classical.choice, Quot.sound
* `inline_example`: propext, Quot.sound
* `inline_links`: propext, Quot.sound

## C56

* `C56_tokens`: propext, Classical.choice, Quot.sound
* `C56_again`: propext, Classical.choice, Quot.sound
* `C56_widths`: propext, Classical.choice, Quot.sound
* `C56_widths_refuted`: propext
* `inline_example`: propext, Quot.sound
* `inline_links`: propext, Quot.sound

## C57

* `C57_consistent_partial`: propext, Classical.choice, Quot.sound
* `C57_refuted_quote`: propext
* `C57_refuted_digits`: propext
* `C57_refuted_links`: propext
* `C57_refuted_anchor`: propext
* `C57_refuted_break`: propext
* `C105_accepted`: propext, Classical.choice, Quot.sound
* `C94_document`: propext, Classical.choice, Quot.sound
* `C95_accepted`: propext, Classical.choice, Quot.sound
* `C95_refused`: propext, Classical.choice, Quot.sound

## C58

* `C58_words_partial`: propext, Classical.choice, Quot.sound
* `C58_refuted_links`: propext
* `C58_refuted_code`: propext
* `C58_refuted_target`: propext

## C59

* `C59_pyproject`: propext, Classical.choice, Quot.sound
* `C59_installed`: propext, Classical.choice, Quot.sound
* `C59_example`: none
* `C59_no_version`: none

## C60

* `C60_status`: propext, Quot.sound
* `C60_no_version`: propext
* `C60_example`: propext

## C61

* `C61_messages`: propext, Quot.sound
* `C61_messages_directory`: propext, Quot.sound
* `C61_example`: propext

## C62

* `C62_accepted`: propext, Classical.choice, Quot.sound
* `C62_refused`: propext, Classical.choice, Quot.sound
* `C62_empty_directory`: propext, Quot.sound
* `C62_example`: propext

## C63

* `C63_line_length`: propext, Classical.choice, Quot.sound
* `C63_no_limit`: propext, Classical.choice, Quot.sound

## C64

* `C64_output_files`: propext, Quot.sound
* `C64_accepted`: propext, Classical.choice, Quot.sound
* `C64_example`: propext

## C65

* `C65_renders`: propext, Classical.choice, Quot.sound
* `C65_stdin`: propext, Classical.choice, Quot.sound
* `C65_example`: propext
* `C65_stdin_quiet`: propext

## C66

* `C66_kept`: propext, Classical.choice, Quot.sound
* `C66_plain`: propext, Classical.choice, Quot.sound
* `C66_plain_example`: propext
* `C66_example`: propext, Classical.choice, Quot.sound

## C67

* `C67_same_result`: propext, Quot.sound
* `C67_same_result_full`: propext, Quot.sound
* `C67_pass`: propext, Classical.choice, Quot.sound
* `C67_reports`: propext, Classical.choice, Quot.sound
* `C67_example`: propext

## C68

* `C68_true_partial`: propext, Classical.choice, Quot.sound
* `C68_complete`: propext, Classical.choice, Quot.sound
* `C68_complete_run`: propext, Classical.choice, Quot.sound
* `C68_again`: propext, Classical.choice, Quot.sound
* `C68_refuted`: propext, Classical.choice, Quot.sound
* `C68_second_pass`: propext
* `C68_example`: propext

## C69

* `C69_append`: propext, Classical.choice, Quot.sound
* `C69_sections_partial`: propext, Classical.choice, Quot.sound
* `C69_refuted`: propext
* `C69_example`: propext

## C70

* `C70_found`: propext, Classical.choice, Quot.sound
* `C70_true`: propext, Classical.choice, Quot.sound
* `C70_run`: propext, Classical.choice, Quot.sound
* `C70_example`: propext
* `C70_second_pass`: propext

## C71

* `C71_complete`: propext, Classical.choice, Quot.sound
* `C71_true_partial`: propext, Classical.choice, Quot.sound
* `C71_first`: propext, Classical.choice, Quot.sound
* `C71_run`: propext, Classical.choice, Quot.sound
* `C71_refuted`: propext, Quot.sound
* `C71_twice`: propext
* `C71_example`: propext, Quot.sound

## C72

* `C72_complete`: propext, Classical.choice, Quot.sound
* `C72_true_partial`: propext, Classical.choice, Quot.sound
* `C72_run`: propext, Classical.choice, Quot.sound
* `C72_refuted`: propext
* `C72_example`: propext, Quot.sound

## C73

* `C73_level`: propext, Classical.choice, Quot.sound
* `C73_verbose`: propext, Classical.choice, Quot.sound
* `C73_example`: propext

## C74

* `C74_visible`: propext, Classical.choice, Quot.sound
* `C74_text`: propext, Classical.choice, Quot.sound
* `C74_messages`: propext, Classical.choice, Quot.sound
* `C74_command`: propext, Classical.choice, Quot.sound
* `C74_example`: propext

## C75

* `C75_repr`: propext, Quot.sound
* `C75_section`: propext, Quot.sound
* `C75_message`: propext, Quot.sound
* `C75_all`: propext, Quot.sound
* `C75_example`: none

## C76

* `C76_brackets_partial`: propext
* `C76_refuted`: propext

## C77

* `C77_length_partial`: propext, Quot.sound
* `C77_refuted`: propext, Classical.choice, Quot.sound

## C78

* `C78_program`: propext, Quot.sound
* `C78_verbosity`: propext, Quot.sound

## C79

* `C79_log`: propext, Classical.choice, Quot.sound
* `C79_in_place`: propext, Classical.choice, Quot.sound
* `C79_stdin`: propext, Quot.sound
* `C79_example`: propext

## C80

* `C80_program`: propext, Classical.choice, Quot.sound
* `C80_refused`: propext
* `C80_failed`: propext, Classical.choice, Quot.sound
* `C80_texts`: propext
* `C80_example`: propext

## C81

* `C81_listed_repeatedly`: propext, Quot.sound
* `C81_markflow`: propext, Classical.choice, Quot.sound
* `C81_example`: propext

## C82

* `C82_last_of_a_name`: propext, Quot.sound
* `C82_example`: propext

## C83

* `C83_written_characters`: propext, Classical.choice, Quot.sound
* `C83_encodable`: propext, Classical.choice, Quot.sound
* `C83_example`: propext

## C84

* `C84_interrupted`: propext, Quot.sound
* `C84_example`: propext

## C85

* `C85_left_behind`: propext, Classical.choice, Quot.sound
* `C85_next_call`: propext, Quot.sound
* `C85_example`: propext

## C86

* `C86_line`: propext, Classical.choice, Quot.sound
* `C86_accepted`: propext, Classical.choice, Quot.sound
* `C86_order`: propext, Classical.choice, Quot.sound
* `C86_example`: propext, Classical.choice, Quot.sound

## C87

* `C87_status`: propext, Classical.choice, Quot.sound
* `C87_help`: propext, Classical.choice, Quot.sound
* `C87_ambiguous`: propext, Classical.choice, Quot.sound
* `C87_process`: propext, Classical.choice, Quot.sound
* `C87_example`: propext, Classical.choice, Quot.sound

## C88

* `C88_together`: propext, Classical.choice, Quot.sound
* `C88_example`: propext

## C89

* `C89_exact`: propext, Classical.choice, Quot.sound
* `C89_total`: propext, Classical.choice, Quot.sound
* `C89_width`: propext, Classical.choice, Quot.sound
* `C89_example`: propext

## C90

* `C90_trailing`: propext, Classical.choice, Quot.sound
* `C90_no_lists`: propext, Classical.choice, Quot.sound
* `C90_example`: propext
* `C90_spaces`: propext
* `C90_no_lists_example`: propext

## C91

* `C91_started`: propext, Quot.sound
* `C91_without`: propext
* `C91_ended`: propext, Classical.choice, Quot.sound
* `C91_first`: propext, Classical.choice, Quot.sound
* `C91_warnings`: propext, Classical.choice, Quot.sound
* `C91_scan`: propext, Classical.choice, Quot.sound
* `C91_agrees`: propext, Classical.choice, Quot.sound
* `C91_example`: propext

## C92

* `C92_check_zero`: propext, Classical.choice, Quot.sound
* `C92_exact`: propext, Classical.choice, Quot.sound
* `C92_tree`: propext, Classical.choice, Quot.sound
* `C92_command`: propext, Classical.choice, Quot.sound
* `C92_not_always`: propext
* `C92_example`: propext, Classical.choice, Quot.sound

## C93

* `C93_cells`: propext, Classical.choice, Quot.sound
* `C93_document`: propext, Classical.choice, Quot.sound
* `C93_example`: propext
* `C93_everything_lost`: propext

## C94

* `C94_table`: propext, Classical.choice, Quot.sound
* `C94_document`: propext, Classical.choice, Quot.sound
* `C94_readable`: propext, Classical.choice, Quot.sound
* `C94_no_escapes`: propext, Classical.choice, Quot.sound
* `C94_example`: propext

## C95

* `C95_accepted`: propext, Classical.choice, Quot.sound
* `C95_refused`: propext, Classical.choice, Quot.sound
* `C95_alone`: propext, Classical.choice, Quot.sound
* `C95_kept`: propext, Classical.choice, Quot.sound
* `C95_example`: propext
* `C95_two_blocks`: propext

## C96

* `C96_kept`: propext, Classical.choice, Quot.sound
* `C96_lossless`: propext, Classical.choice, Quot.sound
* `C96_no_code`: propext, Classical.choice, Quot.sound
* `C96_example`: propext
* `C96_badge`: propext

## C97

* `C97_kept`: propext, Classical.choice, Quot.sound
* `C97_same`: propext, Classical.choice, Quot.sound
* `C97_pass`: propext, Classical.choice, Quot.sound
* `C97_hard_one`: propext, Classical.choice, Quot.sound
* `C97_hard_more`: propext, Classical.choice, Quot.sound
* `C97_onePar`: propext, Quot.sound
* `C97_example`: propext, Quot.sound

## C98

* `C98_kept`: propext, Classical.choice, Quot.sound
* `C98_swallowed`: propext, Classical.choice, Quot.sound
* `C98_error`: propext, Classical.choice, Quot.sound
* `C98_code`: propext
* `C98_example`: propext

## C99

* `C99_pass`: propext, Classical.choice, Quot.sound
* `C99_accepted`: propext, Classical.choice, Quot.sound
* `C99_refused`: propext, Classical.choice, Quot.sound
* `C99_error`: propext, Classical.choice, Quot.sound
* `C99_nested`: propext, Classical.choice, Quot.sound
* `C99_flush_needed`: propext, Quot.sound
* `C99_example`: propext, Quot.sound
* `C99_refused_example`: propext, Quot.sound
* `C99_error_example`: propext, Quot.sound
