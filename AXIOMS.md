# Axioms per theorem

Output of `#print axioms` for every theorem in MANIFEST.json.

| Theorem | Axioms |
|---|---|
| `c01_escape_text_roundtrip` | propext |
| `c01_escape_text_injective` | propext |
| `c02_no_live_delimiter` | propext |
| `c03_code_span_roundtrip_false` | propext |
| `c03_code_span_roundtrip_partial` | propext, Quot.sound |
| `c04_valid_code_span_iff` | propext, Quot.sound |
| `c04_formatted_is_valid` | propext, Quot.sound |
| `c04_valid_not_sufficient` | propext, Classical.choice, Quot.sound |
| `c05_no_live_pipe` | propext |
| `c05_fixed_iff` | propext, Quot.sound |
| `c05_idempotent` | propext, Quot.sound |
| `c05_text_preserved` | propext, Quot.sound |
| `c06_ellipsis_expand` | propext, Quot.sound |
| `c06_ellipsis_stable_iff` | propext, Classical.choice, Quot.sound |
| `c06_ellipsis_idempotent_false` | propext, Classical.choice, Quot.sound |
| `c06_ellipsis_complete_iff` | propext, Classical.choice, Quot.sound |
| `c07_dashes_long` | propext, Quot.sound |
| `c07_dashes_long_unchanged` | propext, Quot.sound |
| `c07_dashes_single` | propext, Classical.choice, Quot.sound |
| `c07_dashes_single_idempotent` | propext, Classical.choice, Quot.sound |
| `c08_double_quotes_pointwise` | propext |
| `c08_double_quotes_idempotent` | propext |
| `c08_double_quotes_balanced` | propext, Classical.choice, Quot.sound |
| `c08_double_quote_opens` | propext, Classical.choice, Quot.sound |
| `c08_double_quote_closes` | propext, Classical.choice, Quot.sound |
| `c08_double_quote_first` | propext, Classical.choice, Quot.sound |
| `c08_double_quote_alternates` | propext, Classical.choice, Quot.sound |
| `c09_single_quotes_pointwise` | propext |
| `c09_apostrophes_pointwise` | propext, Classical.choice, Quot.sound |
| `c09_apostrophes_idempotent` | propext, Classical.choice, Quot.sound |
| `c09_single_quotes_idempotent_false` | propext |
| `c09_single_quotes_idempotent_partial` | propext |
| `c09_before_digit` | propext, Classical.choice, Quot.sound |
| `c09_word_start` | propext, Quot.sound |
| `c09_contraction` | propext, Quot.sound |
| `c09_possessive_bracket` | propext, Classical.choice, Quot.sound |
| `c09_contraction_both` | propext, Quot.sound |
| `c10_punctuation_fold` | propext, Classical.choice, Quot.sound |
| `c10_punctuation_off` | propext |
| `c11_wrap_text_visible` | propext, Classical.choice, Quot.sound |
| `c11_wrap_first_line_visible` | propext, Classical.choice, Quot.sound |
| `c11_wrap_words_false` | propext, Classical.choice, Quot.sound |
| `c11_wrap_words_partial` | propext, Classical.choice, Quot.sound |
| `c11_wrap_first_line_words_partial` | propext, Classical.choice, Quot.sound |
| `c12_single_segment_width` | propext, Quot.sound |
| `c12_single_segment_no_trailing` | propext, Quot.sound |
| `c12_wrap_text_width` | propext, Classical.choice, Quot.sound |
| `c12_lines_filled` | propext, Classical.choice, Quot.sound |
| `c12_breaks_outside_spans` | propext, Quot.sound |
| `c12_first_line_hard_break_false` | propext, Classical.choice, Quot.sound |
| `c13_hard_breaks` | propext, Classical.choice, Quot.sound |
| `c13_fitting_lines_kept` | propext, Classical.choice, Quot.sound |
| `c14_wrap_stable_false` | propext, Classical.choice, Quot.sound |
| `c14_wrap_stable_partial` | propext, Classical.choice, Quot.sound |
| `c15_fenced_false` | propext, Classical.choice, Quot.sound |
| `c15_fenced_partial` | propext, Classical.choice, Quot.sound |
| `c15_fence_shape` | propext, Classical.choice, Quot.sound |
| `c15_fenced_quoted_partial` | propext, Classical.choice, Quot.sound |
| `c16_list_item_partial` | propext, Classical.choice, Quot.sound |
| `c16_definition_false` | propext, Classical.choice, Quot.sound |
| `c16_definition_partial` | propext, Classical.choice, Quot.sound |
| `c16_definition_newline_false` | propext, Classical.choice, Quot.sound |
| `c17_none` | propext, Classical.choice, Quot.sound |
| `c17_ok` | propext, Classical.choice, Quot.sound |
| `c17_error` | propext, Classical.choice, Quot.sound |
| `c17_document` | propext, Classical.choice, Quot.sound |
| `c18_document_once` | propext, Classical.choice, Quot.sound |
| `c18_document_all` | propext, Classical.choice, Quot.sound |
| `c18_heading_all` | propext, Classical.choice, Quot.sound |
| `c18_table_all` | propext, Classical.choice, Quot.sound |
| `c18_directives_all` | propext, Classical.choice, Quot.sound |
| `c18_directives_heading_all` | propext, Classical.choice, Quot.sound |
| `c18_directives_table_all` | propext, Classical.choice, Quot.sound |
| `c18_once` | propext, Classical.choice, Quot.sound |
| `c18_all` | propext, Classical.choice, Quot.sound |
| `c18_record` | propext, Classical.choice, Quot.sound |
| `c19_document_partial` | propext, Classical.choice, Quot.sound |
| `c19_target_false` | propext, Classical.choice, Quot.sound |
| `c19_target_partial` | propext, Classical.choice, Quot.sound |
| `c20_flush` | propext, Classical.choice, Quot.sound |
| `c20_unique` | propext, Quot.sound |
| `c20_sequence` | propext, Classical.choice, Quot.sound |
| `c21_document_all` | propext, Classical.choice, Quot.sound |
| `c21_flush` | propext, Classical.choice, Quot.sound |
| `c21_final` | propext, Classical.choice, Quot.sound |
| `c21_once` | propext, Classical.choice, Quot.sound |
| `c21_all` | propext, Classical.choice, Quot.sound |
| `c22_underflow_false` | propext |
| `c22_words_partial` | propext, Classical.choice, Quot.sound |
| `c23_parse` | propext, Classical.choice, Quot.sound |
| `c23_unique` | propext, Classical.choice, Quot.sound |
| `c24_file` | propext, Classical.choice, Quot.sound |
| `c24_newline_false` | propext, Classical.choice, Quot.sound |
| `c24_crlf_false` | propext, Classical.choice, Quot.sound |
| `c24_verbatim_partial` | propext, Classical.choice, Quot.sound |
| `c25_layout` | propext, Classical.choice, Quot.sound |
| `c25_off` | propext, Classical.choice, Quot.sound |
| `c25_on` | propext, Classical.choice, Quot.sound |
| `c25_regions_false` | propext, Classical.choice, Quot.sound |
| `c25_regions_partial` | propext, Classical.choice, Quot.sound |
| `c25_uncovered_partial` | propext, Classical.choice, Quot.sound |
| `c25_windows_false` | propext, Classical.choice, Quot.sound |
| `c25_node_directive` | propext, Classical.choice, Quot.sound |
| `c25_node_heading` | propext |
| `c26_ranges` | propext, Classical.choice, Quot.sound |
| `c26_no_warning` | propext, Classical.choice, Quot.sound |
| `c26_exact_false` | propext, Classical.choice, Quot.sound |
| `c26_exact_partial` | propext, Classical.choice, Quot.sound |
| `c27_aligned` | propext, Classical.choice, Quot.sound |
| `c27_padding` | propext, Classical.choice, Quot.sound |
| `c28_read_back` | propext, Classical.choice, Quot.sound |
| `c29_warnings` | propext, Classical.choice, Quot.sound |
| `c29_cell_count_false` | propext, Classical.choice, Quot.sound |
| `c29_cells_add_no_pipe` | propext, Classical.choice, Quot.sound |
| `c30_ranges` | propext, Classical.choice, Quot.sound |
| `c30_dash` | propext, Classical.choice, Quot.sound |
| `c30_file` | propext, Classical.choice, Quot.sound |
| `c30_program` | propext, Classical.choice, Quot.sound |
| `c30_commandLine` | propext |
| `c31_accepts` | propext, Classical.choice, Quot.sound |
| `c31_style_false` | propext, Classical.choice, Quot.sound |
| `c31_indent_false` | propext, Classical.choice, Quot.sound |
| `c31_break_partial` | propext, Classical.choice, Quot.sound |
| `c31_complete` | propext, Classical.choice, Quot.sound |
| `c31_written_partial` | propext, Classical.choice, Quot.sound |
| `c32_fields` | propext, Classical.choice, Quot.sound |
| `c32_fails` | propext, Classical.choice, Quot.sound |
| `c32_no_inherit_false` | propext, Classical.choice, Quot.sound |
| `c32_no_inherit_partial` | propext, Classical.choice, Quot.sound |
| `c32_order_false` | propext, Classical.choice, Quot.sound |
| `c33_inherit_false` | propext, Classical.choice, Quot.sound |
| `c33_sections_partial` | propext, Classical.choice, Quot.sound |
| `c34_conflict_iff` | propext |
| `c34_en_shadowed` | propext, Quot.sound |
| `c34_en_effective_iff` | propext, Classical.choice, Quot.sound |
| `c35_disk` | propext, Quot.sound |
| `c35_check` | propext, Quot.sound |
| `c35_finishes` | propext, Quot.sound |
| `c36_write` | propext, Quot.sound |
| `c36_then_check` | propext, Quot.sound |
| `c36_safe_false` | propext, Classical.choice, Quot.sound |
| `c37_sequential` | propext, Quot.sound |
| `c37_diff` | propext, Classical.choice, Quot.sound |
| `c37_sides` | propext, Classical.choice, Quot.sound |
| `c37_newline_false` | propext, Classical.choice, Quot.sound |
| `c38_stdin` | propext, Classical.choice, Quot.sound |
| `c38_check_false` | propext, Classical.choice, Quot.sound |
| `c38_no_input` | propext, Classical.choice, Quot.sound |
| `c38_only_write` | propext, Classical.choice, Quot.sound |
| `c38_check_files` | propext, Classical.choice, Quot.sound |
| `c38_write_files` | propext, Classical.choice, Quot.sound |
| `c38_print_files` | propext, Classical.choice, Quot.sound |
| `c38_diff_files` | propext, Classical.choice, Quot.sound |
| `c38_modes` | propext |
| `c39_expand` | propext, Classical.choice, Quot.sound |
| `c39_order` | propext, Quot.sound |
| `c40_pieces_partial` | propext, Classical.choice, Quot.sound |
| `c40_quotes_partial` | propext, Classical.choice, Quot.sound |
| `c40_fold_partial` | propext, Classical.choice, Quot.sound |
| `c40_placeholder_false` | propext, Classical.choice, Quot.sound |
| `c40_double_false` | propext, Classical.choice, Quot.sound |
| `c41_words_partial` | propext, Classical.choice, Quot.sound |
| `c41_possessive_false` | propext, Classical.choice, Quot.sound |
| `c42_words_partial` | propext, Classical.choice, Quot.sound |
| `c42_inner_false` | propext, Classical.choice, Quot.sound |
| `c42_caps_false` | propext, Classical.choice, Quot.sound |
| `c42_pronoun_false` | propext, Classical.choice, Quot.sound |
| `c42_possessive_false` | propext, Classical.choice, Quot.sound |
| `c43_list` | propext, Classical.choice, Quot.sound |
| `c43_bullet_reads_partial` | propext, Quot.sound |
| `c43_ordered_reads_partial` | propext, Classical.choice, Quot.sound |
| `c43_bullet_reads_false` | propext, Classical.choice, Quot.sound |
| `c43_ordered_reads_false` | propext, Classical.choice, Quot.sound |
| `c43_start_false` | propext, Classical.choice, Quot.sound |
| `c44_emph` | propext, Classical.choice, Quot.sound |
| `c44_strong` | propext, Classical.choice, Quot.sound |
| `c45_reference` | propext, Quot.sound |
| `c45_paren_false` | propext, Classical.choice, Quot.sound |
| `c45_document_false` | propext, Classical.choice, Quot.sound |
| `c45_definition_false` | propext, Classical.choice, Quot.sound |
| `c45_heading_false` | propext, Classical.choice, Quot.sound |
| `c45_external_partial` | propext, Classical.choice, Quot.sound |
| `c45_direct` | propext, Classical.choice, Quot.sound |
| `c46_form` | propext, Classical.choice, Quot.sound |
| `c46_reads_partial` | propext, Classical.choice, Quot.sound |
| `c46_number_false` | propext, Classical.choice, Quot.sound |
| `c46_empty_false` | propext, Classical.choice, Quot.sound |
| `c46_width_false` | propext, Classical.choice, Quot.sound |
| `c46_closing_false` | propext, Classical.choice, Quot.sound |
| `c47_content_partial` | propext, Classical.choice, Quot.sound |
| `c47_code_false` | propext, Classical.choice, Quot.sound |
| `c47_footnote_false` | propext, Classical.choice, Quot.sound |
| `c47_html_false` | propext, Classical.choice, Quot.sound |
| `c47_break_false` | propext, Classical.choice, Quot.sound |
| `c48_frame` | propext, Classical.choice, Quot.sound |
| `c48_item` | propext, Classical.choice, Quot.sound |
| `c48_document` | propext, Classical.choice, Quot.sound |
| `c49_abbreviation_false` | propext, Classical.choice, Quot.sound |
| `c49_lines_partial` | propext, Classical.choice, Quot.sound |
| `c49_depth_partial` | propext, Classical.choice, Quot.sound |
| `c49_nested_code_false` | propext, Classical.choice, Quot.sound |
| `c49_nested_break_false` | propext, Classical.choice, Quot.sound |
| `c49_nested_table_false` | propext, Classical.choice, Quot.sound |
| `c49_nested_list_false` | propext, Classical.choice, Quot.sound |
| `c49_heading_false` | propext, Classical.choice, Quot.sound |
| `c49_html_false` | propext, Classical.choice, Quot.sound |
| `c49_loose_false` | propext, Classical.choice, Quot.sound |
| `c49_item_false` | propext, Classical.choice, Quot.sound |
| `c50_result` | propext, Quot.sound |
| `c50_time` | propext, Quot.sound |
| `c50_ok` | propext, Quot.sound |
| `c50_timeout` | propext, Quot.sound |
| `c50_polls` | propext, Quot.sound |
| `c50_returns_false` | propext, Classical.choice, Quot.sound |
| `c50_returns_partial` | propext, Classical.choice, Quot.sound |
| `c51_numbers` | propext, Quot.sound |
| `c51_plain` | propext |
| `c51_texts` | propext, Classical.choice, Quot.sound |
| `c51_dashes` | propext, Classical.choice, Quot.sound |
| `c51_ok` | propext, Classical.choice, Quot.sound |
| `c51_conflict_false` | propext, Classical.choice, Quot.sound |
| `c52_slice` | propext, Classical.choice, Quot.sound |
| `c52_exact` | propext, Classical.choice, Quot.sound |
| `c52_reversed` | propext, Classical.choice, Quot.sound |
| `c53_reads_false` | propext, Classical.choice, Quot.sound |
| `c53_link_false` | propext, Classical.choice, Quot.sound |
| `c53_tag_false` | propext, Classical.choice, Quot.sound |
| `c53_document_false` | propext, Classical.choice, Quot.sound |
| `c53_pieces` | propext, Classical.choice, Quot.sound |
| `c53_reads_partial` | propext, Classical.choice, Quot.sound |
| `c54_tree` | propext, Quot.sound |
| `c54_read_back_partial` | propext, Classical.choice, Quot.sound |
| `c54_twice_partial` | propext, Classical.choice, Quot.sound |
| `c54_parser` | propext, Classical.choice, Quot.sound |
| `c54_content` | propext, Quot.sound |
| `c54_front_matter_false` | propext, Classical.choice, Quot.sound |
| `c54_marks_partial` | propext, Classical.choice, Quot.sound |
| `c54_marks_twice_partial` | propext, Classical.choice, Quot.sound |
| `c55_empty` | propext, Classical.choice, Quot.sound |
| `c55_exact_false` | propext, Classical.choice, Quot.sound |
| `c55_exact_partial` | propext, Classical.choice, Quot.sound |
| `c56_between` | propext, Classical.choice, Quot.sound |
| `c56_front_matter` | propext, Classical.choice, Quot.sound |
| `c56_ends_partial` | propext, Classical.choice, Quot.sound |
| `c56_gap_partial` | propext, Classical.choice, Quot.sound |
| `c56_between_false` | propext, Classical.choice, Quot.sound |
| `c56_start_false` | propext, Classical.choice, Quot.sound |
| `c56_node_frontMatter` | propext |
| `c57_trailing` | propext, Classical.choice, Quot.sound |
| `c57_order` | propext, Classical.choice, Quot.sound |
| `c57_node_footnote` | propext |
| `c57_node_html` | propext |
| `c57_node_plain` | propext, Classical.choice, Quot.sound |
| `c58_escape_text_link_false` | propext, Classical.choice, Quot.sound |
| `c58_escape_text_no_link_partial` | propext, Quot.sound |
| `c59_pipeline_idempotent_false` | propext, Classical.choice, Quot.sound |
| `c59_pipeline_idempotent_partial` | propext, Classical.choice, Quot.sound |
| `c60_no_new_block_false` | propext, Classical.choice, Quot.sound |
| `c60_no_new_block_partial` | propext, Classical.choice, Quot.sound |
| `c61_definition_false` | propext, Classical.choice, Quot.sound |
| `c61_title_false` | propext, Classical.choice, Quot.sound |
| `c61_definition_partial` | propext, Classical.choice, Quot.sound |
| `c61_inline_partial` | propext, Quot.sound |
| `c61_inline_false` | propext, Classical.choice, Quot.sound |
| `c62_heading_false` | propext, Classical.choice, Quot.sound |
| `c62_break_false` | propext, Classical.choice, Quot.sound |
| `c62_blocks_false` | propext, Classical.choice, Quot.sound |
| `c62_blocks_partial` | propext, Classical.choice, Quot.sound |
| `c63_skipped_false` | propext, Classical.choice, Quot.sound |
| `c63_skipped_partial` | propext, Classical.choice, Quot.sound |
| `c64_independent` | propext, Classical.choice, Quot.sound |
| `c65_stops_false` | propext, Classical.choice, Quot.sound |
| `c65_warning_partial` | propext, Classical.choice, Quot.sound |
| `c66_explicit` | propext, Classical.choice, Quot.sound |
| `c66_same` | propext, Classical.choice, Quot.sound |
| `c67_nearest` | propext, Classical.choice, Quot.sound |
| `c68_race_false` | propext, Classical.choice, Quot.sound |
| `c68_zeros_false` | propext, Classical.choice, Quot.sound |
| `c68_once_false` | propext, Classical.choice, Quot.sound |
| `c68_once_partial` | propext, Classical.choice, Quot.sound |
| `c69_output` | propext, Quot.sound |
| `c69_deadlock` | propext, Classical.choice, Quot.sound |
| `c69_size_false` | propext, Classical.choice, Quot.sound |
| `c70_file` | propext, Classical.choice, Quot.sound |
| `c70_layer` | propext, Classical.choice, Quot.sound |
| `c70_empty` | propext, Classical.choice, Quot.sound |
| `c70_options` | propext |
| `c71_emph_false` | propext, Classical.choice, Quot.sound |
| `c71_emph_partial` | propext, Classical.choice, Quot.sound |
| `c72_paragraph_partial` | propext, Classical.choice, Quot.sound |
| `c72_code_partial` | propext, Classical.choice, Quot.sound |
| `c72_list_partial` | propext, Classical.choice, Quot.sound |
| `c72_wide_false` | propext, Classical.choice, Quot.sound |
| `c72_width_false` | propext, Classical.choice, Quot.sound |
| `c72_code_first_false` | propext, Classical.choice, Quot.sound |
| `c72_quote_false` | propext, Classical.choice, Quot.sound |
| `c72_heading_false` | propext, Classical.choice, Quot.sound |
| `c72_break_false` | propext, Classical.choice, Quot.sound |
| `c72_table_false` | propext, Classical.choice, Quot.sound |
| `c72_html_false` | propext, Classical.choice, Quot.sound |
| `c73_adjacent_false` | propext, Classical.choice, Quot.sound |
| `c73_adjacent_partial` | propext, Classical.choice, Quot.sound |
| `c74_inline_partial` | propext, Quot.sound |
| `c74_full_partial` | propext, Quot.sound |
| `c74_collapsed_partial` | propext, Quot.sound |
| `c74_shortcut_partial` | propext, Quot.sound |
| `c74_kept_inline` | propext, Classical.choice, Quot.sound |
| `c74_kept_full` | propext, Classical.choice, Quot.sound |
| `c74_escaped_false` | propext, Classical.choice, Quot.sound |
| `c74_document_false` | propext, Classical.choice, Quot.sound |
| `c74_alone_link` | propext, Classical.choice, Quot.sound |
| `c74_alone_image` | propext, Classical.choice, Quot.sound |
| `c74_alone_linked_image` | propext, Classical.choice, Quot.sound |
| `c74_alone_text` | propext, Classical.choice, Quot.sound |
| `c75_extract` | propext, Classical.choice, Quot.sound |
| `c75_rest` | propext, Quot.sound |
| `c76_first_partial` | propext, Classical.choice, Quot.sound |
| `c76_only_partial` | propext, Classical.choice, Quot.sound |
| `c76_emphasis_false` | propext, Classical.choice, Quot.sound |
| `c76_quote_false` | propext, Classical.choice, Quot.sound |
| `c77_definitions` | propext, Classical.choice, Quot.sound |
| `c77_target_false` | propext, Classical.choice, Quot.sound |
| `c77_label_false` | propext, Classical.choice, Quot.sound |
| `c78_none` | propext, Classical.choice, Quot.sound |
| `c78_document` | propext, Classical.choice, Quot.sound |
| `c78_declined` | propext, Classical.choice, Quot.sound |
| `c78_thrown_false` | propext, Classical.choice, Quot.sound |
| `c79_autolink_false` | propext, Classical.choice, Quot.sound |
| `c79_footnote_false` | propext, Classical.choice, Quot.sound |
| `c79_blocks` | propext, Classical.choice, Quot.sound |
| `c79_text_partial` | propext, Classical.choice, Quot.sound |
| `c79_footnotes` | propext, Classical.choice, Quot.sound |
| `c80_heading` | propext, Classical.choice, Quot.sound |
| `c80_document` | propext, Classical.choice, Quot.sound |
| `c80_quoted_false` | propext, Classical.choice, Quot.sound |
| `c80_delimiter_false` | propext, Classical.choice, Quot.sound |
| `c81_title_false` | propext, Classical.choice, Quot.sound |
| `c81_quote_false` | propext, Classical.choice, Quot.sound |
| `c81_alert_partial` | propext, Classical.choice, Quot.sound |
| `c82_marks_partial` | propext, Classical.choice, Quot.sound |
| `c82_marks_twice_partial` | propext, Classical.choice, Quot.sound |
| `c82_tree` | propext, Classical.choice, Quot.sound |
| `c82_read_back_partial` | propext, Classical.choice, Quot.sound |
| `c82_twice_partial` | propext, Classical.choice, Quot.sound |
| `c82_parser` | propext, Classical.choice, Quot.sound |
| `c82_tight_code_false` | propext, Classical.choice, Quot.sound |
| `c82_two_lists_false` | propext, Classical.choice, Quot.sound |
| `c82_code_list_false` | propext, Classical.choice, Quot.sound |
| `c82_definition_false` | propext, Classical.choice, Quot.sound |
| `c82_quote_heading_false` | propext, Classical.choice, Quot.sound |
| `c83_nested_partial` | propext, Classical.choice, Quot.sound |
| `c83_core_partial` | propext, Classical.choice, Quot.sound |
| `c83_item_false` | propext, Classical.choice, Quot.sound |
| `c83_marks_partial` | propext, Classical.choice, Quot.sound |
| `c83_sites_partial` | propext, Classical.choice, Quot.sound |
| `c84_kept_partial` | propext, Classical.choice, Quot.sound |
| `c84_word_false` | propext, Classical.choice, Quot.sound |
| `c85_link_false` | propext, Classical.choice, Quot.sound |
| `c85_item_partial` | propext, Classical.choice, Quot.sound |
| `c86_exact_partial` | propext, Classical.choice, Quot.sound |
| `c86_determined` | propext, Classical.choice, Quot.sound |
| `c86_document` | propext, Classical.choice, Quot.sound |
| `c86_run` | propext, Classical.choice, Quot.sound |
| `c86_escaped_false` | propext, Classical.choice, Quot.sound |
| `c86_missed_false` | propext, Classical.choice, Quot.sound |
| `c86_code_false` | propext, Classical.choice, Quot.sound |
| `c87_section_partial` | propext, Classical.choice, Quot.sound |
| `c87_nested_false` | propext, Classical.choice, Quot.sound |
| `c87_empty_false` | propext, Classical.choice, Quot.sound |
| `c88_shape_partial` | propext, Classical.choice, Quot.sound |
| `c88_list` | propext, Classical.choice, Quot.sound |
| `c88_quoted` | propext, Classical.choice, Quot.sound |
| `c88_like_item` | propext, Classical.choice, Quot.sound |
| `c88_table_false` | propext, Classical.choice, Quot.sound |
| `c88_html_false` | propext, Classical.choice, Quot.sound |
| `c88_heading_false` | propext, Classical.choice, Quot.sound |
| `c88_quote_false` | propext, Classical.choice, Quot.sound |
| `c88_quoted_code_false` | propext, Classical.choice, Quot.sound |
| `c88_marker_false` | propext, Classical.choice, Quot.sound |
| `c88_item_false` | propext, Classical.choice, Quot.sound |
| `c88_width_false` | propext, Classical.choice, Quot.sound |
| `c89_blocks_partial` | propext, Classical.choice, Quot.sound |
| `c89_words` | propext, Classical.choice, Quot.sound |
| `c89_code_false` | propext, Classical.choice, Quot.sound |
| `c89_nouns_false` | propext, Classical.choice, Quot.sound |
| `c90_lines_partial` | propext, Classical.choice, Quot.sound |
| `c90_pieces_partial` | propext, Classical.choice, Quot.sound |
| `c90_turned` | propext, Classical.choice, Quot.sound |
| `c90_emphasis_false` | propext, Classical.choice, Quot.sound |
| `c90_break_false` | propext, Classical.choice, Quot.sound |
| `c91_sites_partial` | propext, Classical.choice, Quot.sound |
| `c91_twice_partial` | propext, Classical.choice, Quot.sound |
| `c91_address_false` | propext, Classical.choice, Quot.sound |
| `c92_block_partial` | propext, Classical.choice, Quot.sound |
| `c92_document_partial` | propext, Classical.choice, Quot.sound |
| `c92_break_false` | propext, Classical.choice, Quot.sound |
| `c92_item_false` | propext, Classical.choice, Quot.sound |
| `c92_description_false` | propext, Classical.choice, Quot.sound |
| `c92_code_false` | propext, Classical.choice, Quot.sound |
| `c92_heading_false` | propext, Classical.choice, Quot.sound |
| `c92_title_false` | propext, Classical.choice, Quot.sound |
| `c92_directives_partial` | propext, Classical.choice, Quot.sound |
| `c92_notes_partial` | propext, Classical.choice, Quot.sound |
| `c92_note_false` | propext, Classical.choice, Quot.sound |
| `c92_sentence_partial` | propext, Classical.choice, Quot.sound |
| `c93_none` | propext, Quot.sound |
| `c93_files_partial` | propext, Quot.sound |
| `c93_once_partial` | propext, Quot.sound |
| `c93_error_partial` | propext, Quot.sound |
| `c93_spaces` | propext, Quot.sound |
| `c93_comments` | propext, Quot.sound |
| `c93_blank_false` | propext, Classical.choice, Quot.sound |
| `c94_ignored_false` | propext, Classical.choice, Quot.sound |
| `c94_git_dir_false` | propext, Classical.choice, Quot.sound |
| `c94_dirs_partial` | propext, Quot.sound |
| `c94_off` | propext, Quot.sound |
| `c94_fewer_partial` | propext, Quot.sound |
| `c95_straight_partial` | propext, Quot.sound |
| `c95_not_opening_partial` | propext, Quot.sound |
| `c95_symbol_false` | propext, Classical.choice, Quot.sound |
| `c95_dash_false` | propext, Classical.choice, Quot.sound |
| `c95_quoted_false` | propext, Classical.choice, Quot.sound |
| `c95_year_false` | propext, Classical.choice, Quot.sound |
| `c96_section_partial` | propext, Classical.choice, Quot.sound |
| `c96_defined_partial` | propext, Classical.choice, Quot.sound |
| `c96_level_false` | propext, Classical.choice, Quot.sound |
| `c96_html_false` | propext, Classical.choice, Quot.sound |
| `c96_note_false` | propext, Classical.choice, Quot.sound |
| `c97_two_partial` | propext, Classical.choice, Quot.sound |
| `c97_sections_partial` | propext, Classical.choice, Quot.sound |
| `c97_shared_false` | propext, Classical.choice, Quot.sound |
| `c97_directive_false` | propext, Classical.choice, Quot.sound |
| `c97_level_false` | propext, Classical.choice, Quot.sound |
| `c98_library` | propext, Classical.choice, Quot.sound |
| `c98_file` | propext, Classical.choice, Quot.sound |
| `c98_program` | propext, Classical.choice, Quot.sound |
| `c98_js` | propext, Classical.choice, Quot.sound |
| `c99_settings_partial` | propext, Classical.choice, Quot.sound |
| `c99_run_partial` | propext, Classical.choice, Quot.sound |
| `c99_trailing_false` | propext, Classical.choice, Quot.sound |
| `c100_end_partial` | propext, Classical.choice, Quot.sound |
| `c100_start_false` | propext, Classical.choice, Quot.sound |
| `c100_wide_false` | propext, Classical.choice, Quot.sound |
| `c100_ignored` | propext, Classical.choice, Quot.sound |
| `c101_document_partial` | propext, Classical.choice, Quot.sound |
| `c101_block_partial` | propext, Classical.choice, Quot.sound |
| `c101_item_false` | propext, Classical.choice, Quot.sound |
| `c101_front_matter_false` | propext, Classical.choice, Quot.sound |
| `c101_notes_partial` | propext, Classical.choice, Quot.sound |
| `c101_note_false` | propext, Classical.choice, Quot.sound |
| `c101_sentence_partial` | propext, Classical.choice, Quot.sound |
| `c102_kept` | propext, Classical.choice, Quot.sound |
| `c102_end_partial` | propext, Classical.choice, Quot.sound |
| `c102_which` | propext, Classical.choice, Quot.sound |
| `c102_end_false` | propext, Classical.choice, Quot.sound |
| `c102_link_false` | propext, Classical.choice, Quot.sound |
| `c103_program_partial` | propext, Classical.choice, Quot.sound |
| `c103_documents_partial` | propext, Classical.choice, Quot.sound |
| `c103_false` | propext, Classical.choice, Quot.sound |
| `c104_same` | propext, Classical.choice, Quot.sound |
| `c104_windows` | propext, Classical.choice, Quot.sound |
| `c104_unix_partial` | propext, Classical.choice, Quot.sound |
| `c104_check_partial` | propext, Classical.choice, Quot.sound |
| `c104_parser` | propext, Classical.choice, Quot.sound |
| `c104_check_false` | propext, Classical.choice, Quot.sound |
| `c104_front_false` | propext, Classical.choice, Quot.sound |
| `c105_scope_partial` | propext, Classical.choice, Quot.sound |
| `c105_plain_partial` | propext, Classical.choice, Quot.sound |
| `c105_heading_false` | propext, Classical.choice, Quot.sound |
| `c105_code_heading_false` | propext, Classical.choice, Quot.sound |
| `c106_curled_partial` | propext, Quot.sound |
| `c106_quotation_partial` | propext, Quot.sound |
| `c106_end_false` | propext, Classical.choice, Quot.sound |
| `c106_after_quotation_false` | propext, Classical.choice, Quot.sound |
| `c106_style_false` | propext, Classical.choice, Quot.sound |
| `c106_leading_false` | propext, Classical.choice, Quot.sound |
| `c107_quotation_partial` | propext, Quot.sound |
| `c107_long_false` | propext, Classical.choice, Quot.sound |
| `c107_digit_false` | propext, Classical.choice, Quot.sound |
| `c107_inner_false` | propext, Classical.choice, Quot.sound |
| `c108_text` | propext, Quot.sound |
| `c108_paragraph_partial` | propext, Classical.choice, Quot.sound |
| `c108_heading_link_false` | propext, Classical.choice, Quot.sound |
| `c108_reference_false` | propext, Classical.choice, Quot.sound |
| `c109_prose_partial` | propext, Classical.choice, Quot.sound |
| `c109_bracket_false` | propext, Classical.choice, Quot.sound |
| `c109_backquote_false` | propext, Classical.choice, Quot.sound |
| `c109_code_partial` | propext, Quot.sound |
| `c109_double_false` | propext, Classical.choice, Quot.sound |
| `c110_paragraphs_partial` | propext, Classical.choice, Quot.sound |
| `c110_nested_false` | propext, Classical.choice, Quot.sound |
| `c110_code_false` | propext, Classical.choice, Quot.sound |
| `c110_table_false` | propext, Classical.choice, Quot.sound |
| `c110_in_quote_false` | propext, Classical.choice, Quot.sound |
| `c110_after_false` | propext, Classical.choice, Quot.sound |
| `c111_write_partial` | propext, Classical.choice, Quot.sound |
| `c111_check_partial` | propext, Classical.choice, Quot.sound |
| `c111_arguments_partial` | propext, Classical.choice, Quot.sound |
| `c112_blank_partial` | propext, Classical.choice, Quot.sound |
| `c112_list_partial` | propext, Classical.choice, Quot.sound |
| `c112_codes_false` | propext, Classical.choice, Quot.sound |
| `c112_list_code_false` | propext, Classical.choice, Quot.sound |
| `c112_code_quote_false` | propext, Classical.choice, Quot.sound |
| `c113_off_partial` | propext, Classical.choice, Quot.sound |
| `c113_defined_partial` | propext, Classical.choice, Quot.sound |
| `c113_enable_false` | propext, Classical.choice, Quot.sound |
| `c113_html_false` | propext, Classical.choice, Quot.sound |
| `c113_note_false` | propext, Classical.choice, Quot.sound |
| `c113_notes_partial` | propext, Classical.choice, Quot.sound |
| `c113_late_false` | propext, Classical.choice, Quot.sound |
| `c113_directives_partial` | propext, Classical.choice, Quot.sound |
