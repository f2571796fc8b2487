{
 "claims": [
  {
   "property": "C01",
   "status": "proved",
   "theorems": [
    "Hongdown.Props.c01_escape_text_roundtrip",
    "Hongdown.Props.c01_escape_text_injective"
   ],
   "note": "Whole text, no hypotheses."
  },
  {
   "property": "C02",
   "status": "proved",
   "theorems": [
    "Hongdown.Props.c02_no_live_delimiter"
   ],
   "note": "Whole text, no hypotheses."
  },
  {
   "property": "C03",
   "status": "partial",
   "theorems": [
    "Hongdown.Props.c03_code_span_roundtrip_false",
    "Hongdown.Props.c03_code_span_roundtrip_partial"
   ],
   "note": "General claim refuted by a literal with a space at both ends; the partial theorem is an exact characterisation, also with following text."
  },
  {
   "property": "C04",
   "status": "proved",
   "theorems": [
    "Hongdown.Props.c04_valid_code_span_iff",
    "Hongdown.Props.c04_formatted_is_valid",
    "Hongdown.Props.c04_valid_not_sufficient"
   ],
   "note": "Exact characterisation; also shows that acceptance does not imply a single code span."
  },
  {
   "property": "C05",
   "status": "proved",
   "theorems": [
    "Hongdown.Props.c05_no_live_pipe",
    "Hongdown.Props.c05_fixed_iff",
    "Hongdown.Props.c05_idempotent",
    "Hongdown.Props.c05_text_preserved"
   ],
   "note": "Both readings of GFM pipes."
  },
  {
   "property": "C06",
   "status": "proved",
   "theorems": [
    "Hongdown.Props.c06_ellipsis_expand",
    "Hongdown.Props.c06_ellipsis_stable_iff",
    "Hongdown.Props.c06_ellipsis_idempotent_false",
    "Hongdown.Props.c06_ellipsis_complete_iff"
   ],
   "note": "Idempotence refuted; the stable and complete cases are characterised exactly by the lengths of dot runs."
  },
  {
   "property": "C07",
   "status": "proved",
   "theorems": [
    "Hongdown.Props.c07_dashes_long",
    "Hongdown.Props.c07_dashes_long_unchanged",
    "Hongdown.Props.c07_dashes_single",
    "Hongdown.Props.c07_dashes_single_idempotent"
   ],
   "note": "Long and one-character patterns."
  },
  {
   "property": "C08",
   "status": "proved",
   "theorems": [
    "Hongdown.Props.c08_double_quotes_pointwise",
    "Hongdown.Props.c08_double_quotes_idempotent",
    "Hongdown.Props.c08_double_quotes_balanced",
    "Hongdown.Props.c08_double_quote_opens",
    "Hongdown.Props.c08_double_quote_closes",
    "Hongdown.Props.c08_double_quote_first",
    "Hongdown.Props.c08_double_quote_alternates"
   ],
   "note": ""
  },
  {
   "property": "C09",
   "status": "partial",
   "theorems": [
    "Hongdown.Props.c09_single_quotes_pointwise",
    "Hongdown.Props.c09_apostrophes_pointwise",
    "Hongdown.Props.c09_apostrophes_idempotent",
    "Hongdown.Props.c09_single_quotes_idempotent_false",
    "Hongdown.Props.c09_single_quotes_idempotent_partial",
    "Hongdown.Props.c09_before_digit",
    "Hongdown.Props.c09_word_start",
    "Hongdown.Props.c09_contraction",
    "Hongdown.Props.c09_possessive_bracket",
    "Hongdown.Props.c09_contraction_both"
   ],
   "note": "Single quote pass refuted by two adjacent quotes; partial without adjacent quotes. Apostrophe pass proved."
  },
  {
   "property": "C10",
   "status": "proved",
   "theorems": [
    "Hongdown.Props.c10_punctuation_fold",
    "Hongdown.Props.c10_punctuation_off"
   ],
   "note": ""
  },
  {
   "property": "C11",
   "status": "partial",
   "theorems": [
    "Hongdown.Props.c11_wrap_text_visible",
    "Hongdown.Props.c11_wrap_first_line_visible",
    "Hongdown.Props.c11_wrap_words_false",
    "Hongdown.Props.c11_wrap_words_partial",
    "Hongdown.Props.c11_wrap_first_line_words_partial"
   ],
   "note": "Visible characters: all texts. Words: refuted by a leading space; partial for texts whose hard-break-free parts begin without a space."
  },
  {
   "property": "C12",
   "status": "proved",
   "theorems": [
    "Hongdown.Props.c12_single_segment_width",
    "Hongdown.Props.c12_single_segment_no_trailing",
    "Hongdown.Props.c12_wrap_text_width",
    "Hongdown.Props.c12_lines_filled",
    "Hongdown.Props.c12_breaks_outside_spans",
    "Hongdown.Props.c12_first_line_hard_break_false"
   ],
   "note": "For every width function with additive spaces; also shows that wrap_text_first_line exceeds the width after a hard break."
  },
  {
   "property": "C13",
   "status": "proved",
   "theorems": [
    "Hongdown.Props.c13_hard_breaks",
    "Hongdown.Props.c13_fitting_lines_kept"
   ],
   "note": ""
  },
  {
   "property": "C14",
   "status": "partial",
   "theorems": [
    "Hongdown.Props.c14_wrap_stable_false",
    "Hongdown.Props.c14_wrap_stable_partial"
   ],
   "note": "Refuted for double spaces; partial for single-spaced soft lines, with hard breaks, code spans and brackets."
  },
  {
   "property": "C15",
   "status": "partial",
   "theorems": [
    "Hongdown.Props.c15_fenced_false",
    "Hongdown.Props.c15_fenced_partial",
    "Hongdown.Props.c15_fence_shape",
    "Hongdown.Props.c15_fenced_quoted_partial"
   ],
   "note": "Refuted without a space after the fence for an info string beginning with the fence character; otherwise a full round trip, also in a block quote of depth one and for any following text. Contents whose lines end in a carriage return are excluded."
  },
  {
   "property": "C16",
   "status": "partial",
   "theorems": [
    "Hongdown.Props.c16_list_item_partial",
    "Hongdown.Props.c16_definition_false",
    "Hongdown.Props.c16_definition_partial",
    "Hongdown.Props.c16_definition_newline_false"
   ],
   "note": "List items: full round trip, also in a block quote. Definitions: refuted by a line of five tildes; the partial theorem is an exact characterisation (iff). Also shows the extra empty line after formatter output without a final line break."
  },
  {
   "property": "C17",
   "status": "proved",
   "theorems": [
    "Hongdown.Props.c17_none",
    "Hongdown.Props.c17_ok",
    "Hongdown.Props.c17_error",
    "Hongdown.Props.c17_document"
   ],
   "note": "All three serializers; equality of whole states. `c17_document` lifts this to whole documents: the run equals the run without formatters on the tree with the formatted code, and adds warnings only if a formatter fails."
  },
  {
   "property": "C18",
   "status": "proved",
   "theorems": [
    "Hongdown.Props.c18_document_once",
    "Hongdown.Props.c18_document_all",
    "Hongdown.Props.c18_heading_all",
    "Hongdown.Props.c18_table_all",
    "Hongdown.Props.c18_directives_all",
    "Hongdown.Props.c18_directives_heading_all",
    "Hongdown.Props.c18_directives_table_all",
    "Hongdown.Props.c18_once",
    "Hongdown.Props.c18_all",
    "Hongdown.Props.c18_record"
   ],
   "note": "c18_once/c18_all/c18_record: for every sequence of reference operations. c18_document_once/c18_document_all: for every document tree (all: without directives; the links in paragraphs at any depth of lists, quotes and emphasis). c18_directives_all, c18_directives_heading_all, c18_directives_table_all: with directives, for every block that is not kept as it is. c20_sequence: what a flush writes, in which order."
  },
  {
   "property": "C19",
   "status": "partial",
   "theorems": [
    "Hongdown.Props.c19_document_partial",
    "Hongdown.Props.c19_target_false",
    "Hongdown.Props.c19_target_partial"
   ],
   "note": "Refuted: two inline links with the same text and different targets become references with one label; the last target wins. Partial: holds if equal labels come with equal targets."
  },
  {
   "property": "C20",
   "status": "proved",
   "theorems": [
    "Hongdown.Props.c20_flush",
    "Hongdown.Props.c20_unique",
    "Hongdown.Props.c20_sequence"
   ],
   "note": "Also shows that the specified order is unique."
  },
  {
   "property": "C21",
   "status": "proved",
   "theorems": [
    "Hongdown.Props.c21_document_all",
    "Hongdown.Props.c21_flush",
    "Hongdown.Props.c21_final",
    "Hongdown.Props.c21_once",
    "Hongdown.Props.c21_all"
   ],
   "note": "One flush exactly, and all runs of operations; in whole documents every definition is written once, and c79_footnotes shows that its content is in it."
  },
  {
   "property": "C22",
   "status": "partial",
   "theorems": [
    "Hongdown.Props.c22_underflow_false",
    "Hongdown.Props.c22_words_partial"
   ],
   "note": "Refuted: a name of 76 characters underflows at width 80. Partial: words, layout, width and greedy filling when the label fits."
  },
  {
   "property": "C23",
   "status": "proved",
   "theorems": [
    "Hongdown.Props.c23_parse",
    "Hongdown.Props.c23_unique"
   ],
   "note": "c23_parse: exactly; c23_unique: the reading is unique."
  },
  {
   "property": "C24",
   "status": "partial",
   "theorems": [
    "Hongdown.Props.c24_file",
    "Hongdown.Props.c24_newline_false",
    "Hongdown.Props.c24_crlf_false",
    "Hongdown.Props.c24_verbatim_partial"
   ],
   "note": "False as stated in two ways: c24_newline_false (directive on the last line loses the final newline), c24_crlf_false (CRLF becomes LF). c24_file gives the exact tail of the output for every document, c24_verbatim_partial the byte-for-byte claim when something follows the line of the directive and it holds no carriage return."
  },
  {
   "property": "C25",
   "status": "partial",
   "theorems": [
    "Hongdown.Props.c25_layout",
    "Hongdown.Props.c25_off",
    "Hongdown.Props.c25_on",
    "Hongdown.Props.c25_regions_false",
    "Hongdown.Props.c25_regions_partial",
    "Hongdown.Props.c25_uncovered_partial",
    "Hongdown.Props.c25_windows_false",
    "Hongdown.Props.c25_node_directive",
    "Hongdown.Props.c25_node_heading"
   ],
   "note": "c25_layout describes the whole output of every document; c25_off and c25_on state the exact rule (the last switch decides). The README rule is false for a next-line directive in a disabled region (c25_regions_false); c25_regions_partial and c25_uncovered_partial prove both directions when directives do not nest. In a region CRLF becomes LF (c25_windows_false, with C104)."
  },
  {
   "property": "C26",
   "status": "partial",
   "theorems": [
    "Hongdown.Props.c26_ranges",
    "Hongdown.Props.c26_no_warning",
    "Hongdown.Props.c26_exact_false",
    "Hongdown.Props.c26_exact_partial"
   ],
   "note": "c26_ranges: the suppressed lines are exactly those which README.md covers (and those after disable-file). The formatter itself disagrees with that after enable in a disabled section (c26_exact_false); c26_exact_partial when directives do not nest. c26_no_warning: no undefined reference is reported inside covered blocks."
  },
  {
   "property": "C27",
   "status": "proved",
   "theorems": [
    "Hongdown.Props.c27_aligned",
    "Hongdown.Props.c27_padding"
   ],
   "note": "Display columns of all pipes agree, each column exactly as wide as needed; padding on the proper side. For any width function that is additive at spaces and counts the ASCII signs of the delimiter row as one."
  },
  {
   "property": "C28",
   "status": "proved",
   "theorems": [
    "Hongdown.Props.c28_read_back"
   ],
   "note": "Includes tables in a block quote of depth one."
  },
  {
   "property": "C29",
   "status": "proved",
   "theorems": [
    "Hongdown.Props.c29_warnings",
    "Hongdown.Props.c29_cell_count_false",
    "Hongdown.Props.c29_cells_add_no_pipe"
   ],
   "note": "Exact set of warned lines. Also shows that the count is not the number of cells: rows without outer pipes are reported, rows with one cell too few are not."
  },
  {
   "property": "C30",
   "status": "proved",
   "theorems": [
    "Hongdown.Props.c30_ranges",
    "Hongdown.Props.c30_dash",
    "Hongdown.Props.c30_file",
    "Hongdown.Props.c30_program",
    "Hongdown.Props.c30_commandLine"
   ],
   "note": "c30_ranges and c30_dash: the constructors, exactly. c30_file, c30_program: options from any configuration files are in range, whatever the command line says. c30_commandLine: --line-width below 8 panics."
  },
  {
   "property": "C31",
   "status": "partial",
   "theorems": [
    "Hongdown.Props.c31_accepts",
    "Hongdown.Props.c31_style_false",
    "Hongdown.Props.c31_indent_false",
    "Hongdown.Props.c31_break_partial",
    "Hongdown.Props.c31_complete",
    "Hongdown.Props.c31_written_partial"
   ],
   "note": "False: c31_style_false (---* is accepted), c31_indent_false (a style with leading space gives an indented code block). c31_accepts: the accepted language exactly; c31_break_partial: iff-condition for styles without surrounding white space; c31_complete: every CommonMark thematic break is accepted; c31_written_partial: the line the serializer writes."
  },
  {
   "property": "C32",
   "status": "partial",
   "theorems": [
    "Hongdown.Props.c32_fields",
    "Hongdown.Props.c32_fails",
    "Hongdown.Props.c32_no_inherit_false",
    "Hongdown.Props.c32_no_inherit_partial",
    "Hongdown.Props.c32_order_false"
   ],
   "note": "c32_fields: every field; c32_fails: loading fails iff one of the files is broken. Two documented claims are false: no_inherit with a broken lower file (c32_no_inherit_false, with c32_no_inherit_partial for readable files), and the order below the home directory, where the legacy user file is found as the project file and beats the XDG file (c32_order_false)."
  },
  {
   "property": "C33",
   "status": "partial",
   "theorems": [
    "Hongdown.Props.c33_inherit_false",
    "Hongdown.Props.c33_sections_partial"
   ],
   "note": "False: a section replaces the whole section (c33_inherit_false). c33_sections_partial: sections not mentioned are inherited."
  },
  {
   "property": "C34",
   "status": "proved",
   "theorems": [
    "Hongdown.Props.c34_conflict_iff",
    "Hongdown.Props.c34_en_shadowed",
    "Hongdown.Props.c34_en_effective_iff"
   ],
   "note": "Also shows that accepted settings can make the en dash unreachable."
  },
  {
   "property": "C35",
   "status": "proved",
   "theorems": [
    "Hongdown.Props.c35_disk",
    "Hongdown.Props.c35_check",
    "Hongdown.Props.c35_finishes"
   ],
   "note": "c35_disk and c35_check for every schedule; c35_finishes: every fair schedule ends. A panic while formatting is not modelled in the workers."
  },
  {
   "property": "C36",
   "status": "proved",
   "theorems": [
    "Hongdown.Props.c36_write",
    "Hongdown.Props.c36_then_check",
    "Hongdown.Props.c36_safe_false"
   ],
   "note": "c36_write for lists without repetitions, with read failures and writes cut off at any byte; c36_then_check. c36_safe_false: a write that fails midway destroys the file (fs::write is not atomic)."
  },
  {
   "property": "C37",
   "status": "proved",
   "theorems": [
    "Hongdown.Props.c37_sequential",
    "Hongdown.Props.c37_diff",
    "Hongdown.Props.c37_sides",
    "Hongdown.Props.c37_newline_false"
   ],
   "note": "c37_sequential and c37_diff."
  },
  {
   "property": "C38",
   "status": "proved",
   "theorems": [
    "Hongdown.Props.c38_stdin",
    "Hongdown.Props.c38_check_false",
    "Hongdown.Props.c38_no_input",
    "Hongdown.Props.c38_only_write",
    "Hongdown.Props.c38_check_files",
    "Hongdown.Props.c38_write_files",
    "Hongdown.Props.c38_print_files",
    "Hongdown.Props.c38_diff_files",
    "Hongdown.Props.c38_modes"
   ],
   "note": "The decision table of main: c38_stdin, c38_no_input, c38_only_write, and what each mode does with the selected files. c38_check_false: --check with --stdin does not report."
  },
  {
   "property": "C39",
   "status": "proved",
   "theorems": [
    "Hongdown.Props.c39_expand",
    "Hongdown.Props.c39_order"
   ],
   "note": "c39_expand and c39_order, for any result of the directory walk (no assumption on its order)."
  },
  {
   "property": "C40",
   "status": "partial",
   "theorems": [
    "Hongdown.Props.c40_pieces_partial",
    "Hongdown.Props.c40_quotes_partial",
    "Hongdown.Props.c40_fold_partial",
    "Hongdown.Props.c40_placeholder_false",
    "Hongdown.Props.c40_double_false"
   ],
   "note": "Holds for texts without U+FFFD (the marker of the code for nouns of several words) and without the dotless i, whatever the nouns; false with the marker in the text and for code spans with two backquotes."
  },
  {
   "property": "C41",
   "status": "partial",
   "theorems": [
    "Hongdown.Props.c41_words_partial",
    "Hongdown.Props.c41_possessive_false"
   ],
   "note": "Proved for headings of ASCII words with single spaces and no apostrophes, one-word ASCII nouns; false for possessives in capitals."
  },
  {
   "property": "C42",
   "status": "partial",
   "theorems": [
    "Hongdown.Props.c42_words_partial",
    "Hongdown.Props.c42_inner_false",
    "Hongdown.Props.c42_caps_false",
    "Hongdown.Props.c42_pronoun_false",
    "Hongdown.Props.c42_possessive_false"
   ],
   "note": "Proved for headings of plain words with single spaces and one-word nouns. False: capitals after punctuation, nouns in capitals, i'D., possessives with punctuation after them. C80 gives the exact result for every heading."
  },
  {
   "property": "C43",
   "status": "partial",
   "theorems": [
    "Hongdown.Props.c43_list",
    "Hongdown.Props.c43_bullet_reads_partial",
    "Hongdown.Props.c43_ordered_reads_partial",
    "Hongdown.Props.c43_bullet_reads_false",
    "Hongdown.Props.c43_ordered_reads_false",
    "Hongdown.Props.c43_start_false"
   ],
   "note": "c43_list gives the exact shape of what a list writes: numbers, delimiters, padding, indentation, boxes. Reading back fails for trailing_spaces = 0 and for wide ordered lists (c43_bullet_reads_false, c43_ordered_reads_false) and holds otherwise. The start number is lost (c43_start_false). Missing: lists in definitions."
  },
  {
   "property": "C44",
   "status": "proved",
   "theorems": [
    "Hongdown.Props.c44_emph",
    "Hongdown.Props.c44_strong"
   ],
   "note": "c44_emph, c44_strong: exact, with an inductive definition of \"some text below\"."
  },
  {
   "property": "C45",
   "status": "partial",
   "theorems": [
    "Hongdown.Props.c45_reference",
    "Hongdown.Props.c45_paren_false",
    "Hongdown.Props.c45_document_false",
    "Hongdown.Props.c45_definition_false",
    "Hongdown.Props.c45_heading_false",
    "Hongdown.Props.c45_external_partial",
    "Hongdown.Props.c45_direct"
   ],
   "note": "c45_reference: all three written forms, against a link reader. False for links that were inline links: c45_paren_false, c45_document_false, c45_definition_false, c45_heading_false. c45_external_partial: true in paragraphs if what follows does not change the meaning."
  },
  {
   "property": "C46",
   "status": "partial",
   "theorems": [
    "Hongdown.Props.c46_form",
    "Hongdown.Props.c46_reads_partial",
    "Hongdown.Props.c46_number_false",
    "Hongdown.Props.c46_empty_false",
    "Hongdown.Props.c46_width_false",
    "Hongdown.Props.c46_closing_false"
   ],
   "note": "The form is proved in general (c46_form); reading back under HeadingOk. False: numbered titles, empty headings, texts of width 0, texts that end with number signs."
  },
  {
   "property": "C47",
   "status": "partial",
   "theorems": [
    "Hongdown.Props.c47_content_partial",
    "Hongdown.Props.c47_code_false",
    "Hongdown.Props.c47_footnote_false",
    "Hongdown.Props.c47_html_false",
    "Hongdown.Props.c47_break_false"
   ],
   "note": "Proved without sentence case for texts, code, emphasis, links and images of texts. False for code in links, footnote references, HTML and hard breaks."
  },
  {
   "property": "C48",
   "status": "proved",
   "theorems": [
    "Hongdown.Props.c48_frame",
    "Hongdown.Props.c48_item",
    "Hongdown.Props.c48_document"
   ],
   "note": "c48_frame: every block. c48_item: an item counts itself. c48_document: a whole document. Hypothesis wellPlaced: items stand only in lists, documents are roots; the parser guarantees this."
  },
  {
   "property": "C49",
   "status": "partial",
   "theorems": [
    "Hongdown.Props.c49_abbreviation_false",
    "Hongdown.Props.c49_lines_partial",
    "Hongdown.Props.c49_depth_partial",
    "Hongdown.Props.c49_nested_code_false",
    "Hongdown.Props.c49_nested_break_false",
    "Hongdown.Props.c49_nested_table_false",
    "Hongdown.Props.c49_nested_list_false",
    "Hongdown.Props.c49_heading_false",
    "Hongdown.Props.c49_html_false",
    "Hongdown.Props.c49_loose_false",
    "Hongdown.Props.c49_item_false"
   ],
   "note": "False for headings, HTML blocks, definitions of abbreviations, loose lists and items with two paragraphs in a quote, and for code, thematic breaks, tables and lists in nested quotes (c49_*_false). Proved for quotes outside of lists with the blocks of Spec.Quotable (c49_lines_partial: one marker on every line; c49_depth_partial: one marker per level for paragraphs and quotes). Missing: quotes in list items and descriptions."
  },
  {
   "property": "C50",
   "status": "partial",
   "theorems": [
    "Hongdown.Props.c50_result",
    "Hongdown.Props.c50_time",
    "Hongdown.Props.c50_ok",
    "Hongdown.Props.c50_timeout",
    "Hongdown.Props.c50_polls",
    "Hongdown.Props.c50_returns_false",
    "Hongdown.Props.c50_returns_partial"
   ],
   "note": "c50_result: the exact result for every schedule; c50_ok, c50_timeout, c50_polls. That it returns at all is false (c50_returns_false: writing the code to the process is not under the time limit); c50_returns_partial: it does return if the process reads all of its input."
  },
  {
   "property": "C51",
   "status": "proved",
   "theorems": [
    "Hongdown.Props.c51_numbers",
    "Hongdown.Props.c51_plain",
    "Hongdown.Props.c51_texts",
    "Hongdown.Props.c51_dashes",
    "Hongdown.Props.c51_ok",
    "Hongdown.Props.c51_conflict_false"
   ],
   "note": "c51_numbers, c51_plain, c51_texts, c51_dashes: each field, invalid values fall back to defaults; c51_ok: the result is always valid. c51_conflict_false: equal dash patterns are not rejected."
  },
  {
   "property": "C52",
   "status": "proved",
   "theorems": [
    "Hongdown.Props.c52_slice",
    "Hongdown.Props.c52_exact",
    "Hongdown.Props.c52_reversed"
   ],
   "note": "c52_slice: least run of whole characters covering the range, no panic if start <= end; c52_exact at boundaries; c52_reversed: panics possible for reversed offsets."
  },
  {
   "property": "C53",
   "status": "partial",
   "theorems": [
    "Hongdown.Props.c53_reads_false",
    "Hongdown.Props.c53_link_false",
    "Hongdown.Props.c53_tag_false",
    "Hongdown.Props.c53_document_false",
    "Hongdown.Props.c53_pieces",
    "Hongdown.Props.c53_reads_partial"
   ],
   "note": "c53_reads_false (\\# becomes \\\\#), c53_link_false (an escaped bracket becomes a link), c53_tag_false and c53_document_false (a tag appears). c53_reads_partial: sources with escapes of * _ \\ ` only and short references."
  },
  {
   "property": "C54",
   "status": "partial",
   "theorems": [
    "Hongdown.Props.c54_tree",
    "Hongdown.Props.c54_read_back_partial",
    "Hongdown.Props.c54_twice_partial",
    "Hongdown.Props.c54_parser",
    "Hongdown.Props.c54_content",
    "Hongdown.Props.c54_front_matter_false",
    "Hongdown.Props.c54_marks_partial",
    "Hongdown.Props.c54_marks_twice_partial"
   ],
   "note": "Reader and tree relation are in Spec/Core, the grammar of code spans, emphasis, images and links in Spec/Content; c54_tree shows that every document of the fragment has a tree, c54_content that lines have one content at most, c54_parser that a parser agreeing with the reader exists. Proved for all such trees: the output reads back as the same blocks (words, code spans, emphasis, images and links, levels, code lines, info strings up to the default language) and formatting again is the identity. Restrictions: no sentence case, no code formatters, dash patterns that plain words cannot contain, thematic break other than `---`; emphasis only where its delimiters stand after a blank (or a parenthesis) and before a blank or punctuation, not nested; code spans with one backtick; apostrophes only between ASCII letters, and quotation marks and apostrophes only where the options leave them; images and links without titles, and links not to other sites (C91 has those) and with a text other than the address; positive width for headings; info strings that fit after the fence (c15_fenced_false). c54_front_matter_false: with `---` a leading thematic break becomes front matter. c54_marks_partial covers documents whose straight quotation marks and apostrophes are replaced: the output reads back as the document with those marks curly, code spans unchanged, and stays the same when formatted again."
  },
  {
   "property": "C55",
   "status": "partial",
   "theorems": [
    "Hongdown.Props.c55_empty",
    "Hongdown.Props.c55_exact_false",
    "Hongdown.Props.c55_exact_partial"
   ],
   "note": "c55_empty: the forward direction. The converse is false, an empty block quote vanishes (c55_exact_false); c55_exact_partial: not from documents with a paragraph, heading, code block or thematic break."
  },
  {
   "property": "C56",
   "status": "partial",
   "theorems": [
    "Hongdown.Props.c56_between",
    "Hongdown.Props.c56_front_matter",
    "Hongdown.Props.c56_ends_partial",
    "Hongdown.Props.c56_gap_partial",
    "Hongdown.Props.c56_between_false",
    "Hongdown.Props.c56_start_false",
    "Hongdown.Props.c56_node_frontMatter"
   ],
   "note": "`c56_front_matter` pins the text around front matter."
  },
  {
   "property": "C57",
   "status": "proved",
   "theorems": [
    "Hongdown.Props.c57_trailing",
    "Hongdown.Props.c57_order",
    "Hongdown.Props.c57_node_footnote",
    "Hongdown.Props.c57_node_html",
    "Hongdown.Props.c57_node_plain"
   ],
   "note": "c57_trailing and c57_order, for documents without disable-file directive (that case is c24_file)."
  },
  {
   "property": "C58",
   "status": "partial",
   "theorems": [
    "Hongdown.Props.c58_escape_text_link_false",
    "Hongdown.Props.c58_escape_text_no_link_partial"
   ],
   "note": "Refuted by [[[a]](b); partial without adjacent opening brackets."
  },
  {
   "property": "C59",
   "status": "partial",
   "theorems": [
    "Hongdown.Props.c59_pipeline_idempotent_false",
    "Hongdown.Props.c59_pipeline_idempotent_partial"
   ],
   "note": "Refuted by six dots; partial with the two failing patterns excluded and dash patterns of at least two characters."
  },
  {
   "property": "C60",
   "status": "partial",
   "theorems": [
    "Hongdown.Props.c60_no_new_block_false",
    "Hongdown.Props.c60_no_new_block_partial"
   ],
   "note": "Refuted: a dash can be wrapped to the beginning of a line. Partial when no word is a marker."
  },
  {
   "property": "C61",
   "status": "partial",
   "theorems": [
    "Hongdown.Props.c61_definition_false",
    "Hongdown.Props.c61_title_false",
    "Hongdown.Props.c61_definition_partial",
    "Hongdown.Props.c61_inline_partial",
    "Hongdown.Props.c61_inline_false"
   ],
   "note": "Refuted for spaces in destinations, unbalanced parentheses and quotation marks in titles; partial for parts that need no escapes. Entities are not decoded by the reader."
  },
  {
   "property": "C62",
   "status": "partial",
   "theorems": [
    "Hongdown.Props.c62_heading_false",
    "Hongdown.Props.c62_break_false",
    "Hongdown.Props.c62_blocks_false",
    "Hongdown.Props.c62_blocks_partial"
   ],
   "note": "Refuted for names of three bytes (c62_blocks_false), for headings after the text, whose words are glued to it (c62_heading_false), and for thematic breaks, which are dropped (c62_break_false); the partial theorem gives the exact result of reading."
  },
  {
   "property": "C63",
   "status": "partial",
   "theorems": [
    "Hongdown.Props.c63_skipped_false",
    "Hongdown.Props.c63_skipped_partial"
   ],
   "note": "c63_skipped_false: a paragraph kept verbatim loses its definition. c63_skipped_partial: documents without directives; c18_directives_all: documents with them, for the blocks that are formatted."
  },
  {
   "property": "C64",
   "status": "proved",
   "theorems": [
    "Hongdown.Props.c64_independent"
   ],
   "note": ""
  },
  {
   "property": "C65",
   "status": "partial",
   "theorems": [
    "Hongdown.Props.c65_stops_false",
    "Hongdown.Props.c65_warning_partial"
   ],
   "note": "c65_stops_false: an invalid file does not stop the program. c65_warning_partial: it gives one warning first, and the rest is as without configuration."
  },
  {
   "property": "C66",
   "status": "proved",
   "theorems": [
    "Hongdown.Props.c66_explicit",
    "Hongdown.Props.c66_same"
   ],
   "note": "c66_explicit and c66_same."
  },
  {
   "property": "C67",
   "status": "proved",
   "theorems": [
    "Hongdown.Props.c67_nearest"
   ],
   "note": "c67_nearest."
  },
  {
   "property": "C68",
   "status": "partial",
   "theorems": [
    "Hongdown.Props.c68_race_false",
    "Hongdown.Props.c68_zeros_false",
    "Hongdown.Props.c68_once_false",
    "Hongdown.Props.c68_once_partial"
   ],
   "note": "c68_once_false and c68_race_false (a file named twice can lose its content in write mode); c68_once_partial: arguments that are distinct files are each processed once."
  },
  {
   "property": "C69",
   "status": "proved",
   "theorems": [
    "Hongdown.Props.c69_output",
    "Hongdown.Props.c69_deadlock",
    "Hongdown.Props.c69_size_false"
   ],
   "note": "False: c69_size_false. c69_output: an answer larger than a pipe never succeeds; c69_deadlock: a process that answers while reading never ends if the code is more than twice a pipe."
  },
  {
   "property": "C70",
   "status": "proved",
   "theorems": [
    "Hongdown.Props.c70_file",
    "Hongdown.Props.c70_layer",
    "Hongdown.Props.c70_empty",
    "Hongdown.Props.c70_options"
   ],
   "note": "c70_file, c70_layer (iff), c70_empty, c70_options."
  },
  {
   "property": "C71",
   "status": "partial",
   "theorems": [
    "Hongdown.Props.c71_emph_false",
    "Hongdown.Props.c71_emph_partial"
   ],
   "note": "c71_emph_false: a*b\\*c*d becomes a_b\\*c_d. c71_emph_partial: asterisks anywhere, underscores next to white space or punctuation; content beginning and ending with other characters."
  },
  {
   "property": "C72",
   "status": "partial",
   "theorems": [
    "Hongdown.Props.c72_paragraph_partial",
    "Hongdown.Props.c72_code_partial",
    "Hongdown.Props.c72_list_partial",
    "Hongdown.Props.c72_wide_false",
    "Hongdown.Props.c72_width_false",
    "Hongdown.Props.c72_code_first_false",
    "Hongdown.Props.c72_quote_false",
    "Hongdown.Props.c72_heading_false",
    "Hongdown.Props.c72_break_false",
    "Hongdown.Props.c72_table_false",
    "Hongdown.Props.c72_html_false"
   ],
   "note": "Partial theorems for paragraphs, code blocks and lists in items. False for item 100 with a list inside, for disagreeing widths, for a code block at the start of an item, for block quotes with lists, for headings, thematic breaks and tables after a paragraph (they are joined to the line of the paragraph) and for HTML blocks (all lines but the first stand in column zero)."
  },
  {
   "property": "C73",
   "status": "partial",
   "theorems": [
    "Hongdown.Props.c73_adjacent_false",
    "Hongdown.Props.c73_adjacent_partial"
   ],
   "note": "False for lists of the same type; holds for lists of different types."
  },
  {
   "property": "C74",
   "status": "partial",
   "theorems": [
    "Hongdown.Props.c74_inline_partial",
    "Hongdown.Props.c74_full_partial",
    "Hongdown.Props.c74_collapsed_partial",
    "Hongdown.Props.c74_shortcut_partial",
    "Hongdown.Props.c74_kept_inline",
    "Hongdown.Props.c74_kept_full",
    "Hongdown.Props.c74_escaped_false",
    "Hongdown.Props.c74_document_false",
    "Hongdown.Props.c74_alone_link",
    "Hongdown.Props.c74_alone_image",
    "Hongdown.Props.c74_alone_linked_image",
    "Hongdown.Props.c74_alone_text"
   ],
   "note": "False for escaped brackets (c74_escaped_false, c74_document_false): the bracket matching does not know backslashes. Proved where the brackets of the text match."
  },
  {
   "property": "C75",
   "status": "proved",
   "theorems": [
    "Hongdown.Props.c75_extract",
    "Hongdown.Props.c75_rest"
   ],
   "note": ""
  },
  {
   "property": "C76",
   "status": "partial",
   "theorems": [
    "Hongdown.Props.c76_first_partial",
    "Hongdown.Props.c76_only_partial",
    "Hongdown.Props.c76_emphasis_false",
    "Hongdown.Props.c76_quote_false"
   ],
   "note": "Proved for headings of plain words and one-word nouns; false for a first word in emphasis or brackets and after a leading quotation. C80 gives the exact result for every heading."
  },
  {
   "property": "C77",
   "status": "proved",
   "theorems": [
    "Hongdown.Props.c77_definitions",
    "Hongdown.Props.c77_target_false",
    "Hongdown.Props.c77_label_false"
   ],
   "note": "The definitions part is proved; targets and labels are false."
  },
  {
   "property": "C78",
   "status": "proved",
   "theorems": [
    "Hongdown.Props.c78_none",
    "Hongdown.Props.c78_document",
    "Hongdown.Props.c78_declined",
    "Hongdown.Props.c78_thrown_false"
   ],
   "note": "A formatter that returns a promise is ignored without a warning; the example in the README returns `prettier.format(...)`, which is a promise since Prettier 3. A formatter that throws is ignored without a warning, unlike a failing command (`c78_thrown_false`). Decoding of JavaScript values and options is not modelled."
  },
  {
   "property": "C79",
   "status": "partial",
   "theorems": [
    "Hongdown.Props.c79_autolink_false",
    "Hongdown.Props.c79_footnote_false",
    "Hongdown.Props.c79_blocks",
    "Hongdown.Props.c79_text_partial",
    "Hongdown.Props.c79_footnotes"
   ],
   "note": "Two losses are proved: code in a link that is written as an autolink, and an HTML block in a footnote. Proved: block layout loses no visible character of paragraphs, headings, table cells, code and HTML blocks at any depth, and text nodes and code spans outside links are kept up to characters punctuation conversion may replace; the text of a footnote is kept in its definition. Missing: text taken from the source, sentence case and disabled parts."
  },
  {
   "property": "C80",
   "status": "proved",
   "theorems": [
    "Hongdown.Props.c80_heading",
    "Hongdown.Props.c80_document",
    "Hongdown.Props.c80_quoted_false",
    "Hongdown.Props.c80_delimiter_false"
   ],
   "note": "c80_heading: the exact result for every text; c80_document: in documents, with nouns of directives. Needs facts of the Unicode tables (case folding, the class of U+FFFD), nouns without U+FFFD and with a word in them. False of the README: quoted text that starts with a capital is recased; a capital after a colon is lost when another delimiter follows the word."
  },
  {
   "property": "C81",
   "status": "partial",
   "theorems": [
    "Hongdown.Props.c81_title_false",
    "Hongdown.Props.c81_quote_false",
    "Hongdown.Props.c81_alert_partial"
   ],
   "note": "False: the title of an alert is dropped (c81_title_false), and a block quote that is no alert becomes one when its empty first line is dropped (c81_quote_false). Without a title: proved for every kind, content and context, with the block quote of the same content as the body."
  },
  {
   "property": "C82",
   "status": "partial",
   "theorems": [
    "Hongdown.Props.c82_marks_partial",
    "Hongdown.Props.c82_marks_twice_partial",
    "Hongdown.Props.c82_tree",
    "Hongdown.Props.c82_read_back_partial",
    "Hongdown.Props.c82_twice_partial",
    "Hongdown.Props.c82_parser",
    "Hongdown.Props.c82_tight_code_false",
    "Hongdown.Props.c82_two_lists_false",
    "Hongdown.Props.c82_code_list_false",
    "Hongdown.Props.c82_definition_false",
    "Hongdown.Props.c82_quote_heading_false"
   ],
   "note": "Proved for items that begin with a paragraph and markers four columns wide, with text, code spans, emphasis, images and links as in C54, and with shortcut links and their definitions at the top level, and for block quotes and GitHub alerts of paragraphs, code blocks and thematic breaks and for tables at the top level; five negations show which other shapes are not kept or not stable. c82_marks_partial covers straight quotation marks and apostrophes that are replaced. Links to other sites are in C91."
  },
  {
   "property": "C83",
   "status": "partial",
   "theorems": [
    "Hongdown.Props.c83_nested_partial",
    "Hongdown.Props.c83_core_partial",
    "Hongdown.Props.c83_item_false",
    "Hongdown.Props.c83_marks_partial",
    "Hongdown.Props.c83_sites_partial"
   ],
   "note": "False for the first lines of items (c83_item_false): the marker is not counted when the paragraph is wrapped. Proved where that line is counted from its text, for the documents and options of C82 and, without lists, of C54. c83_marks_partial covers quotation marks that are replaced. c83_sites_partial covers links to other sites."
  },
  {
   "property": "C84",
   "status": "partial",
   "theorems": [
    "Hongdown.Props.c84_kept_partial",
    "Hongdown.Props.c84_word_false"
   ],
   "note": "False where a long word has a line of its own (c84_word_false): the lines after it are joined. Proved for the documents and options of C82 when every line fits."
  },
  {
   "property": "C85",
   "status": "partial",
   "theorems": [
    "Hongdown.Props.c85_link_false",
    "Hongdown.Props.c85_item_partial"
   ],
   "note": "False for items that begin with an external link (c85_link_false). Proved for items that begin with a paragraph whose text does not begin with a bracket, outside of block quotes."
  },
  {
   "property": "C86",
   "status": "partial",
   "theorems": [
    "Hongdown.Props.c86_exact_partial",
    "Hongdown.Props.c86_determined",
    "Hongdown.Props.c86_document",
    "Hongdown.Props.c86_run",
    "Hongdown.Props.c86_escaped_false",
    "Hongdown.Props.c86_missed_false",
    "Hongdown.Props.c86_code_false"
   ],
   "note": "`c86_run` carries it to `format_with_warnings`."
  },
  {
   "property": "C87",
   "status": "partial",
   "theorems": [
    "Hongdown.Props.c87_section_partial",
    "Hongdown.Props.c87_nested_false",
    "Hongdown.Props.c87_empty_false"
   ],
   "note": "False of footnotes referenced only inside other footnotes (c87_nested_false) and of footnotes without text, which vanish (c87_empty_false). Proved at every heading of level 2 or 3 for footnotes with text, without code formatters and sentence case."
  },
  {
   "property": "C88",
   "status": "partial",
   "theorems": [
    "Hongdown.Props.c88_shape_partial",
    "Hongdown.Props.c88_list",
    "Hongdown.Props.c88_quoted",
    "Hongdown.Props.c88_like_item",
    "Hongdown.Props.c88_table_false",
    "Hongdown.Props.c88_html_false",
    "Hongdown.Props.c88_heading_false",
    "Hongdown.Props.c88_quote_false",
    "Hongdown.Props.c88_quoted_code_false",
    "Hongdown.Props.c88_marker_false",
    "Hongdown.Props.c88_item_false",
    "Hongdown.Props.c88_width_false"
   ],
   "note": "Proved: how items, terms and descriptions follow each other, in and out of quotes; that descriptions of paragraphs are laid out like list items; and, for descriptions of paragraphs, code and lists of them, that every line after the first is blank or indented (c88_shape_partial). False of the code for tables, HTML blocks and underlined headings (only their first line is indented), for descriptions that begin with a block quote (`:` without a space) or hold code in a quote, for description lists in block quotes (blank lines without marker) and in list items (one run-on line), and for the line width (the marker is not counted)."
  },
  {
   "property": "C89",
   "status": "partial",
   "theorems": [
    "Hongdown.Props.c89_blocks_partial",
    "Hongdown.Props.c89_words",
    "Hongdown.Props.c89_code_false",
    "Hongdown.Props.c89_nouns_false"
   ],
   "note": "c89_blocks_partial and c89_words give the text exactly. Reading back is false: c89_code_false (code right after the label gains two spaces with each run, and with names of three bytes the fence never closes) and c89_nouns_false (nouns declared by a directive do not reach headings in footnotes)."
  },
  {
   "property": "C90",
   "status": "partial",
   "theorems": [
    "Hongdown.Props.c90_lines_partial",
    "Hongdown.Props.c90_pieces_partial",
    "Hongdown.Props.c90_turned",
    "Hongdown.Props.c90_emphasis_false",
    "Hongdown.Props.c90_break_false"
   ],
   "note": "False of the code: each text node is converted by itself, so `\"*yes*\"` is written with two opening marks (c90_emphasis_false; c90_turned shows that every text node that begins with a double quotation mark gets an opening one) and single quotation marks over a source line break become an apostrophe and a straight mark (c90_break_false). Proved: clear double quotation marks convert the same when the text is divided at blanks or away from marks."
  },
  {
   "property": "C91",
   "status": "partial",
   "theorems": [
    "Hongdown.Props.c91_sites_partial",
    "Hongdown.Props.c91_twice_partial",
    "Hongdown.Props.c91_address_false"
   ],
   "note": "False if two links with the same text have different addresses (c91_address_false): definitions are kept by text and the later one wins. Proved for documents of C82 in which a text has one address: read back as the document with references, every address kept, stable when formatted again."
  },
  {
   "property": "C92",
   "status": "partial",
   "theorems": [
    "Hongdown.Props.c92_block_partial",
    "Hongdown.Props.c92_document_partial",
    "Hongdown.Props.c92_break_false",
    "Hongdown.Props.c92_item_false",
    "Hongdown.Props.c92_description_false",
    "Hongdown.Props.c92_code_false",
    "Hongdown.Props.c92_heading_false",
    "Hongdown.Props.c92_title_false",
    "Hongdown.Props.c92_directives_partial",
    "Hongdown.Props.c92_notes_partial",
    "Hongdown.Props.c92_note_false",
    "Hongdown.Props.c92_sentence_partial"
   ],
   "note": "c92_block_partial: one block in any state; c92_document_partial: whole documents; c92_notes_partial: whole documents with footnotes of one paragraph; c92_directives_partial: and with directives; these without sentence case, for which c92_sentence_partial: one heading. False for empty footnotes (c92_note_false), after two hard breaks in a row (c92_break_false), for items that begin with a quote (c92_item_false), descriptions that begin with code (c92_description_false), empty lines of code in an item in a quote (c92_code_false), empty headings (c92_heading_false) and titles with line breaks (c92_title_false)."
  },
  {
   "property": "C93",
   "status": "partial",
   "theorems": [
    "Hongdown.Props.c93_none",
    "Hongdown.Props.c93_files_partial",
    "Hongdown.Props.c93_once_partial",
    "Hongdown.Props.c93_error_partial",
    "Hongdown.Props.c93_spaces",
    "Hongdown.Props.c93_comments",
    "Hongdown.Props.c93_blank_false"
   ],
   "note": "Partial: patterns must be ordinary ones (c93_blank_false: a blank pattern finds every file). The walk of the ignore crate is modelled from its documentation."
  },
  {
   "property": "C94",
   "status": "partial",
   "theorems": [
    "Hongdown.Props.c94_ignored_false",
    "Hongdown.Props.c94_git_dir_false",
    "Hongdown.Props.c94_dirs_partial",
    "Hongdown.Props.c94_off",
    "Hongdown.Props.c94_fewer_partial"
   ],
   "note": "False: include patterns come before the ignore files (c94_ignored_false), and .git is searched (c94_git_dir_false). Kept: ignored directories, fewer files than without git_aware, no influence without it."
  },
  {
   "property": "C95",
   "status": "partial",
   "theorems": [
    "Hongdown.Props.c95_straight_partial",
    "Hongdown.Props.c95_not_opening_partial",
    "Hongdown.Props.c95_symbol_false",
    "Hongdown.Props.c95_dash_false",
    "Hongdown.Props.c95_quoted_false",
    "Hongdown.Props.c95_year_false"
   ],
   "note": "False of the code: with the default settings `C#'s` gets an opening mark (c95_symbol_false), so do apostrophes before `--` and `...` (c95_dash_false) and before a closing double mark (c95_quoted_false), because those are replaced first; the apostrophes of `'90s` and `'tis` are curled with curly_apostrophes off (c95_year_false). Proved: texts without dashes and ellipses, apostrophes inside words, possessives after letters, ASCII digits, closing brackets and at the start of a text, word ends; no opening mark after a letter."
  },
  {
   "property": "C96",
   "status": "partial",
   "theorems": [
    "Hongdown.Props.c96_section_partial",
    "Hongdown.Props.c96_defined_partial",
    "Hongdown.Props.c96_level_false",
    "Hongdown.Props.c96_html_false",
    "Hongdown.Props.c96_note_false"
   ],
   "note": "False of the code for headings of level 1, 4, 5 and 6: nothing is defined before them (c96_level_false). A section that ends with an HTML block is written differently at the end of a document (c96_html_false), and footnotes are brought from later sections (c96_note_false, see C87). Proved for headings of level 2 and 3 otherwise, with directives other than disable-file."
  },
  {
   "property": "C97",
   "status": "partial",
   "theorems": [
    "Hongdown.Props.c97_two_partial",
    "Hongdown.Props.c97_sections_partial",
    "Hongdown.Props.c97_shared_false",
    "Hongdown.Props.c97_directive_false",
    "Hongdown.Props.c97_level_false"
   ],
   "note": "Proved for any number of sections (c97_sections_partial) and for two parts with directives in the second (c97_two_partial). False when sections share a reference label: the definition stands only in the first one (c97_shared_false); when a directive in the first part is in force in the second (c97_directive_false); and for headings of level 1, 4, 5 and 6 (c97_level_false). HTML at the end of the first part and footnotes: c96_html_false, c96_note_false."
  },
  {
   "property": "C98",
   "status": "proved",
   "theorems": [
    "Hongdown.Props.c98_library",
    "Hongdown.Props.c98_file",
    "Hongdown.Props.c98_program",
    "Hongdown.Props.c98_js"
   ],
   "note": "c98_file and c98_program quantify over every subset of the documented keys and over keys that are not documented. c98_program covers no file, --config, merged layers and files that fail to parse. The TOML text itself is parsed by a library that is not modelled."
  },
  {
   "property": "C99",
   "status": "partial",
   "theorems": [
    "Hongdown.Props.c99_settings_partial",
    "Hongdown.Props.c99_run_partial",
    "Hongdown.Props.c99_trailing_false"
   ],
   "note": "Proved for all documents, for the whole result, with `trailing_spaces` counted for ordered lists in descriptions too; that it should be for unordered lists alone is false (`c99_trailing_false`)."
  },
  {
   "property": "C100",
   "status": "partial",
   "theorems": [
    "Hongdown.Props.c100_end_partial",
    "Hongdown.Props.c100_start_false",
    "Hongdown.Props.c100_wide_false",
    "Hongdown.Props.c100_ignored"
   ],
   "note": "Padding after the number proved for numbers that fit; `pad = \"start\"` is documented, but not implemented (`c100_start_false`, `c100_ignored`), and long numbers are not aligned (`c100_wide_false`)."
  },
  {
   "property": "C101",
   "status": "partial",
   "theorems": [
    "Hongdown.Props.c101_document_partial",
    "Hongdown.Props.c101_block_partial",
    "Hongdown.Props.c101_item_false",
    "Hongdown.Props.c101_front_matter_false",
    "Hongdown.Props.c101_notes_partial",
    "Hongdown.Props.c101_note_false",
    "Hongdown.Props.c101_sentence_partial"
   ],
   "note": "c101_document_partial: without footnotes and disable-file, heading sentence case off if the last block is a heading, URLs that do not end with a line break. c101_block_partial: the same for one block in any state outside lists. c101_sentence_partial: headings with number signs in sentence case. c101_item_false: a list whose last item ends with a heading ends with a blank line. c101_front_matter_false: so does a file with front matter only. With footnotes of one paragraph, whose definitions may come last: c101_notes_partial; false with a footnote of an empty quote (c101_note_false)."
  },
  {
   "property": "C102",
   "status": "partial",
   "theorems": [
    "Hongdown.Props.c102_kept",
    "Hongdown.Props.c102_end_partial",
    "Hongdown.Props.c102_which",
    "Hongdown.Props.c102_end_false",
    "Hongdown.Props.c102_link_false"
   ],
   "note": "Kept character for character everywhere at the top of a document, and at the end if they are the last blocks. False: definitions before other blocks are not moved to the end (`c102_end_false`), and a link definition used only in such a paragraph is lost (`c102_link_false`). c102_which: which paragraphs count as definitions, and that all others are formatted."
  },
  {
   "property": "C103",
   "status": "partial",
   "theorems": [
    "Hongdown.Props.c103_program_partial",
    "Hongdown.Props.c103_documents_partial",
    "Hongdown.Props.c103_false"
   ],
   "note": "Proved for files on which formatting is idempotent (`c103_program_partial`), in particular those of the fragment of C82 (`c103_documents_partial`). False in general (`c103_false`): a list directly after the code block of an item gets another blank line in the second run."
  },
  {
   "property": "C104",
   "status": "partial",
   "theorems": [
    "Hongdown.Props.c104_same",
    "Hongdown.Props.c104_windows",
    "Hongdown.Props.c104_unix_partial",
    "Hongdown.Props.c104_check_partial",
    "Hongdown.Props.c104_parser",
    "Hongdown.Props.c104_check_false",
    "Hongdown.Props.c104_front_false"
   ],
   "note": "c104_same: for the same tree, all of the result is the same whichever line ends the source has (for sources without two carriage returns before a line feed). c104_windows: so is the result of the formatter, given that the parser reads both alike. c104_unix_partial: no carriage return in the output for files in the fragment of C82; c104_check_partial: --check fails for such files with CRLF. False in general: c104_front_false (front matter keeps CRLF), c104_check_false (a formatted file with CRLF does not pass --check). c25_windows_false is the consequence for disabled regions."
  },
  {
   "property": "C105",
   "status": "partial",
   "theorems": [
    "Hongdown.Props.c105_scope_partial",
    "Hongdown.Props.c105_plain_partial",
    "Hongdown.Props.c105_heading_false",
    "Hongdown.Props.c105_code_heading_false"
   ],
   "note": "The comparison is for all well-placed documents. Missing: headings in sentence case curl double quotation marks although the setting is off (c105_heading_false), and in code that has a backquote in it they change the code (c105_code_heading_false)."
  },
  {
   "property": "C106",
   "status": "partial",
   "theorems": [
    "Hongdown.Props.c106_curled_partial",
    "Hongdown.Props.c106_quotation_partial",
    "Hongdown.Props.c106_end_false",
    "Hongdown.Props.c106_after_quotation_false",
    "Hongdown.Props.c106_style_false",
    "Hongdown.Props.c106_leading_false"
   ],
   "note": "Apostrophes in words, possessives, and at the end of words before white space with no mark before them are curled; quotations stay straight. Missing: at the end of words before punctuation (c106_end_false) and after an apostrophe at the beginning of a word (c106_after_quotation_false) the apostrophe stays straight; at the beginning of a word it is left, or taken for an opening mark (c106_style_false, an example of STYLE.md, and c106_leading_false); texts with dashes or ellipses are left out as in C95."
  },
  {
   "property": "C107",
   "status": "partial",
   "theorems": [
    "Hongdown.Props.c107_quotation_partial",
    "Hongdown.Props.c107_long_false",
    "Hongdown.Props.c107_digit_false",
    "Hongdown.Props.c107_inner_false"
   ],
   "note": "Proved for quotations of fewer than fifty characters that begin with a letter, with apostrophes of words around and inside. Missing: longer ones (c107_long_false: the first mark becomes a closing one and the second stays straight), those that begin with a digit (c107_digit_false), those with a plural possessive inside (c107_inner_false)."
  },
  {
   "property": "C108",
   "status": "partial",
   "theorems": [
    "Hongdown.Props.c108_text",
    "Hongdown.Props.c108_paragraph_partial",
    "Hongdown.Props.c108_heading_link_false",
    "Hongdown.Props.c108_reference_false"
   ],
   "note": "For text nodes proved without conditions; for paragraphs of text and line breaks outside of lists and quotes, whose lines do not begin with blanks. False of the text of links in headings (c108_heading_link_false) and of reference links (c108_reference_false), which are not escaped."
  },
  {
   "property": "C109",
   "status": "partial",
   "theorems": [
    "Hongdown.Props.c109_prose_partial",
    "Hongdown.Props.c109_bracket_false",
    "Hongdown.Props.c109_backquote_false",
    "Hongdown.Props.c109_code_partial",
    "Hongdown.Props.c109_double_false"
   ],
   "note": "c109_prose_partial: text without backquotes and opening brackets; a line over the width is the prefix and one word. c109_code_partial: a span between single backquotes on one source line is an infix of the result, blanks included. False of the code: an opening bracket that is not closed, or a single backquote of text (written \\`), switches wrapping off for the rest of the paragraph (c109_bracket_false, c109_backquote_false); spans between two backquotes can be broken at two blanks, of which one is lost (c109_double_false)."
  },
  {
   "property": "C110",
   "status": "partial",
   "theorems": [
    "Hongdown.Props.c110_paragraphs_partial",
    "Hongdown.Props.c110_nested_false",
    "Hongdown.Props.c110_code_false",
    "Hongdown.Props.c110_table_false",
    "Hongdown.Props.c110_in_quote_false",
    "Hongdown.Props.c110_after_false"
   ],
   "note": "c110_paragraphs_partial: a quote of paragraphs in an item outside of quotes, with the exact text. False of the code: quotes, code and tables in such a quote are written in column zero and leave the item (c110_nested_false, c110_code_false, c110_table_false); a quote in an item of a list in a quote gets one mark too many after a blank line without a mark (c110_in_quote_false); two blank lines follow a quote in an item (c110_after_false)."
  },
  {
   "property": "C111",
   "status": "partial",
   "theorems": [
    "Hongdown.Props.c111_write_partial",
    "Hongdown.Props.c111_check_partial",
    "Hongdown.Props.c111_arguments_partial"
   ],
   "note": "c111_write_partial, c111_check_partial: ordinary patterns that are valid, a tree that can be read where it is searched, workers that get enough turns, and for --write no write errors; for blank patterns see c93_blank_false. c111_arguments_partial: arguments that name no file twice (see c68_once_false and c68_race_false for the rest). exProject_run shows that the hypotheses hold for a project with six entries."
  },
  {
   "property": "C112",
   "status": "partial",
   "theorems": [
    "Hongdown.Props.c112_blank_partial",
    "Hongdown.Props.c112_list_partial",
    "Hongdown.Props.c112_codes_false",
    "Hongdown.Props.c112_list_code_false",
    "Hongdown.Props.c112_code_quote_false"
   ],
   "note": "c112_blank_partial: a paragraph and then a paragraph or a code block, and a code block or a list and then a paragraph, in items outside of quotes; c112_list_partial: a list after a paragraph. False of the code: two blank lines before a code block or a quote that follows a code block or a list (c112_codes_false, c112_list_code_false, c112_code_quote_false) and after a quote (c110_after_false)."
  },
  {
   "property": "C113",
   "status": "partial",
   "theorems": [
    "Hongdown.Props.c113_off_partial",
    "Hongdown.Props.c113_defined_partial",
    "Hongdown.Props.c113_enable_false",
    "Hongdown.Props.c113_html_false",
    "Hongdown.Props.c113_note_false",
    "Hongdown.Props.c113_notes_partial",
    "Hongdown.Props.c113_late_false",
    "Hongdown.Props.c113_directives_partial"
   ],
   "note": "c113_off_partial, c113_defined_partial, c113_directives_partial (other directives before): without footnotes and with no HTML block right before the directive. False of the directive that turns formatting on (c113_enable_false), with an HTML block right before (c113_html_false) and of footnotes defined in the region, which leave it (c113_note_false). c113_notes_partial: every footnote that is first referenced before the directive, wherever it is defined, stands above it; not so those that are only defined before it (c113_late_false)."
  }
 ]
}