{"id": "C01", "title": "Escaping plain text loses nothing", "statement": "Let t be any text that reaches the serializer without source positions. Reading escape_text(t) back with CommonMark's backslash rule (a backslash before ASCII punctuation stands for that character, any other backslash is literal) gives exactly t.", "quantifier": "all strings t", "why_tests_cant": "Tests sample a handful of strings; the claim covers every string, including adjacent brackets and runs of backslashes.", "anchors": ["src/serializer/escape.rs:10-71"]}
{"id": "C02", "title": "Escaped text contains no live emphasis or code delimiter", "statement": "In escape_text(t) every *, _ and ` is preceded by an odd-length run of backslashes, so none of them can open or close emphasis, strong emphasis or a code span.", "quantifier": "all strings t", "why_tests_cant": "The parity of a backslash run depends on unbounded context; examples cannot cover all run lengths.", "anchors": ["src/serializer/escape.rs:10-71"]}
{"id": "C03", "title": "Code spans read back as the literal they were made from", "statement": "Parsing format_code_span(c) with the CommonMark code-span rule (opening run of n backticks, first following run of exactly n closes, one space stripped from both ends when both ends are spaces and the content is not all spaces) consumes the whole string and yields c, for every newline-free c.", "quantifier": "all newline-free strings c", "why_tests_cant": "Needs every arrangement of backtick runs and edge spaces. (False for contents that begin and end with a space, such as ' a '.)", "anchors": ["src/serializer/escape.rs:73-116"]}
{"id": "C04", "title": "A source slice is accepted as a code span only if its ends match", "statement": "is_valid_code_span(s) is true exactly when s starts with n>=1 backticks, ends with exactly n backticks, and the two runs do not overlap by the byte-length test; the output of format_code_span is always accepted when the content is non-empty.", "quantifier": "all strings s and contents c", "why_tests_cant": "Quantifies over all delimiters and contents.", "anchors": ["src/serializer/escape.rs:118-137", "src/serializer/inline.rs:52-67"]}
{"id": "C05", "title": "Table cell escaping leaves no live pipe and is idempotent", "statement": "In escape_table_cell(s) no | is live under GFM scanning (backslash followed by a character is skipped as a pair), applying it twice equals applying it once, it leaves text without live pipes unchanged, and deleting the added backslashes gives s back.", "quantifier": "all strings s", "why_tests_cant": "Depends on the parity of every backslash run before every pipe.", "anchors": ["src/serializer/escape.rs:139-164", "src/serializer/table.rs:36-38"]}
{"id": "C06", "title": "Ellipsis conversion", "statement": "transform_ellipsis replaces dots only: expanding each U+2026 back to ... recovers the input (when the input had none). A further pass changes nothing exactly when no maximal run of dots has length >= 6 and congruent to 2 modulo 4; otherwise '...' remains in the output and format is not idempotent on it.", "quantifier": "all strings", "why_tests_cant": "Requires reasoning over arbitrarily long runs; the failing lengths 6, 10, 14, ... are an infinite family.", "anchors": ["src/serializer/punctuation.rs:117-144"]}
{"id": "C07", "title": "Dash conversion is complete and idempotent", "statement": "For a pattern of two or more printable ASCII characters, the pattern does not occur in the output, a second pass changes nothing, and replacing each new dash by the pattern recovers the input (when it had no such dash). For a single-character pattern only occurrences bounded by whitespace or the text ends are replaced, all of them are, and the pass is idempotent.", "quantifier": "all strings, all valid dash patterns, either replacement dash", "why_tests_cant": "Overlapping partial matches such as '---' with '--' occur in unboundedly many shapes.", "anchors": ["src/serializer/punctuation.rs:392-435", "src/config.rs:798-812"]}
{"id": "C08", "title": "Double quotes are all curled, nothing else is touched", "statement": "transform_double_quotes keeps the length and every character other than the straight double quote, maps each straight double quote to U+201C or U+201D, leaves none, and is idempotent.", "quantifier": "all strings", "why_tests_cant": "Every position and neighbourhood of quotes must be covered.", "anchors": ["src/serializer/punctuation.rs:146-170", "src/serializer/punctuation.rs:437-487"]}
{"id": "C09", "title": "Single quotes and apostrophes change only quote characters, and a second pass is stable", "statement": "transform_single_quotes and transform_apostrophes keep the length and every character other than the straight single quote, map each of those to itself, U+2018 or U+2019, and applying each twice equals applying it once.", "quantifier": "all strings", "why_tests_cant": "The stability part is false (a'' becomes a'’, then a‘’); tests did not find it because they use well-formed prose.", "anchors": ["src/serializer/punctuation.rs:172-390"]}
{"id": "C10", "title": "Punctuation conversion preserves the text up to typography", "statement": "If curly quotes are folded to straight ones, U+2026 to '...', the em dash to the em pattern and the en dash to the en pattern, then transform_punctuation(t) and t fold to the same string; with every conversion switched off the result is t itself.", "quantifier": "all strings t, all option combinations with valid dash patterns", "why_tests_cant": "2^4 switches times all patterns times all texts.", "anchors": ["src/serializer/punctuation.rs:71-115"]}
{"id": "C11", "title": "Wrapping keeps every visible character in order", "statement": "For wrap_text and wrap_text_first_line with an empty prefix, deleting whitespace and soft-break markers from the output gives the same characters as deleting them from the input; for a general prefix the same holds after removing the prefix from each line. No word is split: the sequence of words is the same.", "quantifier": "all texts, prefixes and widths", "why_tests_cant": "A wrapping bug shows only for particular combinations of widths, spaces, brackets and backticks. (The no-split part is false for text with a leading space: ' foo' becomes 'f oo'.)", "anchors": ["src/serializer/wrap.rs:13-368"]}
{"id": "C12", "title": "Wrapped lines fit the width unless one unbreakable token is too long", "statement": "Every line produced by wrap_single_segment has display width at most line_width, or consists of the prefix and one unbreakable token (a word, a backtick region or a bracket region); no line produced by breaking ends in a space.", "quantifier": "all texts, prefixes, widths, and all subadditive width functions", "why_tests_cant": "Depends on the exact interleaving of token widths.", "anchors": ["src/serializer/wrap.rs:205-368"]}
{"id": "C13", "title": "Hard line breaks survive wrapping", "statement": "wrap_text produces exactly as many '  \\n' hard breaks as the text has newlines, each at the place of the original one, and lines between soft breaks that already fit are kept as they were.", "quantifier": "all texts, prefixes and widths", "why_tests_cant": "Tests cover one or two hard breaks.", "anchors": ["src/serializer/wrap.rs:13-89"]}
{"id": "C14", "title": "Wrapping is stable", "statement": "Reading the output of wrap_text back as a paragraph (newlines become soft breaks) and wrapping again with the same width gives the same output.", "quantifier": "all texts and widths", "why_tests_cant": "Idempotence over all texts; it fails for double spaces at a line end followed by an overlong token, and holds for single-spaced text.", "anchors": ["src/serializer/wrap.rs:40-89", "src/serializer/wrap.rs:205-368"]}
{"id": "C15", "title": "Fenced code blocks read back with the same content", "statement": "For a top-level code block, parsing the output of serialize_code_block with the CommonMark fenced-code rule gives one code block whose lines are the lines of the (possibly formatted) literal and whose info string is the emitted one, and leaves nothing over.", "quantifier": "all literals, all fence characters, minimum lengths >= 3, info strings without newline (and without backtick for backtick fences)", "why_tests_cant": "Content may contain fence runs of any length at any indentation.", "anchors": ["src/serializer/code.rs:140-220"]}
{"id": "C16", "title": "Indented code blocks in list items and definition lists read back with the same content", "statement": "The same holds for serialize_code_block_indented and serialize_code_block_with_indent after removing the given indentation from each non-empty line.", "quantifier": "all literals, indents, fence settings", "why_tests_cant": "The definition-list variant picks only between two fence lengths, so it is false for contents with longer runs; tests use short contents.", "anchors": ["src/serializer/code.rs:78-138", "src/serializer/code.rs:222-306"]}
{"id": "C17", "title": "A failing code formatter never changes the code", "statement": "If no formatter is configured for the language, or hongdown-no-format is among the info words, or the formatter returns an error, the emitted content lines are those of the original literal; in the error case exactly one warning is added, otherwise none; on success the emitted lines are the formatter's. The formatter is never invoked when hongdown-no-format is present.", "quantifier": "all literals, info strings, formatter outcomes", "why_tests_cant": "The outcome of an external process is arbitrary.", "anchors": ["src/serializer/code.rs:10-76", "src/serializer/code.rs:140-168"]}
{"id": "C18", "title": "Each reference label is defined at most once in a document, and every used label is defined", "statement": "Along any run of add_reference and flush operations ending with the final flushes, no label is written twice, and every label that was ever added has been written by the end.", "quantifier": "all sequences of serializer operations, hence all documents", "why_tests_cant": "Any number of sections, in any order, inside and outside footnotes.", "anchors": ["src/serializer/state.rs:445-459", "src/serializer/mod.rs:178-262", "src/serializer/mod.rs:353-400"]}
{"id": "C19", "title": "A reference link keeps its target", "statement": "If a link is written as a reference with some label, the definition written for that label carries that link's URL and title.", "quantifier": "all documents", "why_tests_cant": "Only visible when two links share text but not URL; false in the code: the last definition before a flush wins, and later ones are dropped.", "anchors": ["src/serializer/state.rs:448-459", "src/serializer/mod.rs:178-192", "src/serializer/link.rs:70-88"]}
{"id": "C20", "title": "Order of reference definitions", "statement": "flush_references writes a permutation of the not-yet-emitted pending references: in insertion order when fewer than two labels are numeric, otherwise non-numeric labels first in insertion order and then numeric ones by increasing number, ties in insertion order.", "quantifier": "all pending maps and emitted sets", "why_tests_cant": "Sorting stability and the threshold need all lists.", "anchors": ["src/serializer/mod.rs:178-246"]}
{"id": "C21", "title": "Footnotes are flushed exactly once and only after their reference", "statement": "flush_footnotes_before(Some l) writes exactly the pending, not yet emitted footnotes whose reference line is >0 and <l and keeps the others in order; a final flush leaves none pending. Over any run of adds and flushes no footnote is written twice, and each added footnote has been written after the final flush.", "quantifier": "all footnote sets, lines, and operation sequences", "why_tests_cant": "Order and grouping depend on all line positions.", "anchors": ["src/serializer/mod.rs:264-351", "src/serializer/state.rs:141-187"]}
{"id": "C22", "title": "Writing a footnote keeps its words and never fails", "statement": "write_footnote (inline content) writes the words of the content in order, single-spaced, lines within line_width unless a single word is too long, and its width computation does not underflow.", "quantifier": "all names, contents, widths >= 8", "why_tests_cant": "The underflow part is false for names longer than the width, which tests do not use.", "anchors": ["src/serializer/mod.rs:402-481"]}
{"id": "C23", "title": "Directive recognition", "statement": "Directive::parse(h) returns a directive exactly for HTML comments whose trimmed body is one of the five keywords or starts with one of the two noun-list keywords; the noun lists are the comma-separated, trimmed, non-empty parts; any other text gives None.", "quantifier": "all strings h", "why_tests_cant": "The exact language accepted, not samples of it.", "anchors": ["src/serializer/state.rs:48-91"]}
{"id": "C24", "title": "hongdown-disable-file leaves the rest of the file alone", "statement": "When a document reaches a disable-file directive ending at line n, the output after the directive is byte-for-byte the lines n+1.. of the source joined with newlines, with a final newline iff the source had one.", "quantifier": "all documents with such a directive, all options", "why_tests_cant": "All following content, however malformed.", "anchors": ["src/serializer/document.rs:51-71", "src/serializer/state.rs:416-438"]}
{"id": "C25", "title": "Disabled regions are reproduced verbatim", "statement": "Every top-level block between hongdown-disable and the next hongdown-enable (or the end) is written exactly as its source slice plus a newline. Likewise the block after disable-next-line and the blocks after disable-next-section up to the next heading of level <= 2.", "quantifier": "all documents and block sequences", "why_tests_cant": "False when a disable-next-line directive appears inside a disabled region (it re-enables formatting after one block); needs all directive interleavings.", "anchors": ["src/serializer/document.rs:35-224"]}
{"id": "C26", "title": "Warnings are suppressed exactly where formatting is", "statement": "A line is in collect_disabled_line_ranges exactly when the block at that line is skipped by the directive state machine.", "quantifier": "all directive sequences", "why_tests_cant": "The two computations are written separately and disagree on mixed directives.", "anchors": ["src/serializer/document.rs:594-678", "src/serializer/document.rs:35-224"]}
{"id": "C27", "title": "Tables come out aligned", "statement": "All rows written by serialize_table for a rectangular table have the same display width and the same number of live pipes (columns + 1), and cell i of each row starts at the same column.", "quantifier": "all cell contents, alignments and column counts", "why_tests_cant": "All contents and widths at once.", "anchors": ["src/serializer/table.rs:10-116", "src/serializer/table.rs:186-212"]}
{"id": "C28", "title": "The delimiter row encodes the alignments", "statement": "Splitting the delimiter row at pipes and reading each cell with the GFM rule (optional colon, at least one hyphen, optional colon) gives back the alignments; each cell has at least three characters; splitting a content row at live pipes and trimming gives back the escaped cell contents.", "quantifier": "all alignments and widths", "why_tests_cant": "Every column count and width.", "anchors": ["src/serializer/table.rs:48-98"]}
{"id": "C29", "title": "Pipe counting and the column-mismatch warning", "statement": "A warning is added for a source line of a table exactly when it is not a separator line and its number of pipes not preceded by a backslash is above columns+1 or below columns; escape_table_cell output contributes zero to that count.", "quantifier": "all lines and column counts", "why_tests_cant": "All lines.", "anchors": ["src/serializer/table.rs:122-183", "src/serializer/table.rs:214-228"]}
{"id": "C30", "title": "Configuration values outside their ranges are unrepresentable", "statement": "LeadingSpaces::new and TrailingSpaces::new succeed exactly for 0..3, IndentWidth::new exactly for >=1, LineWidth::new exactly for >=8, MinFenceLength::new exactly for >=3, and return the value given; DashPattern::new exactly for non-empty printable ASCII strings.", "quantifier": "all numbers and strings", "why_tests_cant": "All values, including the boundaries on both sides.", "anchors": ["src/config.rs:236-430", "src/config.rs:580-625", "src/config.rs:789-818"]}
{"id": "C31", "title": "Accepted thematic break styles are CommonMark thematic breaks", "statement": "If ThematicBreakStyle::new(s) succeeds then the line written for a thematic break (0-3 spaces followed by s) is a CommonMark thematic break.", "quantifier": "all strings s and leading space counts", "why_tests_cant": "False for '---*' and for styles with a leading space; requires the whole accepted language.", "anchors": ["src/config.rs:662-742", "src/serializer/document.rs:861-878"]}
{"id": "C32", "title": "Cascading configuration: the highest-priority layer that sets a field wins", "statement": "For every field, load_cascading returns the value of the last layer (system, legacy user, XDG user, project) that sets it, or the default; if the project sets no_inherit, lower layers have no effect.", "quantifier": "all combinations of layers", "why_tests_cant": "All subsets of fields in four layers. The no_inherit part is false when a lower layer fails to load: the whole load fails.", "anchors": ["src/config.rs:124-175", "src/config.rs:970-1068"]}
{"id": "C33", "title": "Nested settings inherit field by field", "statement": "A layer that sets one key of a section (for example heading.setext_h1) leaves the other keys of that section as lower layers set them.", "quantifier": "all layer pairs", "why_tests_cant": "Documented as field-level override; false in the code, where a section replaces the whole section.", "anchors": ["src/config.rs:81-85", "src/config.rs:155-172"]}
{"id": "C34", "title": "Dash settings are rejected exactly when they conflict", "statement": "validate_dash_settings fails exactly when both dashes are enabled with the same pattern; when it succeeds and no pattern contains the other, both conversions can take effect.", "quantifier": "all settings", "why_tests_cant": "All pairs of patterns.", "anchors": ["src/serializer/punctuation.rs:58-69", "src/main.rs:111-115"]}
{"id": "C35", "title": "Check mode never writes and its exit code is exact", "statement": "With --check no file changes; the exit code is success exactly when every file can be read and equals its formatted form, for every scheduling of the parallel workers.", "quantifier": "all file sets, contents, read failures and interleavings", "why_tests_cant": "Thread interleavings cannot be enumerated by tests.", "anchors": ["src/main.rs:189-250"]}
{"id": "C36", "title": "Write mode writes exactly the files that differ", "statement": "With --write a file is written exactly when it is readable and differs from its formatted form, with that form; other files are unchanged; the exit code is failure exactly when some read or needed write failed. If formatting is idempotent, a following --check succeeds.", "quantifier": "all file sets, interleavings", "why_tests_cant": "Same.", "anchors": ["src/main.rs:189-250"]}
{"id": "C37", "title": "Sequential modes stop at the first failure", "statement": "In stdout and diff mode the printed output is the concatenation of the outputs of the files before the first unreadable file, the exit code is success exactly when all files are readable, and no file is written. An empty diff is printed for unchanged files.", "quantifier": "all file lists", "why_tests_cant": "All failure positions.", "anchors": ["src/main.rs:252-345"]}
{"id": "C38", "title": "Input selection", "statement": "Without files and without stdin the program fails unless include patterns are configured; `-` or --stdin selects stdin and ignores all files; with stdin the exit code ignores --check.", "quantifier": "all argument combinations", "why_tests_cant": "The full decision table.", "anchors": ["src/main.rs:117-187"]}
{"id": "C39", "title": "Directory expansion", "statement": "expand_paths returns, for each argument in order, the file itself or the sorted list of all files below the directory whose extension is md or markdown in any case, and nothing else.", "quantifier": "all directory trees", "why_tests_cant": "All trees.", "anchors": ["src/main.rs:347-380"]}
{"id": "C40", "title": "Sentence case changes only letter case and quotes", "statement": "Whatever the noun lists, folding case and quotes in to_sentence_case(t) gives the same as folding them in t; code spans are copied verbatim.", "quantifier": "all headings", "why_tests_cant": "All headings, including nested quotes and unclosed spans.", "anchors": ["src/serializer/heading.rs:18-59", "src/serializer/heading.rs:189-295"]}
{"id": "C41", "title": "Sentence case is idempotent", "statement": "to_sentence_case(to_sentence_case(t)) = to_sentence_case(t).", "quantifier": "all headings and noun lists", "why_tests_cant": "Idempotence over all texts.", "anchors": ["src/serializer/heading.rs:18-882"]}
{"id": "C42", "title": "Acronyms, pronoun I and proper nouns", "statement": "process_word_simple keeps acronyms and all-caps words verbatim, maps every case variant of I and its contractions to a form starting with capital I, and maps every case variant of a listed proper noun to its canonical spelling (unless listed as a common noun), keeping surrounding punctuation.", "quantifier": "all words and noun lists", "why_tests_cant": "All words.", "anchors": ["src/serializer/heading.rs:620-882"]}
{"id": "C43", "title": "List markers", "statement": "Item k of an ordered list is written with number k, the delimiter of its nesting parity, and at least one following space, and the marker has the configured width whenever the number fits; bullet items have the configured marker with the configured spaces. The list's start number is preserved.", "quantifier": "all list lengths, depths and options", "why_tests_cant": "All lengths; the start-number part is false.", "anchors": ["src/serializer/list.rs:17-30", "src/serializer/list.rs:101-158"]}
{"id": "C44", "title": "Emphasis delimiters", "statement": "get_emphasis_delimiter returns _ when some text below the node contains *, otherwise _ if the source used it, otherwise *; likewise for strong emphasis.", "quantifier": "all subtrees", "why_tests_cant": "All trees.", "anchors": ["src/serializer/state.rs:466-512"]}
{"id": "C45", "title": "Reference-style link text is unambiguous", "statement": "The text written for a reference link reads back as a reference to the registered label, also when followed by a bracket; a link is shortened to [text] only if text equals the label.", "quantifier": "all texts and labels without brackets", "why_tests_cant": "All labels and following characters.", "anchors": ["src/serializer/link.rs:9-102", "src/serializer/mod.rs:86-164"]}
{"id": "C46", "title": "Setext underlines and ATX markers", "statement": "A heading of level 1 or 2 with setext enabled is written as its text followed by a line of = or - whose length is the display width of the text; otherwise as level many # and a space; reading back gives the same level.", "quantifier": "all texts and levels", "why_tests_cant": "All texts; false for texts of width 0.", "anchors": ["src/serializer/document.rs:421-458"]}
{"id": "C47", "title": "Headings keep all their inline content", "statement": "All text, code, images, footnote references and raw HTML in a heading are present in the output heading.", "quantifier": "all heading subtrees", "why_tests_cant": "False: code spans inside inline links, footnote references, raw HTML and hard breaks in headings are dropped.", "anchors": ["src/serializer/inline.rs:10-120"]}
{"id": "C48", "title": "Serializing a block restores the context and only appends", "statement": "After serialize_node on any block, the list, quote, indentation and description contexts are as before, the previous output is a prefix of the new one, and warnings are only appended.", "quantifier": "all syntax trees, states and options", "why_tests_cant": "All nestings of lists, quotes, footnotes and definition lists.", "anchors": ["src/serializer/block.rs:20-87", "src/serializer/list.rs:32-60", "src/serializer/mod.rs:483-510"]}
{"id": "C49", "title": "Block quotes prefix every line", "statement": "Every line written inside a block quote starts with the outer indentation and one > per nesting level.", "quantifier": "all block quotes", "why_tests_cant": "False for code blocks, tables and thematic breaks in nested quotes, and for loose lists; tests look at one level.", "anchors": ["src/serializer/block.rs:66-87", "src/serializer/code.rs:188-219", "src/serializer/list.rs:76-84"]}
{"id": "C50", "title": "Running a formatter always terminates with the right outcome", "statement": "run_formatter polls until the process exits or the timeout has elapsed: it returns the output exactly when the process exits successfully by the deadline with UTF-8 output, Timeout when it is still running at the first poll at or after the deadline, and performs at most timeout/50ms + 2 polls.", "quantifier": "all process behaviours (exit times, statuses, outputs) and timeouts", "why_tests_cant": "All timings.", "anchors": ["src/serializer/formatter.rs:79-136"]}
{"id": "C51", "title": "JavaScript options always yield valid options", "statement": "JsOptions::to_options gives options in range for every input object: each valid field is used, each invalid numeric, style or dash field falls back to its default (dash patterns to disabled).", "quantifier": "all option objects", "why_tests_cant": "All combinations.", "anchors": ["src/wasm.rs:113-243"]}
{"id": "C52", "title": "Source slicing never cuts a character and never panics", "statement": "For start <= end, safe_str_slice(s, start, end) does not panic, returns whole characters, and covers every byte of s in [start, end).", "quantifier": "all strings and byte offsets", "why_tests_cant": "All multi-byte layouts. (Panics for start > end in some cases.)", "anchors": ["src/serializer/state.rs:198-225"]}
{"id": "C53", "title": "Escaping against the source reads back as the text", "statement": "For text t whose source slice is s, reading escape_text_preserving_source(t, s) back with backslash escapes and entities gives t.", "quantifier": "all t and s that CommonMark relates", "why_tests_cant": "False for source escapes of other punctuation (\\# becomes \\\\#); all texts and sources.", "anchors": ["src/serializer/inline.rs:289-395"]}
{"id": "C54", "title": "Formatting is idempotent and preserves the document on a core fragment", "statement": "For documents made of headings and single-spaced paragraphs of words, code spans, emphasis, images and links with relative addresses, top-level code blocks and thematic breaks, parsing the formatted output (with a reference parser for this fragment) gives the same document, so formatting it again gives the same output.", "quantifier": "all documents of the fragment, all option settings in range", "why_tests_cant": "Unboundedly many documents; requires the parser and serializer together.", "anchors": ["src/lib.rs:207-225", "src/serializer/document.rs:12-233"]}
{"id": "C55", "title": "Empty input formats to empty output", "statement": "format and format_with_warnings return the empty string and no warnings exactly on input for which the parser yields no blocks or the input is empty, and never return an error.", "quantifier": "all inputs", "why_tests_cant": "All inputs.", "anchors": ["src/lib.rs:207-273"]}
{"id": "C56", "title": "Blank lines between blocks", "statement": "Consecutive top-level blocks are separated by exactly one blank line, by two before a level-2 heading that does not follow a heading, and by none beyond the front matter's own; the document never starts with a blank line.", "quantifier": "all block sequences", "why_tests_cant": "False for a document that consists of HTML comments only (output starts with two blank lines); all sequences of block kinds.", "anchors": ["src/serializer/document.rs:170-192", "src/serializer/document.rs:266-293"]}
{"id": "C57", "title": "Trailing HTML blocks come after the definitions", "statement": "The HTML blocks after the last non-HTML, non-footnote block are written after all reference and footnote definitions, in order and verbatim; every other block keeps its relative order.", "quantifier": "all block sequences", "why_tests_cant": "All sequences.", "anchors": ["src/serializer/document.rs:235-293"]}
{"id": "C58", "title": "Escaped text never forms a link", "statement": "escape_text(t) contains no live ] with a live open partner that is directly followed by ( or [, so no inline link, full or collapsed reference can be read from it.", "quantifier": "all strings t", "why_tests_cant": "False: the first brackets of a run stay live, so [[[a]](b) becomes a link; random tests rarely contain three adjacent brackets. True without adjacent opening brackets.", "anchors": ["src/serializer/escape.rs:28-55"]}
{"id": "C59", "title": "Punctuation conversion is idempotent", "statement": "transform_punctuation(transform_punctuation(t)) = transform_punctuation(t).", "quantifier": "all texts and option combinations", "why_tests_cant": "Six passes interact; false for six dots in a row and for adjacent single quotes.", "anchors": ["src/serializer/punctuation.rs:79-115"]}
{"id": "C60", "title": "A wrapped paragraph stays one paragraph", "statement": "If the first word of a paragraph is not a block marker (list marker, heading marker, block quote marker, setext underline), no line of the wrapped paragraph begins with one.", "quantifier": "all texts, prefixes and widths", "why_tests_cant": "Needs a marker-like word to fall exactly on a line break. (False: ' - ' in running text can be wrapped to the beginning of a line.)", "anchors": ["src/serializer/wrap.rs:13-368"]}
{"id": "C61", "title": "Link targets and titles are written so that they read back", "statement": "A reference definition written by write_reference, and the part of an inline link or image after its text, read by the CommonMark grammar, have the destination and title of the link.", "quantifier": "all labels, destinations and titles", "why_tests_cant": "Destinations in angle brackets and escaped quotes are rare in tests. (False: destinations with spaces or unbalanced parentheses and titles with quotation marks are written without escapes.)", "anchors": ["src/serializer/mod.rs:248-262", "src/serializer/link.rs:44-57", "src/serializer/link.rs:140-153"]}
{"id": "C62", "title": "A footnote with several blocks keeps its blocks", "statement": "Reading a footnote definition written by write_footnote for content with blocks (label off the first line, four columns off the others) gives lines none of which is indented code if none of the content was.", "quantifier": "all names and contents", "why_tests_cant": "The indentation is the length of the label; only names of three or more bytes break it. (False.)", "anchors": ["src/serializer/mod.rs:402-425"]}
{"id": "C63", "title": "Definitions used only in disabled blocks are kept", "statement": "Every link that is written as a reference has its definition in the output, also when the block with the link is copied verbatim because formatting is disabled.", "quantifier": "all documents, all blocks, all reference links", "why_tests_cant": "Needs a document whose definitions are used only in a disabled region; the tests always use them elsewhere or do not look at the definitions.", "anchors": ["src/serializer/document.rs:178-212", "src/serializer/document.rs:82-150"]}
{"id": "C64", "title": "Blocks are rendered independently of each other", "statement": "The text that serializing a block appends depends only on the block, the options and the list, quote and description context with the noun lists: not on the output so far, nor on pending references, footnotes, warnings or the skip mode.", "quantifier": "all block trees, all pairs of states with the same context", "why_tests_cant": "A test sees one state per block; interference through leftover state needs particular sequences of blocks.", "anchors": ["src/serializer/mod.rs:512-703", "src/serializer/state.rs:235-288"]}
{"id": "C65", "title": "An invalid configuration stops the program", "statement": "If the configuration file given with --config (or one found by the search) is not valid, the program reports an error and formats nothing (README.md:257-263).", "quantifier": "all files and command lines", "why_tests_cant": "Needs every kind of invalid file and every mode of the program. False: the program only prints a warning and formats with the defaults.", "anchors": ["README.md:257-263", "src/main.rs:394-427"]}
{"id": "C66", "title": "--config bypasses the cascade", "statement": "With --config FILE the configuration depends only on that file: all other configuration files may change without effect, and every setting not in the file has its default; a file given explicitly means the same as the same file found as the project's when there are no others.", "quantifier": "all file systems and paths", "why_tests_cant": "Quantifies over all contents of all other configuration files.", "anchors": ["README.md:181-183", "src/main.rs:396-413", "src/config.rs:939-968"]}
{"id": "C67", "title": "The project file is the nearest one", "statement": "The project configuration is .hongdown.toml of the nearest directory from the current one up to the root that has one; there is none only if no such directory has one.", "quantifier": "all file systems and start directories", "why_tests_cant": "All depths of nesting and positions of files.", "anchors": ["README.md:175-177", "src/config.rs:1045-1060"]}
{"id": "C68", "title": "Overlapping file arguments", "statement": "A file named more than once (twice, or as a file and through its directory) is processed once, and write mode leaves it formatted, as with one mention.", "quantifier": "all file lists with repetitions, all schedules of the workers", "why_tests_cant": "The damage depends on the interleaving of two workers on the same file.", "anchors": ["src/main.rs:189-250", "src/main.rs:347-380"]}
{"id": "C69", "title": "Large code blocks are formatted like small ones", "statement": "If an external formatter reads its input, writes its answer and exits with status 0 within the time limit when nothing blocks it, run_formatter returns that answer, whatever the sizes of code and answer.", "quantifier": "all codes, answers, pipe capacities and interleavings of the two processes", "why_tests_cant": "The failure needs an answer larger than a pipe buffer, and depends on the interleaving of two processes.", "anchors": ["README.md:380-404", "src/serializer/formatter.rs:79-136"]}
{"id": "C70", "title": "Each configuration key sets its own option", "statement": "A configuration file is accepted exactly if every known key that is present has a value of its documented kind and range; each key then sets its own option and missing keys and sections have their documented defaults; the options of the library are those of the configuration.", "quantifier": "all TOML tables", "why_tests_cant": "About thirty keys with ranges; tests cover some keys one at a time.", "anchors": ["README.md:199-262", "src/config.rs:60-900", "src/main.rs:47-90"]}
{"id": "C71", "title": "Emphasis stays emphasis", "statement": "The delimiters written around emphasized content can open and close emphasis by the rules of CommonMark (flanking runs), given the characters around them.", "quantifier": "all subtrees and neighbouring characters", "why_tests_cant": "Depends on the characters on both sides of both delimiters, and on the switch to underscores.", "anchors": ["src/serializer/state.rs:466-498", "src/serializer/inline.rs:145-168"]}
{"id": "C72", "title": "Blocks stand in the column of their item", "statement": "Every block inside a list item is written in the column where the content of the item starts, so that CommonMark reads it as part of the item.", "quantifier": "all items, all kinds of blocks inside, all options in range", "why_tests_cant": "Depends on the number of items, on option combinations and on the kind of block; false for item 100, for widths that do not agree, for code blocks at the start, for block quotes with lists, for headings, tables and breaks.", "anchors": ["src/serializer/list.rs:17-30", "src/serializer/list.rs:171-288"]}
{"id": "C73", "title": "Neighbouring lists stay separate lists", "statement": "Two lists that follow each other in the document do not read as one list after formatting.", "quantifier": "all pairs of lists", "why_tests_cant": "False for two lists of the same type: the source keeps them apart by different markers, the output uses one marker.", "anchors": ["src/serializer/list.rs:121-160", "src/serializer/document.rs:12-233"]}
{"id": "C74", "title": "The style of a link is read from its source", "statement": "A link whose source is written inline stays inline (unless its target is external), and one written as a reference keeps its text and its label; the style is found by matching brackets in the source.", "quantifier": "all link texts, labels and sources, links and images", "why_tests_cant": "Nested and escaped brackets, white space in labels and the three reference forms multiply; false for escaped brackets: of [a\\]b](/u) the b is lost.", "anchors": ["src/serializer/mod.rs:89-164", "src/serializer/inline.rs:185-262", "src/serializer/link.rs:9-56"]}
{"id": "C75", "title": "Source text is taken from the right place", "statement": "The source text extracted for a node is exactly the text between the places where the node begins and ends, over one line or several, and the rest of the file from a line on is the rest of the text.", "quantifier": "all texts, all positions between characters", "why_tests_cant": "Multi-byte characters, first and last columns and line counts all enter; tests use short ASCII lines.", "anchors": ["src/serializer/state.rs:367-438"]}
{"id": "C76", "title": "Sentence case capitalizes the first word and only it", "statement": "The first word of a heading starts with a capital letter after sentence case, and no other word is given a capital unless it is an acronym, the pronoun I or a proper noun.", "quantifier": "all headings and noun lists", "why_tests_cant": "All headings; false for a first word with emphasis and after a leading quotation.", "anchors": ["src/serializer/heading.rs:18-59", "src/serializer/heading.rs:525-617", "README.md:319-327"]}
{"id": "C77", "title": "Sentence case keeps links working", "statement": "Sentence case changes no link target, and no label of a link other than in case; the definitions a heading asks for do not depend on it.", "quantifier": "all headings", "why_tests_cant": "All headings; false: the case of addresses changes, and quotation marks in labels are curled.", "anchors": ["src/serializer/document.rs:421-458", "src/serializer/inline.rs:39-120"]}
{"id": "C78", "title": "A JavaScript code formatter replaces exactly the code it returns text for", "statement": "formatWithCodeFormatter without a formatter gives the output and warnings of formatWithWarnings. With a formatter it gives the output and warnings of formatWithWarnings on the document in which the code of each code block with a language and without the word hongdown-no-format is replaced by the text the formatter returns for it. A block for which the formatter returns null, undefined or a value that is no string, or for which it throws, keeps its code, and the formatter adds no warning.", "quantifier": "all documents, option objects, inputs and functions from language and code to a JavaScript result", "why_tests_cant": "The tests of the package try a few single code blocks at the top level; the statement covers code blocks in lists, quotes, footnotes and definitions, all results of the formatter and the warnings.", "anchors": ["src/wasm.rs:264-405", "src/serializer/code.rs:69-77", "src/serializer/mod.rs:47-84", "packages/wasm/src/index.ts"]}
{"id": "C79", "title": "Formatting loses no text", "statement": "Every text node, code span, code block, HTML block and table cell of a document is in the output, in the order of the document: at any depth in lists, quotes, alerts, definitions and footnotes, and with any line width. Punctuation conversion may replace the marks it is asked to replace and the layout may add characters, but no other character is lost.", "quantifier": "all documents as trees with any source text, all options without code formatters, and all sets of characters punctuation conversion leaves alone", "why_tests_cant": "The tests compare a few hundred small documents with their expected output. Loss of text depends on combinations of nesting, wrapping and inline structure that no fixed set of documents covers; two losses found here (code in an autolink, HTML in a footnote) are not tested.", "anchors": ["src/serializer/document.rs:12-260", "src/serializer/list.rs", "src/serializer/block.rs", "src/serializer/table.rs", "src/serializer/wrap.rs", "src/serializer/inline.rs:122-290", "src/serializer/link.rs:154-216", "src/serializer/mod.rs:629-691"]}
{"id": "C80", "title": "Whole headings in sentence case", "statement": "to_sentence_case(t) is characterised in full: code spans are copied, quotation marks curled, quotations told from text, nouns of several words found (longest first, with word boundaries, ignoring case and apostrophe style, with possessives) and respelled, and every word recased by the rule for words, where only the first word and capitals after a colon, semicolon or dash may start with a capital.", "quantifier": "all headings without U+FFFD and all noun lists", "why_tests_cant": "All texts and noun lists, with overlapping nouns and nested quotations.", "anchors": ["src/serializer/heading.rs:18-59", "src/serializer/heading.rs:189-353", "src/serializer/heading.rs:355-510", "src/serializer/heading.rs:513-668", "README.md:319-327"]}
{"id": "C81", "title": "GitHub alerts keep their kind and title", "statement": "An alert is written with a first line that reads as an alert of the same kind and with the same title, then what is written for a block quote with the same content; an empty quote line after the first line is kept exactly if the source has one.", "quantifier": "all alerts: five kinds, any title, any content, in any list and quote context", "why_tests_cant": "Tests only cover alerts without a title, one kind at a time, and compare whole outputs; none relates an alert to the block quote with the same content.", "anchors": ["src/serializer/block.rs:89-123", "src/serializer/mod.rs:580-582"]}
{"id": "C82", "title": "Documents with nested lists, block quotes, alerts and tables read back as the same document", "statement": "A document of headings and paragraphs of words, code spans, emphasis, images, links with relative addresses and shortcut links, link definitions, fenced code blocks, thematic breaks, bullet and ordered lists nested to any depth, block quotes and GitHub alerts of such blocks and tables, written by the formatter and read by a CommonMark reader, is the same document: same blocks, same words, same code spans and emphasis, same images and links to the same addresses with the same titles, same code, same nesting, same tight and loose lists, same kinds of alerts, same cells and alignments. Formatting it again changes nothing.", "quantifier": "all documents that the reader accepts (any nesting depth, any number of items and blocks), all widths and line widths, all options with list markers four columns wide, all trees that agree with the source", "why_tests_cant": "The nesting is unbounded, and whether a line belongs to an item, to a list after it or to a paragraph before it depends on its column and on everything around it; a table of expected outputs shows a handful of shapes. Blank lines that make a tight list loose on reading back only show when the output is parsed again.", "anchors": ["src/serializer/list.rs", "src/serializer/document.rs", "src/serializer/code.rs", "src/serializer/wrap.rs", "src/serializer/block.rs", "src/serializer/table.rs", "src/lib.rs"]}
{"id": "C83", "title": "Every line of a paragraph in a formatted document fits the line width", "statement": "In the output of formatting a document, every line of every paragraph takes up at most `line_width` columns, indentation included, or is a single word, where a code span counts as part of a word.", "quantifier": "all documents of headings, paragraphs, code blocks, thematic breaks, block quotes of them, tables and nested lists, all trees a parser may give for them, all options in range, all ways to measure text that add up over spaces", "why_tests_cant": "A test checks a handful of texts at one or two widths; whether any text at any depth of nesting overflows is a statement about all of them.", "anchors": ["src/serializer/document.rs:457-530", "src/serializer/wrap.rs:13-199", "src/serializer/list.rs:110-290"]}
{"id": "C84", "title": "Paragraphs that fit the line width keep their line breaks", "statement": "If all lines of the paragraphs of a document fit the line width where they will stand, formatting moves no line break in a paragraph.", "quantifier": "all documents of headings, paragraphs, code blocks, thematic breaks, block quotes of them, tables and nested lists, all trees a parser may give for them, all options in range, all ways to measure text that add up over spaces", "why_tests_cant": "Tests show that some short paragraphs stay; that none is ever rewrapped needlessly, at any depth, for any width, cannot be shown by examples.", "anchors": ["src/serializer/wrap.rs:40-89", "src/serializer/wrap.rs:137-199", "src/serializer/document.rs:457-530"]}
{"id": "C85", "title": "An item reads as a task only if it is one", "statement": "In the formatted document, the first line of a list item reads as a task item (a check box `[ ]` or `[x]` and a space after the list marker) exactly if the item was a task item, and with the same mark.", "quantifier": "all list items that begin with a paragraph, all list kinds, nesting depths and option settings, all inline content", "why_tests_cant": "The check box is plain text in the output, so every way in which an ordinary item can begin with brackets is a potential clash; unit tests only look at real task items.", "anchors": ["src/serializer/list.rs:69-310", "src/serializer/link.rs:1-200"]}
{"id": "C86", "title": "References without a definition are reported", "statement": "Every reference `[text]`, `[text][]` or `[text][label]` in the prose of a document whose label the document does not define is reported once, with its line and label, and nothing else is: neither footnotes and alerts, nor abbreviations, nor escaped brackets, nor text in code and HTML.", "quantifier": "all document trees without directives, all source texts", "why_tests_cant": "The check matches texts of the tree against lines of the source by regular expressions; a test covers one pattern on one line, and not what the other lines or an earlier occurrence of the same text do to it.", "anchors": ["src/serializer/document.rs:555-592", "src/serializer/document.rs:680-836", "src/serializer/document.rs:838-859"]}
{"id": "C87", "title": "Footnotes stand in the section that first refers to them", "statement": "At every heading of level 2 or 3 other than the first block, the output splits into a part before and a part after the heading such that each footnote whose first reference (in document order) is on an earlier line than the heading is written in the first part, and each footnote first referenced on the heading's line or later is written in the second, with its label, its text and its continuation indentation; wherever its definition stood in the source.", "quantifier": "all documents without directives, code formatters and nested footnote definitions, all split headings, all footnotes with text", "why_tests_cant": "Which part a footnote lands in depends on the lines of all references, of all headings and on the order in which pending footnotes are flushed; a footnote that only another footnote refers to lands in a section that depends on where the other one's definition was in the source, so a second run moves it.", "anchors": ["src/serializer/document.rs:170-192", "src/serializer/mod.rs:264-300", "src/serializer/mod.rs:362-480", "src/serializer/state.rs:141-187"]}
{"id": "C88", "title": "Layout of description lists", "statement": "A description list is written as its items with one blank line between them (with the markers of the quote inside a block quote); an item is its term, followed directly by its descriptions; each description starts with `:   ` (STYLE.md) and all of its other lines are blank or indented by the four columns of that marker, so that they still belong to it. A description of paragraphs is laid out exactly like an item of a bullet list with another marker.", "quantifier": "for all options, all description lists and all descriptions of paragraphs, code blocks and lists nested to any depth", "why_tests_cant": "Tests cover single short descriptions. The indentation comes from five different places (details, items, continuation lines, two code block writers) that have to agree for every nesting and every wrapped line, in and out of quotes.", "anchors": ["src/serializer/document.rs:295-419", "src/serializer/mod.rs:553-574", "src/serializer/list.rs:88-191", "src/serializer/code.rs:79-138"]}
{"id": "C89", "title": "The text of a footnote with several blocks", "statement": "A footnote at the top of the document with a code block, a quote, a list or a table, or with several paragraphs, is written as its label followed by the texts its blocks have on their own, one blank line apart, with the lines after the first indented as far as the label is long; any other footnote is its inline words filled into lines; and a reader gets the same blocks back.", "quantifier": "All trees whose footnote definitions are at the top with different names and whose blocks are not empty, all options, no disable-file directive.", "why_tests_cant": "The tests of footnotes (src/serializer/tests.rs) have a handful of names and blocks; code as the first block and nouns declared by directives are not among them.", "anchors": ["src/serializer/mod.rs:403-510", "src/serializer/mod.rs:629-691", "src/serializer/document.rs"]}
{"id": "C90", "title": "Quotation marks do not depend on where a text is divided", "statement": "The quotation marks of a paragraph come out the same whether its words stand on one source line or on several, and whether or not a part of them is emphasised; in particular curly marks come in pairs.", "quantifier": "All texts in which every double quotation mark stands clearly at the beginning or at the end of a quotation, divided at blanks, or at markup that does not touch a quotation mark. For emphasis right inside a quotation, and for single quotation marks over a line break, the statement is false.", "why_tests_cant": "The punctuation tests (src/serializer/punctuation.rs) convert whole strings; none has a quotation that runs over a line break or ends with markup.", "anchors": ["src/serializer/inline.rs:41-51", "src/serializer/inline.rs:134-144", "src/serializer/punctuation.rs:147-290", "src/serializer/punctuation.rs:438-490"]}
{"id": "C91", "title": "Inline links to other sites become references that lead to the same address", "statement": "An inline link whose address starts with `http://` or `https://` is written as a reference by its text, whether it stands in a paragraph, a list item, a block quote, a table or a heading; the formatted document defines that text with the address the link had, every other reference leads where it led, the rest of the document is read as the same blocks, and formatting again changes nothing.", "quantifier": "All documents of the fragment of C82 whose links to other sites have no titles and are not in emphasis, all parse trees of them, all settings of the quotation marks. Links with the same text must have the same address; without that the statement is false.", "why_tests_cant": "The tests of links (src/serializer/tests.rs) have one or two links each. Definitions are kept in a map by text, so whether a link is still right depends on every other link and definition of the document and on the places where they are written.", "anchors": ["src/serializer/link.rs:10-102", "src/serializer/state.rs:420-470", "src/serializer/inline.rs:68-105", "src/serializer/document.rs:140-200"]}
{"id": "C92", "title": "Lines end in white space only at hard line breaks", "statement": "In a formatted document every line is empty, or ends in a character that is no white space, or ends in exactly the two spaces of a hard line break; in a document without hard line breaks no line ends in white space at all. This holds for documents in which the source after directives that turn formatting off has no other lines, footnotes are one paragraph with something to see in it, list items begin with text, descriptions do not begin with code, headings are not empty, hard line breaks do not follow one another, and code and HTML themselves have no such lines.", "quantifier": "for all options whose markers are visible, all document trees of that kind and all display widths", "why_tests_cant": "A test compares a few whole outputs; trailing spaces come from combinations of container prefixes (`> `, indentation, markers) with empty content, and there are unboundedly many combinations of containers, of lines that are empty and of lines that wrap.", "anchors": ["src/serializer/wrap.rs:1-330", "src/serializer/code.rs:139-306", "src/serializer/list.rs:1-330", "src/serializer/block.rs:1-140", "src/serializer/document.rs:295-419"]}
{"id": "C93", "title": "Files found by include and exclude patterns", "statement": "Without arguments the program formats exactly the files that some include pattern matches, that no exclude pattern matches, and whose directories are neither excluded nor left out by an ignore file; each once, in the order of paths. The search fails exactly if a pattern is malformed or a directory to be searched cannot be read.", "quantifier": "for every tree of files, every list of patterns and every way in which patterns match and ignore files decide", "why_tests_cant": "The tests search a directory with two or three files and one pattern; they cannot cover all trees, orders of patterns and combinations with ignore files.", "anchors": ["src/config.rs:1075-1125", "src/main.rs:120-132", "README.md:206-208"]}
{"id": "C94", "title": "Files ignored by Git are not formatted", "statement": "With git_aware the search finds no file that Git ignores and none in the directory .git; without it the rules of Git have no influence.", "quantifier": "for every tree of files, all patterns and all rules", "why_tests_cant": "There is no test with an ignore file; whether a file is left out depends on the interplay of patterns, directories and rules.", "anchors": ["src/config.rs:1101-1109", "src/config.rs:40-42", "README.md:209", "CHANGES.md:62-67"]}
{"id": "C95", "title": "Apostrophes stay straight unless curly_apostrophes is on, and never open a quotation", "statement": "With curly_apostrophes off, a straight mark that is an apostrophe (inside a word, before the s of a possessive, at the end or the beginning of a word) is left as it is, and with no settings does an apostrophe become an opening quotation mark.", "quantifier": "all texts, all positions of a straight single mark, all punctuation settings", "why_tests_cant": "whether a mark is an apostrophe depends on both neighbours, on the marks before it and on what the earlier passes have put in place of dashes and double marks; tests try a few words", "anchors": ["src/serializer/punctuation.rs:176-291", "src/serializer/punctuation.rs:79-115", "README.md:249-254", "CHANGES.md:146-148", "CHANGES.md:199-201"]}
{"id": "C96", "title": "References are defined at the end of the section that uses them", "statement": "Up to a heading of level 2 or 3 a document is written exactly as if it ended before that heading: the blocks before it, followed by the definitions of all references they use. Nothing from the heading on changes what is written before it.", "quantifier": "all contexts and options, all well-placed documents cut at a level 2 or 3 heading, the part before it free of footnote definitions and not ending with an HTML block, no footnote definitions directly in the part after it, directives other than disable-file allowed", "why_tests_cant": "Tests format a few documents with one or two sections. That no later block of any kind reaches back, for all documents, settings and directives, is a statement about pairs of runs.", "anchors": ["src/serializer/document.rs:34-233", "src/serializer/mod.rs:179-240", "README.md:443", "STYLE.md:256-274"]}
{"id": "C97", "title": "Sections are formatted independently of each other", "statement": "A document is written section by section: what it becomes is what the part before a heading of level 2 or 3 becomes as a document of its own, the blank lines before the heading, and what the part from the heading on becomes as a document of its own. So a change in one section changes no line of another.", "quantifier": "all contexts and options, all well-placed documents without footnote definitions cut at level 2 or 3 headings, any number of sections, if no two sections use the same reference label; directives in the last part allowed", "why_tests_cant": "It relates the results of several runs on different documents. Tests compare one input with one expected text; that no state (pending references, list depth, skip mode, indentation) leaks over a heading, for all documents, is beyond any set of samples.", "anchors": ["src/serializer/document.rs:34-233", "src/serializer/mod.rs:179-240", "src/serializer/state.rs:18-130", "README.md:443", "STYLE.md:256-274"]}
{"id": "C98", "title": "One documented set of defaults", "statement": "The library's default options, the program without configuration files, with a file that only repeats documented defaults (the example of the README, or any part of it), with several such files merged or some of them unreadable, and the JavaScript package with missing or default options, all use the options that the documentation lists.", "quantifier": "all configuration tables whose documented keys, if present, have their documented values (keys the documentation does not list are unrestricted); all sets of such files in all places, with and without --config; all JavaScript option objects of missing or default values", "why_tests_cant": "The defaults are written down six times (lib.rs, config.rs, wasm.rs, types.ts, README, the derived deserializers of each section). Tests look at some fields of some of them; that all agree for every choice of keys and files (2^31 subsets of keys alone) is checked by none.", "anchors": ["src/lib.rs:150-182", "src/config.rs:22-79", "src/config.rs:177-210", "src/config.rs:428-507", "src/config.rs:629-664", "src/config.rs:769-787", "src/config.rs:894-936", "src/main.rs:57-101", "src/wasm.rs:127-242", "README.md:200-256", "packages/wasm/src/types.ts:18-195"]}
{"id": "C99", "title": "A setting changes only documents with the blocks it is for", "statement": "The settings of the README are grouped by what they are for: `[heading]`, `[unordered_list]`, `[ordered_list]`, `[code_block]`, `[thematic_break]`, `[punctuation]`, and the line width for wrapped text. If two sets of options agree on the settings for the kinds of nodes a document has, formatting gives the same text, references and warnings with both. Noun lists count only with sentence case on, and the default language only for code blocks without a language. The claim is false of `trailing_spaces`: although it is for unordered lists, the second line of an item of an ordered list in a description moves with it.", "quantifier": "all documents with blocks where the parser puts them, all pairs of option sets, all parsers, sources, noun tables, formatters and Unicode tables", "why_tests_cant": "A test compares outputs for a few documents and settings; a serializer reading the setting of another block is noticed only if a test sets the two differently and has the block in the right place. This is a claim on all pairs of option sets and all documents at once.", "anchors": ["README.md:200-256", "src/serializer/document.rs:486-513", "src/serializer/list.rs", "src/serializer/block.rs", "src/lib.rs:36-148"]}
{"id": "C100", "title": "Numbers of ordered lists are padded as documented", "statement": "`pad` of `[ordered_list]` says how numbers are aligned: before the number (`\"start\"`, the default: `  1.`, ..., ` 10.`) or after it (`\"end\"`). The numbers of a list that fit in the width all begin in one column, and so do the texts, as for `\"end\"`. The claim is false of `\"start\"`: the setting is read and checked but never used, and with the default configuration the delimiters of a list with ten items do not stand in one column. It is also false of lists with numbers too long for the width: the text of the hundredth item is one column further.", "quantifier": "all configurations, all nesting depths, lists with any items as long as the numbers fit; all pairs of configuration files that differ in `pad` alone", "why_tests_cant": "Tests check that the key is parsed, and never look at its effect; that it has none on any document is a claim about all pairs of files.", "anchors": ["README.md:227-231", "src/config.rs:466-507", "src/main.rs:73", "src/serializer/list.rs:136-158"]}
{"id": "C101", "title": "Files end with exactly one trailing newline", "statement": "The formatted text of a document ends with exactly one line break: link definitions and trailing HTML blocks after the last block included, and however deep the last block is nested in lists, quotes, alerts and descriptions.", "quantifier": "for all documents without footnotes and disable-file whose last block ends with text, code, a rule, a table or HTML, in all states and with all options with usable fences", "why_tests_cant": "What ends the file is decided by the last block of the last block and so on, by which of the serializers adds the line break of its line, and by whether definitions follow; tests check single cases, and the two families of documents for which it fails are not among them.", "anchors": ["STYLE.md:457-459", "src/serializer/list.rs:296-306", "src/serializer/document.rs:216-232", "src/serializer/document.rs:534-539"]}
{"id": "C102", "title": "Definitions of abbreviations are preserved at the end of the document", "statement": "A paragraph `*[HTML]: HyperText Markup Language` is written character for character, with its line breaks, blanks and marks, whatever the settings; and if such paragraphs are the last blocks of the document they are at the end of the output, in their order, with only footnotes and link definitions after them. The claim of STYLE.md is false of definitions before other blocks, which stay where they are, and of their links: the definition of a link that is used only there is lost.", "quantifier": "all documents, sources, options and directives other than disable-file before it; any number of definitions at the end", "why_tests_cant": "Three tests with one-line definitions. That the text survives every option, several lines and every place needs all sources and positions, and the lost link definitions show only if a definition of an abbreviation uses a link that nothing else uses.", "anchors": ["STYLE.md:561-569", "src/serializer/document.rs:460-470", "src/serializer/state.rs:355-416"]}
{"id": "C103", "title": "After `hongdown --write`, `hongdown --check` finds nothing to do", "statement": "After a successful run with `--write`, a run with `--check` and the same arguments succeeds, prints nothing and changes no file; a second run with `--write` succeeds, too, writes no file and prints no name. The claim is false for files that change when they are formatted a second time, such as a list item with a code block and a list directly after it.", "quantifier": "all worlds (configuration files, directories, files, orders in which the workers run in either run), all arguments that select each file once, all files in the fragment of C82 or on which formatting is idempotent", "why_tests_cant": "It relates two runs of the whole program: selection of files, parallel reading and writing in any order, and idempotence of formatting. The tests of the command line run it once on one small file.", "anchors": ["src/main.rs:50-250", "src/lib.rs:249-273", "README.md:60-105"]}
{"id": "C104", "title": "Line ends of Windows", "statement": "A file in which lines end with CRLF gives the same output and the same warnings as the file in which they end with LF, if the parser reads both alike, and every line of the output ends with LF.", "quantifier": "all sources, trees, options; for the line ends of the output all documents", "why_tests_cant": "False: front matter keeps its CRLF while everything after it gets LF, so the file is left with mixed line ends; no test has a CRLF file. A formatted file with CRLF never passes --check.", "anchors": ["src/serializer/mod.rs:47-61", "src/serializer/document.rs:534-539", "src/serializer/state.rs:367-438", "src/lib.rs:249-273"]}
{"id": "C105", "title": "Punctuation settings count for the text of a document only", "statement": "The settings of the section punctuation count only for the marks in the text of a document: whatever quotation marks, apostrophes, periods and dashes there are in code spans, code blocks, addresses, titles and HTML, the output, references and warnings are the same under all settings that agree for the marks in its text. What is switched off is not done.", "quantifier": "for every well-placed document, every context and every two sets of punctuation settings that agree for what is in its text nodes", "why_tests_cant": "Tests try a code span or a code block with one setting; they cannot try all trees, all marks and all pairs of settings.", "anchors": ["STYLE.md:525-533", "STYLE.md:463-523", "src/serializer/punctuation.rs:79-115", "src/serializer/inline.rs", "src/serializer/heading.rs:18-59"]}
{"id": "C106", "title": "Apostrophes are curled if the setting is on, single quotation marks are left to theirs", "statement": "With curly_apostrophes on, every apostrophe becomes a right single quotation mark: between letters, in possessives and at the end of words. The marks around a quotation are not apostrophes: with curly_single_quotes off both of them stay straight.", "quantifier": "for every text, every position in it, every setting of the other options and every character table in which letters and digits are alphanumeric and marks are not", "why_tests_cant": "Tests list a few words with apostrophes; they cannot try all texts around the mark, and the pass counts open quotations over the whole text.", "anchors": ["src/serializer/punctuation.rs:295-390", "src/serializer/punctuation.rs:79-115", "README.md:251", "CHANGES.md:281", "STYLE.md:487-492"]}
{"id": "C107", "title": "Single quotations get an opening and a closing mark", "statement": "With curly_single_quotes on, straight single marks that are used as quotation marks are converted to curly ones: the first of the two to an opening, the second to a closing mark, wherever the quotation stands and whatever else is in the text.", "quantifier": "for every text around and in the quotation, every setting of the other options and every character table in which marks are no letters", "why_tests_cant": "Tests have some short quotations; whether a mark opens is found by a search of fifty characters and a state that runs over the whole text, which no set of examples covers.", "anchors": ["src/serializer/punctuation.rs:175-293", "STYLE.md:478-483", "README.md:250", "src/serializer/punctuation.rs:438-487"]}
{"id": "C108", "title": "Underscores in text are always escaped", "statement": "Underscores in regular text are always escaped, also in the middle of words, and so are asterisks, backquotes and backslashes: in what is written for a text node none of them can act as a delimiter, whatever the source at its place looks like; wrapping does not take the escapes apart.", "quantifier": "for every text, every source and every position, also positions where the source has something else; for paragraphs: for every list of texts and line breaks, every width and every state outside of lists and block quotes", "why_tests_cant": "Tests have words with underscores that match their source; when text and source run apart (converted punctuation, references, wrong positions) the two are compared character by character in ways no example set covers.", "anchors": ["STYLE.md:119-127", "src/serializer/inline.rs:289-395", "src/serializer/escape.rs", "src/serializer/inline.rs:52-120"]}
{"id": "C109", "title": "Prose is wrapped at the line width, and code spans are kept in one piece", "statement": "A line of wrapped text that is longer than the line width holds one word only. A code span comes out of wrapping with the content it had.", "quantifier": "all texts, code spans, prefixes, line widths and width functions", "why_tests_cant": "Whether a line can be broken depends on everything before it in the paragraph: one stray backquote or bracket far earlier changes it. Tests use texts with balanced marks and short paragraphs.", "anchors": ["src/serializer/wrap.rs:205-329", "STYLE.md:241-252", "STYLE.md:406-432"]}
{"id": "C110", "title": "Block quotes in list items stay in their items", "statement": "The lines of a block quote in a list item begin in the column of the content of the item and have one quote mark for each quote around them. One blank line stands between the quote and its neighbours.", "quantifier": "all items, nesting depths, paragraphs, options and line widths", "why_tests_cant": "Quotes in items combine the state of lists with that of quotes, and the two interact in ways that depend on what is inside. The tests have a quote with one paragraph in an item, and no quotes with other blocks there.", "anchors": ["src/serializer/block.rs:22-87", "src/serializer/list.rs:216-310", "src/serializer/document.rs:508-532", "STYLE.md:189-203", "STYLE.md:328-337", "STYLE.md:437-440"]}
{"id": "C111", "title": "What the program does to a whole project", "statement": "With include patterns and without arguments, --write formats exactly the files of the project that the patterns select and leaves all others as they are. --check changes nothing and succeeds exactly if all these files are readable and formatted. With files and directories as arguments, --write formats exactly the files named and the Markdown files in the directories named.", "quantifier": "all trees of files, patterns, contents, formatters and schedules of the workers", "why_tests_cant": "The tests run the parts one at a time: the search, the expansion of paths and the writing of one file. None runs the program on a project with files that must stay as they are.", "anchors": ["src/main.rs:117-187", "src/main.rs:351-375", "src/config.rs:1075-1125", "README.md:206-208", "README.md:265-273"]}
{"id": "C112", "title": "One blank line between the blocks of a list item", "statement": "Between two blocks of a list item stands exactly one blank line. A list right after a paragraph of the item has one if the source has one there and none otherwise.", "quantifier": "all items, blocks before and after, nesting depths, options and contents", "why_tests_cant": "The number of line ends depends on both neighbours. The tests have items with a paragraph and one further block; no test has a code block or a quote after a block that ends its own line.", "anchors": ["src/serializer/list.rs:214-310", "STYLE.md:437-440", "STYLE.md:189-203"]}
{"id": "C113", "title": "Definitions stay above the directive that turns formatting off", "statement": "What is written before a directive that turns formatting off (for the next block, the section, a region or the file) is what would be written if the document ended there: the blocks and the definitions of all references they use. No definition moves below the directive.", "quantifier": "all documents, directives, contexts, options and links at any depth", "why_tests_cant": "The tests of the fix have one link or one footnote before one directive. That nothing after the directive has an effect on what stands above it, and that no definition is left over, is about all documents.", "anchors": ["src/serializer/document.rs:34-150", "CHANGES.md:203-206"]}
