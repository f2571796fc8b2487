# Design of the hongdown model and proofs

Subject: dahlia/hongdown (Rust), source in /repo at the pinned commit. Nothing of
it is built or run; the Lean model is a hand translation and is part of the
trusted base.

Layout of `lean/Verif/`:

* `Str.lean` – string helpers of Rust's standard library over `List Char`
  (`lines`, `split`, `trim`, ...). They occur in the specifications as well, so
  `Lemmas/Std.lean` characterizes them by other means (theorems `std_...`).
* `Model/*.lean` – the model. Each definition cites the /repo lines it mirrors
  and states its simplifications.
* `Spec/*.lean` – specifications that do not use the model: CommonMark/GFM
  readers (backslash escapes, code spans, fenced code, thematic breaks, table
  rows), words, folding of typography, abstract CLI outcome.
* `Lemmas/*.lean` – helper lemmas.
* `Props/*.lean` – the property theorems, with a concrete example beside each.

## How things are modelled

* Rust `String`/`&str` is `List Char`. Byte offsets appear only where the code
  computes with them (`safe_str_slice`, `is_valid_code_span`); there the UTF-8
  length is modelled explicitly.
* `&mut self` functions take the serializer state and return the new one.
* Loops are structural recursions or folds; `loop`/`while` with an index becomes
  recursion on the remaining list.
* Panics (`usize` underflow, slicing) are explicit `Option`/`Except` results where
  a property speaks about them. In debug builds the underflow panics; in release
  builds it wraps. Both are recorded where relevant.
* comrak's syntax tree is an input (an inductive type with source positions). The
  comrak parser itself is **not** modelled, except by small reference readers in
  `Spec/`, which follow the CommonMark text rather than comrak's code.
* `unicode-width` is a parameter `w : List Char -> Nat`. Theorems list what they
  need of it (for instance subadditivity).
* Unicode classes and case mappings (`is_alphabetic`, `is_alphanumeric`,
  `is_uppercase`, `to_lowercase`, ...) are parameters (`Uni`). `char::is_whitespace`
  is modelled concretely from the White_Space property.
* External formatters, the file system and the thread scheduler are parameters:
  outcome functions and arbitrary permutations/interleavings of worker steps.

## Plan per property

* **C01 Escaping plain text loses nothing.** escape_text on List Char; independent reader for backslash escapes; induction on the text with the previous character generalised.
* **C02 Escaped text contains no live emphasis or code delimiter.** Same model; a scanner that tracks backslash parity, shown to flag nothing.
* **C03 Code spans read back as the literal they were made from.** format_code_span and a CommonMark code span reader (search for a run of exactly n). Negation with ' a '; `_partial` for contents that do not both begin and end with a space (or are all spaces).
* **C04 A source slice is accepted as a code span only if its ends match.** is_valid_code_span with UTF-8 lengths; characterisation and acceptance of format_code_span output.
* **C05 Table cell escaping leaves no live pipe and is idempotent.** escape_table_cell; GFM pipe scanner; idempotence, unescape by a separate deletion relation.
* **C06 Ellipsis conversion.** transform_ellipsis; expansion recovers input; idempotence iff no dot run of the bad lengths, with the run statement made about the input only.
* **C07 Dash conversion is complete and idempotent.** transform_dashes for both pattern kinds; 'pattern is an infix' from List.IsInfix; idempotence; inverse substitution.
* **C08 Double quotes are all curled, nothing else is touched.** transform_double_quotes as recursion with previous character and expectation flag; pointwise relation (List.Forall₂) between input and output.
* **C09 Single quotes and apostrophes change only quote characters, and a second pass is stable.** Same; pointwise relation; negation of stability with a''; `_partial` restricted to texts where every quote is converted.
* **C10 Punctuation conversion preserves the text up to typography.** Fold function as a spec; each pass preserves it; composition. Identity when all off.
* **C11 Wrapping keeps every visible character in order.** wrap model; visible characters (filter) preserved; words preserved for texts without leading space; negation for ' foo'.
* **C12 Wrapped lines fit the width unless one unbreakable token is too long.** Invariant of the token loop over an abstract subadditive width.
* **C13 Hard line breaks survive wrapping.** Segments of wrap_text; kept lines.
* **C14 Wrapping is stable.** Negation by witness; `_partial` for single-spaced plain words.
* **C15 Fenced code blocks read back with the same content.** serialize_code_block at top level; reader for fenced code per CommonMark 4.5; round trip.
* **C16 Indented code blocks in list items and definition lists read back with the same content.** The two other serializers; round trip for `_indented` after de-indentation; negation for `_with_indent` with a longer fence run.
* **C17 A failing code formatter never changes the code.** Formatter outcome as a parameter with an invocation log.
* **C18 Each reference label is defined at most once in a document, and every used label is defined.** State machine of pending/emitted references over operation lists; then over whole documents via the serializer model.
* **C19 A reference link keeps its target.** Negation with two links sharing a label; `_partial` when each label has one target.
* **C20 Order of reference definitions.** Permutation + Pairwise order spec of the flush output, stability via sublist of equal keys.
* **C21 Footnotes are flushed exactly once and only after their reference.** FootnoteSet operations; partition theorem; invariant over operation lists.
* **C22 Writing a footnote keeps its words and never fails.** Greedy fill; words preserved; width bound; negation of no-underflow with a long name and `_partial` for short names.
* **C23 Directive recognition.** Directive::parse; exact characterisation by keyword.
* **C24 hongdown-disable-file leaves the rest of the file alone.** Document serializer model; theorem for any prefix state and any following blocks.
* **C25 Disabled regions are reproduced verbatim.** Directive state machine over top-level blocks; verbatim theorem; negation for a nested disable-next-line.
* **C26 Warnings are suppressed exactly where formatting is.** Both computations modelled; negation with a witness; `_partial` for documents with only disable/enable directives.
* **C27 Tables come out aligned.** serialize_table row rendering; widths equal under an additive width; live pipe count.
* **C28 The delimiter row encodes the alignments.** Separator row reader per GFM; round trip; content row round trip.
* **C29 Pipe counting and the column-mismatch warning.** Model of check_table_source_columns on lines; exact condition; relation to escape_table_cell.
* **C30 Configuration values outside their ranges are unrepresentable.** Constructors as Except functions; iff characterisations.
* **C31 Accepted thematic break styles are CommonMark thematic breaks.** ThematicBreakStyle::new and CommonMark rule; negation; `_partial` for styles of one marker character without leading whitespace.
* **C32 Cascading configuration: the highest-priority layer that sets a field wins.** merge_over and load_cascading over Except; 'last layer that sets it' spec; negation for no_inherit with a broken lower layer.
* **C33 Nested settings inherit field by field.** Negation by witness, plus what does hold (section level).
* **C34 Dash settings are rejected exactly when they conflict.** validate_dash_settings; iff; effect theorem with transform_dashes.
* **C35 Check mode never writes and its exit code is exact.** Workers as atomic per-file steps in arbitrary order (permutations) plus shared flags; exit code independent of order.
* **C36 Write mode writes exactly the files that differ.** Same with a file store updated by writes.
* **C37 Sequential modes stop at the first failure.** Recursion over files; characterisation by the longest readable prefix.
* **C38 Input selection.** Decision function of main; complete table.
* **C39 Directory expansion.** Inductive directory tree; membership characterisation and sortedness per directory.
* **C40 Sentence case changes only letter case and quotes.** to_sentence_case with Uni parameters; fold invariance.
* **C41 Sentence case is idempotent.** To be decided after modelling: either negation by witness or a partial.
* **C42 Acronyms, pronoun I and proper nouns.** process_word_simple and helpers.
* **C43 List markers.** Marker arithmetic of serialize_list_item; negation for start numbers.
* **C44 Emphasis delimiters.** Tree recursion; spec by membership of a text node.
* **C45 Reference-style link text is unambiguous.** Reader for full/collapsed/shortcut references on bracket-free labels.
* **C46 Setext underlines and ATX markers.** serialize_heading; reader for ATX/setext heading; negation for empty text.
* **C47 Headings keep all their inline content.** collect_text model; negation by witness; `_partial` for headings of plain text/code/emphasis.
* **C48 Serializing a block restores the context and only appends.** Full serializer model over the inductive tree; induction on the tree.
* **C49 Block quotes prefix every line.** Negation by witness on nested quotes; `_partial` for paragraphs.
* **C50 Running a formatter always terminates with the right outcome.** Poll loop with process exit time as a parameter; fuel eliminated by the deadline.
* **C51 JavaScript options always yield valid options.** to_options as a function on an option record.
* **C52 Source slicing never cuts a character and never panics.** UTF-8 layout model of List Char; explicit panic result.
* **C53 Escaping against the source reads back as the text.** Model of the peekable loop; negation by witness; `_partial` for text equal to its source.
* **C54 Formatting is idempotent and preserves the document on a core fragment.** A reader for the fragment that gives up on everything else (Spec/Core); the text of headings and paragraphs is content by an unambiguous grammar of text, code spans, emphasis, images and links with their address (Spec/Content), and it stays the same content up to line breaks because no break falls into a code span; trees for what it reads are characterised by a relation; what is written for each block is read back, and the written text depends only on what is read. Negation for a thematic break `---` (front matter); `_partial` without sentence case and formatters.
* **C55 Empty input formats to empty output.** Top-level function with the parser as a parameter.
* **C56 Blank lines between blocks.** Separator function between consecutive blocks; negation for HTML-only documents.
* **C57 Trailing HTML blocks come after the definitions.** find_trailing_html_blocks characterisation and order theorem.
* **C58 Escaped text never forms a link.** Bracket scanner after CommonMark's link algorithm; negation by witness; `_partial` without adjacent opening brackets.
* **C59 Punctuation conversion is idempotent.** Each pass of the second run is shown to be the identity on the result; ASCII factors of the output are factors of the input. Negation by witness; `_partial` under conditions on dots and adjacent quotes.
* **C60 A wrapped paragraph stays one paragraph.** Lines of the output begin with words of the text (from C11), so the claim holds when no word is a marker; negation by witness.
* **C61 Link targets and titles are written so that they read back.** A small reader for labels, destinations and titles (Spec/Refs); round trip for parts that need no escapes, negation by witnesses.
* **C62 A footnote with several blocks keeps its blocks.** Reader for footnote bodies (Spec/Refs); exact result of reading, negation by witness.
* **C63 Definitions used only in disabled blocks are kept.** False of the code: a skipped block registers nothing, and the parser drops the definition lines. Witness document, and the theorem for documents without directives.
* **C64 Blocks are rendered independently of each other.** Relational proof over all block functions: from two states with equal context the same text is appended and the contexts stay equal.
* **C65 An invalid configuration stops the program.** Model of main with the configuration loader; negation by an invalid file in write mode, partial result: the warning is always printed.
* **C66 --config bypasses the cascade.** loadConfig over an arbitrary map from paths to parsed files.
* **C67 The project file is the nearest one.** Induction over the components of the start directory.
* **C68 Overlapping file arguments.** The parallel model takes any file list; a schedule of two workers on one name is a witness against the claim, and a duplicate-free list is the hypothesis of the partial theorem.
* **C69 Large code blocks are formatted like small ones.** Two processes joined by pipes of bounded capacity; any schedule. False (the pipe is not read while the process runs): c69_size_false; c69_output and c69_deadlock say what happens.
* **C70 Each configuration key sets its own option.** Exact characterisation (iff) of the reader against a table of keys in Spec/Settings.
* **C71 Emphasis stays emphasis.** Spec: left- and right-flanking runs. False within words when the text has an asterisk (c71_emph_false); c71_emph_partial otherwise.
* **C72 Blocks stand in the column of their item.** Spec: CommonMark reading of list markers (readItem) and StandsIn. Partial theorems for paragraphs, code blocks and nested lists in any item of any depth; counterexamples for the rest.
* **C73 Neighbouring lists stay separate lists.** Counterexample with two bullet lists; partial theorem for lists of different types from the reading theorems of C43.
* **C74 The style of a link is read from its source.** Spec: matching brackets, squeezed white space, the CommonMark reader of links (Spec/Links). Theorems for each of the four forms, with and without the exclamation mark, and for links in paragraphs; false for escaped brackets, with witnesses for the function and for a whole document.
* **C75 Source text is taken from the right place.** Spec: the line number and the byte column after a prefix of the text (Spec/Source). Split the text into before, middle and after; the extraction with the places of the middle gives the middle.
* **C76 Sentence case capitalizes the first word and only it.** Word by word theorem for headings of plain words (`sentence_words`); negations for a first word in emphasis and for a leading quotation.
* **C77 Sentence case keeps links working.** Definitions: collection does not look at the option. Negations: a relative address with capitals; a label with straight quotation marks.
* **C78 A JavaScript code formatter replaces exactly the code it returns text for.** The model gets a callback in its context. A relation between two runs, with and without formatters, is carried through every block serializer: the states agree but for warnings. The document theorem follows, and the same relation gives a document level C17.
* **C79 Formatting loses no text.** Show for every block serializer that what it appends to the output has the visible characters of its blocks as a subsequence (for wrapping, tables and code blocks as well), lift it through the tree and the document loop, and show for inline collection that the text nodes and code spans are a subsequence of what it writes, up to the characters punctuation conversion replaces. Losses are proved as negations: code in autolinks and HTML blocks in footnotes.
* **C80 Whole headings in sentence case.** A separate specification cuts a heading into pieces, quotations, nouns and words and says what becomes of each; the search for nouns is shown to find an occurrence that overlaps every place where a noun stands apart.
* **C81 GitHub alerts keep their kind and title.** Reader for alert lines in Spec/Alert. Refuted by a title (comrak keeps it in NodeAlert.title, the serializer reads alert_type only); proved without one for every content and context.
* **C82 Documents with nested lists, block quotes, alerts and tables read back as the same document.** A reader for nested lists (Spec/Nested) by recursion on the lines with a bound on the steps; what the formatter writes as a function of the blocks (Lemmas/Nested); the lines of every block read back, by mutual induction over blocks, items and lists (Lemmas/NestedWritten, NestedDoc). Links: where the definitions are written is a function of the links of the blocks (`place` in Lemmas/Nested); every link gets one, and they agree with those of the source (Lemmas/NestedLinks). Negations for a code block directly after a paragraph in a tight list, two lists in one item, a list directly after a code block, two lists with only a definition between them, and headings in block quotes. Block quotes at the top level: their lines are those of the blocks in them with a marker (Lemmas/NestedQuote). Alerts are block quotes with a line for their kind before, and the empty line that the positions ask for.
* **C83 Every line of a paragraph in a formatted document fits the line width.** State it about what the output reads as, with the independent reader of C82 and a small definition of fitting; carry the width of the lines through the proof that the output is read back. Refute it for the first lines of items, whose markers are not counted.
* **C84 Paragraphs that fit the line width keep their line breaks.** Show that a line that fits is not broken by the greedy filling, and that lines that fit are written as they are; carry it through the reading back of C82. Refute it where a long word stands on a line of its own.
* **C85 An item reads as a task only if it is one.** False: an item that begins with the external link `[x](http://a)` is written `[x] …` with a shortcut reference and becomes a finished task (c85_link_false). Proved otherwise: c85_item_partial, for every item that begins with a paragraph whose text does not begin with `[`: the first line reads as a task with the mark of the item, or as no task. Uses the head of wrapped text (Lemmas/WrapHead) and the column of the content from C43.
* **C86 References without a definition are reported.** Spec/Undefined.lean says what references, definition lines, abbreviation lines and escapes are by how a text is put together (`RefsIn`, `HasDefinition`, `HasAbbreviation`, `EscapedOn`) and which references are reported in which order (`Reports`); `c86_exact_partial` proves that the warnings are exactly these, `c86_determined` that the description leaves no choice, `c86_document` that a run gives them. Three negations show where this differs from what a reader of the document sees: brackets escaped on both sides are reported, a reference after an escaped one with the same label is missed, and lines in code blocks count as definitions.
* **C87 Footnotes stand in the section that first refers to them.** `c87_section_partial` follows a pending footnote with its reference line through the loop over the blocks: `recordLines_first` (the first reference counts), `PendingNote.keep` and `PendingNote.due` (a flush before a heading writes exactly what is due), `NoteAfter` (what is not due is written behind the heading). `c87_nested_false`: a footnote that only the definition of another refers to is not in the section of that one, and formatting the output again moves it. `c87_empty_false`: a footnote made of blocks without text (`[^n]: >`) vanishes.
* **C88 Layout of description lists.** Spec/Description: `Described` says what the lines of a description look like. Induction over the tree with the two shapes `FW` (lines after the first indented) and `AW` (all lines indented); wrapping lemmas for a continuation prefix of spaces. The list level goes through `ser_par` (texts do not depend on what was written before). Counterexamples are computed for tables, HTML, headings, quotes, list items and the line width.
* **C89 The text of a footnote with several blocks.** Footnotes are serialized first, in a state which only differs from the empty one in output and references; the text of a block does not depend on these (Lemmas/Text), so the stored content is exactly the join of the own texts, and it stays pending until written (Lemmas/Notes).
* **C90 Quotation marks do not depend on where a text is divided.** Spec/Quotation says which marks are clear (a quotation can begin there or end there, not both) and when curly marks are paired. For clear texts the conversion only looks at the neighbours of each mark (localQuotes), so it commutes with division at blanks and at places away from marks. The negations are source-tied documents: `He said "*yes*", and left.` and `'one⏎two'`.
* **C91 Inline links to other sites become references that lead to the same address.** Spec/OtherSite says when a block is another one with its links to other sites written as references (ReferenceBlock), which link leads where (LeadsTo) and when texts are unambiguous (OneAddress). The reference document is shown to be sound in the sense of C82 and to have the same trees, up to the positions and kinds that the serializer looks at (Lemmas/OtherSite), so that c82_marks applies: c91_sites_partial, c91_twice_partial (for every parser that agrees with the reader), c83_sites_partial (width). c91_address_false: two links with the same text and different addresses; the first leads to the address of the second afterwards.
* **C92 Lines end in white space only at hard line breaks.** Spec/LineEnd: `TidyLine`. The invariant `Th` of a text (its first line is visible, the others are tidy) is closed under appending, under a line break between two texts and under prefixing with a text without line breaks, so an induction over the tree needs no record of where a line ends. Document level: the same invariant along the loop, with all pending references and footnotes tidy (footnotes of one paragraph, whose lines are filled with words, so none ends in a space). Negations for empty footnotes, two hard breaks in a row, items that begin with a quote, descriptions that begin with code, empty code lines in an item in a quote, empty headings and titles with line breaks.
* **C93 Files found by include and exclude patterns.** model of the walk with overrides; the last matching pattern decides, so excludes win; induction over the tree for what is found, for errors and for each file being found once; false for blank patterns and comments, which find every file
* **C94 Files ignored by Git are not formatted.** negations with concrete trees (an ignored file that a pattern matches, a branch named fix.md); kept: nothing is found in ignored directories that no include pattern matches, nothing more is found than without git_aware, and the rules have no influence without it
* **C95 Apostrophes stay straight unless curly_apostrophes is on, and never open a quotation.** Position by position: the pass for double marks keeps letters, digits and brackets in place, then the tests of the pass for single marks are decided by the neighbours. Witnesses for symbols, dashes, double marks and decades.
* **C96 References are defined at the end of the section that uses them.** `Deaf` (Lemmas/Prefix): no serializer reads the warnings or the lines of footnote references, so the run over the whole document and the run over its first part stay alike (`serTopLoop_alike`) up to the heading, where one flushes before a line and the other at the end; with no footnotes the two flushes are the same. `c96_defined_partial` adds C18 for the first part. `c96_level_false`: before a heading of level 1, 4, 5 or 6 nothing is defined. `c96_html_false`: an HTML block before the heading. `c96_note_false`: footnotes defined after the heading.
* **C97 Sections are formatted independently of each other.** Two runs are compared in lockstep: the run over the whole document, whose output has the text of the earlier sections in front and whose defined labels include theirs, and the run over the section alone. A structure (Alike) states how the states relate; every block keeps the relation (no serializer reads the output or the labels defined, shown by structural recursion), flushing keeps it because no label is shared, and the heading itself makes the output long enough for the test for a blank line. Induction over the sections. Negations: shared labels, a directive that stays in force, the other heading levels.
* **C98 One documented set of defaults.** Spec/Defaults.lean has the README example as a table and the documented options, written out. c98_library, c98_file, c98_program (over loadConfig with all cascading layers) and c98_js; the section readers are shown to give the default section for any table that agrees with the documented one.
* **C99 A setting changes only documents with the blocks it is for.** `Spec/Unused` states which settings are for which kinds of nodes (`SameFor`), with nothing of the serializer in it. `Lemmas/Unused` shows by induction over trees that two runs from the same state agree, as long as the state (list type, list depth, description flag, pending footnotes) was made by nodes of the document; `Lemmas/UnusedDoc` does the document level. `c99_trailing_false` is the exception, with a document.
* **C100 Numbers of ordered lists are padded as documented.** `Spec/Pad` states both paddings. `c100_end_partial` derives the alignment from `c43_list`; `c100_ignored` compares two files key by key through the model of deserialization; `c100_start_false` and `c100_wide_false` are documents.
* **C101 Files end with exactly one trailing newline.** Spec/FileEnd.lean says what a good last block is, following last children. Lemmas/FileEnd.lean shows by mutual induction on it that each serializer leaves an output that ends with one line break; Lemmas/FileEndDoc.lean adds the loop over the blocks, the flush of the definitions and the trailing HTML. Negations: a list item that ends with a heading, and front matter alone.
* **C102 Definitions of abbreviations are preserved at the end of the document.** Spec/Abbreviation has the form of a definition and ties the paragraph to the source. `c102_kept` (any place) and `c102_end_partial` (at the end, from the layout of C25 and the source text of C75); `c102_end_false` and `c102_link_false` are the two ways it fails, and `c49_abbreviation_false` that one in a block quote leaves the quote.
* **C103 After `hongdown --write`, `hongdown --check` finds nothing to do.** Composes C35, C36 and the idempotence of C82 on the level of `main`. `c103_program_partial` for any files on which formatting is idempotent, `c103_documents_partial` for the formatting function itself on the fragment of C82; `c103_false` runs the program on the witness of `c82_code_list_false`.
* **C104 Line ends of Windows.** Model.withSource and lines; Spec.LineEnds (crlf, unixEnds); the lines and the final line break of the source are all that the formatter sees of it; C82 for the output; concrete front matter.
* **C105 Punctuation settings count for the text of a document only.** Every transformation of punctuation leaves a text alone if its mark is not in it, and no earlier step can bring it in; with that, the comparison of two runs of C99 only needs the settings for the marks of the text nodes. Sentence case of headings curls quotation marks on its own, whatever the settings, and tells code by backquotes: both negations have witnesses.
* **C106 Apostrophes are curled if the setting is on, single quotation marks are left to theirs.** Dashes and ellipses set aside (as in C95), the passes for double and single marks change nothing next to an apostrophe that the pass for apostrophes looks at, so that the step for the mark can be computed from the characters around it; the count of open quotations is 0 before the first mark and 1 inside of a quotation. Witnesses show which apostrophes are missed.
* **C107 Single quotations get an opening and a closing mark.** The state of the pass is not changed by apostrophes in words; the step for the first mark finds the second within fifty characters or stands after a bracket, and the step for the second cannot keep or open it. Double marks are replaced before and change none of the characters looked at. Witnesses: long quotations, quotations that begin with a digit, plural possessives inside.
* **C108 Underscores in text are always escaped.** What is written is a sequence of escaped pairs and of characters that need no escape, by induction over the comparison with the source; references have letters and digits only. Words are cut at white space, which is no part of a pair, so each word has the same form. Link text in headings and of references is written without escapes: witnesses.
* **C109 Prose is wrapped at the line width, and code spans are kept in one piece.** Combine the width theorem of C12 with the conservation of visible characters of C11: text without backquotes and brackets has none in its lines, so an unbreakable piece is a word. For code spans, follow the tokenizer: a span goes into one token, tokens go into lines whole, and trimming a line cannot remove a backquote. Refute the rest with whole documents.
* **C110 Block quotes in list items stay in their items.** Describe the text of a quote of paragraphs exactly, from the prefix that the outer indent and the quote marks give. Place it in the item with the lemmas of C72. Refute the rest with whole documents.
* **C111 What the program does to a whole project.** Combine the theorems on the search (C93), on the end of the run (C35) and on the modes (C38). State the result with the files of the tree and the patterns only.
* **C112 One blank line between the blocks of a list item.** Compare the item with its first blocks only and the whole item: the first is a text and one line end (C101), the second goes on after it. Find the state between two children and evaluate the next one. Refute the rest with whole documents.
* **C113 Definitions stay above the directive that turns formatting off.** Split the top level loop at the directive: the blocks before are written alike in both documents (C96), the flush at the directive is the flush at the end. Add C18 for the definitions. Refute the rest with whole documents.

## Trusted base

* Lean 4.33.0's kernel and the statement of each theorem.
* Axioms: at most `propext`, `Classical.choice`, `Quot.sound` (see the list per
  theorem, produced with `#print axioms`, in `AXIOMS.md`).
* The hand translation from Rust to Lean.
* Modelled: src/serializer/escape.rs, inline.rs, punctuation.rs, wrap.rs,
  state.rs, code.rs, table.rs, heading.rs, link.rs, list.rs, block.rs, document.rs and
  mod.rs (all of `src/serializer/`; formatter.rs apart, below), from the syntax tree to the
  output text, warnings included (`Model.formatWithWarnings`).
* Modelled: src/config.rs (checked values, sections, reading of parsed TOML, layers, search for
  the project file) and `load_config` of src/main.rs. The file system is a map from paths to
  parsed files.
* Modelled: `collect_files` of src/config.rs with the part of the `ignore` crate it uses: reading of
  override patterns, the last match decides, overrides come before ignore files, directories that are
  left out are not entered. This part is written from the documented behaviour of the crate, whose
  source is not in the repository. The matching of one pattern, the rules of ignore files and the
  tree of files are parameters. Links to directories are not followed.
* Modelled: src/main.rs (`main`, the parallel and the sequential processing, the diff output,
  the expansion of directories). Files are a map from names to contents: a name is the file, there
  are no links. A worker takes three steps (read, truncate, write); a schedule is any list of
  worker numbers; a read can fail and a write can stop after any number of characters. Panics
  while formatting do not occur in the workers. The formatter, the diff and the directory walk
  are parameters.
* Modelled: src/serializer/formatter.rs as two processes joined by three pipes of bounded
  capacity, with any schedule. The child is a list of actions (read, write, work, run for ever).
  Assumed: reading the remaining output after the exit does not fail, and no other process
  holds the pipes open. The serializer model takes the formatter's answer as a parameter.
* Modelled: the options of src/wasm.rs (defaults and checks) and its three functions. The
  JavaScript values are given as already parsed by serde; a JavaScript code formatter is a function
  from language and code to one of: null or undefined, a string, another value, an exception.
* A `--config` path is taken to be absolute. With a relative one the directory of the search for files
  is the empty path (`parent()` of `hongdown.toml`), and the walk fails.
* Not modelled: comrak's parser, TOML and clap parsing, similar's diff algorithm,
  rayon, the operating system (processes, files), unicode tables, terminal
  colours, `build.rs`-style packaging, the JavaScript glue.

## Recorded disagreements between code and documentation

* CHANGES.md describes the cascading configuration as field-level override; the
  code replaces whole sections (`merge_over`, src/config.rs:155-172).
* CHANGES.md states that invalid configuration fails to parse; main.rs:394-427
  turns configuration errors into a warning and continues with defaults.
* The ordered list `pad` option is read but has no effect on the output.
* README (`--check`) does not say so, but with `--stdin` the check flag is ignored
  (main.rs formats and exits 0).
* `ThematicBreakStyle::new` documents "a valid CommonMark thematic break" but accepts
  `---*` (src/config.rs:677-742).
* README says that lines wrap at 80 columns; a word that would end exactly in the last
  column is moved to the next line unless it is the last word (wrap.rs:332-368 counts the
  space after it).
* README.md:165-177 gives the user's XDG file priority over `~/.hongdown.toml`. For projects
  below the home directory without a file of their own, the upward search takes
  `~/.hongdown.toml` for the project file, so it wins (src/config.rs:1045-1060).
* README.md:185-198: with `no_inherit` other configurations are ignored. A malformed one
  still makes the load fail (src/config.rs:986-998).
* README.md:251 has `curly_apostrophes` off by default. Apostrophes in `'90s` and `'tis` are curled all
  the same, and those of `C#'s`, `dogs'--`, `goin'...` and `"goin'"` become opening marks
  (src/serializer/punctuation.rs:243-280; C95).
* README.md:443 and STYLE.md:258 put references at the end of each section. The code does so before headings of
  level 2 and 3 only (src/serializer/document.rs:155-168): what a chapter before a level 1 heading, or a part before
  a level 4 heading, refers to is defined in a later section (C96).
* src/config.rs:772 says the default thematic break style is `*  *  *`; it is a row of dashes.
* A file given twice (or also through its directory) with `--write` is processed by two workers
  at once; one can read the file while the other has truncated it (src/main.rs:189-250).
* README.md:402 and formatter.rs:79 promise a time limit for external formatters. It starts
  after the code has been written to the process, so a process that does not read holds
  hongdown for ever; and the output is read only after the exit, so an answer larger than a
  pipe always ends in a timeout (src/serializer/formatter.rs:79-136).
* Links: an inline link to an external address becomes a shortcut reference `[text]`; followed by
  `(...)` or by `:` at the start of a paragraph it then means something else, and in headings
  two links in a row become one reference (src/serializer/link.rs:70-102, inline.rs:68-105).
  Of two such links with the same text and different addresses, the first is redirected to the
  address of the second (src/serializer/state.rs:448-459).
* inline.rs:289-295 says that escapes of the source are preserved; `\#` becomes `\\#` and
  `\[a\](b)` becomes a link.
* state.rs:467 uses `_` when the content has `*` "to avoid escaping"; the asterisk is escaped
  anyway, and within a word the emphasis is lost.
* The JavaScript types give `enDash: "--"` as an example although `"--"` is the default of
  `emDash`; the same pattern for both is not rejected there (src/wasm.rs).
* README.md:420-432 gives a code formatter that returns `prettier.format(...)`. That is a promise
  since Prettier 3, and a result that is no string is dropped without a warning (src/wasm.rs:377-387).
* Headings: a title that starts like a list item (`# 1. Introduction`) becomes a list item with an
  underline below it, an empty heading vanishes, and a setext title that ends with ` #` loses it
  when written with number signs (src/serializer/document.rs:421-458). Code in links, footnote
  references, HTML and hard breaks in headings are dropped (src/serializer/inline.rs:10-120).
* README.md:319-327 (sentence case): two capitals in a row are an acronym only at the start of a
  word; a proper noun in capitals stays; the possessive is not seen before punctuation or in
  capitals; a code span with two backquotes is treated as text (src/serializer/heading.rs).
* Sentence case is applied to the Markdown of the heading, so it changes the case of addresses
  and curls quotation marks in labels, which are then undefined (document.rs:421-458).
* The title of an alert (`> [!NOTE] Title`) is dropped (src/serializer/block.rs:89-123).
* A block quote with an empty first line and a text that begins with `[!NOTE]` is no alert, but is written as one (src/serializer/block.rs:9-87).
* A link whose text nodes spell its address is written as an autolink even if it contains a code
  span, which is lost; a footnote of a paragraph and an HTML block loses the block.
* README.md:326 says that the capitals of quoted text are respected; a quotation that starts with a
  capital is put into sentence case itself. A capital after a colon is lost if the word after it
  is followed by another delimiter (src/serializer/heading.rs).
* STYLE.md:549-560 (description lists): only the first line of a table, an HTML block or an underlined
  heading in a description is indented, so the rest leaves the description; a block quote at its start
  gets `:` without a space; in block quotes the blank lines of a description have no `>`; in a list item
  the term is appended to the text before it; the first line may exceed the limit by the four columns
  of its marker (src/serializer/document.rs:295-419).
* Footnotes: code right after the label is indented by the length of the label, of which readers take off
  four columns, so it gains spaces with every run (src/serializer/mod.rs:415-425). README.md:155-160: the
  nouns of directives do not reach headings in footnotes, which are serialized first.
* Two hard line breaks in a row become a line of two spaces, which ends the paragraph; a link title of two
  lines gets the two spaces of a hard line break (src/serializer/wrap.rs). An item that begins with a quote,
  a list or code leaves spaces after its marker (src/serializer/list.rs); an empty line of code in an item in a
  block quote becomes `> ` with the space (src/serializer/code.rs:288-297).
* README.md:209 and CHANGES.md:62-67: with `git_aware` ignored files and _.git_ are skipped. Overrides come
  before ignore files in the `ignore` crate, so a file that an `include` pattern matches is found although
  Git ignores it (only whole directories are skipped); and since `hidden(false)` is set and nothing excludes it, _.git_ is searched, so
  a branch named `fix.md` is a Markdown file for the formatter (src/config.rs:1103-1109).
* A blank `include` pattern or one that begins with `#` adds no override, so every file of every kind is found
  (src/config.rs:1083-1099).
* `--line-width` below 8 panics instead of an error message (src/main.rs:60).
