{
 "claims": [
  {
   "property": "C01",
   "status": "proved",
   "theorems": [
    "Jotdown.Attr.C01_attr_total"
   ],
   "note": ""
  },
  {
   "property": "C02",
   "status": "proved",
   "theorems": [
    "Jotdown.Attr.C02_attr_error_exact"
   ],
   "note": ""
  },
  {
   "property": "C03",
   "status": "proved",
   "theorems": [
    "Jotdown.Attr.C03_attr_grammar"
   ],
   "note": ""
  },
  {
   "property": "C04",
   "status": "proved",
   "theorems": [
    "Jotdown.Attr.C04_attr_concat"
   ],
   "note": ""
  },
  {
   "property": "C05",
   "status": "proved",
   "theorems": [
    "Jotdown.Attr.C05_get_value_last",
    "Jotdown.Attr.C05_get_value_class"
   ],
   "note": ""
  },
  {
   "property": "C06",
   "status": "proved",
   "theorems": [
    "Jotdown.Attr.C06_contains_key",
    "Jotdown.Attr.C06_contains_key_iff_get_value"
   ],
   "note": ""
  },
  {
   "property": "C07",
   "status": "proved",
   "theorems": [
    "Jotdown.Attr.C07_unique_pairs_keys",
    "Jotdown.Attr.C07_unique_pairs_once",
    "Jotdown.Attr.C07_unique_pairs_values"
   ],
   "note": ""
  },
  {
   "property": "C08",
   "status": "proved",
   "theorems": [
    "Jotdown.Attr.C08_display_unescapes"
   ],
   "note": ""
  },
  {
   "property": "C09",
   "status": "partial",
   "theorems": [
    "Jotdown.Attr.C09_debug_roundtrip_partial",
    "Jotdown.Attr.C09_debug_roundtrip_fails"
   ],
   "note": "The full claim is false (second theorem, witness {k=\"a⏎b\\\"}); proved for all attributes without a value that ends in an unescaped backslash."
  },
  {
   "property": "C10",
   "status": "partial",
   "theorems": [
    "Jotdown.Attr.C10_quoted_value_partial",
    "Jotdown.Attr.C10_escaped_newline_loses_text"
   ],
   "note": "The full claim is false (second theorem); proved for text whose first line has complete escapes and whose other lines have no quotes."
  },
  {
   "property": "C11",
   "status": "proved",
   "theorems": [
    "Jotdown.Html.C11_text_escaped",
    "Jotdown.Html.C11_attr_escaped",
    "Jotdown.Html.C11_str_event"
   ],
   "note": ""
  },
  {
   "property": "C12",
   "status": "proved",
   "theorems": [
    "Jotdown.Html.C12_balanced",
    "Jotdown.C12_source_balanced"
   ],
   "note": "First theorem: any well-nested document (Spec/Events) whose names written without escaping contain no markup characters, without raw HTML (Spec/Safe). Second: the events of every source, which always meet these conditions unless there is raw HTML."
  },
  {
   "property": "C13",
   "status": "proved",
   "theorems": [
    "Jotdown.Html.C13_text_is_not_markup",
    "Jotdown.C13_source_text_is_not_markup"
   ],
   "note": "As C12."
  },
  {
   "property": "C14",
   "status": "proved",
   "theorems": [
    "Jotdown.Html.C14_reference_number",
    "Jotdown.Html.C14_footnotes"
   ],
   "note": "Well-nested documents (Spec/Events); the order of labels is specified in Spec/Footnotes."
  },
  {
   "property": "C15",
   "status": "proved",
   "theorems": [
    "Jotdown.Html.C15_epilogue_terminates"
   ],
   "note": ""
  },
  {
   "property": "C16",
   "status": "proved",
   "theorems": [
    "Jotdown.Html.C16_indentation_is_layout"
   ],
   "note": ""
  },
  {
   "property": "C17",
   "status": "proved",
   "theorems": [
    "Jotdown.Html.C17_incremental"
   ],
   "note": ""
  },
  {
   "property": "C18",
   "status": "proved",
   "theorems": [
    "Jotdown.Html.C18_push_stops_at_failure",
    "Jotdown.Html.C18_write_reports_own_error",
    "Jotdown.Html.C18_bounded_prefix"
   ],
   "note": ""
  },
  {
   "property": "C19",
   "status": "partial",
   "theorems": [
    "Jotdown.Html.C19_reuse_partial",
    "Jotdown.Html.C19_reuse_once_partial",
    "Jotdown.Html.C19_reuse_fails",
    "Jotdown.Html.C19_indented_fails"
   ],
   "note": "Proved for renderers that do not indent: after any number of documents without footnotes (any trees of containers as in C51) the renderer gives for any events what a new one gives. The full claim is false: proved counterexamples with footnotes and with indentation."
  },
  {
   "property": "C20",
   "status": "proved",
   "theorems": [
    "Jotdown.Html.C20_link_definitions_invisible",
    "Jotdown.Html.C20_link_definitions_invisible_in_notes",
    "Jotdown.Html.C20_raw_contents",
    "Jotdown.Html.C20_raw_in_image_fails"
   ],
   "note": "Raw contents: outside images. Inside images the claim is false (last theorem)."
  },
  {
   "property": "C21",
   "status": "proved",
   "theorems": [
    "Jotdown.Numbers.C21_ordered_marker_value"
   ],
   "note": ""
  },
  {
   "property": "C22",
   "status": "proved",
   "theorems": [
    "Jotdown.Numbers.C22_roman_roundtrip",
    "Jotdown.Numbers.C22_roman_list_item"
   ],
   "note": ""
  },
  {
   "property": "C23",
   "status": "proved",
   "theorems": [
    "Jotdown.Numbers.C23_list_continuation"
   ],
   "note": ""
  },
  {
   "property": "C24",
   "status": "proved",
   "theorems": [
    "Jotdown.Lex.C24_scan_loses_nothing",
    "Jotdown.Lex.C24_tokens_cover_line"
   ],
   "note": ""
  },
  {
   "property": "C25",
   "status": "proved",
   "theorems": [
    "Jotdown.Lex.C25_scan_on_char_boundaries"
   ],
   "note": ""
  },
  {
   "property": "C26",
   "status": "proved",
   "theorems": [
    "Jotdown.Inline.C26_dash_runs",
    "Jotdown.Inline.C26_hyphen_run_scanned"
   ],
   "note": ""
  },
  {
   "property": "C27",
   "status": "proved",
   "theorems": [
    "Jotdown.Inline.C27_period_runs",
    "Jotdown.Inline.C27_period_run_scanned"
   ],
   "note": ""
  },
  {
   "property": "C28",
   "status": "proved",
   "theorems": [
    "Jotdown.Block.C28_lines_partition",
    "Jotdown.Block.C28_lines_on_char_boundaries"
   ],
   "note": ""
  },
  {
   "property": "C29",
   "status": "proved",
   "theorems": [
    "Jotdown.Block.C29_block_events_form_a_tree"
   ],
   "note": "Block events; the public events are covered by C32."
  },
  {
   "property": "C30",
   "status": "proved",
   "theorems": [
    "Jotdown.Block.C30_terminates",
    "Jotdown.Block.C30_block_consumes_lines"
   ],
   "note": ""
  },
  {
   "property": "C31",
   "status": "partial",
   "theorems": [
    "Jotdown.C31_no_panic_partial",
    "Jotdown.C31_no_panic_short",
    "Jotdown.C31_heading_panics"
   ],
   "note": "All of Parser::new and the iteration over all events. The full claim is false: 65536 or more # panic (last theorem), and lists nested 65536 deep would; everything else is proved impossible. A hard lower bound of the length for the second panic is proved (16 KiB)."
  },
  {
   "property": "C32",
   "status": "proved",
   "theorems": [
    "Jotdown.C32_document_tree",
    "Jotdown.C32_document_events"
   ],
   "note": ""
  },
  {
   "property": "C33",
   "status": "proved",
   "theorems": [
    "Jotdown.C33_no_empty_text"
   ],
   "note": ""
  },
  {
   "property": "C34",
   "status": "proved",
   "theorems": [
    "Jotdown.C34_ranges_valid",
    "Jotdown.Block.C34_block_spans_valid"
   ],
   "note": ""
  },
  {
   "property": "C35",
   "status": "proved",
   "theorems": [
    "Jotdown.C35_ranges_ordered",
    "Jotdown.Block.C35_block_spans_ordered"
   ],
   "note": "Captions are emitted before the rows of their table and so out of order; they are excluded in the statement."
  },
  {
   "property": "C36",
   "status": "proved",
   "theorems": [
    "Jotdown.C36_heading_ids",
    "Jotdown.C36_unique_without_override",
    "Jotdown.C36_own_attribute",
    "Jotdown.C36_override_leaks"
   ],
   "note": "For every run that does not panic and sources up to 4 GiB, in terms of the events only: headingsOf reads the headings, their contents and the attributes given to them off the events. That the first pass and the second read the same contents from a heading although they tell the inline parser differently where its lines end is proved by a simulation (Proofs/Sim*). The leak of explicit ids to following headings is part of the specification (carryOut) and proved as a finding."
  },
  {
   "property": "C37",
   "status": "proved",
   "theorems": [
    "Jotdown.C37_section_ids",
    "Jotdown.C32_document_tree"
   ],
   "note": "C32_document_tree: sections nest; C37_section_ids: each section start carries the id of the heading it starts with, and these are the ids of C36."
  },
  {
   "property": "C38",
   "status": "proved",
   "theorems": [
    "Jotdown.C38_reference",
    "Jotdown.C38_events",
    "Jotdown.C48_inline_notation",
    "Jotdown.C38_attributes_leak"
   ],
   "note": "For every run that does not panic and sources up to 4 GiB. Definitions (with their attributes) and headings are read off the events. C48_inline_notation: which label each reference has. If several headings have the text, one of them is meant. The leak of definition attributes is proved as a finding."
  },
  {
   "property": "C39",
   "status": "partial",
   "theorems": [
    "Jotdown.C39_verbatim_partial",
    "Jotdown.C39_single_line_partial",
    "Jotdown.C39_fails"
   ],
   "note": "Proved for the line where verbatim starts, and completely for verbatim on one line. The full property is false (C39_fails): on a later line a backslash before the closing backtick keeps the text open, since set_current_line makes a lexer that is not in verbatim mode."
  },
  {
   "property": "C40",
   "status": "proved",
   "theorems": [
    "Jotdown.Attr.C40_attr_split_invariant"
   ],
   "note": ""
  },
  {
   "property": "C41",
   "status": "proved",
   "theorems": [
    "Jotdown.Attr.C41_recognised_attrs_parse"
   ],
   "note": ""
  },
  {
   "property": "C42",
   "status": "proved",
   "theorems": [
    "Jotdown.Block.C42_code_block_extent"
   ],
   "note": ""
  },
  {
   "property": "C43",
   "status": "proved",
   "theorems": [
    "Jotdown.Block.C43_sections_nest_by_level",
    "Jotdown.C43_document_sections"
   ],
   "note": "Block events and public events."
  },
  {
   "property": "C44",
   "status": "proved",
   "theorems": [
    "Jotdown.Block.C44_table_events"
   ],
   "note": ""
  },
  {
   "property": "C45",
   "status": "proved",
   "theorems": [
    "Jotdown.C32_document_tree",
    "Jotdown.Block.C29_block_events_form_a_tree"
   ],
   "note": "Spec/Place: which container and event may stand directly inside which container."
  },
  {
   "property": "C46",
   "status": "proved",
   "theorems": [
    "Jotdown.C46_text_is_source"
   ],
   "note": ""
  },
  {
   "property": "C47",
   "status": "proved",
   "theorems": [
    "Jotdown.C47_no_attribute_lost",
    "Jotdown.C47_document_events",
    "Jotdown.DocEvents.unique"
   ],
   "note": "C47_document_events: the whole event stream as a function of the block events (Spec/Doc)."
  },
  {
   "property": "C48",
   "status": "proved",
   "theorems": [
    "Jotdown.C48_inline_notation",
    "Jotdown.C48_destination_repeats"
   ],
   "note": "For sources up to 4 GiB. Specification: Spec/Spelled, Spec/Notation. An empty label [text][] is the text of the link. Destinations and labels on several lines are put together from pieces in order (if there is no brace in them, see the finding C48_destination_repeats); which pieces is left open."
  },
  {
   "property": "C49",
   "status": "proved",
   "theorems": [
    "Jotdown.C49_escaped_text",
    "Jotdown.escape_after_verbatim"
   ],
   "note": "For every line of text with all its ASCII punctuation escaped. A backslash directly after verbatim text does not escape (escape_after_verbatim)."
  },
  {
   "property": "C50",
   "status": "proved",
   "theorems": [
    "Jotdown.C50_round_trip",
    "Jotdown.C50_round_trip_short",
    "Jotdown.C50_sections",
    "Jotdown.C50_sections_short"
   ],
   "note": "All trees of the kinds listed in the property, under the writing rules of Spec/RoundInline, Spec/RoundDoc and Spec/RoundSec. Not kinds of these trees: headings inside of other blocks, attributes of inline elements, reference links, mathematics that does not directly follow text. First and third theorem: if the parser returns (texts up to 4 GiB with sections); second and fourth: it does for texts of less than 16383 bytes."
  },
  {
   "property": "C51",
   "status": "partial",
   "theorems": [
    "Jotdown.Html.C51_html_partial",
    "Jotdown.Html.C51_class_fails"
   ],
   "note": "All trees of the kinds a parser gives, footnotes and notes included (labels and order of the notes are determined by the tree). The full claim is false for a class attribute on a task list or math (C51_class_fails), which is excluded."
  },
  {
   "property": "C52",
   "status": "proved",
   "theorems": [
    "Jotdown.Round.C52_text_to_html",
    "Jotdown.Round.C52_sections",
    "Jotdown.Round.C52_task_class"
   ],
   "note": "The kinds of trees of C50, where no task list is given a class (the classes would be run together, proved in C52_task_class). The labels of the notes and their order are determined by the tree (TreeNotes has exactly one solution)."
  },
  {
   "property": "C53",
   "status": "proved",
   "theorems": [
    "Jotdown.C53_blocks_are_written",
    "Jotdown.C53_marker_unique"
   ],
   "note": "Marker grammar in Spec/BlockSyntax. Table heads, captions, sections and list items of description lists have no marker of their own."
  },
  {
   "property": "C54",
   "status": "partial",
   "theorems": [
    "Jotdown.C54_tightness_partial",
    "Jotdown.C54_anywhere_partial",
    "Jotdown.C54_last_gap"
   ],
   "note": "All lists of documents of the kinds of C50, except those where the only blank line between blocks is before the very last block of the list: for these the full claim is false (last theorem: such a list is tight at the end of a document and loose at the end of a block quote)."
  },
  {
   "property": "C55",
   "status": "partial",
   "theorems": [
    "Jotdown.Main.C55_file",
    "Jotdown.Main.C55_stdout_partial",
    "Jotdown.Main.C55_no_panic",
    "Jotdown.Main.C55_unreadable",
    "Jotdown.Main.C55_not_created",
    "Jotdown.Main.C55_lost_output"
   ],
   "note": "With an output file the full claim is proved. For standard output the claim that exit status 0 means that everything arrived is false (counterexample C55_lost_output: the buffered writer is dropped without flush); what is proved instead: a prefix of the rendering arrives, at most the last 8192 bytes are missing when the exit status is 0, and nothing is missing if standard output takes everything."
  },
  {
   "property": "C56",
   "status": "proved",
   "theorems": [
    "Jotdown.Html.C56_render_total",
    "Jotdown.Html.C56_source",
    "Jotdown.Html.C56_short",
    "Jotdown.Html.C56_writers",
    "Jotdown.Html.C56_unnested_panics"
   ],
   "note": "By a simulation: the renderer does the same state changes on the document without everything that only affects the text of the output (raw formats, classes, attributes), for which C12 gives an output, and C16 carries it to every indentation. C56_unnested_panics: the nesting is needed."
  },
  {
   "property": "C57",
   "status": "proved",
   "theorems": [
    "Jotdown.Html.C57_raw_html_inserted",
    "Jotdown.Html.C57_source"
   ],
   "note": "Specification: Spec/RawHtml (dim: raw HTML taken for raw text of no format; WithTexts: insertion of texts of the document). The statement does not say which of the texts are inserted; that texts in HTML raw containers are copied and texts elsewhere escaped is C20_raw_contents, C11 and C13."
  }
 ]
}