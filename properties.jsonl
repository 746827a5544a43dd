{"id": "C01", "title": "Attribute parsing is total", "statement": "Attributes::try_from never panics: for every input string it returns Ok or Err, and an Err position is at most the length of the input without its trailing ASCII whitespace.", "quantifier": "every byte string (hence every &str)", "why_tests_cant": "the parser indexes its element vector (len - 1) and steps a state machine with a panicking arm; only a proof over all strings shows these are unreachable", "anchors": ["src/attr.rs: Attributes::try_from, Attributes::parse, Parser::parse, State::step"]}
{"id": "C02", "title": "Attribute error position is exact", "statement": "When Attributes::try_from fails at a byte inside the input, everything before that byte can still be extended to valid attributes, and nothing that starts with the input up to and including that byte can.", "quantifier": "every input string and every possible continuation of its prefixes", "why_tests_cant": "the claim quantifies over all continuations of a prefix", "anchors": ["src/attr.rs: ParseAttributesError, Attributes::parse, State::step"]}
{"id": "C03", "title": "Attribute grammar: the accepted elements come out, in order", "statement": "For every list of well-formed attribute elements (classes, ids, key=value with bare or quoted value, comments) written in djot attribute syntax with arbitrary whitespace between them, Attributes::try_from returns Ok with exactly these elements in the same order, duplicates and comments preserved.", "quantifier": "every element list, every choice of separating whitespace", "why_tests_cant": "unbounded number and size of elements", "anchors": ["src/attr.rs: Attributes::try_from, Parser::parse, State::step"]}
{"id": "C04", "title": "Adjacent attribute sets concatenate", "statement": "If a and b are each accepted by Attributes::try_from, a without trailing whitespace, then a followed directly by b is accepted and yields the elements of a followed by the elements of b.", "quantifier": "all pairs of accepted strings", "why_tests_cant": "a law over all pairs of inputs", "anchors": ["src/attr.rs: Parser::parse (restart on '{'), Attributes::try_from"]}
{"id": "C05", "title": "get_value: last value wins, classes concatenate", "statement": "Attributes::get_value(k) for k other than class is the value of the last element with key k, or None if there is none; for class it is the non-empty class values in order joined by single spaces, or None if that is empty.", "quantifier": "every attribute set and key", "why_tests_cant": "lists of any length with duplicates in any arrangement", "anchors": ["src/attr.rs: Attributes::get_value, AttributeValue::extend, AttributeKind::key"]}
{"id": "C06", "title": "contains_key agrees with get_value", "statement": "contains_key(k) holds exactly when some non-comment element has key k; for k other than class this is exactly when get_value(k) is Some.", "quantifier": "every attribute set and key", "why_tests_cant": "all sets and keys", "anchors": ["src/attr.rs: Attributes::contains_key, Attributes::get_value"]}
{"id": "C07", "title": "unique_pairs yields each key once with its effective value", "statement": "Attributes::unique_pairs emits every key of a non-comment element exactly once, in order of first occurrence, never a comment, and the value emitted equals get_value of that key (an all-empty class yields the empty value).", "quantifier": "every attribute set", "why_tests_cant": "all lists with duplicates in any arrangement", "anchors": ["src/attr.rs: Attributes::unique_pairs, AttributePairsIter::next"]}
{"id": "C08", "title": "Attribute values display with escapes removed", "statement": "Displaying an AttributeValue yields the raw value in which each backslash before an ASCII punctuation character is removed, scanning left to right, and nothing else is changed; the concatenation of parts() is the same string.", "quantifier": "every raw value", "why_tests_cant": "all strings, including runs of backslashes of any length", "anchors": ["src/attr.rs: AttributeValueParts::next, Display for AttributeValue"]}
{"id": "C09", "title": "Debug output of parsed attributes parses back", "statement": "For every Ok result a of Attributes::try_from, formatting a with {:?} and parsing the result again yields a.", "quantifier": "every accepted attribute string", "why_tests_cant": "round trip over an infinite language", "anchors": ["src/attr.rs: Debug for Attributes, Attributes::try_from"]}
{"id": "C10", "title": "Quoted attribute values keep their text", "statement": "The raw value of key=\"...\" is the quoted text with each run of newlines replaced by one space and otherwise unchanged (escapes are kept raw), for every quoted text; in particular no characters of the text are lost.", "quantifier": "every quoted text", "why_tests_cant": "all strings and placements of escapes and newlines", "anchors": ["src/attr.rs: Parser::parse (ValueQuoted, ValueEscape, ValueNewline, ValueContinued)"]}
{"id": "C11", "title": "Text and attribute escaping is safe and lossless", "statement": "Text passed in a Str event is written so that the output has no '<' or '>' and decoding the HTML entities gives the text back; inside attribute values the output additionally has no '\"'.", "quantifier": "every text", "why_tests_cant": "all strings", "anchors": ["src/html.rs: write_escape, write_text, write_attr"]}
{"id": "C12", "title": "HTML output of a well-nested event stream has balanced tags", "statement": "For every well-nested stream of events as produced by the parser that contains no raw HTML, the renderer's output scanned as HTML has every start tag closed by the matching end tag in properly nested order, whatever the texts, urls, attribute values, tightness, footnotes and images in it.", "quantifier": "all well-nested event streams, all texts and attributes", "why_tests_cant": "unbounded nesting and arbitrary contents; tags are suppressed in tight lists, images, link definitions and the footnote epilogue", "anchors": ["src/html.rs: Renderer::render_event, render_epilogue"]}
{"id": "C13", "title": "Text cannot inject markup", "statement": "In a well-nested document without raw HTML, replacing the texts of Str events by any other texts never changes the sequence of tags in the rendered output.", "quantifier": "all well-nested documents without raw HTML and all replacement texts", "why_tests_cant": "all strings", "anchors": ["src/html.rs: render_event (Str), write_text, write_attr"]}
{"id": "C14", "title": "Footnotes are numbered by first reference and rendered once", "statement": "The footnote reference to a label is rendered with number n where the label is the n-th distinct label referenced so far; the epilogue renders one item per referenced label in that order, numbered 1..N, including labels first referenced inside footnotes, each exactly once, and unreferenced footnotes do not appear.", "quantifier": "all event streams", "why_tests_cant": "any number of footnotes, cyclic and self references, references inside footnotes", "anchors": ["src/html.rs: Footnotes::reference, Footnotes::next, render_epilogue"]}
{"id": "C15", "title": "The footnote epilogue terminates", "statement": "Rendering the epilogue terminates for every event stream, also when footnotes reference each other cyclically.", "quantifier": "all event streams", "why_tests_cant": "termination over all inputs", "anchors": ["src/html.rs: render_epilogue, Footnotes::next"]}
{"id": "C16", "title": "Indentation only adds layout whitespace", "statement": "The output of Renderer::indented with any indentation differs from Renderer::minified only in inserted newlines and indentation strings: deleting them gives the minified output.", "quantifier": "all event streams, all indentation strings and levels", "why_tests_cant": "relation between two runs over all streams", "anchors": ["src/html.rs: Renderer::block, Renderer::indent, Renderer::minified, Renderer::indented"]}
{"id": "C17", "title": "Rendering is incremental", "statement": "Pushing a stream of events in any number of batches, with push_event or push_events, writes the same output as pushing it at once.", "quantifier": "all event streams and all ways to split them", "why_tests_cant": "all split points", "anchors": ["src/lib.rs: Render::push_events, Render::push_event", "src/html.rs: Renderer::render_event"]}
{"id": "C18", "title": "A failing writer stops rendering with a prefix of the output", "statement": "If the writer fails at some write, rendering returns an error at that point, writes nothing further, and what was written is a prefix of the output of an unfailing writer; write_events reports the writer's own error.", "quantifier": "all event streams, all failure points", "why_tests_cant": "every crash point of the writer", "anchors": ["src/lib.rs: Render::write_event, write_events, push_events", "src/html.rs: all out.write_* calls with ?"]}
{"id": "C19", "title": "A renderer can be reused for several documents", "statement": "Rendering two documents one after the other with the same renderer gives the output of rendering each with a fresh renderer.", "quantifier": "all pairs of documents", "why_tests_cant": "history of a stateful renderer", "anchors": ["src/html.rs: Renderer fields, Footnotes::in_epilogue, render_epilogue"]}
{"id": "C20", "title": "Link definitions and non-HTML raw content are invisible", "statement": "The contents of link definitions contribute nothing to the HTML output. Outside images (whose alternative text is written as plain text), the contents of raw blocks and inlines whose format is not html contribute nothing, and raw html contents are written verbatim.", "quantifier": "all event streams", "why_tests_cant": "all contents", "anchors": ["src/html.rs: render_event (LinkDefinition, RawBlock, RawInline, Str)"]}
{"id": "C21", "title": "Ordered list markers never overflow and have the right value", "statement": "For every line recognised as an ordered list item the start value is computed without overflow, underflow or panic and equals the value of the decimal, alphabetic or roman numeral in the marker.", "quantifier": "every line of text", "why_tests_cant": "19-digit decimals near 2^64 and arbitrary, non-canonical roman digit strings", "anchors": ["src/lib.rs: OrderedListNumbering::parse_number, OrderedListStyle::number", "src/block.rs: IdentifiedBlock::maybe_ordered_list_item"]}
{"id": "C22", "title": "Canonical roman numerals parse to their value", "statement": "The roman numeral for n, in lower or upper case, parses to n.", "quantifier": "every n from 1 to 3999", "why_tests_cant": "a table of that size is not covered by unit tests", "anchors": ["src/lib.rs: OrderedListNumbering::parse_number"]}
{"id": "C23", "title": "List continuation is decided by marker type", "statement": "A list item continues the list of the previous item exactly if both have the same bullet or the same numbering and style, or one of them is a single-letter roman numeral that read as a letter makes the numbering consecutive.", "quantifier": "all pairs of list markers", "why_tests_cant": "all values and styles", "anchors": ["src/block.rs: ListType::continues, ListNumber::ambiguity"]}
{"id": "C24", "title": "Inline scanning loses no input", "statement": "The tokens that the inline scanner produces for a line are non-empty and their lengths add up to the length of the line, also when tokens are peeked and in verbatim mode.", "quantifier": "every line and every interleaving of peeks", "why_tests_cant": "all byte strings", "anchors": ["src/lex.rs: Lexer::token, Lexer::next, Lexer::peek"]}
{"id": "C25", "title": "Inline scanning never splits a character", "statement": "For valid UTF-8 every token boundary is a character boundary.", "quantifier": "every UTF-8 line", "why_tests_cant": "all byte strings", "anchors": ["src/lex.rs: Lexer::token"]}
{"id": "C26", "title": "Runs of dashes become em and en dashes of the same total length", "statement": "A run of n >= 2 hyphens yields em dashes followed by en dashes that together cover exactly n hyphens; only em dashes if 3 divides n, else only en dashes if 2 divides n, else the fewest en dashes possible.", "quantifier": "every n >= 2", "why_tests_cant": "all run lengths, incl. an unbounded search with subtraction", "anchors": ["src/inline.rs: Parser::parse_atom (Seq(Hyphen))"]}
{"id": "C27", "title": "Runs of periods become ellipses", "statement": "A run of n periods yields n/3 ellipses followed by the n mod 3 remaining periods as text.", "quantifier": "every n", "why_tests_cant": "all run lengths", "anchors": ["src/inline.rs: Parser::parse_atom (Seq(Period))"]}
{"id": "C28", "title": "Lines partition the source", "statement": "Splitting a source into lines covers it exactly: line ranges are contiguous, non-empty, start at 0, end at the source length, and contain a newline only as their last byte.", "quantifier": "every source", "why_tests_cant": "all strings", "anchors": ["src/block.rs: lines"]}
{"id": "C29", "title": "Block structure is well nested", "statement": "The block-level structure of every document is a tree: each container or leaf entered is exited by the matching exit, in nested order, with the document node around everything.", "quantifier": "every source", "why_tests_cant": "unbounded nesting; the parser patches already emitted events (sections before attributes, description terms, table heads, list tightness)", "anchors": ["src/block.rs: TreeParser::parse, parse_block, parse_leaf, parse_container, parse_table, close_list"]}
{"id": "C30", "title": "Block parsing always makes progress", "statement": "Block parsing terminates and consumes every line of every source.", "quantifier": "every source", "why_tests_cant": "termination over all inputs", "anchors": ["src/block.rs: TreeParser::parse, parse_block, MeteredBlock::new"]}
{"id": "C31", "title": "Parsing never panics", "statement": "Parser::new and iterating over all events never panic, for any source.", "quantifier": "every source", "why_tests_cant": "all inputs; the code indexes, slices and unwraps throughout", "anchors": ["src/lib.rs: Parser::new, Parser::next", "src/block.rs", "src/inline.rs"]}
{"id": "C32", "title": "Events are well nested", "statement": "The events of every document form a tree: the first is Start(Document), the last End(Document), and every Start(c) is closed by an End(c) with an equal container in nested order.", "quantifier": "every source", "why_tests_cant": "unbounded nesting, delimiter matching over multiple lines, attributes and links rewriting buffered events", "anchors": ["src/lib.rs: Parser::next_span, block, inline", "src/inline.rs: Parser::next"]}
{"id": "C33", "title": "No empty text events", "statement": "No Str event is ever empty.", "quantifier": "every source", "why_tests_cant": "all inputs", "anchors": ["src/lib.rs: Parser::block, Parser::inline", "src/inline.rs: Parser::next, merge_str_events, apply_word_attributes", "CHANGELOG.md: 0.10.0"]}
{"id": "C34", "title": "Event ranges lie within the source", "statement": "Every range of the offset iterator satisfies start <= end <= source length and both ends are character boundaries, so slicing the source with it never panics.", "quantifier": "every source", "why_tests_cant": "all inputs", "anchors": ["src/lib.rs: OffsetIter::next", "src/block.rs", "src/inline.rs"]}
{"id": "C35", "title": "Event ranges are ordered", "statement": "Apart from table captions, ranges of consecutive events do not overlap and are in source order.", "quantifier": "every source", "why_tests_cant": "all inputs", "anchors": ["src/lib.rs: OffsetIter::next", "tests/afl/src/lib.rs: parse"]}
{"id": "C36", "title": "Automatic heading ids are unique and non-empty", "statement": "Automatically assigned heading ids are pairwise distinct and non-empty and consist of the heading's text with whitespace and punctuation normalised, plus a number if needed; an explicit id attribute overrides it.", "quantifier": "every document, any number of headings with equal text", "why_tests_cant": "any number of collisions, incl. headings that look like numbered ids", "anchors": ["src/lib.rs: PrePass::new, heading_id"]}
{"id": "C37", "title": "Section and heading ids are found for every heading", "statement": "The id reported in Start(Section) and Start(Heading) is the id assigned to that heading, equal at start and end.", "quantifier": "every document", "why_tests_cant": "any number of headings", "anchors": ["src/lib.rs: PrePass::heading_id_by_location, Parser::block"]}
{"id": "C38", "title": "Reference links resolve", "statement": "A reference link resolves to the last definition with its label, else to a heading with exactly that text, else is Unresolved with the label as destination; attributes of the definition come before those of the link.", "quantifier": "every document", "why_tests_cant": "any number of definitions and headings in any order", "anchors": ["src/lib.rs: PrePass::new, heading_id_by_tag, Parser::inline"]}
{"id": "C39", "title": "Verbatim is closed by the first backtick run of equal length", "statement": "Within a paragraph, verbatim opened by n backticks ends at the first later run of exactly n backticks, or at the end of the block, regardless of backslashes in its content.", "quantifier": "every paragraph", "why_tests_cant": "all contents and line splits", "anchors": ["src/inline.rs: Parser::parse_verbatim, Input::set_current_line", "src/lex.rs: Lexer::verbatim"]}
{"id": "C40", "title": "Attribute validity does not depend on line splitting", "statement": "Whether inline attributes spread over several lines are recognised depends only on the concatenation of the lines.", "quantifier": "all attribute strings and all ways to split them into lines", "why_tests_cant": "all split points", "anchors": ["src/attr.rs: Validator::parse, valid", "src/inline.rs: resume_attributes"]}
{"id": "C41", "title": "Recognised attributes always parse", "statement": "Whenever a prefix of a text is recognised as attributes, parsing exactly that prefix succeeds, so the parser's expect(\"should be valid\") never fires.", "quantifier": "every text", "why_tests_cant": "agreement of two implementations on all strings", "anchors": ["src/attr.rs: valid, Validator::parse, Parser::parse", "src/lib.rs: expect(\"should be valid\")", "src/inline.rs: expect(\"should be valid\")"]}
{"id": "C42", "title": "Code blocks end at their closing fence", "statement": "A fenced code block opened with n fence characters extends to the first following line that is a fence of the same character with at least n characters and nothing else, or to the end of its container; its content lines are emitted unchanged apart from removal of the opening indentation.", "quantifier": "every source", "why_tests_cant": "all contents", "anchors": ["src/block.rs: Kind::continues (Fenced), parse_leaf"]}
{"id": "C43", "title": "Sections nest by heading level", "statement": "Within the document, each top-level heading of level l closes exactly the open sections of level >= l and opens one of level l, so that open sections always have strictly increasing levels.", "quantifier": "every sequence of heading levels", "why_tests_cant": "unbounded sequences", "anchors": ["src/block.rs: parse_leaf (open_sections)"]}
{"id": "C44", "title": "Table separator rows set alignments", "statement": "A table row whose cells are all separators is not emitted but makes the preceding row a head row and sets the column alignments for it and following rows.", "quantifier": "every table", "why_tests_cant": "any number of rows and columns", "anchors": ["src/block.rs: parse_table"]}
{"id": "C45", "title": "Containers contain only what belongs in them", "statement": "List items, task-list items, description terms and details occur only directly inside lists and lists contain nothing else; rows and captions occur only directly inside tables, cells only inside rows, sections only inside sections or the document; leaves contain only inline content.", "quantifier": "every source", "why_tests_cant": "unbounded nesting of every pair of constructs", "anchors": ["src/block.rs: parse_container, parse_table, parse_leaf", "src/lib.rs: Container"]}
{"id": "C46", "title": "Text events are the source at their range", "statement": "For every Str event of the offset iterator, slicing the source with the event's range yields exactly the text of the event.", "quantifier": "every source and every Str event of its offset iterator", "why_tests_cant": "Text is assembled from merged tokens, attribute rollbacks and verbatim scanning across lines; tests check only some of these paths.", "anchors": ["src/lib.rs: OffsetIter, Parser::inline", "src/inline.rs: Parser::next, merge_str_events", "src/block.rs: TreeParser"]}
{"id": "C47", "title": "Block attributes are delivered exactly once", "statement": "Every attribute specifier line {...} before a block reaches the reader: its attributes are, in source order, on the Start event of the next block or on the next ThematicBreak, whose range starts at the first specifier; if a blank line or the end of the container comes first they are delivered in an Attributes event of their own. No attribute is lost or delivered twice.", "quantifier": "every source", "why_tests_cant": "any number of specifiers in any nesting, before any block", "anchors": ["src/lib.rs: Parser::block", "src/block.rs: TreeParser::parse_leaf, Atom::Attributes"]}
{"id": "C48", "title": "Inline elements are what is written at their range", "statement": "In the offset iterator every inline element starts at its opening delimiter and ends at its closing delimiter followed by its attributes, as the syntax defines them (same delimiter, same number of backticks, braces where required); the attributes of its Start event are those written after it (for references, after those of the definition); the destination of a link is the one written in parentheses (pieces of it in order if it is spread over several lines) or what its label resolves to, an empty label being the text of the link (a line break counts as a space, escapes are left out); every Symbol, footnote reference, quote, dash, ellipsis, escape and break covers exactly its notation.", "quantifier": "every source and every inline event of its offset iterator", "why_tests_cant": "delimiters, attributes and destinations may span any number of lines in any nesting, and the parser patches earlier events when it finds a later delimiter", "anchors": ["src/inline.rs: Parser", "src/lib.rs: Parser::inline, OffsetIter", "src/attr.rs: Parser"]}
{"id": "C49", "title": "Escaped text is literal", "statement": "Any line of text (not starting or ending with whitespace) can be written literally: with a backslash before each ASCII punctuation character, parsing gives one paragraph whose events are only text and escapes, and whose text is exactly the line.", "quantifier": "every UTF-8 line of text", "why_tests_cant": "infinitely many texts; every punctuation character may start some construct in some context", "anchors": ["src/lex.rs: Lexer::token, escape", "src/inline.rs: Parser::parse_event", "src/block.rs: IdentifiedBlock::new"]}
{"id": "C50", "title": "Parsing gives back what was written", "statement": "For every document tree built from paragraphs (plain text, escapes, soft and hard line breaks, non-breaking spaces, ellipses, dashes, symbols, autolinks, references to footnotes, verbatim text (code, raw text in a format, or mathematics after text, displayed or not) with any number of backticks and with padding where needed, the seven delimited inline elements with or without braces, single and double quotations (with or without braces) and lone closing quotation marks, apostrophes after words, links and images with a destination, in any nesting), thematic breaks, code blocks, raw blocks, block quotes, divs, lists (bullets, task boxes, numerals, or terms with details, tight or loose), footnotes and tables (rows of cells with inline content, separators that make head rows and give alignments, a caption of one or several lines) in any nesting, any of these blocks with attributes in braces on lines before it (other than the paragraph a list item or footnote begins with), and from sections nested by the levels of their headings (with titles on one or several lines and automatic ids), parsing the text the tree is written as (following the djot syntax) yields exactly the events of the tree, if the parser does not panic for the size of the text (C31; it does not for less than 16 KiB). The tree satisfies the writing rules: characters with a meaning are escaped; neighbours whose marks would run together are not written next to each other; list items begin with a paragraph; two lists of which the second has no attributes are not neighbours; a blank line between blocks of a list is not only before its very last block (see C54). Headings inside of other blocks, attributes of inline elements, reference links and mathematics that does not directly follow text are not kinds of such trees.", "quantifier": "every document tree of these kinds, of any size and depth, that satisfies the stated writing rules", "why_tests_cant": "infinitely many trees; interactions between nested constructs, line prefixes and fences cannot be enumerated", "anchors": ["src/block.rs: TreeParser", "src/inline.rs: Parser", "src/lib.rs: Parser::next", "src/lex.rs: Lexer"]}
{"id": "C51", "title": "The HTML of a document is that of its tree", "statement": "Rendering any tree of containers gives exactly the HTML the specification assigns to it: element names, attributes (given and implied ones, classes combined), escaped text, alternative text of images, raw content, omitted definitions, tight paragraphs without tags, references to footnotes, the list of notes at the end (which notes, in which order, with which content, with the link back at the end of the last paragraph), and the layout of lines and indentation.", "quantifier": "every tree of events, every indentation option", "why_tests_cant": "any nesting of some thirty kinds of containers with any attributes", "anchors": ["src/html.rs: Writer::render_event, write_class, block, indent"]}
{"id": "C52", "title": "From text to HTML", "statement": "For every document tree of the kinds of C50 where no task list is given a class, parsing the text it is written as and rendering the events gives exactly the HTML of the tree.", "quantifier": "every document tree of these kinds and every indentation option", "why_tests_cant": "as C50 and C51, for the composition of parser and renderer", "anchors": ["src/lib.rs: Parser", "src/html.rs: Renderer"]}
{"id": "C53", "title": "Blocks are what is written where they begin", "statement": "Every start of a block in the event stream corresponds to the marker of exactly this block at that place of the text: heading level, list bullet, number, style and value, check mark, fence and class or language, label of a definition, block quote, table row, thematic break; the range of the event ends where the marker ends. A paragraph begins exactly where no marker is. A line never has two readings.", "quantifier": "every text and every block event in it", "why_tests_cant": "the number of lines and their nesting is unbounded; every prefix of a line could be taken for a marker", "anchors": ["src/block.rs: IdentifiedBlock::new, maybe_ordered_list_item, parse_block, Parser", "src/lib.rs: Parser::block"]}
{"id": "C54", "title": "Tightness of lists", "statement": "A list is reported as tight if and only if no blank line separates its items or the blocks in its items (blank lines in inner lists, before inner lists and after the list do not count).", "quantifier": "every list of a document, with items of any number and size, wherever it is in the document", "why_tests_cant": "infinitely many nestings; the flag depends on the history of blank lines over nested containers", "anchors": ["src/block.rs: TreeParser::parse_block, parse_container, close_list"]}
{"id": "C55", "title": "The program writes what the library renders", "statement": "The jotdown command, given an input it can read, writes the rendering of it (with the options given) and nothing else: what arrives at the output file or standard output is a prefix of it, and the exit status is 0 only if all of it arrived; if the input cannot be read or the output file cannot be created, the exit status is 1 and nothing is written.", "quantifier": "every input, all options, and every way the output file or standard output may accept bytes and fail", "why_tests_cant": "all failure points of the output device; buffering in front of standard output", "anchors": ["src/main.rs: run, main", "src/lib.rs: Render::write_events"]}
{"id": "C56", "title": "Rendering a document never panics", "statement": "Rendering the events of a document to HTML always ends without a panic and without an endless loop, whatever is in it: raw HTML, any texts, attributes, classes, urls, labels, footnotes that refer to each other or to themselves, footnotes inside of images, minified or with any indentation string and depth. With the parser: for every source, if parsing it does not panic then rendering it does not either, and for every source below 16 KiB neither does. The same while the events arrive, and when the writer fails: then its error is returned.", "quantifier": "every well-nested stream of events and every beginning of it, every UTF-8 source, every indentation, every writer", "why_tests_cant": "all documents, all nestings of footnotes, images and raw blocks; the counters and stacks of the renderer are checked or indexed at every event", "anchors": ["src/html.rs: Renderer, Writer::render_event, render_epilogue, Footnotes", "src/lib.rs: Render::push_events"]}
{"id": "C57", "title": "Nothing but raw HTML can unbalance the output", "statement": "The HTML of any document, also with raw HTML in it, is the HTML of the same document with its raw HTML taken for raw text of no format - which is balanced - with only texts of the document inserted, as they are.", "quantifier": "all well-nested event streams with names the parser accepts, every UTF-8 source that parses, every indentation that is not markup", "why_tests_cant": "raw HTML anywhere, also in footnotes that are rendered later; the raw state must neither leak out of its container nor suppress or add any tag", "anchors": ["src/html.rs: Raw, Writer::render_event (Container::RawBlock, Container::RawInline, Event::Str), render_epilogue"]}
