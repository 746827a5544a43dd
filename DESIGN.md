# Design of the formal model of hellux/jotdown

## Approach

The model is an executable Lean 4 program in `lean/Verif/Model/`, written function by function after
the Rust sources; each definition cites file and lines. Properties are stated in `lean/Verif/Props/`
against small independent specifications in `lean/Verif/Spec/`; helper lemmas live in
`lean/Verif/Proofs/`.

Conventions of the model

* A Rust `&str`/`String`/`&[u8]` is a `List UInt8` (its UTF-8 bytes), usize offsets are `Nat`.
  Rust's char predicates used by the code are all ASCII predicates, so char iteration and byte
  iteration agree; slicing of `str` checks char boundaries explicitly where modelled as checked.
* `&mut self` methods return the new state.
* Panics (index/slice out of range, `unwrap`, `expect`, `unreachable!`, arithmetic underflow in debug
  builds, `debug_assert!`) are explicit values of `Except Panic`.
* Unbounded loops take fuel and report `Panic.fuel` when it is exhausted; that this never happens is
  part of the no-panic / termination theorems.
* `HashMap`/`BTreeMap` are association lists with replace-on-insert (the code never iterates over them).
* Integers are `Nat` except where a property is about overflow; then bounds are proved explicitly.
* `Cow` is the string it denotes. `fmt::Write` is a sequence of written strings (C18 models failure).

## Structure

| modules | contents |
|---------|----------|
| `Model/Basic` | bytes, spans, panics, checked slicing |
| `Model/Attr` | src/attr.rs: `State::step`, `Parser`, `Validator`, `Attributes`, `AttributeValueParts`, `Debug` |
| `Model/Lex` | src/lex.rs: the whole lexer |
| `Model/Numbers` | src/lib.rs: `OrderedListNumbering::parse_number`, roman numerals, list markers |
| `Model/Block` | src/block.rs: lines, `IdentifiedBlock`, continuation, `TreeParser` in full |
| `Model/Inline` | src/inline.rs: `Input`, `Parser` in full, including multi-line attributes, verbatim, links, rollback |
| `Model/Parser` | src/lib.rs: `PrePass`, `Parser::{new, inline, block, next}`, `OffsetIter` |
| `Model/Html` | src/html.rs: `Writer`, `Footnotes`, escaping; src/lib.rs: trait `Render` with writers that may fail |
| `Model/Main` | src/main.rs: `run`, `main` after the command line is parsed; `std::io::BufWriter` with its capacity of 8192 bytes |
| `Spec/*` | the specifications in which properties are stated; they use the types of events and spans but none of the parser or renderer functions, except `Spec/Doc`, which says how the events of a document come from its blocks and from reading each leaf with a fresh inline parser |
| `Proofs/*` | helper lemmas and invariants |
| `Props/*` | the theorems of the manifest, each with examples |

## Trusted base

* Lean's kernel (Lean 4.33.0). No `native_decide`, no `bv_decide`, no own axioms.
* Axioms: every theorem in the manifest depends on a subset of `propext`, `Classical.choice`, `Quot.sound`
  (checked with `#print axioms`). No theorem rests on another axiom.
* The reading of the Rust code: nothing here was compiled or run from /repo. The model was executed (as a test, not as a proof)
  on the example documents of /repo: `tests/html-ut` 52 of 52 agree, the event tests of src/lib.rs, src/block.rs and
  src/inline.rs agree on 184 cases; 15 cases differ only in names of test helpers.
* The specifications in `Spec/*` and the predicates in the theorem statements.

Modelled: src/attr.rs, src/lex.rs, src/block.rs, src/inline.rs, src/html.rs in full except what is listed below; of src/lib.rs
the parser, prepass, offset iterator, list numbering and the trait `Render`; src/main.rs after the parsing of the command line
(`BufWriter` as the standard library of Rust documents it, including the flush on drop that ignores errors).

Not modelled:

* clap's parsing of the command line in src/main.rs, the message printed on standard error, the line buffer inside `std::io::stdout` (part of the device that takes bytes); the cargo examples, bench and wasm modules, tests;
* `Attributes` construction API (`new`, `insert`, `FromIterator`, `Extend`, `IntoIterator`, mutable iteration), trivial conversions
  (`From<ListBulletType> for u8/char`, `TryFrom`), `Clone`, `PartialEq`;
* memory, stack and time: `Vec` growth, the recursion depth of `parse_block` / `parse_container`;
* 32-bit wrap-around of indices into stores (`u32` indices in inline.rs, `i32` counters); `Heading.location as u32` is modelled as
  mod 2^32, `u16` conversions with `try_into().unwrap()` as a panic;
* `HashMap` hashing and `binary_search` with equal keys: `heading_id_by_tag` may return any heading with the text, the model takes
  the one found by the standard library's algorithm; the theorems only say that it is some heading with the text;
* debug builds versus release builds: arithmetic overflow and `debug_assert!` are panics in the model, as in debug builds.

## Plan and result per property

| id | what is modelled | how it is proved |
|----|----------|-------|
| C01 | attr.rs State::step, Parser::parse, Attributes::parse, with panics | invariant over the byte loop: value/comment states imply a last element exists |
| C02 | same | reachability: every non-Invalid state can reach Done; Invalid cannot be left |
| C03 | same + independent printer of elements (Spec/Attr) | induction over elements and over bytes of each |
| C04 | same | loop over append, Done then '{' restarts |
| C05-C07 | attr.rs get_value, contains_key, AttributePairsIter as a loop over the position | induction on the list against a declarative spec |
| C08 | AttributeValueParts::next iterated | induction on length against a recursive unescape |
| C09 | Debug printer + parser | false (witness proved); partial: values that do not end in an unescaped backslash, by C03's lemma |
| C10 | parser | false (witness proved); partial without escaped newline |
| C11 | html.rs write_escape as find-loop | induction |
| C12, C13 | full html.rs renderer; independent HTML tag scanner (Spec/Tags) | simulation: per-event invariant relating renderer state and scanner stack; lifted to every source with the event invariants of C32 and C45 |
| C14, C15 | Footnotes + render_epilogue | invariant on references / number; measure labels not yet emitted |
| C16 | renderer with indentation | two-run simulation |
| C17, C18 | Render::push_events, writers that may fail | fold laws; output as list of writes |
| C19 | renderer state after a document | false (witnesses proved: after a document with footnotes the epilogue flag stays set; a renderer that indents writes a blank line first); proved for renderers that do not indent and documents without footnotes: the states differ only in whether something has been written, and nothing depends on it (`Sim`) |
| C20 | renderer | state invariant on ignore/raw; false inside images (witness proved) |
| C21, C22 | maybe_ordered_list_item, parse_number with u64 bounds | induction on digits; finite table for canonical numerals |
| C23 | ListType::continues | case analysis against a declarative spec |
| C24, C25 | lex.rs in full | induction on remaining input |
| C26, C27 | parse_atom | arithmetic, induction |
| C28 | block.rs lines | induction |
| C29, C30 | block.rs TreeParser in full | invariant on events/open stack (`BT`), measure on remaining bytes |
| C31-C35 | block.rs, inline.rs, lib.rs in full | invariant of the inline machine (`Ready`, `Proofs/Inl*`), invariant of the block tree (`BT`), invariant of the event iterator (`Inv`, `Proofs/Parse*`) with a termination measure |
| C36-C38 | PrePass, binary search contract | invariants on used ids, sortedness; the contents read in the first pass are those of the events by a simulation of two inline parsers that learn the end of the last line at different times (`Proofs/Sim*`), and definitions and headings are read off the events (`Spec/Headings`, `Proofs/Outline*`) |
| C39 | inline verbatim | false on continuation lines (`C39_fails`); proved for the first line of verbatim text (`C39_verbatim_partial`, `C39_single_line_partial`) |
| C40, C41 | Validator, valid, Parser | automaton agreement |
| C42-C44 | block.rs | per-function specs |
| C45 | the whole parser | `Spec/Place` tree grammar, part of the same invariant |
| C46 | the whole parser | the inline machine keeps events whose text is the source at their span |
| C47 | lib.rs Parser::block | `Spec/Doc`: the event stream as a relation on block events; multiset of attributes |
| C48 | the whole parser | `Spec/Spelled`: ghost stack of open elements with the source of their delimiters in the invariant of the inline machine |
| C49 | the whole parser | instance of C50 for a line of escapes and single characters |
| C50 | the whole parser | `Spec/RoundInline`, `Spec/RoundDoc`: writer and expected events; `Proofs/Round*`: the inline machine on the flattened tree (one invariant for the pending delimiters; `RoundDelim` for delimiters, `RoundCode` for verbatim text and mathematics (the dollar signs are read as text until the backticks give them a meaning), `RoundLink` for destinations), block identification, container stripping, list continuation and looseness (`RoundItem`, `RoundLoop`, `RoundList`; `RoundTerm`: an item of a description list, whose first paragraph becomes the term) and event emission by induction on the tree; `RoundRow`, `RoundTable`: rows split into cells, separators, head rows and alignments, and the caption after the rows is reported before them; `RoundAttr`: lines of attributes (recognised by the scanner of C40 and C41, read as in C03); `Spec/RoundSec`, `RoundHead`, `RoundSec`, `RoundIds`: headings and sections, where the ids follow from C36 because automatic ids are unique |
| C51 | renderer | `Spec/HtmlTree`: HTML of a tree and of its notes; induction on the tree with the renderer state restored after each node, for any footnotes known so far; footnotes in the tree are put aside (`HtmlStrip`), and the notes are written one by one (`HtmlEnd`), where the numbers of references do not depend on labels added later |
| C52 | parser and renderer | composition of C50 and C51 |
| C53 | block parser | `Spec/BlockSyntax`: grammar of block markers; `identify` accepts exactly these (`MarkerSound`, `MarkerFull`), markers are unique (`MarkerOne`), invariants of the block parser carry the marker to the event |
| C54 | block parser | `Spec/RoundDoc` (`itemGaps`, `isTight`): the blank lines between items and blocks of a list; the flags of the block parser follow them (`gapRun`, `Blk.moves_gaps` in `RoundLoop`, `items_ok` in `RoundList`), as part of the round trip C50 |
| C55 | src/main.rs: `run`; `BufWriter` over a device that may fail after any number of bytes | invariant: bytes taken plus bytes kept back are a prefix of the calls made so far (`Holds`), over the calls of C18; the claim about the exit status is false for standard output (witness proved) |
| C56 | all of the renderer, as in C12–C16 | simulation: the document without what only affects the text of the output (`bare`) drives the renderer through the same states; C12 gives an output for that, C16 carries it to every indentation, C31 adds the parser |
| C57 | as C12 | simulation with a renderer that sees `dim` of every event: same states but for the raw state, its writes are the same but for texts under raw HTML; C12 for the second renderer |

## Findings: where the code does not do what a user expects

Each item with a theorem name is proved about the model; the others were found while proving and are recorded here.

* `C09_debug_roundtrip_fails`: the `Debug` output of attributes does not parse back for the value of `{k="a⏎b\"}`.
* `C10_escaped_newline_loses_text`: a backslash before a newline in a quoted value loses text.
* `C19_reuse_fails`: a renderer used for a second document after one with footnote references drops `</p>`. `C19_indented_fails`: a renderer that indents writes a blank line before a second document.
* `C20_raw_in_image_fails`: raw inline of any format is written into the alternative text of an image.
* `C31_heading_panics`: a heading with 65536 or more `#` panics (`u16` conversion); lists nested 65536 deep likewise.
* `C36_override_leaks`: `{#a}⏎# H1⏎## H2` gives both headings the id `a`; `C38_attributes_leak`: the same for link definitions.
* `C51_class_fails`: a class given to a task list or to math is run together with the implied class (`{.x}⏎- [ ] a` gives
  `class="xtask-list"`).
* `C48_destination_repeats`: in a destination on several lines the text of attributes is repeated (`[t](u{.a}⏎v)` leads to `u{.a}{.a}v`).
* `escape_after_verbatim`: a backslash directly after verbatim text does not escape (`` `x`\*a* `` has strong text).
* `C54_last_gap`: in `- a⏎⏎  b` the list is reported tight, and in `> - a⏎>⏎>   b` loose: a blank line before the very last block of a list is forgotten, but not at the end of a container.
* `C55_lost_output`: with standard output full or closed, up to 8192 bytes at the end of the output are lost and the exit status is still 0 (`BufWriter` is dropped without `flush`); with `--output` the exit status is 1.
* In a div, a list item that starts with a code fence: the closing fence of the code inside the item is taken for the start of
  another code block when the lines of the div are collected, so the end of the div is missed.
* In a code block inside a block quote, the line `> ` (with the space) gives a line with one space.
* A blank line inside a block quote inside a list item makes the list loose.
* `<br>` is written into the alternative text of an image for a hard line break.
* A backslash before the closing backtick of a verbatim span on a continuation line keeps it open (C39).
* After attributes followed by an unfinished `{…` over several lines that turns out invalid, the prefix of a container (`> `) shows up
  in the text.
* `$` + verbatim + `{=html}` becomes raw inline.
* An unclosed `{'a` gives a right single quote.
* `[a]{}`: the text is `[a` and `]{}`.
* In a paragraph, `[^a [b](c) d](e)` loses the caret from the text of the link.
* A bullet directly followed by a newline (`-⏎`) is a paragraph, while `-` at the end of the text, `- ⏎` and `1.⏎` are list items.
* The range of a link or footnote definition begins where the line does, not after its indentation.
* A line of two attribute sets, `{.a}{.b}`, is a paragraph.
* A numeral such as `iiiii.` (value 5) is taken for the letter `v` when the next item is `w.`.
* A table row `|` alone counts as a separator row without cells.
