{"id": "C01", "title": "Lexer always finishes and stays finished", "statement": "Iterating `Lexer::new(input)` yields finitely many tokens (never more than the input has characters) and, once it has returned None, every later call to next() returns None again.", "quantifier": "every input string (any sequence of Unicode scalar values, any length)", "why_tests_cant": "Termination and fusedness concern every input and every number of further calls; a test sees a few of them.", "anchors": ["src/lexer/mod.rs: Lexer::advance, Lexer::next, Lexer::take_while"]}
{"id": "C02", "title": "Token ranges are valid slices in source order", "statement": "Every token's byte range is non-empty, lies inside the input, starts and ends on a UTF-8 character boundary (so `&input[token.range]` never panics), and each token starts at or after the end of the token before it.", "quantifier": "every input string (any sequence of Unicode scalar values, any length), every token", "why_tests_cant": "Byte/char boundary arithmetic has to hold for every mix of multi-byte characters, runs and escapes.", "anchors": ["src/lexer/mod.rs: Lexer::take_while, to_token, emit_literal_if_started"]}
{"id": "C03", "title": "Lexing is lossless up to escape backslashes", "statement": "Concatenating the text of all tokens gives back the input with exactly the escape backslashes removed: `\\c` contributes c, a dangling final `\\` contributes nothing, every other character is kept once and in order.", "quantifier": "every input string (any sequence of Unicode scalar values, any length)", "why_tests_cant": "A universally quantified equation between two strings; tests check a handful of strings.", "anchors": ["src/lexer/mod.rs: Lexer::parse, Lexer::advance"]}
{"id": "C04", "title": "A backslash always neutralises the next character", "statement": "The character after an unescaped backslash is always the first character of a token whose kind is Literal and whose `escaped` flag is set; conversely every token with `escaped` set is a Literal that directly follows a removed backslash, and no other token is preceded by a gap.", "quantifier": "every input string (any sequence of Unicode scalar values, any length)", "why_tests_cant": "Must hold for every character in every lexer state (inside a literal, after an EOL, at the start of a run...).", "anchors": ["src/lexer/mod.rs: Lexer::parse ('\\\\' arm), emit_literal_if_started", "src/lib.rs: \"Escaping\" section"]}
{"id": "C05", "title": "Token kind agrees with token text", "statement": "Every token's text has the documented form of its kind: run kinds are one or more copies of their character, Eol is exactly \\n or \\r\\n, Terminator is exactly two such line breaks, `{%` and `%}` are exactly these, the bracket-like kinds are exactly one character, Literal is non-empty. Runs are maximal: two neighbouring tokens without a gap never have the same run kind, an Eol is never directly followed by an Eol or a Terminator, and a literal is never directly followed by a literal or a space.", "quantifier": "every input string (any sequence of Unicode scalar values, any length), every token", "why_tests_cant": "Maximal munch and pair merging depend on the lexer's pending-token state for all histories.", "anchors": ["src/lexer/token.rs: TokenKind", "src/lexer/mod.rs: Lexer::eol, Lexer::take_while"]}
{"id": "C06", "title": "Token positions are truthful", "statement": "For every token, position.byte_index is the start of its range; position.row is the number of line breaks (outside literals) before it; position.column is the number of characters, not counting escape backslashes, between the last such line break and the token.", "quantifier": "every input string (any sequence of Unicode scalar values, any length), every token", "why_tests_cant": "Row/column tracking is a running counter over the whole input.", "anchors": ["src/lexer/token.rs: Position", "src/lexer/mod.rs: Lexer::next_char, Lexer::eol"]}
{"id": "C07", "title": "Blank lines are lexing boundaries", "statement": "If the text before a blank line does not end in the middle of an escape or a line break, lexing `a + \"\\n\\n\" + b` gives the tokens of a, one Terminator, then the tokens of b moved by the byte and row offset: what precedes a blank line cannot change how later text is tokenised.", "quantifier": "every pair of strings (a, b) where a does not end with a newline, a carriage return or an unpaired backslash", "why_tests_cant": "Locality over all prefixes and suffixes.", "anchors": ["src/lexer/mod.rs: Lexer::eol, Lexer::parse"]}
{"id": "C08", "title": "parse never panics and always terminates", "statement": "`yamd::parse(input)` returns for every input: no slice, index or insert panic, no failing debug assertion (document/highlight loop progress), and every loop and recursion finishes within a bound linear in the number of tokens. (Whether the machine stack is large enough for that recursion is outside the claim.)", "quantifier": "every input string (any sequence of Unicode scalar values, any length)", "why_tests_cant": "Fuzzing samples inputs; absence of panics and loops has to hold for all.", "anchors": ["src/op/parser.rs: Parser::span, eat_until", "src/op/document.rs: document", "src/op/highlight.rs: highlight", "src/op/list.rs: list_inner", "src/op/collapsible.rs: collapsible"]}
{"id": "C09", "title": "Op streams are balanced", "statement": "In the stream produced by parse every Start(n) is closed by an End(n) of the same node in properly nested order, and nothing is left open.", "quantifier": "every input string (any sequence of Unicode scalar values, any length)", "why_tests_cant": "Backtracking truncates and inserts ops at many places; the one unit test checks one document.", "anchors": ["src/op/mod.rs: parse, start_end_balance test", "src/op/*.rs"]}
{"id": "C10", "title": "Op streams have the documented outer shape", "statement": "parse yields an optional Start(Metadata), Value, End(Metadata) triple followed by exactly one top-level Start(Document) ... End(Document) and nothing after it.", "quantifier": "every input string (any sequence of Unicode scalar values, any length)", "why_tests_cant": "Must hold whatever backtracking happened in between.", "anchors": ["src/op/mod.rs: parse", "src/op/metadata.rs", "src/op/document.rs"]}
{"id": "C11", "title": "Nodes only occur under their documented parents", "statement": "In parse output every node's direct parent is one the grammar allows (Bold only in Paragraph; Italic/Strikethrough only in Paragraph or Bold; Anchor only in Paragraph or Heading; Title/Destination only in Anchor or Image; Image only in Document or Images; ListItem only in a list; lists only in Document or ListItem; Modifier only in Code, Highlight or Collapsible; Icon only in Highlight; ...) and every Value sits in a node that accepts text or separators, so to_yamd's silent catch-all arms are never reached.", "quantifier": "every input string (any sequence of Unicode scalar values, any length)", "why_tests_cant": "Universally quantified over parse outputs; the catch-alls would silently drop content.", "anchors": ["src/op/to_yamd.rs: try_to_yamd catch-alls", "src/op/*.rs"]}
{"id": "C12", "title": "Every content produced by parse resolves without panicking", "statement": "For every op of parse(input), `op.content.as_str(input)` succeeds: Span ranges are in bounds and on character boundaries.", "quantifier": "every input string (any sequence of Unicode scalar values, any length), every op", "why_tests_cant": "Spans are computed from token ranges after backtracking; one wrong index panics at run time.", "anchors": ["src/op/mod.rs: Content::as_str, Content::from_tokens", "src/op/parser.rs: Parser::span"]}
{"id": "C13", "title": "Op contents cover the source exactly once, in order", "statement": "Concatenating the text of all op contents gives the input with the escape backslashes removed, except that the single line break directly before the `%}` that closes a collapsible may be missing; nothing is duplicated, reordered or invented.", "quantifier": "every input string (any sequence of Unicode scalar values, any length)", "why_tests_cant": "The repo's coverage test checks one document (and its name claims more than holds).", "anchors": ["src/op/mod.rs: all_source_bytes_are_covered_exactly_once", "src/op/collapsible.rs: collapsible"]}
{"id": "C14", "title": "Zero-copy: allocation only where an escape was removed", "statement": "If the input contains no backslash then every content produced by parse is a Span. Every content's text equals the concatenation of the token texts it stands for.", "quantifier": "every input string (any sequence of Unicode scalar values, any length)", "why_tests_cant": "For-all over inputs and op positions.", "anchors": ["src/op/parser.rs: Parser::span", "src/op/mod.rs: Content::from_tokens"]}
{"id": "C15", "title": "Spans are disjoint and increasing", "statement": "The non-empty Span ranges in parse(input), read in stream order, are pairwise disjoint and strictly increasing.", "quantifier": "every input string (any sequence of Unicode scalar values, any length), every pair of ops", "why_tests_cant": "Ops are inserted out of order during parsing (ops.insert); order must come out right always.", "anchors": ["src/op/paragraph.rs", "src/op/bold.rs", "src/op/heading.rs", "src/op/images.rs", "src/op/list.rs"]}
{"id": "C16", "title": "deserialize is total", "statement": "`deserialize(input)` returns a document for every input: to_yamd never sees an unbalanced stream from parse, so its expect() never fires.", "quantifier": "every input string (any sequence of Unicode scalar values, any length)", "why_tests_cant": "expect() on an invariant of another module, for all inputs.", "anchors": ["src/lib.rs: deserialize", "src/op/to_yamd.rs: to_yamd"]}
{"id": "C17", "title": "try_to_yamd accepts exactly the depth-balanced streams", "statement": "For any hand-built op stream whose contents resolve, try_to_yamd returns Ok exactly when Starts and Ends are balanced by depth (no prefix has more Ends than Starts, equal totals) and Err otherwise. (The documented stronger claim, that an End not matching the frame it closes is an error, is false of the code.)", "quantifier": "every list of ops, every source in which their contents resolve", "why_tests_cant": "Universally quantified over hand-built streams.", "anchors": ["src/op/to_yamd.rs: try_to_yamd, UnbalancedOpStream"]}
{"id": "C18", "title": "Heading levels are between 1 and 6", "statement": "Every Heading in deserialize(input), at any nesting, has 1 <= level <= 6.", "quantifier": "every input string (any sequence of Unicode scalar values, any length), every heading at any depth", "why_tests_cant": "The level is recomputed from text with an `as u8` cast.", "anchors": ["src/op/heading.rs", "src/op/to_yamd.rs: extract_heading_level"]}
{"id": "C19", "title": "List levels equal nesting depth", "statement": "In deserialize(input) every list that is a document or collapsible block has level 0, every nested list has its parent's level + 1, and every list has at least one item.", "quantifier": "every input string (any sequence of Unicode scalar values, any length), every list at any depth", "why_tests_cant": "Level is counted from a frame stack; depth is unbounded.", "anchors": ["src/op/list.rs", "src/op/to_yamd.rs: count_list_depth, finish_list"]}
{"id": "C20", "title": "Image groups have at least two images", "statement": "Every Images node in deserialize(input) has two or more images.", "quantifier": "every input string (any sequence of Unicode scalar values, any length)", "why_tests_cant": "For all inputs.", "anchors": ["src/op/images.rs", "src/nodes/images.rs"]}
{"id": "C21", "title": "Trailing newlines are trimmed where promised", "statement": "In deserialize(input), Code.code never ends with a newline; metadata neither starts nor ends with a newline; the last text of a list item or highlight paragraph never ends with a newline.", "quantifier": "every input string (any sequence of Unicode scalar values, any length)", "why_tests_cant": "For all inputs.", "anchors": ["src/op/to_yamd.rs: trim_trailing_newline_from_text", "src/nodes/code.rs: Code::new", "src/nodes/yamd.rs: Yamd::new"]}
{"id": "C22", "title": "Front matter is recognised exactly when delimited", "statement": "deserialize(input).metadata is Some exactly when the first token is a run of exactly three dashes at the start and another run of exactly three dashes starts a later line; its text is what lies between, newline-trimmed.", "quantifier": "every input string (any sequence of Unicode scalar values, any length)", "why_tests_cant": "Equivalence over all inputs.", "anchors": ["src/op/metadata.rs", "src/nodes/yamd.rs"]}
{"id": "C23", "title": "Inline text is normalised", "statement": "In every paragraph, bold, heading and list item body of deserialize(input), text nodes are non-empty and no two text nodes are adjacent.", "quantifier": "every input string (any sequence of Unicode scalar values, any length), every inline body", "why_tests_cant": "Depends on text_start/insert bookkeeping on every path.", "anchors": ["src/op/paragraph.rs", "src/op/bold.rs", "src/op/heading.rs"]}
{"id": "C24", "title": "No empty styled nodes", "statement": "Every Bold, Emphasis, Strikethrough and CodeSpan that deserialize produces has a non-empty body (only Italic may be empty).", "quantifier": "every input string (any sequence of Unicode scalar values, any length)", "why_tests_cant": "For all inputs; relies on maximal munch in the lexer.", "anchors": ["src/nodes/bold.rs", "src/nodes/emphasis.rs", "src/nodes/strikethrough.rs", "src/nodes/code_span.rs"]}
{"id": "C25", "title": "deserialize never invents text", "statement": "All strings stored in deserialize(input), read in document order, form a subsequence of the input.", "quantifier": "every input string (any sequence of Unicode scalar values, any length)", "why_tests_cant": "For all inputs.", "anchors": ["src/lib.rs: deserialize", "src/op/to_yamd.rs"]}
{"id": "C26", "title": "Escaping everything is always safe", "statement": "Putting a backslash before every character of any non-empty string s and deserializing gives a document with one paragraph holding exactly the text s.", "quantifier": "every non-empty string s", "why_tests_cant": "Escaping must be context independent for all characters.", "anchors": ["src/lib.rs: \"Escaping\" section", "src/lexer/mod.rs"]}
{"id": "C27", "title": "Plain text is a paragraph", "statement": "A non-empty string without any special character, line break or backslash deserializes to one paragraph holding exactly that text (if it does not start with a space followed by nothing else special).", "quantifier": "every non-empty string over non-special characters", "why_tests_cant": "For all strings.", "anchors": ["src/op/paragraph.rs"]}
{"id": "C28", "title": "Inline constructs never cross a blank line", "statement": "No paragraph, heading, list item text, bold, italic, strikethrough, emphasis, code span, anchor or image covers a Terminator token: an unescaped blank line always ends them.", "quantifier": "every input string (any sequence of Unicode scalar values, any length)", "why_tests_cant": "Stop-condition stack must be honoured by every scanning loop.", "anchors": ["src/op/parser.rs: StopCondition, at_eof, eat_until", "src/op/document.rs"]}
{"id": "C29", "title": "Round trip: italic, emphasis, strikethrough, code span", "statement": "A document with one paragraph made of one such node with body t serializes to a string that deserializes to an equal document.", "quantifier": "every body t (non-empty except italic) in which no blank line is left after Display has escaped the first of each two line feeds (so even runs of line feeds survive, odd runs of three or more and CRLF blank lines do not)", "why_tests_cant": "Property tests sample bodies from a tiny alphabet.", "anchors": ["src/nodes/italic.rs", "src/nodes/emphasis.rs", "src/nodes/strikethrough.rs", "src/nodes/code_span.rs", "tests/round_trip_proptest.rs"]}
{"id": "C30", "title": "Round trip: anchor", "statement": "A one-anchor paragraph round-trips.", "quantifier": "every text and url in which no blank line is left after the escaping (as C29)", "why_tests_cant": "as C29", "anchors": ["src/nodes/anchor.rs", "src/op/destination.rs", "src/op/title.rs"]}
{"id": "C31", "title": "Round trip: bold", "statement": "A one-bold paragraph with text, italic and strikethrough children round-trips.", "quantifier": "every bold body in the safe class", "why_tests_cant": "as C29", "anchors": ["src/nodes/bold.rs", "src/op/bold.rs"]}
{"id": "C32", "title": "Round trip: plain text paragraph", "statement": "A one-text paragraph round-trips (backslashes, blank lines, block markers at the start are all escaped by Display).", "quantifier": "every non-empty text in the safe class (no blank line with a carriage return left, not starting with two to six hashes and exactly one space)", "why_tests_cant": "as C29", "anchors": ["src/nodes/paragraph.rs: escape_leading_block_marker"]}
{"id": "C33", "title": "Round trip: heading", "statement": "A heading of level 1..6 whose texts do not themselves spell an anchor (a `[`, whose next `]` is directly followed by `(` and later a `)`) round-trips; brackets otherwise may occur. The condition is needed.", "quantifier": "every level 1..6, every safe body", "why_tests_cant": "as C29", "anchors": ["src/nodes/heading.rs", "src/op/heading.rs"]}
{"id": "C34", "title": "Round trip: code block", "statement": "A code block round-trips.", "quantifier": "every lang not ending with CR and every code not starting with a line break", "why_tests_cant": "as C29", "anchors": ["src/nodes/code.rs", "src/op/code.rs"]}
{"id": "C35", "title": "Round trip: image and image group", "statement": "An image, or a group of two or more images, round-trips.", "quantifier": "every alt/src in which no blank line is left after the escaping (as C29)", "why_tests_cant": "as C29", "anchors": ["src/nodes/image.rs", "src/nodes/images.rs", "src/op/image.rs", "src/op/images.rs"]}
{"id": "C36", "title": "Round trip: embed", "statement": "An embed round-trips at top level for every kind and args whatsoever.", "quantifier": "all strings kind, args", "why_tests_cant": "as C29", "anchors": ["src/nodes/embed.rs", "src/op/embed.rs"]}
{"id": "C37", "title": "Round trip: thematic break", "statement": "A thematic break round-trips, alone and between other blocks.", "quantifier": "every document of the safe class", "why_tests_cant": "as C29", "anchors": ["src/nodes/thematic_break.rs", "src/op/thematic_break.rs"]}
{"id": "C38", "title": "Round trip: highlight", "statement": "A highlight with optional title, optional icon and safe paragraphs round-trips.", "quantifier": "every safe highlight", "why_tests_cant": "as C29", "anchors": ["src/nodes/highlight.rs", "src/op/highlight.rs"]}
{"id": "C39", "title": "Round trip: list", "statement": "An arbitrarily nested list with safe item texts round-trips; item texts may contain lines that start with a list marker, except where the marker would be read as an item deeper than the text's own level (spec: Spec/RoundTrip.lean).", "quantifier": "every safe list tree, unbounded depth and width", "why_tests_cant": "as C29", "anchors": ["src/nodes/list.rs", "src/nodes/list_item.rs", "src/op/list.rs"]}
{"id": "C40", "title": "Round trip: collapsible", "statement": "An arbitrarily nested collapsible with safe blocks round-trips.", "quantifier": "every safe collapsible, unbounded nesting", "why_tests_cant": "as C29", "anchors": ["src/nodes/collapsible.rs", "src/op/collapsible.rs"]}
{"id": "C41", "title": "Round trip: whole documents", "statement": "deserialize(y.to_string()) == y for every document y in the safe class, with any number of blocks and optional metadata.", "quantifier": "every safe document", "why_tests_cant": "as C29", "anchors": ["src/nodes/yamd.rs", "src/lib.rs"]}
{"id": "C42", "title": "Serialization is stable on the safe class", "statement": "For a safe document, serialize(deserialize(serialize(y))) = serialize(y). For arbitrary parsed documents this stability does not hold; concrete witnesses are recorded.", "quantifier": "every safe document", "why_tests_cant": "as C29", "anchors": ["src/nodes/*.rs"]}
{"id": "C43", "title": "Content laws", "statement": "Content::from_tokens(tokens, source) resolves to the concatenation of the token slices for every token list with valid ranges; converting tokens into a Content without the source gives the same when there is no gap between them, and for every stretch of the tokens of a text with no escaped token behind its first (with an escaped one it keeps the backslash); Content::is_empty agrees with the resolved text being empty.", "quantifier": "every token list with valid ranges, every source", "why_tests_cant": "Hand-built tokens are allowed by the public API.", "anchors": ["src/op/mod.rs: Content"]}
{"id": "C44", "title": "Unclosed collapsible falls back to text", "statement": "If no `%}` starts a line, `{%` never opens a collapsible: deserialize produces no Collapsible node and the `{%` text is kept as text.", "quantifier": "every input string (any sequence of Unicode scalar values, any length) without a column-0 %}", "why_tests_cant": "For all inputs.", "anchors": ["src/op/collapsible.rs"]}
{"id": "C45", "title": "Line-ending independence of structure", "statement": "Replacing every LF by CRLF does not change the sequence of op kinds parse produces and changes the text of every op only by the same replacement.", "quantifier": "every input without CR and without an escaped LF", "why_tests_cant": "Two runs on different inputs related for all inputs.", "anchors": ["src/lexer/mod.rs: Lexer::eol", "src/op/parser.rs"]}
{"id": "C46", "title": "Destination parentheses", "statement": "An anchor or image destination ends at the parenthesis that balances its opening one; if none does before the block ends, it ends at the last closing parenthesis; if there is none the construct is not recognised.", "quantifier": "every input string (any sequence of Unicode scalar values, any length)", "why_tests_cant": "Counting loop over unbounded nesting.", "anchors": ["src/op/destination.rs"]}
{"id": "C47", "title": "Delimiter contents are the documented delimiters", "statement": "For every op of parse(input), the text of a Start or End is exactly the delimiter documented for its node: ** for bold, # x 1..6 and a space for a heading, indentation, - or + and a space for a list item, the fence with or without its line break for code, nothing for nodes without delimiters, and so on.", "quantifier": "every input string (any sequence of Unicode scalar values, any length)", "why_tests_cant": "Must hold for every node of every input; tests pin a handful of streams.", "anchors": ["src/op/*.rs: node functions", "src/op/mod.rs: Op, Node docs"]}
{"id": "C48", "title": "Only syntax characters decide the structure", "statement": "Replacing every character that is not a syntax character by any non-empty text without syntax characters (the same replacement everywhere) gives the same op kinds, and the same document with the same replacement applied to its texts: letters, digits, non-ASCII text and control characters are interchangeable.", "quantifier": "every input, every substitution that keeps syntax characters and maps the others to non-empty texts without syntax characters", "why_tests_cant": "Two runs on different inputs, for all substitutions.", "anchors": ["src/lexer/mod.rs", "src/op/parser.rs", "src/op/to_yamd.rs"]}
{"id": "C50", "title": "Maximal munch", "statement": "The token stream is exactly the one obtained by repeatedly cutting off the longest piece the front of the remaining text allows (a run, a line break or a pair of them, `{%`, `%}`, an escape, a stretch of ordinary text) and laying the pieces out from left to right.", "quantifier": "every input string (any sequence of Unicode scalar values, any length)", "why_tests_cant": "Equality of two functions on all strings.", "anchors": ["src/lexer/mod.rs: Lexer::parse, next"]}
{"id": "C51", "title": "The parser implements a grammar", "statement": "The op stream and the document are those of the concrete syntax tree a purely functional ordered-choice grammar (no op buffer, no truncation, no insertion, no positions) builds from the tokens, and the leaves of that tree are the tokens of the source.", "quantifier": "every input string (any sequence of Unicode scalar values, any length)", "why_tests_cant": "Equality of two functions on all strings; backtracking by truncation and insertion has to be invisible everywhere.", "anchors": ["src/op/*.rs", "src/op/to_yamd.rs"]}
{"id": "C52", "title": "What was read can be written", "statement": "A document that deserialize read from a text without backslashes and carriage returns is read back, equal, from its to_string(), unless it has one of a short list of shapes that Display cannot write (listed in Spec/Steady.lean); formatting a text twice therefore gives the same as formatting it once.", "quantifier": "every input without backslash and CR whose document has none of the listed shapes", "why_tests_cant": "Composition of parser, serializer and parser on all inputs.", "anchors": ["src/lib.rs: deserialize", "src/nodes/*.rs: Display", "tests/round_trip_proptest.rs"]}
{"id": "C53", "title": "Block marks start lines", "statement": "Every mark that opens a heading, code block, embed, highlight, icon line, collapsible, list item or front matter, and every mark that closes a code block, highlight, collapsible or front matter, stands at byte 0 or directly behind a line feed no backslash escapes; a thematic break is exactly ----- at the start of a line.", "quantifier": "every input string (any sequence of Unicode scalar values, any length)", "why_tests_cant": "Quantifies over every mark of every input; a missing column test shows only on inputs with the mark in the middle of a line.", "anchors": ["src/op/*.rs: matchers with Position { column: 0 }", "src/lexer/mod.rs: Position"]}
{"id": "C54", "title": "Closing marks end lines", "statement": "The backticks closing a code block, the }} closing an embed and the ) closing an image are followed by a line break or the end of the input.", "quantifier": "every input string (any sequence of Unicode scalar values, any length)", "why_tests_cant": "Needs the interplay of greedy scans, stop conditions and columns for all inputs.", "anchors": ["src/op/code.rs", "src/op/embed.rs", "src/op/images.rs"]}
{"id": "C55", "title": "Titles and icons are one line", "statement": "A code block, highlight or collapsible has a Modifier exactly when its opening line goes on after the mark; a Modifier or Icon is one Value whose source has no unescaped line break.", "quantifier": "every input string (any sequence of Unicode scalar values, any length)", "why_tests_cant": "For all inputs and positions.", "anchors": ["src/op/modifier.rs", "src/op/code.rs", "src/op/highlight.rs", "src/op/collapsible.rs"]}
{"id": "C56", "title": "Blank line between blocks", "statement": "Between two consecutive blocks of a document there is a blank line, unless the first is a code block, embed, highlight, thematic break or collapsible, or the first is a list and the second a list or paragraph.", "quantifier": "every input string (any sequence of Unicode scalar values, any length)", "why_tests_cant": "For all pairs of neighbours in all inputs.", "anchors": ["src/op/document.rs", "src/op/parser.rs"]}
{"id": "C57", "title": "Text is exactly as long as it has to be", "statement": "A paragraph or heading ends at the end of the input, at a blank line, in a collapsible at a line %} (or the line break before it), in a highlight at !! at the start of a line, in a list item on level l at a line starting with an item marker of a level from 0 to l+1 (on level l only of the same kind of list) - and nowhere else, and none of these occurs inside it.", "quantifier": "every input string (any sequence of Unicode scalar values, any length)", "why_tests_cant": "An exact characterisation of where every text ends, for all inputs and nestings.", "anchors": ["src/op/parser.rs: StopCondition, at_list_boundary", "src/op/paragraph.rs", "src/op/heading.rs"]}
{"id": "C49", "title": "A document is the sequence of its parts", "statement": "If a text has no unfinished block, does not end in a line break or a dangling backslash and (unless it has front matter) does not start with ---, then adding a blank line and any text without front matter gives exactly the blocks of the first followed by the blocks of the second, with the front matter of the first; so editing after a blank line never changes what was read before it, and texts can be concatenated.", "quantifier": "every input string (any sequence of Unicode scalar values, any length)", "why_tests_cant": "Locality of parsing: quantifies over all pairs (and lists) of texts.", "anchors": ["src/op/parser.rs: parse", "src/op/document.rs", "src/op/mod.rs: parse", "src/op/code.rs", "src/op/collapsible.rs", "src/op/highlight.rs", "src/op/embed.rs"]}
{"id": "C58", "title": "Delimited text ends at its first closing mark", "statement": "No token of the text directly inside a bold, italic, strikethrough, emphasis, code span, link title, code block, front matter, title line or icon line is itself a closing mark of that node; an embed is a kind without |, one | and arguments without }}.", "quantifier": "every input string (any sequence of Unicode scalar values, any length)", "why_tests_cant": "For every delimited text of every input; a scan that skips a closer shows only on inputs with two.", "anchors": ["src/op/*.rs: matchers", "src/op/parser.rs: until"]}
{"id": "C59", "title": "Inline marks are left as text only when unpaired", "statement": "A _, ~~, `, * that is plain text of a paragraph has no equal mark behind it in that paragraph; a ** only ones hidden in an italic or strikethrough; a [ no ](...) behind it; likewise for italic and strikethrough marks in a bold and [ in a heading.", "quantifier": "every input string (any sequence of Unicode scalar values, any length)", "why_tests_cant": "Completeness of recognition: says something about every text token of every input.", "anchors": ["src/op/paragraph.rs", "src/op/bold.rs", "src/op/heading.rs", "src/op/anchor.rs"]}
{"id": "C60", "title": "Block marks are left as text only when the block is incomplete", "statement": "A paragraph directly in a document starts no heading, no list item, no thematic break, does not consist of image lines only, and when it starts with a code fence, {{ or !! then that block is not complete.", "quantifier": "every input string (any sequence of Unicode scalar values, any length)", "why_tests_cant": "Completeness of recognition of blocks, for all inputs and nestings.", "anchors": ["src/op/document.rs", "src/op/code.rs", "src/op/embed.rs", "src/op/highlight.rs", "src/op/images.rs", "src/op/list.rs", "src/op/thematic_break.rs"]}
{"id": "C61", "title": "Parsing takes polynomially many steps", "statement": "The parser gives the result of parse and takes at most 93*(2n+9)^5 steps on every input of n bytes, so backtracking over unclosed constructs never makes it exponential (cost model: one step per call, loop iteration, stop condition tested, token and byte copied, op moved).", "quantifier": "every input string (any sequence of Unicode scalar values, any length)", "why_tests_cant": "Complexity is a statement about all input sizes; timing tests only see the inputs somebody thought of.", "anchors": ["src/op/parser.rs", "src/op/*.rs: backtracking", "src/op/collapsible.rs: flip_to_literal"]}
{"id": "C62", "title": "The op stream is linear in the input", "statement": "parse returns at most 3 ops per token plus 2, and there is at most one token per character.", "quantifier": "every input string (any sequence of Unicode scalar values, any length)", "why_tests_cant": "Size bound for every input.", "anchors": ["src/op/mod.rs: parse"]}
{"id": "C63", "title": "The document is linear in the input", "statement": "deserialize returns a document with at most 2 nodes per input character, at all depths, and strings of at most the length of the input in total.", "quantifier": "every input string (any sequence of Unicode scalar values, any length)", "why_tests_cant": "Size bound for every input.", "anchors": ["src/lib.rs: deserialize"]}
{"id": "C64", "title": "Nesting is bounded by the input only", "statement": "Collapsibles nest at most to a third of the number of characters; for every depth d there is an input of 7d characters whose document is nested d deep (finding: recursion depth is under the control of the input).", "quantifier": "every input string (any sequence of Unicode scalar values, any length)", "why_tests_cant": "For all inputs, and an unbounded family of inputs.", "anchors": ["src/op/collapsible.rs", "src/op/document.rs"]}
{"id": "C65", "title": "The project's property tests, for every value", "statement": "Every statement of tests/round_trip_proptest.rs holds for all values its strategies can draw, with no bound on lengths and numbers of pieces, items and blocks; except that the three tests that draw heading texts fail for texts that spell an anchor (such as []()) and hold for all others.", "quantifier": "every value of every strategy, of any length", "why_tests_cant": "proptest draws 256 values per run of at most 5 pieces; it has not drawn the failing ones.", "anchors": ["tests/round_trip_proptest.rs", "src/nodes/*.rs: Display", "src/lib.rs: deserialize"]}
{"id": "C66", "title": "A text can be put into a collapsible", "statement": "If a text has no front matter, no unfinished block, does not start or end with a line break or end in a dangling backslash, and no string of its blocks (code blocks and non-empty collapsibles aside) has a line starting with %}, then between the line {% title and the line %} it gives exactly one collapsible with that title and the blocks of the text, to any depth of repetition.", "quantifier": "every input string (any sequence of Unicode scalar values, any length)", "why_tests_cant": "Compositionality of parsing under nesting: quantifies over all texts, titles and depths.", "anchors": ["src/op/collapsible.rs", "src/op/document.rs", "src/op/mod.rs: parse", "src/op/parser.rs: stop conditions"]}
{"id": "C67", "title": "Serde round trip", "statement": "With the serde feature, every document Rust can hold, and the ops of every text, are read back unchanged from what serde writes for them; the order of keys does not matter, entries under unknown keys are ignored and a null entry is the same as none, at any depth; documents are also read back from a format that writes structures as sequences without keys; what serde reads it reads again after writing it; a document built from transmitted ops and the source is the one deserialize gives.", "quantifier": "every document with levels in u8/usize, every value, every input string", "why_tests_cant": "Round trip through the derived implementations for all nested values.", "anchors": ["src/nodes/*.rs: serde attributes", "src/op/mod.rs: Op, OpKind, Node, Content"]}
{"id": "C68", "title": "Token statistics are right", "statement": "The token_stat command counts right for every file, whatever the iteration order of its hash map: total = number of tokens, one row for exactly the kinds that occur with the number of their tokens, sorted, aligned.", "quantifier": "every file content, every iteration order of the hash map", "why_tests_cant": "Quantifies over files and hash orders.", "anchors": ["utils/src/commands/token_stat.rs", "src/lexer/token.rs: TokenKind"]}
{"id": "C69", "title": "The random generator ends", "statement": "For every sequence of draws the random command (literal length at least 4) ends after at most one draw per byte asked for, with a text of at least that length and less than one literal more, which deserialize reads; with a literal length of 3 or less it panics at the first literal (finding).", "quantifier": "every length, every literal length, every sequence of draws", "why_tests_cant": "Ranges over all random sequences.", "anchors": ["utils/src/commands/random.rs"]}
{"id": "C70", "title": "Any document can be given as ops", "statement": "For every document the op stream written down node by node (Start, Values, End) is turned by to_yamd into that document, whatever the source, with list levels set to the nesting and trailing line feeds dropped where promised; a document that came from deserialize comes back exactly. Only values and heading starts are read: other contents may be anything. The parts of an anchor, image, code block, list item, highlight or collapsible may come in any order.", "quantifier": "every document, every source, every pair of streams that differ in delimiter contents only", "why_tests_cant": "Ranges over all documents and streams, not only those the parser produces.", "anchors": ["src/op/to_yamd.rs::to_yamd", "src/op/to_yamd.rs::try_to_yamd"]}
{"id": "C71", "title": "Display only adds syntax", "statement": "For every document, also those outside the safe class, to_string is the text of the document (titles, bodies, urls, code, metadata in document order) complete and unchanged, with syntax characters inserted; no other character is added, lost or moved.", "quantifier": "every document", "why_tests_cant": "Ranges over all trees and all strings in them.", "anchors": ["src/nodes/*.rs::fmt"]}
{"id": "C72", "title": "The round-trip conditions are exact", "statement": "A document with one paragraph, heading, image, image group, code block, embed or thematic break is read back from its to_string if and only if it satisfies the conditions of C29-C37: nothing outside them survives, nothing inside them is lost. So is a document with one list, if no plain text in it has two line feeds in a row and no item ends with a carriage return (an item of one line: read back if and only if it is not empty and does not start with a space). So is a document with one highlight, if it has paragraphs, none of them empty, no plain text in them has two line feeds in a row, none ends with a carriage return, and it has an icon or does not start with '! ' (one line of text: read back if and only if title and icon, where given, have no line feed, do not start with a space and do not end with a carriage return). So is a document with one collapsible of such blocks, lists, highlights and collapsibles, nested to any depth: it is read back if and only if its title has no line feed, does not start with a space and does not end with a carriage return, its blocks satisfy the conditions for blocks inside a collapsible, none of them ends with a line break and the first does not start with one. A document made of any number of such blocks, lists, highlights and collapsibles, with or without front matter, is read back if and only if every block satisfies them, no block but the last ends with a line break, and the front matter, if any, neither begins nor ends with a line feed, has no backslash and has no line that starts with exactly three dashes. A document with lists, highlights and collapsibles is read back if and only if it satisfies the conditions when its to_string has no backslash and no carriage return and it has none of the shapes of C52. (In general the conditions are only sufficient for these three kinds.)", "quantifier": "every such block, list and highlight, every sequence of them and every front matter string", "why_tests_cant": "An equivalence over all trees and strings: the negative half needs every violating input to fail.", "anchors": ["src/nodes/*.rs::fmt", "src/lib.rs::deserialize", "src/op/*.rs"]}
{"id": "C73", "title": "A line break at the end of the file", "statement": "For every text that ends inside a line (not with a line break, a carriage return or a lone backslash), deserializing it with a line feed put behind it gives the same front matter and the same blocks, except at the end: the line break is added to the last text of a paragraph or heading at the end (or becomes its last text), becomes a paragraph of its own if there is no block or a thematic break before it, and changes nothing after any other block.", "quantifier": "every text", "why_tests_cant": "Ranges over all texts; whether the last construct is finished, unfinished or nested depends on the whole text.", "anchors": ["src/lib.rs::deserialize", "src/op/*.rs", "src/op/to_yamd.rs"]}
{"id": "C74", "title": "Files with Windows line ends", "statement": "For every text without carriage returns in which no backslash escapes a line feed: deserializing it with every line feed turned into a carriage return and a line feed, taking the carriage returns out of the texts of that document and dropping line feeds where deserialize drops them (ends of front matter, code, items, highlight paragraphs) gives the document of the text itself.", "quantifier": "every text", "why_tests_cant": "Ranges over all texts; the two files differ in every byte offset and in what is trimmed.", "anchors": ["src/lib.rs::deserialize", "src/lexer/mod.rs", "src/op/to_yamd.rs"]}
{"id": "C75", "title": "Blank lines around and between blocks", "statement": "For every text that does not end with a line break or a lone backslash, putting any number of blank lines (two line feeds each) behind it gives the same document, whatever blocks are unfinished; for every text without front matter, putting any number of them before it gives the same document; between two texts that can be joined by a blank line (C49) any number of blank lines means the same as one.", "quantifier": "every text and number of blank lines", "why_tests_cant": "Ranges over all texts and numbers; a blank line behind an unfinished block could complete it or change how it is given up.", "anchors": ["src/lib.rs::deserialize", "src/lexer/mod.rs", "src/op/document.rs"]}
{"id": "C76", "title": "Which documents can be written at all", "statement": "A document is the result of deserializing some text exactly when: front matter neither starts nor ends with a line feed; and at any depth, paragraphs are not empty; text, bold, emphasis, strikethrough and code spans are not empty; no two texts, no two code spans, no two strikethroughs and no two of bold and emphasis are adjacent; headings have level 1 to 6; image groups have two images or more; code and the last text of a list item or highlight paragraph does not end with a line feed; lists have the level of their nesting and are not empty. There are no other restrictions: for every such document the text with all content behind backslashes is read as it. So two texts have the same document exactly when this normal form of their documents is the same.", "quantifier": "all documents (any depth, any strings) and all texts", "why_tests_cant": "a test shows one document that can or cannot be produced; that nothing outside the list can be produced, and everything inside can, is a statement about all texts and all documents", "anchors": ["src/lib.rs::deserialize", "src/lexer/mod.rs", "src/op/document.rs", "src/op/to_yamd.rs", "src/nodes/mod.rs"]}
{"id": "C77", "title": "A backslash before an ordinary character changes nothing", "statement": "For every text, taking out all backslashes that are not escaped themselves and stand before a character that has no syntactic meaning gives a text with the same document; one such backslash anywhere may be left out. Texts that differ in such backslashes only have the same document. Before a syntax character, or behind an escaping backslash, a backslash does matter.", "quantifier": "every text, every position in it and every ordinary character", "why_tests_cant": "the backslash cuts a text token in two and can stand in any construct (front matter, code, link text, list items, collapsible titles); that no parser notices the cut is a statement about all texts", "anchors": ["src/lib.rs::deserialize", "src/lexer/mod.rs", "src/lexer/token.rs", "src/op/document.rs"]}
{"id": "C78", "title": "Line ends may be mixed", "statement": "For every text whose carriage returns all stand directly before a line feed and are not escaped, with Windows and Unix line ends mixed in any way: reading it, taking the carriage returns out of the texts of the document and dropping the line feeds this leaves at the end of front matter, code, items and highlight paragraphs gives the document of the text with Unix line ends. So texts that differ in the kind of their line ends only have the same document up to this. A final Windows line end does what a final line feed does (C73), up to this.", "quantifier": "every text, every choice of line end per line", "why_tests_cant": "2^n ways to choose the line ends of n lines; a blank line may mix both kinds, and each construct that looks at line ends must accept both", "anchors": ["src/lib.rs::deserialize", "src/lexer/mod.rs", "src/op/to_yamd.rs"]}
{"id": "C79", "title": "How often a text has to be formatted", "statement": "Reading a text and writing the document does not change a text further after the first pass if the text has no backslash and no carriage return and its document has none of the shapes of C52. In general no number of passes is enough: for every k there is a text that takes exactly k passes until it stays the same, because front matter is written as it is and read without its escaping backslashes.", "quantifier": "every input string, every number of passes", "why_tests_cant": "Idempotence over all texts; the negative half is about every number of passes.", "anchors": ["src/lib.rs::deserialize", "src/nodes/yamd.rs::fmt", "src/lexer/mod.rs"]}
