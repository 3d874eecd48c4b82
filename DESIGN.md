# Formal model of Lurk/yamd in Lean 4

The first version of this file was committed before the proofs. This version describes what was built.

## 1. What is modelled, and what is not

All of `src/` that computes, and the tool in `utils/`:

| Lean module | Rust code |
|---|---|
| `Verif/Model/Basic.lean` | `str` slicing, `replace`, `trim_*`, faults |
| `Verif/Model/Lexer.lean` | `src/lexer/token.rs`, `src/lexer/mod.rs` (the state machine with pending token, literal start, queue) |
| `Verif/Model/Parser.lean` | `src/op/mod.rs` (`Content`, `Op`), `src/op/parser.rs` |
| `Verif/Model/Blocks.lean` | every parsing function `src/op/*.rs` and `parse` |
| `Verif/Model/Nodes.lean` | AST types `src/nodes/*.rs` with their `Display` implementations |
| `Verif/Model/ToYamd.lean` | `src/op/to_yamd.rs`, `deserialize` |
| `Verif/Model/Api.lean` | conversions of the public API the parser does not use (`From<&[Token]> for Content`) |
| `Verif/Model/Serde.lean` | what the serde attributes of `src/nodes/*.rs` and `src/op/mod.rs` make `serde_derive` generate |
| `Verif/Model/Utils.lean` | the command line tool `utils/` (`token_stat`, `random`) |
| `Verif/Model/Steps.lean` | the functions of `Blocks.lean` once more, with a step counter (C61) |

Every definition carries the file and lines it models.

Not modelled: the derives Debug, Clone, PartialEq, Hash (equality is Lean's), concrete serde formats (JSON text and so on),
the command line parsing and file access of `utils/`, doc text, heap allocation as such (only whether a
content is `Span` or `Materialized`), wall-clock time (C61 counts steps in the cost model of `Model/Steps.lean`),
a limit on the stack (a very deep nesting of collapsibles or lists can overflow the machine stack of the
recursive-descent functions, see C64; the model has no stack limit), `usize` overflow (lengths are bounded by the
address space).

Conventions:

* `&str`/`String` is `List Char` (Rust `char` = Unicode scalar value = Lean `Char`); byte offsets are
  computed with `Char.utf8Size`, and slicing at an offset that is not a character boundary, or out of
  bounds, is an explicit `panic` value.
* A function taking `&mut Parser` becomes one returning the new parser.
* Results live in `R a = Except Fault a` with `Fault = panic | fuel`. `debug_assert!` is modelled as a panic.
* Loops and recursion take a fuel argument; running out is the distinct fault `fuel`. C08 and C16 show it
  never occurs with the fuel the entry points use: that is the termination proof, with a bound.
* `level as u8` is modelled as a remainder modulo 256.
* `Tests/*.lean` replays the unit tests of the repository against the model (`decide +kernel` on literals).
  They are tests of the model, not proofs of properties, and no claim rests on them.

## 2. Layers

```
source  --Lexer.lex-->  tokens  --parse-->  ops  --toYamd-->  Yamd  --display-->  source
            |                      |                  |
       Spec/Lex.lean        Ref/Parser.lean     Ref/Denote.lean
      (maximal munch)   (grammar, syntax tree)  (tree -> document)
```

* **Lexer.** `Proofs/LexEquiv.lean` proves the state machine equal to the maximal-munch function `tokens` of
  `Spec/Lex.lean` (`lex_eq`, C50). C01-C07 follow by induction on `tokens`.
* **Parser.** `Ref/Parser.lean` is a purely functional ordered-choice grammar on token lists building the concrete
  syntax tree of `Ref/Cst.lean`. `Proofs/Refine*.lean` prove, function by function, that the model - op buffer,
  positions, insertion, truncation, stop-condition stack, fuel - appends exactly the ops of that tree and never
  faults (`parse_eq`, C51). C08-C15, C28, C44, C46, C47 are then inductions on trees.
* **to_yamd.** `Proofs/Denote.lean` proves that reading the ops of a tree with the frame stack gives the
  document `denote` reads off the tree (`deserialize_eq`, C51). C16, C18-C25 are inductions on trees.
  C17 is an induction over arbitrary op streams, not only those of `parse`.
* **Round trips** (`Proofs/Round/*`). Lexing lemmas for escaped text (`Escape`, `Quiet`, `Spell`), execution lemmas
  for each construct of the grammar on the token shapes that `Display` produces, composed over paragraphs, lists,
  blocks, collapsibles and documents (C26, C27, C29-C42).
* **What was read can be written** (C52). `Proofs/Unstopped`, `Tidy`, `Calm`: the text of every construct has no stop
  condition inside, no blank line, no line starting with `%}`; `Proofs/Steady*`: hence the document is safe (C41).
* **Two-run properties.** `Proofs/Natural.lean` shows that every function of the grammar commutes with any map of
  tokens that keeps kind, column-zero and relevant lengths. C45 and C48 are instances.

Properties are stated in `Verif/Props/*.lean` and the vocabulary of the statements is in `Verif/Spec/*.lean`; these
do not mention the reference grammar or proof-internal definitions (except C50 and C51, which are about them).

## 3. Trusted base

* Lean's kernel. Every theorem depends on at most the axioms `propext`, `Classical.choice`, `Quot.sound`
  (checked with `#print axioms` for all theorems in `Props/`). No `native_decide`, no `bv_decide`, no own axioms.
* The reading of the Rust source: the code is not run here; each definition cites what it models.
* Rust standard library behaviour as modelled in `Basic.lean` and the node displays (`str::replace`, `trim_matches`,
  `trim_end_matches`, `char_indices`, slicing, `Vec::insert/truncate/drain`).
* Concrete witnesses use `decide +kernel`, i.e. evaluation by the kernel.

## 4. Properties

Status and theorem names are in MANIFEST.json, full statements in properties.jsonl.

| id | property | status | how |
|---|---|---|---|
| C01 | Lexer always finishes and stays finished | proved | iterator modelled as `next`; equality with `tokens`, then a queue/None invariant for every number of further calls |
| C02 | Token ranges are valid slices in source order | proved | place invariant: offsets are sums of UTF-8 sizes of the pieces |
| C03 | Lexing is lossless up to escape backslashes | proved | induction over pieces |
| C04 | A backslash always neutralises the next character | proved | case analysis on the first piece at every split of the input |
| C05 | Token kind agrees with token text | proved | per-piece form lemma, adjacency by maximality |
| C06 | Token positions are truthful | proved | running counters equal sums over pieces |
| C07 | Blank lines are lexing boundaries | proved | pieces of a concatenation + shift lemma |
| C08 | parse never panics and always terminates | proved | refinement: the model never faults with the fuel given |
| C09 | Op streams are balanced | proved | every tree emits a nested stream |
| C10 | Op streams have the documented outer shape | proved | shape of `Top.ops` |
| C11 | Nodes only occur under their documented parents | proved | parent relation by induction on trees |
| C12 | Every content produced by parse resolves without panicking | proved | token ranges are valid slices |
| C13 | Op contents cover the source exactly once, in order | proved | segmentation of the token list by the ops |
| C14 | Zero-copy: allocation only where an escape was removed | proved | content of a token list |
| C15 | Spans are disjoint and increasing | proved | ranges of consecutive token lists |
| C16 | deserialize is total | proved | refinement through to_yamd |
| C17 | try_to_yamd accepts exactly the depth-balanced streams | proved | depth counter over arbitrary streams |
| C18 | Heading levels are between 1 and 6 | proved | `isHash` bounds the marker |
| C19 | List levels equal nesting depth | proved | list depth along the frame stack |
| C20 | Image groups have at least two images | proved | tree shape |
| C21 | Trailing newlines are trimmed where promised | proved | trim lemmas |
| C22 | Front matter is recognised exactly when delimited | proved | first match of the fence |
| C23 | Inline text is normalised | proved | accumulator invariant |
| C24 | No empty styled nodes | proved | maximal munch excludes empty bodies |
| C25 | deserialize never invents text | proved | subsequence lemma over trees |
| C26 | Escaping everything is always safe | proved | all tokens are escaped literals |
| C27 | Plain text is a paragraph | proved | no token starts any construct |
| C28 | Inline constructs never cross a blank line | proved | open nodes along the segmentation |
| C29 | Round trip: italic, emphasis, strikethrough, code span | proved | execution of the grammar on the displayed text |
| C30 | Round trip: anchor | proved | execution of the grammar on the displayed text |
| C31 | Round trip: bold | proved | execution of the grammar on the displayed text |
| C32 | Round trip: plain text paragraph | proved | execution of the grammar on the displayed text |
| C33 | Round trip: heading | proved | execution of the grammar on the displayed text |
| C34 | Round trip: code block | proved | execution of the grammar on the displayed text |
| C35 | Round trip: image and image group | proved | execution of the grammar on the displayed text |
| C36 | Round trip: embed | proved | execution of the grammar on the displayed text |
| C37 | Round trip: thematic break | proved | execution of the grammar on the displayed text |
| C38 | Round trip: highlight | proved | execution of the grammar on the displayed text |
| C39 | Round trip: list | proved | execution of the grammar on the displayed text; a continuation line that looks like an item is allowed where `Display` escapes it or where it cannot end the item |
| C40 | Round trip: collapsible | proved | execution of the grammar on the displayed text |
| C41 | Round trip: whole documents | proved | composition of all round trips |
| C42 | Serialization is stable on the safe class | proved | corollary of C41 |
| C43 | Content laws | proved | direct |
| C44 | Unclosed collapsible falls back to text | proved | a collapsible node needs a closing token |
| C45 | Line-ending independence of structure | proved | naturality |
| C46 | Destination parentheses | proved | balance counter along the destination scan |
| C47 | Delimiter contents are the documented delimiters | proved | delimiter text of every tree node |
| C48 | Only syntax characters decide the structure | proved | naturality |
| C50 | Maximal munch | proved | equality of functions |
| C51 | The parser implements a grammar | proved | equality of functions |
| C52 | What was read can be written | proved | invariants of the tokens of a backslash-free source, carried through the grammar, give the safe class; then C41 |
| C53 | Block marks start lines | proved | columns of tokens are 0 only behind an unescaped line feed; delimiter tokens of the tree |
| C54 | Closing marks end lines | proved | layout predicate on trees, carried along the ops |
| C55 | Titles and icons are one line | proved | layout predicate on trees |
| C56 | Blank line between blocks | proved | neighbours in the document tree |
| C57 | Text is exactly as long as it has to be | proved | extents of the texts in the tree, stops translated to the open nodes |
| C49 | A document is the sequence of its parts | proved | every parser of the grammar keeps its result when a Terminator and more tokens are appended (exactly, or on success), settled documents have no failed opener; then C07 |
| C58 | Delimited text ends at its first closing mark | proved | own-token predicate on trees, carried along the ops |
| C59 | Inline marks are left as text only when unpaired | proved | induction on the paragraph, heading and bold loops: a failed matcher means no closer in the rest; extents from C57 |
| C60 | Block marks are left as text only when the block is incomplete | proved | ordered choice: a paragraph means every block parser failed; failure of each parser turned into absence of its closer |
| C61 | Parsing takes polynomially many steps | proved | instrumented parser in a counting monad, erasure to the parser; amortised bounds along the refinement to the reference grammar: every failing collapsible turns one `{%` into text, which pays for reading its body again |
| C62 | The op stream is linear in the input | proved | counting along the tree; every paragraph of the tree has a token |
| C63 | The document is linear in the input | proved | counting along the tree and its denotation; C25 |
| C64 | Nesting is bounded by the input only | proved | counting along the tree; family of nested collapsibles by C41 |
| C65 | The project's property tests, for every value | proved | the strategies of the test file as sets of values (`Spec/PropTests.lean`); facts about their characters put every value into the safe class; then C29-C41 |
| C66 | A text can be put into a collapsible | proved | the grammar with the stop of a collapsible reads a document without a line `%}` the same (narrowing of stops), and with the closing line behind it the same (append lemmas for a line break); strings of the document give the absence of such lines |
| C67 | Serde round trip | proved | writer and reader of the derived implementations as functions to and from serde's data model; mutual induction over documents; relation "same up to the order of keys" preserved by every reader; the same for "more entries under unknown keys", with the lemma that the fuel of the readers does not matter once it covers the depth; the same again for null entries (`Proofs/SerdeNulls.lean`); the round trip once more with every map replaced by the sequence of its values (`Proofs/SerdeKeyless.lean`) |
| C68 | Token statistics are right | proved | invariant of the counting fold; the order of the hash map is any permutation |
| C69 | The random generator ends | proved | induction on the bytes still asked for, over an arbitrary stream of draws |
| C70 | Any document can be given as ops | proved | the stack after the ops of a node is the stack before with the node added; mutual induction over documents; the parts of a node act on different fields of its frame, so any order gives the same |
| C71 | Display only adds syntax | proved | relation "syntax characters inserted", closed under append, transitivity and `replace` |
| C72 | Round-trip conditions are exact | proved | the one block read back holds all characters of the text, so no blank line token exists; view lemmas turn that into the conditions; token-level inversion of the reference parser for headings, images and code; for whole documents (`Proofs/Exact/{Cut,Lead,Doc*}.lean`) the number of leading line breaks shows that no blank line is read before the first block, the text of the first block cuts the tokens at its own end, and the rest follows by induction on the blocks; lists (`Proofs/Exact/{ItemStrings,ListShow,ListText,ListItems,DocList}.lean`): induction along the reader's own recursion shows that each item's text ends where `Display` ended it, that no line of it was a stop, hence that no string in it has an item line; highlights (`Proofs/Exact/{HlShow,HlText,HlLines,DocHl}.lean`): title and icon lines are cut by the lengths of their markers, the number of line breaks shows that no blank line is read before the first paragraph, and each paragraph ends where `Display` ended it; collapsibles (`Proofs/Exact/{Close,CollLines,DocBlank,DocColl,DocAll}.lean`): all of the above is proved for a body read with any stops, no token of a block closes the collapsible around it, so no string in it has a closing line, the title line is cut like that of a highlight, a body cannot start with a paragraph of line breaks only (it would swallow the break after the title), and recursion on the block tree does the rest; front matter (`Proofs/Exact/Front.lean`): the body ends before every unescaped fence, and an escaped one would repeat ever earlier; for texts without backslash and carriage return (`C72_plain_document`) what the parser returns is safe by the lemmas of C52 |
| C73 | A line break at the end of the file | proved | every sub-parser on `ts ++ [eol]` against the same on `ts`; induction along documents with the tokens equal up to a last `{%` turned literal |
| C74 | Files with Windows line ends | proved | trees of both files are the same up to token positions (C45); an untrimmed meaning of trees commutes with text changes; trimming before or after dropping carriage returns is the same |
| C75 | Blank lines around and between blocks | proved | every sub-parser on `ts ++ [terminator]` against the same on `ts`, induction along documents; before and between from C49 |
| C76 | Which documents can be written at all | proved | sufficiency: every block spelled with all content escaped has a view whose pieces are literal, so the reading lemmas of C29–C41 apply without their conditions; necessity: the tree invariants behind C18–C24 plus maximal runs (`noClash`) |
| C77 | A backslash before an ordinary character changes nothing | proved | lexer: the tokens of the two texts agree except that text tokens may be cut in several; parser: every sub-parser on token lists with text tokens inserted behind text tokens (`Proofs/Insert*.lean`), then the denotation reads the same text |
| C78 | Line ends may be mixed | proved | lexer: the pieces of the text without carriage returns are the pieces with their carriage returns taken out; then as C74 (`Proofs/MixedCr.lean`) |
| C79 | How often a text has to be formatted | proved | C52 for the texts that need one pass; the display of front matter with every character behind a backslash is the spelling of C76 of the front matter without them, so each pass takes one layer off; lengths tell the passes apart |

## 5. Findings: where the code does not do what its documentation or a reader expects

Each is a theorem (concrete witness, evaluated by the kernel) or follows from one.

* `try_to_yamd` does not report an `End` that names another node than the one it closes (C17).
* `try_to_yamd` panics, instead of returning an error, on contents that do not resolve (C17).
* The line break before the `%}` that closes a collapsible is covered by no op (C13).
* `Display` does not escape everything, so `deserialize(y.to_string()) == y` fails for documents outside the safe
  class of `Spec/RoundTrip.lean`; `C41_conditions_are_needed` lists a failing document for each condition
  (headings of level 2-6 at the start of a paragraph, odd runs of three or more line feeds in a body, heading texts that spell an anchor, such as `[a](b)` or `[]()`, neighbouring
  nodes with the same delimiter, list markers on continuation lines that `Display` does not escape, backslashes in front matter, ...).
* Even documents that come from `deserialize` are not all stable under `to_string` (C42).
* A formatter (read, write) has to be run any number of times until nothing changes: each pass halves the backslashes in
  front matter, which is written unescaped and read with escapes removed (C79).
* Escaping a line feed and escaping a CRLF are different: the backslash escapes only the CR (C45).
* A CR before a trimmed line feed stays in the text (C45).
* An italic can be empty (`__`), unlike the other styled nodes (C24).
* Parsing is polynomial but not linear (C61): in the cost model `{%\n` k times followed by `[` k times takes 909,
  4473, 33977, 368857 steps for k = 4, 8, 16, 32 (fourth power): every unclosed collapsible is read again after it
  failed, every `[` scans to the end, and every step of a scan tests all stop conditions.
* Recursion depth is under the control of the input (C64): d nested collapsibles need 7d characters and d frames in
  the parser, in `Display` and when the document is dropped; a Rust stack overflow aborts the process.
* Text may follow the closing `!!`, `%}` or `-----` on the same line (C54), and `- a\n+ b` is one item (C57).
* A `**` hidden inside an italic or strikethrough leaves an earlier `**` as text (C59).

* The property tests `heading_round_trip`, `collapsible_round_trip_mixed_body` and `yamd_document_round_trip` of the
  project are not true of all values they draw: a heading with the text `[]()` is read back as an anchor (C65).
* An empty collapsible with a title (`{% b`, `%}`) is a collapsible on its own, but inside another collapsible it is
  text, and the closing line of the outer one is left over as a paragraph (C66_empty_inside): the title of the inner
  one is given up at a line break before `%}`. With a blank line between title and `%}` it works.
* `random --max-literal-len 3` (or less) panics at the first literal drawn: `gen_range(3..3)` (C69).
* Deserializing with serde checks nothing the parser guarantees: level 0 headings, groups of one image, front matter and
  code with trailing line breaks are accepted (C67).
* Ops written by a format that leaves out the names of fields cannot be read back: the kind of an op of kind `Value` is
  then a sequence of one element, and serde's reader of such enums wants two (C67_ops_need_keys). Documents can.
* `Op::new_value(tokens)` keeps the escape backslashes that `Content::from_tokens` removes (C43).

* A line break at the end of a file stays in the text of a last paragraph or heading (`"a\n"` is a paragraph
  `"a\n"`), and after a thematic break it makes an extra paragraph `"\n"` (C73); after other blocks it is dropped.
* A block written on the line after the closing `---` of front matter is not seen as a block: the line break
  before it is the start of a paragraph (`"---\nt: 1\n---\n- a"` holds no list), so a blank line is needed.
* An odd number of line breaks between blocks hides the next block: `"a\n\n\n# b"` has no heading, its second
  paragraph is `"\n# b"`, because blank lines are counted in pairs of line breaks (C75_odd_line_breaks).
* `{%\n%}` is an empty collapsible, `{%\n\n%}` is text: behind `{%` the two line breaks are one token.

## 6. Testing the theorems against wrong programs

`seeded/LOG.jsonl` has one line per attempt: the model definition edited in a scratch copy, the edit, the claim it
should break, which theorems failed in the rebuild, which claims an executable oracle found false of the edited
model (independent of the proofs), and what was tightened. Because C50 and C51 pin the model to independent
reference functions, any edit that changes a result for some input breaks at least one of them; the oracle column
shows whether the specific claims notice as well.
