import Verif.Model.ToYamd

/-! Unit tests of the Rust code, transcribed by tools/transcribe_tests.py: evidence that the model
behaves like the program on the cases its authors wrote down. These are tests, not proofs. -/

namespace Yamd.TestsNodes

-- src/nodes/anchor.rs 74 anchor
example : (Anchor.display ⟨(cs! "link"), (cs! "url")⟩) = (cs! "[link](url)") := by decide +kernel

-- src/nodes/anchor.rs 80 anchor_with_nested_squares
example : (Anchor.display ⟨(cs! "link [nested squares]"), (cs! "url")⟩) = (cs! "[link \\[nested squares\\]](url)") := by decide +kernel

-- src/nodes/anchor.rs 86 anchor_with_nested_parentheses
example : (Anchor.display ⟨(cs! "link"), (cs! "url(with nested)parentheses")⟩) = (cs! "[link](url\\(with nested\\)parentheses)") := by decide +kernel

-- src/nodes/anchor.rs 95 anchor_with_terminator
example : (Anchor.display ⟨(cs! "link\n\n"), (cs! "url\n\n")⟩) = (cs! "[link\\\n\n](url\\\n\n)") := by decide +kernel

-- src/nodes/bold.rs 134 bold
example : (displayBold [.text (cs! "Bold can contain "), .italic (cs! "italic"), .text (cs! ", or "), .strikethrough (cs! "strikethrough"), .text (cs! ", or regular text")]) = (cs! "**Bold can contain _italic_, or ~~strikethrough~~, or regular text**") := by decide +kernel

-- src/nodes/bold.rs 149 bold_with_terminator
example : (displayBold [.text (cs! "\n\n")]) = (cs! "**\\\n\n**") := by decide +kernel

-- src/nodes/bold.rs 155 bold_with_only_non_text_nodes
example : (displayBold [.italic (cs! "x")]) = (cs! "**_x_**") := by decide +kernel

-- src/nodes/code.rs 67 code
example : (YamdNode.display (.newCode (cs! "rust") (cs! "let a = 42;"))) = (cs! "```rust\nlet a = 42;\n```") := by decide +kernel

-- src/nodes/code.rs 73 code_with_backtick
example : (YamdNode.display (.newCode (cs! "rust") (cs! "let a = 42;\nlet ```b` = 43;"))) = (cs! "```rust\nlet a = 42;\nlet \\```b` = 43;\n```") := by decide +kernel

-- src/nodes/code.rs 82 language_with_eol
example : (YamdNode.display (.newCode (cs! "rust\n\n") (cs! "let a = 42;"))) = (cs! "```rust\\\n\\\n\nlet a = 42;\n```") := by decide +kernel

-- src/nodes/code_span.rs 74 code_span_with_backtick
example : (displayCodeSpan (cs! "anything even EOL\ncan `be` it")) = (cs! "`anything even EOL\ncan \\`be\\` it`") := by decide +kernel

-- src/nodes/code_span.rs 83 code_span_with_terminator
example : (displayCodeSpan (cs! "anything even EOL\n\ncan be it\n")) = (cs! "`anything even EOL\\\n\ncan be it\n`") := by decide +kernel

-- src/nodes/collapsible.rs 78 test_collapsible
example : (YamdNode.display (.collapsible (cs! "Collapsible title") [.paragraph [.text (cs! "Collapsible body")]])) = (cs! "{% Collapsible title\nCollapsible body\n%}") := by decide +kernel

-- src/nodes/embed.rs 65 embed
example : (YamdNode.display (.embed (cs! "youtube") (cs! "dQw4w9WgXcQ"))) = (cs! "{{youtube|dQw4w9WgXcQ}}") := by decide +kernel

-- src/nodes/embed.rs 71 embed_with_escaped_parts
example : (YamdNode.display (.embed (cs! "youtube|as") (cs! "dQw4w9WgXcQ}}"))) = (cs! "{{youtube\\|as|dQw4w9WgXcQ\\}\\}}}") := by decide +kernel

-- src/nodes/emphasis.rs 74 emphasis_with_asterisk
example : (displayEmphasis (cs! "Emphasis with *asterisk*")) = (cs! "*Emphasis with \\*asterisk\\**") := by decide +kernel

-- src/nodes/emphasis.rs 80 emphasis_with_terminator
example : (displayEmphasis (cs! "Emphasis with newline\n\n")) = (cs! "*Emphasis with newline\\\n\n*") := by decide +kernel

-- src/nodes/heading.rs 93 heading
example : (YamdNode.display (.heading 3 [.text (cs! "Header can contain an "), .anchor ⟨(cs! "anchor"), (cs! "#")⟩, .text (cs! " or regular text.")])) = (cs! "### Header can contain an [anchor](#) or regular text.") := by decide +kernel

-- src/nodes/heading.rs 109 heading_with_hash
example : (YamdNode.display (.heading 3 [.text (cs! "# ##")])) = (cs! "### \\# \\#\\#") := by decide +kernel

-- src/nodes/highlight.rs 103 highlight
example : (YamdNode.display (.highlight (some (cs! "title")) (some (cs! "icon")) [[.text (cs! "body")]])) = (cs! "!! title\n! icon\nbody\n!!") := by decide +kernel

-- src/nodes/highlight.rs 113 highlight_without_title
example : (YamdNode.display (.highlight none (some (cs! "icon")) [[.text (cs! "body")]])) = (cs! "!!\n! icon\nbody\n!!") := by decide +kernel

-- src/nodes/highlight.rs 123 highlight_without_icon
example : (YamdNode.display (.highlight (some (cs! "title")) none [[.text (cs! "body")]])) = (cs! "!! title\nbody\n!!") := by decide +kernel

-- src/nodes/highlight.rs 133 highlight_with_double_bang_in_the_middle
example : (YamdNode.display (.highlight (some (cs! "title")) (some (cs! "icon")) [[.text (cs! "body")], [.text (cs! "a\n!!")]])) = (cs! "!! title\n! icon\nbody\n\na\n\\!!\n!!") := by decide +kernel

-- src/nodes/image.rs 74 image
example : (YamdNode.display (.image ⟨(cs! "alt"), (cs! "src")⟩)) = (cs! "![alt](src)") := by decide +kernel

-- src/nodes/image.rs 80 image_with_nested_squares
example : (YamdNode.display (.image ⟨(cs! "alt [nested squares]"), (cs! "src")⟩)) = (cs! "![alt [nested squares\\]](src)") := by decide +kernel

-- src/nodes/image.rs 86 image_with_nested_parentheses
example : (YamdNode.display (.image ⟨(cs! "alt"), (cs! "src(with nested)parentheses")⟩)) = (cs! "![alt](src\\(with nested\\)parentheses)") := by decide +kernel

-- src/nodes/image.rs 92 image_with_terminator
example : (YamdNode.display (.image ⟨(cs! "alt\n\n"), (cs! "src\n\n")⟩)) = (cs! "![alt\\\n\n](src\\\n\n)") := by decide +kernel

-- src/nodes/images.rs 69 images
example : (YamdNode.display (.images [⟨(cs! "alt"), (cs! "src")⟩, ⟨(cs! "alt"), (cs! "src")⟩])) = (cs! "![alt](src)\n![alt](src)") := by decide +kernel

-- src/nodes/italic.rs 70 italic_with_underscore
example : (displayItalic (cs! "Italic can contain any token even \ncan _be_ it")) = (cs! "_Italic can contain any token even \ncan \\_be\\_ it_") := by decide +kernel

-- src/nodes/italic.rs 79 italic_with_terminator
example : (displayItalic (cs! "Italic can contain any token even \n\n can be it")) = (cs! "_Italic can contain any token even \\\n\n can be it_") := by decide +kernel

-- src/nodes/paragraph.rs 191 paragraph
example : (YamdNode.display (.paragraph [.text (cs! "Paragraph can contain an "), .anchor ⟨(cs! "anchor"), (cs! "https://example.com")⟩, .text (cs! ", a "), .codeSpan (cs! "code span"), .text (cs! ", or "), .bold [.text (cs! "bold")], .text (cs! ", or "), .italic (cs! "italic"), .text (cs! ", or "), .strikethrough (cs! "strikethrough"), .text (cs! ", or "), .emphasis (cs! "emphasis"), .text (cs! ", or regular text.")])) = (cs! "Paragraph can contain an [anchor](https://example.com), a `code span`, or **bold**, or _italic_, or ~~strikethrough~~, or *emphasis*, or regular text.") := by decide +kernel

-- src/nodes/paragraph.rs 214 paragraph_with_terminator
example : (YamdNode.display (.paragraph [.text (cs! "\n\n")])) = (cs! "\\\n\\\n") := by decide +kernel

-- src/nodes/paragraph.rs 220 paragraph_text_with_curly_close
example : (YamdNode.display (.paragraph [.text (cs! "%}")])) = (cs! "\\%}") := by decide +kernel

-- src/nodes/strikethrough.rs 76 strikethrough_with_tilde
example : (displayStrikethrough (cs! "Strikethrough can contain any token even ~~")) = (cs! "~~Strikethrough can contain any token even \\~\\~~~") := by decide +kernel

-- src/nodes/strikethrough.rs 85 strikethrough_with_terminator
example : (displayStrikethrough (cs! "Strikethrough with terminator\n\n")) = (cs! "~~Strikethrough with terminator\\\n\n~~") := by decide +kernel

-- src/nodes/thematic_break.rs 40 thematic_break
example : (YamdNode.display (.thematicBreak)) = (cs! "-----") := by decide +kernel

-- src/nodes/yamd.rs 294 test_yamd
example : (Yamd.display (Yamd.new (some (cs! "title: \"Yamd\"\n")) [.paragraph [.text (cs! "paragraph")], .highlight (some (cs! "Highlight")) (some (cs! "warning")) [[.text (cs! "body")]], .collapsible (cs! "Or collapsible") [.paragraph [.text (cs! "body")]]])) = (cs! "---\ntitle: \"Yamd\"\n---\n\nparagraph\n\n!! Highlight\n! warning\nbody\n!!\n\n{% Or collapsible\nbody\n%}") := by decide +kernel

-- src/nodes/yamd.rs 320 test_yamd_without_metadata
example : (Yamd.display (Yamd.new none [.paragraph [.text (cs! "paragraph")], .highlight (some (cs! "Highlight")) (some (cs! "warning")) [[.text (cs! "body")]], .collapsible (cs! "Or collapsible") [.paragraph [.text (cs! "body")]]])) = (cs! "paragraph\n\n!! Highlight\n! warning\nbody\n!!\n\n{% Or collapsible\nbody\n%}") := by decide +kernel

-- src/nodes/yamd.rs 346 test_yamd_with_empty_body
example : (Yamd.display (Yamd.new none [])) = ([] : Str) := by decide +kernel

-- src/nodes/yamd.rs 353 test_yamd_with_empty_metadata
example : (Yamd.display (Yamd.new (some ([] : Str)) [])) = (cs! "---\n\n---\n\n") := by decide +kernel

-- src/nodes/yamd.rs 360 paragraph_node
example : (YamdNode.display (.paragraph [.text (cs! "Paragraph")])) = (cs! "Paragraph") := by decide +kernel

-- src/nodes/yamd.rs 367 heading_node
example : (YamdNode.display (.heading 1 [.text (cs! "Heading")])) = (cs! "# Heading") := by decide +kernel

-- src/nodes/yamd.rs 374 image_node
example : (YamdNode.display (.image ⟨(cs! "alt"), (cs! "src")⟩)) = (cs! "![alt](src)") := by decide +kernel

-- src/nodes/yamd.rs 381 images_node
example : (YamdNode.display (.images [⟨(cs! "alt1"), (cs! "src1")⟩, ⟨(cs! "alt2"), (cs! "src2")⟩])) = (cs! "![alt1](src1)\n![alt2](src2)") := by decide +kernel

-- src/nodes/yamd.rs 391 code_node
example : (YamdNode.display (.newCode (cs! "rust") (cs! "code"))) = (cs! "```rust\ncode\n```") := by decide +kernel

-- src/nodes/yamd.rs 398 list_node
example : (YamdNode.display (.list (.mk .Unordered 0 [.mk [.text (cs! "Item 1")] none, .mk [.text (cs! "Item 2")] none]))) = (cs! "- Item 1\n- Item 2") := by decide +kernel

-- src/nodes/yamd.rs 412 highlight_node
example : (YamdNode.display (.highlight (some (cs! "Highlight")) (some (cs! "warning")) [[.text (cs! "body")]])) = (cs! "!! Highlight\n! warning\nbody\n!!") := by decide +kernel

-- src/nodes/yamd.rs 423 thematic_break_node
example : (YamdNode.display (.thematicBreak)) = (cs! "-----") := by decide +kernel

-- src/nodes/yamd.rs 430 embed_node
example : (YamdNode.display (.embed (cs! "youtube") (cs! "url"))) = (cs! "{{youtube|url}}") := by decide +kernel

-- src/nodes/yamd.rs 437 collapsible_node
example : (YamdNode.display (.collapsible (cs! "Or collapsible") [.paragraph [.text (cs! "body")]])) = (cs! "{% Or collapsible\nbody\n%}") := by decide +kernel

-- tests/round_trip.rs 26 highlight_body_with_double_bang
example : deserialize (Yamd.display (Yamd.new none [.highlight (some (cs! "title")) (some (cs! "icon")) [[.text (cs! "body with !! inside")]]])) = .ok (Yamd.new none [.highlight (some (cs! "title")) (some (cs! "icon")) [[.text (cs! "body with !! inside")]]]) := by decide +kernel

-- tests/round_trip.rs 40 paragraph_text_with_terminator
example : deserialize (Yamd.display (Yamd.new none [.paragraph [.text (cs! "text\n\nmore")]])) = .ok (Yamd.new none [.paragraph [.text (cs! "text\n\nmore")]]) := by decide +kernel

-- tests/round_trip.rs 45 paragraph_text_with_backslash
example : deserialize (Yamd.display (Yamd.new none [.paragraph [.text (cs! "text \\ more")]])) = .ok (Yamd.new none [.paragraph [.text (cs! "text \\ more")]]) := by decide +kernel

-- tests/round_trip.rs 50 paragraph_text_with_double_backslash
example : deserialize (Yamd.display (Yamd.new none [.paragraph [.text (cs! "text \\\\ more")]])) = .ok (Yamd.new none [.paragraph [.text (cs! "text \\\\ more")]]) := by decide +kernel

-- tests/round_trip.rs 55 paragraph_text_with_special_chars
example : deserialize (Yamd.display (Yamd.new none [.paragraph [.text (cs! "**not bold** _not italic_")]])) = .ok (Yamd.new none [.paragraph [.text (cs! "**not bold** _not italic_")]]) := by decide +kernel

-- tests/round_trip.rs 62 list_item_text_with_dash_after_newline
example : deserialize (Yamd.display (Yamd.new none [.list (.mk .Unordered 0 [.mk [.text (cs! "first\n- second")] none])])) = .ok (Yamd.new none [.list (.mk .Unordered 0 [.mk [.text (cs! "first\n- second")] none])]) := by decide +kernel

-- tests/round_trip.rs 77 list_item_text_with_plus_after_newline
example : deserialize (Yamd.display (Yamd.new none [.list (.mk .Ordered 0 [.mk [.text (cs! "first\n+ second")] none])])) = .ok (Yamd.new none [.list (.mk .Ordered 0 [.mk [.text (cs! "first\n+ second")] none])]) := by decide +kernel

-- tests/round_trip.rs 92 empty_string_italic
example : deserialize (Yamd.display (Yamd.new none [.paragraph [.italic ([] : Str)]])) = .ok (Yamd.new none [.paragraph [.italic ([] : Str)]]) := by decide +kernel

-- tests/round_trip.rs 97 empty_string_bold
example : (displayBold [.text ([] : Str)]) = ([] : Str) := by decide +kernel

-- tests/round_trip.rs 103 empty_string_code_span
example : (displayCodeSpan ([] : Str)) = ([] : Str) := by decide +kernel

-- tests/round_trip.rs 109 unicode_emoji_in_paragraph
example : deserialize (Yamd.display (Yamd.new none [.paragraph [.text (cs! "hello 🤔 world 🎉")]])) = .ok (Yamd.new none [.paragraph [.text (cs! "hello 🤔 world 🎉")]]) := by decide +kernel

-- tests/round_trip.rs 114 unicode_emoji_in_heading
example : deserialize (Yamd.display (Yamd.new none [.heading 1 [.text (cs! "hello 🤔")]])) = .ok (Yamd.new none [.heading 1 [.text (cs! "hello 🤔")]]) := by decide +kernel

-- tests/round_trip.rs 119 backslash_at_end_of_text
example : deserialize (Yamd.display (Yamd.new none [.paragraph [.text (cs! "text ending with \\")]])) = .ok (Yamd.new none [.paragraph [.text (cs! "text ending with \\")]]) := by decide +kernel

-- tests/round_trip.rs 124 consecutive_special_chars
example : deserialize (Yamd.display (Yamd.new none [.paragraph [.text (cs! "***___~~~```###!!!")]])) = .ok (Yamd.new none [.paragraph [.text (cs! "***___~~~```###!!!")]]) := by decide +kernel

-- tests/round_trip.rs 129 metadata_round_trip
example : deserialize (Yamd.display (Yamd.new (some (cs! "key: value\ntitle: test")) [.paragraph [.text (cs! "body")]])) = .ok (Yamd.new (some (cs! "key: value\ntitle: test")) [.paragraph [.text (cs! "body")]]) := by decide +kernel

-- tests/round_trip.rs 138 metadata_with_triple_dash
example : deserialize (Yamd.display (Yamd.new (some (cs! "key: ---value")) [.paragraph [.text (cs! "body")]])) = .ok (Yamd.new (some (cs! "key: ---value")) [.paragraph [.text (cs! "body")]]) := by decide +kernel

-- tests/round_trip.rs 147 full_document_round_trip
example : deserialize (Yamd.display (Yamd.new (some (cs! "title: test")) [.heading 1 [.text (cs! "Title")], .paragraph [.text (cs! "Hello "), .bold [.text (cs! "bold")], .text (cs! " and "), .italic (cs! "italic")], .newCode (cs! "rust") (cs! "fn main() {}"), .thematicBreak, .list (.mk .Unordered 0 [.mk [.text (cs! "item 1")] none, .mk [.text (cs! "item 2")] none])])) = .ok (Yamd.new (some (cs! "title: test")) [.heading 1 [.text (cs! "Title")], .paragraph [.text (cs! "Hello "), .bold [.text (cs! "bold")], .text (cs! " and "), .italic (cs! "italic")], .newCode (cs! "rust") (cs! "fn main() {}"), .thematicBreak, .list (.mk .Unordered 0 [.mk [.text (cs! "item 1")] none, .mk [.text (cs! "item 2")] none])]) := by decide +kernel

-- tests/round_trip.rs 176 highlight_body_starts_with_list_marker
example : deserialize (Yamd.display (Yamd.new none [.highlight (some (cs! "title")) (some (cs! "icon")) [[.text (cs! "- not a list")]]])) = .ok (Yamd.new none [.highlight (some (cs! "title")) (some (cs! "icon")) [[.text (cs! "- not a list")]]]) := by decide +kernel

-- tests/round_trip.rs 190 highlight_body_starts_with_heading_marker
example : deserialize (Yamd.display (Yamd.new none [.highlight (some (cs! "title")) (some (cs! "icon")) [[.text (cs! "# not a heading")]]])) = .ok (Yamd.new none [.highlight (some (cs! "title")) (some (cs! "icon")) [[.text (cs! "# not a heading")]]]) := by decide +kernel

-- tests/round_trip.rs 204 collapsible_body_starts_with_highlight_marker
example : deserialize (Yamd.display (Yamd.new none [.collapsible (cs! "title") [.paragraph [.text (cs! "!! not a highlight")]]])) = .ok (Yamd.new none [.collapsible (cs! "title") [.paragraph [.text (cs! "!! not a highlight")]]]) := by decide +kernel

-- tests/round_trip.rs 217 top_level_paragraph_starts_with_list_marker
example : deserialize (Yamd.display (Yamd.new none [.paragraph [.text (cs! "- not a list")]])) = .ok (Yamd.new none [.paragraph [.text (cs! "- not a list")]]) := by decide +kernel

-- tests/round_trip.rs 222 top_level_paragraph_starts_with_highlight_marker
example : deserialize (Yamd.display (Yamd.new none [.paragraph [.text (cs! "!! not a highlight")]])) = .ok (Yamd.new none [.paragraph [.text (cs! "!! not a highlight")]]) := by decide +kernel

-- tests/round_trip.rs 229 collapsible_body_starts_with_list_marker
example : deserialize (Yamd.display (Yamd.new none [.collapsible (cs! "title") [.paragraph [.text (cs! "- not a list")]]])) = .ok (Yamd.new none [.collapsible (cs! "title") [.paragraph [.text (cs! "- not a list")]]]) := by decide +kernel

-- src/lib.rs 115 test_deserialize
example : deserialize (cs! "# header") = .ok (Yamd.new none [.heading 1 [.text (cs! "header")]]) := by decide +kernel

-- src/lib.rs 126 deserialize_text_containing_utf8
example : deserialize (cs! "## 🤔\n\n[link 😉](url)") = .ok (Yamd.new none [.heading 2 [.text (cs! "🤔")], .paragraph [.anchor ⟨(cs! "link 😉"), (cs! "url")⟩]]) := by decide +kernel

end Yamd.TestsNodes
