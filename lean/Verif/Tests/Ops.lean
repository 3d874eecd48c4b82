import Verif.Model.ToYamd

/-! Unit tests of the Rust code, transcribed by tools/transcribe_tests.py: evidence that the model
behaves like the program on the cases its authors wrote down. These are tests, not proofs. -/

namespace Yamd.TestsOps

-- src/op/anchor.rs 23 happy_path
example : Prod.fst <$> ((P.ofStr (cs! "[a](u)")) >>= anchor) = .ok true := by decide +kernel

-- src/op/anchor.rs 23 happy_path
example : P.ops <$> ((P.ofStr (cs! "[a](u)")) >>= fun p => Prod.snd <$> anchor p) = (((P.ofStr (cs! "[a](u)")) >>= fun p => Prod.snd <$> anchor p) >>= fun q => [(Op.start .Anchor <$> (pure (Content.Span 0 0))), (Op.start .Title <$> (P.span q 0 1)), (Op.value <$> (P.span q 1 2)), (Op.close .Title <$> (P.span q 2 3)), (Op.start .Destination <$> (P.span q 3 4)), (Op.value <$> (P.span q 4 5)), (Op.close .Destination <$> (P.span q 5 6)), (Op.close .Anchor <$> (pure (Content.Span 0 0)))].mapM id) := by decide +kernel

-- src/op/anchor.rs 42 title_is_not_closed
example : Prod.fst <$> ((P.ofStr (cs! "[a")) >>= anchor) = .ok false := by decide +kernel

-- src/op/anchor.rs 42 title_is_not_closed
example : P.ops <$> ((P.ofStr (cs! "[a")) >>= fun p => Prod.snd <$> anchor p) = .ok [] := by decide +kernel

-- src/op/anchor.rs 42 title_is_not_closed
example : (fun p => (P.pos p, P.peek p)) <$> ((P.ofStr (cs! "[a")) >>= fun p => Prod.snd <$> anchor p) = .ok (0, some ⟨.LeftSquareBracket, 0, 1, ⟨0, 0, 0⟩, false⟩) := by decide +kernel

-- src/op/anchor.rs 56 url_is_not_closed
example : Prod.fst <$> ((P.ofStr (cs! "[a](u")) >>= anchor) = .ok false := by decide +kernel

-- src/op/anchor.rs 56 url_is_not_closed
example : P.ops <$> ((P.ofStr (cs! "[a](u")) >>= fun p => Prod.snd <$> anchor p) = .ok [] := by decide +kernel

-- src/op/anchor.rs 56 url_is_not_closed
example : (fun p => (P.pos p, P.peek p)) <$> ((P.ofStr (cs! "[a](u")) >>= fun p => Prod.snd <$> anchor p) = .ok (0, some ⟨.LeftSquareBracket, 0, 1, ⟨0, 0, 0⟩, false⟩) := by decide +kernel

-- src/op/anchor.rs 70 has_nested_square_brackets
example : Prod.fst <$> ((P.ofStr (cs! "[[a\\]l](u)")) >>= anchor) = .ok true := by decide +kernel

-- src/op/anchor.rs 70 has_nested_square_brackets
example : P.ops <$> ((P.ofStr (cs! "[[a\\]l](u)")) >>= fun p => Prod.snd <$> anchor p) = (((P.ofStr (cs! "[[a\\]l](u)")) >>= fun p => Prod.snd <$> anchor p) >>= fun q => [(Op.start .Anchor <$> (pure (Content.Span 0 0))), (Op.start .Title <$> (P.span q 0 1)), (Op.value <$> (P.span q 1 4)), (Op.close .Title <$> (P.span q 4 5)), (Op.start .Destination <$> (P.span q 5 6)), (Op.value <$> (P.span q 6 7)), (Op.close .Destination <$> (P.span q 7 8)), (Op.close .Anchor <$> (pure (Content.Span 0 0)))].mapM id) := by decide +kernel

-- src/op/anchor.rs 89 has_nested_paren
example : Prod.fst <$> ((P.ofStr (cs! "[a]((u)r)")) >>= anchor) = .ok true := by decide +kernel

-- src/op/anchor.rs 89 has_nested_paren
example : P.ops <$> ((P.ofStr (cs! "[a]((u)r)")) >>= fun p => Prod.snd <$> anchor p) = (((P.ofStr (cs! "[a]((u)r)")) >>= fun p => Prod.snd <$> anchor p) >>= fun q => [(Op.start .Anchor <$> (pure (Content.Span 0 0))), (Op.start .Title <$> (P.span q 0 1)), (Op.value <$> (P.span q 1 2)), (Op.close .Title <$> (P.span q 2 3)), (Op.start .Destination <$> (P.span q 3 4)), (Op.value <$> (P.span q 4 8)), (Op.close .Destination <$> (P.span q 8 9)), (Op.close .Anchor <$> (pure (Content.Span 0 0)))].mapM id) := by decide +kernel

-- src/op/anchor.rs 108 has_unclosed_nested_paren
example : Prod.fst <$> ((P.ofStr (cs! "[a]((ur)t")) >>= anchor) = .ok true := by decide +kernel

-- src/op/anchor.rs 108 has_unclosed_nested_paren
example : P.ops <$> ((P.ofStr (cs! "[a]((ur)t")) >>= fun p => Prod.snd <$> anchor p) = (((P.ofStr (cs! "[a]((ur)t")) >>= fun p => Prod.snd <$> anchor p) >>= fun q => [(Op.start .Anchor <$> (pure (Content.Span 0 0))), (Op.start .Title <$> (P.span q 0 1)), (Op.value <$> (P.span q 1 2)), (Op.close .Title <$> (P.span q 2 3)), (Op.start .Destination <$> (P.span q 3 4)), (Op.value <$> (P.span q 4 6)), (Op.close .Destination <$> (P.span q 6 7)), (Op.close .Anchor <$> (pure (Content.Span 0 0)))].mapM id) := by decide +kernel

-- src/op/anchor.rs 143 no_paren
example : Prod.fst <$> ((P.ofStr (cs! "[a]")) >>= anchor) = .ok false := by decide +kernel

-- src/op/anchor.rs 143 no_paren
example : P.ops <$> ((P.ofStr (cs! "[a]")) >>= fun p => Prod.snd <$> anchor p) = .ok [] := by decide +kernel

-- src/op/anchor.rs 143 no_paren
example : (fun p => (P.pos p, P.peek p)) <$> ((P.ofStr (cs! "[a]")) >>= fun p => Prod.snd <$> anchor p) = .ok (0, some ⟨.LeftSquareBracket, 0, 1, ⟨0, 0, 0⟩, false⟩) := by decide +kernel

-- src/op/anchor.rs 157 right_paren
example : Prod.fst <$> ((P.ofStr (cs! "[a])")) >>= anchor) = .ok false := by decide +kernel

-- src/op/anchor.rs 157 right_paren
example : P.ops <$> ((P.ofStr (cs! "[a])")) >>= fun p => Prod.snd <$> anchor p) = .ok [] := by decide +kernel

-- src/op/anchor.rs 157 right_paren
example : (fun p => (P.pos p, P.peek p)) <$> ((P.ofStr (cs! "[a])")) >>= fun p => Prod.snd <$> anchor p) = .ok (0, some ⟨.LeftSquareBracket, 0, 1, ⟨0, 0, 0⟩, false⟩) := by decide +kernel

-- src/op/bold.rs 66 happy_path
example : Prod.fst <$> ((P.ofStr (cs! "**~~happy~~ _path_**")) >>= bold) = .ok true := by decide +kernel

-- src/op/bold.rs 66 happy_path
example : P.ops <$> ((P.ofStr (cs! "**~~happy~~ _path_**")) >>= fun p => Prod.snd <$> bold p) = (((P.ofStr (cs! "**~~happy~~ _path_**")) >>= fun p => Prod.snd <$> bold p) >>= fun q => [(Op.start .Bold <$> (P.span q 0 1)), (Op.start .Strikethrough <$> (P.span q 1 2)), (Op.value <$> (P.span q 2 3)), (Op.close .Strikethrough <$> (P.span q 3 4)), (Op.value <$> (P.span q 4 5)), (Op.start .Italic <$> (P.span q 5 6)), (Op.value <$> (P.span q 6 7)), (Op.close .Italic <$> (P.span q 7 8)), (Op.close .Bold <$> (P.span q 8 9))].mapM id) := by decide +kernel

-- src/op/bold.rs 99 end_of_input
example : Prod.fst <$> ((P.ofStr (cs! "**~~happy~~ _path_")) >>= bold) = .ok false := by decide +kernel

-- src/op/bold.rs 99 end_of_input
example : P.ops <$> ((P.ofStr (cs! "**~~happy~~ _path_")) >>= fun p => Prod.snd <$> bold p) = .ok [] := by decide +kernel

-- src/op/bold.rs 99 end_of_input
example : (fun p => (P.pos p, P.peek p)) <$> ((P.ofStr (cs! "**~~happy~~ _path_")) >>= fun p => Prod.snd <$> bold p) = .ok (0, some ⟨.Star, 0, 2, ⟨0, 0, 0⟩, false⟩) := by decide +kernel

-- src/op/bold.rs 110 end_of_input_in_nested
example : Prod.fst <$> ((P.ofStr (cs! "**~~happy _path_")) >>= bold) = .ok false := by decide +kernel

-- src/op/bold.rs 110 end_of_input_in_nested
example : P.ops <$> ((P.ofStr (cs! "**~~happy _path_")) >>= fun p => Prod.snd <$> bold p) = .ok [] := by decide +kernel

-- src/op/bold.rs 110 end_of_input_in_nested
example : (fun p => (P.pos p, P.peek p)) <$> ((P.ofStr (cs! "**~~happy _path_")) >>= fun p => Prod.snd <$> bold p) = .ok (0, some ⟨.Star, 0, 2, ⟨0, 0, 0⟩, false⟩) := by decide +kernel

-- src/op/bold.rs 121 text_before_strikethrough
example : Prod.fst <$> ((P.ofStr (cs! "**text ~~happy~~ _path_**")) >>= bold) = .ok true := by decide +kernel

-- src/op/bold.rs 121 text_before_strikethrough
example : P.ops <$> ((P.ofStr (cs! "**text ~~happy~~ _path_**")) >>= fun p => Prod.snd <$> bold p) = (((P.ofStr (cs! "**text ~~happy~~ _path_**")) >>= fun p => Prod.snd <$> bold p) >>= fun q => [(Op.start .Bold <$> (P.span q 0 1)), (Op.value <$> (P.span q 1 2)), (Op.start .Strikethrough <$> (P.span q 2 3)), (Op.value <$> (P.span q 3 4)), (Op.close .Strikethrough <$> (P.span q 4 5)), (Op.value <$> (P.span q 5 6)), (Op.start .Italic <$> (P.span q 6 7)), (Op.value <$> (P.span q 7 8)), (Op.close .Italic <$> (P.span q 8 9)), (Op.close .Bold <$> (P.span q 9 10))].mapM id) := by decide +kernel

-- src/op/bold.rs 142 unclosed_italic
example : Prod.fst <$> ((P.ofStr (cs! "**_path**")) >>= bold) = .ok true := by decide +kernel

-- src/op/bold.rs 142 unclosed_italic
example : P.ops <$> ((P.ofStr (cs! "**_path**")) >>= fun p => Prod.snd <$> bold p) = (((P.ofStr (cs! "**_path**")) >>= fun p => Prod.snd <$> bold p) >>= fun q => [(Op.start .Bold <$> (P.span q 0 1)), (Op.value <$> (P.span q 1 3)), (Op.close .Bold <$> (P.span q 3 4))].mapM id) := by decide +kernel

-- src/op/code.rs 70 happy_path
example : Prod.fst <$> ((P.ofStr (cs! "```rust\nprintln!(\"hello\");\n```")) >>= code) = .ok true := by decide +kernel

-- src/op/code.rs 70 happy_path
example : P.ops <$> ((P.ofStr (cs! "```rust\nprintln!(\"hello\");\n```")) >>= fun p => Prod.snd <$> code p) = (((P.ofStr (cs! "```rust\nprintln!(\"hello\");\n```")) >>= fun p => Prod.snd <$> code p) >>= fun q => [(Op.start .Code <$> (P.span q 0 1)), (Op.start .Modifier <$> (P.span q 0 0)), (Op.value <$> (P.span q 1 2)), (Op.close .Modifier <$> (P.span q 2 3)), (Op.value <$> (P.span q 3 10)), (Op.close .Code <$> (P.span q 10 11))].mapM id) := by decide +kernel

-- src/op/code.rs 87 eol_before_lang
example : Prod.fst <$> ((P.ofStr (cs! "```\nprintln!(\"hello\");\n```")) >>= code) = .ok true := by decide +kernel

-- src/op/code.rs 87 eol_before_lang
example : P.ops <$> ((P.ofStr (cs! "```\nprintln!(\"hello\");\n```")) >>= fun p => Prod.snd <$> code p) = (((P.ofStr (cs! "```\nprintln!(\"hello\");\n```")) >>= fun p => Prod.snd <$> code p) >>= fun q => [(Op.start .Code <$> (P.span q 0 2)), (Op.value <$> (P.span q 2 9)), (Op.close .Code <$> (P.span q 9 10))].mapM id) := by decide +kernel

-- src/op/code.rs 110 do_not_have_closing_token
example : Prod.fst <$> ((P.ofStr (cs! "```\nprintln!(\"hello\");\n``")) >>= code) = .ok false := by decide +kernel

-- src/op/code.rs 110 do_not_have_closing_token
example : P.ops <$> ((P.ofStr (cs! "```\nprintln!(\"hello\");\n``")) >>= fun p => Prod.snd <$> code p) = .ok [] := by decide +kernel

-- src/op/code.rs 110 do_not_have_closing_token
example : (fun p => (P.pos p, P.peek p)) <$> ((P.ofStr (cs! "```\nprintln!(\"hello\");\n``")) >>= fun p => Prod.snd <$> code p) = .ok (0, some ⟨.Backtick, 0, 3, ⟨0, 0, 0⟩, false⟩) := by decide +kernel

-- src/op/code.rs 124 trailing_eol_consumed
example : Prod.fst <$> ((P.ofStr (cs! "```\ncode\n```\n")) >>= code) = .ok true := by decide +kernel

-- src/op/code.rs 124 trailing_eol_consumed
example : P.ops <$> ((P.ofStr (cs! "```\ncode\n```\n")) >>= fun p => Prod.snd <$> code p) = (((P.ofStr (cs! "```\ncode\n```\n")) >>= fun p => Prod.snd <$> code p) >>= fun q => [(Op.start .Code <$> (P.span q 0 2)), (Op.value <$> (P.span q 2 4)), (Op.close .Code <$> (P.span q 4 6))].mapM id) := by decide +kernel

-- src/op/code.rs 124 trailing_eol_consumed
example : P.atEof <$> ((P.ofStr (cs! "```\ncode\n```\n")) >>= fun p => Prod.snd <$> code p) = .ok true := by decide +kernel

-- src/op/code.rs 139 closing_backticks_not_at_block_boundary
example : Prod.fst <$> ((P.ofStr (cs! "```\ncode\n```extra")) >>= code) = .ok false := by decide +kernel

-- src/op/code.rs 139 closing_backticks_not_at_block_boundary
example : P.ops <$> ((P.ofStr (cs! "```\ncode\n```extra")) >>= fun p => Prod.snd <$> code p) = .ok [] := by decide +kernel

-- src/op/code.rs 139 closing_backticks_not_at_block_boundary
example : P.pos <$> ((P.ofStr (cs! "```\ncode\n```extra")) >>= fun p => Prod.snd <$> code p) = .ok 0 := by decide +kernel

-- src/op/code.rs 147 terminator_in_the_middle_and_do_not_have_closing_token
example : Prod.fst <$> ((P.ofStr (cs! "```\nprintln!(\"hello\");\n\n\n``")) >>= code) = .ok false := by decide +kernel

-- src/op/code.rs 147 terminator_in_the_middle_and_do_not_have_closing_token
example : P.ops <$> ((P.ofStr (cs! "```\nprintln!(\"hello\");\n\n\n``")) >>= fun p => Prod.snd <$> code p) = .ok [] := by decide +kernel

-- src/op/code.rs 147 terminator_in_the_middle_and_do_not_have_closing_token
example : (fun p => (P.pos p, P.peek p)) <$> ((P.ofStr (cs! "```\nprintln!(\"hello\");\n\n\n``")) >>= fun p => Prod.snd <$> code p) = .ok (0, some ⟨.Backtick, 0, 3, ⟨0, 0, 0⟩, false⟩) := by decide +kernel

-- src/op/code_span.rs 35 happy_path
example : Prod.fst <$> ((P.ofStr (cs! "`happy path`")) >>= codeSpan) = .ok true := by decide +kernel

-- src/op/code_span.rs 35 happy_path
example : P.ops <$> ((P.ofStr (cs! "`happy path`")) >>= fun p => Prod.snd <$> codeSpan p) = (((P.ofStr (cs! "`happy path`")) >>= fun p => Prod.snd <$> codeSpan p) >>= fun q => [(Op.start .CodeSpan <$> (P.span q 0 1)), (Op.value <$> (P.span q 1 2)), (Op.close .CodeSpan <$> (P.span q 2 3))].mapM id) := by decide +kernel

-- src/op/code_span.rs 65 no_rhs
example : Prod.fst <$> ((P.ofStr (cs! "`happy path")) >>= codeSpan) = .ok false := by decide +kernel

-- src/op/code_span.rs 65 no_rhs
example : P.ops <$> ((P.ofStr (cs! "`happy path")) >>= fun p => Prod.snd <$> codeSpan p) = .ok [] := by decide +kernel

-- src/op/code_span.rs 65 no_rhs
example : (fun p => (P.pos p, P.peek p)) <$> ((P.ofStr (cs! "`happy path")) >>= fun p => Prod.snd <$> codeSpan p) = .ok (0, some ⟨.Backtick, 0, 1, ⟨0, 0, 0⟩, false⟩) := by decide +kernel

-- src/op/collapsible.rs 73 happy_path
example : Prod.fst <$> ((P.ofStr (cs! "{% Title\n# Heading\n\ntext\n\n{% nested\n![a](u)\n%}\n%}")) >>= (collapsible 1000)) = .ok true := by decide +kernel

-- src/op/collapsible.rs 73 happy_path
example : P.ops <$> ((P.ofStr (cs! "{% Title\n# Heading\n\ntext\n\n{% nested\n![a](u)\n%}\n%}")) >>= fun p => Prod.snd <$> (collapsible 1000) p) = (((P.ofStr (cs! "{% Title\n# Heading\n\ntext\n\n{% nested\n![a](u)\n%}\n%}")) >>= fun p => Prod.snd <$> (collapsible 1000) p) >>= fun q => [(Op.start .Collapsible <$> (P.span q 0 2)), (Op.start .Modifier <$> (pure (Content.Span 0 0))), (Op.value <$> (P.span q 2 3)), (Op.close .Modifier <$> (P.span q 3 4)), (Op.start .Document <$> (pure (Content.Span 0 0))), (Op.start .Heading <$> (P.span q 4 6)), (Op.value <$> (P.span q 6 7)), (Op.close .Heading <$> (pure (Content.Span 0 0))), (Op.value <$> (P.span q 7 8)), (Op.start .Paragraph <$> (pure (Content.Span 0 0))), (Op.value <$> (P.span q 8 9)), (Op.close .Paragraph <$> (pure (Content.Span 0 0))), (Op.value <$> (P.span q 9 10)), (Op.start .Collapsible <$> (P.span q 10 12)), (Op.start .Modifier <$> (pure (Content.Span 0 0))), (Op.value <$> (P.span q 12 13)), (Op.close .Modifier <$> (P.span q 13 14)), (Op.start .Document <$> (pure (Content.Span 0 0))), (Op.start .Image <$> (P.span q 14 15)), (Op.start .Title <$> (P.span q 15 16)), (Op.value <$> (P.span q 16 17)), (Op.close .Title <$> (P.span q 17 18)), (Op.start .Destination <$> (P.span q 18 19)), (Op.value <$> (P.span q 19 20)), (Op.close .Destination <$> (P.span q 20 21)), (Op.close .Image <$> (P.span q 21 22)), (Op.close .Document <$> (pure (Content.Span 0 0))), (Op.close .Collapsible <$> (P.span q 22 24)), (Op.close .Document <$> (pure (Content.Span 0 0))), (Op.close .Collapsible <$> (P.span q 24 25))].mapM id) := by decide +kernel

-- src/op/collapsible.rs 114 no_title
example : Prod.fst <$> ((P.ofStr (cs! "{%\ntext%}")) >>= (collapsible 1000)) = .ok false := by decide +kernel

-- src/op/collapsible.rs 114 no_title
example : P.ops <$> ((P.ofStr (cs! "{%\ntext%}")) >>= fun p => Prod.snd <$> (collapsible 1000) p) = .ok [] := by decide +kernel

-- src/op/collapsible.rs 114 no_title
example : (fun p => (P.pos p, P.peek p)) <$> ((P.ofStr (cs! "{%\ntext%}")) >>= fun p => Prod.snd <$> (collapsible 1000) p) = .ok (0, some ⟨.Literal, 0, 2, ⟨0, 0, 0⟩, false⟩) := by decide +kernel

-- src/op/collapsible.rs 128 no_end_token
example : Prod.fst <$> ((P.ofStr (cs! "{% Title\n# Heading\n\ntext\n\n{% nested\n![a](u)\n%}\n")) >>= (collapsible 1000)) = .ok false := by decide +kernel

-- src/op/collapsible.rs 128 no_end_token
example : P.ops <$> ((P.ofStr (cs! "{% Title\n# Heading\n\ntext\n\n{% nested\n![a](u)\n%}\n")) >>= fun p => Prod.snd <$> (collapsible 1000) p) = .ok [] := by decide +kernel

-- src/op/collapsible.rs 128 no_end_token
example : (fun p => (P.pos p, P.peek p)) <$> ((P.ofStr (cs! "{% Title\n# Heading\n\ntext\n\n{% nested\n![a](u)\n%}\n")) >>= fun p => Prod.snd <$> (collapsible 1000) p) = .ok (0, some ⟨.Literal, 0, 2, ⟨0, 0, 0⟩, false⟩) := by decide +kernel

-- src/op/collapsible.rs 142 just_heading
example : Prod.fst <$> ((P.ofStr (cs! "{% Title\n# Heading\n%}")) >>= (collapsible 1000)) = .ok true := by decide +kernel

-- src/op/collapsible.rs 142 just_heading
example : P.ops <$> ((P.ofStr (cs! "{% Title\n# Heading\n%}")) >>= fun p => Prod.snd <$> (collapsible 1000) p) = (((P.ofStr (cs! "{% Title\n# Heading\n%}")) >>= fun p => Prod.snd <$> (collapsible 1000) p) >>= fun q => [(Op.start .Collapsible <$> (P.span q 0 2)), (Op.start .Modifier <$> (pure (Content.Span 0 0))), (Op.value <$> (P.span q 2 3)), (Op.close .Modifier <$> (P.span q 3 4)), (Op.start .Document <$> (pure (Content.Span 0 0))), (Op.start .Heading <$> (P.span q 4 6)), (Op.value <$> (P.span q 6 7)), (Op.close .Heading <$> (pure (Content.Span 0 0))), (Op.close .Document <$> (pure (Content.Span 0 0))), (Op.close .Collapsible <$> (P.span q 8 9))].mapM id) := by decide +kernel

-- src/op/collapsible.rs 163 only_two_tokens
example : Prod.fst <$> ((P.ofStr (cs! "{% ")) >>= (collapsible 1000)) = .ok false := by decide +kernel

-- src/op/collapsible.rs 163 only_two_tokens
example : P.ops <$> ((P.ofStr (cs! "{% ")) >>= fun p => Prod.snd <$> (collapsible 1000) p) = .ok [] := by decide +kernel

-- src/op/collapsible.rs 163 only_two_tokens
example : (fun p => (P.pos p, P.peek p)) <$> ((P.ofStr (cs! "{% ")) >>= fun p => Prod.snd <$> (collapsible 1000) p) = .ok (0, some ⟨.Literal, 0, 2, ⟨0, 0, 0⟩, false⟩) := by decide +kernel

-- src/op/collapsible.rs 177 has_embed
example : Prod.fst <$> ((P.ofStr (cs! "{% Title\n{{foo|bar}}\n%}")) >>= (collapsible 1000)) = .ok true := by decide +kernel

-- src/op/collapsible.rs 177 has_embed
example : P.ops <$> ((P.ofStr (cs! "{% Title\n{{foo|bar}}\n%}")) >>= fun p => Prod.snd <$> (collapsible 1000) p) = (((P.ofStr (cs! "{% Title\n{{foo|bar}}\n%}")) >>= fun p => Prod.snd <$> (collapsible 1000) p) >>= fun q => [(Op.start .Collapsible <$> (P.span q 0 2)), (Op.start .Modifier <$> (pure (Content.Span 0 0))), (Op.value <$> (P.span q 2 3)), (Op.close .Modifier <$> (P.span q 3 4)), (Op.start .Document <$> (pure (Content.Span 0 0))), (Op.start .Embed <$> (P.span q 4 5)), (Op.value <$> (P.span q 5 6)), (Op.value <$> (P.span q 6 7)), (Op.value <$> (P.span q 7 8)), (Op.close .Embed <$> (P.span q 8 10)), (Op.close .Document <$> (pure (Content.Span 0 0))), (Op.close .Collapsible <$> (P.span q 10 11))].mapM id) := by decide +kernel

-- src/op/destination.rs 61 happy_path
example : Prod.fst <$> ((P.ofStr (cs! "(url)")) >>= destination) = .ok true := by decide +kernel

-- src/op/destination.rs 61 happy_path
example : (fun p => (P.ops p).length) <$> ((P.ofStr (cs! "(url)")) >>= fun p => Prod.snd <$> destination p) = .ok 3 := by decide +kernel

-- src/op/destination.rs 68 unclosed_paren
example : Prod.fst <$> ((P.ofStr (cs! "(url")) >>= destination) = .ok false := by decide +kernel

-- src/op/destination.rs 68 unclosed_paren
example : P.ops <$> ((P.ofStr (cs! "(url")) >>= fun p => Prod.snd <$> destination p) = .ok [] := by decide +kernel

-- src/op/destination.rs 68 unclosed_paren
example : P.pos <$> ((P.ofStr (cs! "(url")) >>= fun p => Prod.snd <$> destination p) = .ok 0 := by decide +kernel

-- src/op/destination.rs 76 nested_parens
example : Prod.fst <$> ((P.ofStr (cs! "(a(b)c)")) >>= destination) = .ok true := by decide +kernel

-- src/op/destination.rs 76 nested_parens
example : (fun p => (P.ops p).length) <$> ((P.ofStr (cs! "(a(b)c)")) >>= fun p => Prod.snd <$> destination p) = .ok 3 := by decide +kernel

-- src/op/embed.rs 67 happy_path
example : Prod.fst <$> ((P.ofStr (cs! "{{happy|path}}")) >>= embed) = .ok true := by decide +kernel

-- src/op/embed.rs 67 happy_path
example : P.ops <$> ((P.ofStr (cs! "{{happy|path}}")) >>= fun p => Prod.snd <$> embed p) = (((P.ofStr (cs! "{{happy|path}}")) >>= fun p => Prod.snd <$> embed p) >>= fun q => [(Op.start .Embed <$> (P.span q 0 1)), (Op.value <$> (P.span q 1 2)), (Op.value <$> (P.span q 2 3)), (Op.value <$> (P.span q 3 4)), (Op.close .Embed <$> (P.span q 4 5))].mapM id) := by decide +kernel

-- src/op/embed.rs 99 do_not_have_closing_token
example : Prod.fst <$> ((P.ofStr (cs! "{{happy|path}")) >>= embed) = .ok false := by decide +kernel

-- src/op/embed.rs 99 do_not_have_closing_token
example : P.ops <$> ((P.ofStr (cs! "{{happy|path}")) >>= fun p => Prod.snd <$> embed p) = .ok [] := by decide +kernel

-- src/op/embed.rs 99 do_not_have_closing_token
example : (fun p => (P.pos p, P.peek p)) <$> ((P.ofStr (cs! "{{happy|path}")) >>= fun p => Prod.snd <$> embed p) = .ok (0, some ⟨.LeftCurlyBrace, 0, 2, ⟨0, 0, 0⟩, false⟩) := by decide +kernel

-- src/op/embed.rs 113 closing_braces_not_at_block_boundary
example : Prod.fst <$> ((P.ofStr (cs! "{{happy|path}}extra")) >>= embed) = .ok false := by decide +kernel

-- src/op/embed.rs 113 closing_braces_not_at_block_boundary
example : P.ops <$> ((P.ofStr (cs! "{{happy|path}}extra")) >>= fun p => Prod.snd <$> embed p) = .ok [] := by decide +kernel

-- src/op/embed.rs 113 closing_braces_not_at_block_boundary
example : P.pos <$> ((P.ofStr (cs! "{{happy|path}}extra")) >>= fun p => Prod.snd <$> embed p) = .ok 0 := by decide +kernel

-- src/op/embed.rs 121 trailing_eol_consumed
example : Prod.fst <$> ((P.ofStr (cs! "{{happy|path}}\n")) >>= embed) = .ok true := by decide +kernel

-- src/op/embed.rs 121 trailing_eol_consumed
example : P.ops <$> ((P.ofStr (cs! "{{happy|path}}\n")) >>= fun p => Prod.snd <$> embed p) = (((P.ofStr (cs! "{{happy|path}}\n")) >>= fun p => Prod.snd <$> embed p) >>= fun q => [(Op.start .Embed <$> (P.span q 0 1)), (Op.value <$> (P.span q 1 2)), (Op.value <$> (P.span q 2 3)), (Op.value <$> (P.span q 3 4)), (Op.close .Embed <$> (P.span q 4 6))].mapM id) := by decide +kernel

-- src/op/embed.rs 121 trailing_eol_consumed
example : P.atEof <$> ((P.ofStr (cs! "{{happy|path}}\n")) >>= fun p => Prod.snd <$> embed p) = .ok true := by decide +kernel

-- src/op/embed.rs 138 no_pipe
example : Prod.fst <$> ((P.ofStr (cs! "{{happy}}")) >>= embed) = .ok false := by decide +kernel

-- src/op/embed.rs 138 no_pipe
example : P.ops <$> ((P.ofStr (cs! "{{happy}}")) >>= fun p => Prod.snd <$> embed p) = .ok [] := by decide +kernel

-- src/op/embed.rs 138 no_pipe
example : (fun p => (P.pos p, P.peek p)) <$> ((P.ofStr (cs! "{{happy}}")) >>= fun p => Prod.snd <$> embed p) = .ok (0, some ⟨.LeftCurlyBrace, 0, 2, ⟨0, 0, 0⟩, false⟩) := by decide +kernel

-- src/op/emphasis.rs 35 happy_path
example : Prod.fst <$> ((P.ofStr (cs! "*happy*")) >>= emphasis) = .ok true := by decide +kernel

-- src/op/emphasis.rs 35 happy_path
example : P.ops <$> ((P.ofStr (cs! "*happy*")) >>= fun p => Prod.snd <$> emphasis p) = (((P.ofStr (cs! "*happy*")) >>= fun p => Prod.snd <$> emphasis p) >>= fun q => [(Op.start .Emphasis <$> (P.span q 0 1)), (Op.value <$> (P.span q 1 2)), (Op.close .Emphasis <$> (P.span q 2 3))].mapM id) := by decide +kernel

-- src/op/emphasis.rs 49 no_closing_token
example : Prod.fst <$> ((P.ofStr (cs! "*happy")) >>= emphasis) = .ok false := by decide +kernel

-- src/op/emphasis.rs 49 no_closing_token
example : P.ops <$> ((P.ofStr (cs! "*happy")) >>= fun p => Prod.snd <$> emphasis p) = .ok [] := by decide +kernel

-- src/op/emphasis.rs 49 no_closing_token
example : (fun p => (P.pos p, P.peek p)) <$> ((P.ofStr (cs! "*happy")) >>= fun p => Prod.snd <$> emphasis p) = .ok (0, some ⟨.Star, 0, 1, ⟨0, 0, 0⟩, false⟩) := by decide +kernel

-- src/op/heading.rs 55 happy_path
example : Prod.fst <$> ((P.ofStr (cs! "## heading [a](u) text")) >>= heading) = .ok true := by decide +kernel

-- src/op/heading.rs 55 happy_path
example : P.ops <$> ((P.ofStr (cs! "## heading [a](u) text")) >>= fun p => Prod.snd <$> heading p) = (((P.ofStr (cs! "## heading [a](u) text")) >>= fun p => Prod.snd <$> heading p) >>= fun q => [(Op.start .Heading <$> (P.span q 0 2)), (Op.value <$> (P.span q 2 3)), (Op.start .Anchor <$> (pure (Content.Span 0 0))), (Op.start .Title <$> (P.span q 3 4)), (Op.value <$> (P.span q 4 5)), (Op.close .Title <$> (P.span q 5 6)), (Op.start .Destination <$> (P.span q 6 7)), (Op.value <$> (P.span q 7 8)), (Op.close .Destination <$> (P.span q 8 9)), (Op.close .Anchor <$> (pure (Content.Span 0 0))), (Op.value <$> (P.span q 9 11)), (Op.close .Heading <$> (pure (Content.Span 0 0)))].mapM id) := by decide +kernel

-- src/op/heading.rs 78 start_with_anchor
example : Prod.fst <$> ((P.ofStr (cs! "## [a](u) heading")) >>= heading) = .ok true := by decide +kernel

-- src/op/heading.rs 78 start_with_anchor
example : P.ops <$> ((P.ofStr (cs! "## [a](u) heading")) >>= fun p => Prod.snd <$> heading p) = (((P.ofStr (cs! "## [a](u) heading")) >>= fun p => Prod.snd <$> heading p) >>= fun q => [(Op.start .Heading <$> (P.span q 0 2)), (Op.start .Anchor <$> (pure (Content.Span 0 0))), (Op.start .Title <$> (P.span q 2 3)), (Op.value <$> (P.span q 3 4)), (Op.close .Title <$> (P.span q 4 5)), (Op.start .Destination <$> (P.span q 5 6)), (Op.value <$> (P.span q 6 7)), (Op.close .Destination <$> (P.span q 7 8)), (Op.close .Anchor <$> (pure (Content.Span 0 0))), (Op.value <$> (P.span q 8 10)), (Op.close .Heading <$> (pure (Content.Span 0 0)))].mapM id) := by decide +kernel

-- src/op/heading.rs 100 broken_anchor
example : Prod.fst <$> ((P.ofStr (cs! "## heading [a](u text")) >>= heading) = .ok true := by decide +kernel

-- src/op/heading.rs 100 broken_anchor
example : P.ops <$> ((P.ofStr (cs! "## heading [a](u text")) >>= fun p => Prod.snd <$> heading p) = (((P.ofStr (cs! "## heading [a](u text")) >>= fun p => Prod.snd <$> heading p) >>= fun q => [(Op.start .Heading <$> (P.span q 0 2)), (Op.value <$> (P.span q 2 8)), (Op.close .Heading <$> (pure (Content.Span 0 0)))].mapM id) := by decide +kernel

-- src/op/heading.rs 130 have_no_space_before_text
example : Prod.fst <$> ((P.ofStr (cs! "##heading\n\ntext")) >>= heading) = .ok false := by decide +kernel

-- src/op/heading.rs 130 have_no_space_before_text
example : P.ops <$> ((P.ofStr (cs! "##heading\n\ntext")) >>= fun p => Prod.snd <$> heading p) = .ok [] := by decide +kernel

-- src/op/heading.rs 130 have_no_space_before_text
example : (fun p => (P.pos p, P.peek p)) <$> ((P.ofStr (cs! "##heading\n\ntext")) >>= fun p => Prod.snd <$> heading p) = .ok (0, some ⟨.Hash, 0, 2, ⟨0, 0, 0⟩, false⟩) := by decide +kernel

-- src/op/heading.rs 141 empty_heading
example : Prod.fst <$> ((P.ofStr (cs! "# ")) >>= heading) = .ok true := by decide +kernel

-- src/op/heading.rs 141 empty_heading
example : P.ops <$> ((P.ofStr (cs! "# ")) >>= fun p => Prod.snd <$> heading p) = (((P.ofStr (cs! "# ")) >>= fun p => Prod.snd <$> heading p) >>= fun q => [(Op.start .Heading <$> (P.span q 0 2)), (Op.close .Heading <$> (pure (Content.Span 0 0)))].mapM id) := by decide +kernel

-- src/op/heading.rs 154 new_line_check
example : Prod.fst <$> ((P.ofStr (cs! "## heading [a](u) text\n ")) >>= heading) = .ok true := by decide +kernel

-- src/op/heading.rs 154 new_line_check
example : P.ops <$> ((P.ofStr (cs! "## heading [a](u) text\n ")) >>= fun p => Prod.snd <$> heading p) = (((P.ofStr (cs! "## heading [a](u) text\n ")) >>= fun p => Prod.snd <$> heading p) >>= fun q => [(Op.start .Heading <$> (P.span q 0 2)), (Op.value <$> (P.span q 2 3)), (Op.start .Anchor <$> (pure (Content.Span 0 0))), (Op.start .Title <$> (P.span q 3 4)), (Op.value <$> (P.span q 4 5)), (Op.close .Title <$> (P.span q 5 6)), (Op.start .Destination <$> (P.span q 6 7)), (Op.value <$> (P.span q 7 8)), (Op.close .Destination <$> (P.span q 8 9)), (Op.close .Anchor <$> (pure (Content.Span 0 0))), (Op.value <$> (P.span q 9 13)), (Op.close .Heading <$> (pure (Content.Span 0 0)))].mapM id) := by decide +kernel

-- src/op/heading.rs 177 only_one_token
example : Prod.fst <$> ((P.ofStr (cs! "##")) >>= heading) = .ok false := by decide +kernel

-- src/op/heading.rs 177 only_one_token
example : P.ops <$> ((P.ofStr (cs! "##")) >>= fun p => Prod.snd <$> heading p) = .ok [] := by decide +kernel

-- src/op/heading.rs 177 only_one_token
example : (fun p => (P.pos p, P.peek p)) <$> ((P.ofStr (cs! "##")) >>= fun p => Prod.snd <$> heading p) = .ok (0, some ⟨.Hash, 0, 2, ⟨0, 0, 0⟩, false⟩) := by decide +kernel

-- src/op/highlight.rs 121 happy_path
example : Prod.fst <$> ((P.ofStr (cs! "!! Title\n! Icon\n_i_ **b**\n\nt~~s~~t\n!!")) >>= highlight) = .ok true := by decide +kernel

-- src/op/highlight.rs 121 happy_path
example : P.ops <$> ((P.ofStr (cs! "!! Title\n! Icon\n_i_ **b**\n\nt~~s~~t\n!!")) >>= fun p => Prod.snd <$> highlight p) = (((P.ofStr (cs! "!! Title\n! Icon\n_i_ **b**\n\nt~~s~~t\n!!")) >>= fun p => Prod.snd <$> highlight p) >>= fun q => [(Op.start .Highlight <$> (P.span q 0 2)), (Op.start .Modifier <$> (pure (Content.Span 0 0))), (Op.value <$> (P.span q 2 3)), (Op.close .Modifier <$> (P.span q 3 4)), (Op.start .Icon <$> (P.span q 4 6)), (Op.value <$> (P.span q 6 7)), (Op.close .Icon <$> (P.span q 7 8)), (Op.start .Paragraph <$> (pure (Content.Span 0 0))), (Op.start .Italic <$> (P.span q 8 9)), (Op.value <$> (P.span q 9 10)), (Op.close .Italic <$> (P.span q 10 11)), (Op.value <$> (P.span q 11 12)), (Op.start .Bold <$> (P.span q 12 13)), (Op.value <$> (P.span q 13 14)), (Op.close .Bold <$> (P.span q 14 15)), (Op.close .Paragraph <$> (pure (Content.Span 0 0))), (Op.value <$> (P.span q 15 16)), (Op.start .Paragraph <$> (pure (Content.Span 0 0))), (Op.value <$> (P.span q 16 17)), (Op.start .Strikethrough <$> (P.span q 17 18)), (Op.value <$> (P.span q 18 19)), (Op.close .Strikethrough <$> (P.span q 19 20)), (Op.value <$> (P.span q 20 22)), (Op.close .Paragraph <$> (pure (Content.Span 0 0))), (Op.close .Highlight <$> (P.span q 22 23))].mapM id) := by decide +kernel

-- src/op/highlight.rs 157 no_title
example : Prod.fst <$> ((P.ofStr (cs! "!!\n! Icon\n_i_ **b**\n\nt~~s~~t\n!!")) >>= highlight) = .ok true := by decide +kernel

-- src/op/highlight.rs 157 no_title
example : P.ops <$> ((P.ofStr (cs! "!!\n! Icon\n_i_ **b**\n\nt~~s~~t\n!!")) >>= fun p => Prod.snd <$> highlight p) = (((P.ofStr (cs! "!!\n! Icon\n_i_ **b**\n\nt~~s~~t\n!!")) >>= fun p => Prod.snd <$> highlight p) >>= fun q => [(Op.start .Highlight <$> (P.span q 0 2)), (Op.start .Icon <$> (P.span q 2 4)), (Op.value <$> (P.span q 4 5)), (Op.close .Icon <$> (P.span q 5 6)), (Op.start .Paragraph <$> (pure (Content.Span 0 0))), (Op.start .Italic <$> (P.span q 6 7)), (Op.value <$> (P.span q 7 8)), (Op.close .Italic <$> (P.span q 8 9)), (Op.value <$> (P.span q 9 10)), (Op.start .Bold <$> (P.span q 10 11)), (Op.value <$> (P.span q 11 12)), (Op.close .Bold <$> (P.span q 12 13)), (Op.close .Paragraph <$> (pure (Content.Span 0 0))), (Op.value <$> (P.span q 13 14)), (Op.start .Paragraph <$> (pure (Content.Span 0 0))), (Op.value <$> (P.span q 14 15)), (Op.start .Strikethrough <$> (P.span q 15 16)), (Op.value <$> (P.span q 16 17)), (Op.close .Strikethrough <$> (P.span q 17 18)), (Op.value <$> (P.span q 18 20)), (Op.close .Paragraph <$> (pure (Content.Span 0 0))), (Op.close .Highlight <$> (P.span q 20 21))].mapM id) := by decide +kernel

-- src/op/highlight.rs 190 no_icon
example : Prod.fst <$> ((P.ofStr (cs! "!! Title\n_i_ **b**\n\nt~~s~~t\n!!")) >>= highlight) = .ok true := by decide +kernel

-- src/op/highlight.rs 190 no_icon
example : P.ops <$> ((P.ofStr (cs! "!! Title\n_i_ **b**\n\nt~~s~~t\n!!")) >>= fun p => Prod.snd <$> highlight p) = (((P.ofStr (cs! "!! Title\n_i_ **b**\n\nt~~s~~t\n!!")) >>= fun p => Prod.snd <$> highlight p) >>= fun q => [(Op.start .Highlight <$> (P.span q 0 2)), (Op.start .Modifier <$> (pure (Content.Span 0 0))), (Op.value <$> (P.span q 2 3)), (Op.close .Modifier <$> (P.span q 3 4)), (Op.start .Paragraph <$> (pure (Content.Span 0 0))), (Op.start .Italic <$> (P.span q 4 5)), (Op.value <$> (P.span q 5 6)), (Op.close .Italic <$> (P.span q 6 7)), (Op.value <$> (P.span q 7 8)), (Op.start .Bold <$> (P.span q 8 9)), (Op.value <$> (P.span q 9 10)), (Op.close .Bold <$> (P.span q 10 11)), (Op.close .Paragraph <$> (pure (Content.Span 0 0))), (Op.value <$> (P.span q 11 12)), (Op.start .Paragraph <$> (pure (Content.Span 0 0))), (Op.value <$> (P.span q 12 13)), (Op.start .Strikethrough <$> (P.span q 13 14)), (Op.value <$> (P.span q 14 15)), (Op.close .Strikethrough <$> (P.span q 15 16)), (Op.value <$> (P.span q 16 18)), (Op.close .Paragraph <$> (pure (Content.Span 0 0))), (Op.close .Highlight <$> (P.span q 18 19))].mapM id) := by decide +kernel

-- src/op/highlight.rs 223 no_closing_token
example : Prod.fst <$> ((P.ofStr (cs! "!! Title\n_i_ **b**\n\nt~~s~~t!!")) >>= highlight) = .ok false := by decide +kernel

-- src/op/highlight.rs 223 no_closing_token
example : P.ops <$> ((P.ofStr (cs! "!! Title\n_i_ **b**\n\nt~~s~~t!!")) >>= fun p => Prod.snd <$> highlight p) = .ok [] := by decide +kernel

-- src/op/highlight.rs 223 no_closing_token
example : (fun p => (P.pos p, P.peek p)) <$> ((P.ofStr (cs! "!! Title\n_i_ **b**\n\nt~~s~~t!!")) >>= fun p => Prod.snd <$> highlight p) = .ok (0, some ⟨.Bang, 0, 2, ⟨0, 0, 0⟩, false⟩) := by decide +kernel

-- src/op/highlight.rs 234 no_space_between_start_and_title
example : Prod.fst <$> ((P.ofStr (cs! "!!Title\n_i_ **b**\n\nt~~s~~t\n!!")) >>= highlight) = .ok false := by decide +kernel

-- src/op/highlight.rs 234 no_space_between_start_and_title
example : P.ops <$> ((P.ofStr (cs! "!!Title\n_i_ **b**\n\nt~~s~~t\n!!")) >>= fun p => Prod.snd <$> highlight p) = .ok [] := by decide +kernel

-- src/op/highlight.rs 234 no_space_between_start_and_title
example : (fun p => (P.pos p, P.peek p)) <$> ((P.ofStr (cs! "!!Title\n_i_ **b**\n\nt~~s~~t\n!!")) >>= fun p => Prod.snd <$> highlight p) = .ok (0, some ⟨.Bang, 0, 2, ⟨0, 0, 0⟩, false⟩) := by decide +kernel

-- src/op/highlight.rs 258 terminator_in_icon
example : Prod.fst <$> ((P.ofStr (cs! "!!\n! icon\n\n_i_ **b**\n\nt~~s~~t\n!!")) >>= highlight) = .ok true := by decide +kernel

-- src/op/highlight.rs 258 terminator_in_icon
example : P.ops <$> ((P.ofStr (cs! "!!\n! icon\n\n_i_ **b**\n\nt~~s~~t\n!!")) >>= fun p => Prod.snd <$> highlight p) = (((P.ofStr (cs! "!!\n! icon\n\n_i_ **b**\n\nt~~s~~t\n!!")) >>= fun p => Prod.snd <$> highlight p) >>= fun q => [(Op.start .Highlight <$> (P.span q 0 2)), (Op.start .Paragraph <$> (pure (Content.Span 0 0))), (Op.value <$> (P.span q 2 5)), (Op.close .Paragraph <$> (pure (Content.Span 0 0))), (Op.value <$> (P.span q 5 6)), (Op.start .Paragraph <$> (pure (Content.Span 0 0))), (Op.start .Italic <$> (P.span q 6 7)), (Op.value <$> (P.span q 7 8)), (Op.close .Italic <$> (P.span q 8 9)), (Op.value <$> (P.span q 9 10)), (Op.start .Bold <$> (P.span q 10 11)), (Op.value <$> (P.span q 11 12)), (Op.close .Bold <$> (P.span q 12 13)), (Op.close .Paragraph <$> (pure (Content.Span 0 0))), (Op.value <$> (P.span q 13 14)), (Op.start .Paragraph <$> (pure (Content.Span 0 0))), (Op.value <$> (P.span q 14 15)), (Op.start .Strikethrough <$> (P.span q 15 16)), (Op.value <$> (P.span q 16 17)), (Op.close .Strikethrough <$> (P.span q 17 18)), (Op.value <$> (P.span q 18 20)), (Op.close .Paragraph <$> (pure (Content.Span 0 0))), (Op.close .Highlight <$> (P.span q 20 21))].mapM id) := by decide +kernel

-- src/op/highlight.rs 292 no_space_before_icon
example : Prod.fst <$> ((P.ofStr (cs! "!! Title\n!Icon\n!!")) >>= highlight) = .ok true := by decide +kernel

-- src/op/highlight.rs 292 no_space_before_icon
example : P.ops <$> ((P.ofStr (cs! "!! Title\n!Icon\n!!")) >>= fun p => Prod.snd <$> highlight p) = (((P.ofStr (cs! "!! Title\n!Icon\n!!")) >>= fun p => Prod.snd <$> highlight p) >>= fun q => [(Op.start .Highlight <$> (P.span q 0 2)), (Op.start .Modifier <$> (pure (Content.Span 0 0))), (Op.value <$> (P.span q 2 3)), (Op.close .Modifier <$> (P.span q 3 4)), (Op.start .Paragraph <$> (pure (Content.Span 0 0))), (Op.value <$> (P.span q 4 7)), (Op.close .Paragraph <$> (pure (Content.Span 0 0))), (Op.close .Highlight <$> (P.span q 7 8))].mapM id) := by decide +kernel

-- src/op/highlight.rs 311 only_one_token
example : Prod.fst <$> ((P.ofStr (cs! "!!")) >>= highlight) = .ok false := by decide +kernel

-- src/op/highlight.rs 311 only_one_token
example : P.ops <$> ((P.ofStr (cs! "!!")) >>= fun p => Prod.snd <$> highlight p) = .ok [] := by decide +kernel

-- src/op/highlight.rs 311 only_one_token
example : (fun p => (P.pos p, P.peek p)) <$> ((P.ofStr (cs! "!!")) >>= fun p => Prod.snd <$> highlight p) = .ok (0, some ⟨.Bang, 0, 2, ⟨0, 0, 0⟩, false⟩) := by decide +kernel

-- src/op/image.rs 54 missing_title
example : Prod.fst <$> ((P.ofStr (cs! "!not_a_bracket")) >>= image) = .ok false := by decide +kernel

-- src/op/image.rs 54 missing_title
example : P.ops <$> ((P.ofStr (cs! "!not_a_bracket")) >>= fun p => Prod.snd <$> image p) = .ok [] := by decide +kernel

-- src/op/image.rs 54 missing_title
example : P.pos <$> ((P.ofStr (cs! "!not_a_bracket")) >>= fun p => Prod.snd <$> image p) = .ok 0 := by decide +kernel

-- src/op/image.rs 62 missing_destination
example : Prod.fst <$> ((P.ofStr (cs! "![title]no_paren")) >>= image) = .ok false := by decide +kernel

-- src/op/image.rs 62 missing_destination
example : P.ops <$> ((P.ofStr (cs! "![title]no_paren")) >>= fun p => Prod.snd <$> image p) = .ok [] := by decide +kernel

-- src/op/image.rs 62 missing_destination
example : P.pos <$> ((P.ofStr (cs! "![title]no_paren")) >>= fun p => Prod.snd <$> image p) = .ok 0 := by decide +kernel

-- src/op/images.rs 34 happy_path
example : Prod.fst <$> ((P.ofStr (cs! "![a](u)\n![a](u)")) >>= images) = .ok true := by decide +kernel

-- src/op/images.rs 34 happy_path
example : P.ops <$> ((P.ofStr (cs! "![a](u)\n![a](u)")) >>= fun p => Prod.snd <$> images p) = (((P.ofStr (cs! "![a](u)\n![a](u)")) >>= fun p => Prod.snd <$> images p) >>= fun q => [(Op.start .Images <$> (pure (Content.Span 0 0))), (Op.start .Image <$> (P.span q 0 1)), (Op.start .Title <$> (P.span q 1 2)), (Op.value <$> (P.span q 2 3)), (Op.close .Title <$> (P.span q 3 4)), (Op.start .Destination <$> (P.span q 4 5)), (Op.value <$> (P.span q 5 6)), (Op.close .Destination <$> (P.span q 6 7)), (Op.close .Image <$> (P.span q 7 8)), (Op.start .Image <$> (P.span q 8 9)), (Op.start .Title <$> (P.span q 9 10)), (Op.value <$> (P.span q 10 11)), (Op.close .Title <$> (P.span q 11 12)), (Op.start .Destination <$> (P.span q 12 13)), (Op.value <$> (P.span q 13 14)), (Op.close .Destination <$> (P.span q 14 15)), (Op.close .Image <$> (pure (Content.Span 0 0))), (Op.close .Images <$> (pure (Content.Span 0 0)))].mapM id) := by decide +kernel

-- src/op/images.rs 63 not_an_anchor
example : Prod.fst <$> ((P.ofStr (cs! "![a](u)\n!!foo")) >>= images) = .ok false := by decide +kernel

-- src/op/images.rs 63 not_an_anchor
example : P.ops <$> ((P.ofStr (cs! "![a](u)\n!!foo")) >>= fun p => Prod.snd <$> images p) = .ok [] := by decide +kernel

-- src/op/images.rs 63 not_an_anchor
example : (fun p => (P.pos p, P.peek p)) <$> ((P.ofStr (cs! "![a](u)\n!!foo")) >>= fun p => Prod.snd <$> images p) = .ok (0, some ⟨.Bang, 0, 1, ⟨0, 0, 0⟩, false⟩) := by decide +kernel

-- src/op/images.rs 74 no_images_at_all
example : Prod.fst <$> ((P.ofStr (cs! "not an image")) >>= images) = .ok false := by decide +kernel

-- src/op/images.rs 74 no_images_at_all
example : P.ops <$> ((P.ofStr (cs! "not an image")) >>= fun p => Prod.snd <$> images p) = .ok [] := by decide +kernel

-- src/op/images.rs 74 no_images_at_all
example : P.pos <$> ((P.ofStr (cs! "not an image")) >>= fun p => Prod.snd <$> images p) = .ok 0 := by decide +kernel

-- src/op/images.rs 82 next_token_can_be_only_terminator
example : Prod.fst <$> ((P.ofStr (cs! "![a](u)\n![a](u)fasdf")) >>= images) = .ok false := by decide +kernel

-- src/op/images.rs 82 next_token_can_be_only_terminator
example : P.ops <$> ((P.ofStr (cs! "![a](u)\n![a](u)fasdf")) >>= fun p => Prod.snd <$> images p) = .ok [] := by decide +kernel

-- src/op/images.rs 82 next_token_can_be_only_terminator
example : (fun p => (P.pos p, P.peek p)) <$> ((P.ofStr (cs! "![a](u)\n![a](u)fasdf")) >>= fun p => Prod.snd <$> images p) = .ok (0, some ⟨.Bang, 0, 1, ⟨0, 0, 0⟩, false⟩) := by decide +kernel

-- src/op/images.rs 93 new_line_check
example : Prod.fst <$> ((P.ofStr (cs! "![a](u)\n![a](u)\n")) >>= images) = .ok true := by decide +kernel

-- src/op/images.rs 93 new_line_check
example : P.ops <$> ((P.ofStr (cs! "![a](u)\n![a](u)\n")) >>= fun p => Prod.snd <$> images p) = (((P.ofStr (cs! "![a](u)\n![a](u)\n")) >>= fun p => Prod.snd <$> images p) >>= fun q => [(Op.start .Images <$> (pure (Content.Span 0 0))), (Op.start .Image <$> (P.span q 0 1)), (Op.start .Title <$> (P.span q 1 2)), (Op.value <$> (P.span q 2 3)), (Op.close .Title <$> (P.span q 3 4)), (Op.start .Destination <$> (P.span q 4 5)), (Op.value <$> (P.span q 5 6)), (Op.close .Destination <$> (P.span q 6 7)), (Op.close .Image <$> (P.span q 7 8)), (Op.start .Image <$> (P.span q 8 9)), (Op.start .Title <$> (P.span q 9 10)), (Op.value <$> (P.span q 10 11)), (Op.close .Title <$> (P.span q 11 12)), (Op.start .Destination <$> (P.span q 12 13)), (Op.value <$> (P.span q 13 14)), (Op.close .Destination <$> (P.span q 14 15)), (Op.close .Image <$> (P.span q 15 16)), (Op.close .Images <$> (pure (Content.Span 0 0)))].mapM id) := by decide +kernel

-- src/op/italic.rs 36 happy_path
example : Prod.fst <$> ((P.ofStr (cs! "_happy_")) >>= italic) = .ok true := by decide +kernel

-- src/op/italic.rs 36 happy_path
example : P.ops <$> ((P.ofStr (cs! "_happy_")) >>= fun p => Prod.snd <$> italic p) = (((P.ofStr (cs! "_happy_")) >>= fun p => Prod.snd <$> italic p) >>= fun q => [(Op.start .Italic <$> (P.span q 0 1)), (Op.value <$> (P.span q 1 2)), (Op.close .Italic <$> (P.span q 2 3))].mapM id) := by decide +kernel

-- src/op/italic.rs 50 no_closing_token
example : Prod.fst <$> ((P.ofStr (cs! "_happy")) >>= italic) = .ok false := by decide +kernel

-- src/op/italic.rs 50 no_closing_token
example : P.ops <$> ((P.ofStr (cs! "_happy")) >>= fun p => Prod.snd <$> italic p) = .ok [] := by decide +kernel

-- src/op/italic.rs 50 no_closing_token
example : (fun p => (P.pos p, P.peek p)) <$> ((P.ofStr (cs! "_happy")) >>= fun p => Prod.snd <$> italic p) = .ok (0, some ⟨.Underscore, 0, 1, ⟨0, 0, 0⟩, false⟩) := by decide +kernel

-- src/op/list.rs 79 parse_unordered
example : Prod.fst <$> ((P.ofStr (cs! "- level 0\n- level 0")) >>= (fun p => list p 0)) = .ok true := by decide +kernel

-- src/op/list.rs 79 parse_unordered
example : P.ops <$> ((P.ofStr (cs! "- level 0\n- level 0")) >>= fun p => Prod.snd <$> (fun p => list p 0) p) = (((P.ofStr (cs! "- level 0\n- level 0")) >>= fun p => Prod.snd <$> (fun p => list p 0) p) >>= fun q => [(Op.start .UnorderedList <$> (pure (Content.Span 0 0))), (Op.start .ListItem <$> (P.span q 0 2)), (Op.start .Paragraph <$> (pure (Content.Span 0 0))), (Op.value <$> (P.span q 2 4)), (Op.close .Paragraph <$> (pure (Content.Span 0 0))), (Op.close .ListItem <$> (pure (Content.Span 0 0))), (Op.start .ListItem <$> (P.span q 4 6)), (Op.start .Paragraph <$> (pure (Content.Span 0 0))), (Op.value <$> (P.span q 6 7)), (Op.close .Paragraph <$> (pure (Content.Span 0 0))), (Op.close .ListItem <$> (pure (Content.Span 0 0))), (Op.close .UnorderedList <$> (pure (Content.Span 0 0)))].mapM id) := by decide +kernel

-- src/op/list.rs 103 parse_ordered
example : Prod.fst <$> ((P.ofStr (cs! "+ level 0\n+ same level")) >>= (fun p => list p 0)) = .ok true := by decide +kernel

-- src/op/list.rs 103 parse_ordered
example : P.ops <$> ((P.ofStr (cs! "+ level 0\n+ same level")) >>= fun p => Prod.snd <$> (fun p => list p 0) p) = (((P.ofStr (cs! "+ level 0\n+ same level")) >>= fun p => Prod.snd <$> (fun p => list p 0) p) >>= fun q => [(Op.start .OrderedList <$> (pure (Content.Span 0 0))), (Op.start .ListItem <$> (P.span q 0 2)), (Op.start .Paragraph <$> (pure (Content.Span 0 0))), (Op.value <$> (P.span q 2 4)), (Op.close .Paragraph <$> (pure (Content.Span 0 0))), (Op.close .ListItem <$> (pure (Content.Span 0 0))), (Op.start .ListItem <$> (P.span q 4 6)), (Op.start .Paragraph <$> (pure (Content.Span 0 0))), (Op.value <$> (P.span q 6 7)), (Op.close .Paragraph <$> (pure (Content.Span 0 0))), (Op.close .ListItem <$> (pure (Content.Span 0 0))), (Op.close .OrderedList <$> (pure (Content.Span 0 0)))].mapM id) := by decide +kernel

-- src/op/list.rs 127 parse_mixed
example : Prod.fst <$> ((P.ofStr (cs! "+ level 0\n - level 0")) >>= (fun p => list p 0)) = .ok true := by decide +kernel

-- src/op/list.rs 127 parse_mixed
example : P.ops <$> ((P.ofStr (cs! "+ level 0\n - level 0")) >>= fun p => Prod.snd <$> (fun p => list p 0) p) = (((P.ofStr (cs! "+ level 0\n - level 0")) >>= fun p => Prod.snd <$> (fun p => list p 0) p) >>= fun q => [(Op.start .OrderedList <$> (pure (Content.Span 0 0))), (Op.start .ListItem <$> (P.span q 0 2)), (Op.start .Paragraph <$> (pure (Content.Span 0 0))), (Op.value <$> (P.span q 2 4)), (Op.close .Paragraph <$> (pure (Content.Span 0 0))), (Op.start .UnorderedList <$> (pure (Content.Span 0 0))), (Op.start .ListItem <$> (P.span q 4 7)), (Op.start .Paragraph <$> (pure (Content.Span 0 0))), (Op.value <$> (P.span q 7 8)), (Op.close .Paragraph <$> (pure (Content.Span 0 0))), (Op.close .ListItem <$> (pure (Content.Span 0 0))), (Op.close .UnorderedList <$> (pure (Content.Span 0 0))), (Op.close .ListItem <$> (pure (Content.Span 0 0))), (Op.close .OrderedList <$> (pure (Content.Span 0 0)))].mapM id) := by decide +kernel

-- src/op/list.rs 153 parse_nested
example : Prod.fst <$> ((P.ofStr (cs! "- one\n - two")) >>= (fun p => list p 0)) = .ok true := by decide +kernel

-- src/op/list.rs 153 parse_nested
example : P.ops <$> ((P.ofStr (cs! "- one\n - two")) >>= fun p => Prod.snd <$> (fun p => list p 0) p) = (((P.ofStr (cs! "- one\n - two")) >>= fun p => Prod.snd <$> (fun p => list p 0) p) >>= fun q => [(Op.start .UnorderedList <$> (pure (Content.Span 0 0))), (Op.start .ListItem <$> (P.span q 0 2)), (Op.start .Paragraph <$> (pure (Content.Span 0 0))), (Op.value <$> (P.span q 2 4)), (Op.close .Paragraph <$> (pure (Content.Span 0 0))), (Op.start .UnorderedList <$> (pure (Content.Span 0 0))), (Op.start .ListItem <$> (P.span q 4 7)), (Op.start .Paragraph <$> (pure (Content.Span 0 0))), (Op.value <$> (P.span q 7 8)), (Op.close .Paragraph <$> (pure (Content.Span 0 0))), (Op.close .ListItem <$> (pure (Content.Span 0 0))), (Op.close .UnorderedList <$> (pure (Content.Span 0 0))), (Op.close .ListItem <$> (pure (Content.Span 0 0))), (Op.close .UnorderedList <$> (pure (Content.Span 0 0)))].mapM id) := by decide +kernel

-- src/op/list.rs 179 eol
example : Prod.fst <$> ((P.ofStr (cs! "- one\n - two\n something")) >>= (fun p => list p 0)) = .ok true := by decide +kernel

-- src/op/list.rs 179 eol
example : P.ops <$> ((P.ofStr (cs! "- one\n - two\n something")) >>= fun p => Prod.snd <$> (fun p => list p 0) p) = (((P.ofStr (cs! "- one\n - two\n something")) >>= fun p => Prod.snd <$> (fun p => list p 0) p) >>= fun q => [(Op.start .UnorderedList <$> (pure (Content.Span 0 0))), (Op.start .ListItem <$> (P.span q 0 2)), (Op.start .Paragraph <$> (pure (Content.Span 0 0))), (Op.value <$> (P.span q 2 4)), (Op.close .Paragraph <$> (pure (Content.Span 0 0))), (Op.start .UnorderedList <$> (pure (Content.Span 0 0))), (Op.start .ListItem <$> (P.span q 4 7)), (Op.start .Paragraph <$> (pure (Content.Span 0 0))), (Op.value <$> (P.span q 7 11)), (Op.close .Paragraph <$> (pure (Content.Span 0 0))), (Op.close .ListItem <$> (pure (Content.Span 0 0))), (Op.close .UnorderedList <$> (pure (Content.Span 0 0))), (Op.close .ListItem <$> (pure (Content.Span 0 0))), (Op.close .UnorderedList <$> (pure (Content.Span 0 0)))].mapM id) := by decide +kernel

-- src/op/list.rs 205 mixed_same_level_ordered
example : Prod.fst <$> ((P.ofStr (cs! "+ level 0\n- same level")) >>= (fun p => list p 0)) = .ok true := by decide +kernel

-- src/op/list.rs 205 mixed_same_level_ordered
example : P.ops <$> ((P.ofStr (cs! "+ level 0\n- same level")) >>= fun p => Prod.snd <$> (fun p => list p 0) p) = (((P.ofStr (cs! "+ level 0\n- same level")) >>= fun p => Prod.snd <$> (fun p => list p 0) p) >>= fun q => [(Op.start .OrderedList <$> (pure (Content.Span 0 0))), (Op.start .ListItem <$> (P.span q 0 2)), (Op.start .Paragraph <$> (pure (Content.Span 0 0))), (Op.value <$> (P.span q 2 7)), (Op.close .Paragraph <$> (pure (Content.Span 0 0))), (Op.close .ListItem <$> (pure (Content.Span 0 0))), (Op.close .OrderedList <$> (pure (Content.Span 0 0)))].mapM id) := by decide +kernel

-- src/op/list.rs 224 mixed_same_level_unordered
example : Prod.fst <$> ((P.ofStr (cs! "- level 0\n+ same level")) >>= (fun p => list p 0)) = .ok true := by decide +kernel

-- src/op/list.rs 224 mixed_same_level_unordered
example : P.ops <$> ((P.ofStr (cs! "- level 0\n+ same level")) >>= fun p => Prod.snd <$> (fun p => list p 0) p) = (((P.ofStr (cs! "- level 0\n+ same level")) >>= fun p => Prod.snd <$> (fun p => list p 0) p) >>= fun q => [(Op.start .UnorderedList <$> (pure (Content.Span 0 0))), (Op.start .ListItem <$> (P.span q 0 2)), (Op.start .Paragraph <$> (pure (Content.Span 0 0))), (Op.value <$> (P.span q 2 7)), (Op.close .Paragraph <$> (pure (Content.Span 0 0))), (Op.close .ListItem <$> (pure (Content.Span 0 0))), (Op.close .UnorderedList <$> (pure (Content.Span 0 0)))].mapM id) := by decide +kernel

-- src/op/list.rs 243 multiple_levels_unordered
example : Prod.fst <$> ((P.ofStr (cs! "- Level 0\n - Level 1\n  - Level 2\n - Level 1\n- Level 0\n - Level 1\n  - Level 2\n- Level 0")) >>= (fun p => list p 0)) = .ok true := by decide +kernel

-- src/op/list.rs 243 multiple_levels_unordered
example : P.ops <$> ((P.ofStr (cs! "- Level 0\n - Level 1\n  - Level 2\n - Level 1\n- Level 0\n - Level 1\n  - Level 2\n- Level 0")) >>= fun p => Prod.snd <$> (fun p => list p 0) p) = (((P.ofStr (cs! "- Level 0\n - Level 1\n  - Level 2\n - Level 1\n- Level 0\n - Level 1\n  - Level 2\n- Level 0")) >>= fun p => Prod.snd <$> (fun p => list p 0) p) >>= fun q => [(Op.start .UnorderedList <$> (pure (Content.Span 0 0))), (Op.start .ListItem <$> (P.span q 0 2)), (Op.start .Paragraph <$> (pure (Content.Span 0 0))), (Op.value <$> (P.span q 2 4)), (Op.close .Paragraph <$> (pure (Content.Span 0 0))), (Op.start .UnorderedList <$> (pure (Content.Span 0 0))), (Op.start .ListItem <$> (P.span q 4 7)), (Op.start .Paragraph <$> (pure (Content.Span 0 0))), (Op.value <$> (P.span q 7 9)), (Op.close .Paragraph <$> (pure (Content.Span 0 0))), (Op.start .UnorderedList <$> (pure (Content.Span 0 0))), (Op.start .ListItem <$> (P.span q 9 12)), (Op.start .Paragraph <$> (pure (Content.Span 0 0))), (Op.value <$> (P.span q 12 14)), (Op.close .Paragraph <$> (pure (Content.Span 0 0))), (Op.close .ListItem <$> (pure (Content.Span 0 0))), (Op.close .UnorderedList <$> (pure (Content.Span 0 0))), (Op.close .ListItem <$> (pure (Content.Span 0 0))), (Op.start .ListItem <$> (P.span q 14 17)), (Op.start .Paragraph <$> (pure (Content.Span 0 0))), (Op.value <$> (P.span q 17 19)), (Op.close .Paragraph <$> (pure (Content.Span 0 0))), (Op.close .ListItem <$> (pure (Content.Span 0 0))), (Op.close .UnorderedList <$> (pure (Content.Span 0 0))), (Op.close .ListItem <$> (pure (Content.Span 0 0))), (Op.start .ListItem <$> (P.span q 19 21)), (Op.start .Paragraph <$> (pure (Content.Span 0 0))), (Op.value <$> (P.span q 21 23)), (Op.close .Paragraph <$> (pure (Content.Span 0 0))), (Op.start .UnorderedList <$> (pure (Content.Span 0 0))), (Op.start .ListItem <$> (P.span q 23 26)), (Op.start .Paragraph <$> (pure (Content.Span 0 0))), (Op.value <$> (P.span q 26 28)), (Op.close .Paragraph <$> (pure (Content.Span 0 0))), (Op.start .UnorderedList <$> (pure (Content.Span 0 0))), (Op.start .ListItem <$> (P.span q 28 31)), (Op.start .Paragraph <$> (pure (Content.Span 0 0))), (Op.value <$> (P.span q 31 33)), (Op.close .Paragraph <$> (pure (Content.Span 0 0))), (Op.close .ListItem <$> (pure (Content.Span 0 0))), (Op.close .UnorderedList <$> (pure (Content.Span 0 0))), (Op.close .ListItem <$> (pure (Content.Span 0 0))), (Op.close .UnorderedList <$> (pure (Content.Span 0 0))), (Op.close .ListItem <$> (pure (Content.Span 0 0))), (Op.start .ListItem <$> (P.span q 33 35)), (Op.start .Paragraph <$> (pure (Content.Span 0 0))), (Op.value <$> (P.span q 35 36)), (Op.close .Paragraph <$> (pure (Content.Span 0 0))), (Op.close .ListItem <$> (pure (Content.Span 0 0))), (Op.close .UnorderedList <$> (pure (Content.Span 0 0)))].mapM id) := by decide +kernel

-- src/op/list.rs 307 multiple_levels_ordered
example : Prod.fst <$> ((P.ofStr (cs! "+ Level 0\n + Level 1\n  + Level 2\n + Level 1\n+ Level 0\n + Level 1\n  + Level 2\n+ Level 0")) >>= (fun p => list p 0)) = .ok true := by decide +kernel

-- src/op/list.rs 307 multiple_levels_ordered
example : P.ops <$> ((P.ofStr (cs! "+ Level 0\n + Level 1\n  + Level 2\n + Level 1\n+ Level 0\n + Level 1\n  + Level 2\n+ Level 0")) >>= fun p => Prod.snd <$> (fun p => list p 0) p) = (((P.ofStr (cs! "+ Level 0\n + Level 1\n  + Level 2\n + Level 1\n+ Level 0\n + Level 1\n  + Level 2\n+ Level 0")) >>= fun p => Prod.snd <$> (fun p => list p 0) p) >>= fun q => [(Op.start .OrderedList <$> (pure (Content.Span 0 0))), (Op.start .ListItem <$> (P.span q 0 2)), (Op.start .Paragraph <$> (pure (Content.Span 0 0))), (Op.value <$> (P.span q 2 4)), (Op.close .Paragraph <$> (pure (Content.Span 0 0))), (Op.start .OrderedList <$> (pure (Content.Span 0 0))), (Op.start .ListItem <$> (P.span q 4 7)), (Op.start .Paragraph <$> (pure (Content.Span 0 0))), (Op.value <$> (P.span q 7 9)), (Op.close .Paragraph <$> (pure (Content.Span 0 0))), (Op.start .OrderedList <$> (pure (Content.Span 0 0))), (Op.start .ListItem <$> (P.span q 9 12)), (Op.start .Paragraph <$> (pure (Content.Span 0 0))), (Op.value <$> (P.span q 12 14)), (Op.close .Paragraph <$> (pure (Content.Span 0 0))), (Op.close .ListItem <$> (pure (Content.Span 0 0))), (Op.close .OrderedList <$> (pure (Content.Span 0 0))), (Op.close .ListItem <$> (pure (Content.Span 0 0))), (Op.start .ListItem <$> (P.span q 14 17)), (Op.start .Paragraph <$> (pure (Content.Span 0 0))), (Op.value <$> (P.span q 17 19)), (Op.close .Paragraph <$> (pure (Content.Span 0 0))), (Op.close .ListItem <$> (pure (Content.Span 0 0))), (Op.close .OrderedList <$> (pure (Content.Span 0 0))), (Op.close .ListItem <$> (pure (Content.Span 0 0))), (Op.start .ListItem <$> (P.span q 19 21)), (Op.start .Paragraph <$> (pure (Content.Span 0 0))), (Op.value <$> (P.span q 21 23)), (Op.close .Paragraph <$> (pure (Content.Span 0 0))), (Op.start .OrderedList <$> (pure (Content.Span 0 0))), (Op.start .ListItem <$> (P.span q 23 26)), (Op.start .Paragraph <$> (pure (Content.Span 0 0))), (Op.value <$> (P.span q 26 28)), (Op.close .Paragraph <$> (pure (Content.Span 0 0))), (Op.start .OrderedList <$> (pure (Content.Span 0 0))), (Op.start .ListItem <$> (P.span q 28 31)), (Op.start .Paragraph <$> (pure (Content.Span 0 0))), (Op.value <$> (P.span q 31 33)), (Op.close .Paragraph <$> (pure (Content.Span 0 0))), (Op.close .ListItem <$> (pure (Content.Span 0 0))), (Op.close .OrderedList <$> (pure (Content.Span 0 0))), (Op.close .ListItem <$> (pure (Content.Span 0 0))), (Op.close .OrderedList <$> (pure (Content.Span 0 0))), (Op.close .ListItem <$> (pure (Content.Span 0 0))), (Op.start .ListItem <$> (P.span q 33 35)), (Op.start .Paragraph <$> (pure (Content.Span 0 0))), (Op.value <$> (P.span q 35 36)), (Op.close .Paragraph <$> (pure (Content.Span 0 0))), (Op.close .ListItem <$> (pure (Content.Span 0 0))), (Op.close .OrderedList <$> (pure (Content.Span 0 0)))].mapM id) := by decide +kernel

-- src/op/list.rs 371 empty_body
example : Prod.fst <$> ((P.ofStr (cs! "- ")) >>= (fun p => list p 0)) = .ok true := by decide +kernel

-- src/op/list.rs 371 empty_body
example : P.ops <$> ((P.ofStr (cs! "- ")) >>= fun p => Prod.snd <$> (fun p => list p 0) p) = (((P.ofStr (cs! "- ")) >>= fun p => Prod.snd <$> (fun p => list p 0) p) >>= fun q => [(Op.start .UnorderedList <$> (pure (Content.Span 0 0))), (Op.start .ListItem <$> (P.span q 0 2)), (Op.start .Paragraph <$> (pure (Content.Span 0 0))), (Op.close .Paragraph <$> (pure (Content.Span 0 0))), (Op.close .ListItem <$> (pure (Content.Span 0 0))), (Op.close .UnorderedList <$> (pure (Content.Span 0 0)))].mapM id) := by decide +kernel

-- src/op/list.rs 389 no_nested_ordered_list
example : Prod.fst <$> ((P.ofStr (cs! "+ level 0\n + ")) >>= (fun p => list p 0)) = .ok true := by decide +kernel

-- src/op/list.rs 389 no_nested_ordered_list
example : P.ops <$> ((P.ofStr (cs! "+ level 0\n + ")) >>= fun p => Prod.snd <$> (fun p => list p 0) p) = (((P.ofStr (cs! "+ level 0\n + ")) >>= fun p => Prod.snd <$> (fun p => list p 0) p) >>= fun q => [(Op.start .OrderedList <$> (pure (Content.Span 0 0))), (Op.start .ListItem <$> (P.span q 0 2)), (Op.start .Paragraph <$> (pure (Content.Span 0 0))), (Op.value <$> (P.span q 2 4)), (Op.close .Paragraph <$> (pure (Content.Span 0 0))), (Op.start .OrderedList <$> (pure (Content.Span 0 0))), (Op.start .ListItem <$> (P.span q 4 7)), (Op.start .Paragraph <$> (pure (Content.Span 0 0))), (Op.close .Paragraph <$> (pure (Content.Span 0 0))), (Op.close .ListItem <$> (pure (Content.Span 0 0))), (Op.close .OrderedList <$> (pure (Content.Span 0 0))), (Op.close .ListItem <$> (pure (Content.Span 0 0))), (Op.close .OrderedList <$> (pure (Content.Span 0 0)))].mapM id) := by decide +kernel

-- src/op/list.rs 414 no_nested_unordered_list
example : Prod.fst <$> ((P.ofStr (cs! "+ level 0\n - ")) >>= (fun p => list p 0)) = .ok true := by decide +kernel

-- src/op/list.rs 414 no_nested_unordered_list
example : P.ops <$> ((P.ofStr (cs! "+ level 0\n - ")) >>= fun p => Prod.snd <$> (fun p => list p 0) p) = (((P.ofStr (cs! "+ level 0\n - ")) >>= fun p => Prod.snd <$> (fun p => list p 0) p) >>= fun q => [(Op.start .OrderedList <$> (pure (Content.Span 0 0))), (Op.start .ListItem <$> (P.span q 0 2)), (Op.start .Paragraph <$> (pure (Content.Span 0 0))), (Op.value <$> (P.span q 2 4)), (Op.close .Paragraph <$> (pure (Content.Span 0 0))), (Op.start .UnorderedList <$> (pure (Content.Span 0 0))), (Op.start .ListItem <$> (P.span q 4 7)), (Op.start .Paragraph <$> (pure (Content.Span 0 0))), (Op.close .Paragraph <$> (pure (Content.Span 0 0))), (Op.close .ListItem <$> (pure (Content.Span 0 0))), (Op.close .UnorderedList <$> (pure (Content.Span 0 0))), (Op.close .ListItem <$> (pure (Content.Span 0 0))), (Op.close .OrderedList <$> (pure (Content.Span 0 0)))].mapM id) := by decide +kernel

-- src/op/metadata.rs 37 happy_path
example : Prod.fst <$> ((P.ofStr (cs! "---\ncontent\n---")) >>= metadata) = .ok true := by decide +kernel

-- src/op/metadata.rs 37 happy_path
example : P.ops <$> ((P.ofStr (cs! "---\ncontent\n---")) >>= fun p => Prod.snd <$> metadata p) = (((P.ofStr (cs! "---\ncontent\n---")) >>= fun p => Prod.snd <$> metadata p) >>= fun q => [(Op.start .Metadata <$> (P.span q 0 1)), (Op.value <$> (P.span q 1 4)), (Op.close .Metadata <$> (P.span q 4 5))].mapM id) := by decide +kernel

-- src/op/metadata.rs 51 no_closing_delimiter
example : Prod.fst <$> ((P.ofStr (cs! "---\ncontent")) >>= metadata) = .ok false := by decide +kernel

-- src/op/metadata.rs 51 no_closing_delimiter
example : P.ops <$> ((P.ofStr (cs! "---\ncontent")) >>= fun p => Prod.snd <$> metadata p) = .ok [] := by decide +kernel

-- src/op/metadata.rs 51 no_closing_delimiter
example : (fun p => (P.pos p, P.peek p)) <$> ((P.ofStr (cs! "---\ncontent")) >>= fun p => Prod.snd <$> metadata p) = .ok (0, some ⟨.Minus, 0, 3, ⟨0, 0, 0⟩, false⟩) := by decide +kernel

-- src/op/metadata.rs 62 no_content
example : Prod.fst <$> ((P.ofStr (cs! "---\n---")) >>= metadata) = .ok true := by decide +kernel

-- src/op/metadata.rs 62 no_content
example : P.ops <$> ((P.ofStr (cs! "---\n---")) >>= fun p => Prod.snd <$> metadata p) = (((P.ofStr (cs! "---\n---")) >>= fun p => Prod.snd <$> metadata p) >>= fun q => [(Op.start .Metadata <$> (P.span q 0 1)), (Op.value <$> (P.span q 1 2)), (Op.close .Metadata <$> (P.span q 2 3))].mapM id) := by decide +kernel

-- src/op/metadata.rs 76 only_opening_token
example : Prod.fst <$> ((P.ofStr (cs! "---")) >>= metadata) = .ok false := by decide +kernel

-- src/op/metadata.rs 76 only_opening_token
example : P.ops <$> ((P.ofStr (cs! "---")) >>= fun p => Prod.snd <$> metadata p) = .ok [] := by decide +kernel

-- src/op/metadata.rs 76 only_opening_token
example : (fun p => (P.pos p, P.peek p)) <$> ((P.ofStr (cs! "---")) >>= fun p => Prod.snd <$> metadata p) = .ok (0, some ⟨.Minus, 0, 3, ⟨0, 0, 0⟩, false⟩) := by decide +kernel

-- src/op/parser.rs 442 at_eof_empty_stack_not_at_end
example : P.atEof <$> (P.ofStr (cs! "hello")) = .ok false := by decide +kernel

-- src/op/parser.rs 448 at_eof_empty_stack_at_end
example : P.atEof <$> (P.ofStr ([] : Str)) = .ok true := by decide +kernel

-- src/op/strikethrough.rs 36 happy_path
example : Prod.fst <$> ((P.ofStr (cs! "~~happy~~")) >>= strikethrough) = .ok true := by decide +kernel

-- src/op/strikethrough.rs 36 happy_path
example : P.ops <$> ((P.ofStr (cs! "~~happy~~")) >>= fun p => Prod.snd <$> strikethrough p) = (((P.ofStr (cs! "~~happy~~")) >>= fun p => Prod.snd <$> strikethrough p) >>= fun q => [(Op.start .Strikethrough <$> (P.span q 0 1)), (Op.value <$> (P.span q 1 2)), (Op.close .Strikethrough <$> (P.span q 2 3))].mapM id) := by decide +kernel

-- src/op/strikethrough.rs 50 no_closing_token
example : Prod.fst <$> ((P.ofStr (cs! "~~happy")) >>= strikethrough) = .ok false := by decide +kernel

-- src/op/strikethrough.rs 50 no_closing_token
example : P.ops <$> ((P.ofStr (cs! "~~happy")) >>= fun p => Prod.snd <$> strikethrough p) = .ok [] := by decide +kernel

-- src/op/strikethrough.rs 50 no_closing_token
example : (fun p => (P.pos p, P.peek p)) <$> ((P.ofStr (cs! "~~happy")) >>= fun p => Prod.snd <$> strikethrough p) = .ok (0, some ⟨.Tilde, 0, 2, ⟨0, 0, 0⟩, false⟩) := by decide +kernel

-- src/op/thematic_break.rs 27 happy_path
example : Prod.fst <$> ((P.ofStr (cs! "-----")) >>= thematicBreak) = .ok true := by decide +kernel

-- src/op/thematic_break.rs 27 happy_path
example : P.ops <$> ((P.ofStr (cs! "-----")) >>= fun p => Prod.snd <$> thematicBreak p) = (((P.ofStr (cs! "-----")) >>= fun p => Prod.snd <$> thematicBreak p) >>= fun q => [(Op.start .ThematicBreak <$> (pure (Content.Span 0 0))), (Op.value <$> (P.span q 0 1)), (Op.close .ThematicBreak <$> (pure (Content.Span 0 0)))].mapM id) := by decide +kernel

-- src/op/to_yamd.rs 490 single_paragraph
example : deserialize (cs! "hello world") = .ok (Yamd.new none [.paragraph [.text (cs! "hello world")]]) := by decide +kernel

-- src/op/to_yamd.rs 504 heading_with_anchor
example : deserialize (cs! "## heading [a](u) text") = .ok (Yamd.new none [.heading 2 [.text (cs! "heading "), .anchor ⟨(cs! "a"), (cs! "u")⟩, .text (cs! " text")]]) := by decide +kernel

-- src/op/to_yamd.rs 528 bold_with_nested
example : deserialize (cs! "**~~happy~~ _path_**") = .ok (Yamd.new none [.paragraph [.bold [.strikethrough (cs! "happy"), .text (cs! " "), .italic (cs! "path")]]]) := by decide +kernel

-- src/op/to_yamd.rs 549 code_block
example : deserialize (cs! "```rust\nlet a=1;\n```") = .ok (Yamd.new none [.newCode (cs! "rust") (cs! "let a=1;")]) := by decide +kernel

-- src/op/to_yamd.rs 560 single_image
example : deserialize (cs! "![alt](src)") = .ok (Yamd.new none [.image ⟨(cs! "alt"), (cs! "src")⟩]) := by decide +kernel

-- src/op/to_yamd.rs 571 multiple_images
example : deserialize (cs! "![a](u)\n![a2](u2)") = .ok (Yamd.new none [.images [⟨(cs! "a"), (cs! "u")⟩, ⟨(cs! "a2"), (cs! "u2")⟩]]) := by decide +kernel

-- src/op/to_yamd.rs 585 highlight_with_icon
example : deserialize (cs! "!! Title\n! Icon\ntext\n!!") = .ok (Yamd.new none [.highlight (some (cs! "Title")) (some (cs! "Icon")) [[.text (cs! "text")]]]) := by decide +kernel

-- src/op/to_yamd.rs 606 unordered_list_nested
example : deserialize (cs! "- one\n - two") = .ok (Yamd.new none [.list (.mk .Unordered 0 [.mk [.text (cs! "one")] (some (.mk .Unordered 1 [.mk [.text (cs! "two")] none]))])]) := by decide +kernel

-- src/op/to_yamd.rs 634 three_level_nested_list
example : deserialize (cs! "- L0\n - L1\n  - L2") = .ok (Yamd.new none [.list (.mk .Unordered 0 [.mk [.text (cs! "L0")] (some (.mk .Unordered 1 [.mk [.text (cs! "L1")] (some (.mk .Unordered 2 [.mk [.text (cs! "L2")] none]))]))])]) := by decide +kernel

-- src/op/to_yamd.rs 669 embed_node
example : deserialize (cs! "{{youtube|123}}") = .ok (Yamd.new none [.embed (cs! "youtube") (cs! "123")]) := by decide +kernel

-- src/op/to_yamd.rs 680 collapsible_empty
example : deserialize (cs! "{% collapsible\n\n%}") = .ok (Yamd.new none [.collapsible (cs! "collapsible") []]) := by decide +kernel

-- src/op/to_yamd.rs 691 thematic_break
example : deserialize (cs! "-----") = .ok (Yamd.new none [.thematicBreak]) := by decide +kernel

-- src/op/to_yamd.rs 699 metadata_test
example : deserialize (cs! "---\ntitle: test\n---\n\nhello") = .ok (Yamd.new (some (cs! "title: test")) [.paragraph [.text (cs! "hello")]]) := by decide +kernel

-- src/op/to_yamd.rs 713 code_span_and_emphasis
example : deserialize (cs! "`code` *em*") = .ok (Yamd.new none [.paragraph [.codeSpan (cs! "code"), .text (cs! " "), .emphasis (cs! "em")]]) := by decide +kernel

-- src/op/to_yamd.rs 865 multiple_fallbacks_in_a_row
example : deserialize (cs! "1\n\n2\n\n3") = .ok (Yamd.new none [.paragraph [.text (cs! "1")], .paragraph [.text (cs! "2")], .paragraph [.text (cs! "3")]]) := by decide +kernel

-- src/op/to_yamd.rs 883 multiple_fallbacks_before_non_fallback
example : deserialize (cs! "1\n\n2\n\n3\n\n# header") = .ok (Yamd.new none [.paragraph [.text (cs! "1")], .paragraph [.text (cs! "2")], .paragraph [.text (cs! "3")], .heading 1 [.text (cs! "header")]]) := by decide +kernel

-- src/op/to_yamd.rs 902 node_should_start_from_delimiter
example : deserialize (cs! "text - text") = .ok (Yamd.new none [.paragraph [.text (cs! "text - text")]]) := by decide +kernel

-- src/op/to_yamd.rs 916 collapsible_with_body
example : deserialize (cs! "{% title\n\nparagraph text\n\n%}") = .ok (Yamd.new none [.collapsible (cs! "title") [.paragraph [.text (cs! "paragraph text")]]]) := by decide +kernel

-- src/op/to_yamd.rs 936 ordered_list_nested
example : deserialize (cs! "+ one\n + two") = .ok (Yamd.new none [.list (.mk .Ordered 0 [.mk [.text (cs! "one")] (some (.mk .Ordered 1 [.mk [.text (cs! "two")] none]))])]) := by decide +kernel

-- src/op/to_yamd.rs 964 strikethrough_in_bold
example : deserialize (cs! "**~~text~~**") = .ok (Yamd.new none [.paragraph [.bold [.strikethrough (cs! "text")]]]) := by decide +kernel

-- src/op/to_yamd.rs 983 italic_in_bold
example : deserialize (cs! "**_text_**") = .ok (Yamd.new none [.paragraph [.bold [.italic (cs! "text")]]]) := by decide +kernel

-- src/op/to_yamd.rs 1002 highlight_without_icon
example : deserialize (cs! "!! Title\ntext\n!!") = .ok (Yamd.new none [.highlight (some (cs! "Title")) none [[.text (cs! "text")]]]) := by decide +kernel

-- src/op/to_yamd.rs 1023 empty_input
example : deserialize ([] : Str) = .ok (Yamd.new none []) := by decide +kernel

-- src/op/to_yamd.rs 1031 utf8_content
example : deserialize (cs! "## 🤔\n\n[link 😉](url)") = .ok (Yamd.new none [.heading 2 [.text (cs! "🤔")], .paragraph [.anchor ⟨(cs! "link 😉"), (cs! "url")⟩]]) := by decide +kernel

end Yamd.TestsOps
