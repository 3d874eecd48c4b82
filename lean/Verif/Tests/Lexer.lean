import Verif.Model.ToYamd

/-! Unit tests of the Rust code, transcribed by tools/transcribe_tests.py: evidence that the model
behaves like the program on the cases its authors wrote down. These are tests, not proofs. -/

namespace Yamd.TestsLexer

-- src/lexer/mod.rs 200 left_square_bracket
example : Lexer.lex (cs! "[") = .ok [⟨.LeftSquareBracket, 0, 1, ⟨0, 0, 0⟩, false⟩] := by decide +kernel

-- src/lexer/mod.rs 212 double_bang_with_left_square_bracket_afterwards
example : Lexer.lex (cs! "!![") = .ok [⟨.Bang, 0, 2, ⟨0, 0, 0⟩, false⟩, ⟨.LeftSquareBracket, 2, 3, ⟨2, 2, 0⟩, false⟩] := by decide +kernel

-- src/lexer/mod.rs 231 double_bang_with_blob_afterwards
example : Lexer.lex (cs! "!!g") = .ok [⟨.Bang, 0, 2, ⟨0, 0, 0⟩, false⟩, ⟨.Literal, 2, 3, ⟨2, 2, 0⟩, false⟩] := by decide +kernel

-- src/lexer/mod.rs 250 escaped_bang
example : Lexer.lex (cs! "\\![") = .ok [⟨.Literal, 1, 2, ⟨1, 0, 0⟩, true⟩, ⟨.LeftSquareBracket, 2, 3, ⟨2, 1, 0⟩, false⟩] := by decide +kernel

-- src/lexer/mod.rs 278 bang_open_brace
example : Lexer.lex (cs! "![") = .ok [⟨.Bang, 0, 1, ⟨0, 0, 0⟩, false⟩, ⟨.LeftSquareBracket, 1, 2, ⟨1, 1, 0⟩, false⟩] := by decide +kernel

-- src/lexer/mod.rs 297 triple_bang
example : Lexer.lex (cs! "!!!") = .ok [⟨.Bang, 0, 3, ⟨0, 0, 0⟩, false⟩] := by decide +kernel

-- src/lexer/mod.rs 305 hastag
example : Lexer.lex (cs! "[#####") = .ok [⟨.LeftSquareBracket, 0, 1, ⟨0, 0, 0⟩, false⟩, ⟨.Hash, 1, 6, ⟨1, 1, 0⟩, false⟩] := by decide +kernel

-- src/lexer/mod.rs 324 space
example : Lexer.lex (cs! "###\\   ") = .ok [⟨.Hash, 0, 3, ⟨0, 0, 0⟩, false⟩, ⟨.Literal, 4, 7, ⟨4, 3, 0⟩, true⟩] := by decide +kernel

-- src/lexer/mod.rs 344 escaped_space_compression
example : Lexer.lex (cs! "\\ \\  ") = .ok [⟨.Literal, 1, 2, ⟨1, 0, 0⟩, true⟩, ⟨.Literal, 3, 5, ⟨3, 1, 0⟩, true⟩] := by decide +kernel

-- src/lexer/mod.rs 373 eol
example : Lexer.lex (cs! "\n") = .ok [⟨.Eol, 0, 1, ⟨0, 0, 0⟩, false⟩] := by decide +kernel

-- src/lexer/mod.rs 381 double_eol
example : Lexer.lex (cs! "\n\n") = .ok [⟨.Terminator, 0, 2, ⟨0, 0, 0⟩, false⟩] := by decide +kernel

-- src/lexer/mod.rs 389 triple_eol
example : Lexer.lex (cs! "\n\n\n") = .ok [⟨.Terminator, 0, 2, ⟨0, 0, 0⟩, false⟩, ⟨.Eol, 2, 3, ⟨2, 0, 2⟩, false⟩] := by decide +kernel

-- src/lexer/mod.rs 408 windows_eol
example : Lexer.lex (cs! "\r\n") = .ok [⟨.Eol, 0, 2, ⟨0, 0, 0⟩, false⟩] := by decide +kernel

-- src/lexer/mod.rs 416 windows_double_eol
example : Lexer.lex (cs! "\r\n\r\n") = .ok [⟨.Terminator, 0, 4, ⟨0, 0, 0⟩, false⟩] := by decide +kernel

-- src/lexer/mod.rs 424 blob_that_ends_with_emoji
example : Lexer.lex (cs! "hello blob😉") = .ok [⟨.Literal, 0, 14, ⟨0, 0, 0⟩, false⟩] := by decide +kernel

-- src/lexer/mod.rs 432 correct_position_utf8
example : Lexer.lex (cs! "blob😉-") = .ok [⟨.Literal, 0, 8, ⟨0, 0, 0⟩, false⟩, ⟨.Minus, 8, 9, ⟨8, 5, 0⟩, false⟩] := by decide +kernel

-- src/lexer/mod.rs 451 double_open_brace
example : Lexer.lex (cs! "{{") = .ok [⟨.LeftCurlyBrace, 0, 2, ⟨0, 0, 0⟩, false⟩] := by decide +kernel

-- src/lexer/mod.rs 463 collapsible_start
example : Lexer.lex (cs! "{%") = .ok [⟨.CollapsibleStart, 0, 2, ⟨0, 0, 0⟩, false⟩] := by decide +kernel

-- src/lexer/mod.rs 475 collapsible_end
example : Lexer.lex (cs! "{%") = .ok [⟨.CollapsibleStart, 0, 2, ⟨0, 0, 0⟩, false⟩] := by decide +kernel

-- src/lexer/mod.rs 487 right_square_bracket
example : Lexer.lex (cs! "]") = .ok [⟨.RightSquareBracket, 0, 1, ⟨0, 0, 0⟩, false⟩] := by decide +kernel

-- src/lexer/mod.rs 499 open_parenthesis
example : Lexer.lex (cs! "(") = .ok [⟨.LeftParenthesis, 0, 1, ⟨0, 0, 0⟩, false⟩] := by decide +kernel

-- src/lexer/mod.rs 511 closing_parenthesis
example : Lexer.lex (cs! ")") = .ok [⟨.RightParenthesis, 0, 1, ⟨0, 0, 0⟩, false⟩] := by decide +kernel

-- src/lexer/mod.rs 523 empty_input
example : Lexer.lex ([] : Str) = .ok [] := by decide +kernel

-- src/lexer/mod.rs 528 double_escape
example : Lexer.lex (cs! "\\\\") = .ok [⟨.Literal, 1, 2, ⟨1, 0, 0⟩, true⟩] := by decide +kernel

-- src/lexer/mod.rs 545 escape_after_literal
example : Lexer.lex (cs! "literal\\[[") = .ok [⟨.Literal, 0, 7, ⟨0, 0, 0⟩, false⟩, ⟨.Literal, 8, 9, ⟨8, 7, 0⟩, true⟩, ⟨.LeftSquareBracket, 9, 10, ⟨9, 8, 0⟩, false⟩] := by decide +kernel

-- src/lexer/mod.rs 574 double_star
example : Lexer.lex (cs! "**") = .ok [⟨.Star, 0, 2, ⟨0, 0, 0⟩, false⟩] := by decide +kernel

-- src/lexer/mod.rs 582 quadruple_backtick
example : Lexer.lex (cs! "````") = .ok [⟨.Backtick, 0, 4, ⟨0, 0, 0⟩, false⟩] := by decide +kernel

-- src/lexer/mod.rs 590 underscore
example : Lexer.lex (cs! "_") = .ok [⟨.Underscore, 0, 1, ⟨0, 0, 0⟩, false⟩] := by decide +kernel

-- src/lexer/mod.rs 598 plus
example : Lexer.lex (cs! "+") = .ok [⟨.Plus, 0, 1, ⟨0, 0, 0⟩, false⟩] := by decide +kernel

-- src/lexer/mod.rs 606 minus
example : Lexer.lex (cs! "-") = .ok [⟨.Minus, 0, 1, ⟨0, 0, 0⟩, false⟩] := by decide +kernel

-- src/lexer/mod.rs 614 multiple_minus
example : Lexer.lex (cs! "----") = .ok [⟨.Minus, 0, 4, ⟨0, 0, 0⟩, false⟩] := by decide +kernel

-- src/lexer/mod.rs 622 greater_than
example : Lexer.lex (cs! ">>> >>\n>") = .ok [⟨.GreaterThan, 0, 3, ⟨0, 0, 0⟩, false⟩, ⟨.Space, 3, 4, ⟨3, 3, 0⟩, false⟩, ⟨.GreaterThan, 4, 6, ⟨4, 4, 0⟩, false⟩, ⟨.Eol, 6, 7, ⟨6, 6, 0⟩, false⟩, ⟨.GreaterThan, 7, 8, ⟨7, 0, 1⟩, false⟩] := by decide +kernel

-- src/lexer/mod.rs 668 backtick
example : Lexer.lex (cs! "``") = .ok [⟨.Backtick, 0, 2, ⟨0, 0, 0⟩, false⟩] := by decide +kernel

-- src/lexer/mod.rs 676 strikethrough
example : Lexer.lex (cs! "~~") = .ok [⟨.Tilde, 0, 2, ⟨0, 0, 0⟩, false⟩] := by decide +kernel

-- src/lexer/mod.rs 684 strikethrough_after_blob
example : Lexer.lex (cs! "abc~~") = .ok [⟨.Literal, 0, 3, ⟨0, 0, 0⟩, false⟩, ⟨.Tilde, 3, 5, ⟨3, 3, 0⟩, false⟩] := by decide +kernel

-- src/lexer/mod.rs 703 embed_end
example : Lexer.lex (cs! "}}") = .ok [⟨.RightCurlyBrace, 0, 2, ⟨0, 0, 0⟩, false⟩] := by decide +kernel

-- src/lexer/mod.rs 715 eol_after_literal
example : Lexer.lex (cs! "r\n") = .ok [⟨.Literal, 0, 1, ⟨0, 0, 0⟩, false⟩, ⟨.Eol, 1, 2, ⟨1, 1, 0⟩, false⟩] := by decide +kernel

-- src/lexer/mod.rs 734 dangling_backslash_at_eof
example : Lexer.lex (cs! "\\") = .ok [] := by decide +kernel

end Yamd.TestsLexer
