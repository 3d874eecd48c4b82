{
 "claims": [
  {
   "property": "C01",
   "status": "proved",
   "theorems": [
    "Yamd.Props.C01_lexer_total_and_fused"
   ],
   "note": ""
  },
  {
   "property": "C02",
   "status": "proved",
   "theorems": [
    "Yamd.Props.C02_token_ranges_valid_and_ordered"
   ],
   "note": ""
  },
  {
   "property": "C03",
   "status": "proved",
   "theorems": [
    "Yamd.Props.C03_lexing_is_lossless"
   ],
   "note": ""
  },
  {
   "property": "C04",
   "status": "proved",
   "theorems": [
    "Yamd.Props.C04_backslash_neutralises"
   ],
   "note": ""
  },
  {
   "property": "C05",
   "status": "proved",
   "theorems": [
    "Yamd.Props.C05_kind_agrees_with_text"
   ],
   "note": ""
  },
  {
   "property": "C06",
   "status": "proved",
   "theorems": [
    "Yamd.Props.C06_positions_are_truthful"
   ],
   "note": ""
  },
  {
   "property": "C07",
   "status": "proved",
   "theorems": [
    "Yamd.Props.C07_blank_line_is_boundary"
   ],
   "note": ""
  },
  {
   "property": "C08",
   "status": "proved",
   "theorems": [
    "Yamd.Props.C08_parse_total"
   ],
   "note": "Model-level: machine stack size is not modelled."
  },
  {
   "property": "C09",
   "status": "proved",
   "theorems": [
    "Yamd.Props.C09_ops_balanced"
   ],
   "note": ""
  },
  {
   "property": "C10",
   "status": "proved",
   "theorems": [
    "Yamd.Props.C10_outer_shape"
   ],
   "note": ""
  },
  {
   "property": "C11",
   "status": "proved",
   "theorems": [
    "Yamd.Props.C11_ops_grammatical"
   ],
   "note": ""
  },
  {
   "property": "C12",
   "status": "proved",
   "theorems": [
    "Yamd.Props.C12_contents_resolve"
   ],
   "note": ""
  },
  {
   "property": "C13",
   "status": "proved",
   "theorems": [
    "Yamd.Props.C13_contents_cover_source",
    "Yamd.Props.C13_exact_cover_is_false"
   ],
   "note": "The second theorem shows the exception of the statement is real."
  },
  {
   "property": "C14",
   "status": "proved",
   "theorems": [
    "Yamd.Props.C14_zero_copy",
    "Yamd.Props.C14_contents_are_token_runs"
   ],
   "note": ""
  },
  {
   "property": "C15",
   "status": "proved",
   "theorems": [
    "Yamd.Props.C15_spans_disjoint_increasing"
   ],
   "note": ""
  },
  {
   "property": "C28",
   "status": "proved",
   "theorems": [
    "Yamd.Props.C28_blank_line_ends_inline"
   ],
   "note": ""
  },
  {
   "property": "C44",
   "status": "proved",
   "theorems": [
    "Yamd.Props.C44_unclosed_collapsible_is_text",
    "Yamd.Props.C44_no_collapsible_node"
   ],
   "note": "Once for op streams (no %} token at the start of a line), once for texts and documents."
  },
  {
   "property": "C47",
   "status": "proved",
   "theorems": [
    "Yamd.Props.C47_delimiters_as_documented"
   ],
   "note": ""
  },
  {
   "property": "C16",
   "status": "proved",
   "theorems": [
    "Yamd.Props.C16_deserialize_total"
   ],
   "note": ""
  },
  {
   "property": "C17",
   "status": "proved",
   "theorems": [
    "Yamd.Props.C17_try_to_yamd_accepts_depth_balanced",
    "Yamd.Props.C17_mismatched_end_is_accepted",
    "Yamd.Props.C17_bad_span_panics"
   ],
   "note": "The last two are findings: the documented error for mismatched Ends does not exist, and contents that do not resolve panic."
  },
  {
   "property": "C18",
   "status": "proved",
   "theorems": [
    "Yamd.Props.C18_heading_levels"
   ],
   "note": ""
  },
  {
   "property": "C19",
   "status": "proved",
   "theorems": [
    "Yamd.Props.C19_list_levels"
   ],
   "note": ""
  },
  {
   "property": "C20",
   "status": "proved",
   "theorems": [
    "Yamd.Props.C20_image_groups"
   ],
   "note": ""
  },
  {
   "property": "C21",
   "status": "proved",
   "theorems": [
    "Yamd.Props.C21_trailing_newlines_trimmed"
   ],
   "note": ""
  },
  {
   "property": "C22",
   "status": "proved",
   "theorems": [
    "Yamd.Props.C22_front_matter"
   ],
   "note": ""
  },
  {
   "property": "C23",
   "status": "proved",
   "theorems": [
    "Yamd.Props.C23_inline_text_normalised"
   ],
   "note": ""
  },
  {
   "property": "C24",
   "status": "proved",
   "theorems": [
    "Yamd.Props.C24_no_empty_styled_nodes",
    "Yamd.Props.C24_italic_can_be_empty"
   ],
   "note": ""
  },
  {
   "property": "C25",
   "status": "proved",
   "theorems": [
    "Yamd.Props.C25_no_invented_text"
   ],
   "note": ""
  },
  {
   "property": "C43",
   "status": "proved",
   "theorems": [
    "Yamd.Props.C43_from_tokens",
    "Yamd.Props.C43_is_empty",
    "Yamd.Props.C43_tokens_into_content",
    "Yamd.Props.C43_stretch_of_tokens",
    "Yamd.Props.C43_conversion_keeps_backslash"
   ],
   "note": ""
  },
  {
   "property": "C26",
   "status": "proved",
   "theorems": [
    "Yamd.Props.C26_escape_everything"
   ],
   "note": ""
  },
  {
   "property": "C27",
   "status": "proved",
   "theorems": [
    "Yamd.Props.C27_plain_text"
   ],
   "note": ""
  },
  {
   "property": "C29",
   "status": "proved",
   "theorems": [
    "Yamd.Props.C29_italic",
    "Yamd.Props.C29_emphasis",
    "Yamd.Props.C29_strikethrough",
    "Yamd.Props.C29_code_span"
   ],
   "note": ""
  },
  {
   "property": "C30",
   "status": "proved",
   "theorems": [
    "Yamd.Props.C30_anchor"
   ],
   "note": ""
  },
  {
   "property": "C31",
   "status": "proved",
   "theorems": [
    "Yamd.Props.C31_bold"
   ],
   "note": ""
  },
  {
   "property": "C32",
   "status": "proved",
   "theorems": [
    "Yamd.Props.C32_text"
   ],
   "note": ""
  },
  {
   "property": "C33",
   "status": "proved",
   "theorems": [
    "Yamd.Props.C33_heading",
    "Yamd.Props.C33_text_heading",
    "Yamd.Props.C33_bracket_heading",
    "Yamd.Props.C33_bracket_counterexample"
   ],
   "note": ""
  },
  {
   "property": "C34",
   "status": "proved",
   "theorems": [
    "Yamd.Props.C34_code"
   ],
   "note": ""
  },
  {
   "property": "C35",
   "status": "proved",
   "theorems": [
    "Yamd.Props.C35_image",
    "Yamd.Props.C35_images"
   ],
   "note": ""
  },
  {
   "property": "C36",
   "status": "proved",
   "theorems": [
    "Yamd.Props.C36_embed"
   ],
   "note": ""
  },
  {
   "property": "C37",
   "status": "proved",
   "theorems": [
    "Yamd.Props.C37_thematic_break"
   ],
   "note": ""
  },
  {
   "property": "C38",
   "status": "proved",
   "theorems": [
    "Yamd.Props.C38_highlight"
   ],
   "note": ""
  },
  {
   "property": "C39",
   "status": "proved",
   "theorems": [
    "Yamd.Props.C39_list",
    "Yamd.Props.C39_flat_list"
   ],
   "note": "Item texts may contain lines that look like items where Display escapes them or where they cannot end the item; the second theorem is the flat list with the exact condition at level 0."
  },
  {
   "property": "C40",
   "status": "proved",
   "theorems": [
    "Yamd.Props.C40_collapsible"
   ],
   "note": ""
  },
  {
   "property": "C41",
   "status": "proved",
   "theorems": [
    "Yamd.Props.C41_documents_round_trip",
    "Yamd.Props.C41_conditions_are_needed"
   ],
   "note": "The second theorem gives, for each condition of the safe class, a document that breaks it and is not read back."
  },
  {
   "property": "C42",
   "status": "proved",
   "theorems": [
    "Yamd.Props.C42_serialization_is_stable",
    "Yamd.Props.C42_text_determines_document",
    "Yamd.Props.C42_parsed_documents_are_not_all_stable"
   ],
   "note": "The last theorem is the finding recorded in the statement."
  },
  {
   "property": "C45",
   "status": "proved",
   "theorems": [
    "Yamd.Props.C45_crlf_keeps_structure",
    "Yamd.Props.C45_escaped_line_feed_differs",
    "Yamd.Props.C45_carriage_return_stays_in_document"
   ],
   "note": "The last two are findings."
  },
  {
   "property": "C46",
   "status": "proved",
   "theorems": [
    "Yamd.Props.C46_destination_parentheses"
   ],
   "note": ""
  },
  {
   "property": "C48",
   "status": "proved",
   "theorems": [
    "Yamd.Props.C48_ordinary_characters",
    "Yamd.Props.C48_ordinary_characters_ops"
   ],
   "note": ""
  },
  {
   "property": "C50",
   "status": "proved",
   "theorems": [
    "Yamd.Props.C50_maximal_munch"
   ],
   "note": ""
  },
  {
   "property": "C51",
   "status": "proved",
   "theorems": [
    "Yamd.Props.C51_parse_refines_grammar",
    "Yamd.Props.C51_deserialize_refines_grammar",
    "Yamd.Props.C51_tree_covers_tokens"
   ],
   "note": ""
  },
  {
   "property": "C52",
   "status": "proved",
   "theorems": [
    "Yamd.Props.C52_read_documents_round_trip",
    "Yamd.Props.C52_formatting_is_idempotent",
    "Yamd.Props.C52_conditions_are_needed"
   ],
   "note": "The last theorem gives inputs whose documents have an excluded shape and are not read back."
  },
  {
   "property": "C53",
   "status": "proved",
   "theorems": [
    "Yamd.Props.C53_marks_start_lines"
   ],
   "note": ""
  },
  {
   "property": "C54",
   "status": "proved",
   "theorems": [
    "Yamd.Props.C54_closers_end_lines",
    "Yamd.Props.C54_not_for_all_closers"
   ],
   "note": "The last theorem shows that the other closers may be followed by text."
  },
  {
   "property": "C55",
   "status": "proved",
   "theorems": [
    "Yamd.Props.C55_titles"
   ],
   "note": ""
  },
  {
   "property": "C56",
   "status": "proved",
   "theorems": [
    "Yamd.Props.C56_blank_line_between",
    "Yamd.Props.C56_list_exceptions"
   ],
   "note": "The last theorem shows the exceptions occur."
  },
  {
   "property": "C57",
   "status": "proved",
   "theorems": [
    "Yamd.Props.C57_text_extent"
   ],
   "note": ""
  },
  {
   "property": "C49",
   "status": "proved",
   "theorems": [
    "Yamd.Props.C49_parts",
    "Yamd.Props.C49_many",
    "Yamd.Props.C49_prefix_stays",
    "Yamd.Props.C49_conditions_needed"
   ],
   "note": "each of the four conditions is shown to be needed by a witness"
  },
  {
   "property": "C58",
   "status": "proved",
   "theorems": [
    "Yamd.Props.C58_first_closing_mark"
   ],
   "note": ""
  },
  {
   "property": "C59",
   "status": "proved",
   "theorems": [
    "Yamd.Props.C59_marks_left_as_text"
   ],
   "note": ""
  },
  {
   "property": "C60",
   "status": "proved",
   "theorems": [
    "Yamd.Props.C60_block_marks_left_as_text"
   ],
   "note": "The collapsible, whose completeness depends on the blocks inside it, is covered by C44 only."
  },
  {
   "property": "C61",
   "status": "proved",
   "theorems": [
    "Yamd.Props.C61_parse_is_polynomial"
   ],
   "note": "Steps are counted by Model/Steps.lean, a copy of the parser with a counter; forgetting the counter gives the parser back (Steps.parse_val). The exponent 5 is an upper bound; the worst family found grows with exponent 4."
  },
  {
   "property": "C62",
   "status": "proved",
   "theorems": [
    "Yamd.Props.C62_op_stream_is_linear"
   ],
   "note": ""
  },
  {
   "property": "C63",
   "status": "proved",
   "theorems": [
    "Yamd.Props.C63_document_is_linear"
   ],
   "note": ""
  },
  {
   "property": "C64",
   "status": "proved",
   "theorems": [
    "Yamd.Props.C64_nesting_is_bounded_by_the_input",
    "Yamd.Props.C64_nesting_has_no_limit"
   ],
   "note": "The second theorem is a finding: unbounded recursion depth."
  },
  {
   "property": "C65",
   "status": "proved",
   "theorems": [
    "Yamd.Props.C65_italic_round_trip",
    "Yamd.Props.C65_emphasis_round_trip",
    "Yamd.Props.C65_strikethrough_round_trip",
    "Yamd.Props.C65_code_span_round_trip",
    "Yamd.Props.C65_anchor_round_trip",
    "Yamd.Props.C65_image_round_trip",
    "Yamd.Props.C65_bold_round_trip",
    "Yamd.Props.C65_heading_round_trip",
    "Yamd.Props.C65_heading_test_can_fail",
    "Yamd.Props.C65_code_round_trip",
    "Yamd.Props.C65_embed_round_trip",
    "Yamd.Props.C65_highlight_round_trip",
    "Yamd.Props.C65_list_round_trip",
    "Yamd.Props.C65_collapsible_round_trip",
    "Yamd.Props.C65_mixed_body_round_trip",
    "Yamd.Props.C65_document_round_trip"
   ],
   "note": "One theorem per test; heading_test_can_fail is the counterexample to the three tests that draw headings."
  },
  {
   "property": "C66",
   "status": "proved",
   "theorems": [
    "Yamd.Props.C66_wrap",
    "Yamd.Props.C66_wrap_untitled",
    "Yamd.Props.C66_nested",
    "Yamd.Props.C66_conditions_needed",
    "Yamd.Props.C66_empty_inside"
   ],
   "note": "C66_conditions_needed shows that no condition can be left out; C66_empty_inside is a finding."
  },
  {
   "property": "C67",
   "status": "proved",
   "theorems": [
    "Yamd.Props.C67_documents_survive_serde",
    "Yamd.Props.C67_written_form_is_unique",
    "Yamd.Props.C67_deserialized_documents_survive_serde",
    "Yamd.Props.C67_ops_survive_serde",
    "Yamd.Props.C67_document_from_transmitted_ops",
    "Yamd.Props.C67_reading_is_idempotent",
    "Yamd.Props.C67_order_does_not_matter",
    "Yamd.Props.C67_unknown_keys_are_ignored",
    "Yamd.Props.C67_survives_additions_and_reordering",
    "Yamd.Props.C67_null_is_absent",
    "Yamd.Props.C67_survives_without_nulls",
    "Yamd.Props.C67_documents_survive_without_keys",
    "Yamd.Props.C67_ops_need_keys",
    "Yamd.Props.C67_no_content_for_value",
    "Yamd.Props.C67_no_additions_to_unit_variants",
    "Yamd.Props.C67_reading_examples",
    "Yamd.Props.C67_reading_does_not_validate"
   ],
   "note": "C67_ops_need_keys is a finding. About the documented behaviour of the code serde_derive generates (Model/Serde.lean), at the level of serde's data model, not of a format such as JSON."
  },
  {
   "property": "C68",
   "status": "proved",
   "theorems": [
    "Yamd.Props.C68_token_statistics",
    "Yamd.Props.C68_table_is_aligned"
   ],
   "note": ""
  },
  {
   "property": "C69",
   "status": "proved",
   "theorems": [
    "Yamd.Props.C69_random_text",
    "Yamd.Props.C69_short_literals_panic"
   ],
   "note": "The second theorem is a finding. random_char, which draws until it hits a scalar value, is a draw of the model."
  },
  {
   "property": "C70",
   "status": "proved",
   "theorems": [
    "Yamd.Props.C70_every_document_can_be_given_as_ops",
    "Yamd.Props.C70_documents_read_are_given_exactly",
    "Yamd.Props.C70_delimiters_do_not_matter",
    "Yamd.Props.C70_no_error",
    "Yamd.Props.C70_item_parts_in_any_order",
    "Yamd.Props.C70_highlight_parts_in_any_order",
    "Yamd.Props.C70_anchor_parts_in_any_order",
    "Yamd.Props.C70_image_parts_in_any_order",
    "Yamd.Props.C70_code_parts_in_any_order",
    "Yamd.Props.C70_collapsible_parts_in_any_order"
   ],
   "note": "opsOf and settle are in Spec/OpsOf.lean."
  },
  {
   "property": "C71",
   "status": "proved",
   "theorems": [
    "Yamd.Props.C71_display_only_adds_syntax",
    "Yamd.Props.C71_no_text_is_lost",
    "Yamd.Props.C71_no_text_is_added",
    "Yamd.Props.C71_reading_and_writing_adds_only_syntax"
   ],
   "note": ""
  },
  {
   "property": "C72",
   "status": "proved",
   "theorems": [
    "Yamd.Props.C72_exact_block",
    "Yamd.Props.C72_exact_document",
    "Yamd.Props.C72_front_matter",
    "Yamd.Props.C72_text",
    "Yamd.Props.C72_italic",
    "Yamd.Props.C72_span",
    "Yamd.Props.C72_anchor",
    "Yamd.Props.C72_images",
    "Yamd.Props.C72_code",
    "Yamd.Props.C72_text_heading",
    "Yamd.Props.C72_plain_document",
    "Yamd.Props.C72_plain_list",
    "Yamd.Props.C72_exact_list",
    "Yamd.Props.C72_item_line",
    "Yamd.Props.C72_exact_highlight",
    "Yamd.Props.C72_highlight_line",
    "Yamd.Props.C72_not_for_highlights",
    "Yamd.Props.C72_exact_collapsible"
   ],
   "note": "for the seven block kinds without items, highlight paragraphs or inner blocks, for lists in which no plain text has two line feeds in a row and no item ends with a carriage return, for highlights under the like conditions (plainHighlight; C72_not_for_highlights shows that each is needed), and for collapsibles of all these, nested to any depth; for all kinds when the text has no backslash and no carriage return (and no shape of C52); C72_not_for_lists shows the safe class is not exact for lists otherwise"
  },
  {
   "property": "C73",
   "status": "proved",
   "theorems": [
    "Yamd.Props.C73_final_line_break",
    "Yamd.Props.C73_same_document",
    "Yamd.Props.C73_paragraph",
    "Yamd.Props.C73_conditions_needed"
   ],
   "note": "withBreak is in Spec/Final.lean; for \\n; a final \\r\\n is C78_final_windows_line_break."
  },
  {
   "property": "C74",
   "status": "proved",
   "theorems": [
    "Yamd.Props.C74_windows_line_ends",
    "Yamd.Props.C74_common_origin",
    "Yamd.Props.C74_same_unix_document",
    "Yamd.Props.C74_conditions_needed"
   ],
   "note": "settle is in Spec/OpsOf.lean, noCr in Spec/Crlf.lean, crlf in Spec/Subst.lean."
  },
  {
   "property": "C75",
   "status": "proved",
   "theorems": [
    "Yamd.Props.C75_blank_lines_behind",
    "Yamd.Props.C75_blank_lines_before",
    "Yamd.Props.C75_blank_lines_between",
    "Yamd.Props.C75_odd_line_breaks",
    "Yamd.Props.C75_blank_line_after_mark"
   ],
   "note": "C75_odd_line_breaks: an odd number of line breaks is different (finding)."
  },
  {
   "property": "C76",
   "status": "proved",
   "theorems": [
    "Yamd.Props.C76_range",
    "Yamd.Props.C76_spelling",
    "Yamd.Props.C76_normal_form",
    "Yamd.Props.C76_displayed"
   ],
   "note": "Exact description of the results of deserialize; Spec/Expressible.lean is independent of parser and serializer."
  },
  {
   "property": "C77",
   "status": "proved",
   "theorems": [
    "Yamd.Props.C77_superfluous_backslashes",
    "Yamd.Props.C77_drop_one",
    "Yamd.Props.C77_same_document",
    "Yamd.Props.C77_unslash_stable",
    "Yamd.Props.C77_syntax_needed",
    "Yamd.Props.C77_escapes_needed"
   ],
   "note": "unslash is in Spec/Unslash.lean, dangling in Spec/LexProps.lean."
  },
  {
   "property": "C78",
   "status": "proved",
   "theorems": [
    "Yamd.Props.C78_mixed_line_ends",
    "Yamd.Props.C78_same_up_to_line_ends",
    "Yamd.Props.C78_final_windows_line_break",
    "Yamd.Props.C78_condition_needed"
   ],
   "note": "crInBreaks and noCr are in Spec/Crlf.lean, settle in Spec/OpsOf.lean."
  },
  {
   "property": "C79",
   "status": "proved",
   "theorems": [
    "Yamd.Props.C79_one_pass_is_enough",
    "Yamd.Props.C79_front_matter_loses_backslashes",
    "Yamd.Props.C79_any_number_of_passes"
   ],
   "note": "format and formatted are in Spec/Passes.lean; C79_any_number_of_passes is a finding. That every text settles after some number of passes is not claimed."
  }
 ]
}