{
 "claims": [
  {
   "property": "C01",
   "status": "proved",
   "theorems": [
    "LL1.C01_membership_history"
   ],
   "note": ""
  },
  {
   "property": "C02",
   "status": "proved",
   "theorems": [
    "LL1.C02_union",
    "LL1.C02_equal",
    "LL1.C02_isSubSet",
    "LL1.C02_isSuperSet"
   ],
   "note": ""
  },
  {
   "property": "C03",
   "status": "proved",
   "theorems": [
    "LL1.C03_len"
   ],
   "note": ""
  },
  {
   "property": "C04",
   "status": "proved",
   "theorems": [
    "LL1.C04_bytes",
    "LL1.C04_rounds"
   ],
   "note": ""
  },
  {
   "property": "C05",
   "status": "proved",
   "theorems": [
    "LL1.C05_string",
    "LL1.C05_string_injective"
   ],
   "note": ""
  },
  {
   "property": "C06",
   "status": "proved",
   "theorems": [
    "LL1.C06_walk_preorder"
   ],
   "note": ""
  },
  {
   "property": "C07",
   "status": "proved",
   "theorems": [
    "LL1.C07_walk_prunes"
   ],
   "note": ""
  },
  {
   "property": "C08",
   "status": "proved",
   "theorems": [
    "LL1.C08_no_panic",
    "LL1.C08_nil_names"
   ],
   "note": ""
  },
  {
   "property": "C09",
   "status": "proved",
   "theorems": [
    "LL1.C09_config_errors",
    "LL1.C09_messages"
   ],
   "note": ""
  },
  {
   "property": "C10",
   "status": "proved",
   "theorems": [
    "LL1.C10_tiling",
    "LL1.C10_in_bounds"
   ],
   "note": ""
  },
  {
   "property": "C11",
   "status": "proved",
   "theorems": [
    "LL1.C11_leaves_spell_source",
    "LL1.C11_nodes_follow_cells"
   ],
   "note": ""
  },
  {
   "property": "C12",
   "status": "proved",
   "theorems": [
    "LL1.C12_consumes_all"
   ],
   "note": ""
  },
  {
   "property": "C13",
   "status": "proved",
   "theorems": [
    "LL1.C13_parse_iff_derivation",
    "LL1.C13_unique",
    "LL1.C13_error_iff_stuck",
    "LL1.C13_diverges_iff"
   ],
   "note": ""
  },
  {
   "property": "C14",
   "status": "proved",
   "theorems": [
    "LL1.C14_source_kind"
   ],
   "note": ""
  },
  {
   "property": "C15",
   "status": "proved",
   "theorems": [
    "LL1.C15_names_irrelevant",
    "LL1.C15_returned_names"
   ],
   "note": ""
  },
  {
   "property": "C16",
   "status": "proved",
   "theorems": [
    "LL1.C16_reusable"
   ],
   "note": ""
  },
  {
   "property": "C17",
   "status": "proved",
   "theorems": [
    "LL1.C17_interleaving",
    "LL1.C17_results",
    "LL1.C17_progress",
    "LL1.C17_builtin_names_stay",
    "LL1.C17_race_reachable"
   ],
   "note": ""
  },
  {
   "property": "C18",
   "status": "proved",
   "theorems": [
    "LL1.C18_error_prefix"
   ],
   "note": ""
  },
  {
   "property": "C19",
   "status": "proved",
   "theorems": [
    "LL1.C19_eol",
    "LL1.C19_unknown_builtin",
    "LL1.C19_parse_eol"
   ],
   "note": ""
  },
  {
   "property": "C20",
   "status": "proved",
   "theorems": [
    "LL1.C20_terminates_any",
    "LL1.C20_terminates",
    "LL1.C20_left_recursion_diverges",
    "LL1.C20_nul_diverges"
   ],
   "note": ""
  },
  {
   "property": "C21",
   "status": "proved",
   "theorems": [
    "LL1.C21_nul_truncates"
   ],
   "note": ""
  },
  {
   "property": "C22",
   "status": "proved",
   "theorems": [
    "LL1.C22_terminates"
   ],
   "note": ""
  },
  {
   "property": "C23",
   "status": "proved",
   "theorems": [
    "LL1.C23_no_panic",
    "LL1.C23_panics"
   ],
   "note": ""
  },
  {
   "property": "C24",
   "status": "proved",
   "theorems": [
    "LL1.C24_closed"
   ],
   "note": ""
  },
  {
   "property": "C25",
   "status": "proved",
   "theorems": [
    "LL1.C25_names",
    "LL1.C25_order_irrelevant"
   ],
   "note": ""
  },
  {
   "property": "C26",
   "status": "proved",
   "theorems": [
    "LL1.C26_cells",
    "LL1.C26_single"
   ],
   "note": ""
  },
  {
   "property": "C27",
   "status": "proved",
   "theorems": [
    "LL1.C27_first_semantic",
    "LL1.C27_first_exact"
   ],
   "note": ""
  },
  {
   "property": "C28",
   "status": "proved",
   "theorems": [
    "LL1.C28_empty_cells",
    "LL1.C28_textbook",
    "LL1.C28_differs"
   ],
   "note": ""
  },
  {
   "property": "C29",
   "status": "proved",
   "theorems": [
    "LL1.C29_ll1_accepted",
    "LL1.C29_gap_rejected"
   ],
   "note": ""
  },
  {
   "property": "C30",
   "status": "proved",
   "theorems": [
    "LL1.C30_conflict_iff",
    "LL1.C30_conflict_clash",
    "LL1.C30_unreported"
   ],
   "note": ""
  },
  {
   "property": "C31",
   "status": "proved",
   "theorems": [
    "LL1.C31_undefined_unreachable",
    "LL1.C31_undefined_reported"
   ],
   "note": ""
  },
  {
   "property": "C32",
   "status": "proved",
   "theorems": [
    "LL1.C32_sound",
    "LL1.C32_sound_nulFree",
    "LL1.C32_needs_disjoint"
   ],
   "note": ""
  },
  {
   "property": "C33",
   "status": "proved",
   "theorems": [
    "LL1.C33_complete",
    "LL1.C33_complete_noGap",
    "LL1.C33_gap_incomplete"
   ],
   "note": ""
  },
  {
   "property": "C34",
   "status": "proved",
   "theorems": [
    "LL1.C34_terminates",
    "LL1.C34_decides",
    "LL1.C34_loops"
   ],
   "note": ""
  },
  {
   "property": "C35",
   "status": "proved",
   "theorems": [
    "LL1.C35_derivation_tree"
   ],
   "note": ""
  },
  {
   "property": "C36",
   "status": "proved",
   "theorems": [
    "LL1.C36_left_recursion_diverges",
    "LL1.C36_left_recursion_unreported"
   ],
   "note": ""
  },
  {
   "property": "C37",
   "status": "proved",
   "theorems": [
    "LL1.C37_terminal_reads_back",
    "LL1.C37_terminal_one_line",
    "LL1.C37_terminal_injective",
    "LL1.C37_empty_ambiguous"
   ],
   "note": ""
  },
  {
   "property": "C38",
   "status": "proved",
   "theorems": [
    "LL1.C38_one_line_per_rule",
    "LL1.C38_rule_format"
   ],
   "note": ""
  },
  {
   "property": "C39",
   "status": "proved",
   "theorems": [
    "LL1.C39_round_trip",
    "LL1.C39_only_legal",
    "LL1.C39_injection"
   ],
   "note": ""
  },
  {
   "property": "C40",
   "status": "proved",
   "theorems": [
    "LL1.C40_layout",
    "LL1.C40_unambiguous"
   ],
   "note": ""
  },
  {
   "property": "C41",
   "status": "proved",
   "theorems": [
    "LL1.C41_accepted_converts",
    "LL1.C41_accepts_iff"
   ],
   "note": ""
  },
  {
   "property": "C42",
   "status": "proved",
   "theorems": [
    "LL1.C42_idempotent"
   ],
   "note": ""
  },
  {
   "property": "C43",
   "status": "proved",
   "theorems": [
    "LL1.FC.C43_topmost",
    "LL1.FC.C43_set"
   ],
   "note": ""
  },
  {
   "property": "C44",
   "status": "proved",
   "theorems": [
    "LL1.FC.C44_topmost_order",
    "LL1.FC.C44_reads",
    "LL1.FC.C44_order_and_count",
    "LL1.FC.C44_first_error",
    "LL1.FC.C44_returns"
   ],
   "note": ""
  },
  {
   "property": "C45",
   "status": "proved",
   "theorems": [
    "LL1.C45_reference_tables",
    "LL1.C45_ll1",
    "LL1.C45_decides",
    "LL1.C45_names"
   ],
   "note": ""
  },
  {
   "property": "C46",
   "status": "proved",
   "theorems": [
    "LL1.C46_last_rule_wins",
    "LL1.C46_witness",
    "LL1.C46_starts_first"
   ],
   "note": ""
  },
  {
   "property": "C47",
   "status": "proved",
   "theorems": [
    "LL1.FC.C47_terminal_text",
    "LL1.FC.C47_escapes"
   ],
   "note": ""
  },
  {
   "property": "C48",
   "status": "proved",
   "theorems": [
    "LL1.FC.C48_no_panic",
    "LL1.FC.C48_no_panic_parsed"
   ],
   "note": ""
  },
  {
   "property": "C49",
   "status": "proved",
   "theorems": [
    "LL1.C49_message",
    "LL1.C49_generated"
   ],
   "note": ""
  },
  {
   "property": "C50",
   "status": "proved",
   "theorems": [
    "LL1.C50_exact_language"
   ],
   "note": ""
  },
  {
   "property": "C51",
   "status": "proved",
   "theorems": [
    "LL1.C51_viable_prefix",
    "LL1.C51_first_possible_error",
    "LL1.C51_premature",
    "LL1.C51_first_error_iff"
   ],
   "note": ""
  },
  {
   "property": "C52",
   "status": "proved",
   "theorems": [
    "LL1.C52_linear_time",
    "LL1.C52_linear_time_ll1",
    "LL1.C52_tree_size",
    "LL1.C52_linear_tree_ll1"
   ],
   "note": ""
  },
  {
   "property": "C53",
   "status": "proved",
   "theorems": [
    "LL1.C53_json_bnf",
    "LL1.C53_ll1",
    "LL1.C53_decides",
    "LL1.C53_unambiguous"
   ],
   "note": ""
  },
  {
   "property": "C54",
   "status": "proved",
   "theorems": [
    "LL1.C54_json_program",
    "LL1.C54_unreadable",
    "LL1.C54_deterministic"
   ],
   "note": ""
  },
  {
   "property": "C55",
   "status": "proved",
   "theorems": [
    "LL1.C55_comparison",
    "LL1.C55_legal",
    "LL1.C55_program"
   ],
   "note": ""
  },
  {
   "property": "C56",
   "status": "proved",
   "theorems": [
    "LL1.C56_prints",
    "LL1.C56_order",
    "LL1.C56_parsed"
   ],
   "note": ""
  },
  {
   "property": "C57",
   "status": "proved",
   "theorems": [
    "LL1.C57_map_equality"
   ],
   "note": ""
  },
  {
   "property": "C58",
   "status": "proved",
   "theorems": [
    "LL1.C58_table",
    "LL1.C58_parse",
    "LL1.C58_trees"
   ],
   "note": ""
  },
  {
   "property": "C59",
   "status": "proved",
   "theorems": [
    "LL1.C59_text_to_parser",
    "LL1.C59_verdict"
   ],
   "note": ""
  },
  {
   "property": "C60",
   "status": "proved",
   "theorems": [
    "LL1.C60_sentence_iff",
    "LL1.C60_unambiguous",
    "LL1.C60_returned_tree"
   ],
   "note": ""
  },
  {
   "property": "C61",
   "status": "proved",
   "theorems": [
    "LL1.C61_renumbering",
    "LL1.C61_rearranged",
    "LL1.C61_ll1_accepted",
    "LL1.C61_order_matters"
   ],
   "note": ""
  },
  {
   "property": "C62",
   "status": "proved",
   "theorems": [
    "LL1.FC.C62_effect",
    "LL1.FC.C62_sorted_untouched",
    "LL1.FC.C62_history",
    "LL1.FC.C62_overlap"
   ],
   "note": ""
  },
  {
   "property": "C63",
   "status": "proved",
   "theorems": [
    "LL1.C63_reader_as_string",
    "LL1.C63_reader_fails",
    "LL1.C63_reader_fails_returns",
    "LL1.C63_reader_untouched",
    "LL1.C63_endless",
    "LL1.C63_chunks",
    "LL1.C63_reader_overrun"
   ],
   "note": ""
  },
  {
   "property": "C64",
   "status": "proved",
   "theorems": [
    "LL1.C64_same_results",
    "LL1.C64_prints_iff_conflict",
    "LL1.C64_printed_cell"
   ],
   "note": ""
  },
  {
   "property": "C65",
   "status": "proved",
   "theorems": [
    "LL1.C65_integers",
    "LL1.C65_linear_memory",
    "LL1.C65_linear_memory_ll1"
   ],
   "note": ""
  },
  {
   "property": "C66",
   "status": "proved",
   "theorems": [
    "LL1.TestTools.C66_verdict",
    "LL1.TestTools.C66_equal_passes",
    "LL1.TestTools.C66_pass",
    "LL1.TestTools.C66_false_pass_nul",
    "LL1.TestTools.C66_false_pass_stale"
   ],
   "note": ""
  },
  {
   "property": "C67",
   "status": "proved",
   "theorems": [
    "LL1.C67_effect",
    "LL1.C67_memory",
    "LL1.C67_calls_independent",
    "LL1.C67_hangs",
    "LL1.C67_frame",
    "LL1.C67_edits_seen",
    "LL1.C67_edits_visible"
   ],
   "note": ""
  },
  {
   "property": "C68",
   "status": "proved",
   "theorems": [
    "LL1.C68_meaning",
    "LL1.C68_parsers",
    "LL1.C68_unused_can_reject"
   ],
   "note": ""
  },
  {
   "property": "C69",
   "status": "proved",
   "theorems": [
    "LL1.C69_slices",
    "LL1.C69_cells_independent"
   ],
   "note": ""
  },
  {
   "property": "C70",
   "status": "proved",
   "theorems": [
    "LL1.C70_sees_one_tree",
    "LL1.C70_memory",
    "LL1.C70_trees_last",
    "LL1.C70_edits_stay_local"
   ],
   "note": ""
  },
  {
   "property": "C71",
   "status": "proved",
   "theorems": [
    "LL1.C71_race_iff",
    "LL1.C71_failing_calls_safe"
   ],
   "note": ""
  },
  {
   "property": "C72",
   "status": "proved",
   "theorems": [
    "LL1.C72_depth",
    "LL1.C72_linear",
    "LL1.C72_depth_reached"
   ],
   "note": ""
  },
  {
   "property": "C73",
   "status": "proved",
   "theorems": [
    "LL1.C73_own_nodes",
    "LL1.C73_paths",
    "LL1.C73_nil",
    "LL1.C73_cycle",
    "LL1.C73_remembering"
   ],
   "note": ""
  },
  {
   "property": "C74",
   "status": "proved",
   "theorems": [
    "LL1.C74_cells",
    "LL1.C74_conflict_iff",
    "LL1.C74_conflict_clash",
    "LL1.C74_reading_textbook",
    "LL1.C74_nul_alternative",
    "LL1.C74_empty_source",
    "LL1.C74_differs",
    "LL1.C74_hangs",
    "LL1.C74_printed_cell"
   ],
   "note": ""
  },
  {
   "property": "C75",
   "status": "proved",
   "theorems": [
    "LL1.C75_own",
    "LL1.C75_like_undefined",
    "LL1.C75_unreachable",
    "LL1.C75_witness"
   ],
   "note": ""
  },
  {
   "property": "C76",
   "status": "proved",
   "theorems": [
    "LL1.C76_errors_true",
    "LL1.C76_panics_true",
    "LL1.C76_empty_alternative",
    "LL1.C76_cases",
    "LL1.C76_witness"
   ],
   "note": ""
  },
  {
   "property": "C77",
   "status": "proved",
   "theorems": [
    "LL1.C77_grammar_file",
    "LL1.C77_json_file",
    "LL1.C77_witness"
   ],
   "note": ""
  },
  {
   "property": "C78",
   "status": "proved",
   "theorems": [
    "LL1.FC.C78_same_results",
    "LL1.FC.C78_bound",
    "LL1.FC.C78_bnf"
   ],
   "note": ""
  },
  {
   "property": "C79",
   "status": "proved",
   "theorems": [
    "LL1.C79_hangs_iff_chain",
    "LL1.C79_hangs_iff_loop",
    "LL1.C79_prefix",
    "LL1.C79_left_recursion",
    "LL1.C79_linear",
    "LL1.C79_linear_space",
    "LL1.C79_example"
   ],
   "note": ""
  },
  {
   "property": "C80",
   "status": "proved",
   "theorems": [
    "LL1.XP.C80_like_nil",
    "LL1.XP.C80_unreached",
    "LL1.XP.C80_blame",
    "LL1.XP.C80_known",
    "LL1.XP.C80_example"
   ],
   "note": ""
  },
  {
   "property": "C81",
   "status": "proved",
   "theorems": [
    "LL1.C81_fromGrammar",
    "LL1.C81_parse",
    "LL1.C81_generated",
    "LL1.C81_language",
    "LL1.C81_example"
   ],
   "note": ""
  },
  {
   "property": "C82",
   "status": "proved",
   "theorems": [
    "LL1.C82_same_results",
    "LL1.C82_cubic",
    "LL1.C82_cubic_needed",
    "LL1.C82_cell_size"
   ],
   "note": ""
  },
  {
   "property": "C83",
   "status": "proved",
   "theorems": [
    "LL1.FC.C83_alone",
    "LL1.FC.C83_insertionSort",
    "LL1.FC.C83_ascending_safe",
    "LL1.FC.C83_race_iff",
    "LL1.FC.C83_wrong_result",
    "LL1.FC.C83_entry_lost"
   ],
   "note": ""
  },
  {
   "property": "C84",
   "status": "proved",
   "theorems": [
    "LL1.FC.C84_sharing_invisible",
    "LL1.FC.C84_own_nodes",
    "LL1.FC.C84_stack_size",
    "LL1.FC.C84_panic_causes",
    "LL1.FC.C84_no_overflow",
    "LL1.FC.C84_unfolds",
    "LL1.FC.C84_grammar_ways",
    "LL1.FC.C84_cycle"
   ],
   "note": ""
  },
  {
   "property": "C85",
   "status": "proved",
   "theorems": [
    "LL1.C85_accepted_iff",
    "LL1.C85_conflict_iff",
    "LL1.C85_rejected",
    "LL1.C85_wellFormed",
    "LL1.C85_out_of_reach",
    "LL1.C85_text",
    "LL1.C85_ill_formed_accepted",
    "LL1.C85_examined_witness"
   ],
   "note": ""
  },
  {
   "property": "C86",
   "status": "proved",
   "theorems": [
    "LL1.C86_trees",
    "LL1.C86_errors",
    "LL1.C86_hangs",
    "LL1.C86_grammar_only",
    "LL1.C86_every_node",
    "LL1.C86_alike"
   ],
   "note": ""
  },
  {
   "property": "C87",
   "status": "proved",
   "theorems": [
    "LL1.C87_memory",
    "LL1.C87_calls",
    "LL1.C87_edit_symbol",
    "LL1.C87_edit_alternative",
    "LL1.C87_edit_rule",
    "LL1.C87_append"
   ],
   "note": ""
  },
  {
   "property": "C88",
   "status": "proved",
   "theorems": [
    "LL1.C88_hangs_iff",
    "LL1.C88_always_returns_iff",
    "LL1.C88_accepts_iff",
    "LL1.C88_unused_cells",
    "LL1.C88_examples",
    "LL1.C88_unused_example"
   ],
   "note": ""
  },
  {
   "property": "C89",
   "status": "proved",
   "theorems": [
    "LL1.AnySym.C89_string",
    "LL1.AnySym.C89_string_panic",
    "LL1.AnySym.C89_like",
    "LL1.AnySym.C89_round_trip",
    "LL1.AnySym.C89_compare",
    "LL1.AnySym.C89_equal_iff",
    "LL1.AnySym.C89_symmetric",
    "LL1.AnySym.C89_nil",
    "LL1.AnySym.C89_examples"
   ],
   "note": ""
  },
  {
   "property": "C90",
   "status": "proved",
   "theorems": [
    "LL1.C90_language",
    "LL1.C90_ll1",
    "LL1.C90_accepted",
    "LL1.C90_decides",
    "LL1.C90_subtree",
    "LL1.C90_needs"
   ],
   "note": ""
  },
  {
   "property": "C91",
   "status": "proved",
   "theorems": [
    "LL1.C91_error_true",
    "LL1.C91_ok_iff",
    "LL1.C91_texts_differ"
   ],
   "note": ""
  },
  {
   "property": "C92",
   "status": "proved",
   "theorems": [
    "LL1.C92_language",
    "LL1.C92_accepted",
    "LL1.C92_generated",
    "LL1.C92_any_table",
    "LL1.C92_parse",
    "LL1.C92_special"
   ],
   "note": ""
  },
  {
   "property": "C93",
   "status": "proved",
   "theorems": [
    "LL1.C93_sentence",
    "LL1.C93_rejected",
    "LL1.C93_decides",
    "LL1.C93_grammar",
    "LL1.C93_gap_complete"
   ],
   "note": ""
  },
  {
   "property": "C94",
   "status": "proved",
   "theorems": [
    "LL1.C94_linear",
    "LL1.C94_or",
    "LL1.C94_resolved",
    "LL1.C94_custom",
    "LL1.C94_sentences",
    "LL1.C94_leftRecursive"
   ],
   "note": ""
  },
  {
   "property": "C95",
   "status": "proved",
   "theorems": [
    "LL1.C95_seen",
    "LL1.C95_unchanged",
    "LL1.C95_writer_ahead",
    "LL1.C95_exact",
    "LL1.C95_safe",
    "LL1.C95_torn",
    "LL1.C95_message",
    "LL1.C95_hang_iff",
    "LL1.C95_hang_example",
    "LL1.C95_ll1_returns",
    "LL1.C95_no_left_recursion",
    "LL1.C95_dichotomy",
    "LL1.C95_returns_iff_linear",
    "LL1.C95_linear",
    "LL1.C95_linear_examples"
   ],
   "note": ""
  },
  {
   "property": "C96",
   "status": "proved",
   "theorems": [
    "LL1.AnyReader.C96_untouched",
    "LL1.AnyReader.C96_text",
    "LL1.AnyReader.C96_table_lost",
    "LL1.AnyReader.C96_error",
    "LL1.AnyReader.C96_reentrant",
    "LL1.AnyReader.C96_room",
    "LL1.AnyReader.C96_panics_iff",
    "LL1.AnyReader.C96_no_panic",
    "LL1.AnyReader.C96_early_error",
    "LL1.AnyReader.C96_script",
    "LL1.AnyReader.C96_back_too_far",
    "LL1.AnyReader.C96_kept_slice"
   ],
   "note": ""
  },
  {
   "property": "C97",
   "status": "proved",
   "theorems": [
    "LL1.C97_language",
    "LL1.C97_keeps",
    "LL1.C97_tree",
    "LL1.C97_gap_free",
    "LL1.C97_repair",
    "LL1.C97_matters"
   ],
   "note": ""
  },
  {
   "property": "C98",
   "status": "proved",
   "theorems": [
    "LL1.C98_accepts",
    "LL1.C98_paste",
    "LL1.C98_same_piece",
    "LL1.C98_empty_piece"
   ],
   "note": ""
  },
  {
   "property": "C99",
   "status": "proved",
   "theorems": [
    "LL1.C99_language",
    "LL1.C99_decides",
    "LL1.C99_with_gaps",
    "LL1.C99_test_grammars",
    "LL1.C99_common_beginning"
   ],
   "note": ""
  },
  {
   "property": "C100",
   "status": "proved",
   "theorems": [
    "LL1.C100_copy",
    "LL1.C100_kept",
    "LL1.C100_source_kept",
    "LL1.C100_cell",
    "LL1.C100_reuse"
   ],
   "note": ""
  },
  {
   "property": "C101",
   "status": "proved",
   "theorems": [
    "LL1.C101_owner",
    "LL1.C101_separate",
    "LL1.C101_bounds",
    "LL1.C101_lost",
    "LL1.C101_race",
    "LL1.C101_torn",
    "LL1.C101_fresh"
   ],
   "note": ""
  },
  {
   "property": "C102",
   "status": "proved",
   "theorems": [
    "LL1.C102_dichotomy",
    "LL1.C102_always_returns_iff_linear",
    "LL1.C102_hang_fills_memory",
    "LL1.C102_returns_iff_bounded",
    "LL1.C102_memory",
    "LL1.C102_generated",
    "LL1.C102_same_run",
    "LL1.C102_examples"
   ],
   "note": ""
  },
  {
   "property": "C103",
   "status": "proved",
   "theorems": [
    "LL1.FC.C103_represents",
    "LL1.FC.C103_tree",
    "LL1.FC.C103_panics",
    "LL1.FC.C103_given_nodes",
    "LL1.FC.C103_determined",
    "LL1.FC.C103_type_twice",
    "LL1.FC.C103_lazy"
   ],
   "note": ""
  },
  {
   "property": "C104",
   "status": "proved",
   "theorems": [
    "LL1.C104_steps_any",
    "LL1.C104_reading_textbook",
    "LL1.C104_steps",
    "LL1.C104_steps_disjoint",
    "LL1.C104_memory",
    "LL1.C104_no_loop",
    "LL1.C104_ll1",
    "LL1.C104_hang_loops",
    "LL1.C104_own_grammars",
    "LL1.C104_examples"
   ],
   "note": ""
  },
  {
   "property": "C105",
   "status": "proved",
   "theorems": [
    "LL1.C105_bindings",
    "LL1.C105_bindings_again",
    "LL1.C105_self_grammar",
    "LL1.C105_values",
    "LL1.C105_call_again"
   ],
   "note": ""
  },
  {
   "property": "C106",
   "status": "proved",
   "theorems": [
    "LL1.C106_table",
    "LL1.C106_table_offset",
    "LL1.C106_inherits",
    "LL1.C106_accepted",
    "LL1.C106_tree",
    "LL1.C106_errors",
    "LL1.C106_needs_ll1"
   ],
   "note": ""
  },
  {
   "property": "C107",
   "status": "proved",
   "theorems": [
    "LL1.C107_language",
    "LL1.C107_choice_ll1",
    "LL1.C107_choice_parser",
    "LL1.C107_chain_ll1",
    "LL1.C107_chain_parser"
   ],
   "note": ""
  },
  {
   "property": "C108",
   "status": "proved",
   "theorems": [
    "LL1.Told.C108_history",
    "LL1.Told.C108_text",
    "LL1.Told.C108_panic",
    "LL1.Told.C108_chain",
    "LL1.Told.C108_once",
    "LL1.Told.C108_constant"
   ],
   "note": ""
  },
  {
   "property": "C109",
   "status": "proved",
   "theorems": [
    "LL1.C109_language",
    "LL1.C109_ll1",
    "LL1.C109_keeps",
    "LL1.C109_tree",
    "LL1.C109_parser",
    "LL1.C109_gap",
    "LL1.C109_nothing"
   ],
   "note": ""
  },
  {
   "property": "C110",
   "status": "proved",
   "theorems": [
    "LL1.Weigh.C110_compare",
    "LL1.Weigh.C110_true",
    "LL1.Weigh.C110_own",
    "LL1.Weigh.C110_constant",
    "LL1.Weigh.C110_fickle",
    "LL1.Weigh.C110_meddler"
   ],
   "note": ""
  },
  {
   "property": "C111",
   "status": "proved",
   "theorems": [
    "LL1.TestTools.C111_tree_code",
    "LL1.TestTools.C111_tree_compare",
    "LL1.TestTools.C111_names_order",
    "LL1.TestTools.C111_names_ascending",
    "LL1.TestTools.C111_names_plain",
    "LL1.TestTools.C111_names_ambiguous",
    "LL1.TestTools.C111_perform",
    "LL1.TestTools.C111_update",
    "LL1.TestTools.C111_regression",
    "LL1.TestTools.C111_regression_plain"
   ],
   "note": ""
  },
  {
   "property": "C112",
   "status": "proved",
   "theorems": [
    "LL1.TestTools.C112_table_code",
    "LL1.TestTools.C112_table_compare",
    "LL1.TestTools.C112_generated",
    "LL1.TestTools.C112_table_test"
   ],
   "note": ""
  }
 ]
}