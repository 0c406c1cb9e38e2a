{
 "claims": [
  {
   "property": "C01",
   "status": "proved",
   "theorems": [
    "Verif.Props.C01_queue_is_deque"
   ],
   "note": "All histories in which the queue holds fewer than 2^31 elements; the boundary of computeSize is shown by Verif.Props.C01_mask_boundary."
  },
  {
   "property": "C02",
   "status": "proved",
   "theorems": [
    "Verif.Props.C02_set_algebra"
   ],
   "note": "All histories over any number of sets."
  },
  {
   "property": "C03",
   "status": "proved",
   "theorems": [
    "Verif.Props.C02_set_algebra",
    "Verif.Props.C03_observers_canonical"
   ],
   "note": ""
  },
  {
   "property": "C04",
   "status": "proved",
   "theorems": [
    "Verif.Props.C04_lineCol",
    "Verif.Props.C04_lineCol_utf8"
   ],
   "note": "Arbitrary bytes; for well-formed UTF-8 also stated in terms of runes."
  },
  {
   "property": "C05",
   "status": "proved",
   "theorems": [
    "Verif.Props.C05_history_independent"
   ],
   "note": ""
  },
  {
   "property": "C06",
   "status": "proved",
   "theorems": [
    "Verif.Props.C06_pos",
    "Verif.Props.C06_lines"
   ],
   "note": ""
  },
  {
   "property": "C07",
   "status": "proved",
   "theorems": [
    "Verif.Props.C07_pos_of_lineCol",
    "Verif.Props.C07_lineCol_of_pos"
   ],
   "note": ""
  },
  {
   "property": "C08",
   "status": "proved",
   "theorems": [
    "Verif.Props.C08_normalizeNls"
   ],
   "note": ""
  },
  {
   "property": "C09",
   "status": "proved",
   "theorems": [
    "Verif.Props.C09_source_queue_is_list"
   ],
   "note": "Histories shorter than 2^31 calls (limit of the ring buffer, see C01)."
  },
  {
   "property": "C10",
   "status": "proved",
   "theorems": [
    "Verif.Props.C10_position_bounds"
   ],
   "note": "Histories shorter than 2^31 calls."
  },
  {
   "property": "C11",
   "status": "proved",
   "theorems": [
    "Verif.Props.C11_snapshot_restore",
    "Verif.Props.C09_source_queue_is_list"
   ],
   "note": "Repeated restores are covered by the restore calls in histories of C09."
  },
  {
   "property": "C12",
   "status": "proved",
   "theorems": [
    "Verif.Props.C12_terminates"
   ],
   "note": "For matchers obeying the contract of FindSubmatchIndex."
  },
  {
   "property": "C13",
   "status": "proved",
   "theorems": [
    "Verif.Props.C13_token_faithful",
    "Verif.Props.C13_next_faithful",
    "Verif.Props.C13_token_complete",
    "Verif.Props.C13_bad_token"
   ],
   "note": ""
  },
  {
   "property": "C14",
   "status": "proved",
   "theorems": [
    "Verif.Props.C14_tokens_tile"
   ],
   "note": ""
  },
  {
   "property": "C15",
   "status": "partial",
   "theorems": [
    "Verif.Props.C15_failed_fetch_no_changes_false",
    "Verif.Props.C15_failed_fetch_partial",
    "Verif.Props.C15_failed_next_partial",
    "Verif.Props.C15_retry_partial"
   ],
   "note": "The documented claim is false: insignificant lexemes before the failure are dropped (witness). Proved: nothing else changes, and nothing at all when no insignificant lexeme precedes."
  },
  {
   "property": "C16",
   "status": "proved",
   "theorems": [
    "Verif.Props.C16_eof",
    "Verif.Props.C16_eoi",
    "Verif.Props.C16_eof_per_source",
    "Verif.Props.C16_reaches_end",
    "Verif.Props.C16_eofToken_nil_panics"
   ],
   "note": "EofToken(nil) panics although its documentation allows nil."
  },
  {
   "property": "C48",
   "status": "proved",
   "theorems": [
    "Verif.Props.C48_newError",
    "Verif.Props.C48_formatError"
   ],
   "note": ""
  },
  {
   "property": "C17",
   "status": "proved",
   "theorems": [
    "Verif.Props.C17_edits_are_list_edits",
    "Verif.Props.C17_edits_make_no_cycle",
    "Verif.Props.C17_edits_keep_kinds",
    "Verif.Props.C17_append_to_chain"
   ],
   "note": ""
  },
  {
   "property": "C18",
   "status": "partial",
   "theorems": [
    "Verif.Props.C18_replace_partial",
    "Verif.Props.C18_replace_by_nil",
    "Verif.Props.C18_replace_by_next_sibling",
    "Verif.Props.C18_replace_top"
   ],
   "note": "False for the next sibling (both elements are dropped) and for an element without a parent (panic). Proved for all other elements."
  },
  {
   "property": "C19",
   "status": "proved",
   "theorems": [
    "Verif.Props.C19_one_tree",
    "Verif.Props.C19_walk_is_traversal",
    "Verif.Props.C19_walk_nil",
    "Verif.Props.C19_nil_forever",
    "Verif.Props.C19_stop_gives_nil"
   ],
   "note": ""
  },
  {
   "property": "C20",
   "status": "proved",
   "theorems": [
    "Verif.Props.C20_first_last_token",
    "Verif.Props.C20_tokens_in_order"
   ],
   "note": ""
  },
  {
   "property": "C21",
   "status": "partial",
   "theorems": [
    "Verif.Props.C21_next_token",
    "Verif.Props.C21_next_token_partial",
    "Verif.Props.C21_prev_token_partial",
    "Verif.Props.C21_next_token_missed",
    "Verif.Props.C21_prev_token_missed"
   ],
   "note": "False: a node without tokens right after (before) the element hides further tokens (witness). Proved: exact result, a non-nil result is right, nil is right if every node has a token."
  },
  {
   "property": "C22",
   "status": "proved",
   "theorems": [
    "Verif.Props.C22_apply_is_composition",
    "Verif.Props.C22_firsts_are_unique",
    "Verif.Props.C22_search_is_selection",
    "Verif.Props.C22_builders_add_steps",
    "Verif.Props.C22_filters",
    "Verif.Props.C22_is_a",
    "Verif.Props.C22_is_a_literal"
   ],
   "note": ""
  },
  {
   "property": "C23",
   "status": "proved",
   "theorems": [
    "Verif.Props.C23_structural_extractors",
    "Verif.Props.C23_no_children",
    "Verif.Props.C23_ancestors_chain",
    "Verif.Props.C23_nth_takes",
    "Verif.Props.C23_all_any"
   ],
   "note": ""
  },
  {
   "property": "C24",
   "status": "partial",
   "theorems": [
    "Verif.Props.C24_first_sets",
    "Verif.Props.C24_rejected_exactly",
    "Verif.Props.C24_covers_described_partial",
    "Verif.Props.C24_empty_nodes_are_ignored"
   ],
   "note": "Proved: the computed sets are exactly the least solution of the documented first-token equations with nodes taken as non-empty, never empty, rejected exactly. False for nodes that may be empty (witness); partial: sets cover all descriptions without empty nodes."
  },
  {
   "property": "C25",
   "status": "proved",
   "theorems": [
    "Verif.Props.C25_undefined_nodes",
    "Verif.Props.C25_unused_nodes"
   ],
   "note": ""
  },
  {
   "property": "C26",
   "status": "partial",
   "theorems": [
    "Verif.Props.C26_check_is_exact",
    "Verif.Props.C26_left_recursion",
    "Verif.Props.C26_reported_is_left_recursive_partial",
    "Verif.Props.C26_recursion_hidden_by_eoi"
   ],
   "note": "False when a $ item overwrites another end-of-input rule (witness). Proved: the check is exact on the compiled machine and terminates; exact on definitions without $; sound with them."
  },
  {
   "property": "C29",
   "status": "partial",
   "theorems": [
    "Verif.Props.C29_described_is_accepted",
    "Verif.Props.C29_machine_language_partial",
    "Verif.Props.C29_variant_after_repeat",
    "Verif.Props.C29_option_left_halfway"
   ],
   "note": "False: a repeated group as a variant or as the start of an optional group leaks into its surroundings (witnesses). Proved: every described sequence is accepted (all expressions); equality for expressions without such groups."
  },
  {
   "property": "C27",
   "status": "proved",
   "theorems": [
    "Verif.Props.C27_tables_mean_entries",
    "Verif.Props.C27_one_key",
    "Verif.Props.C27_compiled"
   ],
   "note": ""
  },
  {
   "property": "C28",
   "status": "partial",
   "theorems": [
    "Verif.Props.C28_renumbered_partial",
    "Verif.Props.C28_same_words_partial",
    "Verif.Props.C28_shared_rules_exact",
    "Verif.Props.C28_renumbered_twice"
   ],
   "note": "False: a fallback rule slice shared by several states is renumbered several times (witness). Proved: exact effect for all machines; plain renumbering and same words when shared slices do not lead past a dropped state."
  },
  {
   "property": "C39",
   "status": "proved",
   "theorems": [
    "Verif.Props.C39_priority",
    "Verif.Props.C39_reserved",
    "Verif.Props.C39_no_token",
    "Verif.Props.C39_compiled"
   ],
   "note": ""
  },
  {
   "property": "C32",
   "status": "proved",
   "theorems": [
    "Verif.Props.C32_tokens_in_order",
    "Verif.Props.C32_consumed_prefix"
   ],
   "note": ""
  },
  {
   "property": "C33",
   "status": "proved",
   "theorems": [
    "Verif.Props.C33_notifications",
    "Verif.Props.C33_ended_once",
    "Verif.Props.C33_layer_tokens",
    "Verif.Props.C33_side_places"
   ],
   "note": ""
  },
  {
   "property": "C40",
   "status": "partial",
   "theorems": [
    "Verif.Props.C40_types_exact",
    "Verif.Props.C40_expected_types_partial",
    "Verif.Props.C40_caseless_type_hidden"
   ],
   "note": "False for caseless types whose regular expression does not match the upper-case form of a text it matches (witness C40_caseless_type_hidden); proved for all other token sets."
  },
  {
   "property": "C51",
   "status": "partial",
   "theorems": [
    "Verif.Props.C51_accepted_by_machines",
    "Verif.Props.C51_compiled_language_partial",
    "Verif.Props.C51_accepted_is_described_partial"
   ],
   "note": "Proved for compiled grammars whose lookahead is safe (C31: in particular no several rules under one key in the states entered during lookahead), without $, with repeated groups that do not share their start (LoopOk) and safe state dropping; false outside (C28, C29, C31 witnesses)."
  },
  {
   "property": "C31",
   "status": "partial",
   "theorems": [
    "Verif.Props.C31_variants_followed_partial",
    "Verif.Props.C31_safe_if_calm",
    "Verif.Props.C31_branch_overwritten",
    "Verif.Props.C31_following_ignored"
   ],
   "note": "False: branches created by one token share an array and overwrite each other, and lookahead stops at the end of the current node (two witnesses). Proved: whenever no branch is overwritten, all variants inside the node are followed, the chosen one is among the best, and lookahead stops only when at most one survives or nothing more can be read; calm grammars (decidable check) never overwrite."
  },
  {
   "property": "C36",
   "status": "proved",
   "theorems": [
    "Verif.Props.C36_layers_pass_tokens",
    "Verif.Props.C36_sources_below",
    "Verif.Props.C36_hook_decides"
   ],
   "note": ""
  },
  {
   "property": "C37",
   "status": "partial",
   "theorems": [
    "Verif.Props.C37_peek_leaves_no_trace_partial",
    "Verif.Props.C37_same_tokens",
    "Verif.Props.C37_changes_lost"
   ],
   "note": "False for hooks that change sources after peeking past pending tokens: restoring the snapshot undoes the change (witness). Proved for all other hooks."
  },
  {
   "property": "C38",
   "status": "partial",
   "theorems": [
    "Verif.Props.C38_hook_errors_returned_partial",
    "Verif.Props.C38_pull_returns_hook_error",
    "Verif.Props.C38_error_lost_in_lookahead"
   ],
   "note": "False during lookahead: the error is swallowed and the token is lost (witness). Proved for grammars without several rules under one key."
  },
  {
   "property": "C35",
   "status": "partial",
   "theorems": [
    "Verif.Props.C35_one_token_left_partial",
    "Verif.Props.C35_nothing_left_partial",
    "Verif.Props.C35_compiled_partial",
    "Verif.Props.C35_parser_partial",
    "Verif.Props.C35_token_lost"
   ],
   "note": "False with token hooks: an unconsumed token without a source is lost (witness). Proved for pipelines of any lexers built by parser.New without token hooks, grammars in which no branch is overwritten during a lookahead (C31); in general at most the last tried token is lost."
  },
  {
   "property": "C41",
   "status": "partial",
   "theorems": [
    "Verif.Props.C41_end_matched_partial",
    "Verif.Props.C41_nothing_fetched",
    "Verif.Props.C41_end_not_matched"
   ],
   "note": "False: when a state expects nothing but the end of input, no token is fetched and the parser panics (witness root = $n, $). Proved for states that also expect some type known to lexers (any grammar with side tokens)."
  },
  {
   "property": "C50",
   "status": "partial",
   "theorems": [
    "Verif.Props.C50_named_token_acceptable_partial",
    "Verif.Props.C50_wrong_token_named",
    "Verif.Props.C50_error_panics"
   ],
   "note": "False: states whose keys all have several rules name token 0, states expecting only the end of input panic (witnesses). Proved for states with a key having one rule."
  },
  {
   "property": "C34",
   "status": "proved",
   "theorems": [
    "Verif.Props.C34_tree"
   ],
   "note": ""
  },
  {
   "property": "C42",
   "status": "proved",
   "theorems": [
    "Verif.Props.C42_setup",
    "Verif.Props.C42_convert"
   ],
   "note": ""
  },
  {
   "property": "C43",
   "status": "partial",
   "theorems": [
    "Verif.Props.C43_setup",
    "Verif.Props.C43_hook",
    "Verif.Props.C43_layer_partial",
    "Verif.Props.C43_unknown_node_violated"
   ],
   "note": "False: a configuration naming an unknown node is accepted and the layer is silently dropped (witness). Proved: accepted configurations, when the hook fails, which nodes it is called for if all nodes are known."
  },
  {
   "property": "C49",
   "status": "proved",
   "theorems": [
    "Verif.Props.C49_register",
    "Verif.Props.C49_templates",
    "Verif.Props.C49_last_option",
    "Verif.Props.C49_unknown"
   ],
   "note": ""
  },
  {
   "property": "C44",
   "status": "partial",
   "theorems": [
    "Verif.Props.C44_setup",
    "Verif.Props.C44_layout",
    "Verif.Props.C44_balanced_partial",
    "Verif.Props.C44_order_violated",
    "Verif.Props.C44_closed_again_violated",
    "Verif.Props.C44_first_line_violated",
    "Verif.Props.C44_setup_panics"
   ],
   "note": "False as stated: the end of input is emitted twice, textless tokens overtake spaces (witnesses). Proved: accepted configurations; exact output and errors for honest lookahead; nesting, pairing and order (spaces aside) for any lookahead."
  },
  {
   "property": "C45",
   "status": "partial",
   "theorems": [
    "Verif.Props.C45_decode",
    "Verif.Props.C45_single_quoted",
    "Verif.Props.C45_documented_partial",
    "Verif.Props.C45_byte_violated"
   ],
   "note": "False for \\x80-\\xff: the result is a rune in UTF-8, not a byte (witness). Proved: termination, no panic, exactly which literals are accepted and what they denote."
  },
  {
   "property": "C46",
   "status": "partial",
   "theorems": [
    "Verif.Props.C46_returns_partial",
    "Verif.Props.C46_directive_violated",
    "Verif.Props.C46_regexp_violated"
   ],
   "note": "False: a directive or a token definition cut off before its semicolon is read forever (witnesses for every such list). Proved: every other description is read in a linear number of steps without a panic."
  },
  {
   "property": "C53",
   "status": "partial",
   "theorems": [
    "Verif.Props.C53_unambiguous",
    "Verif.Props.C53_syntax_partial",
    "Verif.Props.C53_nodes_partial",
    "Verif.Props.C53_name_as_type_violated",
    "Verif.Props.C53_name_as_string_violated",
    "Verif.Props.C53_layer_error_violated"
   ],
   "note": "False as stated: names 'string' and 'token-name' are taken for string literals and token types, errors inside layer commands are ignored (witnesses). Proved for all other token sequences; the syntax is unambiguous."
  },
  {
   "property": "C54",
   "status": "partial",
   "theorems": [
    "Verif.Props.C54_tokens_partial"
   ],
   "note": "Proved for token sequences without the names 'string' and 'token-name', empty regular expressions and lexer errors."
  },
  {
   "property": "C55",
   "status": "partial",
   "theorems": [
    "Verif.Props.C55_restrictions_partial",
    "Verif.Props.C55_accepted_partial",
    "Verif.Props.C55_groups_violated",
    "Verif.Props.C55_limit_violated"
   ],
   "note": "False as stated: a type may be separated twice before its definition, types listed before their definition are counted twice (witnesses). Proved: accepted descriptions satisfy all other restrictions; every description satisfying them, with no type in two groups and with listed types added to the count, is accepted in a linear number of steps and gets its documented meaning."
  },
  {
   "property": "C56",
   "status": "partial",
   "theorems": [
    "Verif.Props.C56_content_partial",
    "Verif.Props.C56_words_partial",
    "Verif.Props.C56_accepted_is_described_partial",
    "Verif.Props.C56_types_partial"
   ],
   "note": "Whole langdef.Parse. Missing: descriptions with the names 'string' and 'token-name', empty regular expressions or lexer errors (C53); for words and accepted inputs also what C28, C29, C31 exclude (loops sharing a starting point, shared rules moved by dropping states, overwritten lookahead branches, $)."
  },
  {
   "property": "C57",
   "status": "partial",
   "theorems": [
    "Verif.Props.C57_compile_verdict",
    "Verif.Props.C57_description_verdict_partial",
    "Verif.Props.C57_undefined_partial"
   ],
   "note": "Compilation of any well formed structures is total with exact verdicts. For texts: descriptions excluded by C53 and C55 are missing; recursion verdicts are complete only without $ (C26)."
  },
  {
   "property": "C47",
   "status": "partial",
   "theorems": [
    "Verif.Props.C47_nested_partial",
    "Verif.Props.C47_violated"
   ],
   "note": "False as stated: with a layer braces are not nested (witness). Proved for all grammars without layers."
  },
  {
   "property": "C58",
   "status": "partial",
   "theorems": [
    "Verif.Props.C58_go_file_partial",
    "Verif.Props.C58_made",
    "Verif.Props.C58_described",
    "Verif.Props.C58_faithful",
    "Verif.Props.C58_text_determines_partial",
    "Verif.Props.C58_layers_violated",
    "Verif.Props.C58_names_violated",
    "Verif.Props.C58_message_violated"
   ],
   "note": "False as stated: with layers the text is never a Go file (proved for all such grammars); keywords are accepted as names (witness). Proved without layers for names allowed in Go."
  },
  {
   "property": "C30",
   "status": "partial",
   "theorems": [
    "Verif.Props.C30_more_steps",
    "Verif.Props.C30_terminates_partial",
    "Verif.Props.C30_text_partial",
    "Verif.Props.C30_compiled_partial",
    "Verif.Props.C30_definite_partial",
    "Verif.Props.C30_tokens_partial",
    "Verif.Props.C30_hooks_partial",
    "Verif.Props.C30_hooks_compiled_partial",
    "Verif.Props.C30_endless_any",
    "Verif.Props.C30_endless_end",
    "Verif.Props.C30_endless_hook"
   ],
   "note": "False as stated: root = {['x']}, 'y' and root = {n}; n = $ are accepted and a parse never stops (proved for every number of steps). Proved: a parse stops with any node hooks and any number of conflicts if no state may be reached from itself without ordinary tokens; for compiled grammars this follows from a condition on definitions (nothing that may be passed without ordinary tokens is repeated or left recursive) and safe state dropping; the same with any number of token hook layers if hooks add finitely many tokens and sources only go forward (a hook that rewinds may make a parse endless, proved). Missing: other grammars, other token hooks."
  },
  {
   "property": "C52",
   "status": "partial",
   "theorems": [
    "Verif.Props.C52_never_reported",
    "Verif.Props.C52_consumed_partial",
    "Verif.Props.C52_violated"
   ],
   "note": "False as stated: no lexer ever reports an error because of an error token, they are returned as usual tokens and are consumed if there is a literal with the same text (witness). Proved for described grammars under the conditions of C56: a parse consumes a token of an error type only as a side token or as a literal."
  },
  {
   "property": "C59",
   "status": "proved",
   "theorems": [
    "Verif.Props.C59_lexers_made",
    "Verif.Props.C59_token_fetched",
    "Verif.Props.C59_nothing_fetched",
    "Verif.Props.C59_lexical_error",
    "Verif.Props.C59_first_error",
    "Verif.Props.C59_lexers_ok",
    "Verif.Props.C59_described"
   ],
   "note": ""
  },
  {
   "property": "C60",
   "status": "proved",
   "theorems": [
    "Verif.Props.C60_layer",
    "Verif.Props.C60_token_hook",
    "Verif.Props.C60_node_hook"
   ],
   "note": ""
  },
  {
   "property": "C61",
   "status": "partial",
   "theorems": [
    "Verif.Props.C61_described_by_machines",
    "Verif.Props.C61_described_is_accepted_partial",
    "Verif.Props.C61_one_token_checked",
    "Verif.Props.C61_lookahead_rejects",
    "Verif.Props.C61_empty_node_rejected"
   ],
   "note": "False as stated: root = ('1', ['2']), '2' rejects 1 2; root = a, 'y'; a = ['x'] rejects y (witnesses). Proved for grammars in which one token is enough to choose a rule (there is a proved check) and inputs with no empty nested nodes, any hooks that do not fail. Missing: caseless types (C40), definitions outside LoopOk (C29), unsafe state dropping (C28), token hooks."
  },
  {
   "property": "C62",
   "status": "partial",
   "theorems": [
    "Verif.Props.C62_described_tree_is_told_partial",
    "Verif.Props.C62_unambiguous"
   ],
   "note": "Proved for grammars in which one token is enough to choose a rule and trees without empty nested nodes; false for others as in C61. Side tokens may be told in another node. Missing: the same as in C61."
  },
  {
   "property": "C63",
   "status": "partial",
   "theorems": [
    "Verif.Props.C63_accepted_iff_described_partial",
    "Verif.Props.C30_more_steps"
   ],
   "note": "Both directions for grammars in which one token is enough to choose a rule (C61's proved check) and trees without empty nested nodes; false for others (C61_lookahead_rejects, C61_empty_node_rejected). Missing: caseless types (C40), definitions outside LoopOk (C29), unsafe state dropping (C28), token hooks."
  },
  {
   "property": "C64",
   "status": "partial",
   "theorems": [
    "Verif.Props.C64_described_tree_is_built_partial"
   ],
   "note": "Composition of C62 and C34 for grammars in which one token is enough to choose a rule and trees without empty nested nodes. Missing: the same as in C61; exact places of side tokens."
  },
  {
   "property": "C65",
   "status": "partial",
   "theorems": [
    "Verif.Props.C65_text_accepted_iff_described_partial",
    "Verif.Props.C65_accepted_is_read",
    "Verif.Props.C65_one_way",
    "Verif.Props.C65_lossless",
    "Verif.Props.C65_groups_partial"
   ],
   "note": "Both directions from the bytes of sources for grammars with one group of token types in which one token is enough to choose a rule, trees without empty nested nodes. For several groups of token types (then cutting depends on requested types) described texts are proved accepted with exactly the described tree (C65_groups_partial). Missing: the same as in C63; that all texts accepted with several groups are described ones (C77 shows that they are cut into tokens of a described tree, but not which group is asked for at each place); token hooks; regular expressions that look past the match."
  },
  {
   "property": "C66",
   "status": "partial",
   "theorems": [
    "Verif.Props.C66_tree_text_partial",
    "Verif.Props.C66_pieces",
    "Verif.Props.C66_trailing_lost"
   ],
   "note": "The tree and some last side tokens are the text, for compiled grammars with safe lookaheads (C31) and any number of groups; those last side tokens are not in the tree (negation proved, contrary to the documentation of WithSides). Missing: token hooks, grammars in which branches are overwritten (C31)."
  },
  {
   "property": "C67",
   "status": "partial",
   "theorems": [
    "Verif.Props.C67_samples_partial",
    "Verif.Props.C67_newline_kept",
    "Verif.Props.C67_empty_line",
    "Verif.Props.C67_not_checked"
   ],
   "note": "Files without empty lines are split into whole lines between separators. The code contradicts its documentation in three ways, proved as negations: the last newline of a sample is kept, a file is not split after its first empty line, samples are not checked to be UTF-8."
  },
  {
   "property": "C68",
   "status": "partial",
   "theorems": [
    "Verif.Props.C68_items",
    "Verif.Props.C68_width_partial",
    "Verif.Props.C68_tree_width_partial",
    "Verif.Props.C68_too_wide"
   ],
   "note": "Printing ends without panics and prints the items of the tree in order; lines of two or more items fit for all sequences of calls. Lines of one item may be wider than asked (negation proved)."
  },
  {
   "property": "C69",
   "status": "partial",
   "theorems": [
    "Verif.Props.C69_result_is_fold",
    "Verif.Props.C69_described_value_partial"
   ],
   "note": "The fold statement is whole for all grammars and hook classes hooked to every node (C69_result_is_fold). The value of a described tree is given for the grammars of C62 and hook classes that never fail and ignore side tokens; missing: the same as in C62."
  },
  {
   "property": "C70",
   "status": "partial",
   "theorems": [
    "Verif.Props.C70_order_free",
    "Verif.Props.C70_errors_partial",
    "Verif.Props.C70_message_order"
   ],
   "note": "Grammars are the same for all orders. Errors are the same up to the order of listed nodes; messages do depend on the order (negation proved)."
  },
  {
   "property": "C71",
   "status": "partial",
   "theorems": [
    "Verif.Props.C71_calculator_partial",
    "Verif.Props.C71_one_reading",
    "Verif.Props.C71_func_is_lost",
    "Verif.Props.C71_rounding"
   ],
   "note": "End to end for tokens captured by the regular expressions of the grammar. Missing: the name func in definitions is lost (negation proved); with rounding arithmetic the folded constants give other results (negation proved); that a written command is always accepted."
  },
  {
   "property": "C72",
   "status": "partial",
   "theorems": [
    "Verif.Props.C72_conf_edit_partial",
    "Verif.Props.C72_meaning",
    "Verif.Props.C72_panic_after_removal",
    "Verif.Props.C72_panic_after_comment",
    "Verif.Props.C72_section_stays",
    "Verif.Props.C72_value_is_lost",
    "Verif.Props.C72_lines_are_joined",
    "Verif.Props.C72_comment_is_moved"
   ],
   "note": "All commands on all trees of files without repetitions: exact list of edits, values after them, saved text, exact conditions of panics. Missing: that the saved text is parsed back to the same document (false for lines without line feeds, negations proved; see C80); files with repeated sections or entries (false, negations proved)."
  },
  {
   "property": "C73",
   "status": "partial",
   "theorems": [
    "Verif.Props.C73_no_panic_partial",
    "Verif.Props.C73_text_partial",
    "Verif.Props.C73_ends_partial",
    "Verif.Props.C73_hooks_partial",
    "Verif.Props.C73_hooks_ends_partial",
    "Verif.Props.C73_layer_made",
    "Verif.Props.C73_standard_layers",
    "Verif.Props.C73_full_source_panics",
    "Verif.Props.C73_end_panics"
   ],
   "note": "False as stated: root = $n | ($n, $n) with WithFullSource panics on 'a1' (a nil token is left by lookahead), and grammars with $ panic when the end is expected (negations proved). Proved: no panic for any text and any compiled grammar without $ (any conflicts, node hooks, options, valid or invalid texts) unless WithFullSource is used with a grammar that needs lookahead; together with C30 such a parse ends with a result or an error. The same holds with any number of token hook layers if hooks do not panic by themselves and add no sources (standard layers convert and indent are such). Missing: token hooks that add sources."
  },
  {
   "property": "C74",
   "status": "partial",
   "theorems": [
    "Verif.Props.C74_described_tree_is_told_partial",
    "Verif.Props.C74_text_partial",
    "Verif.Props.C74_described_by_machines",
    "Verif.Props.C74_many_tokens_checked",
    "Verif.Props.C74_hidden_token_rejects",
    "Verif.Props.C74_side_tokens_reject"
   ],
   "note": "False as stated: with root = n, $d; n = $n | ($n, $n) the token after n is not requested during lookahead and 'a1' is rejected; with side token hooks root = n, 'y'; n = 'x' | ('x', 'x') rejects 'x y' (negations proved). Proved: for grammars meeting a condition on pairs of ways (Settles; a sound executable check is given) every described text is accepted by lexer and parser and exactly the described tree is told. Missing: empty nested nodes (C61), caseless types not closed under upper case (C40), grammars with lookahead beyond the end of the node."
  },
  {
   "property": "C75",
   "status": "proved",
   "theorems": [
    "Verif.Props.Style.C75_check",
    "Verif.Props.Style.C75_rules",
    "Verif.Props.Style.C75_clean",
    "Verif.Props.Style.C75_report_unique",
    "Verif.Props.Style.C75_comments_dropped",
    "Verif.Props.Style.C75_first_line",
    "Verif.Props.Style.C75_tab_width",
    "Verif.Props.Style.C75_rest_ignored"
   ],
   "note": "Rules are stated for the syntax tree. The tree is not the text (witnesses): comments are dropped by the token hook, so a space before a comment is a trailing space and a definition after a comment is not at the beginning of its line; spaces of a blank first line are reported for line 2; a tab at the beginning of a line counts as one place; everything after the first token that cannot be a definition is ignored. Not modelled: reading of files, formatting of messages."
  },
  {
   "property": "C76",
   "status": "partial",
   "theorems": [
    "Verif.Props.C76_validate_iff",
    "Verif.Props.C76_words",
    "Verif.Props.C76_expr",
    "Verif.Props.C76_parsed",
    "Verif.Props.C76_no_panic_partial",
    "Verif.Props.C76_rest_unnoticed",
    "Verif.Props.C76_empty",
    "Verif.Props.C76_panics"
   ],
   "note": "Acceptance is characterised exactly for all trees and commands. The root is described only by a prefix of its children: C76_rest_unnoticed and C76_empty show that trailing children and the name of the root are never checked. Panics happen for `()`, `((` and a single quote (C76_panics); C76_no_panic_partial excludes exactly these forms. Error texts are modelled as values, not as formatted strings."
  },
  {
   "property": "C77",
   "status": "partial",
   "theorems": [
    "Verif.Props.C77_accepted_text_is_described_partial",
    "Verif.Props.C77_text_accepted_iff_described_partial"
   ],
   "note": "Lookahead of any depth, any number of groups of token types and any node hooks for soundness. Missing: token hooks; grammars in which branches are overwritten during a lookahead (C31); definitions excluded by C28 and C29; for the equivalence also several groups, definitions that are not Moves, and nodes that may be empty (false, C61_empty_node_rejected)."
  },
  {
   "property": "C78",
   "status": "partial",
   "theorems": [
    "Verif.Props.Conf.C78_read",
    "Verif.Props.Conf.C78_edit_partial",
    "Verif.Props.Conf.C78_rest_is_lost",
    "Verif.Props.Conf.C78_lines_are_joined",
    "Verif.Props.Conf.C78_header_comment"
   ],
   "note": "Reading of any file is proved to end, without a panic. Missing: edits of documents with repeated sections or entries (false, C72); that the file is read to its end (false, C78_rest_is_lost: no error for the rest of the file, which is then lost); that the saved text is read back as the edited document (false, C78_lines_are_joined; see C80)."
  },
  {
   "property": "C79",
   "status": "partial",
   "theorems": [
    "Verif.Props.Conf.C79_lines_are_read",
    "Verif.Props.Conf.C79_edit_partial",
    "Verif.Props.Conf.C79_next_line_is_value"
   ],
   "note": "C79_lines_are_read is complete for its class of files. Partial are edits: lines with repeated sections or entries (false, C72), comments after headers (false, C78_header_comment) and after empty values (false, C79_next_line_is_value)."
  },
  {
   "property": "C80",
   "status": "partial",
   "theorems": [
    "Verif.Props.Conf.C80_saved_is_read_partial",
    "Verif.Props.Conf.C80_value_with_sign",
    "Verif.Props.Conf.C80_value_is_a_line",
    "Verif.Props.Conf.C80_cleared_before_comment"
   ],
   "note": "Bytes to bytes and back. Missing: values with the sign of comments or a line feed (false, C80_value_with_sign, C80_value_is_a_line: they are saved without an error and read as something else), comments on lines with entries (false when a value is cleared, C80_cleared_before_comment), files that do not consist of lines (false, C78), repeated sections and entries (false, C72)."
  },
  {
   "property": "C81",
   "status": "partial",
   "theorems": [
    "Verif.Props.C81_compute_partial",
    "Verif.Props.C81_session_partial",
    "Verif.Props.C81_help_in_names",
    "Verif.Props.C81_help_drops_input"
   ],
   "note": "Bytes to results. Missing: that every text written as a command is accepted (an error must have a reason in the text - errors of hooks too, they are about a name or a number that occurs there - but the statement does not say that commands have none); commands with the name `func` (false, C71_func_is_lost); rounding arithmetics (false, C71_rounding). Names with `help` inside cannot be used (C81_help_in_names) and drop the input before them (C81_help_drops_input)."
  },
  {
   "property": "C82",
   "status": "partial",
   "theorems": [
    "Verif.Props.C82_rest_partial",
    "Verif.Props.C82_token_is_lost"
   ],
   "note": "From bytes of one source to the place in the queue, series of parses. Missing: grammars with conflicts (false, C82_token_is_lost; true for the calculator, C81), several sources in the queue, token hooks, parses that consume the end of input."
  },
  {
   "property": "C83",
   "status": "partial",
   "theorems": [
    "Verif.Props.C83_errors_partial",
    "Verif.Props.C83_sources_partial",
    "Verif.Props.C83_no_lexer_error_partial"
   ],
   "note": "From bytes of one source, or of several sources if the parser does not check the whole source. Missing: several sources with this check, token hooks, texts of messages, that the state without rules is reached by the tokens before the wrong one."
  },
  {
   "property": "C84",
   "status": "partial",
   "theorems": [
    "Verif.Props.C84_hooks",
    "Verif.Props.C84_session_partial"
   ],
   "note": "C84_hooks is complete for the hooks. Missing in C84_session_partial: a bound for fuel; calls deeper than the given depth are not computed (the program runs out of stack)."
  },
  {
   "property": "C85",
   "status": "proved",
   "theorems": [
    "Verif.Props.C85_fetch"
   ],
   "note": ""
  }
 ]
}