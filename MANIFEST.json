{"claims":[
{"property": "C01", "status": "proved", "theorems": ["Zen.C01_object_is_finite_map", "Zen.C01_iteration_and_length", "Zen.C01_continues"], "note": "std HashMap behaviour trusted"},
{"property": "C02", "status": "proved", "theorems": ["Zen.C02_equality_is_extensional", "Zen.C02_order_irrelevant", "Zen.C02_iteration_order_irrelevant"], "note": ""},
{"property": "C03", "status": "partial", "theorems": ["Zen.C03_merge_spec", "Zen.C03_spec_determines_result", "Zen.C03_merge_clone_agrees", "Zen.C03_not_idempotent", "Zen.C03_idempotent_from_second_partial", "Zen.C03_idempotent_partial", "Zen.C03_idempotent_iff"], "note": "merge behaves per key as stated; idempotence fails for a patch that carries, where the document has no object, an object with a null property (negative theorem C03_not_idempotent), and holds exactly otherwise (C03_idempotent_iff); it always holds from the second application on"},
{"property": "C04", "status": "proved", "theorems": ["Zen.C04_insert_succeeds_iff", "Zen.C04_insert_read", "Zen.C04_detached_read", "Zen.C04_remove", "Zen.C04_key_string"], "note": ""},
{"property": "C05", "status": "partial", "theorems": ["Zen.C05_detached_write_frame", "Zen.C05_cloning_merge_frame", "Zen.C05_detached_write_unseen", "Zen.C05_cloning_merge_unseen", "Zen.C05_detached_write_result", "Zen.C05_cloning_merge_result_partial", "Zen.C05_write_in_place", "Zen.C05_same_write", "Zen.C05_merge_in_place", "Zen.C05_same_merge", "Zen.C05_deep_clone", "Zen.C05_depth_clone", "Zen.C05_in_place_differs", "Zen.C05_sharing_visible", "Zen.C05_in_place_panics", "Zen.C05_cycle"], "note": "The frame half (an operation that detaches or clones never changes a value seen through another handle) is proved for every heap. Equality of results is proved for documents that hold no cell twice; with aliasing inside the document it is false, and the counterexamples are proved (C05_in_place_differs, C05_sharing_visible, C05_in_place_panics, C05_cycle)."},
{"property": "C06", "status": "partial", "theorems": ["Zen.C06_strict_iff", "Zen.C06_error", "Zen.C06_fails_iff", "Zen.C06_lossy", "Zen.C06_lossy_nulls", "Zen.C06_round_trip_iff", "Zen.C06_round_trip", "Zen.C06_visit", "Zen.C06_token", "Zen.C06_rounds"], "note": "Success, failure, lossy agreement and round trip proved for all documents, with the number libraries as parameters. The round trip holds exactly when every number is read and printed without rounding (C06_round_trip_iff); numbers with too many places are rounded silently (C06_rounds), so the statement as given fails for them."},
{"property": "C07", "status": "partial", "theorems": ["Zen.C07_total", "Zen.C07_round_trip", "Zen.C07_in_range", "Zen.C07_escape", "Zen.C07_ref", "Zen.C07_cyclic", "Zen.C07_date_becomes_string", "Zen.C07_forward_string"], "note": "Round trip proved for every heap, sharing pattern, string and iteration order, for values without dates and intervals; those are written as plain strings and come back as strings (C07_date_becomes_string), so the statement as given fails for them. Ids are 64-bit. A cyclic wire value is accepted (C07_cyclic)."},
{"property": "C08", "status": "partial", "theorems": ["Zen.C08_refl", "Zen.C08_any", "Zen.C08_null_only", "Zen.C08_missing_field", "Zen.C08_object_iff", "Zen.C08_nullable_field", "Zen.C08_null_iff", "Zen.C08_null_not_nullable", "Zen.C08_merge_comm", "Zen.C08_merge_wf", "Zen.C08_same_accept", "Zen.C08_upper_partial", "Zen.C08_upper_scalar", "Zen.C08_null_operand", "Zen.C08_field_operand", "Zen.C08_array_operand", "Zen.C08_not_assoc", "Zen.C08_not_trans", "Zen.C08_widen", "Zen.C08_same_values", "Zen.C08_merge_values", "Zen.C08_infer", "Zen.C08_infer_empty", "Zen.C08_infer_nested", "Zen.C08_enum_names"], "note": "reflexivity, any, acceptance of null, commutativity of merge for all types, operands satisfy the merge under stated conditions; the last law is false in general (null operand, one-sided required fields), shown by negative theorems"},
{"property": "C09", "status": "proved", "theorems": ["Zen.C09_run_is_meaning", "Zen.C09_ends_clean", "Zen.C09_stack_discipline", "Zen.C09_never_out_of_stack", "Zen.C09_well_formed", "Zen.C09_compile_appends"], "note": "arithmetic and built-in functions are parameters of the model; the specification is the recursive evaluator in Expr/Eval.lean"},
{"property": "C10", "status": "proved", "theorems": ["Zen.C10_vm_reuse", "Zen.C10_compiler_reuse", "Zen.C10_no_memory", "Zen.C10_run_leaves_input"], "note": "what failed calls leave in the buffers is arbitrary in the model; lexer and parser are a stateless parameter"},
{"property": "C11", "status": "proved", "theorems": ["Zen.C11_and_false", "Zen.C11_or_true", "Zen.C11_coalesce_present", "Zen.C11_second_operand", "Zen.C11_conditional", "Zen.C11_unselected_irrelevant", "Zen.C11_nested"], "note": ""},
{"property": "C12", "status": "proved", "theorems": ["Zen.C12_predicates", "Zen.C12_images", "Zen.C12_stops_early", "Zen.C12_pointer_innermost", "Zen.C12_run"], "note": ""},
{"property": "C13", "status": "proved", "theorems": ["Zen.C13_identifier", "Zen.C13_machine", "Zen.C13_property", "Zen.C13_scalar_input"], "note": ""},
{"property": "C14", "status": "partial", "theorems": ["Zen.C14_compile_cache_invisible", "Zen.C14_history_partial", "Zen.C14_environment_discards", "Zen.C14_only_references_matter", "Zen.C14_stale_reference", "Zen.C14_stale_dollar"], "note": "compile cache proved invisible; cached references proved invisible when they do not depend on locals; the full property is false: references that depend on a local (or on $) are served stale (negative theorems)"},
{"property": "C15", "status": "proved", "theorems": ["Zen.C15_membership", "Zen.C15_inside", "Zen.C15_outside_is_complement", "Zen.C15_dates"], "note": ""},
{"property": "C16", "status": "proved", "theorems": ["Zen.C16_enumerates", "Zen.C16_run", "Zen.C16_fractional_bounds_leak"], "note": "extreme 64-bit bounds excluded (overflow in the code)"},
{"property": "C17", "status": "proved", "theorems": ["Zen.Parse.C17_parsed", "Zen.Parse.C17_verdict", "Zen.Parse.C17_disjunction", "Zen.Parse.C17_conjunction", "Zen.Parse.C17_failure", "Zen.Parse.C17_no_precedence", "Zen.Parse.C17_parentheses", "Zen.Parse.C17_closure_body", "Zen.Parse.C17_negated_name", "Zen.Parse.C17_coalesce"], "note": "Lexer, parser of cells, compiler and virtual machine together: the verdict of a cell written in tokens is the verdict of its tests on the reference value, test after test from the left with short circuit. Expressions of cells are those of the written grammar (Verif/Parse/Syntax.lean); conversion of number texts and UTF-8 are parameters."},
{"property": "C18", "status": "proved", "theorems": ["Zen.Parse.C18_written", "Zen.Parse.C18_unambiguous", "Zen.Parse.C18_print", "Zen.Parse.C18_minimal", "Zen.Parse.C18_groups", "Zen.Parse.C18_two", "Zen.Parse.C18_prefix", "Zen.Parse.C18_prefix_inside", "Zen.Parse.C18_value"], "note": "Whole expression parser modelled. Round trip and minimality for all trees over the operator table; leaves are any primary expressions written in the grammar of Parse/Syntax (assignments not covered there)."},
{"property": "C19", "status": "partial", "theorems": ["Zen.Lex.C19_grammar", "Zen.Lex.C19_faithful", "Zen.Lex.C19_templates", "Zen.Lex.C19_maximal", "Zen.Lex.C19_error", "Zen.Lex.C19_brace_span", "Zen.Lex.C19_overlap", "Zen.Lex.C19_unclosed", "Zen.Lex.C19_not_in", "Zen.Lex.C19_nested_brace"], "note": "Tokenization equals a separate grammar of longest lexemes for every source (C19_grammar, both directions); without templates spans are in order, disjoint, carry the source text and leave only white space (C19_faithful); with closed templates the same for the places of tokens (C19_templates); maximality (C19_maximal); the only failures (C19_error). The full statement is false inside templates: C19_brace_span, C19_overlap, C19_unclosed, C19_nested_brace, C19_not_in"},
{"property": "C20", "status": "partial", "theorems": ["Zen.C20_min", "Zen.C20_max", "Zen.C20_min_dates", "Zen.C20_max_dates", "Zen.C20_numbers_only", "Zen.C20_min_max_numbers_or_dates", "Zen.C20_empty", "Zen.C20_median_empty_debug", "Zen.C20_mode", "Zen.C20_min_max_order", "Zen.C20_median_order", "Zen.C20_mode_order", "Zen.C20_sum_exact", "Zen.C20_avg_exact", "Zen.C20_sum_avg_order", "Zen.C20_sum_depends_on_order", "Zen.C20_median_odd", "Zen.C20_median_even", "Zen.C20_median_no_panic", "Zen.C20_median_between_partial", "Zen.C20_median_outside"], "note": "minimum, maximum and mode in full; order independence of sum and avg only while the sums stay small (false in general: C20_sum_depends_on_order), median between min and max only without rounding (false in general: C20_median_outside); median of the empty array crashes in debug builds (C20_median_empty_debug), sum of it is 0"},
{"property": "C21", "status": "partial", "theorems": ["Zen.C21_merge_objects", "Zen.C21_merge_arrays", "Zen.C21_merge_succeeds_iff", "Zen.C21_merge_associative", "Zen.C21_deep_determines", "Zen.C21_merge_deep", "Zen.C21_merge_deep_empty", "Zen.C21_merge_deep_succeeds_iff", "Zen.C21_merge_deep_left", "Zen.C21_merge_deep_associative_partial", "Zen.C21_merge_deep_not_associative", "Zen.C21_merge_deep_associative_iff", "Zen.C21_flatten", "Zen.C21_flatten_append", "Zen.C21_keys_values", "Zen.C21_keys_array", "Zen.C21_keys_values_fail"], "note": "mergeDeep is associative when no key holds values of different kinds, and exactly when nothing is cut (C21_merge_deep_associative_iff); false in general (C21_merge_deep_not_associative); the rest in full"},
{"property": "C22", "status": "partial", "theorems": ["Zen.Dur.C22_groups_unique", "Zen.Dur.C22_parse_iff", "Zen.Dur.C22_seconds", "Zen.Dur.C22_months_iff", "Zen.Dur.C22_years_iff", "Zen.Dur.C22_sums_partial", "Zen.Dur.C22_order", "Zen.Dur.C22_months_replaced", "Zen.Dur.C22_errors", "Zen.Dur.C22_no_panic", "Zen.Dur.C22_panic", "Zen.Dur.C22_empty_iff", "Zen.Dur.C22_from_unit", "Zen.Dur.C22_negate", "Zen.Dur.C22_negate_least"], "note": "Full characterisation of Duration::parse (C22_parse_iff). The claim as stated is false for months and years: a later month/quarter group replaces an earlier one and a later year group replaces an earlier one; C22_months_iff and C22_years_iff say exactly when the sums hold; C22_sums_partial proves them for at most one group of each of these kinds."},
{"property": "C23", "status": "partial", "theorems": ["Zen.C23_start_first", "Zen.C23_end_last", "Zen.C23_start_idempotent", "Zen.C23_end_idempotent", "Zen.C23_bracket", "Zen.C23_start_same_iff", "Zen.C23_start_succeeds_iff", "Zen.C23_end_succeeds_iff", "Zen.C23_quarter_fails", "Zen.C23_is_same", "Zen.C23_is_before", "Zen.C23_is_after", "Zen.C23_before_same_after", "Zen.C23_not_same_quarter_as_itself", "Zen.C23_no_unit", "Zen.C23_add_seconds_iff", "Zen.C23_add_months_years", "Zen.C23_add_years_leap", "Zen.C23_set_iff", "Zen.C23_set_noop", "Zen.C23_diff_antisymm_fixed_units", "Zen.C23_month_diff_antisymm", "Zen.C23_diff_antisymm", "Zen.C23_diff_months", "Zen.C23_diff_add_months", "Zen.C23_naive_start", "Zen.C23_naive_end", "Zen.C23_naive_end_of_year", "Zen.C23_naive_end_of_year_wrong"], "note": "Start-of and end-of return the first and last local time of the unit, bracket the instant, are idempotent and land in the same unit, in every time zone (bracketing: zones that order instants like local times). Success for every date is refuted: the start of the quarter fails on 31 May, its end on 31 May, July and August; exact conditions proved. Differences are antisymmetric and consistent with adding months (month units: fixed offset, exact rationals for f64). The deprecated end of year is wrong in months shorter than 31 days. Calendar arithmetic of chrono and leap seconds are trusted or left out."},
{"property": "C24", "status": "proved", "theorems": ["Zen.C24_total_iff_covers", "Zen.C24_cover_algebra", "Zen.C24_decimal_edge"], "note": "numbers are all rationals; over representable decimals a yes stays right, a no can be wrong at the extreme (C24_decimal_edge)"},
{"property": "C25", "status": "proved", "theorems": ["Zen.C25_recognised_true_iff", "Zen.C25_recognised_decides", "Zen.C25_never_default", "Zen.C25_recognises"], "note": "also: exactly the conditions that are a comparison of a plain path with a literal (in any parentheses) are recognised, and what each is recognised as (C25_recognises)"},
{"property": "C26", "status": "proved", "theorems": ["Zen.C26_first_hit", "Zen.C26_trace_row", "Zen.C26_two_outputs"], "note": "for tables that use $ only inside unary tests; see C28_dollar_leak for the others"},
{"property": "C27", "status": "proved", "theorems": ["Zen.C27_collect", "Zen.C27_trace_rows", "Zen.C27_collected_members", "Zen.C27_first_hit_collect"], "note": "for tables that use $ only inside unary tests"},
{"property": "C28", "status": "partial", "theorems": ["Zen.C28_index_invisible_partial", "Zen.C28_meaning_partial", "Zen.C28_adding_rows_partial", "Zen.C28_dollar_leak", "Zen.C28_dollar_leak_rows"], "note": "the full property is false: a cell that mentions $ outside a unary test sees a different value when the index is used (negative theorems); proved for all tables without such cells"},
{"property": "C29", "status": "proved", "theorems": ["Zen.C29_once", "Zen.C29_after_predecessors", "Zen.C29_data_flow", "Zen.C29_nodes", "Zen.C29_complete", "Zen.C29_output_last"], "note": "for runs with fewer than 1000 switches (the walker's iteration cap); order, single execution, data flow, what $nodes shows and completeness for all graphs and handlers"},
{"property": "C30", "status": "proved", "theorems": ["Zen.C30_decision_input", "Zen.C30_first_hit", "Zen.C30_collect", "Zen.C30_decides_once", "Zen.C30_not_taken", "Zen.C30_not_taken_step", "Zen.C30_taken", "Zen.C30_removal_fuel"], "note": "decision of a switch from its statements (first/collect), edges not chosen removed, chosen ones kept"},
{"property": "C31", "status": "proved", "theorems": ["Zen.C31_cyclic", "Zen.C31_accepted", "Zen.C31_built", "Zen.C31_terminates", "Zen.C31_rejected", "Zen.C31_depth_limit", "Zen.C31_limit_only_cuts", "Zen.C31_self_reference"], "note": "validation exact, evaluation terminates for arbitrary handlers, depth limit cuts off nested decisions"},
{"property": "C32", "status": "partial", "theorems": ["Zen.C32_memory_added", "Zen.C32_memory_removed", "Zen.C32_memory_never_added", "Zen.C32_memory_observers", "Zen.C32_cached_first", "Zen.C32_cached_until_first", "Zen.C32_cached_concurrent", "Zen.C32_cached_no_failures", "Zen.C32_overlap_replaces"], "note": "in-memory loader proved for all histories; caching loader proved for all histories of non-overlapping calls; for overlapping calls returned content is proved to stem from the inner loader for the same key, but the first load can be replaced (negative theorem C32_overlap_replaces)"},
{"property": "C33", "status": "partial", "theorems": ["Zen.C33_resolves", "Zen.C33_fails_iff", "Zen.C33_no_reference", "Zen.C33_no_reference_left_partial", "Zen.C33_reference_left_iff", "Zen.C33_idempotent_partial", "Zen.C33_idempotent_iff", "Zen.C33_not_idempotent", "Zen.C33_test_exact", "Zen.C33_imports", "Zen.C33_imports_fail", "Zen.C33_imports_terminate"], "note": "replacement, failure condition and termination proved; idempotence and absence of remaining references are false for references nested beside another reference (C33_not_idempotent) and hold exactly when none stays (C33_reference_left_iff, C33_idempotent_iff)"},
{"property": "C34", "status": "proved", "theorems": ["Zen.C34_plain", "Zen.C34_input_field", "Zen.C34_input_field_error", "Zen.C34_field_expression", "Zen.C34_loop", "Zen.C34_loop_cases", "Zen.C34_loop_not_array", "Zen.C34_loop_calls", "Zen.C34_output_path", "Zen.C34_output_path_read", "Zen.C34_pass_through", "Zen.C34_combined", "Zen.C34_handler_error"], "note": "for arbitrary stateful handlers"},
{"property": "C35", "status": "proved", "theorems": ["Zen.C35_no_nodes", "Zen.C35_otherwise_unchanged", "Zen.C35_determined", "Zen.C35_clean_already", "Zen.C35_idempotent", "Zen.C35_evaluation", "Zen.C35_shared_exact", "Zen.C35_shared_no_nodes", "Zen.C35_shared_result", "Zen.C35_shared_others", "Zen.C35_caller_context_changed"], "note": "on values and on the heap of shared cells; the cleaner changes the caller's own context (negative theorem)"},
{"property": "C36", "status": "proved", "theorems": ["Zen.Policy.C36_terminates", "Zen.Policy.C36_once", "Zen.Policy.C36_order", "Zen.Policy.C36_exactly_needed", "Zen.Policy.C36_irrelevant", "Zen.Policy.C36_cycle_order"], "note": "blocks are opaque (test phase, reads of the choice, write phase); termination, at most once, order, exactly the needed blocks, irrelevance of other blocks"},
{"property": "C37", "status": "proved", "theorems": ["Zen.Policy.C37_extends", "Zen.Policy.C37_demand", "Zen.Policy.C37_longest_prefix", "Zen.Policy.C37_table", "Zen.Policy.C37_read_served", "Zen.Policy.C37_read_precise", "Zen.Policy.C37_model_paths", "Zen.Policy.C37_sibling"], "note": "reads of paths nobody writes run the writers of siblings (negative theorem C37_sibling)"},
{"property": "C38", "status": "proved", "theorems": ["Zen.Tmpl.C38_no_panic", "Zen.Tmpl.C38_lossless", "Zen.Tmpl.C38_lex_iff", "Zen.Tmpl.C38_accepts_iff", "Zen.Tmpl.C38_nodes", "Zen.Tmpl.C38_close_iff", "Zen.Tmpl.C38_open_iff", "Zen.Tmpl.C38_trim", "Zen.Tmpl.C38_trim_split", "Zen.Tmpl.C38_outer_space", "Zen.Tmpl.C38_text", "Zen.Tmpl.C38_text_exact", "Zen.Tmpl.C38_blank", "Zen.Tmpl.C38_reject_close", "Zen.Tmpl.C38_reject_open", "Zen.Tmpl.C38_no_open", "Zen.Tmpl.C38_segments", "Zen.Tmpl.C38_segments_lossless", "Zen.Tmpl.C38_render_iff", "Zen.Tmpl.C38_error_iff", "Zen.Tmpl.C38_mixed", "Zen.Tmpl.C38_single", "Zen.Tmpl.C38_single_error", "Zen.Tmpl.C38_concat", "Zen.Tmpl.C38_unclosed", "Zen.Tmpl.C38_empty", "Zen.Tmpl.C38_blank_expression", "Zen.Tmpl.C38_object_brace", "Zen.Tmpl.C38_literal", "Zen.Tmpl.C38_ambiguous", "Zen.Tmpl.C38_isolate"], "note": "Lexer on byte offsets, parser, interpreter and Display; complete characterisation of results and errors for every template and every evaluator; findings: trimming, blank text is null, text with '}}' is rejected, unclosed '{{' accepted, '{{}}' dropped."},
{"property": "C39", "status": "proved", "theorems": ["Zen.Policy.C39_accepts_iff", "Zen.Policy.C39_conforms", "Zen.Policy.C39_bound", "Zen.Policy.C39_too_deep", "Zen.Policy.C39_missing_accepted", "Zen.Policy.C39_date_unchecked"], "note": "Whole validator modelled with error texts and paths; exact characterisation of accepted inputs. The maps and sets of the schema are given, not derived from documents."},
{"property": "C40", "status": "proved", "theorems": ["Zen.Policy.C40_pool", "Zen.Policy.C40_fields", "Zen.Policy.C40_rest", "Zen.Policy.C40_determined", "Zen.Policy.C40_accepted", "Zen.Policy.C40_input_changed", "Zen.Policy.C40_nested_untouched"], "note": "Value-level result for every field and every other path (fields with independent paths); heap-level model shows that the caller's input is changed (finding)."},
{"property": "C41", "status": "proved", "theorems": ["Zen.Policy.C41_closure", "Zen.Policy.C41_failure", "Zen.Policy.C41_terminates", "Zen.Policy.C41_success_iff"], "note": "Loader as a function of the key; termination for finitely many reachable keys."},
{"property": "C42", "status": "proved", "theorems": ["Zen.Policy.C42_cover", "Zen.Policy.C42_cover_iff", "Zen.Policy.C42_match_iff", "Zen.Policy.C42_match", "Zen.Policy.C42_default", "Zen.Policy.C42_typed", "Zen.Policy.C42_well_typed", "Zen.Policy.C42_unknown", "Zen.Policy.C42_column", "Zen.Policy.C42_column_iff", "Zen.Policy.C42_column_value", "Zen.Policy.C42_nullable_parent", "Zen.Policy.C42_array_parent", "Zen.Policy.C42_nested_array_parent", "Zen.Policy.C42_dotted_key"], "note": "report of exhaustiveness characterised (iff), some arm / row is selected for every value of the discriminant's type; also from the type of the whole scope for paths through required objects; negative theorems for nullable and array parents and dotted keys"},
{"property": "C43", "status": "partial", "theorems": ["Zen.Policy.C43_match_first", "Zen.Policy.C43_match_none", "Zen.Policy.C43_match_error", "Zen.Policy.C43_match_trace", "Zen.Policy.C43_table_select", "Zen.Policy.C43_table_extras", "Zen.Policy.C43_table_index", "Zen.Policy.C43_table_commit", "Zen.Policy.C43_table_partial", "Zen.Policy.C43_table_trace_partial", "Zen.Policy.C43_own_free", "Zen.Policy.C43_duplicate_ids", "Zen.Policy.C43_details_fail", "Zen.Policy.C43_index_fails", "Zen.Policy.C43_sees_own_write"], "note": "Match block: first true arm, null if none, errors, trace flags (arm ids distinct; refuted otherwise). Table: selection as specified for all flags, with or without index; values written as specified (distinct ids, non-overlapping paths, cells not reading the block's own writes); two runs with different flags that both select write the same. The full claim is false: a run with details and an indexed run can differ in whether they fail (two counterexamples)."},
{"property": "C44", "status": "partial", "theorems": ["Zen.Ws.C44_policies", "Zen.Ws.C44_policies_fresh", "Zen.Ws.C44_shallow_match", "Zen.Ws.C44_graphs_partial", "Zen.Ws.C44_steady", "Zen.Ws.C44_recursion_order_fails", "Zen.Ws.C44_recursion_stays", "Zen.Ws.C44_component_grows_unseen", "Zen.Ws.C44_import_appears_unseen", "Zen.Ws.C44_late_resolver_unseen", "Zen.Ws.C44_kept"], "note": "Proved for all histories: policy answers depend only on the documents (C44_policies, C44_policies_fresh). For graphs proved under Settled (acyclic, no late resolver, steady visibility of imports and components); the unrestricted claim is false and five counterexample histories are proved."},
{"property": "C45", "status": "proved", "theorems": ["Zen.Policy.C45_terminates", "Zen.Policy.C45_partition", "Zen.Policy.C45_connected", "Zen.Policy.C45_index"], "note": "Partition, connectivity, index and termination for every import relation."},
{"property": "C46", "status": "partial", "theorems": ["Zen.C46_functions", "Zen.C46_deprecated", "Zen.C46_methods", "Zen.C46_duration_argument", "Zen.C46_methods_release", "Zen.C46_begin", "Zen.C46_join", "Zen.C46_expressions", "Zen.C46_empty_template", "Zen.C46_rand_negative"], "note": "false as stated: rand of a negative number and an invalid date format crash every build, a few more calls crash builds with overflow checks; the theorems say exactly which calls crash. Missing: methods are not linked to expressions (dates of the virtual machine carry no zone in the model); library functions, memory and stack depth are outside"},
{"property": "C47", "status": "proved", "theorems": ["Zen.C47_arithmetic", "Zen.C47_comparison", "Zen.C47_date_comparison", "Zen.C47_invalid_date", "Zen.C47_equality", "Zen.C47_in_array", "Zen.C47_in_object", "Zen.C47_concat", "Zen.C47_unary", "Zen.C47_array", "Zen.C47_object", "Zen.C47_index", "Zen.C47_slice", "Zen.C47_template"], "note": "decimal arithmetic is a parameter"},
{"property": "C48", "status": "proved", "theorems": ["Zen.C48_result", "Zen.C48_only_leaves", "Zen.C48_output_enters", "Zen.C48_evaluation", "Zen.C48_second_source", "Zen.C48_caller_context_changed"], "note": "for runs with fewer than 1000 switches; merging writes into leaf outputs in place (negative theorem), which values do not show"},
{"property": "C49", "status": "proved", "theorems": ["Zen.C49_success", "Zen.C49_failure", "Zen.C49_plain_keys", "Zen.C49_input_changed"], "note": "expression nodes without transform attributes (C34 treats those); values written in place into shared objects (negative theorem C49_input_changed)"},
{"property": "C50", "status": "proved", "theorems": ["Zen.C50_no_schema", "Zen.C50_schema", "Zen.C50_output_valid", "Zen.C50_context_valid"], "note": "the validator is a parameter"},
{"property": "C51", "status": "proved", "theorems": ["Zen.C51_splits_unique", "Zen.C51_split", "Zen.C51_split_join", "Zen.C51_split_empty", "Zen.C51_parts", "Zen.C51_trim", "Zen.C51_trim_determined", "Zen.C51_trim_idempotent", "Zen.C51_contains_array", "Zen.C51_len", "Zen.C51_kinds", "Zen.C51_regex"], "note": "Proved for the model of the built-ins; see DESIGN.md"},
{"property": "C52", "status": "proved", "theorems": ["Zen.C52_round", "Zen.C52_trunc", "Zen.C52_default", "Zen.C52_places", "Zen.C52_fixed", "Zen.C52_order", "Zen.C52_floor_ceil_abs", "Zen.C52_numbers", "Zen.C52_representable"], "note": "Proved for the model of the built-ins; see DESIGN.md"},
{"property": "C53", "status": "proved", "theorems": ["Zen.C53_type", "Zen.C53_same_kind", "Zen.C53_bool", "Zen.C53_bool_string", "Zen.C53_bool_inverted", "Zen.C53_string", "Zen.C53_number", "Zen.C53_is_numeric", "Zen.C53_number_of_string"], "note": "Proved for the model of the built-ins; see DESIGN.md"},
{"property": "C54", "status": "partial", "theorems": ["Zen.C54_getters", "Zen.C54_parts_make_up", "Zen.C54_ranges", "Zen.C54_invalid", "Zen.C54_timestamp", "Zen.C54_deprecated", "Zen.C54_names", "Zen.C54_today", "Zen.C54_day_exact", "Zen.C54_tomorrow_is_today"], "note": "isYesterday/isTomorrow proved for zones of constant offset; false when clocks change (C54_tomorrow_is_today); exactly what they test in other zones: C54_day_exact"},
{"property": "C55", "status": "proved", "theorems": ["Zen.Reads.C55_reads_complete", "Zen.Reads.C55_plan_complete", "Zen.Reads.C55_unreported", "Zen.Reads.C55_alias_paths", "Zen.Reads.C55_source", "Zen.Reads.C55_branch_false", "Zen.Reads.C55_shortcut_false", "Zen.Reads.C55_slice_false", "Zen.Reads.C55_root_false", "Zen.Reads.C55_dollar_false", "Zen.Reads.C55_depth_false"], "note": "Model of the read analysis and its flattening for policies; the claim for all expressions in the stated class, also for the reads that are not marked unresolved and with a local $, and one counterexample for each condition"},
{"property": "C56", "status": "proved", "theorems": ["Zen.Ws.C56_names", "Zen.Ws.C56_nearest"], "note": "names and nearest definition, after any coherent history (as in C44: an address always holds the same document)"},
{"property": "C57", "status": "proved", "theorems": ["Zen.Policy.C57_goals", "Zen.Policy.C57_ends", "Zen.Policy.C57_fewer", "Zen.Policy.C57_order", "Zen.Policy.C57_input", "Zen.Policy.C57_root", "Zen.Policy.C57_hidden_read", "Zen.Policy.C57_field_order", "Zen.Policy.C57_model_above", "Zen.Policy.C57_cycle"], "note": "Policies without entities whose blocks are Sound: disjoint writes, complete reads, no cycles; what fails without is shown by the negative theorems C57_root, C57_hidden_read, C57_field_order, C57_model_above, C57_cycle."},
{"property": "C58", "status": "proved", "theorems": ["Zen.Policy.C58_expression", "Zen.Policy.C58_match", "Zen.Policy.C58_assertion", "Zen.Policy.C58_table"], "note": "Same class as C57; for tables also pairwise independent columns; a value is found in the result where the input does not block the path (Walkable)."},
{"property": "C59", "status": "proved", "theorems": ["Zen.Policy.C59_groups", "Zen.Policy.C59_error", "Zen.Policy.C59_empty", "Zen.Policy.C59_flat", "Zen.Policy.C59_no_precedence", "Zen.Policy.C59_operator_after_group", "Zen.Policy.C59_not_lazy"], "note": "C59_groups for any depths; C59_error, C59_empty, C59_flat; C59_no_precedence, C59_operator_after_group, C59_not_lazy are findings."},
{"property": "C60", "status": "proved", "theorems": ["Zen.C60_value_has_type", "Zen.C60_methods", "Zen.C60_and_of_any", "Zen.C60_or_of_any", "Zen.C60_plus_of_any", "Zen.C60_division", "Zen.C60_remainder", "Zen.C60_merged_objects", "Zen.C60_coalesced_objects", "Zen.C60_merged_arrays", "Zen.C60_merged_elements", "Zen.C60_filter_interval", "Zen.C60_flatMap_interval", "Zen.C60_flatMap_null", "Zen.C60_root_after_assignment", "Zen.C60_dotted_assignment", "Zen.C60_index_not_strict", "Zen.C60_unknown_data", "Zen.C60_duplicate_keys", "Zen.C60_computed_key", "Zen.C60_computed_key_unchecked", "Zen.C60_values", "Zen.C60_mergeDeep_empty", "Zen.C60_merge_empty", "Zen.C60_flatten_interval", "Zen.C60_keys_of_any", "Zen.C60_min_of_any", "Zen.C60_optional_argument", "Zen.C60_getter_invalid"], "note": "for the expressions named by SureTop (Types/Sure.lean); every form left out has a counterexample. Methods are a parameter with typed results, shown for the modelled ones (C60_methods)"},
{"property": "C61", "status": "proved", "theorems": ["Zen.C61_equality", "Zen.C61_constant", "Zen.C61_membership", "Zen.C61_coalesce", "Zen.C61_always", "Zen.C61_date_first", "Zen.C61_date_second", "Zen.C61_null_in", "Zen.C61_two_nulls", "Zen.C61_null_constant"], "note": "exceptions are explicit hypotheses (DateFirst, OneNull, mayBeNull), each with a counterexample"},
{"property": "C62", "status": "proved", "theorems": ["Zen.C62_no_type_error", "Zen.C62_messages", "Zen.C62_unknown", "Zen.C62_division", "Zen.C62_dates", "Zen.C62_object_in", "Zen.C62_string_interval", "Zen.C62_mixed_interval", "Zen.C62_date_interval", "Zen.C62_computed_key", "Zen.C62_pointer", "Zen.C62_interval_ends", "Zen.C62_unknown_method", "Zen.C62_merge_accepts"], "note": "for expressions in the class FirmTop; excluded forms have counterexamples"},
{"property": "C63", "status": "proved", "theorems": ["Zen.Policy.C63_matched", "Zen.Policy.C63_row", "Zen.Policy.C63_duplicate", "Zen.Policy.C63_no_conditions", "Zen.Policy.C63_merge", "Zen.Policy.C63_unreachable", "Zen.Policy.C63_never_changes", "Zen.Policy.C63_overlap"], "note": "the claim of the messages as made is refuted by C63_unreachable, C63_never_changes, C63_overlap; C63_row, C63_duplicate, C63_no_conditions, C63_merge say when following them is safe"},
{"property": "C64", "status": "proved", "theorems": ["Zen.Parse.C64_dropped", "Zen.Parse.C64_same", "Zen.Parse.C64_bare", "Zen.Parse.C64_value", "Zen.Parse.C64_all", "Zen.Parse.C64_not", "Zen.Parse.C64_assigned"], "note": "the claim of the hint as made is refuted by C64_not and C64_assigned; C64_dropped, C64_value, C64_all say when following it is safe"},
{"property": "C65", "status": "proved", "theorems": ["Zen.Policy.C65_hint", "Zen.Policy.C65_scrutinee", "Zen.Policy.C65_either", "Zen.Policy.C65_value", "Zen.Policy.C65_same", "Zen.Policy.C65_reads", "Zen.Policy.C65_typed", "Zen.Policy.C65_not_boolean", "Zen.Policy.C65_assigned", "Zen.Policy.C65_two_places"], "note": "hint, path named, same value, same failure for boolean conditions, same reads; differences for non-boolean conditions and assignments as negative theorems"},
{"property": "C66", "status": "proved", "theorems": ["Zen.Parse.C66_exact", "Zen.Parse.C66_language", "Zen.Parse.C66_rejects", "Zen.Parse.C66_source", "Zen.Parse.C66_cell_exact", "Zen.Parse.C66_cell_language", "Zen.Parse.C66_outside_numbers", "Zen.Parse.C66_outside_names"], "note": "parser.rs, standard.rs, unary.rs on tokens, with the lexer of C19 for sources; the grammar is Parse/Syntax and Parse/Cell. Assignments and inverted intervals are outside of the grammar (see DESIGN)"},
{"property": "C67", "status": "proved", "theorems": ["Zen.Policy.Iter.C67_through_the_copy", "Zen.Policy.Iter.C67_properties_clear", "Zen.Policy.Iter.C67_write_back", "Zen.Policy.Iter.C67_each_instance", "Zen.Policy.Iter.C67_each_instance_deep", "Zen.Policy.Iter.C67_choices", "Zen.Policy.Iter.C67_block", "Zen.Policy.Iter.C67_entity_in_itself", "Zen.Policy.Iter.C67_not_an_object", "Zen.Policy.Iter.C67_owner_not_kept"], "note": "Heap-level model of the iterated blocks. Through_the_copy: any sharing. Each_instance/block: property writes with shared values; deep: writes below properties, new values, unshared instances. Findings as theorems: entity_in_itself, not_an_object, owner_not_kept."},
{"property": "C68", "status": "proved", "theorems": ["Zen.Policy.C68_reachable", "Zen.Policy.C68_covers", "Zen.Policy.C68_graph", "Zen.Policy.C68_depends", "Zen.Policy.C68_inputs", "Zen.Policy.C68_request", "Zen.Policy.C68_optional", "Zen.Policy.C68_satisfied", "Zen.Policy.C68_unknown_goal", "Zen.Policy.C68_enough", "Zen.Policy.C68_there", "Zen.Policy.C68_sinks", "Zen.Policy.C68_no_goals", "Zen.Policy.C68_field_of_computed", "Zen.Policy.C68_root", "Zen.Policy.C68_dotted_key", "Zen.Policy.C68_siblings", "Zen.Policy.C68_other_arm", "Zen.Policy.C68_false_cycle", "Zen.Policy.C68_part_left_out", "Zen.Policy.C68_part_given"], "note": "graph search, listed inputs and requests; two inputs that are the same where the graph says give the same"},
{"property": "C69", "status": "proved", "theorems": ["Zen.Rename.C69_lexical", "Zen.Rename.C69_meaning", "Zen.Rename.C69_text", "Zen.Rename.C69_overlap", "Zen.Rename.C69_source", "Zen.Rename.C69_block", "Zen.Rename.C69_string", "Zen.Rename.C69_protected", "Zen.Rename.C69_key_global", "Zen.Rename.C69_key_entity", "Zen.Rename.C69_unresolved", "Zen.Rename.C69_captured", "Zen.Rename.C69_assigned", "Zen.Rename.C69_root", "Zen.Rename.C69_type", "Zen.Rename.C69_property", "Zen.Rename.C69_key_below", "Zen.Rename.C69_replace_one"], "note": "Proved under the conditions clear and fresh (Edit/Rename), with the cases outside of them shown to fail; spans of identifiers are taken as their text."},
{"property": "C70", "status": "proved", "theorems": ["Zen.Policy.C70_named", "Zen.Policy.C70_divided", "Zen.Policy.C70_union", "Zen.Policy.C70_flat", "Zen.Policy.C70_complete", "Zen.Policy.C70_union_enough", "Zen.Policy.C70_flat_enough", "Zen.Policy.C70_needed_elsewhere", "Zen.Policy.C70_default_arm", "Zen.Policy.C70_field_of_computed", "Zen.Policy.C70_circular_guard", "Zen.Policy.C70_or_for_and"], "note": "conditional schema: when it is divided, what each part lists, nothing lost, enough to give; findings as negative theorems"},
{"property": "C71", "status": "proved", "theorems": ["Zen.Policy.Inst.C71_forms", "Zen.Policy.Inst.C71_taken", "Zen.Policy.Inst.C71_arms", "Zen.Policy.Inst.C71_resolved", "Zen.Policy.Inst.C71_one", "Zen.Policy.Inst.C71_instances", "Zen.Policy.Inst.C71_policy", "Zen.Policy.Inst.C71_referred", "Zen.Policy.Inst.C71_own_instance", "Zen.Policy.Inst.C71_dotted_name", "Zen.Policy.Inst.C71_assigned"], "note": "sources of expressions and match blocks exactly, resolution exactly, reported paths hold instances in a scope and in a policy result; findings as negative theorems"},
{"property": "C72", "status": "proved", "theorems": ["Zen.Policy.C72_tree", "Zen.Policy.C72_names", "Zen.Policy.C72_within", "Zen.Policy.C72_inputs", "Zen.Policy.C72_enough", "Zen.Policy.C72_field_of_computed", "Zen.Policy.C72_one_writer", "Zen.Policy.C72_other_column", "Zen.Policy.C72_recorded", "Zen.Policy.C72_marked", "Zen.Policy.C72_mark"], "note": "Exact for policies without entities; the correspondence with the inputs of the graph is proved for tidy policies and its failures outside are theorems of their own."},
{"property": "C73", "status": "proved", "theorems": ["Zen.C73_determined", "Zen.C73_functions", "Zen.C73_methods", "Zen.C73_names", "Zen.C73_registry", "Zen.C73_units", "Zen.C73_edges", "Zen.C73_tz", "Zen.C73_compare", "Zen.C73_compare_plain", "Zen.C73_diff", "Zen.C73_add_sub", "Zen.C73_months", "Zen.C73_set", "Zen.C73_invalid"], "note": "Arities of all functions and methods are exactly what the implementations use; methods against a calendar specification."},
{"property": "C74", "status": "proved", "theorems": ["Zen.C74_parsed", "Zen.C74_exact", "Zen.C74_any_token", "Zen.C74_seen", "Zen.C74_error", "Zen.C74_not_object", "Zen.C74_value", "Zen.C74_lost", "Zen.C74_functions"], "note": "Lists at the top of a source; usual expressions as in C66. Values for names without dots; the result object under the condition that no path goes on below an earlier one (otherwise: C74_lost)."},
{"property": "C75", "status": "proved", "theorems": ["Zen.Search.C75_words", "Zen.Search.C75_word", "Zen.Search.C75_place", "Zen.Search.C75_ranks", "Zen.Search.C75_text", "Zen.Search.C75_every_word", "Zen.Search.C75_contains", "Zen.Search.C75_narrows", "Zen.Search.C75_word_order", "Zen.Search.C75_case", "Zen.Search.C75_shown", "Zen.Search.C75_document", "Zen.Search.C75_search", "Zen.Search.C75_documents", "Zen.Search.C75_missed", "Zen.Search.C75_scattered_first", "Zen.Search.C75_cells"], "note": "also: scattered letters are looked for from the first place of the first letter only, so that some are missed (C75_missed); a word far within a text scores less than scattered letters (C75_scattered_first); cells of a row that score the same stand in the order of a hash map (C75_cells)"},
{"property": "C76", "status": "proved", "theorems": ["Zen.C76_unchanged", "Zen.C76_off", "Zen.C76_nodes", "Zen.C76_switches", "Zen.C76_only", "Zen.C76_ids", "Zen.C76_orders", "Zen.C76_sequence", "Zen.C76_after_predecessors", "Zen.C76_failed", "Zen.C76_before_failure"], "note": "the tracer over the walk of C29 and C30: unchanged outcome, exact entries, numbering, failures"},
{"property": "C77", "status": "proved", "theorems": ["Zen.Policy.Repeat.C77_ops", "Zen.Policy.Repeat.C77_occurrences", "Zen.Policy.Repeat.C77_fragments", "Zen.Policy.Repeat.C77_reported", "Zen.Policy.Repeat.C77_hints", "Zen.Policy.Repeat.C77_determined", "Zen.Policy.Repeat.C77_sound", "Zen.Policy.Repeat.C77_complete", "Zen.Policy.Repeat.C77_outermost", "Zen.Policy.Repeat.C77_ops_below", "Zen.Policy.Repeat.C77_nested", "Zen.Policy.Repeat.C77_snippet", "Zen.Policy.Repeat.C77_strings", "Zen.Policy.Repeat.C77_policies"], "note": "exact condition for what is reported and where; C77_nested under the hypothesis that equal texts have equally many operations; C77_strings and C77_policies are findings"},
{"property": "C78", "status": "proved", "theorems": ["Zen.Policy.C78_roots", "Zen.Policy.C78_ref_targets", "Zen.Policy.C78_valid", "Zen.Policy.C78_inputs", "Zen.Policy.C78_at", "Zen.Policy.C78_present", "Zen.Policy.C78_only", "Zen.Policy.C78_fits", "Zen.Policy.C78_inputs_fit", "Zen.Policy.C78_entity_type", "Zen.Policy.C78_without_id", "Zen.Policy.C78_goals", "Zen.Policy.C78_led_to", "Zen.Policy.C78_sorted"], "note": "Orderly: names without dots, equal redeclarations, at most 30 entities (the validator stops at 32 levels), ids that are texts; without an id, or with goals that drop the pool, it fails (C78_without_id, C78_goals)"},
{"property": "C79", "status": "proved", "theorems": ["Zen.Ts.C79_sound", "Zen.Ts.C79_exact", "Zen.Ts.C79_intersection", "Zen.Ts.C79_texts", "Zen.Ts.C79_keyof", "Zen.Ts.C79_rest", "Zen.Ts.C79_union", "Zen.Ts.C79_tuple_length", "Zen.Ts.C79_optional"], "note": "unions and tuples of types that cannot be merged, keyof and rest elements are excluded by hypothesis; there the claim fails (C79_union, C79_keyof, C79_rest)"},
{"property": "C80", "status": "proved", "theorems": ["Zen.Fsl.C80.C80_listed", "Zen.Fsl.C80.C80_no_root", "Zen.Fsl.C80.C80_loads", "Zen.Fsl.C80.C80_found", "Zen.Fsl.C80.C80_listed_iff", "Zen.Fsl.C80.C80_once", "Zen.Fsl.C80.C80_inside", "Zen.Fsl.C80.C80_absolute", "Zen.Fsl.C80.C80_alias", "Zen.Fsl.C80.C80_top", "Zen.Fsl.C80.C80_escape", "Zen.Fsl.C80.C80_unlisted", "Zen.Fsl.C80.C80_empty_root"], "note": "the walk, the key of a path, joining and following paths; no symbolic links"},
{"property": "C81", "status": "proved", "theorems": ["Zen.Doc.C81.C81_identifier", "Zen.Doc.C81.C81_values", "Zen.Doc.C81.C81_kind", "Zen.Doc.C81.C81_repeated", "Zen.Doc.C81.C81_dropped", "Zen.Doc.C81.C81_kept", "Zen.Doc.C81.C81_lost", "Zen.Doc.C81.C81_clean", "Zen.Doc.C81.C81_twice", "Zen.Doc.C81.C81_stable", "Zen.Doc.C81.C81_dictionary"], "note": "data models and dictionaries with their diagnostics"},
{"property": "C82", "status": "proved", "theorems": ["Zen.PolicyDoc.C82_written", "Zen.PolicyDoc.C82_read", "Zen.PolicyDoc.C82_other", "Zen.PolicyDoc.C82_kind", "Zen.PolicyDoc.C82_known", "Zen.PolicyDoc.C82_defaults", "Zen.PolicyDoc.C82_split", "Zen.PolicyDoc.C82_forms", "Zen.PolicyDoc.C82_columns_lost"], "note": "reading and writing all blocks"},
{"property": "C83", "status": "proved", "theorems": ["Zen.Comp.C83.C83_prefix", "Zen.Comp.C83.C83_prefix_all", "Zen.Comp.C83.C83_panics", "Zen.Comp.C83.C83_dot", "Zen.Comp.C83.C83_space_lost", "Zen.Comp.C83.C83_target", "Zen.Comp.C83.C83_fields", "Zen.Comp.C83.C83_methods", "Zen.Comp.C83.C83_nullable_date", "Zen.Comp.C83.C83_functions", "Zen.Comp.C83.C83_filter", "Zen.Comp.C83.C83_property", "Zen.Comp.C83.C83_word", "Zen.Comp.C83.C83_signature", "Zen.Comp.C83.C83_unread", "Zen.Comp.C83.C83_inspect"], "note": "Completions and what is shown at a position. The tables of Unicode are parameters. The texts detail and info are not modelled but for the names of parameters. Three negative theorems: a panic behind a character of several bytes, white space behind a dot, a date that may be missing."},
{"property": "C84", "status": "proved", "theorems": ["Zen.PB.C84.C84_path", "Zen.PB.C84.C84_expression", "Zen.PB.C84.C84_match", "Zen.PB.C84.C84_assertion", "Zen.PB.C84.C84_type", "Zen.PB.C84.C84_shown", "Zen.PB.C84.C84_shadowed", "Zen.PB.C84.C84_resolve", "Zen.PB.C84.C84_column", "Zen.PB.C84.C84_table", "Zen.PB.C84.C84_again"], "note": "Parsing of expressions, matches, assertions and tables. Messages, the path of the policy and the id of the block are left out of diagnostics. One negative theorem: a dictionary named like a type is never the type of a column."},
{"property": "C85", "status": "proved", "theorems": ["Zen.AnyC.C85.C85_contains", "Zen.AnyC.C85.C85_restores", "Zen.AnyC.C85.C85_ends", "Zen.AnyC.C85.C85_report", "Zen.AnyC.C85.C85_poisoned", "Zen.AnyC.C85.C85_told", "Zen.AnyC.C85.C85_other_expression"], "note": "Exact for all cyclic types; the reports of one write are exact, and an error exists whenever any is written."},
{"property": "C86", "status": "proved", "theorems": ["Zen.WC.C86.C86_conflicts", "Zen.WC.C86.C86_sorted", "Zen.WC.C86.C86_imports", "Zen.WC.C86.C86_members", "Zen.WC.C86.C86_parts"], "note": "Exact for all import graphs, rules and map orders."},
{"property": "C87", "status": "proved", "theorems": ["Zen.Sch.C87.C87_type", "Zen.Sch.C87.C87_simple", "Zen.Sch.C87.C87_admits", "Zen.Sch.C87.C87_divergences", "Zen.Sch.C87.C87_no_false_report", "Zen.Sch.C87.C87_inline_enums", "Zen.Sch.C87.C87_dictionaries", "Zen.Sch.C87.C87_kind", "Zen.Sch.C87.C87_date", "Zen.Sch.C87.C87_array", "Zen.Sch.C87.C87_object", "Zen.Sch.C87.C87_enum", "Zen.Sch.C87.C87_dictionary", "Zen.Sch.C87.C87_admits_exact", "Zen.Sch.C87.C87_path", "Zen.Sch.C87.C87_cases", "Zen.Sch.C87.C87_ref", "Zen.Sch.C87.C87_cases_unread", "Zen.Sch.C87.C87_admits_more"], "note": "Values: all schemas without $ref whose cases can be merged (necessary: C87_cases, C87_ref). Reports: exact for all schemas."},
{"property": "C88", "status": "proved", "theorems": ["Zen.Js.C88.C88_graph", "Zen.Js.C88.C88_ends", "Zen.Js.C88.C88_cycle", "Zen.Js.C88.C88_shared"], "note": "conversion of values for JavaScript"}
]}
