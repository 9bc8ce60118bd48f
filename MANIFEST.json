{"claims": [
 {"property": "C01", "status": "proved", "theorems": ["PyCTBN.preprocessing_yields_consecutive_pairs"], "note": ""},
 {"property": "C02", "status": "proved", "theorems": ["PyCTBN.preprocessing_conserves_time"], "note": ""},
 {"property": "C03", "status": "partial", "theorems": ["PyCTBN.naming_independent_partial", "PyCTBN.suffix_clash_overwrites", "PyCTBN.suffix_clash_example", "PyCTBN.naming_safe_iff"], "note": "holds without a suffix clash; refuted for every data set with one"},
 {"property": "C04", "status": "partial", "theorems": ["PyCTBN.time_key_first_column_partial", "PyCTBN.other_time_key_never_imports", "PyCTBN.time_not_first_example"], "note": "REFUTED: only the key 'Time' in the first column works; time_key_exact_iff (C179) is the exact boundary"},
 {"property": "C05", "status": "partial", "theorems": ["PyCTBN.only_last_row_dropped_partial", "PyCTBN.rows_with_last_label_dropped", "PyCTBN.repeated_label_drops_more", "PyCTBN.only_last_row_dropped_iff"], "note": "holds for an unrepeated last row label; refuted otherwise, exact behaviour proved"},
 {"property": "C06", "status": "proved", "theorems": ["PyCTBN.build_structure_checks_order", "PyCTBN.build_structure_default_index"], "note": ""},
 {"property": "C07", "status": "partial", "theorems": ["PyCTBN.build_trajectories_first_call_partial", "PyCTBN.build_trajectories_twice_is_empty"], "note": "first call exact; refuted for later calls"},
 {"property": "C08", "status": "proved", "theorems": ["PyCTBN.remove_node_only_that_node", "PyCTBN.remove_node_unknown_raises"], "note": ""},
 {"property": "C09", "status": "proved", "theorems": ["PyCTBN.structure_history_alignment"], "note": ""},
 {"property": "C10", "status": "partial", "theorems": ["PyCTBN.structure_eq_equivalence", "PyCTBN.structure_eq_same_answers_partial", "PyCTBN.structure_eq_ignores_label_order", "PyCTBN.equal_structures_agree_iff"], "note": "second half refuted for permuted labels"},
 {"property": "C11", "status": "proved", "theorems": ["PyCTBN.edge_list_refines_bag", "PyCTBN.remove_edge_raises_iff_absent"], "note": ""},
 {"property": "C12", "status": "partial", "theorems": ["PyCTBN.node_id_of_positional_index", "PyCTBN.node_id_of_index_partial", "PyCTBN.node_id_of_index_breaks_after_removal", "PyCTBN.lookups_inverse_iff"], "note": "second half refuted after a removal"},
 {"property": "C13", "status": "proved", "theorems": ["PyCTBN.fast_init_parent_info_canonical", "PyCTBN.fast_init_history_independent"], "note": ""},
 {"property": "C14", "status": "proved", "theorems": ["PyCTBN.graph_is_edge_set", "PyCTBN.add_then_remove_restores"], "note": ""},
 {"property": "C15", "status": "partial", "theorems": ["PyCTBN.p_combs_enumeration_partial", "PyCTBN.p_combs_correct_iff", "PyCTBN.p_combs_wrong_example"], "note": "exact when the first two parents have equal cardinality; refuted otherwise (iff)"},
 {"property": "C16", "status": "partial", "theorems": ["PyCTBN.row_index_exact_partial", "PyCTBN.row_index_correct_iff"], "note": "exact when parents have 1 state or as many as the child; refuted otherwise (iff)"},
 {"property": "C17", "status": "partial", "theorems": ["PyCTBN.residence_times_exact_partial", "PyCTBN.residence_times_wrong_example", "PyCTBN.estimation_exact_iff"], "note": "exact for admissible cardinalities; refuted otherwise: estimation_exact_iff is the exact boundary"},
 {"property": "C18", "status": "partial", "theorems": ["PyCTBN.transition_counts_exact_partial", "PyCTBN.counts_exact_iff"], "note": "exact for admissible cardinalities; refuted otherwise: counts_exact_iff is the exact boundary"},
 {"property": "C19", "status": "proved", "theorems": ["PyCTBN.diagonal_is_exit_count"], "note": ""},
 {"property": "C20", "status": "proved", "theorems": ["PyCTBN.total_time_conserved"], "note": ""},
 {"property": "C21", "status": "proved", "theorems": ["PyCTBN.row_index_correct_iff", "PyCTBN.smaller_parent_merges", "PyCTBN.larger_parent_raises", "PyCTBN.estimation_never_raises_iff"], "note": ""},
 {"property": "C22", "status": "proved", "theorems": ["PyCTBN.estimation_order_independent"], "note": ""},
 {"property": "C23", "status": "proved", "theorems": ["PyCTBN.estimation_additive"], "note": ""},
 {"property": "C24", "status": "partial", "theorems": ["PyCTBN.cim_coefficients_partial", "PyCTBN.cim_row_sums_positive"], "note": "the actual coefficients are proved; being an intensity matrix is refuted for every estimation"},
 {"property": "C25", "status": "proved", "theorems": ["PyCTBN.filter_cims_selects", "PyCTBN.filter_cims_broadcasts"], "note": ""},
 {"property": "C26", "status": "proved", "theorems": ["PyCTBN.cache_first_write_wins"], "note": ""},
 {"property": "C27", "status": "proved", "theorems": ["PyCTBN.search_equals_uncached_search", "PyCTBN.test_answers_as_with_empty_cache"], "note": ""},
 {"property": "C28", "status": "partial", "theorems": ["PyCTBN.search_never_unbound_partial", "PyCTBN.search_never_unbound_real_test", "PyCTBN.direct_test_unbound", "PyCTBN.test_unbound_iff"], "note": "The search never raises UnboundLocalError (any two-CIM test that does not itself; shown for the code's own). Direct calls of complete_test can: direct_test_unbound exhibits it."},
 {"property": "C29", "status": "partial", "theorems": ["PyCTBN.no_leak_between_children_partial", "PyCTBN.leak_after_exception", "PyCTBN.no_leak_on_uniform_data"], "note": "False after an exception: the cache is not cleared then (leak_after_exception)."},
 {"property": "C30", "status": "proved", "theorems": ["PyCTBN.search_edges_into_child", "PyCTBN.search_tests_bounded", "PyCTBN.counting_faithful"], "note": ""},
 {"property": "C31", "status": "proved", "theorems": ["PyCTBN.known_edges_survive"], "note": ""},
 {"property": "C32", "status": "proved", "theorems": ["PyCTBN.dropped_only_on_evidence"], "note": ""},
 {"property": "C33", "status": "proved", "theorems": ["PyCTBN.kept_only_if_dependent"], "note": ""},
 {"property": "C34", "status": "proved", "theorems": ["PyCTBN.parallel_equals_sequential", "PyCTBN.child_order_irrelevant"], "note": ""},
 {"property": "C35", "status": "partial", "theorems": ["PyCTBN.parallel_rerun_same", "PyCTBN.sequential_rerun_same_partial", "PyCTBN.sequential_rerun_same_binary", "PyCTBN.sequential_rerun_differs", "PyCTBN.sequential_rerun_same_iff"], "note": "Holds in parallel mode and, sequentially, when no dropped edge was frozen (in particular for variables with at most two states); refuted in general by sequential_rerun_differs."},
 {"property": "C36", "status": "partial", "theorems": ["PyCTBN.complete_test_compares_matching_cims_partial", "PyCTBN.complete_test_compares_matching_cims_iff"], "note": "Holds on every valid data set iff all variables have equally many states: complete_test_compares_matching_cims_iff is the exact boundary (REFUTED otherwise: the compared CIMs are misindexed or estimation raises)."},
 {"property": "C37", "status": "proved", "theorems": ["PyCTBN.separating_sets_exact", "PyCTBN.separating_sets_raises"], "note": ""},
 {"property": "C38", "status": "proved", "theorems": ["PyCTBN.removable_matrix_exact", "PyCTBN.removable_matrix_built_iff", "PyCTBN.removable_matrix_unknown_label"], "note": ""},
 {"property": "C39", "status": "proved", "theorems": ["PyCTBN.two_cim_test_exact"], "note": "Floats as exact extended reals with NaN; the scipy quantile functions are arbitrary."},
 {"property": "C40", "status": "partial", "theorems": ["PyCTBN.chi_test_rejects_eventually_partial", "PyCTBN.chi_test_void_for_binary_child", "PyCTBN.chi_test_void_for_unseen_transition"], "note": "REFUTED for children with two states and whenever a transition was never observed; true asymptotically otherwise; exact boundary: C180"},
 {"property": "C41", "status": "proved", "theorems": ["PyCTBN.thumb_value_exact", "PyCTBN.thumb_value_pos", "PyCTBN.thumb_exact"], "note": ""},
 {"property": "C42", "status": "proved", "theorems": ["PyCTBN.famscore_is_log_marginal", "PyCTBN.target_marginal_is_prediction", "PyCTBN.exit_marginal_pos"], "note": "get_fam_score is the logarithm of the closed-form marginal likelihood (Dirichlet and Gamma-exponential), and the target factor is the product of sequential predictive probabilities."},
 {"property": "C43", "status": "proved", "theorems": ["PyCTBN.famscore_ignores_unobserved", "PyCTBN.famscore_no_data"], "note": "Unobserved parent configurations contribute nothing; no data gives score 0."},
 {"property": "C44", "status": "proved", "theorems": ["PyCTBN.famscore_perm", "PyCTBN.famscore_additive"], "note": "Invariant under reordering of the parent configurations, additive over them."},
 {"property": "C45", "status": "proved", "theorems": ["PyCTBN.famscore_raises_iff", "PyCTBN.famscore_needs_positive_tau"], "note": "Exact characterisation of the inputs on which the score raises."},
 {"property": "C46", "status": "proved", "theorems": ["PyCTBN.hill_edges_into_node"], "note": ""},
 {"property": "C47", "status": "proved", "theorems": ["PyCTBN.hill_max_parents"], "note": ""},
 {"property": "C48", "status": "partial", "theorems": ["PyCTBN.hill_keeps_known_partial", "PyCTBN.hill_drops_known_edge", "PyCTBN.hill_keeps_known_iff"], "note": "True when max_parents is unset or at least the number of other variables; false in general: a known parent can be exchanged (machine-checked counterexample)."},
 {"property": "C49", "status": "proved", "theorems": ["PyCTBN.hill_returns_best"], "note": "For every score that is a function of the parent set (C59 proves this of FamScore)."},
 {"property": "C50", "status": "proved", "theorems": ["PyCTBN.hill_limits", "PyCTBN.stalled_unique"], "note": ""},
 {"property": "C51", "status": "partial", "theorems": ["PyCTBN.hill_returns_partial", "PyCTBN.hill_fails_without_candidates", "PyCTBN.hill_fails_max_parents_zero", "PyCTBN.hill_returns_iff"], "note": "Returns under the stated conditions; IndexError without candidates or with max_parents <= 0 (proved)."},
 {"property": "C52", "status": "proved", "theorems": ["PyCTBN.tabu_edges_into_node"], "note": ""},
 {"property": "C53", "status": "proved", "theorems": ["PyCTBN.tabu_returns_best"], "note": ""},
 {"property": "C54", "status": "partial", "theorems": ["PyCTBN.tabu_keeps_known_partial", "PyCTBN.tabu_drops_known_edge", "PyCTBN.tabu_keeps_known_iff"], "note": "As C48."},
 {"property": "C55", "status": "proved", "theorems": ["PyCTBN.tabu_discipline"], "note": ""},
 {"property": "C56", "status": "partial", "theorems": ["PyCTBN.tabu_never_blocks_partial", "PyCTBN.tabu_blocks_without_candidates", "PyCTBN.tabu_blocks_length_zero", "PyCTBN.tabu_fails_duration_zero", "PyCTBN.tabu_returns_iff"], "note": "Returns under the stated conditions; proved to hang without candidates or with tabu_length <= 0, and to raise with tabu_rules_duration = 0."},
 {"property": "C57", "status": "proved", "theorems": ["PyCTBN.estimate_is_union", "PyCTBN.estimate_well_formed"], "note": "Union of per-node results; no self-loops, unknown labels; parent limit max(max_parents, #known)."},
 {"property": "C58", "status": "proved", "theorems": ["PyCTBN.score_based_parallel_eq", "PyCTBN.score_based_order_irrelevant"], "note": "For every completion order, given each node's random numbers; a hanging worker makes the parallel run hang."},
 {"property": "C59", "status": "proved", "theorems": ["PyCTBN.score_depends_on_parents_only", "PyCTBN.famscore_of_parent_set"], "note": ""},
 {"property": "C60", "status": "proved", "theorems": ["PyCTBN.report_exact", "PyCTBN.estimate_returns_iff_nodes"], "note": ""},
 {"property": "C61", "status": "partial", "theorems": ["PyCTBN.spurious_edges_empty_after", "PyCTBN.spurious_edges_missed", "PyCTBN.spurious_edges_fresh", "PyCTBN.after_score_based", "PyCTBN.after_ctpc"], "note": "The claim is refuted: after any estimation the list is empty, because the true edges were erased."},
 {"property": "C62", "status": "proved", "theorems": ["PyCTBN.adjacency_matrix_exact", "PyCTBN.adjacency_matrix_fresh", "PyCTBN.after_score_based", "PyCTBN.after_ctpc"], "note": "For both estimators, via the After relation."},
 {"property": "C63", "status": "partial", "theorems": ["PyCTBN.saved_results_partial", "PyCTBN.saved_results_complete_iff", "PyCTBN.saved_results_lose_isolated", "PyCTBN.after_score_based", "PyCTBN.after_ctpc"], "note": "Links exact; nodes are only the end points of estimated edges: variables without edges are lost (counterexample proved)."},
 {"property": "C64", "status": "proved", "theorems": ["PyCTBN.fixed_density_exact", "PyCTBN.fixed_density_rejects", "PyCTBN.fixed_density_int", "PyCTBN.random_density_exact", "PyCTBN.random_density_rejects"], "note": "For every label list, shuffle (any permutation) and coin sequence. An int density with fixed=True is a TypeError (fixed_density_int): float.is_integer does not exist on int."},
 {"property": "C65", "status": "partial", "theorems": ["PyCTBN.generated_cims_cover_partial", "PyCTBN.generated_assignments_wrong", "PyCTBN.generate_cims_returns", "PyCTBN.generated_graph_form", "PyCTBN.generated_assignments_iff"], "note": "Number and size of the CIMs proved in full; the assignments listed are the right ones when the first two parents have equal cardinality; generated_assignments_wrong refutes the statement for parents of 2 and 3 states."},
 {"property": "C66", "status": "partial", "theorems": ["PyCTBN.generated_cim_intensity_partial", "PyCTBN.generated_network_intensity_partial", "PyCTBN.generated_cim_one_state", "PyCTBN.genCim_returns", "PyCTBN.generated_network_intensity_iff"], "note": "Proved for every variable with at least two states; generated_cim_one_state refutes the row-sum claim for one state."},
 {"property": "C67", "status": "proved", "theorems": ["PyCTBN.parent_order_agrees", "PyCTBN.generated_graph_form"], "note": ""},
 {"property": "C68", "status": "proved", "theorems": ["PyCTBN.sample_shape"], "note": "on every usable network (Spec.Ctbn.OK) the sampler object describes; instantiated in SampleDemo"},
 {"property": "C69", "status": "proved", "theorems": ["PyCTBN.sample_times_ordered"], "note": "for non-negative standard draws; times as rounded by the code (round4)"},
 {"property": "C70", "status": "proved", "theorems": ["PyCTBN.sample_max_transitions", "PyCTBN.sample_without_limit", "PyCTBN.samples_unique", "PyCTBN.run_fuel_mono", "PyCTBN.sample_end_time"], "note": "the fuel of the model only bounds the passes allowed: results do not depend on it. sample_end_time adds: with an end time only, sampling returns whenever drawn waiting times are bounded away from 0"},
 {"property": "C71", "status": "proved", "theorems": ["PyCTBN.event_times_use_current_cim", "PyCTBN.event_is_earliest"], "note": "provenance of every pending event time over all histories"},
 {"property": "C72", "status": "partial", "theorems": ["PyCTBN.holding_time_multiplied"], "note": "REFUTED by the code: the exit intensity is passed as numpy's scale (a mean), so the holding time is draw * q, not draw / q; the theorem proves this for all networks and draws and that the two agree only for q = 1"},
 {"property": "C73", "status": "partial", "theorems": ["PyCTBN.visible_transitions"], "note": "REFUTED by the code: the last sampled row is overwritten by the terminator, so max_tr = m shows m genuine rows, i.e. m - 1 transitions"},
 {"property": "C74", "status": "partial", "theorems": ["PyCTBN.sampled_trajectories_estimable_partial", "PyCTBN.sample_in_range", "PyCTBN.frame_holds"], "note": "missing: nodes with inadmissible parent cardinalities (C15-C17, C21) and clashing labels (C03) C217 shows that the cardinality condition cannot be relaxed: it is necessary as well as sufficient."},
 {"property": "C75", "status": "proved", "theorems": ["PyCTBN.multi_one_per_request", "PyCTBN.multi_max_trs", "PyCTBN.multi_requests", "PyCTBN.multi_failure_is_silent"], "note": "when no worker fails; multi_failure_is_silent shows what happens otherwise; multi_max_trs discharges the hypotheses on every usable network"},
 {"property": "C76", "status": "proved", "theorems": ["PyCTBN.export_keys_distinct", "PyCTBN.exported_node"], "note": "all label strings"},
 {"property": "C77", "status": "partial", "theorems": ["PyCTBN.node_reads_back_partial", "PyCTBN.network_reads_back_partial", "PyCTBN.two_digit_states_misread", "PyCTBN.label_with_equals_misread", "PyCTBN.no_edges_not_read", "PyCTBN.sampling_depends_on_network", "PyCTBN.node_reads_back_iff", "PyCTBN.network_reads_back_iff"], "note": "REFUTED in general (cardinality > 10, '=' in labels, no edges); proved for <= 10 states, plain labels, at least one edge"},
 {"property": "C78", "status": "partial", "theorems": ["PyCTBN.lookup_finds_stored_partial", "PyCTBN.exportCim_finds", "PyCTBN.lookup_complete_iff", "PyCTBN.single_parent_order_matters", "PyCTBN.single_parent_lookup_iff"], "note": "REFUTED in general; exact boundaries: lookup_complete_iff (two or more parents), single_parent_lookup_iff (one parent); proved for sets of CIMs that store every assignment once"},
 {"property": "C79", "status": "partial", "theorems": ["PyCTBN.raw_to_statistics_partial", "PyCTBN.raw_to_statistics_iff"], "note": "exact for admissible cardinalities and clash-free labels"},
 {"property": "C80", "status": "proved", "theorems": ["PyCTBN.graph_remove_node", "PyCTBN.graph_remove_unknown"], "note": ""},
 {"property": "C81", "status": "proved", "theorems": ["PyCTBN.compute_twice_needs_reinit"], "note": ""},
 {"property": "C82", "status": "proved", "theorems": ["PyCTBN.tabu_limits"], "note": ""},
 {"property": "C83", "status": "partial", "theorems": ["PyCTBN.score_is_log_marginal_partial", "PyCTBN.uniform_scorable", "PyCTBN.score_is_marginal_iff"], "note": "When every parent has one state or as many as the node; refuted for all other cardinalities: score_is_marginal_iff (C122) is the exact boundary."},
 {"property": "C84", "status": "partial", "theorems": ["PyCTBN.score_based_keeps_known_partial", "PyCTBN.score_based_keeps_known_iff"], "note": "When max_parents is unset or large; otherwise known edges can be dropped (C48, C54)."},
 {"property": "C85", "status": "partial", "theorems": ["PyCTBN.score_based_returns_partial", "PyCTBN.score_based_returns_iff"], "note": "Uniform cardinalities >= 2, sane arguments, a candidate parent for each variable."},
 {"property": "C86", "status": "proved", "theorems": ["PyCTBN.generated_network_usable", "PyCTBN.nearIntensity_ok"], "note": "composition of C65-C67 with the sampler's preconditions"},
 {"property": "C87", "status": "partial", "theorems": ["PyCTBN.multi_forked_identical"], "note": "REFUTED by the code when workers are forked (each inherits a copy of numpy's global generator state): all trajectories with equal limits are identical"},
 {"property": "C88", "status": "partial", "theorems": ["PyCTBN.constraint_based_returns_partial", "PyCTBN.constraint_based_raises", "PyCTBN.constraint_based_returns_iff"], "note": "Proved when all variables have equally many states, with the library's own two-CIM test and arbitrary quantile functions. REFUTED for differing cardinalities: constraint_based_raises."},
 {"property": "C89", "status": "proved", "theorems": ["PyCTBN.exported_file_reads_back"], "note": "For every usable network, samples and every rounding by to_json that fixes numbers with four decimals. The text of the file is treated in C131 and C214."},
 {"property": "C90", "status": "partial", "theorems": ["PyCTBN.sampled_file_estimable_partial", "PyCTBN.file_without_samples"], "note": "Missing: inadmissible cardinalities (C17, C21), clashing labels (C03). Without trajectories the written file cannot be imported (IndexError). C217 shows that the cardinality condition cannot be relaxed: it is necessary as well as sufficient."},
 {"property": "C91", "status": "partial", "theorems": ["PyCTBN.sampler_from_file_partial", "PyCTBN.sampler_from_file_iff", "PyCTBN.generator_from_file_partial"], "note": "Missing (misread by the code, see C77): labels with '=', states from 10 on, networks without edges; files without trajectories."},
 {"property": "C92", "status": "proved", "theorems": ["PyCTBN.data_sets_independent", "PyCTBN.missing_samples_key", "PyCTBN.sampled_cims_independent"], "note": ""},
 {"property": "C93", "status": "partial", "theorems": ["PyCTBN.variables_key_ignored", "PyCTBN.variables_by_position"], "note": "REFUTED: variables_key has no effect; the names are the first column."},
 {"property": "C94", "status": "proved", "theorems": ["PyCTBN.estimation_exact_iff"], "note": "the exact boundary of C17"},
 {"property": "C95", "status": "proved", "theorems": ["PyCTBN.counts_exact_iff"], "note": "the exact boundary of C18"},
 {"property": "C96", "status": "proved", "theorems": ["PyCTBN.workflow"], "note": ""},
 {"property": "C97", "status": "proved", "theorems": ["PyCTBN.naming_safe_iff"], "note": "strengthens C03: the naming condition used there is necessary"},
 {"property": "C98", "status": "proved", "theorems": ["PyCTBN.only_last_row_dropped_iff"], "note": "strengthens C05"},
 {"property": "C99", "status": "proved", "theorems": ["PyCTBN.lookups_inverse_iff"], "note": "strengthens C12"},
 {"property": "C100", "status": "proved", "theorems": ["PyCTBN.equal_structures_agree_iff"], "note": "strengthens C10"},
 {"property": "C101", "status": "proved", "theorems": ["PyCTBN.hill_keeps_known_iff", "PyCTBN.demo_searchInput"], "note": "exact boundary of C48"},
 {"property": "C102", "status": "proved", "theorems": ["PyCTBN.tabu_keeps_known_iff"], "note": "exact boundary of C54"},
 {"property": "C103", "status": "proved", "theorems": ["PyCTBN.hill_returns_iff"], "note": "exact boundary of C51"},
 {"property": "C104", "status": "proved", "theorems": ["PyCTBN.constraint_based_returns_iff", "PyCTBN.constraint_based_parallel_returns_iff"], "note": "exact boundary of C88"},
 {"property": "C105", "status": "proved", "theorems": ["PyCTBN.score_based_returns_iff"], "note": "exact boundary of C85"},
 {"property": "C106", "status": "proved", "theorems": ["PyCTBN.tabu_returns_iff"], "note": "exact boundary of C56"},
 {"property": "C107", "status": "proved", "theorems": ["PyCTBN.test_unbound_iff"], "note": "exact boundary of C28"},
 {"property": "C108", "status": "proved", "theorems": ["PyCTBN.sequential_rerun_same_iff"], "note": "exact boundary of C35"},
 {"property": "C109", "status": "proved", "theorems": ["PyCTBN.sequential_rerun_stabilises", "PyCTBN.reruns_return"], "note": ""},
 {"property": "C110", "status": "proved", "theorems": ["PyCTBN.generated_assignments_iff"], "note": "exact boundary of C65"},
 {"property": "C111", "status": "proved", "theorems": ["PyCTBN.generated_network_intensity_iff"], "note": "exact boundary of C66"},
 {"property": "C112", "status": "proved", "theorems": ["PyCTBN.constraint_based_recovers"], "note": ""},
 {"property": "C113", "status": "proved", "theorems": ["PyCTBN.hill_ranking", "PyCTBN.tabu_ranking", "PyCTBN.estimate_ranking", "PyCTBN.famscore_shift_ranking"], "note": ""},
 {"property": "C114", "status": "proved", "theorems": ["PyCTBN.score_time_unit", "PyCTBN.estimate_time_unit"], "note": ""},
 {"property": "C115", "status": "partial", "theorems": ["PyCTBN.fixed_tau_depends_on_unit", "PyCTBN.estimate_time_unit"], "note": "REFUTED: tau_xu is a time; with the default 0.1 the two-row data set of fixed_tau_depends_on_unit loses its edge when recorded in a unit 100 times smaller. True when tau_xu is converted too (C114)."},
 {"property": "C116", "status": "proved", "theorems": ["PyCTBN.learning_row_order"], "note": ""},
 {"property": "C117", "status": "proved", "theorems": ["PyCTBN.learning_sees_only_steps", "PyCTBN.steps_perm", "PyCTBN.steps_cut", "PyCTBN.steps_shift"], "note": ""},
 {"property": "C118", "status": "proved", "theorems": ["PyCTBN.raw_to_statistics_iff"], "note": "exact boundary of C79"},
 {"property": "C119", "status": "proved", "theorems": ["PyCTBN.score_based_keeps_known_iff"], "note": "exact boundary of C84"},
 {"property": "C120", "status": "proved", "theorems": ["PyCTBN.estimate_returns_on", "PyCTBN.estimation_never_raises_iff"], "note": "completes C21: more states than the child is neither necessary nor sufficient with several parents"},
 {"property": "C121", "status": "proved", "theorems": ["PyCTBN.estimation_general", "PyCTBN.estimation_by_slots"], "note": "full behaviour where C15-C18 hold only for admissible cardinalities"},
 {"property": "C122", "status": "proved", "theorems": ["PyCTBN.score_is_marginal_iff", "PyCTBN.slots_collide"], "note": "exact boundary of C83"},
 {"property": "C123", "status": "proved", "theorems": ["PyCTBN.state_numbering_irrelevant"], "note": ""},
 {"property": "C124", "status": "proved", "theorems": ["PyCTBN.score_of_same_process", "PyCTBN.marginals_recoded"], "note": ""},
 {"property": "C125", "status": "proved", "theorems": ["PyCTBN.tabu_list_exact"], "note": ""},
 {"property": "C126", "status": "proved", "theorems": ["PyCTBN.tabu_round_robin"], "note": ""},
 {"property": "C127", "status": "proved", "theorems": ["PyCTBN.tabu_walk", "PyCTBN.hill_walk"], "note": ""},
 {"property": "C128", "status": "proved", "theorems": ["PyCTBN.tabu_local_optimum"], "note": ""},
 {"property": "C129", "status": "partial", "theorems": ["PyCTBN.hill_local_optimum_partial", "PyCTBN.hill_misses_optimum"], "note": "Proved when every candidate was drawn since the last improvement. In general REFUTED: hill_misses_optimum shows that for every patience and number of iterations there are draws for which it ends elsewhere, since candidates are drawn with replacement."},
 {"property": "C130", "status": "proved", "theorems": ["PyCTBN.tabu_estimate_local_optimum", "PyCTBN.score_of_parents_exact"], "note": "Spec.likelihood is the closed-form product over all parent assignments"},
 {"property": "C131", "status": "proved", "theorems": ["PyCTBN.text_round_trip", "PyCTBN.exported_text_loads"], "note": "Numbers are written by an arbitrary codec that reads back what it wrote (Python's float repr does)"},
 {"property": "C132", "status": "proved", "theorems": ["PyCTBN.interrupted_write_never_misread", "PyCTBN.no_prefix_loads", "PyCTBN.written_files_protected", "PyCTBN.writing_completes"], "note": "File system model: truncation at open, then any prefix of the text may be on disk"},
 {"property": "C133", "status": "partial", "theorems": ["PyCTBN.crash_loses_previous_file"], "note": "REFUTED: open(path,'w') truncates first; for every previous contents there is a crash point that leaves an empty, unreadable file. True part: C132."},
 {"property": "C134", "status": "proved", "theorems": ["PyCTBN.saved_results_reload", "PyCTBN.readResults_json"], "note": ""},
 {"property": "C135", "status": "proved", "theorems": ["PyCTBN.complete_test_accepts_iff"], "note": "Quantile functions arbitrary"},
 {"property": "C136", "status": "proved", "theorems": ["PyCTBN.estimate_depends_on_verdicts_only"], "note": ""},
 {"property": "C137", "status": "proved", "theorems": ["PyCTBN.complete_test_blind_to_coding"], "note": "The verdict's second part (freezing) does depend on coding for c > 2: C146"},
 {"property": "C138", "status": "proved", "theorems": ["PyCTBN.constraint_based_blind_to_numbering"], "note": "c \u2264 2 or thumb_threshold \u2264 0; false otherwise (C146)"},
 {"property": "C139", "status": "proved", "theorems": ["PyCTBN.marginally_independent_dropped"], "note": ""},
 {"property": "C140", "status": "proved", "theorems": ["PyCTBN.scarce_data_keeps_all_edges"], "note": ""},
 {"property": "C141", "status": "proved", "theorems": ["PyCTBN.constant_variable_reported_iff", "PyCTBN.constant_variable_not_reported"], "note": "SaneQuantiles: NaN at 0 degrees of freedom, 1 between the quantiles of F(r,r), chi-square quantiles not negative The assumption on the quantile functions holds for those of the actual distributions (C219)."},
 {"property": "C142", "status": "proved", "theorems": ["PyCTBN.lower_levels_accept_more"], "note": "The assumption on the quantile functions holds for those of the actual distributions (C219). Levels between 0 and 1 (outside scipy's quantiles are NaN)."},
 {"property": "C143", "status": "partial", "theorems": ["PyCTBN.lower_levels_keep_fewer_partial", "PyCTBN.lower_levels_can_add_edges"], "note": "REFUTED for three variables: the level decides which of two dependent parents is tested away first. Proved with a single candidate parent."},
 {"property": "C144", "status": "partial", "theorems": ["PyCTBN.variable_order_immaterial_partial", "PyCTBN.variable_order_matters"], "note": "REFUTED: of two parents that are copies of each other, the one tested last is kept. Proved: true (c \u2264 2 or no data-size rule) if the tests are right about some network."},
 {"property": "C145", "status": "partial", "theorems": ["PyCTBN.counts_time_unit_partial", "PyCTBN.constraint_based_depends_on_unit"], "note": "REFUTED: the CIM estimate (M+1)/(T+1) is not equivariant. Proved: the data-size rule and the chi-square part do not depend on the unit."},
 {"property": "C146", "status": "partial", "theorems": ["PyCTBN.constraint_based_blind_to_numbering", "PyCTBN.numbering_matters_with_data_size_rule"], "note": "REFUTED for three states with the data-size rule: whether an edge is frozen depends on which state is compared first. Proved for c \u2264 2 or without the rule (C138)."},
 {"property": "C147", "status": "proved", "theorems": ["PyCTBN.estimation_error"], "note": "Admissible cardinalities (C94)"},
 {"property": "C148", "status": "proved", "theorems": ["PyCTBN.estimates_consistent"], "note": "Admissible cardinalities (C94)"},
 {"property": "C149", "status": "proved", "theorems": ["PyCTBN.true_parents_eventually_found"], "note": "QuantilesTighten: F quantiles tend to 1 with both degrees of freedom; the chi-square quantile is finite The assumption on the quantile functions holds for those of the actual distributions (C219)."},
 {"property": "C150", "status": "partial", "theorems": ["PyCTBN.true_parents_eventually_found", "PyCTBN.impossible_transition_hides_parent"], "note": "REFUTED: an unobserved transition makes the chi-square statistic 0/0 = NaN, which never rejects; a parent that decides the next state is not found however many data. True if all transitions are observed or rates differ (C149)."},
 {"property": "C151", "status": "proved", "theorems": ["PyCTBN.unshared_structure_is_a_value"], "note": "Model with references (Heap); justifies the value model used elsewhere"},
 {"property": "C152", "status": "proved", "theorems": ["PyCTBN.unshared_graph_is_a_value"], "note": "As C151"},
 {"property": "C153", "status": "partial", "theorems": ["PyCTBN.shared_labels_effect", "PyCTBN.shared_labels_iff", "PyCTBN.shared_edges_effect", "PyCTBN.shared_labels_refuted"], "note": "REFUTED: the label list is edited in place, the arrays are not, so the other structure loses the label and gives later variables the cardinality of their predecessor; harmless for cardinalities iff they are equal from the removed variable on (shared_labels_iff). True without sharing (C151)."},
 {"property": "C154", "status": "partial", "theorems": ["PyCTBN.shared_structure_effect", "PyCTBN.fast_init_boundary", "PyCTBN.shared_structure_refuted"], "note": "REFUTED: the structure is shared and reduced, the other graph keeps the node; fast_init(n) there raises KeyError iff the removed node is still a parent of n (exact), otherwise it works. True if only one graph edits (C152)."},
 {"property": "C155", "status": "partial", "theorems": ["PyCTBN.generator_after_removal", "PyCTBN.generator_after_removal_refuted"], "note": "REFUTED: the label is deleted from the generator's own list but its cardinality is not; true iff all cardinalities from the removed variable on are equal (exact boundary proved)."},
 {"property": "C156", "status": "proved", "theorems": ["PyCTBN.total_transitions_conserved_iff", "PyCTBN.reported_changes_by_slots"], "note": "Counterpart of C20, where the total time is always right."},
 {"property": "C157", "status": "proved", "theorems": ["PyCTBN.float_estimation_near", "PyCTBN.float64_residence_times"], "note": "binRound 53 (round to nearest even, 53 bits, unbounded exponent) is proved to be such a rounding; overflow and underflow are not modelled"},
 {"property": "C158", "status": "proved", "theorems": ["PyCTBN.float_signs"], "note": ""},
 {"property": "C159", "status": "proved", "theorems": ["PyCTBN.float_exact_on_grid", "PyCTBN.float64_exact"], "note": "On such data the theorems about exact estimates are theorems about the float64 program"},
 {"property": "C160", "status": "partial", "theorems": ["PyCTBN.float_order_partial", "PyCTBN.float_order_refuted"], "note": "REFUTED in float64: rows of durations 2^53, 1, 1 give 2^53, in the order 1, 1, 2^53 they give 2^53+2. Proved: counts are equal, residence times differ by at most 2m relative errors. Exact arithmetic: C22."},
 {"property": "C161", "status": "proved", "theorems": ["PyCTBN.estimate_call_effect", "PyCTBN.estimate_history", "PyCTBN.no_report_after_first"], "note": ""},
 {"property": "C162", "status": "proved", "theorems": ["PyCTBN.pool_size", "PyCTBN.score_call_setting_irrelevant", "PyCTBN.constraint_call_setting_irrelevant", "PyCTBN.no_workers"], "note": "constraint-based: on a fresh estimator (a sequential call marks edges, C35)"},
 {"property": "C163", "status": "proved", "theorems": ["PyCTBN.sample_path_accepts_iff", "PyCTBN.sample_path_history", "PyCTBN.importer_used_up"], "note": "An importer that never imported data (empty list) is accepted; building trajectories then raises AttributeError"},
 {"property": "C164", "status": "proved", "theorems": ["PyCTBN.fOutside_float", "PyCTBN.chiExceeds_float", "PyCTBN.float_test_agrees", "PyCTBN.float_verdict_from_data"], "note": "overflow and underflow not modelled; counts are exact integers; np.sum from left to right; binRoundR_accurate is an instance of the rounding on the reals"},
 {"property": "C165", "status": "proved", "theorems": ["PyCTBN.scarce_never_borderline", "PyCTBN.chi_void_for_binary_float"], "note": ""},
 {"property": "C166", "status": "proved", "theorems": ["PyCTBN.score_one_more_parent"], "note": "Data observed k times; exact trichotomy."},
 {"property": "C167", "status": "proved", "theorems": ["PyCTBN.estimated_network_explains"], "note": ""},
 {"property": "C168", "status": "proved", "theorems": ["PyCTBN.score_eventually_rewards"], "note": "Log marginal likelihood per unit of data converges to the maximal log likelihood (Stirling); splitting a cell whose rates differ gains strictly (Gibbs inequality)."},
 {"property": "C169", "status": "proved", "theorems": ["PyCTBN.score_true_parents_eventually_found"], "note": "C168 for every parent set simultaneously, with local optimality of tabu search (C130)."},
 {"property": "C170", "status": "proved", "theorems": ["PyCTBN.node_reads_back_iff", "PyCTBN.network_reads_back_iff", "PyCTBN.sampler_from_file_iff"], "note": "File version under no suffix clash and no variable called Time."},
 {"property": "C171", "status": "proved", "theorems": ["PyCTBN.float_preprocessing"], "note": "Time stamps are the floats read from the file; clash-free labels (see C03)."},
 {"property": "C172", "status": "partial", "theorems": ["PyCTBN.float64_raw_to_statistics_partial", "PyCTBN.float64_raw_to_statistics_iff"], "note": "Exact for admissible cardinalities, refuted otherwise: float64_raw_to_statistics_iff is the exact boundary; clashing labels: C03; no overflow or underflow."},
 {"property": "C173", "status": "proved", "theorems": ["PyCTBN.float_sample_shape", "PyCTBN.float_sample_times", "PyCTBN.float_sample_returns", "PyCTBN.float64_sample_assumptions"], "note": "numpy's multinomial is modelled as its sequence of binomial draws (plain instead of compensated sum in the check of the probabilities); no overflow or underflow."},
 {"property": "C174", "status": "partial", "theorems": ["PyCTBN.float_sample_genuine_partial", "PyCTBN.Demo.float64_phantom_transition"], "note": "REFUTED in float64 for variables with three or more states: the probabilities left after rounding make numpy's multinomial fall through to the last state although its weight is 0; Demo.float64_phantom_transition samples 0, 2, 2 from a network with positive intensities. Proved when no variable has more than two states; in general the only other move is into the last state (C173)."},
 {"property": "C175", "status": "proved", "theorems": ["PyCTBN.float_famscore_near", "PyCTBN.float_famscore_one_state", "PyCTBN.correctMath_ok"], "note": "Size of a term: 1 + |log| or 1 + |loggamma(x)| + x(1 + |log x|), times its factor. np.sum is modelled as adding in order; no overflow or underflow."},
 {"property": "C176", "status": "proved", "theorems": ["PyCTBN.float_estimate_structure", "PyCTBN.float_estimate_enough_bits", "PyCTBN.exT2_noTies"], "note": "exT2_noTies: a concrete trajectory of two binary variables without ties."},
 {"property": "C177", "status": "proved", "theorems": ["PyCTBN.sample_moves_law", "PyCTBN.sample_rows_of_moves"], "note": "Events {moves as given, holding times above thresholds} determine the law of the first n moves, for every n. Clocks are real numbers; sample_rows_of_moves connects them with the exact rational model. Scaling of numpy's exponential (scale times a standard exponential draw) is assumed."},
 {"property": "C178", "status": "proved", "theorems": ["PyCTBN.sample_law_iff"], "note": "Exact boundary of a claim the code refutes: sampling from a CTBN in general is wrong because the exit intensity is passed as the scale (line 102) of the exponential law; the demo network's trajectories do not follow its law."},
 {"property": "C179", "status": "proved", "theorems": ["PyCTBN.time_key_exact_iff", "PyCTBN.time_not_first_gives_stamps"], "note": "Exact boundary of C04."},
 {"property": "C180", "status": "proved", "theorems": ["PyCTBN.chi_eventually_rejects_iff", "PyCTBN.chi_can_reject_iff"], "note": "Exact boundary of C40; two_cim_test_exact (C39) ties ChiExceeds to independence_test."},
 {"property": "C181", "status": "proved", "theorems": ["PyCTBN.sample_stats", "PyCTBN.sample_rows_statistics"], "note": "sample_rows_statistics: on the rows CTBN_Sample returns, the counted transitions are those of all moves but the last, and the time is that of the moves up to 1/10000 per move (rounded stamps). The expectations are about the unrounded moves. The intensity itself in place of r would be the law of a CTBN: it equals r only when it is 0 or the exit intensity is 1."},
 {"property": "C182", "status": "proved", "theorems": ["PyCTBN.sample_estimate_tendsto", "PyCTBN.sample_estimate_misses", "PyCTBN.sample_rows_statistics"], "note": "REFUTES that estimating from sampled data recovers the network's intensities (the sampler passes the intensity as the scale). Times unrounded. What is not said: how likely it is that a case lasts at least kappa*n; see C183 for a network where it is certain in the limit."},
 {"property": "C183", "status": "proved", "theorems": ["PyCTBN.sample_estimate_binary"], "note": "REFUTES recovery of the intensities from sampled data, without any condition on the time spent. Times unrounded."},
 {"property": "C184", "status": "proved", "theorems": ["PyCTBN.parameters_blind_to_names", "PyCTBN.score_blind_to_names", "PyCTBN.names_must_differ"], "note": "No hypothesis besides injectivity (names_must_differ: it is needed). Importing does depend on the names (C03): a variable called XS next to X."},
 {"property": "C185", "status": "proved", "theorems": ["PyCTBN.constraint_based_blind_to_names"], "note": "Variables keep their positions. (The order of the variables, unlike their names, does matter.)"},
 {"property": "C186", "status": "proved", "theorems": ["PyCTBN.score_based_blind_to_names", "PyCTBN.new_blind_to_names", "PyCTBN.reports_blind_to_names"], "note": "The candidates of the tabu search are a Python set whose iteration order may depend on the names; the numbers given to random.choice stand for the resulting choice."},
 {"property": "C187", "status": "proved", "theorems": ["PyCTBN.hill_local_optimum_of_windows", "PyCTBN.hill_misses_optimum_rarely", "PyCTBN.hill_misses_optimum_possibly"], "note": "Complements C129 (refuted for some draws). random.choice is taken as ideal: uniform and independent."},
 {"property": "C188", "status": "proved", "theorems": ["PyCTBN.hill_estimate_misses_optimum_rarely", "PyCTBN.hill_estimate_optimal_in_the_limit"], "note": "The draws of different variables may depend on each other: with a process pool, forked workers copy the state of the random generator. Variables with equal numbers of states (C21 otherwise)."},
 {"property": "C189", "status": "proved", "theorems": ["PyCTBN.hill_true_parents_eventually_found"], "note": "Patience unset and no limit on the parents."},
 {"property": "C190", "status": "proved", "theorems": ["PyCTBN.sample_stationary", "PyCTBN.sample_residence_mean", "PyCTBN.sample_transitions_mean", "PyCTBN.sampleR_agrees"], "note": "The stamps of the rows are rounded to four decimals; the theorem is about the rounded rows (the rounding errors do not add up). Draws are ideal: exact reals, exact exponential law. sampleR_agrees connects the function on real clocks with the rational model."},
 {"property": "C191", "status": "proved", "theorems": ["PyCTBN.sample_estimate_limit"], "note": "The counts and times are read off the (rounded) rows that CTBN_Sample returns."},
 {"property": "C192", "status": "proved", "theorems": ["PyCTBN.sample_estimate_parents", "PyCTBN.sample_rate_deviation"], "note": "Removes the condition on the observed time of C182, for all networks where joint states lead to each other. The limit is the intensity itself only if the exit intensity is 1 (C182)."},
 {"property": "C193", "status": "proved", "theorems": ["PyCTBN.score_eventually_penalizes"], "note": "No condition that durations are positive (rounded trajectories may contain zero durations). Counterpart of C168, which rewards a parent that matters."},
 {"property": "C194", "status": "proved", "theorems": ["PyCTBN.score_network_eventually_recovered"], "note": "An example with the default arguments shows that the conditions can be met and that estimation does return."},
 {"property": "C195", "status": "proved", "theorems": ["PyCTBN.sampled_network_recovered", "PyCTBN.tabu_of_only_truth"], "note": "End to end: the sampling loop, the row format, importing, trajectories, counting, score and search as modelled. The process sampled is the one with inverted exit intensities (C177), so 'matters' is a condition on its mean rates; the edges are those of the network nevertheless. The rounding of the time stamps to four decimals is included; draws are exact reals."},
 {"property": "C196", "status": "proved", "theorems": ["PyCTBN.telling_network_recovered"], "note": "With one parent the condition says that the parent influences one of these quotients; for two states that is that it influences an intensity. Example: X -> Y with the default arguments."},
 {"property": "C197", "status": "proved", "theorems": ["PyCTBN.sampled_edges_kept"], "note": "Assumes of scipy's quantiles that those of the F distribution tend to 1 with both degrees of freedom and the chi-square quantile is finite (QuantilesTighten, as C149). Says nothing about superfluous edges: at a fixed significance level a test may keep one however long the trajectory. The assumption on the quantile functions holds for those of the actual distributions (C219)."},
 {"property": "C198", "status": "proved", "theorems": ["PyCTBN.telling_edges_kept"], "note": "Example: X -> Y. The assumption on the quantile functions holds for those of the actual distributions (C219)."},
 {"property": "C199", "status": "proved", "theorems": ["PyCTBN.hill_network_eventually_recovered"], "note": ""},
 {"property": "C200", "status": "proved", "theorems": ["PyCTBN.hill_sampled_network_recovered", "PyCTBN.hill_of_only_truth"], "note": "T0 depends on eps and the number of variables only. tells_matters (C196) gives a sufficient condition on the intensities."},
 {"property": "C201", "status": "proved", "theorems": ["PyCTBN.end_residence_mean", "PyCTBN.end_transitions_mean", "PyCTBN.end_sample_returns", "PyCTBN.sampleStopR_agrees"], "note": "The sampled process has the inverted exit intensities of C177. sampleStopR_agrees: on rational draws the model with real clocks returns what the rational model of CTBN_Sample returns, for every number of passes and both limits. Stamps are rounded to four decimals as in the code; the addition of times is exact."},
 {"property": "C202", "status": "proved", "theorems": ["PyCTBN.end_estimate_limit", "PyCTBN.end_estimate_parents", "PyCTBN.end_rate_deviation"], "note": ""},
 {"property": "C203", "status": "proved", "theorems": ["PyCTBN.end_network_recovered", "PyCTBN.end_telling_recovered"], "note": ""},
 {"property": "C204", "status": "proved", "theorems": ["PyCTBN.end_edges_kept", "PyCTBN.end_telling_kept"], "note": "As C197: the quantiles of the F distribution are assumed to tend to 1 with its degrees of freedom. The assumption on the quantile functions holds for those of the actual distributions (C219)."},
 {"property": "C205", "status": "proved", "theorems": ["PyCTBN.end_hill_recovered"], "note": ""},
 {"property": "C206", "status": "proved", "theorems": ["PyCTBN.pooled_estimate_mean", "PyCTBN.pooled_estimate_limit", "PyCTBN.pooled_estimate_short", "PyCTBN.rows_transitions_mean", "PyCTBN.rows_residence_mean", "PyCTBN.rows_transitions"], "note": "Refutes that pooling more and more short trajectories estimates consistently: the last row's state is replaced by -1 (C85), so the last of the n + 1 moves is never counted while the time before it is. Addition of times is exact."},
 {"property": "C207", "status": "proved", "theorems": ["PyCTBN.single_transition_estimates", "PyCTBN.rows_residence_pos"], "note": ""},
 {"property": "C208", "status": "proved", "theorems": ["PyCTBN.many_estimate_limit", "PyCTBN.many_network_recovered", "PyCTBN.many_edges_kept", "PyCTBN.many_hill_recovered"], "note": "Contrast C206: for fixed m and growing K the estimates stay off."},
 {"property": "C209", "status": "proved", "theorems": ["PyCTBN.forked_copies", "PyCTBN.forked_estimates", "PyCTBN.forked_network_explains"], "note": "Refutes that asking for more trajectories this way improves estimation (cf. C87): Demo: a network without edges of whose three-transition trajectory enough copies always give the edge Y -> X."},
 {"property": "C210", "status": "proved", "theorems": ["PyCTBN.pooled_edges_found"], "note": "Edges are thus found by the recorded rates, which C206 shows to be off for fixed m."},
 {"property": "C211", "status": "proved", "theorems": ["PyCTBN.stamp_rounding_bounded", "PyCTBN.pooled_estimate_rounding"], "note": "A bound row by row would grow with the number of rows; this one does not."},
 {"property": "C212", "status": "proved", "theorems": ["PyCTBN.Demo.pooling_adds_edges"], "note": "Refutes, for every fixed m, that estimation from pooled trajectories is consistent: the last transition of every trajectory is overwritten by the -1 row (C68, C206), which couples the recorded rates of independent variables. Contrast C208."},
 {"property": "C213", "status": "proved", "theorems": ["PyCTBN.pooled_edges_kept", "PyCTBN.Demo.pooling_keeps_edges"], "note": "Refutes, as C212 does for score-based estimation, that pooling trajectories of the same max_tr leads to the network. Contrast C208. The assumption on the quantile functions holds for those of the actual distributions (C219)."},
 {"property": "C214", "status": "proved", "theorems": ["PyCTBN.files_are_portable"], "note": "Rests on json.dump's default ensure_ascii=True. UTF-8 and Latin-1 with Windows line ends are given as instances; UTF-16 as default encoding is outside the hypothesis."},
 {"property": "C215", "status": "proved", "theorems": ["PyCTBN.possible_samples", "PyCTBN.possible_samples_until"], "note": "An equivalence in both directions. Random draws are arbitrary non-negative rationals for the exponential variables and arbitrary choices for the multinomial ones; the concrete case is two free variables, with one frame that can be sampled and one that cannot."},
 {"property": "C216", "status": "proved", "theorems": ["PyCTBN.incomplete_last_row_is_zero", "PyCTBN.missing_last_state_is_zero"], "note": "A hazard made exact (fillna(0) of the shifted columns), not a guarantee one would want. A state missing in an earlier row becomes a platform-dependent integer in numpy and is outside the model. The time must be present in the last row."},
 {"property": "C217", "status": "proved", "theorems": ["PyCTBN.sampled_statistics_iff", "PyCTBN.sampled_file_statistics_iff", "PyCTBN.sampled_statistics_fail"], "note": "The exact boundary of C74 and C90: an equivalence. Statistics here are the assignments of the parents and the residence times."},
 {"property": "C218", "status": "proved", "theorems": ["PyCTBN.constraint_estimation_is_network", "PyCTBN.constraint_based_recovers_exactly"], "note": "The whole-network form of C30, and the list-level form of C112."},
 {"property": "C219", "status": "proved", "theorems": ["PyCTBN.scipy_monotone", "PyCTBN.scipy_sane", "PyCTBN.scipy_tighten"], "note": "Removes the assumptions on the quantile functions, up to scipy's floating-point accuracy. ppf conventions (NaN for invalid degrees of freedom or level, ends of the support at 0 and 1) as in scipy."},
 {"property": "C220", "status": "proved", "theorems": ["PyCTBN.rate_difference_rejected", "PyCTBN.chi_statistic_rejected", "PyCTBN.difference_detected"], "note": "Quantitative form of the detection part of C149 (constants from Chebyshev's inequality, not optimal)."},
 {"property": "C221", "status": "proved", "theorems": ["PyCTBN.network_found", "PyCTBN.sampled_network_found", "PyCTBN.typical_edges_found", "PyCTBN.tests_right_if_close", "PyCTBN.scipy_levels"], "note": "Without the shrinking, at fixed levels, no true edge is lost (C197, C198, C204, C208) and errors are as rare as wanted at levels small enough (C227); then every test given all parents keeps an about constant probability of a false alarm. The levels are arguments of the estimator; the user has to choose them by the amount of data. Probability is that of the model of numpy's draws (C177). Sampled process has the rates of C178."},
 {"property": "C222", "status": "proved", "theorems": ["PyCTBN.estimates_converge", "PyCTBN.network_always_recovered", "PyCTBN.hill_always_recovers", "PyCTBN.network_always_found", "PyCTBN.sampled_strong", "PyCTBN.end_strong", "PyCTBN.end_counts", "PyCTBN.rows_continue", "PyCTBN.sampled_increment_tail"], "note": "Stronger than C192, C195, C200, C208 and C221, where for each length the probability of failure tends to 0: here failures cease for good. sampled_increment_tail gives explicit exponential tails of the statistics between any two numbers of transitions. Probability is that of the model of numpy's draws (C177). The sampled process has the rates of C178, hence the squared exit intensity in (i)."},
 {"property": "C223", "status": "proved", "theorems": ["PyCTBN.statistics_expRare", "PyCTBN.estimate_expRare", "PyCTBN.estimate_sample_size", "PyCTBN.sampled_total_tail", "PyCTBN.expRare_ratio"], "note": "Sharpens C190-C192 (probability at most constant over eps^2 n) to an exponential rate. Probability is that of the model of numpy's draws (C177). The sampled process has the rates of C178, hence the squared exit intensity."},
 {"property": "C224", "status": "proved", "theorems": ["PyCTBN.network_recovery_rate", "PyCTBN.network_found_rate", "PyCTBN.edges_kept_rate", "PyCTBN.strong_rate", "PyCTBN.close_rate", "PyCTBN.rare_of_sequences", "PyCTBN.hill_recovery_rate", "PyCTBN.only_truth_rate"], "note": "Adds rates to C196, C208 and C221, where the probability is only shown to tend to 0. gamma and C depend on the network and the parameters and are not computed. Probability is that of the model of numpy's draws (C177)."},
 {"property": "C225", "status": "proved", "theorems": ["PyCTBN.trajectory_contents"], "note": "Label clashes are those of C179; the rows are as delivered by JsonImporter."},
 {"property": "C226", "status": "proved", "theorems": ["PyCTBN.estimates_from_then_on", "PyCTBN.edges_kept_from_then_on", "PyCTBN.close_end_rate", "PyCTBN.RareRate.from_then_on", "PyCTBN.end_between"], "note": "Extends C223 and C224 (iii) to end times and to all later lengths at once; quantifies C222. gamma and C depend on the network and on eps and are not computed. The target of the estimates is the intensity divided by the square of the exit intensity (C178). Probability is that of the model of numpy's draws (C177)."},
 {"property": "C227", "status": "proved", "theorems": ["PyCTBN.network_found_at_small_levels", "PyCTBN.typical_small_levels", "PyCTBN.edges_found_along", "PyCTBN.tests_right_along", "PyCTBN.scipy_along", "PyCTBN.sampled_deviations"], "note": "Complements C221 (levels that shrink with the length): fixed levels cannot make the probability of a wrong structure vanish, since every test given all parents keeps an about constant probability of a false alarm, but they can make it as small as wanted. The bound on the levels and the length needed depend on the network and are not computed. Probability is that of the model of numpy's draws (C177). Sampled process has the rates of C178."},
 {"property": "C228", "status": "proved", "theorems": ["PyCTBN.fast_init_after_failures", "PyCTBN.fast_init_unknown_label", "PyCTBN.fast_init_forgets_failures", "PyCTBN.GraphMembers.fastInit_refines"], "note": "Statement-by-statement model of fast_init (Model/HalfInit.lean) which keeps the members set before the exception; it refines the model of Model/Graph.lean used elsewhere. The histories include failing calls; present edges are the set-theoretic fold of the calls."},
 {"property": "C229", "status": "proved", "theorems": ["PyCTBN.edges_by_name", "PyCTBN.edges_by_position", "PyCTBN.parents_of_records", "PyCTBN.prior_edges_by_position", "PyCTBN.generator_parents_by_name", "PyCTBN.generator_ignores_key_order", "PyCTBN.estimation_and_generation_agree_iff", "PyCTBN.generator_of_sampler", "PyCTBN.generator_requirements"], "note": "generatorFromFile (Model/TableRead.lean) models where/dropna/column access on the imported frames; generator_of_sampler shows that it equals the positional reading used for C91 on files as JsonExporter writes them."}
]}
