{"id": "C01", "title": "Preprocessing yields exactly the consecutive sample pairs", "statement": "After an importer processes a list of trajectory frames with header [Time, v1..vn] (unique row index per frame, no label equal to another label plus 'S'), the concatenated data holds, trajectory by trajectory and in order, one row per pair of consecutive samples: (next time - this time, this state, next state). No row ever pairs samples of two different trajectories and the last sample of each trajectory appears only as a successor.", "quantifier": "every list of trajectories, every trajectory length (including 0 and 1 rows), every number of variables and every label list without the suffix collision", "why_tests_cant": "tests use one or two recorded data sets; the claim is about every number, length and content of trajectories", "anchors": ["PyCTBN/PyCTBN/utility/abstract_importer.py:AbstractImporter.compute_row_delta_sigle_samples_frame", "PyCTBN/PyCTBN/utility/abstract_importer.py:AbstractImporter.compute_row_delta_in_all_samples_frames"]}
{"id": "C02", "title": "Observed time is conserved by preprocessing", "statement": "The sum of the time deltas produced for a data set equals the sum over its trajectories of (last time stamp - first time stamp).", "quantifier": "every list of well-formed trajectories", "why_tests_cant": "a telescoping identity over unbounded lengths", "anchors": ["PyCTBN/PyCTBN/utility/abstract_importer.py:AbstractImporter.compute_row_delta_sigle_samples_frame", "PyCTBN/PyCTBN/utility/abstract_importer.py:AbstractImporter.build_list_of_samples_array"]}
{"id": "C03", "title": "Preprocessing does not depend on how variables are named", "statement": "Whatever distinct labels the variables carry, preprocessing delivers the consecutive pairs of C01 for every variable.", "quantifier": "every duplicate-free label list", "why_tests_cant": "the failing label sets (a label equal to another one plus 'S') are not in any recorded data set", "anchors": ["PyCTBN/PyCTBN/utility/abstract_importer.py:AbstractImporter.compute_row_delta_in_all_samples_frames"]}
{"id": "C04", "title": "The configured time key designates the time column", "statement": "JsonImporter.import_data uses the column named by time_key as the time column, whatever its name and whatever its position in the JSON records.", "quantifier": "every time key and every column order", "why_tests_cant": "recorded files always call the column 'Time' and put it first", "anchors": ["PyCTBN/PyCTBN/utility/json_importer.py:JsonImporter.build_sorter", "PyCTBN/PyCTBN/utility/abstract_importer.py:AbstractImporter.compute_row_delta_in_all_samples_frames"]}
{"id": "C05", "title": "Only the last row of a trajectory is dropped", "statement": "Preprocessing a trajectory frame drops exactly its last row, whatever row labels the frame carries.", "quantifier": "every frame and every row index, including repeated row labels", "why_tests_cant": "depends on the row labels of user-supplied frames", "anchors": ["PyCTBN/PyCTBN/utility/abstract_importer.py:AbstractImporter.compute_row_delta_sigle_samples_frame"]}
{"id": "C06", "title": "Building the structure checks and preserves the variable order", "statement": "SamplePath.build_structure succeeds exactly when the data columns and the variables table list the same labels in the same order; on success every label keeps its own cardinality and its row-index from the table, the number of variables is the number of data columns, and with the default row index each label's index is the position of its data column. Otherwise it raises and builds nothing.", "quantifier": "every importer state", "why_tests_cant": "ranges over all tables and column orders", "anchors": ["PyCTBN/PyCTBN/structure_graph/sample_path.py:SamplePath.build_structure"]}
{"id": "C07", "title": "Building trajectories preserves the imported rows and can be repeated", "statement": "Each call of SamplePath.build_trajectories exposes exactly the imported rows (time deltas, current states, next states).", "quantifier": "every imported data set and every number of calls", "why_tests_cant": "a property of call histories", "anchors": ["PyCTBN/PyCTBN/structure_graph/sample_path.py:SamplePath.build_trajectories", "PyCTBN/PyCTBN/utility/abstract_importer.py:AbstractImporter.clear_concatenated_frame", "PyCTBN/PyCTBN/structure_graph/trajectory.py:Trajectory"]}
{"id": "C08", "title": "Removing a node affects only that node", "statement": "Structure.remove_node(x) forgets x and its incident edges and nothing else: every other label keeps its index, its cardinality and its edges (in order), the data-set variable count is unchanged, and a later query about x raises ValueError. Removing an unknown label raises ValueError.", "quantifier": "every well-formed structure and label", "why_tests_cant": "all structures of all sizes", "anchors": ["PyCTBN/PyCTBN/structure_graph/structure.py:Structure.remove_node", "PyCTBN/PyCTBN/structure_graph/structure.py:Structure.get_node_indx", "PyCTBN/PyCTBN/structure_graph/structure.py:Structure.get_states_number"]}
{"id": "C09", "title": "Labels, indexes and cardinalities stay aligned under any edit history", "statement": "After any sequence of remove_node, add_edge, remove_edge and clean_structure_edges on a well-formed structure, the surviving labels are distinct and each of them answers get_node_indx and get_states_number with the values it had initially.", "quantifier": "every structure and every finite sequence of operations", "why_tests_cant": "induction over histories", "anchors": ["PyCTBN/PyCTBN/structure_graph/structure.py:Structure"]}
{"id": "C10", "title": "Equality of structures is an equivalence that respects the answers they give", "statement": "Structure equality is reflexive, symmetric and transitive, and two equal structures give every label the same cardinality.", "quantifier": "all pairs and triples of structures", "why_tests_cant": "the violating pair (permuted labels) is not tested", "anchors": ["PyCTBN/PyCTBN/structure_graph/structure.py:Structure.__eq__"]}
{"id": "C11", "title": "The edge list is a faithful list of edges", "statement": "contains_edge after any sequence of add_edge/remove_edge/clean equals membership in the multiset obtained by adding, removing one occurrence, or emptying; remove_edge of an absent edge raises and changes nothing.", "quantifier": "every sequence of edge operations", "why_tests_cant": "histories of any length", "anchors": ["PyCTBN/PyCTBN/structure_graph/structure.py:Structure.add_edge", "PyCTBN/PyCTBN/structure_graph/structure.py:Structure.remove_edge", "PyCTBN/PyCTBN/structure_graph/structure.py:Structure.contains_edge"]}
{"id": "C12", "title": "Index and label look-ups are inverse", "statement": "get_node_id(get_positional_node_indx(l)) = l for each label; and get_node_id(get_node_indx(l)) = l.", "quantifier": "every well-formed structure reachable from an imported one", "why_tests_cant": "second half breaks only after removals", "anchors": ["PyCTBN/PyCTBN/structure_graph/structure.py:Structure.get_node_id", "PyCTBN/PyCTBN/structure_graph/structure.py:Structure.get_node_indx", "PyCTBN/PyCTBN/structure_graph/structure.py:Structure.get_positional_node_indx"]}
{"id": "C13", "title": "Parent information is canonical", "statement": "After NetworkGraph.fast_init(n) the reported parents of n are exactly the graph's parents of n, listed in the order of the structure's labels, each with its own index and cardinality \u2014 independent of the order and history in which edges were added or removed.", "quantifier": "every well-formed structure, every graph history", "why_tests_cant": "all insertion orders and histories", "anchors": ["PyCTBN/PyCTBN/structure_graph/network_graph.py:NetworkGraph.fast_init", "PyCTBN/PyCTBN/structure_graph/network_graph.py:NetworkGraph.get_ordered_by_indx_set_of_parents"]}
{"id": "C14", "title": "The graph behaves like a set of edges", "statement": "After any sequence of add_edges and remove_edges, has_edge and get_parents_by_id agree with the abstract edge set, no edge is listed twice, and adding then removing a fresh edge restores the edge set.", "quantifier": "every sequence of graph operations", "why_tests_cant": "induction over histories", "anchors": ["PyCTBN/PyCTBN/structure_graph/network_graph.py:NetworkGraph.add_edges", "PyCTBN/PyCTBN/structure_graph/network_graph.py:NetworkGraph.remove_edges", "PyCTBN/PyCTBN/structure_graph/network_graph.py:NetworkGraph.has_edge"]}
{"id": "C15", "title": "The parent-combination table enumerates every parent assignment once, in CIM order", "statement": "Row r of the p_combs table is the parent assignment to which the r-th CIM of the node belongs (first parent varying fastest); every assignment in range occurs exactly once and nothing else occurs.", "quantifier": "every list of parent cardinalities", "why_tests_cant": "the tests only use parents of equal cardinality", "anchors": ["PyCTBN/PyCTBN/structure_graph/network_graph.py:NetworkGraph.build_p_comb_structure_for_a_node"]}
{"id": "C16", "title": "Row indexing separates different child/parent states", "statement": "The scalar index used to aggregate a data row is in range and distinguishes any two different (child state, parent states) and equals child + card*(row of the assignment in p_combs).", "quantifier": "every child cardinality, every list of parent cardinalities, every in-range row", "why_tests_cant": "collisions appear only for mixed cardinalities", "anchors": ["PyCTBN/PyCTBN/structure_graph/network_graph.py:NetworkGraph.build_time_scalar_indexing_structure_for_a_node", "PyCTBN/PyCTBN/structure_graph/network_graph.py:NetworkGraph.build_transition_scalar_indexing_structure_for_a_node", "PyCTBN/PyCTBN/estimators/parameters_estimator.py:ParametersEstimator.compute_state_res_time_for_node"]}
{"id": "C17", "title": "Residence times are exact", "statement": "For every child state x and parent assignment u (row u of p_combs), the estimated residence time equals the total duration of the data rows in which the child is x and the parents are u.", "quantifier": "every data set, every node, every parent set", "why_tests_cant": "all data and all parent sets", "anchors": ["PyCTBN/PyCTBN/estimators/parameters_estimator.py:ParametersEstimator.compute_state_res_time_for_node", "PyCTBN/PyCTBN/estimators/parameters_estimator.py:ParametersEstimator.compute_parameters_for_node"]}
{"id": "C18", "title": "Transition counts are exact", "statement": "For every x != x' and parent assignment u, the estimated transition count equals the number of data rows (whose next child state is not the -1 terminator) going from x to x' while the parents are u.", "quantifier": "every data set, node and parent set", "why_tests_cant": "all data and all parent sets", "anchors": ["PyCTBN/PyCTBN/estimators/parameters_estimator.py:ParametersEstimator.compute_state_transitions_for_a_node"]}
{"id": "C19", "title": "Diagonal of the count matrix is the number of exits", "statement": "Whenever transition counting returns, each diagonal entry equals the sum of the other entries of its row.", "quantifier": "every data set, every cardinalities (equal or not)", "why_tests_cant": "all matrices", "anchors": ["PyCTBN/PyCTBN/estimators/parameters_estimator.py:ParametersEstimator.compute_state_transitions_for_a_node"]}
{"id": "C20", "title": "Total time is conserved by estimation", "statement": "Whenever residence-time estimation returns, the sum of all residence times equals the sum of all time deltas, whatever the cardinalities.", "quantifier": "every data set, node, parent set", "why_tests_cant": "conservation law over unbounded data", "anchors": ["PyCTBN/PyCTBN/estimators/parameters_estimator.py:ParametersEstimator.compute_state_res_time_for_node"]}
{"id": "C21", "title": "Mixed cardinalities: where exactness stops", "statement": "The aggregation index is correct for every in-range row if and only if every parent has cardinality 1 or the child's cardinality; with one parent of larger cardinality than the child, estimation raises ValueError as soon as the data visits the top state; with one smaller parent, two different states are merged.", "quantifier": "every child cardinality and parent cardinality list", "why_tests_cant": "infinitely many cardinality combinations", "anchors": ["PyCTBN/PyCTBN/structure_graph/network_graph.py:NetworkGraph.build_time_scalar_indexing_structure_for_a_node", "PyCTBN/PyCTBN/estimators/parameters_estimator.py:ParametersEstimator.compute_state_res_time_for_node"]}
{"id": "C22", "title": "Estimates do not depend on the order of trajectories", "statement": "Permuting the data rows (hence the trajectories) leaves residence times and transition counts unchanged.", "quantifier": "every data set and permutation", "why_tests_cant": "all permutations", "anchors": ["PyCTBN/PyCTBN/estimators/parameters_estimator.py:ParametersEstimator.compute_parameters_for_node"]}
{"id": "C23", "title": "Estimates are additive over data sets", "statement": "Residence times and transition counts of the union of two data sets are the entrywise sums of those of the parts.", "quantifier": "every pair of data sets", "why_tests_cant": "all data sets", "anchors": ["PyCTBN/PyCTBN/estimators/parameters_estimator.py:ParametersEstimator.compute_parameters_for_node"]}
{"id": "C24", "title": "Estimated CIMs have the documented coefficients and are intensity matrices", "statement": "Each estimated CIM has off-diagonal entries M[x,x']/T[x], diagonal -M[x]/T[x], and zero row sums.", "quantifier": "every residence-time vector and count matrix", "why_tests_cant": "all inputs; the tests only compare with stored reference values", "anchors": ["PyCTBN/PyCTBN/structure_graph/conditional_intensity_matrix.py:ConditionalIntensityMatrix.compute_cim_coefficients"]}
{"id": "C25", "title": "Selecting CIMs by parent assignment", "statement": "filter_cims_with_mask(mask, comb) returns, in order, exactly the CIMs whose parent assignment agrees with comb on the masked parents (all CIMs when there is at most one parent). If comb has another number of entries than there are masked parents: with a single entry in comb, or a single masked parent, numpy's comparison pairs the single value with every value of the other side, and exactly the CIMs for which all pairs are equal are returned, in order; otherwise ValueError is raised.", "quantifier": "every set of CIMs, mask and assignment", "why_tests_cant": "all masks and assignments", "anchors": ["PyCTBN/PyCTBN/structure_graph/set_of_cims.py:SetOfCims.filter_cims_with_mask"]}
{"id": "C26", "title": "The CIM cache is a first-write-wins map", "statement": "After any sequence of put/find/clear, find(S) returns the value of the first put with an equal set since the last clear, and None when there is none.", "quantifier": "every operation sequence", "why_tests_cant": "histories of any length", "anchors": ["PyCTBN/PyCTBN/utility/cache.py:Cache"]}
{"id": "C27", "title": "Caching never changes a test result", "statement": "Within the processing of one child, an independence test answers exactly as it would with an empty cache.", "quantifier": "every history of tests for one child", "why_tests_cant": "all histories of tests", "anchors": ["PyCTBN/PyCTBN/estimators/structure_constraint_based_estimator.py:StructureConstraintBasedEstimator.complete_test", "PyCTBN/PyCTBN/utility/cache.py:Cache"]}
{"id": "C28", "title": "An independence test never fails for want of an intermediate result", "statement": "complete_test never fails with an unbound-variable error, whatever tests were run before for the same child.", "quantifier": "every sequence of tests", "why_tests_cant": "depends on the history of the cache", "anchors": ["PyCTBN/PyCTBN/estimators/structure_constraint_based_estimator.py:StructureConstraintBasedEstimator.complete_test", "PyCTBN/PyCTBN/optimizers/constraint_based_optimizer.py:ConstraintBasedOptimizer.optimize_structure"]}
{"id": "C29", "title": "No cached statistics leak from one child to the next", "statement": "Every child is processed starting from an empty cache, also when the processing of an earlier child failed.", "quantifier": "every sequence of children and every crash point", "why_tests_cant": "crash points", "anchors": ["PyCTBN/PyCTBN/optimizers/constraint_based_optimizer.py:ConstraintBasedOptimizer.optimize_structure", "PyCTBN/PyCTBN/utility/cache.py:Cache.clear"]}
{"id": "C30", "title": "Constraint-based search terminates and returns edges into the child only", "statement": "For every child the CTPC search halts and its result consists of edges (p, child) with p a different known variable, without duplicates.", "quantifier": "every set of variables and every behaviour of the independence tests", "why_tests_cant": "all test outcomes", "anchors": ["PyCTBN/PyCTBN/optimizers/constraint_based_optimizer.py:ConstraintBasedOptimizer.optimize_structure"]}
{"id": "C31", "title": "Known edges survive constraint-based search", "statement": "An edge declared as prior knowledge is always in the estimated structure.", "quantifier": "every data set, known edge list and test behaviour", "why_tests_cant": "all test outcomes", "anchors": ["PyCTBN/PyCTBN/optimizers/constraint_based_optimizer.py:ConstraintBasedOptimizer.optimize_structure", "PyCTBN/PyCTBN/estimators/structure_estimator.py:StructureEstimator.build_removable_edges_matrix"]}
{"id": "C32", "title": "An edge is dropped only on evidence", "statement": "If an edge (p, child) is missing from the estimate, then p was not prior knowledge and some independence test of p and child given a set of other variables accepted independence.", "quantifier": "every run", "why_tests_cant": "all test outcomes", "anchors": ["PyCTBN/PyCTBN/optimizers/constraint_based_optimizer.py:ConstraintBasedOptimizer.optimize_structure"]}
{"id": "C33", "title": "Every kept edge is dependent given every subset of the other kept parents", "statement": "If (p, child) is in the estimate then either p is known / was declared untestable by the data-size rule, or the test of p and child given every subset of the remaining parents rejected independence.", "quantifier": "every run", "why_tests_cant": "quantifies over all subsets", "anchors": ["PyCTBN/PyCTBN/optimizers/constraint_based_optimizer.py:ConstraintBasedOptimizer.optimize_structure"]}
{"id": "C34", "title": "Parallel and sequential constraint-based estimation agree", "statement": "The estimated edge set is the same with and without multiprocessing, for every number of processes and every order in which children are processed.", "quantifier": "every schedule and child order", "why_tests_cant": "schedules", "anchors": ["PyCTBN/PyCTBN/estimators/structure_constraint_based_estimator.py:StructureConstraintBasedEstimator.ctpc_algorithm"]}
{"id": "C35", "title": "Re-running constraint-based estimation gives the same answer", "statement": "Calling estimate_structure again on the same estimator returns the same edge set, although tests may have marked edges as not removable during the first call.", "quantifier": "every data set", "why_tests_cant": "depends on state left over from the first run", "anchors": ["PyCTBN/PyCTBN/estimators/structure_constraint_based_estimator.py:StructureConstraintBasedEstimator.estimate_structure", "PyCTBN/PyCTBN/estimators/structure_constraint_based_estimator.py:StructureConstraintBasedEstimator.independence_test"]}
{"id": "C36", "title": "A complete test compares exactly the matching CIMs", "statement": "complete_test answers True iff for every assignment u of the separating set and every value v of the tested parent, the pair (CIM given u, CIM given u and v) passes the two-CIM test.", "quantifier": "every data set, child, parent and separating set", "why_tests_cant": "all combinations", "anchors": ["PyCTBN/PyCTBN/estimators/structure_constraint_based_estimator.py:StructureConstraintBasedEstimator.complete_test", "PyCTBN/PyCTBN/structure_graph/set_of_cims.py:SetOfCims.filter_cims_with_mask"]}
{"id": "C37", "title": "All separating sets of a size are generated once", "statement": "generate_possible_sub_sets_of_size(u, k, p) yields every k-element sub-list of u without p exactly once (so C(|u|-1, k) of them) and nothing else, and raises if p is not in u.", "quantifier": "every list without duplicates, size and element", "why_tests_cant": "all sizes", "anchors": ["PyCTBN/PyCTBN/estimators/structure_estimator.py:StructureEstimator.generate_possible_sub_sets_of_size"]}
{"id": "C38", "title": "Prior knowledge is recorded exactly", "statement": "The removable-edges matrix built from known edges is False at (i, j) iff a known edge leads from the variable with index i to the one with index j, True elsewhere; unknown labels raise.", "quantifier": "every list of known edges", "why_tests_cant": "all edge lists", "anchors": ["PyCTBN/PyCTBN/estimators/structure_estimator.py:StructureEstimator.build_removable_edges_matrix"]}
{"id": "C39", "title": "The two-CIM test decides exactly by its three rules", "statement": "independence_test answers True iff the data-size rule (for children with more than two states) is met, no state's F statistic leaves the acceptance interval and no state's chi-square statistic exceeds the quantile; a failing data-size rule additionally freezes the tested edge.", "quantifier": "every pair of CIMs and every quantile function", "why_tests_cant": "all matrices", "anchors": ["PyCTBN/PyCTBN/estimators/structure_constraint_based_estimator.py:StructureConstraintBasedEstimator.independence_test"]}
{"id": "C40", "title": "The chi-square test can reject for every child", "statement": "If the next-state proportions of a state differ strongly enough between the two CIMs, the chi-square part rejects independence.", "quantifier": "every child cardinality and count matrices", "why_tests_cant": "fails for all binary children and for any unobserved pair; no test looks at it", "anchors": ["PyCTBN/PyCTBN/estimators/structure_constraint_based_estimator.py:StructureConstraintBasedEstimator.independence_test"]}
{"id": "C41", "title": "The data-size rule uses the documented degrees of freedom", "statement": "compute_thumb_value equals (|child|-1)^2 * |parent| * product of the separating set's cardinalities and is positive when those cardinalities are positive and the child has at least two states.", "quantifier": "all cardinalities", "why_tests_cant": "all lists", "anchors": ["PyCTBN/PyCTBN/estimators/structure_constraint_based_estimator.py:StructureConstraintBasedEstimator.compute_thumb_value"]}
{"id": "C42", "title": "The FamScore is the log marginal likelihood", "statement": "exp of the FamScore equals the product over parent assignments and states of the Gamma-prior marginal likelihood of the exits and the Dirichlet-prior marginal likelihood of the targets; the exit factor equals the integral over the rate of prior density times likelihood.", "quantifier": "every list of count matrices and residence times, all positive hyper-parameters", "why_tests_cant": "an identity of real functions", "anchors": ["PyCTBN/PyCTBN/estimators/fam_score_calculator.py:FamScoreCalculator.get_fam_score"]}
{"id": "C43", "title": "Unobserved parent assignments do not move the score", "statement": "A CIM with zero counts and zero times contributes 0 to the FamScore, so adding or deleting such assignments leaves the score unchanged; an empty data set has score 0.", "quantifier": "every list of CIMs", "why_tests_cant": "all lists", "anchors": ["PyCTBN/PyCTBN/estimators/fam_score_calculator.py:FamScoreCalculator.get_fam_score"]}
{"id": "C44", "title": "The FamScore does not depend on the order of parent assignments and is additive", "statement": "Permuting the CIMs leaves the score unchanged; the score of a concatenation is the sum of the scores.", "quantifier": "every list of CIMs and permutation", "why_tests_cant": "all permutations", "anchors": ["PyCTBN/PyCTBN/estimators/fam_score_calculator.py:FamScoreCalculator.get_fam_score"]}
{"id": "C45", "title": "FamScore raises exactly on degenerate inputs", "statement": "get_fam_score raises ZeroDivisionError for a one-state node and IndexError for an empty CIM list, and never otherwise (for positive hyper-parameters and non-negative statistics).", "quantifier": "all inputs", "why_tests_cant": "error branches for all inputs", "anchors": ["PyCTBN/PyCTBN/estimators/fam_score_calculator.py:FamScoreCalculator.get_fam_score"]}
{"id": "C46", "title": "Hill climbing returns edges into the node only", "statement": "When the sample path's structure has no edges (as arranged by estimate_structure), hill climbing on node n returns edges (p, n) with p another variable, each at most once.", "quantifier": "every score function, random choice sequence and parameter setting", "why_tests_cant": "all random choices and scores", "anchors": ["PyCTBN/PyCTBN/optimizers/hill_climbing_search.py:HillClimbing.optimize_structure"]}
{"id": "C47", "title": "Hill climbing respects max_parents", "statement": "The returned parent set has at most max(max_parents, number of known parents) elements.", "quantifier": "every score function and random choice sequence", "why_tests_cant": "all random choices", "anchors": ["PyCTBN/PyCTBN/optimizers/hill_climbing_search.py:HillClimbing.optimize_structure"]}
{"id": "C48", "title": "Hill climbing keeps known edges", "statement": "Every known edge into the node is in the result.", "quantifier": "every score function, random choice sequence and max_parents", "why_tests_cant": "violated only for particular random draws when max_parents is set", "anchors": ["PyCTBN/PyCTBN/optimizers/hill_climbing_search.py:HillClimbing.optimize_structure"]}
{"id": "C49", "title": "Hill climbing returns the best structure it evaluated", "statement": "The score of the returned structure equals the maximum of all scores evaluated during the search; in particular it is at least the score of the starting structure.", "quantifier": "every score function and random choice sequence", "why_tests_cant": "all executions", "anchors": ["PyCTBN/PyCTBN/optimizers/hill_climbing_search.py:HillClimbing.optimize_structure"]}
{"id": "C50", "title": "Hill climbing's iteration and patience limits", "statement": "At most iterations_number candidates are evaluated, and with patience k the search stops right after k+1 consecutive evaluations without improvement and never earlier than that or the iteration limit.", "quantifier": "every execution", "why_tests_cant": "all executions", "anchors": ["PyCTBN/PyCTBN/optimizers/hill_climbing_search.py:HillClimbing.optimize_structure"]}
{"id": "C51", "title": "Hill climbing never fails for lack of candidates", "statement": "optimize_structure succeeds whatever the number of variables, known edges and max_parents.", "quantifier": "all configurations", "why_tests_cant": "boundary configurations (single variable, all parents known, max_parents=0)", "anchors": ["PyCTBN/PyCTBN/optimizers/hill_climbing_search.py:HillClimbing.optimize_structure"]}
{"id": "C52", "title": "Tabu search returns edges into the node only and respects max_parents", "statement": "As for hill climbing: the result consists of edges (p, n), p another variable, each once, at most max(max_parents, number of known parents) of them.", "quantifier": "every score function, random choice sequence and parameters", "why_tests_cant": "all random choices", "anchors": ["PyCTBN/PyCTBN/optimizers/tabu_search.py:TabuSearch.optimize_structure"]}
{"id": "C53", "title": "Tabu search returns the best structure it evaluated", "statement": "The score of the returned structure is the maximum of all scores evaluated.", "quantifier": "every execution", "why_tests_cant": "all executions", "anchors": ["PyCTBN/PyCTBN/optimizers/tabu_search.py:TabuSearch.optimize_structure"]}
{"id": "C54", "title": "Tabu search keeps known edges", "statement": "Every known edge into the node is in the result.", "quantifier": "every execution and max_parents", "why_tests_cant": "violated only for particular draws when max_parents is set", "anchors": ["PyCTBN/PyCTBN/optimizers/tabu_search.py:TabuSearch.optimize_structure"]}
{"id": "C55", "title": "Tabu discipline", "statement": "A candidate is re-examined only if it left the tabu list or every candidate is tabu, in which case it is the oldest one; the tabu list has no repetitions, contains only candidates and never holds more than tabu_length of them.", "quantifier": "every execution", "why_tests_cant": "invariant over all executions", "anchors": ["PyCTBN/PyCTBN/optimizers/tabu_search.py:TabuSearch.optimize_structure"]}
{"id": "C56", "title": "Tabu search never blocks", "statement": "optimize_structure always returns: it never waits forever on the tabu queue.", "quantifier": "all configurations", "why_tests_cant": "a hang is not observable by a test; boundary configurations", "anchors": ["PyCTBN/PyCTBN/optimizers/tabu_search.py:TabuSearch.optimize_structure"]}
{"id": "C57", "title": "Score-based estimation assembles per-node results", "statement": "estimate_structure returns exactly the union of the per-node searches; hence every node's in-degree obeys the per-node bound and no self-loop occurs.", "quantifier": "every execution", "why_tests_cant": "all executions", "anchors": ["PyCTBN/PyCTBN/estimators/structure_score_based_estimator.py:StructureScoreBasedEstimator.estimate_structure"]}
{"id": "C58", "title": "Parallel and sequential score-based estimation agree", "statement": "For given per-node random choices the estimated edge set is the same for sequential and parallel execution and every order of nodes.", "quantifier": "every schedule", "why_tests_cant": "schedules", "anchors": ["PyCTBN/PyCTBN/estimators/structure_score_based_estimator.py:StructureScoreBasedEstimator.estimate_structure"]}
{"id": "C59", "title": "The score of a candidate depends only on its parent set", "statement": "get_score_from_graph(g, n) depends on g only through the set of parents of n.", "quantifier": "all graphs and edge histories", "why_tests_cant": "all histories", "anchors": ["PyCTBN/PyCTBN/estimators/structure_score_based_estimator.py:StructureScoreBasedEstimator.get_score_from_graph"]}
{"id": "C60", "title": "Reported precision and recall", "statement": "The printed precision is |true \u2229 estimated| / |estimated| and recall |true \u2229 estimated| / |true|, both in [0,1]; when a denominator is zero the run still returns the estimated edges.", "quantifier": "all edge sets", "why_tests_cant": "all edge sets", "anchors": ["PyCTBN/PyCTBN/estimators/structure_score_based_estimator.py:StructureScoreBasedEstimator.estimate_structure"]}
{"id": "C61", "title": "Spurious edges are reported", "statement": "After estimation, spurious_edges() returns the estimated edges that are not in the true structure.", "quantifier": "every data set with a true structure", "why_tests_cant": "needs the state left by the estimation run", "anchors": ["PyCTBN/PyCTBN/estimators/structure_estimator.py:StructureEstimator.spurious_edges", "PyCTBN/PyCTBN/structure_graph/structure.py:Structure.clean_structure_edges"]}
{"id": "C62", "title": "The adjacency matrix represents the estimated edges", "statement": "adjacency_matrix()[i][j] is True iff (node i, node j) is an estimated edge; before estimation it is the complete graph without self-loops.", "quantifier": "all estimates", "why_tests_cant": "all edge sets", "anchors": ["PyCTBN/PyCTBN/estimators/structure_estimator.py:StructureEstimator.adjacency_matrix", "PyCTBN/PyCTBN/estimators/structure_estimator.py:StructureEstimator.build_complete_graph"]}
{"id": "C63", "title": "Saved results mention every variable", "statement": "The file written by save_results after estimation lists all nodes and exactly the estimated edges.", "quantifier": "all estimates", "why_tests_cant": "isolated variables", "anchors": ["PyCTBN/PyCTBN/estimators/structure_estimator.py:StructureEstimator.save_results", "PyCTBN/PyCTBN/estimators/structure_score_based_estimator.py:StructureScoreBasedEstimator.estimate_structure"]}
{"id": "C64", "title": "Generated graphs have the requested density and no self-loops", "statement": "generate_graph never produces a self-loop or repeated edge; with fixed=True and density d the number of edges is exactly d*n*(n-1) for 0<=d<=1, and a non-integer target raises RuntimeError.", "quantifier": "all label lists, densities and random draws", "why_tests_cant": "all random draws", "anchors": ["PyCTBN/PyCTBN/structure_graph/network_generator.py:NetworkGenerator.generate_graph"]}
{"id": "C65", "title": "Generated CIM sets cover all parent assignments", "statement": "generate_cims gives every node one CIM per parent assignment (one CIM for a root), of the node's cardinality.", "quantifier": "all graphs and cardinalities", "why_tests_cant": "all graphs", "anchors": ["PyCTBN/PyCTBN/structure_graph/network_generator.py:NetworkGenerator.generate_cims"]}
{"id": "C66", "title": "Generated CIMs are intensity matrices", "statement": "Every generated CIM has non-negative off-diagonal entries, diagonal entries -d with d in [min_val, max_val] (up to rounding to 4 digits), and rows that sum to zero up to the rounding error card*0.00005.", "quantifier": "all random draws, ranges and cardinalities", "why_tests_cant": "all random draws", "anchors": ["PyCTBN/PyCTBN/structure_graph/network_generator.py:NetworkGenerator.__generate_cim"]}
{"id": "C67", "title": "Exported parent order matches the CIM parent order", "statement": "The parents of a node listed from the generator's edge table (dyn_str) are in the same order as the columns of its p_combs, whatever order the edges were generated in.", "quantifier": "all generated graphs", "why_tests_cant": "all shuffles", "anchors": ["PyCTBN/PyCTBN/structure_graph/network_generator.py:NetworkGenerator.dyn_str", "PyCTBN/PyCTBN/structure_graph/network_graph.py:NetworkGraph.get_ordered_by_indx_set_of_parents", "PyCTBN/PyCTBN/structure_graph/trajectory_generator.py:TrajectoryGenerator.__init__"]}
{"id": "C68", "title": "A sampled trajectory changes one variable at a time within range", "statement": "In a trajectory returned by CTBN_Sample every row before the last is a vector of in-range states, the first is all zeros, and consecutive such rows differ in exactly one variable; the last row is all -1.", "quantifier": "all networks and random draws", "why_tests_cant": "all random draws", "anchors": ["PyCTBN/PyCTBN/structure_graph/trajectory_generator.py:TrajectoryGenerator.CTBN_Sample"]}
{"id": "C69", "title": "Sampled times are ordered", "statement": "The Time column starts at 0 and never decreases, and is never beyond the (rounded) requested end time.", "quantifier": "all networks and random draws", "why_tests_cant": "all random draws", "anchors": ["PyCTBN/PyCTBN/structure_graph/trajectory_generator.py:TrajectoryGenerator.CTBN_Sample"]}
{"id": "C70", "title": "Sampling stops as requested", "statement": "With max_tr = m sampling always returns, with exactly m+1 rows when no end time is set, and with at most m+1 rows otherwise; with neither limit it never returns.", "quantifier": "all networks and random draws", "why_tests_cant": "termination for all draws", "anchors": ["PyCTBN/PyCTBN/structure_graph/trajectory_generator.py:TrajectoryGenerator.CTBN_Sample"]}
{"id": "C71", "title": "Sampling uses the CIM of the current parent state", "statement": "Whenever the next event is chosen, every pending event time was drawn with the exit intensity that the network assigns to the variable's current state under the current states of its parents, and the new state is drawn from that same CIM row.", "quantifier": "all networks, histories and random draws", "why_tests_cant": "a history invariant (stale timers)", "anchors": ["PyCTBN/PyCTBN/structure_graph/trajectory_generator.py:TrajectoryGenerator.CTBN_Sample", "PyCTBN/PyCTBN/structure_graph/set_of_cims.py:SetOfCims.filter_cims_with_mask"]}
{"id": "C72", "title": "Mean holding times are the reciprocals of exit intensities", "statement": "The holding time of a state with exit intensity q is a standard exponential draw divided by q.", "quantifier": "all networks and draws", "why_tests_cant": "distributional; a sample test cannot settle it", "anchors": ["PyCTBN/PyCTBN/structure_graph/trajectory_generator.py:TrajectoryGenerator.CTBN_Sample"]}
{"id": "C73", "title": "Every requested transition is observable in the sample", "statement": "A trajectory sampled with max_tr = m shows m state transitions followed by the terminator row.", "quantifier": "all networks and draws", "why_tests_cant": "all m", "anchors": ["PyCTBN/PyCTBN/structure_graph/trajectory_generator.py:TrajectoryGenerator.CTBN_Sample"]}
{"id": "C74", "title": "A sampled trajectory is valid input to the estimators", "statement": "Importing a sampled trajectory and estimating any node never fails on the -1 terminator: residence times use only genuine states and the transition into the terminator is not counted.", "quantifier": "all samples", "why_tests_cant": "composition of two modules for all draws", "anchors": ["PyCTBN/PyCTBN/structure_graph/trajectory_generator.py:TrajectoryGenerator.CTBN_Sample", "PyCTBN/PyCTBN/estimators/parameters_estimator.py:ParametersEstimator.compute_state_transitions_for_a_node", "PyCTBN/PyCTBN/utility/abstract_importer.py:AbstractImporter.compute_row_delta_sigle_samples_frame"]}
{"id": "C75", "title": "Parallel sampling returns one trajectory per request", "statement": "multi_trajectory returns, for every completion order of the workers, exactly one trajectory per requested limit, each as the sequential sampler would produce with that worker's random state; t_ends takes precedence over max_trs.", "quantifier": "all completion orders", "why_tests_cant": "schedules", "anchors": ["PyCTBN/PyCTBN/structure_graph/trajectory_generator.py:TrajectoryGenerator.multi_trajectory"]}
{"id": "C76", "title": "Exported CIM keys are unambiguous", "statement": "Two different parent assignments of a node are exported under different keys, so no CIM is overwritten.", "quantifier": "all parent labels and cardinalities", "why_tests_cant": "all label strings", "anchors": ["PyCTBN/PyCTBN/utility/json_exporter.py:JsonExporter.cims_to_json"]}
{"id": "C77", "title": "Exported CIMs are read back for the same parent assignments", "statement": "Reading the exported CIM dictionary with TrajectoryGenerator recovers for every node the same assignments and the same CIMs in the same order.", "quantifier": "all networks", "why_tests_cant": "all labels and cardinalities (breaks at cardinality > 10 and for labels containing '=')", "anchors": ["PyCTBN/PyCTBN/utility/json_exporter.py:JsonExporter.cims_to_json", "PyCTBN/PyCTBN/structure_graph/trajectory_generator.py:TrajectoryGenerator.__init__"]}
{"id": "C78", "title": "A sampled and exported CIM look-up finds the CIM of the current state", "statement": "For every node and in-range parent assignment, the look-up used by the sampler and the exporter (filter by assignment, then index) returns exactly the CIM stored for that assignment.", "quantifier": "all cardinalities of parents", "why_tests_cant": "tests use equal cardinalities", "anchors": ["PyCTBN/PyCTBN/structure_graph/set_of_cims.py:SetOfCims.filter_cims_with_mask", "PyCTBN/PyCTBN/structure_graph/trajectory_generator.py:TrajectoryGenerator.CTBN_Sample", "PyCTBN/PyCTBN/utility/json_exporter.py:JsonExporter.cims_to_json"]}
{"id": "C79", "title": "From raw trajectories to statistics", "statement": "End to end: after import, build_trajectories, build_structure and parameter estimation, the residence times of any node sum to the total observed time of the raw trajectories, and each transition count is the number of consecutive raw samples making that transition under that parent assignment.", "quantifier": "every raw data set of same-cardinality variables", "why_tests_cant": "composition of all stages over all data", "anchors": ["PyCTBN/PyCTBN/utility/abstract_importer.py:AbstractImporter", "PyCTBN/PyCTBN/structure_graph/sample_path.py:SamplePath", "PyCTBN/PyCTBN/estimators/parameters_estimator.py:ParametersEstimator.compute_parameters_for_node"]}
{"id": "C80", "title": "Removing a node from a graph removes it and its edges only", "statement": "NetworkGraph.remove_node(v) removes v and every edge touching v; all other nodes, edges, indexes and cardinalities, and the parents of the other nodes, stay what they were; removing an unknown node raises and changes nothing.", "quantifier": "every graph reachable by any operation history, every node", "why_tests_cant": "must hold for all graphs and all earlier operations", "anchors": ["PyCTBN/PyCTBN/structure_graph/network_graph.py:NetworkGraph.remove_node", "PyCTBN/PyCTBN/structure_graph/structure.py:Structure.remove_node"]}
{"id": "C81", "title": "One estimation per initialisation", "statement": "After compute_parameters_for_node returned, calling it again without fast_init raises (the counters were released) and after a new fast_init it returns the same CIMs again; no call silently accumulates on old counters.", "quantifier": "every trajectory, graph and node for which the first call returns", "why_tests_cant": "a history property over all data", "anchors": ["PyCTBN/PyCTBN/estimators/parameters_estimator.py:ParametersEstimator.fast_init", "PyCTBN/PyCTBN/estimators/parameters_estimator.py:ParametersEstimator.compute_parameters_for_node", "PyCTBN/PyCTBN/structure_graph/set_of_cims.py:SetOfCims.build_cims"]}
{"id": "C82", "title": "Tabu search's iteration and patience limits", "statement": "At most iterations_number candidates are evaluated, exactly that many without patience; with patience k the search stops right after k+1 consecutive evaluations without improvement and never earlier than that or the iteration limit.", "quantifier": "every execution", "why_tests_cant": "all executions", "anchors": ["PyCTBN/PyCTBN/optimizers/tabu_search.py:TabuSearch.optimize_structure"]}
{"id": "C83", "title": "The structure score is the log marginal likelihood of the data", "statement": "The score computed for a candidate structure of a node is the logarithm of the Bayesian marginal likelihood of the node's observed residence times and transitions, as a product over all assignments of its parents.", "quantifier": "every well-formed data set, graph reachable by the API, node and positive hyperparameters", "why_tests_cant": "all data sets and parent sets", "anchors": ["PyCTBN/PyCTBN/estimators/structure_score_based_estimator.py:StructureScoreBasedEstimator.get_score_from_graph", "PyCTBN/PyCTBN/estimators/fam_score_calculator.py:FamScoreCalculator.get_fam_score"]}
{"id": "C84", "title": "Score-based estimation keeps known edges", "statement": "Every edge declared known is in the edge set returned by the score-based estimate_structure.", "quantifier": "all data sets, known edge lists, arguments, random choices and worker schedules", "why_tests_cant": "all random choices and schedules", "anchors": ["PyCTBN/PyCTBN/estimators/structure_score_based_estimator.py:StructureScoreBasedEstimator.estimate_structure", "PyCTBN/PyCTBN/estimators/structure_estimator.py:StructureEstimator.build_removable_edges_matrix"]}
{"id": "C85", "title": "Score-based estimation returns on valid data", "statement": "On well-formed data with sensible arguments, estimate_structure of the score-based estimator returns, whatever the random choices, optimizer and worker schedule.", "quantifier": "all data sets, arguments, random choices and schedules", "why_tests_cant": "termination and absence of exceptions for all executions", "anchors": ["PyCTBN/PyCTBN/estimators/structure_score_based_estimator.py:StructureScoreBasedEstimator.estimate_structure", "PyCTBN/PyCTBN/estimators/structure_score_based_estimator.py:StructureScoreBasedEstimator.estimate_parents"]}
{"id": "C86", "title": "Generated networks can be sampled", "statement": "A network from NetworkGenerator with at least two states per variable, min_val above the rounding error and no variable whose first two parents have different cardinalities is a usable network, and a TrajectoryGenerator made of its dyn_str and cims describes exactly it.", "quantifier": "all generated graphs, densities, cardinalities and random draws", "why_tests_cant": "composition of two modules for all random draws", "anchors": ["PyCTBN/PyCTBN/structure_graph/network_generator.py:NetworkGenerator.generate_cims", "PyCTBN/PyCTBN/structure_graph/trajectory_generator.py:TrajectoryGenerator.__init__"]}
{"id": "C87", "title": "Trajectories of parallel workers are independent draws", "statement": "multi_trajectory with equal limits returns trajectories drawn from different random states, so that they are not copies of each other.", "quantifier": "all limits, random states and completion orders", "why_tests_cant": "depends on process start-up; a test sees one run", "anchors": ["PyCTBN/PyCTBN/structure_graph/trajectory_generator.py:TrajectoryGenerator.multi_trajectory"]}
{"id": "C88", "title": "Constraint-based estimation returns on valid data", "statement": "On well-formed data (every recorded state below the variable's cardinality), with prior knowledge naming known variables, constraint-based estimation returns a set of edges between different known variables that contains the prior knowledge, sequentially and with a process pool; it does not raise, whatever the significance levels.", "quantifier": "all structures, trajectories valid for them, prior knowledge, test parameters (and quantile functions) and completion orders", "why_tests_cant": "The tests use two or three fixed networks; an exception depends on which separating sets the data make the search visit, and on cardinalities.", "anchors": ["PyCTBN/PyCTBN/estimators/structure_constraint_based_estimator.py: ctpc_algorithm, complete_test, independence_test", "PyCTBN/PyCTBN/optimizers/constraint_based_optimizer.py: optimize_structure"]}
{"id": "C89", "title": "An exported file is read back unchanged", "statement": "A file written by JsonExporter from a network and trajectories sampled from it, and read by JsonImporter with the file's keys, delivers the same as importing the sampled frames directly: same times and states, trajectories in the order added, variables and cardinalities in the same order, same edges, same CIM dictionaries.", "quantifier": "all usable networks, all samples (limits, draws, number), every way to_json may round numbers with more than four decimals", "why_tests_cant": "tests export one network once and do not compare the file with the data", "anchors": ["PyCTBN/PyCTBN/utility/json_exporter.py:JsonExporter.out_file", "PyCTBN/PyCTBN/utility/json_importer.py:JsonImporter.import_data", "PyCTBN/PyCTBN/utility/abstract_exporter.py:AbstractExporter.add_trajectory"]}
{"id": "C90", "title": "Sample, export, import, estimate", "statement": "Trajectories sampled from a network, exported to a file, imported and given to the parameter estimator yield residence times and transition counts equal to those of the sampled rows, and the structure object has the network's variables and edges.", "quantifier": "all usable networks and samples, every graph over the variables, every node", "why_tests_cant": "a chain of five components over unbounded inputs", "anchors": ["PyCTBN/PyCTBN/utility/json_exporter.py:JsonExporter.out_file", "PyCTBN/PyCTBN/utility/json_importer.py:JsonImporter.import_data", "PyCTBN/PyCTBN/structure_graph/sample_path.py:SamplePath", "PyCTBN/PyCTBN/estimators/parameters_estimator.py:ParametersEstimator"]}
{"id": "C91", "title": "A sampler built from an exported file is the exported sampler", "statement": "TrajectoryGenerator(importer) on a file written by JsonExporter samples, with the same draws, the same trajectories as the generator that produced the file, and import_sampled_cims returns all matrices of each variable in the stored order.", "quantifier": "all usable networks, samples, limits and draws", "why_tests_cant": "tests use one network with few states", "anchors": ["PyCTBN/PyCTBN/utility/json_exporter.py:JsonExporter.out_file", "PyCTBN/PyCTBN/utility/json_importer.py:JsonImporter.import_sampled_cims", "PyCTBN/PyCTBN/structure_graph/trajectory_generator.py:TrajectoryGenerator.__init__"]}
{"id": "C92", "title": "Data sets in one file are independent", "statement": "import_data(i) depends only on the data set of the file at position i, counted from the end when i is negative (-1 is the last); an index beyond the last or before the first raises IndexError; a file that is one data set instead of a list is read as a list of one; a data set without the samples key raises KeyError.", "quantifier": "all files, keys and integer indexes, negative ones included", "why_tests_cant": "tests read one fixed file", "anchors": ["PyCTBN/PyCTBN/utility/json_importer.py:JsonImporter.import_data", "PyCTBN/PyCTBN/utility/json_importer.py:JsonImporter.read_json_file"]}
{"id": "C93", "title": "variables_key selects the column of the variable names", "statement": "JsonImporter takes the names of the variables from the column of the variables table given as variables_key.", "quantifier": "all files and keys", "why_tests_cant": "every test file lists the name column first, where the key makes no difference", "anchors": ["PyCTBN/PyCTBN/utility/json_importer.py:JsonImporter.__init__", "PyCTBN/PyCTBN/structure_graph/sample_path.py:SamplePath.build_structure"]}
{"id": "C94", "title": "For which variables parameter estimation is right", "statement": "compute_parameters_for_node(n) returns, for every valid data set, the true residence times of n under every assignment of its parents (and lists each assignment) if and only if every parent of n has one state or as many states as n, and the first two parents (in label order) have equally many states.", "quantifier": "every reachable structure/graph with variables in distinct columns, every node; every valid data set", "why_tests_cant": "an if-and-only-if over all cardinalities and data sets; tests sample a few cardinalities", "anchors": ["PyCTBN/PyCTBN/structure_graph/network_graph.py: build_time_scalar_indexing_structure_for_a_node, build_p_comb_structure_for_a_node", "PyCTBN/PyCTBN/estimators/parameters_estimator.py: compute_parameters_for_node"]}
{"id": "C95", "title": "For which variables transition counts are right", "statement": "For a variable with at least two states, compute_parameters_for_node(n) returns the true number of transitions between every two distinct states under every assignment of the parents, for every valid data set, if and only if every parent of n has one state or as many states as n, and the first two parents have equally many states.", "quantifier": "every reachable structure/graph with variables in distinct columns, every node with >= 2 states; every valid data set", "why_tests_cant": "an if-and-only-if over all cardinalities and data sets", "anchors": ["PyCTBN/PyCTBN/structure_graph/network_graph.py: build_transition_scalar_indexing_structure_for_a_node", "PyCTBN/PyCTBN/estimators/parameters_estimator.py: compute_state_transitions_for_a_node"]}
{"id": "C96", "title": "The whole workflow succeeds for uniform cardinalities", "statement": "For variables that all have c >= 2 states (at least two, with clash-free names): generate_graph + generate_cims, multi_trajectory(max_trs), JsonExporter.out_file, JsonImporter.import_data, SamplePath.build_*, then compute_parameters_for_node on every node, and structure estimation (constraint-based and score-based, sequential or parallel) all return; the estimated parameters are the statistics of the sampled rows; the imported structure has the generated edges.", "quantifier": "every generated network, random draws, request list, completion order, significance/score parameters and search arguments with positive limits", "why_tests_cant": "a composition of eight components over all random draws and schedules", "anchors": ["PyCTBN/PyCTBN/utility/json_exporter.py", "PyCTBN/PyCTBN/structure_graph/network_generator.py", "PyCTBN/PyCTBN/structure_graph/trajectory_generator.py", "PyCTBN/PyCTBN/structure_graph/sample_path.py", "PyCTBN/PyCTBN/estimators/structure_score_based_estimator.py: estimate_structure", "PyCTBN/PyCTBN/estimators/structure_constraint_based_estimator.py: ctpc_algorithm"]}
{"id": "C97", "title": "When importing is faithful for all data", "statement": "Reading trajectories and building the sample path delivers the durations and consecutive state pairs of the raw data, for every data set over the given distinct variables, if and only if no variable is called like another one followed by \"S\".", "quantifier": "every non-empty list of distinct variable names other than the time key; every data set over them", "why_tests_cant": "an if-and-only-if over all names and data", "anchors": ["PyCTBN/PyCTBN/utility/abstract_importer.py:compute_row_delta_sigle_samples_frame", "PyCTBN/PyCTBN/utility/json_importer.py:import_data"]}
{"id": "C98", "title": "When only the last row is dropped", "statement": "Processing one trajectory frame drops its last row and nothing else if and only if no other row carries the last row's index label.", "quantifier": "every frame with at least one row, one column and every list of its columns", "why_tests_cant": "an if-and-only-if over all frames and indexes", "anchors": ["PyCTBN/PyCTBN/utility/abstract_importer.py:compute_row_delta_sigle_samples_frame"]}
{"id": "C99", "title": "When label and index look-ups are inverse after edits", "statement": "After any history of edits of an imported structure, get_node_id(get_node_indx(l)) = l for all labels if and only if the remaining labels are an initial segment of the imported ones.", "quantifier": "every imported structure and every history of edits", "why_tests_cant": "histories are unbounded", "anchors": ["PyCTBN/PyCTBN/structure_graph/structure.py:Structure"]}
{"id": "C100", "title": "What equality of structures guarantees", "statement": "Two structures that compare equal (distinct labels, distinct indexes) give every label the same index if and only if they list the labels in the same order.", "quantifier": "all pairs of structures", "why_tests_cant": "an if-and-only-if over all pairs", "anchors": ["PyCTBN/PyCTBN/structure_graph/structure.py:Structure.__eq__"]}
{"id": "C101", "title": "When hill climbing keeps the known edges", "statement": "Hill climbing keeps every known edge into n, whatever the score of the parent sets and the random draws, if and only if: no edge into n is known, or no other variable is free to be tried, or iterations_number is 0, or max_parents is unset, at least the number of other variables, or at least the number of known parents plus iterations_number. (patience unset or non-negative.)", "quantifier": "every well-formed structure, known edges, node, max_parents, iterations, patience >= 0; all score functions of the parents, all draws", "why_tests_cant": "an if-and-only-if over all scores and random choices", "anchors": ["PyCTBN/PyCTBN/optimizers/hill_climbing_search.py:HillClimbing.optimize_structure"]}
{"id": "C102", "title": "When tabu search keeps the known edges", "statement": "With tabu_length unset or positive and tabu_rules_duration unset or nonzero, tabu search keeps every known edge into n for all scores and draws exactly in the cases listed for hill climbing (C101).", "quantifier": "as C101, all tabu lengths >= 1 and durations != 0", "why_tests_cant": "an if-and-only-if over all scores and random choices", "anchors": ["PyCTBN/PyCTBN/optimizers/tabu_search.py:TabuSearch.optimize_structure"]}
{"id": "C103", "title": "When hill climbing returns", "statement": "Hill climbing returns, whatever the score of the parent sets and the random draws, if and only if iterations_number is 0, or some other variable is free to be tried and max_parents is unset, positive, or iterations_number is at most twice the number of known parents. (patience unset or non-negative.)", "quantifier": "every well-formed structure, known edges, node, max_parents, iterations, patience >= 0; all score functions, all draws", "why_tests_cant": "an if-and-only-if over all scores and random choices; the shortest failing run grows with the known edges", "anchors": ["PyCTBN/PyCTBN/optimizers/hill_climbing_search.py:HillClimbing.optimize_structure"]}
{"id": "C104", "title": "When constraint-based estimation returns", "statement": "Without known edges, for variables with at least one state each in distinct columns, constraint-based estimation (sequential or with workers finishing in any order; any significance levels) returns on every valid data set if and only if all variables have equally many states.", "quantifier": "every well-formed structure, significance levels, quantile functions, completion order; all valid data sets", "why_tests_cant": "an if-and-only-if over all data sets; the failing data set depends on which variables differ", "anchors": ["PyCTBN/PyCTBN/estimators/structure_constraint_based_estimator.py:StructureConstraintBasedEstimator", "PyCTBN/PyCTBN/estimators/parameters_estimator.py:ParametersEstimator.compute_parameters_for_node"]}
{"id": "C105", "title": "When score-based estimation returns", "statement": "For at least two variables with at least one state each, without known edges, with positive hyperparameters, at least one iteration and arguments with which the searches cannot hang (C51, C56), score-based estimation returns on every valid data set and for all random draws if and only if all variables have equally many states, and at least two.", "quantifier": "every well-formed structure, both optimizers, all sane arguments; all valid data sets and random draws", "why_tests_cant": "an if-and-only-if over all data sets and random choices", "anchors": ["PyCTBN/PyCTBN/estimators/structure_score_based_estimator.py:StructureScoreBasedEstimator.estimate_structure", "PyCTBN/PyCTBN/estimators/fam_score_calculator.py:FamScoreCalculator.get_fam_score"]}
{"id": "C106", "title": "When tabu search returns", "statement": "Without patience, on a well-formed network with valid known edges, tabu search returns for every number of iterations, every score function and all random draws if and only if the child has at least one candidate parent that is not known, max_parents is unset or at least one, tabu_length is unset or at least one and tabu_rules_duration is unset or different from zero.", "quantifier": "every well-formed structure, known edges, child, argument values; all scores, iteration counts and random draws", "why_tests_cant": "an if-and-only-if over unbounded iteration counts, score functions and random choices", "anchors": ["PyCTBN/PyCTBN/optimizers/tabu_search.py:TabuSearch.optimize_structure"]}
{"id": "C107", "title": "Exactly which direct independence tests fail with an unbound variable", "statement": "On valid data whose variables have equally many states, after any sequence of complete_test calls for the same child, the call for p given S fails with an unbound-variable error if and only if earlier calls left estimates given S with p but none given S; in every other case it answers as it would with an empty cache.", "quantifier": "every structure, data set, history of tests and next test", "why_tests_cant": "depends on the whole history of calls", "anchors": ["PyCTBN/PyCTBN/estimators/structure_constraint_based_estimator.py:StructureConstraintBasedEstimator.complete_test"]}
{"id": "C108", "title": "When re-running sequential constraint-based estimation gives the same edges", "statement": "A second sequential estimation with the same estimator object returns the same edges if and only if the first one did not drop an edge that its data-size rule had marked as not removable.", "quantifier": "every structure, data set, two-CIM test and initial removable-edges matrix for which the first estimation returns", "why_tests_cant": "an equivalence over all data sets and tests; depends on hidden state left by the first run", "anchors": ["PyCTBN/PyCTBN/estimators/structure_constraint_based_estimator.py:StructureConstraintBasedEstimator.estimate_structure", "PyCTBN/PyCTBN/estimators/structure_constraint_based_estimator.py:StructureConstraintBasedEstimator.independence_test"]}
{"id": "C109", "title": "Repeated sequential estimation settles", "statement": "However often sequential estimation is repeated with the same estimator (and as long as it returns, which it does on valid data with equally many states everywhere), the answer changes at each of the first K repetitions and never again, where K is at most the number of ordered pairs of different variables.", "quantifier": "every structure, data set, two-CIM test, initial matrix; unboundedly many repetitions", "why_tests_cant": "ranges over unbounded histories of calls", "anchors": ["PyCTBN/PyCTBN/estimators/structure_constraint_based_estimator.py:StructureConstraintBasedEstimator.estimate_structure", "PyCTBN/PyCTBN/estimators/structure_constraint_based_estimator.py:StructureConstraintBasedEstimator.independence_test"]}
{"id": "C110", "title": "Exactly which generated CIM sets list the right parent assignments", "statement": "The CIM set generate_cims makes for a variable lists every assignment of its parents exactly once and nothing else if and only if the variable has fewer than two parents or its first two parents have equally many states.", "quantifier": "every generated network, every variable, all draws", "why_tests_cant": "an equivalence over all networks and cardinalities", "anchors": ["PyCTBN/PyCTBN/structure_graph/network_generator.py:NetworkGenerator.generate_cims", "PyCTBN/PyCTBN/structure_graph/network_graph.py:NetworkGraph.build_p_comb_structure_for_a_node"]}
{"id": "C111", "title": "Exactly which generated CIMs are intensity matrices", "statement": "With 0.0001 <= min_val <= max_val, the CIMs generate_cims makes for a variable are, up to rounding, intensity matrices with exit intensities between min_val and max_val if and only if the variable does not have exactly one state.", "quantifier": "every generated network, every variable, all draws in [0, 1)", "why_tests_cant": "an equivalence over all networks and random draws", "anchors": ["PyCTBN/PyCTBN/structure_graph/network_generator.py:NetworkGenerator.generate_cims"]}
{"id": "C112", "title": "Constraint-based estimation is correct if its tests are", "statement": "If the independence tests are right about a network - a true parent is dependent given every set of other variables, every other variable is independent given every set containing all true parents, and is never reported as having too little data - then constraint-based estimation returns exactly the edges of that network, sequentially and with workers finishing in any order, whatever true edges are given as known.", "quantifier": "every structure, data set and test that is right about a network; every network; known true edges; completion orders", "why_tests_cant": "quantifies over all networks and all test outcomes consistent with them", "anchors": ["PyCTBN/PyCTBN/estimators/structure_constraint_based_estimator.py:StructureConstraintBasedEstimator.estimate_structure", "PyCTBN/PyCTBN/optimizers/constraint_based_optimizer.py:ConstraintBasedOptimizer.optimize_structure"]}
{"id": "C113", "title": "Searches depend only on the ranking of scores", "statement": "Two scores of a node that raise the same exceptions and order its candidate structures alike make hill climbing and tabu search return the same edges, or raise the same exception, for the same random draws; so does the whole of estimate_structure. In particular nothing changes when the score is shifted by a constant or replaced by its exponential, the marginal likelihood.", "quantifier": "all pairs of scores in any linear orders, structures, known edges, limits, draws, completion orders", "why_tests_cant": "quantifies over all scores and all runs", "anchors": ["PyCTBN/PyCTBN/optimizers/hill_climbing_search.py:HillClimbing.optimize_structure", "PyCTBN/PyCTBN/optimizers/tabu_search.py:TabuSearch.optimize_structure", "PyCTBN/PyCTBN/estimators/structure_score_based_estimator.py:StructureScoreBasedEstimator.estimate_structure"]}
{"id": "C114", "title": "Score-based estimation with tau in the unit of time", "statement": "Recording all durations in another unit (multiplying them by k > 0) and giving tau_xu in that unit (k * tau_xu) lowers the score of every candidate structure of a node by the same amount, the number of observed moves of the node times log k, and leaves the result of estimate_structure unchanged for the same draws.", "quantifier": "all data with equally many (at least two) states per variable, factors, hyper-parameters, known edges, arguments, draws, completion orders", "why_tests_cant": "quantifies over all data sets and all real factors", "anchors": ["PyCTBN/PyCTBN/estimators/fam_score_calculator.py:FamScoreCalculator.get_fam_score", "PyCTBN/PyCTBN/estimators/structure_score_based_estimator.py:StructureScoreBasedEstimator.estimate_structure"]}
{"id": "C115", "title": "Score-based estimation does not depend on the unit of time", "statement": "Recording the same observations in another unit of time gives the same structure, with the hyper-parameters left at their defaults.", "quantifier": "all data sets and units", "why_tests_cant": "quantifies over all data sets", "anchors": ["PyCTBN/PyCTBN/estimators/structure_score_based_estimator.py:StructureScoreBasedEstimator.__init__", "PyCTBN/PyCTBN/estimators/structure_score_based_estimator.py:StructureScoreBasedEstimator.estimate_structure"]}
{"id": "C116", "title": "Structure learning is blind to the order of the data rows", "statement": "On two data sets that hold the same (duration, state, next state) rows the same number of times, estimate_structure of both estimators does the same: same edges and report, or same exception, and the same estimator state afterwards.", "quantifier": "all pairs of data arrays with the same bag of rows (valid or not), structures, estimator states, arguments, tests, draws, completion orders", "why_tests_cant": "quantifies over all data sets and all their permutations", "anchors": ["PyCTBN/PyCTBN/estimators/parameters_estimator.py:ParametersEstimator.compute_parameters_for_node", "PyCTBN/PyCTBN/estimators/structure_score_based_estimator.py:StructureScoreBasedEstimator.estimate_structure", "PyCTBN/PyCTBN/estimators/structure_constraint_based_estimator.py:StructureConstraintBasedEstimator.ctpc_algorithm"]}
{"id": "C117", "title": "Only the steps matter", "statement": "Files over the same variables, cardinalities and known edges whose trajectories contain the same steps (time between two consecutive samples and the two states) give sample paths with the same structure on which both estimators do the same. So the order of the trajectories, the origin of each trajectory's clock, and cutting a trajectory in two at one of its samples are irrelevant.", "quantifier": "all pairs of files over clash-free names with the same bag of steps, arguments, draws, completion orders", "why_tests_cant": "quantifies over all files and rearrangements", "anchors": ["PyCTBN/PyCTBN/utility/abstract_importer.py:AbstractImporter.compute_row_delta_in_all_samples_frames", "PyCTBN/PyCTBN/structure_graph/sample_path.py:SamplePath.build_trajectories", "PyCTBN/PyCTBN/estimators/structure_score_based_estimator.py:StructureScoreBasedEstimator.estimate_structure", "PyCTBN/PyCTBN/estimators/structure_constraint_based_estimator.py:StructureConstraintBasedEstimator.ctpc_algorithm"]}
{"id": "C118", "title": "From raw trajectories to statistics, exact boundary", "statement": "For clash-free variable names and positive cardinalities: for every file of raw trajectories with states in range, importing it and estimating the parameters of a node delivers one CIM per parent assignment with the residence times of the raw trajectories, if and only if every parent has one state or as many as the node, and the first two parents have equally many.", "quantifier": "all variable names, cardinalities, edges, graphs, nodes; in the equivalence all files of raw trajectories", "why_tests_cant": "quantifies over all files", "anchors": ["PyCTBN/PyCTBN/utility/json_importer.py:JsonImporter.import_data", "PyCTBN/PyCTBN/structure_graph/sample_path.py:SamplePath.build_trajectories", "PyCTBN/PyCTBN/estimators/parameters_estimator.py:ParametersEstimator.compute_parameters_for_node"]}
{"id": "C119", "title": "Score-based estimation keeps known edges, exact boundary", "statement": "For sane arguments and known edges that leave every variable a free candidate: estimate_structure with either optimizer keeps all known edges for all scores of parent sets, draws and completion orders, if and only if iterations_number is 0, or max_parents is unset, or for each variable with a known parent it is at least the number of other variables or at least the number of its known parents plus iterations_number.", "quantifier": "all structures, known edges, arguments; in the equivalence all scores, draws, completion orders", "why_tests_cant": "quantifies over all scores and draws", "anchors": ["PyCTBN/PyCTBN/estimators/structure_score_based_estimator.py:StructureScoreBasedEstimator.estimate_structure", "PyCTBN/PyCTBN/optimizers/hill_climbing_search.py:HillClimbing.optimize_structure", "PyCTBN/PyCTBN/optimizers/tabu_search.py:TabuSearch.optimize_structure"]}
{"id": "C120", "title": "When parameter estimation raises, exact boundary", "statement": "For a node with c states and parents with p1..pk states (label order), estimating its parameters from well-formed data returns if and only if x + u1*p1 + u2*p1*p2 + ... + uk*p1...pk < c*p1...pk for the states (x; u1..uk) of the node and its parents in every row. Hence it returns for every well-formed data set if and only if (c-1) + (p1-1)*p1 + ... + (pk-1)*p1...pk < c*p1...pk.", "quantifier": "all structures, graphs, nodes, cardinalities; all well-formed data sets", "why_tests_cant": "quantifies over all data sets and cardinalities", "anchors": ["PyCTBN/PyCTBN/estimators/parameters_estimator.py:ParametersEstimator.compute_parameters_for_node", "PyCTBN/PyCTBN/estimators/parameters_estimator.py:ParametersEstimator.compute_state_res_time_for_node", "PyCTBN/PyCTBN/estimators/parameters_estimator.py:ParametersEstimator.compute_state_transitions_for_a_node", "PyCTBN/PyCTBN/structure_graph/network_graph.py:NetworkGraph.build_time_scalar_indexing_structure_for_a_node"]}
{"id": "C121", "title": "What parameter estimation computes for arbitrary cardinalities", "statement": "Whenever the estimation of a node returns on well-formed data, whatever the cardinalities: there are p1...pk CIMs; the r-th holds for each state x the total duration of the rows with slot r*c+x (slot as in C120) and for x != y the number of those rows after which the node is in state y; the list of parent assignments beside them is that of the cardinalities p2, p1, p3, ..., pk, first entry fastest.", "quantifier": "all structures, graphs, nodes, cardinalities, well-formed data sets", "why_tests_cant": "quantifies over all data sets and cardinalities", "anchors": ["PyCTBN/PyCTBN/estimators/parameters_estimator.py:ParametersEstimator.compute_parameters_for_node", "PyCTBN/PyCTBN/structure_graph/set_of_cims.py:SetOfCims.build_cims", "PyCTBN/PyCTBN/structure_graph/network_graph.py:NetworkGraph.build_p_comb_structure_for_a_node"]}
{"id": "C122", "title": "The score is the log marginal likelihood, exact boundary", "statement": "For a node with c >= 2 states, other parents, and positive hyperparameters: the score of a graph is the logarithm of the marginal likelihood of the observed residence times and transitions for every well-formed data set, if and only if every parent has one state or c states.", "quantifier": "all structures, graphs, nodes, cardinalities, positive hyperparameters; in the equivalence all data sets with non-negative durations", "why_tests_cant": "quantifies over all data sets; the score is a real-valued closed form", "anchors": ["PyCTBN/PyCTBN/estimators/structure_score_based_estimator.py:StructureScoreBasedEstimator.get_score_from_graph", "PyCTBN/PyCTBN/estimators/fam_score_calculator.py:FamScoreCalculator.get_fam_score", "PyCTBN/PyCTBN/estimators/parameters_estimator.py:ParametersEstimator.compute_parameters_for_node"]}
{"id": "C123", "title": "Score-based estimation does not depend on how states are numbered", "statement": "If two data sets record the same process over variables with equally many states (at least two) and differ only by a renumbering of the states of each variable, score-based structure estimation with the same arguments, known edges, random draws and completion order gives the same edges, report and estimator.", "quantifier": "all structures, data sets, renumberings, arguments, draws, completion orders", "why_tests_cant": "quantifies over all data sets and renumberings", "anchors": ["PyCTBN/PyCTBN/estimators/structure_score_based_estimator.py:StructureScoreBasedEstimator.estimate_structure", "PyCTBN/PyCTBN/estimators/structure_score_based_estimator.py:StructureScoreBasedEstimator.get_score_from_graph", "PyCTBN/PyCTBN/estimators/fam_score_calculator.py:FamScoreCalculator.get_fam_score"]}
{"id": "C124", "title": "The score does not depend on the listing of the variables", "statement": "The score of a variable with given parents is the same real number for two recordings of the same process, whatever the order in which the variables (columns) are listed and however the states of each variable are numbered, provided every parent has one state or as many as the variable.", "quantifier": "all pairs of recordings, graphs with the same parents, positive hyperparameters", "why_tests_cant": "quantifies over all pairs of data sets", "anchors": ["PyCTBN/PyCTBN/estimators/structure_score_based_estimator.py:StructureScoreBasedEstimator.get_score_from_graph", "PyCTBN/PyCTBN/estimators/fam_score_calculator.py:FamScoreCalculator.get_fam_score", "PyCTBN/PyCTBN/structure_graph/network_graph.py:NetworkGraph.fast_init"]}
{"id": "C125", "title": "The tabu list is determined by its length rules", "statement": "When an iteration of tabu search begins, the tabu list holds exactly the candidates of the last l iterations, oldest first, where l follows from the number of candidates, tabu_length, tabu_rules_duration and the iteration number alone (oldest leaves when all are tabu, when the list is full, and every tabu_rules_duration-th iteration); data, scores and random choices have no influence on l.", "quantifier": "every returning run, every iteration", "why_tests_cant": "invariant over all executions", "anchors": ["PyCTBN/PyCTBN/optimizers/tabu_search.py:TabuSearch.optimize_structure"]}
{"id": "C126", "title": "By default tabu search visits the candidates in rounds", "statement": "With tabu_length and tabu_rules_duration unset or at least the number N of candidates, any N successive iterations examine every candidate exactly once, and iteration i+N examines the same candidate as iteration i.", "quantifier": "every returning run", "why_tests_cant": "invariant over all executions and random choices", "anchors": ["PyCTBN/PyCTBN/optimizers/tabu_search.py:TabuSearch.optimize_structure"]}
{"id": "C127", "title": "Each search is a greedy walk of single-edge moves", "statement": "A search starts from the known parents. Each iteration examines one candidate: its edge is toggled (with a random earlier parent dropped when the parent limit would be exceeded), and the result is kept exactly when its score exceeds that of the current parents. The result is where the walk ends, and it ends after `iterations` trials or when the trials since the last kept move exceed the patience.", "quantifier": "every returning run of either search, every candidate order, scores, random choices and parameters", "why_tests_cant": "all executions and all random choices", "anchors": ["PyCTBN/PyCTBN/optimizers/tabu_search.py:TabuSearch.optimize_structure", "PyCTBN/PyCTBN/optimizers/hill_climbing_search.py:HillClimbing.optimize_structure"]}
{"id": "C128", "title": "Tabu search ends in a local optimum", "statement": "With tabu_length and tabu_rules_duration unset or at least the number N of candidates, if tabu search stopped because a patience of at least N-1 ran out, or if there is no parent limit and it made at least N\u00b72^N iterations, then no single candidate edge can be added or removed so as to improve the score.", "quantifier": "every returning run, all scores and random choices", "why_tests_cant": "all executions; optimality relates the result to parent sets never scored in a test", "anchors": ["PyCTBN/PyCTBN/optimizers/tabu_search.py:TabuSearch.optimize_structure"]}
{"id": "C129", "title": "Hill climbing ends in a local optimum", "statement": "When hill climbing ends no single candidate edge can be added or removed so as to improve the score.", "quantifier": "every returning run and every sequence of draws", "why_tests_cant": "all random choices", "anchors": ["PyCTBN/PyCTBN/optimizers/hill_climbing_search.py:HillClimbing.optimize_structure"]}
{"id": "C130", "title": "Estimated networks are locally optimal in marginal likelihood", "statement": "When all variables have the same number of states, hyperparameters are positive, and score-based estimation uses tabu search without parent limit, tabu parameters unset or at least the number M of other variables, patience unset or at least M-1, and at least M\u00b72^M iterations, no single edge that is not prior knowledge can be added to or removed from the estimated network so as to increase the Bayesian marginal likelihood of its child's trajectory.", "quantifier": "every data set, prior knowledge, execution order of workers and random choices", "why_tests_cant": "relates result to all neighbouring networks, for all data and all random choices", "anchors": ["PyCTBN/PyCTBN/estimators/structure_score_based_estimator.py:StructureScoreBasedEstimator.estimate_structure", "PyCTBN/PyCTBN/optimizers/tabu_search.py:TabuSearch.optimize_structure", "PyCTBN/PyCTBN/estimators/fam_score_calculator.py:FamScoreCalculator.get_fam_score"]}
{"id": "C131", "title": "The text of an exported file loads as the exported value", "statement": "Whatever the variable names (quotes, backslashes, control characters, any Unicode), states and numbers, loading the text that out_file writes yields exactly the value that was exported.", "quantifier": "every exporter whose trajectories have no repeated column name", "why_tests_cant": "all strings and all nestings", "anchors": ["PyCTBN/PyCTBN/utility/json_exporter.py:JsonExporter.out_file", "PyCTBN/PyCTBN/utility/json_importer.py:JsonImporter.read_json_file"]}
{"id": "C132", "title": "An interrupted save is never misread", "statement": "If the process is killed at any moment while out_file or save_results writes, the file is either untouched, or complete, or loading it raises an error; it never loads as a truncated data set or network.", "quantifier": "every crash point, every buffering of the writes, every previous contents, every value written", "why_tests_cant": "all crash points", "anchors": ["PyCTBN/PyCTBN/utility/json_exporter.py:JsonExporter.out_file", "PyCTBN/PyCTBN/estimators/structure_estimator.py:StructureEstimator.save_results", "PyCTBN/PyCTBN/utility/json_importer.py:JsonImporter.read_json_file"]}
{"id": "C133", "title": "Saving over an existing file preserves it until the new one is complete", "statement": "If the process is killed while out_file or save_results writes over an existing file, the file still loads as its previous or as its new contents.", "quantifier": "every crash point", "why_tests_cant": "all crash points", "anchors": ["PyCTBN/PyCTBN/utility/json_exporter.py:JsonExporter.out_file", "PyCTBN/PyCTBN/estimators/structure_estimator.py:StructureEstimator.save_results"]}
{"id": "C134", "title": "Saved results can be loaded back", "statement": "After an estimation, loading the file written by save_results lists exactly the estimated edges, each once, whatever the variable names.", "quantifier": "every estimation result", "why_tests_cant": "all networks and all labels", "anchors": ["PyCTBN/PyCTBN/estimators/structure_estimator.py:StructureEstimator.save_results"]}
{"id": "C135", "title": "What a complete test of independence decides, in terms of the data", "statement": "With all variables having c states, complete_test (on an empty cache) answers 'independent' exactly when, for every assignment of states to the tested parent and the separating set, the transitions of the child observed given the separating set pass the data-size rule, and at no state of the child does the F test or the chi-square test tell them apart from the transitions observed given the parent as well.", "quantifier": "every data set, test parent, separating set, significance level and data-size threshold", "why_tests_cant": "all data sets and all assignments", "anchors": ["PyCTBN/PyCTBN/estimators/structure_constraint_based_estimator.py:StructureConstraintBasedEstimator.complete_test", "PyCTBN/PyCTBN/estimators/structure_constraint_based_estimator.py:StructureConstraintBasedEstimator.independence_test"]}
{"id": "C136", "title": "Constraint-based estimation uses the data only through its test verdicts", "statement": "Two estimations of the same variables whose complete tests return the same verdicts return the same network, sequentially and with workers in any order.", "quantifier": "every two data sets, test implementations, prior knowledge and execution order", "why_tests_cant": "relational: all pairs of runs", "anchors": ["PyCTBN/PyCTBN/estimators/structure_constraint_based_estimator.py:StructureConstraintBasedEstimator.estimate_structure", "PyCTBN/PyCTBN/optimizers/constraint_based_optimizer.py:ConstraintBasedOptimizer.optimize_structure"]}
{"id": "C137", "title": "A complete test ignores coding", "statement": "Whether a complete test answers 'independent' does not depend on how the states of the variables are numbered nor on the order in which the variables are listed.", "quantifier": "every two recordings of the same process that differ in numbering and listing; any number c of states", "why_tests_cant": "all permutations", "anchors": ["PyCTBN/PyCTBN/estimators/structure_constraint_based_estimator.py:StructureConstraintBasedEstimator.complete_test"]}
{"id": "C138", "title": "Constraint-based estimation ignores state numbering", "statement": "With variables of at most two states, or with the data-size rule switched off, renumbering the states of any variables changes nothing in the estimated network.", "quantifier": "every data set, renumbering, prior knowledge, execution order", "why_tests_cant": "all permutations", "anchors": ["PyCTBN/PyCTBN/estimators/structure_constraint_based_estimator.py:StructureConstraintBasedEstimator.estimate_structure"]}
{"id": "C139", "title": "Marginally independent variables are not connected", "statement": "If the first test of an edge, given no other variable, answers 'independent' and the edge is not prior knowledge, the edge is not in the estimate.", "quantifier": "every data set and test", "why_tests_cant": "all runs, whatever other tests answer", "anchors": ["PyCTBN/PyCTBN/estimators/structure_constraint_based_estimator.py:StructureConstraintBasedEstimator.estimate_structure", "PyCTBN/PyCTBN/optimizers/constraint_based_optimizer.py:ConstraintBasedOptimizer.optimize_structure"]}
{"id": "C140", "title": "Too little data keeps every edge", "statement": "If the transitions of a variable are fewer than the data-size rule requires for its first test, constraint-based estimation reports every other variable as its parent.", "quantifier": "every data set", "why_tests_cant": "all data sets", "anchors": ["PyCTBN/PyCTBN/estimators/structure_constraint_based_estimator.py:StructureConstraintBasedEstimator.estimate_structure", "PyCTBN/PyCTBN/estimators/structure_constraint_based_estimator.py:StructureConstraintBasedEstimator.independence_test"]}
{"id": "C141", "title": "A variable that never changes is not reported as a parent, unless data are scarce", "statement": "A variable that keeps one state throughout the data is reported as a parent of another (the edge not being prior knowledge) exactly when the data about that other variable fail the data-size rule in its first test; with at most two states, never.", "quantifier": "every data set and sane quantile functions", "why_tests_cant": "all data sets", "anchors": ["PyCTBN/PyCTBN/estimators/structure_constraint_based_estimator.py:StructureConstraintBasedEstimator.estimate_structure", "PyCTBN/PyCTBN/estimators/structure_constraint_based_estimator.py:StructureConstraintBasedEstimator.complete_test"]}
{"id": "C142", "title": "Lower significance levels accept more", "statement": "Lowering exp_test_sign and chi_test_alfa never turns an 'independent' answer of a complete test into 'dependent'.", "quantifier": "every data set, test, pair of levels, monotone quantile functions", "why_tests_cant": "all data sets and levels", "anchors": ["PyCTBN/PyCTBN/estimators/structure_constraint_based_estimator.py:StructureConstraintBasedEstimator.complete_test", "PyCTBN/PyCTBN/estimators/structure_constraint_based_estimator.py:StructureConstraintBasedEstimator.independence_test"]}
{"id": "C143", "title": "Lower significance levels keep fewer edges", "statement": "Lowering the significance levels never adds an edge to the constraint-based estimate.", "quantifier": "every data set, pair of levels, monotone quantile functions", "why_tests_cant": "relational: all pairs of runs", "anchors": ["PyCTBN/PyCTBN/estimators/structure_constraint_based_estimator.py:StructureConstraintBasedEstimator.estimate_structure"]}
{"id": "C144", "title": "The order of variables does not matter", "statement": "Listing the variables of the same recording in another order does not change the constraint-based estimate.", "quantifier": "every data set and listing", "why_tests_cant": "all permutations", "anchors": ["PyCTBN/PyCTBN/estimators/structure_constraint_based_estimator.py:StructureConstraintBasedEstimator.estimate_structure", "PyCTBN/PyCTBN/optimizers/constraint_based_optimizer.py:ConstraintBasedOptimizer.optimize_structure"]}
{"id": "C145", "title": "The unit of time does not matter to constraint-based estimation", "statement": "Expressing the durations of the data in another unit does not change the constraint-based estimate.", "quantifier": "every data set and unit", "why_tests_cant": "all data sets", "anchors": ["PyCTBN/PyCTBN/estimators/structure_constraint_based_estimator.py:StructureConstraintBasedEstimator.estimate_structure", "PyCTBN/PyCTBN/estimators/structure_constraint_based_estimator.py:StructureConstraintBasedEstimator.independence_test", "PyCTBN/PyCTBN/structure_graph/conditional_intensity_matrix.py:ConditionalIntensityMatrix.compute_cim_coefficients"]}
{"id": "C146", "title": "The numbering of states does not matter to constraint-based estimation", "statement": "Renumbering the states of a variable does not change the constraint-based estimate.", "quantifier": "every data set and renumbering", "why_tests_cant": "all permutations", "anchors": ["PyCTBN/PyCTBN/estimators/structure_constraint_based_estimator.py:StructureConstraintBasedEstimator.estimate_structure", "PyCTBN/PyCTBN/estimators/structure_constraint_based_estimator.py:StructureConstraintBasedEstimator.complete_test"]}
{"id": "C147", "title": "How far an estimated rate is from the observed rate", "statement": "With residence time T > 0 in a state (parents in given states), M transitions to another state and N transitions out of it, the estimated rate differs from M/T by exactly (1 - M/T)/(T+1), and minus the diagonal entry differs from N/T by exactly -(1 + N/T)/(T+1).", "quantifier": "every data set, node and parent assignment, admissible cardinalities", "why_tests_cant": "all data sets", "anchors": ["PyCTBN/PyCTBN/estimators/parameters_estimator.py:ParametersEstimator.compute_parameters", "PyCTBN/PyCTBN/structure_graph/conditional_intensity_matrix.py:ConditionalIntensityMatrix.compute_cim_coefficients"]}
{"id": "C148", "title": "Estimated rates converge", "statement": "For growing data sets in which the time spent in a state (parents in given states) grows without bound and the observed rate of a transition tends to a limit, the estimated rate tends to the same limit; the diagonal entry tends to minus the limit of the rate of leaving.", "quantifier": "every sequence of data sets, admissible cardinalities", "why_tests_cant": "limit over infinite sequences", "anchors": ["PyCTBN/PyCTBN/estimators/parameters_estimator.py:ParametersEstimator.compute_parameters", "PyCTBN/PyCTBN/structure_graph/conditional_intensity_matrix.py:ConditionalIntensityMatrix.compute_cim_coefficients"]}
{"id": "C149", "title": "Enough data reveal every true parent", "statement": "For growing data sets in which a variable, whatever other variables are taken into account, in the long run is left at another rate or (all transitions being observed) goes to some state with another frequency depending on p, constraint-based estimation from some point on always reports p as its parent, sequentially and with workers, whatever the prior knowledge.", "quantifier": "every sequence of data sets, significance levels, data-size threshold, prior knowledge and execution order", "why_tests_cant": "limit over infinite sequences of data sets", "anchors": ["PyCTBN/PyCTBN/estimators/structure_constraint_based_estimator.py:StructureConstraintBasedEstimator.estimate_structure", "PyCTBN/PyCTBN/estimators/structure_constraint_based_estimator.py:StructureConstraintBasedEstimator.independence_test"]}
{"id": "C150", "title": "Enough data reveal every true parent, also when some transitions are impossible", "statement": "As C149, without requiring that every transition out of the state in question is observed.", "quantifier": "every sequence of data sets", "why_tests_cant": "limit over infinite sequences of data sets", "anchors": ["PyCTBN/PyCTBN/estimators/structure_constraint_based_estimator.py:StructureConstraintBasedEstimator.estimate_structure", "PyCTBN/PyCTBN/estimators/structure_constraint_based_estimator.py:StructureConstraintBasedEstimator.independence_test"]}
{"id": "C151", "title": "A structure that shares no list is not affected by edits of other objects", "statement": "If no other structure is built from the label list or the edge list passed to a structure and the client does not edit these lists itself, then in every program, whatever is done to other structures, lists and graphs in between, the structure answers as the initial one with the edits made to it, directly or through graphs over it, in order.", "quantifier": "every heap of lists, structures and graphs, every program", "why_tests_cant": "all histories and all sharing patterns of the other objects", "anchors": ["PyCTBN/PyCTBN/structure_graph/structure.py:Structure.__init__", "PyCTBN/PyCTBN/structure_graph/structure.py:Structure.remove_node", "PyCTBN/PyCTBN/structure_graph/structure.py:Structure.add_edge", "PyCTBN/PyCTBN/structure_graph/structure.py:Structure.remove_edge", "PyCTBN/PyCTBN/structure_graph/structure.py:Structure.clean_structure_edges", "PyCTBN/PyCTBN/structure_graph/network_graph.py:NetworkGraph.remove_node"]}
{"id": "C152", "title": "A graph whose structure nobody else edits is not affected by other objects", "statement": "If the structure of a graph shares no list with another structure and is edited only through this graph (other graphs may read it), then in every program the graph answers as the initial one with the calls made to it, in order, failing calls included.", "quantifier": "every heap, every program", "why_tests_cant": "all histories", "anchors": ["PyCTBN/PyCTBN/structure_graph/network_graph.py:NetworkGraph.__init__", "PyCTBN/PyCTBN/structure_graph/network_graph.py:NetworkGraph.fast_init", "PyCTBN/PyCTBN/structure_graph/network_graph.py:NetworkGraph.remove_node", "PyCTBN/PyCTBN/structure_graph/network_graph.py:NetworkGraph.add_edges", "PyCTBN/PyCTBN/structure_graph/network_graph.py:NetworkGraph.remove_edges"]}
{"id": "C153", "title": "Structures built from the same list are independent", "statement": "Removing a node from a structure, or adding an edge to it, does not change another structure that was built from the same list of labels or of edges.", "quantifier": "every pair of structures, every node", "why_tests_cant": "every sharing and every history", "anchors": ["PyCTBN/PyCTBN/structure_graph/structure.py:Structure.__init__", "PyCTBN/PyCTBN/structure_graph/structure.py:Structure.remove_node", "PyCTBN/PyCTBN/structure_graph/structure.py:Structure.add_edge"]}
{"id": "C154", "title": "Graphs over the same structure are independent", "statement": "Removing a node from a graph does not change what another graph over the same structure computes for the other nodes.", "quantifier": "every pair of graphs over one structure, every node", "why_tests_cant": "every history", "anchors": ["PyCTBN/PyCTBN/structure_graph/network_graph.py:NetworkGraph.__init__", "PyCTBN/PyCTBN/structure_graph/network_graph.py:NetworkGraph.remove_node", "PyCTBN/PyCTBN/structure_graph/network_graph.py:NetworkGraph.fast_init"]}
{"id": "C155", "title": "CIMs can be generated after removing a node from a generated graph", "statement": "After generator.graph.remove_node(x), generate_cims gives every remaining variable matrices of its own size.", "quantifier": "every generator, graph and node", "why_tests_cant": "every history", "anchors": ["PyCTBN/PyCTBN/structure_graph/network_generator.py:NetworkGenerator.generate_graph", "PyCTBN/PyCTBN/structure_graph/network_generator.py:NetworkGenerator.generate_cims", "PyCTBN/PyCTBN/structure_graph/structure.py:Structure.remove_node"]}
{"id": "C156", "title": "For which cardinalities the total number of transitions is right", "statement": "For a variable with c states: on every well-formed data set on which parameter estimation returns, the transitions it reports (the diagonal counts added over all CIMs) are as many as the data rows after which the variable is in another state, if and only if c divides the number of states of the first parent (in label order) that has more than one. Otherwise a row in which the variable does not move can be reported as a transition.", "quantifier": "every structure, graph, node and cardinalities; on the left every data set", "why_tests_cant": "a boundary over all cardinalities and all data", "anchors": ["PyCTBN/PyCTBN/estimators/parameters_estimator.py:ParametersEstimator.compute_state_transitions_for_a_node", "PyCTBN/PyCTBN/structure_graph/network_graph.py:NetworkGraph.build_transition_scalar_indexing_structure_for_a_node"]}
{"id": "C157", "title": "Floating-point estimation is accurate", "statement": "Computed in floating point (every operation and conversion rounded with relative error at most u, integers up to N exact), from durations that are floats or rounded differences of time stamps, parameter estimation raises exactly when exact arithmetic would, and otherwise gives the exact parent assignments and transition counts, residence times within k+m relative errors and coefficients within k+m+2, m being the number of rows (k=1 for differences of stamps). For float64 the relative error of a residence time is at most (m+1)2^-53/(1-(m+1)2^-53).", "quantifier": "every structure, graph, node, non-negative data set, every rounding function with these two properties", "why_tests_cant": "all data sets and all roundings", "anchors": ["PyCTBN/PyCTBN/estimators/parameters_estimator.py:ParametersEstimator.compute_state_res_time_for_node", "PyCTBN/PyCTBN/estimators/parameters_estimator.py:ParametersEstimator.compute_state_transitions_for_a_node", "PyCTBN/PyCTBN/structure_graph/conditional_intensity_matrix.py:ConditionalIntensityMatrix.compute_cim_coefficients", "PyCTBN/PyCTBN/utility/abstract_importer.py:AbstractImporter.compute_row_delta_sigle_samples_frame"]}
{"id": "C158", "title": "Rounding never changes zero or the sign of an estimate", "statement": "In floating point a residence time is zero exactly when the exact one is, and a coefficient is positive, zero or negative exactly when the exact one is.", "quantifier": "as C157", "why_tests_cant": "all data sets and all roundings", "anchors": ["PyCTBN/PyCTBN/estimators/parameters_estimator.py:ParametersEstimator.compute_state_res_time_for_node", "PyCTBN/PyCTBN/structure_graph/conditional_intensity_matrix.py:ConditionalIntensityMatrix.compute_cim_coefficients"]}
{"id": "C159", "title": "Floating-point estimation is exact on dyadic durations", "statement": "If the durations are multiples of 2^-k and their total is below 2^(53-k)-1, float64 estimation returns exactly the residence times and counts of exact arithmetic and the correctly rounded coefficients (and raises the same exceptions).", "quantifier": "every such data set, every k", "why_tests_cant": "all data sets", "anchors": ["PyCTBN/PyCTBN/estimators/parameters_estimator.py:ParametersEstimator.compute_state_res_time_for_node", "PyCTBN/PyCTBN/estimators/parameters_estimator.py:ParametersEstimator.compute_state_transitions_for_a_node", "PyCTBN/PyCTBN/structure_graph/conditional_intensity_matrix.py:ConditionalIntensityMatrix.compute_cim_coefficients"]}
{"id": "C160", "title": "In floating point, too, the order of the data rows does not matter", "statement": "Permuting the data rows (with their durations) does not change the estimates computed in floating point.", "quantifier": "every data set, every permutation", "why_tests_cant": "all data sets and permutations", "anchors": ["PyCTBN/PyCTBN/estimators/parameters_estimator.py:ParametersEstimator.compute_state_res_time_for_node"]}
{"id": "C161", "title": "The estimator after failing and repeated calls", "statement": "After any non-empty history of estimate_structure calls on one estimator (either kind, any arguments), each of which may have raised, the structure has the same variables, indexes and cardinalities and no edges; spurious_edges() is empty; the reported graph (adjacency_matrix, save_results) has exactly the edges returned by the last call that returned, and is the initial complete graph if none did; score-based estimation prints precision and recall at most in the very first call.", "quantifier": "every estimator, every history of calls with every outcome", "why_tests_cant": "all histories and failure points", "anchors": ["PyCTBN/PyCTBN/estimators/structure_score_based_estimator.py:StructureScoreBasedEstimator.estimate_structure", "PyCTBN/PyCTBN/estimators/structure_constraint_based_estimator.py:StructureConstraintBasedEstimator.ctpc_algorithm", "PyCTBN/PyCTBN/estimators/structure_estimator.py:StructureEstimator.spurious_edges", "PyCTBN/PyCTBN/estimators/structure_estimator.py:StructureEstimator.adjacency_matrix"]}
{"id": "C162", "title": "Worker settings do not influence the result", "statement": "disable_multiprocessing, processes_number, the number of processors and the order in which workers finish do not change what estimate_structure returns or leaves behind (unless a search hangs); the pool never has more workers than processors or than asked for; asking for fewer than one worker raises ValueError, after the true edges were forgotten.", "quantifier": "every estimator, every setting, every completion order", "why_tests_cant": "all schedules", "anchors": ["PyCTBN/PyCTBN/estimators/structure_score_based_estimator.py:StructureScoreBasedEstimator.estimate_structure", "PyCTBN/PyCTBN/estimators/structure_constraint_based_estimator.py:StructureConstraintBasedEstimator.ctpc_algorithm"]}
{"id": "C163", "title": "The life of a sample path", "statement": "The SamplePath constructor accepts an importer iff it has a non-empty variables table and no empty data frame; after any sequence of build_trajectories and build_structure calls (a raising call changes nothing) the trajectories are absent, those of the data, or empty according to whether build_trajectories was called never, once, or more often; the structure is present iff build_structure was called and the labels match the columns; has_prior_net_structure raises before that and then says whether edges were imported; and once trajectories were built the importer gives no second sample path.", "quantifier": "every importer, every sequence of calls", "why_tests_cant": "all histories", "anchors": ["PyCTBN/PyCTBN/structure_graph/sample_path.py:SamplePath.__init__", "PyCTBN/PyCTBN/structure_graph/sample_path.py:SamplePath.build_trajectories", "PyCTBN/PyCTBN/structure_graph/sample_path.py:SamplePath.build_structure", "PyCTBN/PyCTBN/structure_graph/sample_path.py:SamplePath.has_prior_net_structure"]}
{"id": "C164", "title": "Rounding decides only borderline tests", "statement": "Estimating the CIMs of a child in two graphs in floating point and testing any two of them in floating point (every operation, including sqrt, with relative error at most u) gives the verdict of exact arithmetic throughout, unless in exact arithmetic a statistic is within an explicit rounding error of its threshold: one rounding for the data-size rule, 2(k+rows+2)+1 relative errors for an F quantile, c+9 roundings of the sum \u03a3(r1 m2+r2 m1)\u00b2/(r1 r2(m1+m2)) for the chi-square quantile. Infinite and NaN statistics are the same in both.", "quantifier": "every data set, pair of graphs, parameters and quantile functions, every rounding with relative error u", "why_tests_cant": "all data sets and roundings", "anchors": ["PyCTBN/PyCTBN/estimators/structure_constraint_based_estimator.py:StructureConstraintBasedEstimator.independence_test", "PyCTBN/PyCTBN/estimators/parameters_estimator.py:ParametersEstimator.compute_parameters_for_node"]}
{"id": "C165", "title": "Where rounding can never decide", "statement": "With a whole-number data-size threshold T (default 25) that is a float, and (T+1)\u00b7thumb_value below the precision, the data-size rule decides as in exact arithmetic on every data set, also on ties; and for a child with two states the chi-square part, whose statistic is zero in exact arithmetic but need not be in floating point, never rejects as long as the quantile exceeds 11 roundings of the number of exits.", "quantifier": "every count matrix, every rounding with relative error u", "why_tests_cant": "all counts and roundings", "anchors": ["PyCTBN/PyCTBN/estimators/structure_constraint_based_estimator.py:StructureConstraintBasedEstimator.independence_test"]}
{"id": "C166", "title": "Enough data: the score rewards exactly the parents that matter", "statement": "All variables have c \u2265 2 states, durations are positive, hyperparameters positive. If in the data a further parent p matters to n beyond K (two occurring states of p under which, in the same circumstances, n makes some transition at different rates), then once the data have been observed often enough the score of K with p exceeds that of K. If p varies but does not matter, the score with p is eventually smaller. If p does not vary beyond K, the scores are equal for any number of observations.", "quantifier": "every data set, variable, parent set and further parent, all positive hyperparameters", "why_tests_cant": "limit over repeated observation of arbitrary data", "anchors": ["PyCTBN/PyCTBN/estimators/fam_score_calculator.py:FamScoreCalculator.get_fam_score"]}
{"id": "C167", "title": "Enough data: the estimated network explains the data", "statement": "Under C166 and with score-based estimation by tabu search under the conditions of C130, once the data have been observed often enough, in any network returned a variable that is not a parent of n does not matter to n beyond its parents, and a parent that was not prior knowledge matters beyond the others or does not vary beyond them.", "quantifier": "every data set, prior knowledge, draw and execution order", "why_tests_cant": "limit over repeated observation of arbitrary data, all random draws", "anchors": ["PyCTBN/PyCTBN/estimators/structure_score_based_estimator.py:StructureScoreBasedEstimator.estimate_structure", "PyCTBN/PyCTBN/optimizers/tabu_search.py:TabuSearch.optimize_structure"]}
{"id": "C168", "title": "Growing data: the score rewards a parent that matters", "statement": "All variables have c \u2265 2 states, durations and hyperparameters are positive. For any sequence of data sets whose size grows without bound and in which the behaviour of n given K and p settles (each combination never occurs, or takes a positive limiting share of the time with transition rates that converge): if under two states of p, in the same circumstances, n makes some transition at different limiting rates, then from some point on the score of K with p exceeds that of K.", "quantifier": "every sequence of data sets, variable, parent set and further parent, all positive hyperparameters", "why_tests_cant": "limit over infinite sequences of data sets", "anchors": ["PyCTBN/PyCTBN/estimators/fam_score_calculator.py:FamScoreCalculator.get_fam_score"]}
{"id": "C169", "title": "Growing data: score-based estimation finds every true parent", "statement": "Under C168 and with score-based estimation by tabu search under the conditions of C130: if whatever other parents are taken into account p matters to n in the long run, then from some point on every network returned has the edge from p to n.", "quantifier": "every sequence of data sets, prior knowledge, draw and execution order", "why_tests_cant": "limit over infinite sequences of data sets, all random draws", "anchors": ["PyCTBN/PyCTBN/estimators/structure_score_based_estimator.py:StructureScoreBasedEstimator.estimate_structure", "PyCTBN/PyCTBN/optimizers/tabu_search.py:TabuSearch.optimize_structure"]}
{"id": "C170", "title": "Which networks survive export and import: exact boundary", "statement": "For a usable network given to the exporter, the sampler built by reading the exported CIMs back is that of the same network if and only if the network has at least one edge, no `=` is followed by a digit in the label of a parent or of a variable without parents, and every parent has at most ten states; with a written file, if and only if moreover the file holds at least one trajectory.", "quantifier": "every network, labels, cardinalities, samples", "why_tests_cant": "all labels and cardinalities", "anchors": ["PyCTBN/PyCTBN/utility/json_exporter.py:JsonExporter.cims_to_json", "PyCTBN/PyCTBN/structure_graph/trajectory_generator.py:TrajectoryGenerator.__init__"]}
{"id": "C171", "title": "Import in floating point rounds each duration once and nothing else", "statement": "When time differences are computed in floating point, importing succeeds whenever the exact import does, with the same variables and order, and the data handed to the estimators are the exact state pairs of consecutive samples together with the exact durations, each rounded exactly once.", "quantifier": "every rounding, every list of trajectories over clash-free labels", "why_tests_cant": "all data and all roundings", "anchors": ["PyCTBN/PyCTBN/utility/abstract_importer.py:AbstractImporter.compute_row_delta_sigle_samples_frame", "PyCTBN/PyCTBN/utility/json_importer.py:JsonImporter.import_data", "PyCTBN/PyCTBN/utility/sample_importer.py:SampleImporter.import_data"]}
{"id": "C172", "title": "From raw trajectories to statistics in float64", "statement": "With every float operation of import and estimation rounded to 53 bits: for raw trajectories with nondecreasing time stamps, each transition count delivered is exactly the number of such consecutive samples in the raw trajectories, and each residence time is the time defined on the raw trajectories up to a relative error of (m+1)/2^53 / (1-(m+1)/2^53), m the number of steps.", "quantifier": "every list of trajectories, graph and node; fewer than 2^53-1 steps", "why_tests_cant": "all data; rounding depends on every value", "anchors": ["PyCTBN/PyCTBN/utility/abstract_importer.py:AbstractImporter.compute_row_delta_sigle_samples_frame", "PyCTBN/PyCTBN/estimators/parameters_estimator.py:ParametersEstimator.compute_parameters_for_node"]}
{"id": "C173", "title": "Sampling in floating point: shape, times and termination", "statement": "With every float operation of the sampler rounded (float64 included): CTBN_Sample never raises on a usable network whose matrices hold floats; the last row is all -1, the rows before are joint states within the cardinalities starting from all zeros, and from row to row one variable moves, to a state of positive intensity or else to the last state of a variable with at least three states; the times start at 0, never decrease and stay within the (rounded) end time; with max_tr = m there are at most m+1 rows, exactly m+1 without an end time; with no limit it never returns.", "quantifier": "every monotone idempotent rounding of relative error below 1, network, limits and stream of random draws; float64: up to 4000 states per variable", "why_tests_cant": "all draws and roundings", "anchors": ["PyCTBN/PyCTBN/structure_graph/trajectory_generator.py:TrajectoryGenerator.CTBN_Sample"]}
{"id": "C174", "title": "Sampled rows are genuine transitions in floating point", "statement": "Every row of a trajectory sampled in float64 (before the terminator) differs from the one before by a move of one variable to a state of positive intensity.", "quantifier": "every network, limits and stream of random draws", "why_tests_cant": "all draws; the failure needs an unlucky rounding and an unlikely draw", "anchors": ["PyCTBN/PyCTBN/structure_graph/trajectory_generator.py:TrajectoryGenerator.CTBN_Sample"]}
{"id": "C175", "title": "The score in floating point", "statement": "get_fam_score computed in floating point from float statistics is returned whenever the exact score is, and differs from it by at most ((1-u)^(-m) - 1) times the sum of the sizes of its terms, where u is the unit roundoff (2^-53) and m = a + k + rows + 2c + assignments + 7 (a: errors of log and loggamma, k: errors of the durations, c: states of the variable, assignments: parent assignments); a variable with one state raises ZeroDivisionError in both.", "quantifier": "every data set, parent set (cardinalities for which the counts are right), positive tau and alpha, accurate rounding and accurate log and loggamma", "why_tests_cant": "a bound on all roundings", "anchors": ["PyCTBN/PyCTBN/estimators/fam_score_calculator.py:FamScoreCalculator.get_fam_score", "PyCTBN/PyCTBN/estimators/structure_score_based_estimator.py:StructureScoreBasedEstimator.get_score"]}
{"id": "C176", "title": "Score-based estimation in floating point", "statement": "Run in floating point with the same draws, estimate_structure returns the edges, report and estimator of exact arithmetic, unless two parent sets of some variable have exact scores within the error bound of C175 of each other; if no two parent sets tie exactly, some finite precision is enough.", "quantifier": "every data set whose variables have equally many (at least two) states, prior, options, draws, known edges, processing order", "why_tests_cant": "all searches and roundings", "anchors": ["PyCTBN/PyCTBN/estimators/structure_score_based_estimator.py:StructureScoreBasedEstimator.estimate_structure", "PyCTBN/PyCTBN/estimators/fam_score_calculator.py:FamScoreCalculator.get_fam_score"]}
{"id": "C177", "title": "The law of sampled trajectories", "statement": "With independent standard exponential draws and multinomial choices, the probability that the first moves of CTBN_Sample are a given sequence (which variable, to which state, more than how long after the previous move) is that of a Markov jump process: the joint state is left at the total rate R, and a variable v is moved to y with probability rate/R, where the rate is the inverse of the exit intensity of v times the share of y among the intensities of its row. The rows returned are the joint states after these moves, at their times (rounded).", "quantifier": "every network without absorbing states, every number and sequence of moves, all holding time thresholds, every source of multinomial choices", "why_tests_cant": "a statement about probabilities of all trajectories", "anchors": ["PyCTBN/PyCTBN/structure_graph/trajectory_generator.py:TrajectoryGenerator.CTBN_Sample"]}
{"id": "C178", "title": "When sampled trajectories follow the network's law", "statement": "The trajectories of CTBN_Sample follow the probability law of the network (every finite sequence of moves and holding times has the probability of the Markov jump process with the network's intensities) exactly when every variable leaves its state with intensity 1 in every joint state that can be reached.", "quantifier": "every network whose matrix rows sum to 0, without absorbing states; every source of multinomial choices", "why_tests_cant": "a statement about the law of all trajectories", "anchors": ["PyCTBN/PyCTBN/structure_graph/trajectory_generator.py:TrajectoryGenerator.CTBN_Sample"]}
{"id": "C179", "title": "For which time keys and column orders importing is right", "statement": "JsonImporter.import_data delivers the durations and state pairs of consecutive samples, for all data recorded under a header, exactly when time_key is 'Time' and 'Time' is the first column. When the column 'Time' is not the first one, a successful import delivers its raw values, without the last of each trajectory, as durations, whatever the key and the data.", "quantifier": "every header of distinct names without suffix clashes, every time key, all frames and data", "why_tests_cant": "quantifies over all headers and data", "anchors": ["PyCTBN/PyCTBN/utility/abstract_importer.py:AbstractImporter.compute_row_delta_sigle_samples_frame", "PyCTBN/PyCTBN/utility/abstract_importer.py:AbstractImporter.compute_row_delta_in_all_samples_frames", "PyCTBN/PyCTBN/utility/json_importer.py:JsonImporter.build_sorter"]}
{"id": "C180", "title": "Exactly which differences the chi-square part can detect", "statement": "With a non-negative quantile: more data of the same proportions make the chi-square part of independence_test reject at a state exactly when the state was left in both samples, every transition out of it was observed in at least one, and some next-state proportion differs; otherwise no multiple of the data does. There are data for which it rejects exactly when the child has at least three states.", "quantifier": "all count matrices, all numbers of states, all significance levels and quantile functions with a finite non-negative value", "why_tests_cant": "quantifies over all counts and all amounts of data", "anchors": ["PyCTBN/PyCTBN/estimators/structure_constraint_based_estimator.py:StructureConstraintBasedEstimator.independence_test"]}
{"id": "C181", "title": "Transition counts and residence times of sampled trajectories", "statement": "In the first n moves of CTBN_Sample, let M be the number of moves of v from x to y while its parents are in u, and T the time v is in x while they are in u. Then E[M] = r E[T] and E[(M - rT)^2] = E[M], where r is the intensity of x to y under u divided by the square of the exit intensity of x under u.", "quantifier": "every network whose matrix rows sum to 0, without absorbing states; every variable, pair of states, parent assignment and number of moves; every source of multinomial choices", "why_tests_cant": "a statement about expectations over all trajectories", "anchors": ["PyCTBN/PyCTBN/structure_graph/trajectory_generator.py:TrajectoryGenerator.CTBN_Sample", "PyCTBN/PyCTBN/structure_graph/conditional_intensity_matrix.py:ConditionalIntensityMatrix.compute_cim_coefficients"]}
{"id": "C182", "title": "What estimates from sampled trajectories converge to", "statement": "Let the estimate be the observed transitions x to y under u plus one over the time in x under u plus one. As the number n of sampled moves grows, the probability that the estimate is more than eps away from r (the intensity divided by the square of the exit intensity) although the case lasted at least kappa*n tends to 0, for all eps, kappa > 0. So unless the intensity is 0 or the exit intensity is 1, the probability that the estimate is near the intensity although the case lasted at least kappa*n tends to 0.", "quantifier": "every network whose matrix rows sum to 0, without absorbing states; every variable, pair of states and parent assignment; all eps, kappa > 0; every source of multinomial choices", "why_tests_cant": "an asymptotic statement about probabilities", "anchors": ["PyCTBN/PyCTBN/structure_graph/trajectory_generator.py:TrajectoryGenerator.CTBN_Sample", "PyCTBN/PyCTBN/structure_graph/conditional_intensity_matrix.py:ConditionalIntensityMatrix.compute_cim_coefficients"]}
{"id": "C183", "title": "One binary variable: the estimate is the inverse of the intensity", "statement": "For a network of one variable with two states, the estimated intensity of each transition from sampled trajectories converges in probability to the inverse of the intensity as the number of moves grows.", "quantifier": "all positive intensities, both transitions, all eps > 0, every source of multinomial choices", "why_tests_cant": "an asymptotic statement about probabilities", "anchors": ["PyCTBN/PyCTBN/structure_graph/trajectory_generator.py:TrajectoryGenerator.CTBN_Sample", "PyCTBN/PyCTBN/structure_graph/conditional_intensity_matrix.py:ConditionalIntensityMatrix.compute_cim_coefficients"]}
{"id": "C184", "title": "Parameters and scores do not depend on the names of the variables", "statement": "If the variables are renamed (different variables get different names), estimating the parameters of a node gives the same statistics, matrices and parent combinations, or the same exception; so does its family score.", "quantifier": "every injective renaming, every graph object (in any state), trajectory set and node", "why_tests_cant": "an equality of runs over all data sets and all renamings", "anchors": ["PyCTBN/PyCTBN/estimators/parameters_estimator.py:ParametersEstimator", "PyCTBN/PyCTBN/structure_graph/network_graph.py:NetworkGraph", "PyCTBN/PyCTBN/estimators/fam_score_calculator.py:FamScoreCalculator"]}
{"id": "C185", "title": "Constraint-based estimation does not depend on the names of the variables", "statement": "Estimating from the same data with renamed variables returns the renamed edges (or the same exception), and leaves the renamed estimator.", "quantifier": "every injective renaming, every data set, two-CIM test, cache, matrix of known edges, with or without process pool and in any order of completion", "why_tests_cant": "an equality of runs over all data sets and all renamings", "anchors": ["PyCTBN/PyCTBN/estimators/structure_constraint_based_estimator.py:StructureConstraintBasedEstimator.ctpc_algorithm", "PyCTBN/PyCTBN/optimizers/constraint_based_optimizer.py:ConstraintBasedOptimizer.optimize_structure"]}
{"id": "C186", "title": "Score-based estimation does not depend on the names of the variables", "statement": "Estimating from the same data with renamed variables and the same random numbers for every node returns the renamed edges (or the same exception), prints the same precision and recall, and leaves the renamed estimator; a new estimator on a renamed structure is the renamed one, and so are its adjacency matrix, spurious edges and saved results.", "quantifier": "every injective renaming, every data set, hyper-parameters, both searches, all limits, known edges, random numbers, with or without process pool and in any order of completion", "why_tests_cant": "an equality of runs over all data sets and all renamings", "anchors": ["PyCTBN/PyCTBN/estimators/structure_score_based_estimator.py:StructureScoreBasedEstimator.estimate_structure", "PyCTBN/PyCTBN/optimizers/tabu_search.py:TabuSearch.optimize_structure", "PyCTBN/PyCTBN/optimizers/hill_climbing_search.py:HillClimbing.optimize_structure", "PyCTBN/PyCTBN/estimators/structure_estimator.py:StructureEstimator"]}
{"id": "C187", "title": "Hill climbing misses a local optimum with small, but positive, probability", "statement": "Hill climbing draws its candidates independently and uniformly. Without a limit on the parents, with patience unset or at least L-1, N candidates and at least L*2^N iterations, the probability that it ends with a parent set that adding or removing one candidate would improve is at most iterations*N*(1-1/N)^L. It need not be zero: there is a score on three candidates for which it is at least (1/3)^iterations, whatever the patience.", "quantifier": "every score, prior knowledge, number of iterations and patience, every probability space", "why_tests_cant": "a bound on a probability over all runs of the random search", "anchors": ["PyCTBN/PyCTBN/optimizers/hill_climbing_search.py:HillClimbing.optimize_structure"]}
{"id": "C188", "title": "Networks estimated by hill climbing are locally optimal with high probability", "statement": "All variables have the same number c >= 2 of states and the hyper-parameters are positive. estimate_structure with hill climbing, no limit on parents, patience unset or at least L-1 and at least L*2^(M-1) iterations for M variables returns a network that one edge (not prior knowledge) could be added to or removed from so as to increase the marginal likelihood with probability at most M*iterations*(M-1)*(1-1/(M-1))^L. With patience unset, for each M and eps > 0 some number of iterations brings this below eps for all data and prior knowledge.", "quantifier": "every data set, prior knowledge, positive hyper-parameters, order of the process pool, and every joint distribution of the draws of different variables", "why_tests_cant": "a bound on a probability, uniform over all data sets", "anchors": ["PyCTBN/PyCTBN/optimizers/hill_climbing_search.py:HillClimbing.optimize_structure", "PyCTBN/PyCTBN/estimators/structure_score_based_estimator.py:StructureScoreBasedEstimator.estimate_structure"]}
{"id": "C189", "title": "Growing data and enough iterations reveal every true parent to hill climbing with high probability", "statement": "As C169, for hill climbing with independent uniform draws: for data that settle and a parent that matters in the long run whatever other parents are taken into account, for every eps > 0 there are a number of iterations and a size of the data from which on the probability that the returned network lacks the edge from this parent is at most eps.", "quantifier": "every sequence of data sets that settles, positive hyper-parameters, prior knowledge, more iterations, more data, order of the process pool", "why_tests_cant": "an asymptotic and probabilistic statement", "anchors": ["PyCTBN/PyCTBN/optimizers/hill_climbing_search.py:HillClimbing.optimize_structure", "PyCTBN/PyCTBN/estimators/structure_score_based_estimator.py:StructureScoreBasedEstimator.estimate_structure"]}
{"id": "C190", "title": "Long sampled trajectories show the stationary frequencies", "statement": "For a network whose matrices are conservative and whose joint states lead to each other, the process CTBN_Sample follows (C177: exit intensities replaced by their inverses) has exactly one stationary distribution, positive everywhere. In a trajectory sampled with max_tr = n, for any variable, state, and states of any list of other variables, the time spent so divided by n, and the number of moves to another given state divided by n, as they can be read off the rows returned, converge in probability to the stationary probability and the stationary flow, each divided by the stationary number of moves per unit of time; the probability of an error of eps or more is at most B/(eps^2 n).", "quantifier": "every such network, list of conditioning variables, states, n >= 1 and eps > 0, independent exponential and multinomial draws", "why_tests_cant": "a law of large numbers: a bound on a probability for every n", "anchors": ["PyCTBN/PyCTBN/structure_graph/trajectory_generator.py:TrajectoryGenerator.CTBN_Sample"]}
{"id": "C191", "title": "With any parent set, estimates from long sampled trajectories converge to stationary mean rates", "statement": "Under the conditions of C190, for any list of variables taken as parents, right or wrong, the estimate (observed moves + 1)/(observed time + 1) of an intensity converges in probability to the stationary mean rate of that move given the states of these variables, wherever these circumstances have positive stationary probability.", "quantifier": "every such network, list of variables, states and eps > 0", "why_tests_cant": "convergence in probability", "anchors": ["PyCTBN/PyCTBN/structure_graph/trajectory_generator.py:TrajectoryGenerator.CTBN_Sample", "PyCTBN/PyCTBN/estimators/parameters_estimator.py:ParametersEstimator.compute_parameters_for_node"]}
{"id": "C192", "title": "With all true parents, estimates from long sampled trajectories converge, and superfluous parents do not matter", "statement": "Under the conditions of C190, if the list of variables contains all parents, the estimate converges in probability to q_xy/q_x^2 for the states of the true parents, without any condition on the time observed; and the number of observed moves differs from that rate times the observed time by delta or more with probability at most B n/delta^2.", "quantifier": "every such network, list of variables containing the parents, joint state, eps, delta > 0, n >= 1", "why_tests_cant": "convergence in probability, and a bound on a probability for every n", "anchors": ["PyCTBN/PyCTBN/structure_graph/trajectory_generator.py:TrajectoryGenerator.CTBN_Sample", "PyCTBN/PyCTBN/estimators/parameters_estimator.py:ParametersEstimator.compute_parameters_for_node"]}
{"id": "C193", "title": "On growing data the score penalizes a superfluous parent", "statement": "Let the data grow without bound. If for all states of the variables K, every state of a further variable p keeps occurring and a variable n moves between its states at the same rates whatever the state of p, up to deviations of the counts that are small compared with the square root of N log N, then from some point on the score of n with parents K and p is less than the score with parents K.", "quantifier": "every sequence of data sets with all variables having c >= 2 states, positive hyperparameters, node, list K and variable p", "why_tests_cant": "a statement about all sufficiently large data of any such sequence", "anchors": ["PyCTBN/PyCTBN/estimators/fam_score_calculator.py:FamScoreCalculator.get_fam_score", "PyCTBN/PyCTBN/estimators/structure_score_based_estimator.py:StructureScoreBasedEstimator.get_score_from_graph"]}
{"id": "C194", "title": "Enough data reveal the network to score-based estimation", "statement": "Let the data grow without bound and let truth be a set of edges containing the prior knowledge. If every true parent matters to its child whatever other variables are taken into account, and every other variable is superfluous (C193) once the true parents are taken into account, then from some point on every network that estimate_structure returns with the tabu search (under the conditions of C130 on its arguments) has exactly the edges of truth, whatever is drawn at random and in whatever order the variables are processed.", "quantifier": "every such sequence of data sets, truth, prior knowledge, seeds and orders of completion", "why_tests_cant": "all sufficiently large data, all random draws and schedules", "anchors": ["PyCTBN/PyCTBN/estimators/fam_score_calculator.py:FamScoreCalculator.get_fam_score", "PyCTBN/PyCTBN/estimators/structure_score_based_estimator.py:StructureScoreBasedEstimator.get_score_from_graph", "PyCTBN/PyCTBN/optimizers/tabu_search.py:TabuSearch.optimize_structure"]}
{"id": "C195", "title": "Structure estimation recovers the network from long sampled trajectories", "statement": "Sample one trajectory with max_tr = m from a network whose variables all have c >= 2 states, can always move to each of their other states and are not their own parents, import it, and estimate the structure with the score-based estimator and tabu search (arguments as in C130; prior knowledge true). If in the stationary sampled process every parent matters to its child, whatever other variables are taken into account, then the probability that importing and estimation do not succeed with exactly the edges of the network, whatever is drawn in the search and in whatever order the variables are processed, tends to 0 as m grows.", "quantifier": "every such network, hyperparameters, prior knowledge, search arguments; independent exponential and multinomial draws; every search seed and order of completion", "why_tests_cant": "the limit of a probability over all trajectories, for every network", "anchors": ["PyCTBN/PyCTBN/structure_graph/trajectory_generator.py:TrajectoryGenerator.CTBN_Sample", "PyCTBN/PyCTBN/structure_graph/sample_path.py:SamplePath.build_trajectories", "PyCTBN/PyCTBN/utility/abstract_importer.py:AbstractImporter.compute_row_delta_in_all_samples_frames", "PyCTBN/PyCTBN/estimators/fam_score_calculator.py:FamScoreCalculator.get_fam_score", "PyCTBN/PyCTBN/estimators/structure_score_based_estimator.py:StructureScoreBasedEstimator.estimate_structure"]}
{"id": "C196", "title": "The recovery can be read off the intensities", "statement": "As C195, without mentioning the stationary process: it is enough that for every parent p of a variable n there are states x, y of n and z, z' of p such that intensity(x to y) / intensity(x)^2 with p in z is less than with p in z', whatever the states of the other parents.", "quantifier": "every such network; everything else as in C195", "why_tests_cant": "the limit of a probability over all trajectories, for every network", "anchors": ["PyCTBN/PyCTBN/structure_graph/trajectory_generator.py:TrajectoryGenerator.CTBN_Sample", "PyCTBN/PyCTBN/structure_graph/sample_path.py:SamplePath.build_trajectories", "PyCTBN/PyCTBN/utility/abstract_importer.py:AbstractImporter.compute_row_delta_in_all_samples_frames", "PyCTBN/PyCTBN/estimators/fam_score_calculator.py:FamScoreCalculator.get_fam_score", "PyCTBN/PyCTBN/estimators/structure_score_based_estimator.py:StructureScoreBasedEstimator.estimate_structure"]}
{"id": "C197", "title": "Constraint-based estimation finds every true parent in long sampled trajectories", "statement": "Sample one trajectory with max_tr = m from a network whose variables all have c states, can always move to each of their other states and are not their own parents, import it, and estimate the structure with the constraint-based estimator, with any significance levels and any prior knowledge. If in the stationary sampled process every parent matters to its child, whatever other variables are taken into account, then the probability that importing and estimation do not succeed, sequentially and in parallel in every order of completion, with a network that has all edges of the network sampled tends to 0 as m grows.", "quantifier": "every such network, significance levels, thumb threshold and prior knowledge; independent exponential and multinomial draws; every order of completion", "why_tests_cant": "the limit of a probability over all trajectories, for every network", "anchors": ["PyCTBN/PyCTBN/structure_graph/trajectory_generator.py:TrajectoryGenerator.CTBN_Sample", "PyCTBN/PyCTBN/structure_graph/sample_path.py:SamplePath.build_trajectories", "PyCTBN/PyCTBN/estimators/structure_constraint_based_estimator.py:StructureConstraintBasedEstimator.ctpc_algorithm", "PyCTBN/PyCTBN/estimators/structure_constraint_based_estimator.py:StructureConstraintBasedEstimator.independence_test"]}
{"id": "C198", "title": "Constraint-based estimation finds every parent that tells", "statement": "As C197, without mentioning the stationary process: it is enough that for every parent p of a variable n there are states x, y of n and z, z' of p such that intensity(x to y) / intensity(x)^2 with p in z is less than with p in z', whatever the states of the other parents.", "quantifier": "every such network; everything else as in C197", "why_tests_cant": "the limit of a probability over all trajectories, for every network", "anchors": ["PyCTBN/PyCTBN/structure_graph/trajectory_generator.py:TrajectoryGenerator.CTBN_Sample", "PyCTBN/PyCTBN/structure_graph/sample_path.py:SamplePath.build_trajectories", "PyCTBN/PyCTBN/estimators/structure_constraint_based_estimator.py:StructureConstraintBasedEstimator.ctpc_algorithm", "PyCTBN/PyCTBN/estimators/structure_constraint_based_estimator.py:StructureConstraintBasedEstimator.independence_test"]}
{"id": "C199", "title": "Enough data and iterations reveal the network to hill climbing with high probability", "statement": "Let the data grow as in C194: every true parent matters, every other variable is superfluous once the true parents are taken into account. For every eps > 0 there are a number of iterations T0 and a point from which on estimate_structure with hill climbing, at least T0 iterations, no patience limit and no limit on the parents returns a network other than the true one with probability at most eps over its uniform independent draws, whatever the order in which the variables are processed.", "quantifier": "every such sequence of data sets, eps > 0, at least T0 iterations, joint law of the draws of different variables, order of completion", "why_tests_cant": "a bound on a probability for all sufficiently large data", "anchors": ["PyCTBN/PyCTBN/estimators/fam_score_calculator.py:FamScoreCalculator.get_fam_score", "PyCTBN/PyCTBN/estimators/structure_score_based_estimator.py:StructureScoreBasedEstimator.estimate_structure", "PyCTBN/PyCTBN/optimizers/hill_climbing_search.py:HillClimbing.optimize_structure"]}
{"id": "C200", "title": "Hill climbing recovers the network from long sampled trajectories", "statement": "As C195 with hill climbing in place of tabu search: for every eps > 0 there is a number of iterations T0 such that, with at least T0 iterations, no patience limit and no limit on the parents, the probability that a trajectory sampled with max_tr = m cannot be imported, or lets estimation return exactly the edges of the network with probability less than 1 - eps over the draws of the search, tends to 0 as m grows.", "quantifier": "every network as in C195, hyperparameters, true prior knowledge, eps > 0, joint law of the draws of different variables, order of completion", "why_tests_cant": "nested limits of probabilities over all trajectories and draws", "anchors": ["PyCTBN/PyCTBN/structure_graph/trajectory_generator.py:TrajectoryGenerator.CTBN_Sample", "PyCTBN/PyCTBN/estimators/fam_score_calculator.py:FamScoreCalculator.get_fam_score", "PyCTBN/PyCTBN/estimators/structure_score_based_estimator.py:StructureScoreBasedEstimator.estimate_structure", "PyCTBN/PyCTBN/optimizers/hill_climbing_search.py:HillClimbing.optimize_structure"]}
{"id": "C201", "title": "Long-run frequencies of trajectories sampled up to an end time", "statement": "Sample with t_end = T > 0 from a network in which every variable leaves its states with the sum of its other intensities and every joint state leads to every other. Almost surely CTBN_Sample returns. The share of the time T that the returned rows show in given circumstances (a variable in a state, some others in given states) converges in probability to the stationary probability of these circumstances, and the number per unit of time of a variable's transitions between two states in given circumstances to its stationary value: for T >= 1 the probability of a deviation of at least eps <= 1 is at most B / (eps^2 T).", "quantifier": "every such network, circumstances, T, eps; independent exponential and multinomial draws", "why_tests_cant": "a law of large numbers at a random number of transitions, over all draws", "anchors": ["PyCTBN/PyCTBN/structure_graph/trajectory_generator.py:TrajectoryGenerator.CTBN_Sample"]}
{"id": "C202", "title": "Estimates from trajectories sampled up to an end time converge", "statement": "On trajectories sampled with t_end = T, the estimate (M + 1) / (T_x + 1) of a move's intensity given the states of any other variables converges in probability, as T grows, to the stationary mean rate of that move in these circumstances; given all parents, to intensity / (exit intensity)^2, with deviations of counts from that rate times the observed time of the order of the square root of T.", "quantifier": "every network as in C201, circumstances of positive stationary probability, eps", "why_tests_cant": "limits of probabilities over all trajectories", "anchors": ["PyCTBN/PyCTBN/structure_graph/trajectory_generator.py:TrajectoryGenerator.CTBN_Sample", "PyCTBN/PyCTBN/structure_graph/conditional_intensity_matrix.py:ConditionalIntensityMatrix.compute_cim_coefficients"]}
{"id": "C203", "title": "Score-based estimation recovers the network from trajectories sampled up to a late end time", "statement": "As C195 and C196, with trajectories sampled with t_end = T in place of max_tr = m: the probability that importing the trajectory and tabu search do not succeed with exactly the edges of the network tends to 0 as T grows.", "quantifier": "everything as in C195 and C196; T real", "why_tests_cant": "the limit of a probability over all trajectories, for every network", "anchors": ["PyCTBN/PyCTBN/structure_graph/trajectory_generator.py:TrajectoryGenerator.CTBN_Sample", "PyCTBN/PyCTBN/structure_graph/sample_path.py:SamplePath.build_trajectories", "PyCTBN/PyCTBN/utility/abstract_importer.py:AbstractImporter.compute_row_delta_in_all_samples_frames", "PyCTBN/PyCTBN/estimators/fam_score_calculator.py:FamScoreCalculator.get_fam_score", "PyCTBN/PyCTBN/estimators/structure_score_based_estimator.py:StructureScoreBasedEstimator.estimate_structure"]}
{"id": "C204", "title": "Constraint-based estimation keeps every true parent on trajectories sampled up to a late end time", "statement": "As C197 and C198 with t_end = T in place of max_tr = m: the probability that importing and constraint-based estimation do not succeed with a network that has every edge of the sampled network tends to 0 as T grows.", "quantifier": "everything as in C197 and C198; T real", "why_tests_cant": "the limit of a probability over all trajectories, for every network", "anchors": ["PyCTBN/PyCTBN/structure_graph/trajectory_generator.py:TrajectoryGenerator.CTBN_Sample", "PyCTBN/PyCTBN/structure_graph/sample_path.py:SamplePath.build_trajectories", "PyCTBN/PyCTBN/utility/abstract_importer.py:AbstractImporter.compute_row_delta_in_all_samples_frames", "PyCTBN/PyCTBN/estimators/structure_constraint_based_estimator.py:StructureConstraintBasedEstimator.ctpc_algorithm"]}
{"id": "C205", "title": "Hill climbing recovers the network from trajectories sampled up to a late end time", "statement": "As C200 with t_end = T in place of max_tr = m.", "quantifier": "everything as in C200; T real", "why_tests_cant": "nested limits of probabilities over all trajectories and draws", "anchors": ["PyCTBN/PyCTBN/structure_graph/trajectory_generator.py:TrajectoryGenerator.CTBN_Sample", "PyCTBN/PyCTBN/structure_graph/sample_path.py:SamplePath.build_trajectories", "PyCTBN/PyCTBN/utility/abstract_importer.py:AbstractImporter.compute_row_delta_in_all_samples_frames", "PyCTBN/PyCTBN/estimators/fam_score_calculator.py:FamScoreCalculator.get_fam_score", "PyCTBN/PyCTBN/estimators/structure_score_based_estimator.py:StructureScoreBasedEstimator.estimate_structure", "PyCTBN/PyCTBN/optimizers/hill_climbing_search.py:HillClimbing.optimize_structure"]}
{"id": "C206", "title": "What estimates from many trajectories with the same max_tr converge to", "statement": "Pool k independent trajectories sampled with max_tr = n + 1. As k grows, the estimate (M + 1) / (T + 1) of a variable's transition in given circumstances converges almost surely to (mean number of such transitions on one trajectory's rows) / (mean time on its rows). Given the states of all parents, this is the sampled process's rate times (mean time in the circumstances before the last state) / (mean time in the circumstances). Hence it lies strictly below that rate whenever the mean time in the last state exceeds what rounding the stamps to four decimals can hide, (n + 1) / 10000: more trajectories never make up for their last move being overwritten.", "quantifier": "every network whose variables leave their states with the sum of their other intensities, variable, circumstances, max_tr; independent exponential and multinomial draws", "why_tests_cant": "an almost sure limit over all sequences of trajectories", "anchors": ["PyCTBN/PyCTBN/structure_graph/trajectory_generator.py:TrajectoryGenerator.CTBN_Sample", "PyCTBN/PyCTBN/structure_graph/conditional_intensity_matrix.py:ConditionalIntensityMatrix.compute_cim_coefficients", "PyCTBN/PyCTBN/estimators/parameters_estimator.py:ParametersEstimator.compute_parameters_for_node"]}
{"id": "C207", "title": "Trajectories of a single transition show no transition", "statement": "However many trajectories sampled with max_tr = 1 are pooled, none of their rows shows a transition, in any circumstances. In the initial circumstances, all estimated intensities tend to 0 almost surely as their number grows, whatever the network's intensities.", "quantifier": "every network as in C206, variable, transition, circumstances, number of trajectories", "why_tests_cant": "all sequences of trajectories", "anchors": ["PyCTBN/PyCTBN/structure_graph/trajectory_generator.py:TrajectoryGenerator.CTBN_Sample", "PyCTBN/PyCTBN/structure_graph/conditional_intensity_matrix.py:ConditionalIntensityMatrix.compute_cim_coefficients", "PyCTBN/PyCTBN/estimators/parameters_estimator.py:ParametersEstimator.compute_parameters_for_node"]}
{"id": "C208", "title": "Any fixed number of long independent trajectories, imported together", "statement": "Sample K >= 1 trajectories one after the other, with max_tr = m each or t_end = T each, and import them together. As m (or T) grows: estimates converge in probability to the stationary mean rates of C191 and C202; the probability that importing and tabu search do not return exactly the network's edges tends to 0 under the conditions of C196; so does the probability that constraint-based estimation loses an edge, under C198's; and that hill climbing does not succeed with probability 1 - eps, under C200's.", "quantifier": "every such network, K, arguments as in C196, C198 and C200; independent draws", "why_tests_cant": "limits of probabilities over all sets of trajectories", "anchors": ["PyCTBN/PyCTBN/structure_graph/trajectory_generator.py:TrajectoryGenerator.CTBN_Sample", "PyCTBN/PyCTBN/utility/abstract_importer.py:AbstractImporter.compute_row_delta_in_all_samples_frames", "PyCTBN/PyCTBN/structure_graph/sample_path.py:SamplePath.build_trajectories", "PyCTBN/PyCTBN/estimators/structure_score_based_estimator.py:StructureScoreBasedEstimator.estimate_structure", "PyCTBN/PyCTBN/estimators/structure_constraint_based_estimator.py:StructureConstraintBasedEstimator.ctpc_algorithm"]}
{"id": "C209", "title": "What data sets from multi_trajectory with equal limits lead to", "statement": "With workers that start from the same random state (fork), multi_trajectory with k equal max_tr or t_end returns k copies of the one trajectory that CTBN_Sample returns from this state, in whatever order they finish. The estimates then converge, as k grows, to the raw frequencies (transitions / time) of this one trajectory. All variables having c >= 2 states and the times of the rows being distinct, for every large enough k the data import and any network tabu search returns explains the chance behaviour of the one trajectory: a variable that matters in it beyond the parents is a parent.", "quantifier": "every network, random state, limit, k, order of completion, draws of the search", "why_tests_cant": "all random states, completion orders and numbers of workers", "anchors": ["PyCTBN/PyCTBN/structure_graph/trajectory_generator.py:TrajectoryGenerator.multi_trajectory", "PyCTBN/PyCTBN/structure_graph/trajectory_generator.py:TrajectoryGenerator.worker", "PyCTBN/PyCTBN/utility/abstract_importer.py:AbstractImporter.compute_row_delta_in_all_samples_frames", "PyCTBN/PyCTBN/structure_graph/sample_path.py:SamplePath.build_trajectories", "PyCTBN/PyCTBN/estimators/structure_score_based_estimator.py:StructureScoreBasedEstimator.estimate_structure"]}
{"id": "C210", "title": "What score-based estimation finds in many pooled trajectories with the same max_tr", "statement": "Trajectories sampled independently with the same max_tr = m >= 1 are imported together and tabu search (conditions of C130) runs on them; all variables have c >= 2 states, hyperparameters are positive. If on the rows of such trajectories p matters to n whatever other variables are taken into account (two states of p, both occurring, under which n makes some move differently often per unit of recorded time on average), then almost surely, once the trajectories are many enough, importing works and every network returned has the edge p -> n, whether or not it is an edge of the network sampled.", "quantifier": "every network, m, pair of variables, arguments and draws of the search; almost every infinite sequence of independent trajectories", "why_tests_cant": "a limit over infinitely many random trajectories", "anchors": ["PyCTBN/PyCTBN/structure_graph/trajectory_generator.py:TrajectoryGenerator.CTBN_Sample", "PyCTBN/PyCTBN/utility/abstract_importer.py:AbstractImporter.compute_row_delta_in_all_samples_frames", "PyCTBN/PyCTBN/structure_graph/sample_path.py:SamplePath.build_trajectories", "PyCTBN/PyCTBN/estimators/structure_score_based_estimator.py:StructureScoreBasedEstimator.estimate_structure"]}
{"id": "C211", "title": "Rounding of time stamps does not accumulate", "statement": "Each row's time stamp is rounded to four decimals. If in every joint state the sampled process moves at total rate at most L <= 2500, then the mean time spent in any circumstances according to the rows of a trajectory sampled with max_tr = m differs from the mean time really spent by at most 2 L / 10^8, for every m. Hence limits of pooled estimates (C206) are off because of rounding only by as much as this change of the denominator.", "quantifier": "every network with conservative intensity matrices, every m, circumstances", "why_tests_cant": "expectation over all trajectories, every length", "anchors": ["PyCTBN/PyCTBN/structure_graph/trajectory_generator.py:TrajectoryGenerator.CTBN_Sample", "PyCTBN/PyCTBN/utility/abstract_importer.py:AbstractImporter.compute_row_delta_in_all_samples_frames", "PyCTBN/PyCTBN/structure_graph/sample_path.py:SamplePath.build_trajectories"]}
{"id": "C212", "title": "More trajectories with the same max_tr do not reveal the network", "statement": "X and Y have two states each, no edges between them and all intensities 1. Whatever max_tr = m >= 2 is used and whatever positive hyperparameters, almost surely, once the number of independently sampled trajectories is large enough, importing them together works and the network that score-based estimation with default arguments returns is X <-> Y, both edges, neither of which exists.", "quantifier": "every m >= 2, tau, alpha > 0; almost every sequence of trajectories; every draw of the search", "why_tests_cant": "an almost sure limit for every trajectory length", "anchors": ["PyCTBN/PyCTBN/structure_graph/trajectory_generator.py:TrajectoryGenerator.CTBN_Sample", "PyCTBN/PyCTBN/utility/abstract_importer.py:AbstractImporter.compute_row_delta_in_all_samples_frames", "PyCTBN/PyCTBN/structure_graph/sample_path.py:SamplePath.build_trajectories", "PyCTBN/PyCTBN/estimators/structure_score_based_estimator.py:StructureScoreBasedEstimator.estimate_structure"]}
{"id": "C213", "title": "Constraint-based estimation on many pooled trajectories with the same max_tr", "statement": "Trajectories sampled independently with the same max_tr = m are imported together; all variables have c >= 2 states, F quantiles tend to 1 with the degrees of freedom. If on the rows of such trajectories every move of n has a positive mean number in all circumstances and p matters to n whatever else is taken into account, then almost surely, once the trajectories are many enough, ctpc_algorithm, sequential or parallel, returns a network with the edge p -> n, whether or not it is an edge of the network sampled. In particular, for the two independent variables of C212 and every m >= 4 it returns both edges between them.", "quantifier": "every such network, m, pair, prior knowledge, order of completion; almost every sequence of independent trajectories", "why_tests_cant": "an almost sure limit over infinitely many random trajectories", "anchors": ["PyCTBN/PyCTBN/structure_graph/trajectory_generator.py:TrajectoryGenerator.CTBN_Sample", "PyCTBN/PyCTBN/utility/abstract_importer.py:AbstractImporter.compute_row_delta_in_all_samples_frames", "PyCTBN/PyCTBN/structure_graph/sample_path.py:SamplePath.build_trajectories", "PyCTBN/PyCTBN/estimators/structure_constraint_based_estimator.py:StructureConstraintBasedEstimator.ctpc_algorithm", "PyCTBN/PyCTBN/estimators/structure_constraint_based_estimator.py:StructureConstraintBasedEstimator.independence_test"]}
{"id": "C214", "title": "Written files do not depend on the platform", "statement": "The package opens files without naming an encoding. Nevertheless, whatever the variable names: writing an exported file or saved results never fails because of the platform's default encoding, every platform writes the same bytes, and reading them on any other platform gives the exported value, respectively exactly the estimated edges.", "quantifier": "every exporter whose trajectories have no repeated column name, every estimation result, every two platforms whose default encoding and treatment of line ends agree with ASCII on the printable characters", "why_tests_cant": "all strings, all encodings", "anchors": ["PyCTBN/PyCTBN/utility/json_exporter.py:JsonExporter.out_file", "PyCTBN/PyCTBN/utility/json_importer.py:JsonImporter.read_json_file", "PyCTBN/PyCTBN/estimators/structure_estimator.py:StructureEstimator.save_results"]}
{"id": "C215", "title": "Exactly which trajectories can be sampled", "statement": "Given a network in which every state can be left, the frames CTBN_Sample(max_tr=m) can return are exactly these: the possible histories of m moves - start at time 0 with every variable in state 0, stamps of four decimals that never decrease, from row to row exactly one variable moves to another state with positive intensity - with the last row overwritten by -1. Every such history is returned for some random draws, which may all be positive, so none is excluded and none is added (in particular several rows with the same stamp). With t_end = T instead, the same holds for histories of any number of moves whose last stamp is the rounding of a time before T.", "quantifier": "every well-formed network with positive exit rates, every m, every T > 0, all random draws, every frame", "why_tests_cant": "all draws, all frames", "anchors": ["PyCTBN/PyCTBN/utility/trajectory_generator.py:TrajectoryGenerator.CTBN_Sample"]}
{"id": "C216", "title": "A state missing in the last row counts as state 0", "statement": "A trajectory whose last row lacks variables (or holds null for them) is not rejected: importing the file, or the frames, gives exactly the outcome - data or error - of the file in which 0 is written there. So the last move of such a variable is counted as a move to state 0.", "quantifier": "every file with trajectories of complete rows followed by a last row with the time and any of the variables, whatever else it holds; every list of frames; every header", "why_tests_cant": "all files and frames", "anchors": ["PyCTBN/PyCTBN/utility/abstract_importer.py:AbstractImporter.compute_row_delta_sigle_samples_frame", "PyCTBN/PyCTBN/utility/json_importer.py:JsonImporter.import_data", "PyCTBN/PyCTBN/utility/sample_importer.py:SampleImporter.import_data"]}
{"id": "C217", "title": "When sampled data give the right statistics", "statement": "Take a network in which every state can be left and every variable can move from 0 to 1 at the start, and any graph over its variables. The statistics the estimator computes for a node are those of the sampled rows for every collection of trajectories the sampler can return - handed over directly, or through an exported and re-imported file - exactly when every parent has as many states as the node (or one), and the first two parents equally many. Otherwise a trajectory of three rows, sampled with max_tr=2 and positive draws, already gives wrong statistics.", "quantifier": "every such network, every graph over its variables, every node, all samples, all draws", "why_tests_cant": "all networks, all samples", "anchors": ["PyCTBN/PyCTBN/utility/trajectory_generator.py:TrajectoryGenerator.CTBN_Sample", "PyCTBN/PyCTBN/estimators/parameters_estimator.py:ParametersEstimator", "PyCTBN/PyCTBN/structure_graph/network_graph.py:NetworkGraph.build_time_scalar_indexing_structure_for_a_node"]}
{"id": "C218", "title": "What constraint-based estimation returns is a network over the variables", "statement": "Whatever the data, the answers of the tests, the state earlier (also failed) estimations left behind, and the order in which workers finish: if constraint-based estimation returns, its result contains every edge at most once and only edges between two different variables of the structure. With tests that are right about a network over these variables, the result consists of exactly the edges of the network.", "quantifier": "every structure, data set, test outcome, estimator state, completion order", "why_tests_cant": "all data, all schedules, all histories", "anchors": ["PyCTBN/PyCTBN/estimators/structure_constraint_based_estimator.py:StructureConstraintBasedEstimator.ctpc_algorithm", "PyCTBN/PyCTBN/optimizers/constraint_based_optimizer.py:ConstraintBasedOptimizer.optimize_structure"]}
{"id": "C219", "title": "The quantiles of the F and chi-square distributions meet the assumptions", "statement": "With the quantiles of the F distribution (quotient of independent chi-square variables divided by their degrees of freedom) and of the chi-square distribution, at significance levels strictly between 0 and 1: they are monotone in the level; 1 lies between the two quantiles of an F distribution with equal degrees of freedom; chi-square quantiles are not negative; the F quantiles tend to 1 as both degrees of freedom grow. So everything proved under these assumptions about constraint-based estimation (C141, C142, C149, C197, C198, C204, C213) holds for them.", "quantifier": "all significance levels between 0 and 1, all degrees of freedom", "why_tests_cant": "infinitely many levels and degrees of freedom", "anchors": ["PyCTBN/PyCTBN/estimators/structure_constraint_based_estimator.py:StructureConstraintBasedEstimator.independence_test"]}
{"id": "C220", "title": "An explicit amount of data after which a difference is detected", "statement": "With the quantiles of the F and chi-square distributions and significance levels alpha, beta between 0 and 1: if the two estimated exit rates of a state have a ratio that differs from 1 by more than eps (at most 4), and both samples have more than 512/(alpha eps^2) exits from it, independence_test does not answer 'independent'. Nor does it if the chi-square statistic of some state (every transition being observed) exceeds (c-1) + sqrt(2(c-1)/beta).", "quantifier": "all pairs of CIMs, significance levels and eps", "why_tests_cant": "all count matrices and levels", "anchors": ["PyCTBN/PyCTBN/estimators/structure_constraint_based_estimator.py:StructureConstraintBasedEstimator.independence_test"]}
{"id": "C221", "title": "At shrinking significance levels constraint-based estimation finds the network exactly", "statement": "All variables of the network have c >= 2 states, every variable can always move to each of its other states, no variable is its own parent, and every parent tells about its child (or: in the stationary process it matters whatever else is taken into account). The significance levels of the tests depend on the length of the trajectories: they go to 0 like a power of the length, but more slowly than its inverse, e.g. 1/sqrt(length). Then, with the quantiles of the F and chi-square distributions and any data-size threshold, the probability that importing K trajectories sampled with max_tr = m (or t_end = T) and constraint-based estimation, sequential or parallel with any order of completion, with any prior knowledge that is true, do not return exactly the edges of the network sampled, each once, tends to 0.", "quantifier": "every such network, number of trajectories, levels, prior knowledge, completion order", "why_tests_cant": "a limit over infinitely many lengths of random trajectories", "anchors": ["PyCTBN/PyCTBN/estimators/structure_constraint_based_estimator.py:StructureConstraintBasedEstimator.ctpc_algorithm", "PyCTBN/PyCTBN/estimators/structure_constraint_based_estimator.py:StructureConstraintBasedEstimator.independence_test", "PyCTBN/PyCTBN/structure_graph/trajectory_generator.py:TrajectoryGenerator.CTBN_Sample", "PyCTBN/PyCTBN/structure_graph/sample_path.py:SamplePath.build_trajectories"]}
{"id": "C222", "title": "Along one endless run of draws the library finds the network and keeps finding it", "statement": "All variables of the network have c >= 2 states, every variable can always move to each of its other states, no variable is its own parent, and every parent tells about its child. With probability one over endless draws, as K independent trajectories are continued - max_tr or t_end is increased on the same draws, so that only rows are added and the closing row is moved -, (i) the intensity the library estimates for every variable given all its parents (and others) converges to the intensity divided by the square of the exit intensity, (ii) score-based estimation with the tabu search returns exactly the edges of the network from some moment on and at every later moment, at once for all hyper-parameters, true prior knowledge and sufficient search limits, (iii) hill climbing does so with probability at least 1 - eps over its own choices, given enough iterations, and (iv) constraint-based estimation at levels shrinking with the length returns exactly these edges from some moment on and at every later one. For (i) it is enough that every joint state leads to every other.", "quantifier": "every such network, number of trajectories, hyper-parameters, levels, prior knowledge; almost every endless sequence of draws", "why_tests_cant": "an almost sure statement about infinite histories", "anchors": ["PyCTBN/PyCTBN/structure_graph/trajectory_generator.py:TrajectoryGenerator.CTBN_Sample", "PyCTBN/PyCTBN/structure_graph/sample_path.py:SamplePath.build_trajectories", "PyCTBN/PyCTBN/estimators/structure_score_based_estimator.py:StructureScoreBasedEstimator.estimate_structure", "PyCTBN/PyCTBN/estimators/structure_constraint_based_estimator.py:StructureConstraintBasedEstimator.ctpc_algorithm", "PyCTBN/PyCTBN/estimators/parameters_estimator.py:ParametersEstimator.compute_parameters_for_node"]}
{"id": "C223", "title": "Wrong estimates are exponentially unlikely in the length of the data", "statement": "In a sampled network in which every joint state leads to every other, for every variable, every set of conditioning variables, every state and every pair of states, the total residence time and the number of transitions of the statistics computed from the rows of CTBN_Sample(max_tr = n), divided by n, differ from their stationary values by eps <= 1 or more with probability at most C exp(-a eps^2 n), for constants a > 0 and C that depend neither on n nor on eps. Given all parents of the variable (and possibly others), the same holds of the intensity the library estimates, (M + 1) / (T + 1), against the intensity divided by the square of the exit intensity. Hence A (1 + log(1/p)) / eps^2 transitions are enough for an error below eps with probability at least 1 - p.", "quantifier": "every such network, variable, conditioning set, states, n, eps in (0, 1] and p in (0, 1]", "why_tests_cant": "a quantitative bound on probabilities, uniform in the length and the precision", "anchors": ["PyCTBN/PyCTBN/structure_graph/trajectory_generator.py:TrajectoryGenerator.CTBN_Sample", "PyCTBN/PyCTBN/estimators/parameters_estimator.py:ParametersEstimator.compute_parameters_for_node", "PyCTBN/PyCTBN/estimators/parameters_estimator.py:ParametersEstimator.compute_state_res_time_for_node", "PyCTBN/PyCTBN/estimators/parameters_estimator.py:ParametersEstimator.compute_state_transitions_for_a_node", "PyCTBN/PyCTBN/structure_graph/conditional_intensity_matrix.py:ConditionalIntensityMatrix.compute_cim_coefficients"]}
{"id": "C224", "title": "How fast wrong structures become unlikely", "statement": "All variables of the network have c >= 2 states, every variable can always move to each of its other states, no variable is its own parent, and every parent tells about its child. K independent trajectories are sampled with max_tr = n each and imported together. Then (i) the probability that score-based estimation with the tabu search (given sufficient limits and true prior knowledge) does not return exactly the edges of the network is at most C / n^gamma for some gamma > 0 and C that serve all sufficient limits; so is the probability that the data do not let hill climbing with enough iterations return them with probability 1 - eps over its own random choices; (ii) so is that of constraint-based estimation at levels that shrink with n like a power between n^0 and n^-1; (iii) the probability that constraint-based estimation at fixed levels misses an edge of the network is at most C exp(-gamma n).", "quantifier": "every such network, number of trajectories, hyper-parameters, levels, prior knowledge and every n >= 1", "why_tests_cant": "a bound on a probability for every length of the data", "anchors": ["PyCTBN/PyCTBN/structure_graph/trajectory_generator.py:TrajectoryGenerator.CTBN_Sample", "PyCTBN/PyCTBN/structure_graph/sample_path.py:SamplePath.build_trajectories", "PyCTBN/PyCTBN/estimators/structure_score_based_estimator.py:StructureScoreBasedEstimator.estimate_structure", "PyCTBN/PyCTBN/estimators/structure_constraint_based_estimator.py:StructureConstraintBasedEstimator.ctpc_algorithm"]}
{"id": "C225", "title": "A SamplePath's trajectory lists every transition of the data once", "statement": "After importing any non-empty list of raw trajectories of which at least one has two rows, and build_trajectories, trajectories.size() is the sum over the raw trajectories of their number of rows minus one; times has as many entries and they add up to the total duration (last minus first time stamp of each trajectory); trajectory lists the states before each transition, in order, and complete_trajectory appends to each the states after it, so that its rows have twice as many columns as there are variables. In particular no transition is made up between the end of one trajectory and the start of the next.", "quantifier": "every list of raw trajectories without label clashes (of any number and length)", "why_tests_cant": "ranges over all data sets", "anchors": ["PyCTBN/PyCTBN/structure_graph/trajectory.py:Trajectory.size", "PyCTBN/PyCTBN/structure_graph/trajectory.py:Trajectory.complete_trajectory", "PyCTBN/PyCTBN/structure_graph/sample_path.py:SamplePath.build_trajectories", "PyCTBN/PyCTBN/utility/abstract_importer.py:AbstractImporter.compute_row_delta_in_all_samples_frames"]}
{"id": "C226", "title": "Exponentially unlikely ever to be wrong again", "statement": "In a sampled network in which every joint state leads to every other, K independent trajectories are continued forever, looked at after each transition (CTBN_Sample(max_tr = m)) or at each time (CTBN_Sample(t_end = T')). For every eps > 0 and every intensity given all parents (and possibly others), the probability that the estimate from these trajectories is wrong by eps or more for SOME m >= n is at most C exp(-gamma n), and that it is for SOME T' >= T at most C exp(-gamma T). If moreover all variables have c states and always can move to each other state, no variable is its own parent and every parent tells about its child, the same holds of constraint-based estimation at fixed levels missing an edge of the network.", "quantifier": "every such network, number of trajectories, eps, levels, prior knowledge, every n >= 1 and every real T >= 0", "why_tests_cant": "a bound on the probability of an event about infinitely many lengths and a continuum of end times", "anchors": ["PyCTBN/PyCTBN/structure_graph/trajectory_generator.py:TrajectoryGenerator.CTBN_Sample", "PyCTBN/PyCTBN/structure_graph/sample_path.py:SamplePath.build_trajectories", "PyCTBN/PyCTBN/estimators/parameters_estimator.py:ParametersEstimator.compute_parameters_for_node", "PyCTBN/PyCTBN/estimators/structure_constraint_based_estimator.py:StructureConstraintBasedEstimator.ctpc_algorithm"]}
{"id": "C227", "title": "At fixed significance levels that are small enough errors of constraint-based estimation are rare", "statement": "All variables of the network have c >= 2 states, every variable can always move to each of its other states, no variable is its own parent, and every parent tells about its child. For every tolerance eps > 0 and number K >= 1 of trajectories there is a bound a0 > 0 such that at any fixed significance levels between 0 and a0 - of the tests of the times and of those of the transitions, not necessarily the same -, with the quantiles of the F and chi-square distributions and any data-size threshold, the probability that importing K trajectories sampled with max_tr = n (or t_end = T) and constraint-based estimation, sequential or parallel with any order of completion, with any prior knowledge that is true, do not return exactly the edges of the network sampled, each once, is at most eps for all n (T) from some point on, which may depend on the levels.", "quantifier": "every such network, tolerance, number of trajectories, threshold, true prior knowledge, levels below the bound, completion order, and every long enough trajectory", "why_tests_cant": "a bound on a probability for all large lengths of random trajectories", "anchors": ["PyCTBN/PyCTBN/estimators/structure_constraint_based_estimator.py:StructureConstraintBasedEstimator.ctpc_algorithm", "PyCTBN/PyCTBN/estimators/structure_constraint_based_estimator.py:StructureConstraintBasedEstimator.independence_test", "PyCTBN/PyCTBN/structure_graph/trajectory_generator.py:TrajectoryGenerator.CTBN_Sample", "PyCTBN/PyCTBN/structure_graph/sample_path.py:SamplePath.build_trajectories"]}
{"id": "C228", "title": "A fast_init that raises does no lasting harm", "statement": "A user who catches the exceptions of fast_init may go on using the NetworkGraph. After any calls of add_edges, remove_edges and fast_init, whatever edges and labels were passed and whichever of the fast_init calls raised: for a label n of the structure, fast_init(n) succeeds exactly when all parents of n in the graph are labels of the structure, and then parent information, indexing structures, filters and parent combinations are exactly those determined by the structure and the present edges, as on a new object with these edges; otherwise it raises KeyError and the derived data stay unchanged. For a label unknown to the structure it always raises: networkx's NetworkXError if the label never occurred in an edge, KeyError otherwise; the edges of the structure are installed all the same, and in the KeyError case with known parents the parent information already is that of the unknown label while the tables still are those of the node initialised before.", "quantifier": "every structure with distinct labels and lists of equal lengths, every finite history of add_edges, remove_edges and fast_init calls with arbitrary edges and labels, raising or not, every further label", "why_tests_cant": "the states an exception can leave behind depend on the whole history and on where in fast_init it is raised; tests only cover calls that succeed", "anchors": ["PyCTBN/PyCTBN/structure_graph/network_graph.py:NetworkGraph.fast_init", "PyCTBN/PyCTBN/structure_graph/network_graph.py:NetworkGraph.get_ordered_by_indx_set_of_parents", "PyCTBN/PyCTBN/structure_graph/network_graph.py:NetworkGraph.add_edges", "PyCTBN/PyCTBN/structure_graph/network_graph.py:NetworkGraph.remove_edges"]}
{"id": "C229", "title": "The edge table is read by position for estimation but by column name for sampling", "statement": "The edges of an imported JSON file are used twice: as prior structure of the estimators (SamplePath.build_structure) and as parents in TrajectoryGenerator. For edge records with the keys From and To, written in either order in each record: the generator's parents of a variable are the origins of the edges of the file ending in it, in file order and whatever the order of the keys (two files differing only there give the same generator or the same exception), while the prior edges are those of the file if the first record begins with From, and all of them reversed if it begins with To. So both networks agree exactly if the first record begins with From or with every edge its reverse is in the file. For records with further keys a row counts for the generator only if it has a non-null value for every key of every record, and a file in which From or To never occurs, in particular one without edges, makes the generator raise KeyError. Construction succeeds only if the importer has CIMs and the variables table a first column, which gives the names; with a variable, the edge table must have To and From; with a CIM, the variables table must have Name and Value, and every CIM must belong to one of its variables.", "quantifier": "every data set, every list of edges with every order of the keys in each record, every set of importer keys, arbitrary further entries of the file; for the reading by name: every list of records with arbitrary keys and values", "why_tests_cant": "tests use files whose records begin with From; the two readers live in different classes and only a statement about all key orders relates them", "anchors": ["PyCTBN/PyCTBN/structure_graph/trajectory_generator.py:TrajectoryGenerator.__init__", "PyCTBN/PyCTBN/structure_graph/sample_path.py:SamplePath.build_structure", "PyCTBN/PyCTBN/utility/json_importer.py:JsonImporter.import_structure", "PyCTBN/PyCTBN/utility/json_importer.py:JsonImporter.one_level_normalizing"]}
