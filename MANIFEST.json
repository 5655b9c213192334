{
 "claims": [
  {
   "property": "C01",
   "status": "proved",
   "theorems": [
    "Verif.Props.C01_reported_plan_is_solution",
    "Verif.Props.C01_simple_search"
   ],
   "note": "Arbitrary fringe, duplicate check and heuristic."
  },
  {
   "property": "C02",
   "status": "partial",
   "theorems": [
    "Verif.Props.C02_unsolvable_is_correct",
    "Verif.Props.C02_unsolvable_below",
    "Verif.Props.C02_simple_search",
    "Verif.Props.C02_visited_list_search",
    "Verif.Props.C02_network_comparison_partial",
    "Verif.Props.C02_rc_search",
    "Verif.Props.C02_rc_visited_list_search",
    "Verif.Props.C02_rc_uncorrected",
    "Verif.Props.C02_network_comparison_violated",
    "Verif.Props.C02_parallel_sequences_violated",
    "Verif.Props.C02_rc_saturation_violated"
   ],
   "note": "Proved for any duplicate check and heuristic meeting the stated soundness conditions; instantiated without duplicate detection, with the visited list for totally ordered and genuine parallel-sequences instances, with network comparison for forest instances, and with the relaxed composition heuristics (LM-cut, FF, filter), up to solutions so large that the correction for several copies exceeds INT_MAX. Violated by the code for partially ordered instances (network comparison, keys), for instances wrongly taken for parallel sequences, and by RC values that become INT_MAX by correction: witnesses C02_network_comparison_violated, C02_parallel_sequences_violated, C02_rc_saturation_violated."
  },
  {
   "property": "C03",
   "status": "proved",
   "theorems": [
    "Verif.Props.C03_apply"
   ],
   "note": ""
  },
  {
   "property": "C04",
   "status": "proved",
   "theorems": [
    "Verif.Props.C04_decompose"
   ],
   "note": ""
  },
  {
   "property": "C05",
   "status": "proved",
   "theorems": [
    "Verif.Props.C05_apply",
    "Verif.Props.C05_decompose",
    "Verif.Props.C05_solutions_extend"
   ],
   "note": ""
  },
  {
   "property": "C06",
   "status": "proved",
   "theorems": [
    "Verif.Props.C06_apply_terminates",
    "Verif.Props.C06_decompose_terminates",
    "Verif.Props.C06_search_terminates"
   ],
   "note": ""
  },
  {
   "property": "C07",
   "status": "proved",
   "theorems": [
    "Verif.Props.C07_node_costs",
    "Verif.Props.C07_reported_costs"
   ],
   "note": ""
  },
  {
   "property": "C08",
   "status": "proved",
   "theorems": [
    "Verif.Props.C08_printed_hierarchy",
    "Verif.Props.C08_goal_nodes",
    "Verif.Props.C08_lines"
   ],
   "note": "Output of extractSolutionFromSearchNode for the node returned by the search (any visited list, heuristics, fringe contract), and for every goal node the progression can produce."
  },
  {
   "property": "C09",
   "status": "proved",
   "theorems": [
    "Verif.Props.C09_transitive_reduction",
    "Verif.Props.C09_transitive_closure",
    "Verif.Props.C09_same_solutions"
   ],
   "note": ""
  },
  {
   "property": "C10",
   "status": "proved",
   "theorems": [
    "Verif.Props.C10_totally_ordered_exact",
    "Verif.Props.C10_reading_defined"
   ],
   "note": ""
  },
  {
   "property": "C11",
   "status": "partial",
   "theorems": [
    "Verif.Props.C11_parallel_sequences_violated",
    "Verif.Props.C11_parallel_sequences_partial",
    "Verif.Props.C11_unique_paths_exact"
   ],
   "note": "The code violates the property; the negation is proved with a witness, and the exact meaning of the flag is proved."
  },
  {
   "property": "C12",
   "status": "proved",
   "theorems": [
    "Verif.Props.C12_total_order_is_chain",
    "Verif.Props.C12_parallel_sequences_are_chains"
   ],
   "note": "TotOrd is stated on the reduced method orderings (the result of readHierarchical, see C09/C10); the parallel-sequence case is included."
  },
  {
   "property": "C13",
   "status": "proved",
   "theorems": [
    "Verif.Props.C13_task_counts"
   ],
   "note": ""
  },
  {
   "property": "C14",
   "status": "proved",
   "theorems": [
    "Verif.Props.C14_table",
    "Verif.Props.C14_reachability_sets",
    "Verif.Props.C14_sets_kept"
   ],
   "note": "The stored sets are exactly the tasks (numbered below the configured bound) that can be obtained from the step or a later one. Assumes that all tasks can be obtained from the initial task; otherwise calcSCCs has undefined behaviour (C32_unreachable_task_undefined)."
  },
  {
   "property": "C15",
   "status": "proved",
   "theorems": [
    "Verif.Props.C15_lower_bounds"
   ],
   "note": "Values are natural numbers (non-negative costs); sums above INT_MAX are a distinct outcome."
  },
  {
   "property": "C16",
   "status": "partial",
   "theorems": [
    "Verif.Props.C16_terminates_partial",
    "Verif.Props.C16_violated"
   ],
   "note": "Violated by the code (C16_violated: a task with only a recursive method containing an action). Terminates if every method has a complete decomposition within the integer range."
  },
  {
   "property": "C17",
   "status": "proved",
   "theorems": [
    "Verif.Props.C17_encoding",
    "Verif.Props.C17_rc_safe",
    "Verif.Props.C17_lmcut_safe",
    "Verif.Props.C17_ff_filter_safe",
    "Verif.Props.C17_rc_search_defined"
   ],
   "note": "Proved at the level of the encoding, for the values with LM-cut, FF and the filter, and for all calls made during a search. All tasks must be obtainable from the initial task (see C32), actions are numbered before abstract tasks, no precondition is listed twice. The theorems on values assume that the sum of all costs plus the correction is smaller than INT_MAX; otherwise a value can be INT_MAX by accident (C02_rc_saturation_violated)."
  },
  {
   "property": "C18",
   "status": "partial",
   "theorems": [
    "Verif.Props.C18_ff_partial",
    "Verif.Props.C18_add_partial",
    "Verif.Props.C18_saturation_violated"
   ],
   "note": "Full statement false: values reaching INT_MAX are taken for UNREACHABLE (C18_saturation_violated), and FF may write behind its stack (C46). Proved: FF with summed costs below INT_MAX; additive with goal sum below INT_MAX, up to the overflow result INT_MAX-2. Preconditions non-empty and duplicate-free."
  },
  {
   "property": "C19",
   "status": "proved",
   "theorems": [
    "Verif.Props.C19_hmax",
    "Verif.Props.C19_facts"
   ],
   "note": "Every action has a duplicate-free, non-empty precondition list; the sum of all costs is below INT_MAX (no overflow). Queue: any queue meeting the contract, including the modelled IntPairHeap. Negations without the assumptions: C19_precless_violated, C19_duplicate_violated."
  },
  {
   "property": "C20",
   "status": "proved",
   "theorems": [
    "Verif.Props.C20_lmcut_admissible"
   ],
   "note": "Same assumptions as C19. The code path without LMCINCHMAX (never defined); includes termination and memory safety of the stack."
  },
  {
   "property": "C21",
   "status": "proved",
   "theorems": [
    "Verif.Props.C21_astar_optimal",
    "Verif.Props.C21_astar_optimal_below",
    "Verif.Props.C21_uniform_cost_search",
    "Verif.Props.C21_visited_list_search",
    "Verif.Props.C21_rc_search",
    "Verif.Props.C21_rc_visited_list_search"
   ],
   "note": "General theorem, and instances: uniform cost search without and with duplicate detection; A* with RC LM-cut or filter estimating costs, without and with duplicate detection (optimal among solutions cheaper than INT_MAX)."
  },
  {
   "property": "C22",
   "status": "proved",
   "theorems": [
    "Verif.Props.C22_popped_once",
    "Verif.Props.C22_pop_minimal",
    "Verif.Props.C22_comparator_strict_weak"
   ],
   "note": "std::priority_queue is modelled by its specification."
  },
  {
   "property": "C23",
   "status": "proved",
   "theorems": [
    "Verif.Props.C23_total_order_key_exact",
    "Verif.Props.C23_equal_keys_equal_solutions",
    "Verif.Props.C23_same_slot"
   ],
   "note": "Exact in totally ordered instances; in parallel-sequences mode equal keys imply isomorphic networks."
  },
  {
   "property": "C24",
   "status": "proved",
   "theorems": [
    "Verif.Props.C24_packed_bits",
    "Verif.Props.C24_packing_injective"
   ],
   "note": ""
  },
  {
   "property": "C25",
   "status": "partial",
   "theorems": [
    "Verif.Props.C25_table_is_map_partial",
    "Verif.Props.C25_defined",
    "Verif.Props.C25_prefix_violated"
   ],
   "note": "The code has undefined behaviour for a key whose length is a multiple of 64 and that is a proper prefix of a stored key (C25_prefix_violated). Proved: map behaviour for all sequences of accesses without undefined behaviour, and that only such keys are undefined. Keys of 65536 and more words are outside the model."
  },
  {
   "property": "C26",
   "status": "partial",
   "theorems": [
    "Verif.Props.C26_isomorphic_accepted",
    "Verif.Props.C26_accepted_isomorphic_partial",
    "Verif.Props.C26_violated"
   ],
   "note": "Violated by the code in general (C26_violated: matchingDFS takes the mapping by value). Isomorphic networks are always accepted; accepted networks are isomorphic if no step has two direct predecessors."
  },
  {
   "property": "C27",
   "status": "proved",
   "theorems": [
    "Verif.Props.C27_reopening",
    "Verif.Props.C27_no_reopening",
    "Verif.Props.C27_negative_violated"
   ],
   "note": "For non-negative evaluations (C27_negative_violated shows that the restriction is needed). Runs with defined behaviour."
  },
  {
   "property": "C28",
   "status": "proved",
   "theorems": [
    "Verif.Props.C28_sort",
    "Verif.Props.C28_sort_range",
    "Verif.Props.C28_search",
    "Verif.Props.C28_makeSet",
    "Verif.Props.C28_isSorted",
    "Verif.Props.C28_copyExcluding"
   ],
   "note": ""
  },
  {
   "property": "C29",
   "status": "partial",
   "theorems": [
    "Verif.Props.C29_noDelIntSet",
    "Verif.Props.C29_bucketSet",
    "Verif.Props.C29_bIntSet",
    "Verif.Props.C29_setUnion_setMinus",
    "Verif.Props.C29_delIterIntSet_violated",
    "Verif.Props.C29_append_violated",
    "Verif.Props.C29_setIntersection_violated"
   ],
   "note": "Proved for noDelIntSet, bucketSet and bIntSet without append; delIterIntSet iteration, bIntSet append before erase and noDelIntSet setIntersection violate it (witnesses)."
  },
  {
   "property": "C30",
   "status": "proved",
   "theorems": [
    "Verif.Props.C30_heap",
    "Verif.Props.C30_capacity_zero_violated"
   ],
   "note": "For positive capacity; capacity 0 leaves the array (C30_capacity_zero_violated)."
  },
  {
   "property": "C31",
   "status": "proved",
   "theorems": [
    "Verif.Props.C31_deque",
    "Verif.Props.C31_queue_order",
    "Verif.Props.C31_stack_order",
    "Verif.Props.C31_empty_assertion_violated"
   ],
   "note": "The assertion in empty() is wrong at container boundaries (C31_empty_assertion_violated); behaviour without assertions is proved."
  },
  {
   "property": "C32",
   "status": "proved",
   "theorems": [
    "Verif.Props.C32_task_components",
    "Verif.Props.C32_graph_components",
    "Verif.Props.C32_numbers_bottom_up",
    "Verif.Props.C32_unreachable_task_undefined"
   ],
   "note": "Both versions of the algorithm, including termination and array bounds. For the task version all tasks must be reachable from the initial task, as the comment in the code says; the behaviour is proved undefined otherwise."
  },
  {
   "property": "C33",
   "status": "proved",
   "theorems": [
    "Verif.Props.C33_readIntList",
    "Verif.Props.C33_lines_exist",
    "Verif.Props.C33_readConditionalIntList",
    "Verif.Props.C33_missing_terminator_diverges"
   ],
   "note": "Also: a missing terminator makes the reader loop forever."
  },
  {
   "property": "C34",
   "status": "proved",
   "theorems": [
    "Verif.Props.C34_atMostOne"
   ],
   "note": "Floating point computation of the number of bits is a parameter assumed not too small."
  },
  {
   "property": "C35",
   "status": "proved",
   "theorems": [
    "Verif.Props.C35_atMostK",
    "Verif.Props.C35_negative_bound_violated"
   ],
   "note": "For K >= 0; for K = -1 the clauses are always satisfiable (C35_negative_bound_violated)."
  },
  {
   "property": "C36",
   "status": "proved",
   "theorems": [
    "Verif.Props.C36_formula_exact",
    "Verif.Props.C36_states",
    "Verif.Props.C36_variables",
    "Verif.Props.C36_add_and_delete_contradict"
   ],
   "note": "Any number of steps, at most one selected action per step. Completeness needs disjoint add and delete lists; the witness shows why. Soundness needs no such assumption."
  },
  {
   "property": "C37",
   "status": "proved",
   "theorems": [
    "Verif.Props.C37_blocks",
    "Verif.Props.C37_maximal",
    "Verif.Props.C37_formula_exact",
    "Verif.Props.C37_defined"
   ],
   "note": "Greedy compression as coded; formula over compressed blocks also shown exact."
  },
  {
   "property": "C38",
   "status": "partial",
   "theorems": [
    "Verif.Props.C38_invariants_hold_partial",
    "Verif.Props.C38_terminates",
    "Verif.Props.C38_insert",
    "Verif.Props.C38_unsound_violated"
   ],
   "note": "Holds if no action adds and deletes the same fact; the witness shows the unsoundness otherwise. Termination and insertion are proved without this restriction on termination."
  },
  {
   "property": "C39",
   "status": "proved",
   "theorems": [
    "Verif.Props.C39_resolution_sound",
    "Verif.Props.C39_coOccur",
    "Verif.Props.C39_terminates",
    "Verif.Props.C39_defined",
    "Verif.Props.C39_insert_while_iterating"
   ],
   "note": "Every traversal order of the hash sets. Definedness needs that no literal is implied; witness for the other case."
  },
  {
   "property": "C40",
   "status": "proved",
   "theorems": [
    "Verif.Props.C40_refcount",
    "Verif.Props.C40_count",
    "Verif.Props.C40_no_leak",
    "Verif.Props.C40_delete"
   ],
   "note": "Events: expansions of any live node and deletions of any live node in any order, including the deletions of intermediate nodes in automatic progression. That the search deletes each node at most once is by reading."
  },
  {
   "property": "C41",
   "status": "proved",
   "theorems": [
    "Verif.Props.C41_topological_order"
   ],
   "note": ""
  },
  {
   "property": "C42",
   "status": "proved",
   "theorems": [
    "Verif.Props.C42_lmcut_dominates_hmax"
   ],
   "note": "Same assumptions as C20."
  },
  {
   "property": "C43",
   "status": "proved",
   "theorems": [
    "Verif.Props.C43_cuts_are_landmarks"
   ],
   "note": "Same assumptions as C20."
  },
  {
   "property": "C44",
   "status": "proved",
   "theorems": [
    "Verif.Props.C44_ff_is_relaxed_plan"
   ],
   "note": "Assumptions as in C19 (summed costs below INT_MAX)."
  },
  {
   "property": "C45",
   "status": "proved",
   "theorems": [
    "Verif.Props.C45_add_exact"
   ],
   "note": "Preconditions non-empty and duplicate-free."
  },
  {
   "property": "C46",
   "status": "partial",
   "theorems": [
    "Verif.Props.C46_stack_partial",
    "Verif.Props.C46_stack_violated"
   ],
   "note": "Violated for the capacity of the code (C46_stack_violated); proved for a capacity of 1 + numFacts * (1 + largest number of preconditions)."
  },
  {
   "property": "C47",
   "status": "proved",
   "theorems": [
    "Verif.Props.C47_acyclic_iff_no_infinite_chain"
   ],
   "note": "Stated with infinite sequences of decompositions, independently of the components."
  },
  {
   "property": "C48",
   "status": "proved",
   "theorems": [
    "Verif.Props.C48_costs_admissible",
    "Verif.Props.C48_filter_admissible",
    "Verif.Props.C48_distance",
    "Verif.Props.C48_mixed",
    "Verif.Props.C48_distance_correction_violated"
   ],
   "note": "The distance estimate with correction is not a lower bound (witness); the code does not claim it to be one."
  },
  {
   "property": "C49",
   "status": "proved",
   "theorems": [
    "Verif.Props.C49_cuts_are_landmarks"
   ],
   "note": "Assumptions as for C48."
  },
  {
   "property": "C50",
   "status": "proved",
   "theorems": [
    "Verif.Props.C50_linearisation",
    "Verif.Props.C50_flag_exact",
    "Verif.Props.C50_total_order"
   ],
   "note": "Includes the composition with the transitive closure as used by the SAT planner."
  },
  {
   "property": "C51",
   "status": "proved",
   "theorems": [
    "Verif.Props.C51_placement"
   ],
   "note": "Both modes."
  },
  {
   "property": "C52",
   "status": "proved",
   "theorems": [
    "Verif.Props.C52_defined",
    "Verif.Props.C52_choice_is_decomposition",
    "Verif.Props.C52_decomposition_is_choice",
    "Verif.Props.C52_compact_violated"
   ],
   "note": "Definedness holds in the default mode; with --methodPreconditionsInSeparateLeafs it is violated (witness)."
  },
  {
   "property": "C53",
   "status": "proved",
   "theorems": [
    "Verif.Props.C53_keeps_solutions",
    "Verif.Props.C53_root_pruned",
    "Verif.Props.C53_closed"
   ],
   "note": "For the filter h2 no action may add and delete the same fact (C38)."
  },
  {
   "property": "C54",
   "status": "proved",
   "theorems": [
    "Verif.Props.C54_plans_are_solutions",
    "Verif.Props.C54_no_methods_violated"
   ],
   "note": "for totally ordered problems in the default mode (not compact) whose abstract tasks all have methods; C54_no_methods_violated: undefined behaviour otherwise. The SAT solver is a parameter"
  },
  {
   "property": "C55",
   "status": "proved",
   "theorems": [
    "Verif.Props.C55_formula_exact",
    "Verif.Props.C55_stops_at_least_depth",
    "Verif.Props.C55_clash_violated"
   ],
   "note": "for actions that do not add and delete the same fact, as stated; C55_clash_violated shows that the restriction is needed"
  },
  {
   "property": "C56",
   "status": "proved",
   "theorems": [
    "Verif.Props.C56_printed_decomposition"
   ],
   "note": "totally ordered problems with a method for every abstract task; identifiers and lines, not characters"
  },
  {
   "property": "C57",
   "status": "proved",
   "theorems": [
    "Verif.Props.C57_clauses_hold",
    "Verif.Props.C57_options_do_not_matter"
   ],
   "note": "MutexAll is the hypothesis about the input that C57_clauses_hold establishes"
  },
  {
   "property": "C58",
   "status": "proved",
   "theorems": [
    "Verif.Props.C58_formula_exact",
    "Verif.Props.C58_plans_improve",
    "Verif.Props.C58_last_plan_is_cheapest",
    "Verif.Props.C58_zero_cost_violated",
    "Verif.Props.C58_true_costs_violated"
   ],
   "note": "for the costs the planner optimises (after taking logarithms); plans of cost 0 and the original costs are excluded and shown to fail; plans costing 1000 or more are outside the optimality statement"
  },
  {
   "property": "C59",
   "status": "proved",
   "theorems": [
    "Verif.Props.C59_andor_exact",
    "Verif.Props.C59_andor_sound",
    "Verif.Props.C59_causal",
    "Verif.Props.C59_causal_nopg",
    "Verif.Props.C59_local",
    "Verif.Props.C59_andor_other_state_violated",
    "Verif.Props.C59_causal_unreachable_ub"
   ],
   "note": "Both generators exact w.r.t. derivations and terminating for every heap order; every landmark occurs in every solution (generateAndOrLMs: for nodes whose state is contained in the initial state; the negation is proved for others). Undefined behaviour of LmCausal for goals without derivation proved with a witness."
  },
  {
   "property": "C60",
   "status": "proved",
   "theorems": [
    "Verif.Props.C60_planning_graph",
    "Verif.Props.C60_done",
    "Verif.Props.C60_keeps_solutions",
    "Verif.Props.C60_causal_landmarks",
    "Verif.Props.C60_exact_violated"
   ],
   "note": "All parts of the statement. Exactness without the condition on the start is false in the code (C60_exact_violated)."
  },
  {
   "property": "C61",
   "status": "partial",
   "theorems": [
    "Verif.Props.C61_runs",
    "Verif.Props.C61_zero_iff_goal",
    "Verif.Props.C61_dof_safe_partial",
    "Verif.Props.C61_actions_only",
    "Verif.Props.C61_dof_safe_violated"
   ],
   "note": "Termination and the value 0 for every setting. Safety of the verdict 'unreachable' is proved with reachability maintained for all tasks; with the setting hard-wired in SearchEngine.cpp (actions only) it is false: every node with an abstract task is declared unreachable (C61_actions_only, C61_dof_safe_violated)."
  },
  {
   "property": "C62",
   "status": "partial",
   "theorems": [
    "Verif.Props.C62_sasPlus_partial",
    "Verif.Props.C62_initial_state_violated_general"
   ],
   "note": "Proved if the variables of the true facts are found (S0Fits) and no action adds and deletes a single fact; false otherwise (bound s0Size instead of numVars)."
  },
  {
   "property": "C63",
   "status": "partial",
   "theorems": [
    "Verif.Props.C63_reorder_partial",
    "Verif.Props.C63_reorder_iff",
    "Verif.Props.C63_reorder_violated",
    "Verif.Props.C63_abstract_prefix_violated"
   ],
   "note": "Proved for subtasks numbered in their order; exact condition for other numberings; false in general."
  },
  {
   "property": "C64",
   "status": "partial",
   "theorems": [
    "Verif.Props.C64_translate_complete_partial",
    "Verif.Props.C64_initial_state_violated"
   ],
   "note": "Proved for inputs with S0Fits and subtasks numbered in their order; false otherwise."
  },
  {
   "property": "C65",
   "status": "partial",
   "theorems": [
    "Verif.Props.C65_translate_sound_partial",
    "Verif.Props.C65_translate_solvable",
    "Verif.Props.C65_translate_optimal",
    "Verif.Props.C65_initial_state_violated",
    "Verif.Props.C65_prefix_violated",
    "Verif.Props.C65_blank_violated"
   ],
   "note": "Proved if leading actions do not contradict each other unnoticed (NoConf), for plans without blank operators and for optimal plans; false otherwise."
  },
  {
   "property": "C66",
   "status": "partial",
   "theorems": [
    "Verif.Props.C66_hddl_partial"
   ],
   "note": "proved for plans without blank operators and for problems without conflicting leading actions (NoConf), as in C65; otherwise the plan need not be a solution"
  },
  {
   "property": "C67",
   "status": "partial",
   "theorems": [
    "Verif.Props.C67_names_partial",
    "Verif.Props.C67_other_lines",
    "Verif.Props.C67_subtasks_violated",
    "Verif.Props.C67_firstPrim_violated"
   ],
   "note": "false for names that contain the keywords (violations proved); proved for all other names"
  },
  {
   "property": "C68",
   "status": "partial",
   "theorems": [
    "Verif.Props.C68_ps_translate_partial",
    "Verif.Props.C68_ps_complete_partial",
    "Verif.Props.C68_ps_rounds_partial",
    "Verif.Props.C68_ps_optimal_partial",
    "Verif.Props.C68_lost_task_violated",
    "Verif.Props.C68_unsolvable_violated",
    "Verif.Props.C68_top_methods_violated",
    "Verif.Props.C68_empty_method_violated"
   ],
   "note": "htnPS as abstract SAS+ task. Proved: defined, well-formed, plans = solutions that fit the stacks, same costs, completeness for large bounds, rounds of the controller, optimality. Missing: it is false for methods of the initial task that reorderTasks loses subtasks of or that have different numbers of subtasks (witnesses), so these are excluded by hypothesis (top_ord, top_len); SasInput/S0Fits as in C62."
  },
  {
   "property": "C69",
   "status": "partial",
   "theorems": [
    "Verif.Props.C69_lower_bound",
    "Verif.Props.C69_equations",
    "Verif.Props.C69_terminates_partial",
    "Verif.Props.C69_rounds",
    "Verif.Props.C69_overflow_violated"
   ],
   "note": "Lower bound, equations and leastness, rounds proved for totally ordered problems. Termination is false for problems with tasks that can not be decomposed (witness), so it is proved for problems in which every subtask can."
  },
  {
   "property": "C70",
   "status": "partial",
   "theorems": [
    "Verif.Props.C70_image",
    "Verif.Props.C70_preimage",
    "Verif.Props.C70_init",
    "Verif.Props.C70_goal",
    "Verif.Props.C70_encoding",
    "Verif.Props.C70_clash_violated",
    "Verif.Props.C70_no_value_violated"
   ],
   "note": "Proved for actions that do not add and delete the same single-fact variable and lead to consistent states; both conditions are needed (C70_clash_violated, C70_no_value_violated)."
  },
  {
   "property": "C71",
   "status": "partial",
   "theorems": [
    "Verif.Props.C71_goal_reached_partial",
    "Verif.Props.C71_incomplete",
    "Verif.Props.C71_not_optimal",
    "Verif.Props.C71_undefined",
    "Verif.Props.C71_bug_exit",
    "Verif.Props.C71_wrong_order_unsound",
    "Verif.Props.C71_wrong_order_incomplete"
   ],
   "note": "Soundness of \"Goal reached\" is proved for all runs with the BDDs of the planner. Completeness and optimality do not hold: negations with witnesses, also undefined behaviour, the bug exit, and the order of subtasks listed in the wrong order. The extraction of the plan is not modelled."
  },
  {
   "property": "C72",
   "status": "partial",
   "theorems": [
    "Verif.Props.C72_admissible_partial",
    "Verif.Props.C72_default",
    "Verif.Props.C72_hundred_violated"
   ],
   "note": "Proved for all combinations of constraints if no task occurs more than 100 times in the solution (only needed for constraints other than the default ones), for nodes with reachability of all tasks; the full claim is violated (C72_hundred_violated; with the setting of SearchEngine.cpp 228 C61_dof_safe_violated). The solver is a contract."
  },
  {
   "property": "C73",
   "status": "partial",
   "theorems": [
    "Verif.Props.C73_value_is_relaxed_cost",
    "Verif.Props.C73_minimal_partial",
    "Verif.Props.C73_exact_partial",
    "Verif.Props.C73_assertion"
   ],
   "note": "Value is the cost of a relaxed solution: proved without bound. Minimality is proved for relaxed solutions in which no task occurs more than 100 times (false otherwise, C72_hundred_violated). Solver by contract."
  },
  {
   "property": "C74",
   "status": "proved",
   "theorems": [
    "Verif.Props.C74_read",
    "Verif.Props.C74_same_solutions",
    "Verif.Props.C74_tables",
    "Verif.Props.C74_texts_exist",
    "Verif.Props.C74_excess_task",
    "Verif.Props.C74_cyclic_violated",
    "Verif.Props.C74_truncated_violated"
   ],
   "note": "for acyclic orderings and unconditional effects as far as solutions are concerned; cyclic orderings are dropped silently (C74_cyclic_violated) and truncated files are accepted (C74_truncated_violated)"
  },
  {
   "property": "C75",
   "status": "proved",
   "theorems": [
    "Verif.Props.C75_loads",
    "Verif.Props.C75_plan_solves",
    "Verif.Props.C75_unsolvable",
    "Verif.Props.C75_unsolvable_visited",
    "Verif.Props.C75_cheapest",
    "Verif.Props.C75_cheapest_visited",
    "Verif.Props.C75_lmcut",
    "Verif.Props.C75_primitive_init",
    "Verif.Props.C75_primitive_violated"
   ],
   "note": "For files in the grounder's format with abstract initial task, acyclic orderings and unconditional effects. With visited list for totally ordered methods. A primitive initial task is always reported as unsolvable: C75_primitive_violated."
  },
  {
   "property": "C76",
   "status": "proved",
   "theorems": [
    "Verif.Props.C76_common_graph",
    "Verif.Props.C76_tame_graphs",
    "Verif.Props.C76_cycle_violated",
    "Verif.Props.C76_transitive_violated"
   ],
   "note": "The last sentence of the statement is C76_tame_graphs. In general the graph may have cycles and impose orders by transitivity (C76_cycle_violated, C76_transitive_violated)."
  },
  {
   "property": "C77",
   "status": "partial",
   "theorems": [
    "Verif.Props.C77_plans_are_solutions_partial",
    "Verif.Props.C77_effectless_violated",
    "Verif.Props.C77_cycle_violated"
   ],
   "note": "Proved if every action has an effect and no graph of a vertex has a cycle (which C76_tame_graphs gives for vertices whose methods are all totally ordered or of which at most one has orderings), and without separate leaves for actions without effects (compact = false). Without either assumption the claim is false: C77_effectless_violated, C77_cycle_violated."
  },
  {
   "property": "C78",
   "status": "partial",
   "theorems": [
    "Verif.Props.C78_formula_exact_partial",
    "Verif.Props.C78_stops_at_least_depth_partial",
    "Verif.Props.C78_effectless_violated",
    "Verif.Props.C78_transitive_violated"
   ],
   "note": "Proved if every action has an effect and the graphs have no cycles and impose no orders beyond those of the methods (C76_tame_graphs). Without these assumptions the claim is false: C78_effectless_violated, C78_transitive_violated."
  },
  {
   "property": "C79",
   "status": "partial",
   "theorems": [
    "Verif.Props.C79_push_translate_partial",
    "Verif.Props.C79_push_optimal_partial",
    "Verif.Props.C79_no_cond_violated",
    "Verif.Props.C79_uninit_violated",
    "Verif.Props.C79_lost_task_violated"
   ],
   "note": "Full statement for all partially ordered problems and without assumption on uninitialised memory is false: C79_uninit_violated (uninitialised conditional effects of the moves), C79_no_cond_violated (BaseCondEffects), C79_lost_task_violated (orderings that reorderTasks cannot handle). Proved under PushInput (TopOrd, SasInput, S0Fits), PrecsDiffer and zero memory."
  },
  {
   "property": "C80",
   "status": "partial",
   "theorems": [
    "Verif.Props.C80_push_complete_partial",
    "Verif.Props.C80_push_rounds_partial",
    "Verif.Props.C80_push_unsolvable_partial",
    "Verif.Props.C80_lost_task_violated"
   ],
   "note": "As C79; C80_lost_task_violated shows the failure without TopOrd."
  },
  {
   "property": "C81",
   "status": "partial",
   "theorems": [
    "Verif.Props.C81_strips_translate_partial",
    "Verif.Props.C81_first_not_last_violated",
    "Verif.Props.C81_empty_cost_violated",
    "Verif.Props.C81_lost_task_violated"
   ],
   "note": "Needs: method orderings that reorderTasks can handle (no orderings, or ascending ones with the last two subtasks ordered), every method with a first subtask has a last one, numbers of operators fit the integer types, SasInput and S0Fits as in C62. Violations proved for the first two and for the costs of empty tasks."
  },
  {
   "property": "C82",
   "status": "partial",
   "theorems": [
    "Verif.Props.C82_strips_complete_partial",
    "Verif.Props.C82_strips_optimal_partial",
    "Verif.Props.C82_strips_unsolvable_partial",
    "Verif.Props.C82_overflow_violated"
   ],
   "note": "As C81. Complete for each number of cells from 1 + k*M on for which the numbers of operators fit; for larger ones the translation fails (violation proved)."
  },
  {
   "property": "C83",
   "status": "partial",
   "theorems": [
    "Verif.Props.C83_strips_hddl_partial"
   ],
   "note": "Under the hypotheses of C81 (orderings that reorderTasks can handle, a last subtask for methods with a first one, numbers of operators that fit)."
  },
  {
   "property": "C84",
   "status": "partial",
   "theorems": [
    "Verif.Props.C84_push_hddl_partial",
    "Verif.Props.C84_push_hddl_twice_violated",
    "Verif.Props.C84_push_hddl_lost_violated"
   ],
   "note": "Only for plans in which no task is moved; the code prints wrong decompositions for others: two violations proved."
  },
  {
   "property": "C85",
   "status": "partial",
   "theorems": [
    "Verif.Props.C85_ps_hddl_partial"
   ],
   "note": "Under the hypotheses of C68 (PsInput)."
  },
  {
   "property": "C86",
   "status": "partial",
   "theorems": [
    "Verif.Props.C86_printed_decomposition_partial",
    "Verif.Props.C86_method_order_violated"
   ],
   "note": "Assumes, as C77, that every action has an effect and that the common graphs have no cycles (C77_effectless_violated, C77_cycle_violated show that plans are wrong otherwise). The order of the subtasks in a line is not that of the method: C86_method_order_violated."
  },
  {
   "property": "C87",
   "status": "partial",
   "theorems": [
    "Verif.Props.C87_printed_order_partial",
    "Verif.Props.C87_exact_violated"
   ],
   "note": "Assumes, as C77, that every action has an effect and that the common graphs have no cycles. That the lines have nothing else is proved if the common graphs impose no order beyond those of the methods; otherwise it is false: C87_exact_violated."
  },
  {
   "property": "C88",
   "status": "partial",
   "theorems": [
    "Verif.Props.C88_formula_exact_partial",
    "Verif.Props.C88_plans_improve_partial",
    "Verif.Props.C88_last_plan_is_cheapest_partial",
    "Verif.Props.C88_effectless_violated",
    "Verif.Props.C88_effectless_incomplete_violated"
   ],
   "note": "Assumed: every action has an effect, the common graphs of the methods have no cycles and impose nothing more than the methods (for completeness), and at most 65536 leaves at the depths that are reached. Without the first both the improvement and completeness are wrong: see the _violated theorems."
  },
  {
   "property": "C89",
   "status": "proved",
   "theorems": [
    "Verif.Props.C89_printed_order"
   ],
   "note": "All clauses of the statement are proved; the i-th printed action is related to the i-th leaf of the linearisation of the decomposition."
  },
  {
   "property": "C90",
   "status": "partial",
   "theorems": [
    "Verif.Props.C90_outputs_partial",
    "Verif.Props.C90_last_plan_partial",
    "Verif.Props.C90_second_plan_violated"
   ],
   "note": "Assumed for the improvement: costs of the earlier plan between 1 and 999, and it is not the first one (C90_second_plan_violated shows that the second plan can be more expensive than the first). Assumed for the last plan: all solutions cost between 1 and 999, no action adds and deletes the same fact."
  },
  {
   "property": "C91",
   "status": "partial",
   "theorems": [
    "Verif.Props.C91_outputs_partial",
    "Verif.Props.C91_last_plan_partial",
    "Verif.Props.C91_second_plan_violated"
   ],
   "note": "Assumed: every action has an effect, the common graphs of the methods have no cycles (and for the last plan impose nothing more than the methods), at most 65536 leaves at the depths that are reached. For the improvement: costs of the earlier plan between 1 and 999, and it is not the first one (C91_second_plan_violated). For the last plan: all solutions cost between 1 and 999, no action adds and deletes the same fact."
  },
  {
   "property": "C92",
   "status": "partial",
   "theorems": [
    "Verif.Props.C92_methods_exact_partial",
    "Verif.Props.C92_domain_closed",
    "Verif.Props.C92_names_kept",
    "Verif.Props.C92_order_lost_violated",
    "Verif.Props.C92_dangling_violated",
    "Verif.Props.C92_names_violated"
   ],
   "note": "Proved: writing succeeds, the precondition is exact, declarations are closed, and the written method allows exactly the right sequences if the method is totally ordered or its no-op subtasks take no part in orderings and do not come, in number, right after a subtask that has successors. False otherwise: orderings are lost, or refer to labels which are not declared (witnesses proved). Names are kept unless they have replaced characters; then they can collide (witness proved)."
  },
  {
   "property": "C93",
   "status": "partial",
   "theorems": [
    "Verif.Props.C93_parse_exact",
    "Verif.Props.C93_parse_plain",
    "Verif.Props.C93_options",
    "Verif.Props.C93_values",
    "Verif.Props.C93_shared",
    "Verif.Props.C93_pg_violated",
    "Verif.Props.C93_unclosed_violated"
   ],
   "note": "Proved for well-formed specifications; values for all lists of specifications. False for the rest of the statement: a missing closing parenthesis is not reported and drops a character, and pg=relaxed does not choose the relaxed planning graph (witnesses proved)."
  },
  {
   "property": "C94",
   "status": "partial",
   "theorems": [
    "Verif.Props.C94_session_partial",
    "Verif.Props.C94_choose_method",
    "Verif.Props.C94_choose_action",
    "Verif.Props.C94_round_defined",
    "Verif.Props.C94_end_violated",
    "Verif.Props.C94_negative_violated",
    "Verif.Props.C94_inapplicable_violated"
   ],
   "note": "Soundness for sessions whose chosen actions are applicable; every legal choice can be made and is defined. The unrestricted statement is false: inapplicable actions are carried out, and the session does not end when no task is left."
  }
 ]
}
