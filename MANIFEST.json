{
 "claims": [
  {
   "property": "C01",
   "status": "proved",
   "theorems": [
    "Scram.Props.C01.bdd_exact",
    "Scram.Props.C01.bdd_modules_consistent"
   ],
   "note": "Arbitrary collector, hash function, argument order; exact cache model."
  },
  {
   "property": "C02",
   "status": "proved",
   "theorems": [
    "Scram.Props.C02.bdd_canonical",
    "Scram.Props.C02.bdd_constant",
    "Scram.Props.C02.build_constant"
   ],
   "note": "Unreferenced vertices are destroyed between operations (op collect), not in the middle of one Apply."
  },
  {
   "property": "C03",
   "status": "proved",
   "theorems": [
    "Scram.Props.C03.live_vertices_unique",
    "Scram.Props.C03.find_or_add_exact",
    "Scram.Props.C03.ids_never_reused",
    "Scram.Props.C03.no_dangling",
    "Scram.Props.C03.no_leak",
    "Scram.Props.C03.table_size_exact"
   ],
   "note": "Reference counts, weak pointers, sweeping and rehashing modelled."
  },
  {
   "property": "C04",
   "status": "proved",
   "theorems": [
    "Scram.Props.C04.cache_hit_is_latest",
    "Scram.Props.C04.cache_find_after_emplace",
    "Scram.Props.C04.cache_find_defined",
    "Scram.Props.C04.cache_size_exact",
    "Scram.Props.C04.reserved_room"
   ],
   "note": "Arbitrary hash function and growth."
  },
  {
   "property": "C05",
   "status": "proved",
   "theorems": [
    "Scram.Props.C05.minimal_cut_sets_exact"
   ],
   "note": "BDD algorithm from the prepared graph (topological order, independent modules, nonempty gates: what the preprocessor hands over) to the final ZBDD with modules; any environment (hashes, collector, argument order)."
  },
  {
   "property": "C06",
   "status": "partial",
   "theorems": [
    "Scram.Props.C06.order_limit_exact",
    "Scram.Props.C06.order_limit_exact_noncoherent",
    "Scram.Props.C06.order_limit_partial",
    "Scram.Props.C06.cut_set_lost"
   ],
   "note": "Proved in full for coherent graphs, and for non-coherent graphs with coherent modules. The full statement is false for non-coherent modules when prime implicants are not requested: cut sets of exactly the order of the limit can be lost (cut_set_lost); all shorter ones are reported and everything reported is minimal (order_limit_partial)."
  },
  {
   "property": "C07",
   "status": "proved",
   "theorems": [
    "Scram.Props.C07.prime_implicants_exact",
    "Scram.Props.C07.prime_implicants_exact_coherent",
    "Scram.Props.C07.prime_implicant_lost"
   ],
   "note": "Modules must not be constant functions, which the code asserts; without this a prime implicant of the order of the limit can be lost (prime_implicant_lost)."
  },
  {
   "property": "C08",
   "status": "proved",
   "theorems": [
    "Scram.Props.C08.subsume_exact",
    "Scram.Props.C08.minimize_exact",
    "Scram.Props.C08.prune_sets",
    "Scram.Props.C08.apply_exact",
    "Scram.Props.C08.apply_signed"
   ],
   "note": "Sets of signed literals, order cut-off, modules that may be unity."
  },
  {
   "property": "C09",
   "status": "proved",
   "theorems": [
    "Scram.Props.C09.algorithms_agree",
    "Scram.Props.C09.zbdd_exact",
    "Scram.Props.C09.mocus_exact",
    "Scram.Props.C09.zbdd_mocus_agree",
    "Scram.Props.C09.bdd_zbdd_noncoherent",
    "Scram.Props.C09.lost_found",
    "Scram.Props.C09.exM_prepared",
    "Scram.Props.C09.exZ_prepared"
   ],
   "note": "Each algorithm on the graph its own preprocessor prepares (BDD, ZBDD: topological order; MOCUS: inverted order) of the same top event; constructors with modules, cut-offs, minimization. All gates have at least two arguments, as CutSetContainer::ConvertGate asserts. Preprocessing gives such graphs: C43. ZBDD and MOCUS are exact on non-coherent graphs too (complements at variables only, as phase IV leaves them)."
  },
  {
   "property": "C10",
   "status": "proved",
   "theorems": [
    "Scram.Props.C10.listing_exact",
    "Scram.Props.C10.count_all",
    "Scram.Props.C10.counted"
   ],
   "note": "The iterator is modelled as the state machine of the code (stacks, module iterators, limit); termination is part of the theorem. Counts are over natural numbers (the code uses int and int64)."
  },
  {
   "property": "C11",
   "status": "proved",
   "theorems": [
    "Scram.Props.C11.exact_probability"
   ],
   "note": "Ordered-field arithmetic (no rounding). Modules must have disjoint sets of variables (what module detection establishes, C22)."
  },
  {
   "property": "C12",
   "status": "proved",
   "theorems": [
    "Scram.Props.C12.exact_range",
    "Scram.Props.C12.product_range",
    "Scram.Props.C12.mcub_range",
    "Scram.Props.C12.rare_event_range"
   ],
   "note": "Ordered-field arithmetic (no rounding)."
  },
  {
   "property": "C13",
   "status": "proved",
   "theorems": [
    "Scram.Props.C13.approximations_conservative",
    "Scram.Props.C13.exact_le_mcub",
    "Scram.Props.C13.mcub_le_rare_event",
    "Scram.Props.C13.truncated_not_conservative"
   ],
   "note": "Ordered-field arithmetic. From the prepared graph to the bounds for untruncated analyses; with a limit below the number of events the bounds are those of the reported products only (truncated_not_conservative)."
  },
  {
   "property": "C14",
   "status": "partial",
   "theorems": [
    "Scram.Props.C14.mif_exact_partial",
    "Scram.Props.C14.mif_exact_coherent",
    "Scram.Props.C14.mif_wrong_sign",
    "Scram.Props.C14.factors_exact",
    "Scram.Props.C14.generic_mif_exact"
   ],
   "note": "The full statement is false for the BDD: the calculation ignores the complement flag of the root function, so the MIF has the wrong sign for it (mif_wrong_sign, e.g. x1 & ~x2). Proved for coherent top events, and up to that sign for all. The topological ordering of variables is modelled and its needed facts are proved."
  },
  {
   "property": "C15",
   "status": "proved",
   "theorems": [
    "Scram.Props.C15.occurrences_exact"
   ],
   "note": ""
  },
  {
   "property": "C16",
   "status": "partial",
   "theorems": [
    "Scram.Props.C16.average_is_integral",
    "Scram.Props.C16.average_bounds",
    "Scram.Props.C16.pfd_avg_bounds",
    "Scram.Props.C16.fractions_sum_partial",
    "Scram.Props.C16.fraction_time",
    "Scram.Props.C16.boundary_counted_twice",
    "Scram.Props.C16.hourly_above_one_lost",
    "Scram.Props.C16.single_point"
   ],
   "note": "Averages: proved in full. The histogram statement is false for curves that are constant exactly on a level bound (boundary_counted_twice: fractions sum to 2); proved for all other curves in [0,1]. Ordered-field arithmetic."
  },
  {
   "property": "C17",
   "status": "proved",
   "theorems": [
    "Scram.Props.C17.grid_exact",
    "Scram.Props.C17.grid_shape",
    "Scram.Props.C17.no_step",
    "Scram.Props.C17.bdd_calculates"
   ],
   "note": "Archimedean ordered field: with floating-point numbers a step that is lost in rounding would not end the loop."
  },
  {
   "property": "C18",
   "status": "partial",
   "theorems": [
    "Scram.Props.C18.addArg_sound_partial",
    "Scram.Props.C18.addArgs_sound",
    "Scram.Props.C18.dupAtleast_wrong",
    "Scram.Props.C18.dupAtleast_wrong_value"
   ],
   "note": "AddArg for every connective, constants, repeated and complementary arguments, on any well-formed heap: the gate computes the connective of the raw list. Excluded: a K/N gate with exactly two arguments that gets one of them again, where the code keeps the wrong argument (dupAtleast_wrong, a defect of the code). Lists of arguments: AND/OR/NAND/NOR gates with at least two arguments (the CoalesceGate use)."
  },
  {
   "property": "C19",
   "status": "proved",
   "theorems": [
    "Scram.Props.C19.graph_computes_formula",
    "Scram.Props.C19.graph_wellformed",
    "Scram.Props.C19.coherent_monotone",
    "Scram.Props.C19.normal_gates",
    "Scram.Props.C19.model_ok",
    "Scram.Props.C19.top_legal"
   ],
   "note": "Constructor of the graph without substitutions (C37): gathering of variables, all connectives including cardinality, iff, imply, house events, CCF gates, shared gates, any nesting. Formulas are as validation accepts them (C35), models acyclic (C28)."
  },
  {
   "property": "C20",
   "status": "proved",
   "theorems": [
    "Scram.Props.C20.full_keeps_top",
    "Scram.Props.C20.full_is_normal",
    "Scram.Props.C20.partial_keeps_top",
    "Scram.Props.C20.exN_result"
   ],
   "note": "All gate types, all K/N, any visit order and any choice of the argument in the K/N expansion. Removal of the pass-through gates afterwards is C18/C22."
  },
  {
   "property": "C21",
   "status": "proved",
   "theorems": [
    "Scram.Props.C21.propagation_keeps_top",
    "Scram.Props.C21.complements_on_variables",
    "Scram.Props.C21.sole_ok",
    "Scram.Props.C21.exC_result",
    "Scram.Props.C21.exC_inplace"
   ],
   "note": "Depth-first recursion with marks and the map of complements, shared gates, in-place changes; any choice of in-place change that is made only for gates with one parent. The recursion is bounded by a number that the theorem shows to exist."
  },
  {
   "property": "C22",
   "status": "partial",
   "theorems": [
    "Scram.Props.C22.merge_keeps_top_partial",
    "Scram.Props.C22.coalesce_keeps_all",
    "Scram.Props.C22.exG_distributes",
    "Scram.Props.C22.merge_wrong"
   ],
   "note": "Rules of pass-through removal, coalescing, multiple definitions, common args, modules, absorption, subsumption, cloning, distributivity, root pull; any sequence. The searches that find the rewrites of common arguments and of distributivity are C58 and C59. Excluded: the wrong K/N case (BadJoin/BadSwap, merge_wrong shows the defect)."
  },
  {
   "property": "C23",
   "status": "proved",
   "theorems": [
    "Scram.Props.C23.modules_independent",
    "Scram.Props.C23.all_modules_found",
    "Scram.Props.C23.detection_keeps_top",
    "Scram.Props.C23.module_factors",
    "Scram.Props.C23.modules_nested",
    "Scram.Props.C23.exM_result"
   ],
   "note": "AssignTiming, FindModules, ProcessModularArgs, CreateNewModule(s), FilterModularArgs, GroupModularArgs for every graph: every flagged gate, old or new, is independent, every independent gate is flagged, the top event is kept. Flags set before the call are assumed to be right (none for the first call); that the other passes keep the flags right is part of C43."
  },
  {
   "property": "C24",
   "status": "proved",
   "theorems": [
    "Scram.Props.C24.optimization_keeps_top",
    "Scram.Props.C24.states_sound",
    "Scram.Props.C24.decomposition_keeps_top",
    "Scram.Props.C24.exO_result",
    "Scram.Props.C24.exD_result"
   ],
   "note": "ProcessCommonNode with all searches for every node and graph, given right module flags (C23); decomposition for any sequence of common nodes, destinations and sub-parents. Removal of null gates after it is C18/C22."
  },
  {
   "property": "C25",
   "status": "proved",
   "theorems": [
    "Scram.Props.C25.total_conserved",
    "Scram.Props.C25.event_bounds"
   ],
   "note": "Ordered field arithmetic (no rounding); alpha-factor groups whose factors are all zero divide by zero and are excluded. The phi-factor model does not conserve the total by definition; its bounds are covered."
  },
  {
   "property": "C26",
   "status": "proved",
   "theorems": [
    "Scram.Props.C26.apply_exact",
    "Scram.Props.C26.apply_single_level"
   ],
   "note": "Member names contain no spaces. An accepted alpha/phi group with a single level fails to apply (apply_single_level)."
  },
  {
   "property": "C27",
   "status": "proved",
   "theorems": [
    "Scram.Props.C27.accepted_iff_wellformed",
    "Scram.Props.C27.accepted_iff_legal",
    "Scram.Props.C27.rejected_unchanged"
   ],
   "note": "All operation sequences, errors caught in between."
  },
  {
   "property": "C28",
   "status": "proved",
   "theorems": [
    "Scram.Props.C28.gate_cycles",
    "Scram.Props.C28.parameter_cycles",
    "Scram.Props.C28.branch_cycles",
    "Scram.Props.C28.rule_cycles",
    "Scram.Props.C28.link_cycles",
    "Scram.Props.C28.accepts_iff_acyclic",
    "Scram.Props.C28.accepted_rank"
   ],
   "note": "Named branches are unfolded in the link check (branch cycles are rejected before it)."
  },
  {
   "property": "C29",
   "status": "partial",
   "theorems": [
    "Scram.Props.C29.paths_exact",
    "Scram.Props.C29.sequence_formula_partial",
    "Scram.Props.C29.sequence_certain",
    "Scram.Props.C29.unreached",
    "Scram.Props.C29.sequence_expression",
    "Scram.Props.C29.storiesTo_iff",
    "Scram.Props.C29.certain_path_dropped"
   ],
   "note": "The collected paths are exactly the paths of the tree. The full statement about the formula is false: a path that collects nothing is dropped when another path to the same sequence collects a formula (certain_path_dropped). Named branches, links and rules are unfolded (acyclic by C28)."
  },
  {
   "property": "C30",
   "status": "proved",
   "theorems": [
    "Scram.Props.C30.settings_consistent",
    "Scram.Props.C30.rejected_unchanged",
    "Scram.Props.C30.numeric_accepted",
    "Scram.Props.C30.names_exact"
   ],
   "note": "NaN passes the range checks (nan_accepted): the range of floating point settings is stated with the comparisons of doubles."
  },
  {
   "property": "C31",
   "status": "partial",
   "theorems": [
    "Scram.Props.C31.context_restored_partial",
    "Scram.Props.C31.run_exact",
    "Scram.Props.C31.restored_iff",
    "Scram.Props.C31.leak"
   ],
   "note": "The full statement is false: a house event set twice in one phase (changed and changed back) is restored in the wrong order (leak). Proved for phases that set each event at most once; the exact final state is given for all instruction lists."
  },
  {
   "property": "C32",
   "status": "partial",
   "theorems": [
    "Scram.Props.C32.interval_encloses_partial",
    "Scram.Props.C32.divisors_not_zero_partial",
    "Scram.Props.C32.accepted_probability_partial",
    "Scram.Props.C32.exponential_accepted",
    "Scram.Props.C32.accepted_but_not_probability",
    "Scram.Props.C32.extern_ignores_deviates"
   ],
   "note": "The full statement is false (accepted_but_not_probability): the corner rule is wrong for non-monotone functions, and an accepted probability expression can sample above one. Proved for all expression trees whose operators are monotone on the intervals of their operands. Real arithmetic."
  },
  {
   "property": "C33",
   "status": "partial",
   "theorems": [
    "Scram.Props.C33.consistent_trial",
    "Scram.Props.C33.reset_reaches",
    "Scram.Props.C33.trials_fresh_partial",
    "Scram.Props.C33.non_deviate_value",
    "Scram.Props.C33.test_event_sample",
    "Scram.Props.C33.stale_across_analyses"
   ],
   "note": "Proved within one analysis of a clean model. False across consecutive analyses of one model, whose first trial reuses the last sample (stale_across_analyses), and a test event always samples zero (test_event_sample)."
  },
  {
   "property": "C34",
   "status": "proved",
   "theorems": [
    "Scram.Props.C34.exponential_probability",
    "Scram.Props.C34.down_in_first_test",
    "Scram.Props.C34.exponential_mono",
    "Scram.Props.C34.glm_probability",
    "Scram.Props.C34.weibull_probability",
    "Scram.Props.C34.weibull_mono",
    "Scram.Props.C34.instant_repair_probability",
    "Scram.Props.C34.instant_test_probability",
    "Scram.Props.C34.instant_test_no_zero_division",
    "Scram.Props.C34.complete_probability",
    "Scram.Props.C34.complete_asserts"
   ],
   "note": "Real arithmetic (no rounding)."
  },
  {
   "property": "C35",
   "status": "partial",
   "theorems": [
    "Scram.Props.C35.construct_iff_wellformed_partial",
    "Scram.Props.C35.construct_accepts",
    "Scram.Props.C35.construct_sound",
    "Scram.Props.C35.swap_sound",
    "Scram.Props.C35.overflow_accepted",
    "Scram.Props.C35.remove_exact",
    "Scram.Props.C35.remove_missing"
   ],
   "note": "The full statement is false: bounds are stored in 16 bits, so \"at least 65538 of 3\" is accepted as \"2 of 3\" (overflow_accepted). Proved for bounds below 65536, and the exact behaviour for all bounds."
  },
  {
   "property": "C36",
   "status": "proved",
   "theorems": [
    "Scram.Props.C36.top_events_exact"
   ],
   "note": "Any nesting of components and any iteration order."
  },
  {
   "property": "C37",
   "status": "proved",
   "theorems": [
    "Scram.Props.C37.products_rewritten",
    "Scram.Props.C37.rewriting_idempotent",
    "Scram.Props.C37.top_constrained",
    "Scram.Props.C37.accepted_iff",
    "Scram.Props.C37.model_ok",
    "Scram.Props.C37.top_legal",
    "Scram.Props.C37.subst_legal"
   ],
   "note": "Validation, conflict check, collection, rewriting of all products with minimization and order limit; declarative substitutions in the graph constructor. Products are lists of positive literals (as the approximate algorithms that the code requires for non-declarative substitutions give)."
  },
  {
   "property": "C38",
   "status": "proved",
   "theorems": [
    "Scram.Props.C38.map_refines",
    "Scram.Props.C38.map_results",
    "Scram.Props.C38.map_order",
    "Scram.Props.C38.set_refines",
    "Scram.Props.C38.set_results"
   ],
   "note": "Both erase policies."
  },
  {
   "property": "C39",
   "status": "proved",
   "theorems": [
    "Scram.Props.C39.names_valid",
    "Scram.Props.C39.ids_unique",
    "Scram.Props.C39.paths_unique",
    "Scram.Props.C39.id_determines",
    "Scram.Props.C39.registered_iff"
   ],
   "note": "All registrations of fault trees, components, CCF groups and model data."
  },
  {
   "property": "C40",
   "status": "proved",
   "theorems": [
    "Scram.Props.C40.samples_wellformed",
    "Scram.Props.C40.bdd_keeps_range",
    "Scram.Props.C40.rare_event_keeps_range",
    "Scram.Props.C40.mcub_keeps_range"
   ],
   "note": "The boost statistics over the samples are not modelled."
  },
  {
   "property": "C41",
   "status": "partial",
   "theorems": [
    "Scram.Props.C41.no_abort_partial",
    "Scram.Props.C41.run_abort_partial",
    "Scram.Props.C41.abort_reachable"
   ],
   "note": "The full statement is false: selecting ZBDD or MOCUS while prime implicants are requested terminates the program (abort_reachable); it is the only such case."
  },
  {
   "property": "C42",
   "status": "partial",
   "theorems": [
    "Scram.Props.C42.denoted_once",
    "Scram.Props.C42.event_reference",
    "Scram.Props.C42.typed_reference",
    "Scram.Props.C42.local_reference",
    "Scram.Props.C42.private_member_unreachable"
   ],
   "note": "The lookup is proved exact. The last clause is false for members of private CCF groups, which no reference reaches (private_member_unreachable)."
  },
  {
   "property": "C43",
   "status": "proved",
   "theorems": [
    "Scram.Props.C43.prepared_always",
    "Scram.Props.C43.zbdd_prepared_always",
    "Scram.Props.C43.mocus_prepared_always",
    "Scram.Props.C43.bdd_products_exact",
    "Scram.Props.C43.zbdd_products_exact",
    "Scram.Props.C43.mocus_products_exact",
    "Scram.Props.C43.bdd_products_noncoherent",
    "Scram.Props.C43.probability_exact",
    "Scram.Props.C43.exValid",
    "Scram.Props.C43.exAnalyzed",
    "Scram.Props.C43.exNonValid",
    "Scram.Props.C43.exNonAnalyzed"
   ],
   "note": "Construction (C19), every pass of the preprocessor as a step with its guards (C18, C20-C24) including the flags of modules, final marks and orders, BDD/ZBDD/MOCUS and the probability. A run is any sequence of steps with any candidates. Excluded: the K/N case that the code gets wrong (C18), cardinality formulas over one argument. ZBDD and MOCUS are exact for non-coherent models too (phase IV pushes the complements to the variables); the BDD algorithm is for coherent ones (C06)."
  },
  {
   "property": "C44",
   "status": "proved",
   "theorems": [
    "Scram.Props.C44.accepted_iff",
    "Scram.Props.C44.document",
    "Scram.Props.C44.reads_back",
    "Scram.Props.C44.unwound",
    "Scram.Props.C44.child_no_partial_write",
    "Scram.Props.C44.digits_fit",
    "Scram.Props.C44.int_exact",
    "Scram.Props.C44.indentation",
    "Scram.Props.C44.exTree_sane",
    "Scram.Props.C44.cdata_end_ill_formed"
   ],
   "note": "All histories of calls on live elements (children destroyed before parents, as scopes guarantee). Documents are read with a grammar of XML that is proved unambiguous. Doubles are the text printf gives. The data must be representable: a text with ]]> makes the report ill-formed because > is not escaped (cdata_end_ill_formed)."
  },
  {
   "property": "C45",
   "status": "proved",
   "theorems": [
    "Scram.Props.C45.summary_exact",
    "Scram.Props.C45.distribution_sum",
    "Scram.Props.C45.report_never_fails",
    "Scram.Props.C45.report_exact",
    "Scram.Props.C45.products_reported",
    "Scram.Props.C45.contributions_sum",
    "Scram.Props.C45.exResult_fine"
   ],
   "note": "The result section in full; the information section is an arbitrary well-formed sequence of elements. Doubles are printed by an arbitrary function. Names must be free of control characters (as validated input XML gives)."
  },
  {
   "property": "C46",
   "status": "proved",
   "theorems": [
    "Scram.Props.C46.value_is_mean",
    "Scram.Props.C46.error_factor",
    "Scram.Props.C46.bounded_in_interval",
    "Scram.Props.C46.normal_in_interval",
    "Scram.Props.C46.lognormal_in_interval",
    "Scram.Props.C46.lognormal_low_level",
    "Scram.Props.C46.level_half_accepted",
    "Scram.Props.C46.zero_histogram_accepted",
    "Scram.Props.C46.lognormal_mean_outside",
    "Scram.Props.C46.beta_interval_above_one",
    "Scram.Props.C46.gamma_mean_outside",
    "Scram.Props.C46.erfcInv_exists"
   ],
   "note": "Laws of the samples are those of the C++ standard and Boost, as measures of Mathlib; real arithmetic; erfc_inv is any inverse of erfc on (0,2), which is proved to exist. The intervals of gamma and beta deviates, and of lognormal deviates with a level below one half, are wrong in the code (theorems lognormal_low_level, gamma_mean_outside, beta_interval_above_one)."
  },
  {
   "property": "C47",
   "status": "proved",
   "theorems": [
    "Scram.Props.C47.save_succeeds",
    "Scram.Props.C47.typed_reference",
    "Scram.Props.C47.release_of_debug",
    "Scram.Props.C47.round_trip",
    "Scram.Props.C47.reloaded_same",
    "Scram.Props.C47.exact_round_trip",
    "Scram.Props.C47.reloaded_savable",
    "Scram.Props.C47.save_again",
    "Scram.Props.C47.exModel_savable",
    "Scram.Props.C47.constant_loads",
    "Scram.Props.C47.constant_does_not_load",
    "Scram.Props.C47.unsupported_formula",
    "Scram.Props.C47.unsupported_expression_dropped",
    "Scram.Props.C47.ignored_dropped",
    "Scram.Props.C47.asserted_dropped",
    "Scram.Props.C47.role_dropped",
    "Scram.Props.C47.label_trimmed"
   ],
   "note": "For models of the supported constructs (Model.Savable). Outside of it the code loses data or writes files that do not load: literal constants (constant_does_not_load), unsupported expressions in release builds, substitutions and alignments in every build. Doubles are an arbitrary type with print, read and round. Loading is modelled for the elements that are saved; checks after loading are not included."
  },
  {
   "property": "C48",
   "status": "proved",
   "theorems": [
    "Scram.Props.C48.order_increases",
    "Scram.Props.C48.accepted_fresh",
    "Scram.Props.C48.links_at_ends",
    "Scram.Props.C48.not_mixed",
    "Scram.Props.C48.assertion_holds",
    "Scram.Props.C48.accepted_analysis_partial",
    "Scram.Props.C48.order_accepts",
    "Scram.Props.C48.noLink_accepts",
    "Scram.Props.C48.noLinks_accepts",
    "Scram.Props.C48.only_accepts",
    "Scram.Props.C48.exTree_valid",
    "Scram.Props.C48.exTree_closed"
   ],
   "note": "accepted_analysis_partial combines this property with C29 and carries the restriction of C29 (paths without formulas next to paths with formulas are dropped by the code); the property itself is proved in full. Closed: named branches and links refer to branches and trees of the model."
  },
  {
   "property": "C49",
   "status": "proved",
   "theorems": [
    "Scram.Props.C49.results_exact",
    "Scram.Props.C49.ids_unique",
    "Scram.Props.C49.reproducible",
    "Scram.Props.C49.exCfg_consistent",
    "Scram.Props.C49.exInput_once"
   ],
   "note": "For phases that set each house event at most once (the exception is the finding of C31). The single analyses are arbitrary functions. The seed of the settings is 0 by default, so the generator is always seeded, although the comment in the code says otherwise."
  },
  {
   "property": "C50",
   "status": "proved",
   "theorems": [
    "Scram.Props.C50.null_removal_ends",
    "Scram.Props.C50.null_removal_done",
    "Scram.Props.C50.null_removal_exists",
    "Scram.Props.C50.coalescing_ends",
    "Scram.Props.C50.coalescing_loop_ends",
    "Scram.Props.C50.replacement_ends",
    "Scram.Props.C50.replacement_done",
    "Scram.Props.C50.definitions_loop_ends",
    "Scram.Props.C50.exG_inv",
    "Scram.Props.C50.exG_coalesce",
    "Scram.Props.C50.exG_duplicate"
   ],
   "note": "For graphs with the invariant that the construction gives and every pass keeps (C18, C43). The K/N case that the code gets wrong (C18) is left out of the steps. The loops over finite lists of candidates and the recursions down the acyclic graph are not restated."
  },
  {
   "property": "C51",
   "status": "partial",
   "theorems": [
    "Scram.Props.C51.cli_exact",
    "Scram.Props.C51.cli_terminates",
    "Scram.Props.C51.no_project",
    "Scram.Props.C51.limits_order",
    "Scram.Props.C51.project_sane",
    "Scram.Props.C51.with_project",
    "Scram.Props.C51.run_consistent",
    "Scram.Props.C51.project_kept_partial",
    "Scram.Props.C51.kept_iff",
    "Scram.Props.C51.project_lost",
    "Scram.Props.C51.nothing_dropped",
    "Scram.Props.C51.refused_contradicts"
   ],
   "note": "Exact result for every project file and command line. The full statement that the command line only replaces what it names is false of the code: flags of the project file are switched off (project_lost); exactly which is kept is proved."
  },
  {
   "property": "C52",
   "status": "partial",
   "theorems": [
    "Scram.Props.C52.add_refuses",
    "Scram.Props.C52.sessions_retrace_partial",
    "Scram.Props.C52.undo_after_push_partial",
    "Scram.Props.C52.flavor_undo_loses"
   ],
   "note": "Every legal session of commands, macros, undos and redos goes through and is always at the model of the list-of-models specification, with the right numbers of undos and redos, and the model stays consistent and acyclic. Partial because the code does not undo SetFlavor exactly when the flavor attribute was written by another program (counterexample flavor_undo_loses)."
  },
  {
   "property": "C53",
   "status": "partial",
   "theorems": [
    "Scram.Props.C53.add_dialog_partial",
    "Scram.Props.C53.edit_dialog_partial",
    "Scram.Props.C53.dialog_answers",
    "Scram.Props.C53.remove_event",
    "Scram.Props.C53.accept_unchanged_partial",
    "Scram.Props.C53.accept_unchanged_rounds",
    "Scram.Props.C53.atleast_fails",
    "Scram.Props.C53.acceptable_identifier",
    "Scram.Props.C53.incomplete_argument",
    "Scram.Props.C53.type_change_throws",
    "Scram.Props.C53.single_top_lost",
    "Scram.Props.C53.step1",
    "Scram.Props.C53.step2",
    "Scram.Props.C53.step3"
   ],
   "note": "All inputs to the dialogs; accepted dialogs succeed, show what they say, keep all other events and the consistency of the model; removal. Partial because the code itself fails in the cases of atleast_fails, single_top_lost, incomplete_argument, accept_unchanged_rounds and type_change_throws."
  },
  {
   "property": "C54",
   "status": "proved",
   "theorems": [
    "Scram.Props.C54.accepted_iff",
    "Scram.Props.C54.loaded",
    "Scram.Props.C54.meaning_unique",
    "Scram.Props.C54.same_declarations",
    "Scram.Props.C54.order_irrelevant"
   ],
   "note": "Acceptance is characterised exactly by a declarative specification (Valid), from which independence of order and of the distribution over files follows. Event trees, rules, alignments, substitutions and extern functions are not in this model; CCF factor checks and numeric validation are parameters."
  },
  {
   "property": "C55",
   "status": "proved",
   "theorems": [
    "Scram.Props.C55.int_text",
    "Scram.Props.C55.int_attribute",
    "Scram.Props.C55.real_text",
    "Scram.Props.C55.real_attribute",
    "Scram.Props.C55.bool_attribute",
    "Scram.Props.C55.missing_iff",
    "Scram.Props.C55.version_read",
    "Scram.Props.C55.version_valid",
    "Scram.Props.C55.version_check",
    "Scram.Props.C55.nan_accepted",
    "Scram.Props.C55.hex_accepted",
    "Scram.Props.C55.newline_refused",
    "Scram.Props.C55.version_wraps"
   ],
   "note": "Accepted texts and values characterised exactly for integers, reals and flags; rounding is a parameter; the locale is \"C\". The last four theorems record surprises of the code."
  },
  {
   "property": "C56",
   "status": "partial",
   "theorems": [
    "Scram.Props.C56.tables_exact",
    "Scram.Props.C56.tables_of_model",
    "Scram.Props.C56.tree_exact",
    "Scram.Props.C56.title_exact",
    "Scram.Props.C56.children_partial",
    "Scram.Props.C56.formula_refreshes",
    "Scram.Props.C56.removed_gate_rows",
    "Scram.Props.C56.renamed_argument_rows",
    "Scram.Props.C56.children_stale"
   ],
   "note": "The tables and the tree are proved exact for every session. The rows under gates are proved for sessions that do not rename events or take gates away, and after every change of a formula; the full statement for them is false of the code (children_stale)."
  },
  {
   "property": "C57",
   "status": "partial",
   "theorems": [
    "Scram.Props.C57.session_runs",
    "Scram.Props.C57.unmarked_stored_partial",
    "Scram.Props.C57.nothing_lost_partial",
    "Scram.Props.C57.save_result_partial",
    "Scram.Props.C57.save_succeeds",
    "Scram.Props.C57.crash_safe_partial",
    "Scram.Props.C57.failed_save_keeps",
    "Scram.Props.C57.only_chosen_files",
    "Scram.Props.C57.report_current",
    "Scram.Props.C57.silent_loss",
    "Scram.Props.C57.undone_but_different",
    "Scram.Props.C57.temporary_left"
   ],
   "note": "Proved for every session in which commands have an exact undo and the last flush (fclose) does not fail; silent_loss and undone_but_different show that the code violates the statement otherwise."
  },
  {
   "property": "C58",
   "status": "proved",
   "theorems": [
    "Scram.Props.C58.common_args_keep_top",
    "Scram.Props.C58.common_args_assertions",
    "Scram.Props.C58.searches_end",
    "Scram.Props.C58.nothing_missed"
   ],
   "note": "The whole pass as executable searches; removal of pass-through gates between modules as rules of C22 (without the wrong case of C22)."
  },
  {
   "property": "C59",
   "status": "proved",
   "theorems": [
    "Scram.Props.C59.distributivity_keeps_top",
    "Scram.Props.C59.traversal_ends",
    "Scram.Props.C59.all_gates_visited",
    "Scram.Props.C59.all_candidates_handled",
    "Scram.Props.C59.distributivity_assertions",
    "Scram.Props.C59.absorption_complete",
    "Scram.Props.C59.nothing_missed"
   ],
   "note": "The whole pass with traversal, searches, clones and rewriting; removal of pass-through gates afterwards as rules of C22 (without the wrong case of C22)."
  },
  {
   "property": "C60",
   "status": "proved",
   "theorems": [
    "Scram.Props.C60.loops_keep_top",
    "Scram.Props.C60.joining_flag",
    "Scram.Props.C60.joining_stops_when_done",
    "Scram.Props.C60.joining_is_complete",
    "Scram.Props.C60.joining_loop_ends",
    "Scram.Props.C60.joining_depth",
    "Scram.Props.C60.duplicates_are_equal",
    "Scram.Props.C60.definitions_stop_when_done",
    "Scram.Props.C60.definitions_depth",
    "Scram.Props.C60.definitions_pass"
   ],
   "note": "Traversals, tests and flags as executable functions; removal of pass-through gates and the swap of arguments as the rules of C18 and C50 (without the wrong K/N case of C18)."
  },
  {
   "property": "C61",
   "status": "proved",
   "theorems": [
    "Scram.Props.C61.removal_ends",
    "Scram.Props.C61.removal_complete",
    "Scram.Props.C61.removal_keeps_top",
    "Scram.Props.C61.removal_ok",
    "Scram.Props.C61.trivial_ends",
    "Scram.Props.C61.trivial_keeps_top",
    "Scram.Props.C61.nontrivial_graph",
    "Scram.Props.C61.trivial_graph"
   ],
   "note": "The recursion of RemoveNullGates and IsTrivial, with any choice of the next parent; the wrong K/N join of C18 is done as in the code and recorded by a flag."
  },
  {
   "property": "C62",
   "status": "partial",
   "theorems": [
    "Scram.Props.C62.accepted_as_shown",
    "Scram.Props.C62.signals_end",
    "Scram.Props.C62.last_choice_wins",
    "Scram.Props.C62.no_needless_changes",
    "Scram.Props.C62.unchanged_partial",
    "Scram.Props.C62.unchanged_fails"
   ],
   "note": "All claims are proved but the last one, which the code violates: settings that the dialog does not show are reset; unchanged_partial says exactly when an unchanged dialog keeps the settings."
  },
  {
   "property": "C63",
   "status": "proved",
   "theorems": [
    "Scram.Props.C63.diagram_ends",
    "Scram.Props.C63.each_gate_once",
    "Scram.Props.C63.faithful",
    "Scram.Props.C63.transfers",
    "Scram.Props.C63.no_overlap",
    "Scram.Props.C63.follows_model",
    "Scram.Props.C63.removed_is_empty"
   ],
   "note": "Formulas as gui.rng allows them: one connective, no complemented arguments."
  },
  {
   "property": "C64",
   "status": "partial",
   "theorems": [
    "Scram.Props.C64.accepted_iff",
    "Scram.Props.C64.declared_exactly",
    "Scram.Props.C64.names_exact",
    "Scram.Props.C64.set_house_exact",
    "Scram.Props.C64.marks_exact",
    "Scram.Props.C64.warnings_exact",
    "Scram.Props.C64.reported_is_unused_partial",
    "Scram.Props.C64.unused_not_reported"
   ],
   "note": "All claims are proved but the last one, which the code violates: after edits everything that is listed is unused, but not everything that is unused is listed."
  },
  {
   "property": "C65",
   "status": "proved",
   "theorems": [
    "Scram.Props.C65.pass_keeps_top",
    "Scram.Props.C65.pass_ok",
    "Scram.Props.C65.pass_result",
    "Scram.Props.C65.pass_unchanged",
    "Scram.Props.C65.pass_ends",
    "Scram.Props.C65.runs_exist"
   ],
   "note": "Value of the top event unless the K/N duplicate case of C18 occurred; every order of nodes and parents."
  },
  {
   "property": "C66",
   "status": "proved",
   "theorems": [
    "Scram.Props.C66.passes_keep_top",
    "Scram.Props.C66.bdd_products_exact",
    "Scram.Props.C66.zbdd_products_exact",
    "Scram.Props.C66.mocus_products_exact",
    "Scram.Props.C66.probability_exact",
    "Scram.Props.C66.optimization_settles",
    "Scram.Props.C66.exAnalyzed"
   ],
   "note": "Whole passes as functions of the graph, in any sequence, with the module flags. Non-coherent models with the BDD algorithm: see C43."
  },
  {
   "property": "C67",
   "status": "proved",
   "theorems": [
    "Scram.Props.C67.got_iff",
    "Scram.Props.C67.tree_total",
    "Scram.Props.C67.tree_shows",
    "Scram.Props.C67.tree_sequence_fails",
    "Scram.Props.C67.productRows_eq",
    "Scram.Props.C67.contributions_sum",
    "Scram.Props.C67.contribution_bounds",
    "Scram.Props.C67.table_total",
    "Scram.Props.C67.product_cells",
    "Scram.Props.C67.importance_cells",
    "Scram.Props.C67.memberText_inj",
    "Scram.Props.C67.session_ok",
    "Scram.Props.C67.session_total",
    "Scram.Props.C67.run_stays",
    "Scram.Props.C67.change_clears",
    "Scram.Props.C67.activate_opens"
   ],
   "note": "Numbers are elements of a field, not doubles; what the analyses compute is the subject of other properties."
  },
  {
   "property": "C68",
   "status": "partial",
   "theorems": [
    "Scram.Props.C68.context_cleared",
    "Scram.Props.C68.value_computed",
    "Scram.Props.C68.value_exact_partial",
    "Scram.Props.C68.value_certain",
    "Scram.Props.C68.frequencies_sum",
    "Scram.Props.C68.test_ignored",
    "Scram.Props.C68.certain_dropped",
    "Scram.Props.C68.full_statement_false"
   ],
   "note": "The code violates the full statement: tests of functional events in collected expressions are always false, and paths without expressions are dropped next to paths with expressions. Proved for all other trees; what the code computes is proved for all trees whose paths to the sequence collect expressions."
  },
  {
   "property": "C69",
   "status": "partial",
   "theorems": [
    "Scram.Props.C69.autosave_in_effect",
    "Scram.Props.C69.entered_stored",
    "Scram.Props.C69.stored_stays",
    "Scram.Props.C69.limit_at_launch",
    "Scram.Props.C69.limit_in_effect_partial",
    "Scram.Props.C69.recent_after_open",
    "Scram.Props.C69.recent_after_recent",
    "Scram.Props.C69.recent_sound",
    "Scram.Props.C69.recent_restart",
    "Scram.Props.C69.language_shown",
    "Scram.Props.C69.undo_limit_ignored",
    "Scram.Props.C69.full_undo_false"
   ],
   "note": "Everything for all histories but the undo limit: it is in effect if set only while there is nothing to undo; the code ignores it otherwise until the next start (undo_limit_ignored)."
  },
  {
   "property": "C70",
   "status": "proved",
   "theorems": [
    "Scram.Props.C70.importance_exact",
    "Scram.Props.C70.importance_given",
    "Scram.Props.C70.importance_partial",
    "Scram.Props.C70.bdd_bounds",
    "Scram.Props.C70.zbdd_bounds",
    "Scram.Props.C70.mocus_bounds",
    "Scram.Props.C70.zbdd_mcub_importance",
    "Scram.Props.C70.listing_exists"
   ],
   "note": "End to end. importance_partial is the extra result for non-coherent models (the claim is about coherent ones): right but for the sign, which the code gets wrong (C14)."
  },
  {
   "property": "C71",
   "status": "proved",
   "theorems": [
    "Scram.Props.C71.prime_implicants_exact",
    "Scram.Props.C71.prime_implicants_coherent",
    "Scram.Props.C71.product_inj"
   ],
   "note": "End to end, for coherent and non-coherent models; modules that are constant are excluded by an assertion of the code (hypothesis ModulesVary; not needed for coherent models)."
  },
  {
   "property": "C72",
   "status": "proved",
   "theorems": [
    "Scram.Props.C72.curve_exact",
    "Scram.Props.C72.samples_exact",
    "Scram.Props.C72.samples_mcub"
   ],
   "note": "End to end: the curve over time and the Monte Carlo samples in terms of the basic events of the model, for all sequences of preprocessing passes. Exact arithmetic; the expressions are clean at the start (C33)."
  },
  {
   "property": "C73",
   "status": "proved",
   "theorems": [
    "Scram.Props.C73.always",
    "Scram.Props.C73.processed",
    "Scram.Props.C73.overflow",
    "Scram.Props.C73.stays_bare"
   ],
   "note": "All histories of the zoom of all diagrams, nested signals included. Qt hides a tab before it shows the next one, and ends an edit when the focus leaves the box (assumed). Levels within int; overflow shows that the code does not ensure it."
  },
  {
   "property": "C74",
   "status": "partial",
   "theorems": [
    "Scram.Props.C74.prints_visible",
    "Scram.Props.C74.bar_shows_filter",
    "Scram.Props.C74.filters",
    "Scram.Props.C74.removes_selected",
    "Scram.Props.C74.remove_enabled_partial",
    "Scram.Props.C74.shown_is_calm",
    "Scram.Props.C74.assertion_reachable",
    "Scram.Props.C74.not_removable"
   ],
   "note": "All clauses are proved for all histories but the last, which the code violates: the connections of the selections are not cut when a tab is hidden, so changes of the model behind a hidden table enable the action without a selection (choosing it shows \"Assertion Failure\") or disable it with one. Proved as long as only the visible tab changes its selection, and again after each visit of a table."
  },
  {
   "property": "C75",
   "status": "proved",
   "theorems": [
    "Scram.Props.C75.encode_injective",
    "Scram.Props.C75.encode_small",
    "Scram.Props.C75.extractor_exact",
    "Scram.Props.C75.interfaces",
    "Scram.Props.C75.define_iff",
    "Scram.Props.C75.called_as_declared",
    "Scram.Props.C75.value_defined",
    "Scram.Props.C75.file_in_directory",
    "Scram.Props.C75.pathOk_iff",
    "Scram.Props.C75.library_found",
    "Scram.Props.C75.fraction_dropped"
   ],
   "note": "Real numbers; a number outside of int is undefined. The fraction of a number for an int is dropped without a message (fraction_dropped)."
  },
  {
   "property": "C76",
   "status": "partial",
   "theorems": [
    "Scram.Props.C76.always_fine",
    "Scram.Props.C76.addAttribute_exact",
    "Scram.Props.C76.setAttribute_exact",
    "Scram.Props.C76.removeAttribute_exact",
    "Scram.Props.C76.nearest",
    "Scram.Props.C76.chain_exists",
    "Scram.Props.C76.add_exact",
    "Scram.Props.C76.remove_exact",
    "Scram.Props.C76.container_exact_partial",
    "Scram.Props.C76.rename_forgets_tree",
    "Scram.Props.C76.remove_forgets",
    "Scram.Props.C76.flavor_exact",
    "Scram.Props.C76.setFlavor_partial",
    "Scram.Props.C76.flavor_not_saved"
   ],
   "note": "Inheritance holds if elements enter only one container and keep their names; renamed in the editor a gate forgets its fault tree (rename_forgets_tree), as does an element that leaves the other container (remove_forgets). The shown flavor is that of the model except for basic over an inherited flavor (flavor_not_saved)."
  },
  {
   "property": "C77",
   "status": "partial",
   "theorems": [
    "Scram.Props.C77.status_zero_iff",
    "Scram.Props.C77.information",
    "Scram.Props.C77.failure_reported",
    "Scram.Props.C77.files_kept",
    "Scram.Props.C77.report_there_partial",
    "Scram.Props.C77.validate_only",
    "Scram.Props.C77.report_lost",
    "Scram.Props.C77.level_unchecked"
   ],
   "note": "The report is complete if what fclose has to write gets to the disk; otherwise it is lost with status 0 (report_lost). Loading, analysis and the text of the report are parameters."
  },
  {
   "property": "C78",
   "status": "proved",
   "theorems": [
    "Scram.Props.C78.value_exact",
    "Scram.Props.C78.deeper",
    "Scram.Props.C78.allOf_exact",
    "Scram.Props.C78.build_exact",
    "Scram.Props.C78.switch_exact",
    "Scram.Props.C78.unary_exact",
    "Scram.Props.C78.trigonometric_exact",
    "Scram.Props.C78.binary_exact",
    "Scram.Props.C78.several_exact"
   ],
   "note": "Real numbers (no rounding, NaN or infinities). Random deviates, event-tree tests and extern functions are in C46, C68, C75. The failure models other than the exponential are those of C34."
  }
 ]
}