P='Scram.Props.'
def ts(p,*n): return [P+p+'.'+x for x in n]
c('C01','proved',ts('C01','bdd_exact','bdd_modules_consistent'),'Arbitrary collector, hash function, argument order; exact cache model.')
c('C02','proved',ts('C02','bdd_canonical','bdd_constant','build_constant'),'Unreferenced vertices are destroyed between operations (op collect), not in the middle of one Apply.')
c('C03','proved',ts('C03','live_vertices_unique','find_or_add_exact','ids_never_reused','no_dangling','no_leak','table_size_exact'),'Reference counts, weak pointers, sweeping and rehashing modelled.')
c('C04','proved',ts('C04','cache_hit_is_latest','cache_find_after_emplace','cache_find_defined','cache_size_exact','reserved_room'),'Arbitrary hash function and growth.')
c('C08','proved',ts('C08','subsume_exact','minimize_exact','prune_sets','apply_exact','apply_signed'),'Sets of signed literals, order cut-off, modules that may be unity.')
c('C28','proved',ts('C28','gate_cycles','parameter_cycles','branch_cycles','rule_cycles','link_cycles','accepts_iff_acyclic','accepted_rank'),'Named branches are unfolded in the link check (branch cycles are rejected before it).')
c('C30','proved',ts('C30','settings_consistent','rejected_unchanged','numeric_accepted','names_exact'),'NaN passes the range checks (nan_accepted): the range of floating point settings is stated with the comparisons of doubles.')
c('C35','partial',ts('C35','construct_iff_wellformed_partial','construct_accepts','construct_sound','swap_sound','overflow_accepted','remove_exact','remove_missing'),'The full statement is false: bounds are stored in 16 bits, so "at least 65538 of 3" is accepted as "2 of 3" (overflow_accepted). Proved for bounds below 65536, and the exact behaviour for all bounds.')
c('C36','proved',ts('C36','top_events_exact'),'Any nesting of components and any iteration order.')
c('C38','proved',ts('C38','map_refines','map_results','map_order','set_refines','set_results'),'Both erase policies.')
c('C41','partial',ts('C41','no_abort_partial','run_abort_partial','abort_reachable'),'The full statement is false: selecting ZBDD or MOCUS while prime implicants are requested terminates the program (abort_reachable); it is the only such case.')
c('C25','proved',ts('C25','total_conserved','event_bounds'),'Ordered field arithmetic (no rounding); alpha-factor groups whose factors are all zero divide by zero and are excluded. The phi-factor model does not conserve the total by definition; its bounds are covered.')
c('C26','proved',ts('C26','apply_exact','apply_single_level'),'Member names contain no spaces. An accepted alpha/phi group with a single level fails to apply (apply_single_level).')
c('C27','proved',ts('C27','accepted_iff_wellformed','accepted_iff_legal','rejected_unchanged'),'All operation sequences, errors caught in between.')
c('C29','partial',ts('C29','paths_exact','sequence_formula_partial','sequence_certain','unreached','sequence_expression','storiesTo_iff','certain_path_dropped'),'The collected paths are exactly the paths of the tree. The full statement about the formula is false: a path that collects nothing is dropped when another path to the same sequence collects a formula (certain_path_dropped). Named branches, links and rules are unfolded (acyclic by C28).')
c('C11','proved',ts('C11','exact_probability'),'Ordered-field arithmetic (no rounding). Modules must have disjoint sets of variables (what module detection establishes, C22).')
c('C12','proved',ts('C12','exact_range','product_range','mcub_range','rare_event_range'),'Ordered-field arithmetic (no rounding).')
c('C14','partial',ts('C14','mif_exact_partial','mif_exact_coherent','mif_wrong_sign','factors_exact','generic_mif_exact'),'The full statement is false for the BDD: the calculation ignores the complement flag of the root function, so the MIF has the wrong sign for it (mif_wrong_sign, e.g. x1 & ~x2). Proved for coherent top events, and up to that sign for all. The topological ordering of variables is modelled and its needed facts are proved.')
c('C15','proved',ts('C15','occurrences_exact'),'')
c('C16','partial',ts('C16','average_is_integral','average_bounds','pfd_avg_bounds','fractions_sum_partial','fraction_time','boundary_counted_twice','hourly_above_one_lost','single_point'),'Averages: proved in full. The histogram statement is false for curves that are constant exactly on a level bound (boundary_counted_twice: fractions sum to 2); proved for all other curves in [0,1]. Ordered-field arithmetic.')
c('C17','proved',ts('C17','grid_exact','grid_shape','no_step','bdd_calculates'),'Archimedean ordered field: with floating-point numbers a step that is lost in rounding would not end the loop.')

c('C13','proved',ts('C13','approximations_conservative','exact_le_mcub','mcub_le_rare_event','truncated_not_conservative'),'Ordered-field arithmetic. From the prepared graph to the bounds for untruncated analyses; with a limit below the number of events the bounds are those of the reported products only (truncated_not_conservative).')
c('C05','proved',ts('C05','minimal_cut_sets_exact'),'BDD algorithm from the prepared graph (topological order, independent modules, nonempty gates: what the preprocessor hands over) to the final ZBDD with modules; any environment (hashes, collector, argument order).')
c('C06','partial',ts('C06','order_limit_exact','order_limit_exact_noncoherent','order_limit_partial','cut_set_lost'),'Proved in full for coherent graphs, and for non-coherent graphs with coherent modules. The full statement is false for non-coherent modules when prime implicants are not requested: cut sets of exactly the order of the limit can be lost (cut_set_lost); all shorter ones are reported and everything reported is minimal (order_limit_partial).')
c('C07','proved',ts('C07','prime_implicants_exact','prime_implicants_exact_coherent','prime_implicant_lost'),'Modules must not be constant functions, which the code asserts; without this a prime implicant of the order of the limit can be lost (prime_implicant_lost).')
c('C10','proved',ts('C10','listing_exact','count_all','counted'),'The iterator is modelled as the state machine of the code (stacks, module iterators, limit); termination is part of the theorem. Counts are over natural numbers (the code uses int and int64).')
c('C31','partial',ts('C31','context_restored_partial','run_exact','restored_iff','leak'),'The full statement is false: a house event set twice in one phase (changed and changed back) is restored in the wrong order (leak). Proved for phases that set each event at most once; the exact final state is given for all instruction lists.')
c('C32','partial',ts('C32','interval_encloses_partial','divisors_not_zero_partial','accepted_probability_partial','exponential_accepted','accepted_but_not_probability','extern_ignores_deviates'),'The full statement is false (accepted_but_not_probability): the corner rule is wrong for non-monotone functions, and an accepted probability expression can sample above one. Proved for all expression trees whose operators are monotone on the intervals of their operands. Real arithmetic.')
c('C33','partial',ts('C33','consistent_trial','reset_reaches','trials_fresh_partial','non_deviate_value','test_event_sample','stale_across_analyses'),'Proved within one analysis of a clean model. False across consecutive analyses of one model, whose first trial reuses the last sample (stale_across_analyses), and a test event always samples zero (test_event_sample).')
c('C34','proved',ts('C34','exponential_probability','down_in_first_test','exponential_mono','glm_probability','weibull_probability','weibull_mono','instant_repair_probability','instant_test_probability','instant_test_no_zero_division','complete_probability','complete_asserts'),'Real arithmetic (no rounding).')
c('C40','proved',ts('C40','samples_wellformed','bdd_keeps_range','rare_event_keeps_range','mcub_keeps_range'),'The boost statistics over the samples are not modelled.')
c('C39','proved',ts('C39','names_valid','ids_unique','paths_unique','id_determines','registered_iff'),'All registrations of fault trees, components, CCF groups and model data.')
c('C42','partial',ts('C42','denoted_once','event_reference','typed_reference','local_reference','private_member_unreachable'),'The lookup is proved exact. The last clause is false for members of private CCF groups, which no reference reaches (private_member_unreachable).')
c('C18','partial',ts('C18','addArg_sound_partial','addArgs_sound','dupAtleast_wrong','dupAtleast_wrong_value'),"AddArg for every connective, constants, repeated and complementary arguments, on any well-formed heap: the gate computes the connective of the raw list. Excluded: a K/N gate with exactly two arguments that gets one of them again, where the code keeps the wrong argument (dupAtleast_wrong, a defect of the code). Lists of arguments: AND/OR/NAND/NOR gates with at least two arguments (the CoalesceGate use).")
c('C22','partial',ts('C22','merge_keeps_top_partial','coalesce_keeps_all','exG_distributes','merge_wrong'),"Rules of pass-through removal, coalescing, multiple definitions, common args, modules, absorption, subsumption, cloning, distributivity, root pull; any sequence. The searches that find the rewrites of common arguments and of distributivity are C58 and C59. Excluded: the wrong K/N case (BadJoin/BadSwap, merge_wrong shows the defect).")
c('C20','proved',ts('C20','full_keeps_top','full_is_normal','partial_keeps_top','exN_result'),"All gate types, all K/N, any visit order and any choice of the argument in the K/N expansion. Removal of the pass-through gates afterwards is C18/C22.")
c('C21','proved',ts('C21','propagation_keeps_top','complements_on_variables','sole_ok','exC_result','exC_inplace'),"Depth-first recursion with marks and the map of complements, shared gates, in-place changes; any choice of in-place change that is made only for gates with one parent. The recursion is bounded by a number that the theorem shows to exist.")
c('C19','proved',ts('C19','graph_computes_formula','graph_wellformed','coherent_monotone','normal_gates','model_ok','top_legal'),"Constructor of the graph without substitutions (C37): gathering of variables, all connectives including cardinality, iff, imply, house events, CCF gates, shared gates, any nesting. Formulas are as validation accepts them (C35), models acyclic (C28).")
c('C37','proved',ts('C37','products_rewritten','rewriting_idempotent','top_constrained','accepted_iff','model_ok','top_legal','subst_legal'),"Validation, conflict check, collection, rewriting of all products with minimization and order limit; declarative substitutions in the graph constructor. Products are lists of positive literals (as the approximate algorithms that the code requires for non-declarative substitutions give).")
c('C24','proved',ts('C24','optimization_keeps_top','states_sound','decomposition_keeps_top','exO_result','exD_result'),"ProcessCommonNode with all searches for every node and graph, given right module flags (C23); decomposition for any sequence of common nodes, destinations and sub-parents. Removal of null gates after it is C18/C22.")
c('C23','proved',ts('C23','modules_independent','all_modules_found','detection_keeps_top','module_factors','modules_nested','exM_result'),
  'AssignTiming, FindModules, ProcessModularArgs, CreateNewModule(s), FilterModularArgs, GroupModularArgs for every graph: every flagged gate, old or new, is independent, every independent gate is flagged, the top event is kept. Flags set before the call are assumed to be right (none for the first call); that the other passes keep the flags right is part of C43.')
c('C09','proved',ts('C09','algorithms_agree','zbdd_exact','mocus_exact','zbdd_mocus_agree','bdd_zbdd_noncoherent','lost_found','exM_prepared','exZ_prepared'),
  'Each algorithm on the graph its own preprocessor prepares (BDD, ZBDD: topological order; MOCUS: inverted order) of the same top event; constructors with modules, cut-offs, minimization. All gates have at least two arguments, as CutSetContainer::ConvertGate asserts. Preprocessing gives such graphs: C43. ZBDD and MOCUS are exact on non-coherent graphs too (complements at variables only, as phase IV leaves them).')
c('C43','proved',ts('C43','prepared_always','zbdd_prepared_always','mocus_prepared_always','bdd_products_exact','zbdd_products_exact','mocus_products_exact','bdd_products_noncoherent','probability_exact','exValid','exAnalyzed','exNonValid','exNonAnalyzed'),
  'Construction (C19), every pass of the preprocessor as a step with its guards (C18, C20-C24) including the flags of modules, final marks and orders, BDD/ZBDD/MOCUS and the probability. A run is any sequence of steps with any candidates. Excluded: the K/N case that the code gets wrong (C18), cardinality formulas over one argument. ZBDD and MOCUS are exact for non-coherent models too (phase IV pushes the complements to the variables); the BDD algorithm is for coherent ones (C06).')
c('C44','proved',ts('C44','accepted_iff','document','reads_back','unwound','child_no_partial_write','digits_fit','int_exact','indentation','exTree_sane','cdata_end_ill_formed'),
  'All histories of calls on live elements (children destroyed before parents, as scopes guarantee). Documents are read with a grammar of XML that is proved unambiguous. Doubles are the text printf gives. The data must be representable: a text with ]]> makes the report ill-formed because > is not escaped (cdata_end_ill_formed).')
c('C45','proved',ts('C45','summary_exact','distribution_sum','report_never_fails','report_exact','products_reported','contributions_sum','exResult_fine'),
  'The result section in full; the information section is an arbitrary well-formed sequence of elements. Doubles are printed by an arbitrary function. Names must be free of control characters (as validated input XML gives).')
c('C46','proved',ts('C46','value_is_mean','error_factor','bounded_in_interval','normal_in_interval','lognormal_in_interval','lognormal_low_level','level_half_accepted','zero_histogram_accepted','lognormal_mean_outside','beta_interval_above_one','gamma_mean_outside','erfcInv_exists'),
  'Laws of the samples are those of the C++ standard and Boost, as measures of Mathlib; real arithmetic; erfc_inv is any inverse of erfc on (0,2), which is proved to exist. The intervals of gamma and beta deviates, and of lognormal deviates with a level below one half, are wrong in the code (theorems lognormal_low_level, gamma_mean_outside, beta_interval_above_one).')
c('C47','proved',ts('C47','save_succeeds','typed_reference','release_of_debug','round_trip','reloaded_same','exact_round_trip','reloaded_savable','save_again','exModel_savable','constant_loads','constant_does_not_load','unsupported_formula','unsupported_expression_dropped','ignored_dropped','asserted_dropped','role_dropped','label_trimmed'),
  'For models of the supported constructs (Model.Savable). Outside of it the code loses data or writes files that do not load: literal constants (constant_does_not_load), unsupported expressions in release builds, substitutions and alignments in every build. Doubles are an arbitrary type with print, read and round. Loading is modelled for the elements that are saved; checks after loading are not included.')
c('C48','proved',ts('C48','order_increases','accepted_fresh','links_at_ends','not_mixed','assertion_holds','accepted_analysis_partial','order_accepts','noLink_accepts','noLinks_accepts','only_accepts','exTree_valid','exTree_closed'),
  'accepted_analysis_partial combines this property with C29 and carries the restriction of C29 (paths without formulas next to paths with formulas are dropped by the code); the property itself is proved in full. Closed: named branches and links refer to branches and trees of the model.')
c('C49','proved',ts('C49','results_exact','ids_unique','reproducible','exCfg_consistent','exInput_once'),
  'For phases that set each house event at most once (the exception is the finding of C31). The single analyses are arbitrary functions. The seed of the settings is 0 by default, so the generator is always seeded, although the comment in the code says otherwise.')
c('C50','proved',ts('C50','null_removal_ends','null_removal_done','null_removal_exists','coalescing_ends','coalescing_loop_ends','replacement_ends','replacement_done','definitions_loop_ends','exG_inv','exG_coalesce','exG_duplicate'),
  'For graphs with the invariant that the construction gives and every pass keeps (C18, C43). The K/N case that the code gets wrong (C18) is left out of the steps. The loops over finite lists of candidates and the recursions down the acyclic graph are not restated.')
c('C51','partial',ts('C51','cli_exact','cli_terminates','no_project','limits_order','project_sane','with_project','run_consistent','project_kept_partial','kept_iff','project_lost','nothing_dropped','refused_contradicts'),
  'Exact result for every project file and command line. The full statement that the command line only replaces what it names is false of the code: flags of the project file are switched off (project_lost); exactly which is kept is proved.')
c('C52','partial',ts('C52','add_refuses','sessions_retrace_partial','undo_after_push_partial','flavor_undo_loses'),
  "Every legal session of commands, macros, undos and redos goes through and is always at the model of the list-of-models specification, with the right numbers of undos and redos, and the model stays consistent and acyclic. Partial because the code does not undo SetFlavor exactly when the flavor attribute was written by another program (counterexample flavor_undo_loses).")
c('C53','partial',ts('C53','add_dialog_partial','edit_dialog_partial','dialog_answers','remove_event','accept_unchanged_partial','accept_unchanged_rounds','atleast_fails','acceptable_identifier','incomplete_argument','type_change_throws','single_top_lost','step1','step2','step3'),
  "All inputs to the dialogs; accepted dialogs succeed, show what they say, keep all other events and the consistency of the model; removal. Partial because the code itself fails in the cases of atleast_fails, single_top_lost, incomplete_argument, accept_unchanged_rounds and type_change_throws.")
c('C54','proved',ts('C54','accepted_iff','loaded','meaning_unique','same_declarations','order_irrelevant'),
  'Acceptance is characterised exactly by a declarative specification (Valid), from which independence of order and of the distribution over files follows. Event trees, rules, alignments, substitutions and extern functions are not in this model; CCF factor checks and numeric validation are parameters.')
c('C55','proved',ts('C55','int_text','int_attribute','real_text','real_attribute','bool_attribute','missing_iff','version_read','version_valid','version_check','nan_accepted','hex_accepted','newline_refused','version_wraps'),
  'Accepted texts and values characterised exactly for integers, reals and flags; rounding is a parameter; the locale is "C". The last four theorems record surprises of the code.')
c('C56','partial',ts('C56','tables_exact','tables_of_model','tree_exact','title_exact','children_partial','formula_refreshes','removed_gate_rows','renamed_argument_rows','children_stale'),'The tables and the tree are proved exact for every session. The rows under gates are proved for sessions that do not rename events or take gates away, and after every change of a formula; the full statement for them is false of the code (children_stale).')
c('C57','partial',ts('C57','session_runs','unmarked_stored_partial','nothing_lost_partial','save_result_partial','save_succeeds','crash_safe_partial','failed_save_keeps','only_chosen_files','report_current','silent_loss','undone_but_different','temporary_left'),'Proved for every session in which commands have an exact undo and the last flush (fclose) does not fail; silent_loss and undone_but_different show that the code violates the statement otherwise.')
c('C58','proved',ts('C58','common_args_keep_top','common_args_assertions','searches_end','nothing_missed'),'The whole pass as executable searches; removal of pass-through gates between modules as rules of C22 (without the wrong case of C22).')
c('C59','proved',ts('C59','distributivity_keeps_top','traversal_ends','all_gates_visited','all_candidates_handled','distributivity_assertions','absorption_complete','nothing_missed'),'The whole pass with traversal, searches, clones and rewriting; removal of pass-through gates afterwards as rules of C22 (without the wrong case of C22).')
c('C60','proved',ts('C60','loops_keep_top','joining_flag','joining_stops_when_done','joining_is_complete','joining_loop_ends','joining_depth','duplicates_are_equal','definitions_stop_when_done','definitions_depth','definitions_pass'),'Traversals, tests and flags as executable functions; removal of pass-through gates and the swap of arguments as the rules of C18 and C50 (without the wrong K/N case of C18).')
c('C61','proved',ts('C61','removal_ends','removal_complete','removal_keeps_top','removal_ok','trivial_ends','trivial_keeps_top','nontrivial_graph','trivial_graph'),'The recursion of RemoveNullGates and IsTrivial, with any choice of the next parent; the wrong K/N join of C18 is done as in the code and recorded by a flag.')
c('C62','partial',ts('C62','accepted_as_shown','signals_end','last_choice_wins','no_needless_changes','unchanged_partial','unchanged_fails'),'All claims are proved but the last one, which the code violates: settings that the dialog does not show are reset; unchanged_partial says exactly when an unchanged dialog keeps the settings.')
c('C63','proved',ts('C63','diagram_ends','each_gate_once','faithful','transfers','no_overlap','follows_model','removed_is_empty'),'Formulas as gui.rng allows them: one connective, no complemented arguments.')
c('C64','partial',ts('C64','accepted_iff','declared_exactly','names_exact','set_house_exact','marks_exact','warnings_exact','reported_is_unused_partial','unused_not_reported'),'All claims are proved but the last one, which the code violates: after edits everything that is listed is unused, but not everything that is unused is listed.')
c('C65','proved',ts('C65','pass_keeps_top','pass_ok','pass_result','pass_unchanged','pass_ends','runs_exist'),'Value of the top event unless the K/N duplicate case of C18 occurred; every order of nodes and parents.')
c('C66','proved',ts('C66','passes_keep_top','bdd_products_exact','zbdd_products_exact','mocus_products_exact','probability_exact','optimization_settles','exAnalyzed'),'Whole passes as functions of the graph, in any sequence, with the module flags. Non-coherent models with the BDD algorithm: see C43.')
c('C67','proved',ts('C67','got_iff','tree_total','tree_shows','tree_sequence_fails','productRows_eq','contributions_sum','contribution_bounds','table_total','product_cells','importance_cells','memberText_inj','session_ok','session_total','run_stays','change_clears','activate_opens'),'Numbers are elements of a field, not doubles; what the analyses compute is the subject of other properties.')
c('C68','partial',ts('C68','context_cleared','value_computed','value_exact_partial','value_certain','frequencies_sum','test_ignored','certain_dropped','full_statement_false'),'The code violates the full statement: tests of functional events in collected expressions are always false, and paths without expressions are dropped next to paths with expressions. Proved for all other trees; what the code computes is proved for all trees whose paths to the sequence collect expressions.')
c('C69','partial',ts('C69','autosave_in_effect','entered_stored','stored_stays','limit_at_launch','limit_in_effect_partial','recent_after_open','recent_after_recent','recent_sound','recent_restart','language_shown','undo_limit_ignored','full_undo_false'),'Everything for all histories but the undo limit: it is in effect if set only while there is nothing to undo; the code ignores it otherwise until the next start (undo_limit_ignored).')
c('C70','proved',ts('C70','importance_exact','importance_given','importance_partial','bdd_bounds','zbdd_bounds','mocus_bounds','zbdd_mcub_importance','listing_exists'),'End to end. importance_partial is the extra result for non-coherent models (the claim is about coherent ones): right but for the sign, which the code gets wrong (C14).')
c('C71','proved',ts('C71','prime_implicants_exact','prime_implicants_coherent','product_inj'),'End to end, for coherent and non-coherent models; modules that are constant are excluded by an assertion of the code (hypothesis ModulesVary; not needed for coherent models).')
c('C72','proved',ts('C72','curve_exact','samples_exact','samples_mcub'),'End to end: the curve over time and the Monte Carlo samples in terms of the basic events of the model, for all sequences of preprocessing passes. Exact arithmetic; the expressions are clean at the start (C33).')
c('C73','proved',ts('C73','always','processed','overflow','stays_bare'),'All histories of the zoom of all diagrams, nested signals included. Qt hides a tab before it shows the next one, and ends an edit when the focus leaves the box (assumed). Levels within int; overflow shows that the code does not ensure it.')
c('C74','partial',ts('C74','prints_visible','bar_shows_filter','filters','removes_selected','remove_enabled_partial','shown_is_calm','assertion_reachable','not_removable'),'All clauses are proved for all histories but the last, which the code violates: the connections of the selections are not cut when a tab is hidden, so changes of the model behind a hidden table enable the action without a selection (choosing it shows "Assertion Failure") or disable it with one. Proved as long as only the visible tab changes its selection, and again after each visit of a table.')
c('C75','proved',ts('C75','encode_injective','encode_small','extractor_exact','interfaces','define_iff','called_as_declared','value_defined','file_in_directory','pathOk_iff','library_found','fraction_dropped'),'Real numbers; a number outside of int is undefined. The fraction of a number for an int is dropped without a message (fraction_dropped).')
c('C76','partial',ts('C76','always_fine','addAttribute_exact','setAttribute_exact','removeAttribute_exact','nearest','chain_exists','add_exact','remove_exact','container_exact_partial','rename_forgets_tree','remove_forgets','flavor_exact','setFlavor_partial','flavor_not_saved'),'Inheritance holds if elements enter only one container and keep their names; renamed in the editor a gate forgets its fault tree (rename_forgets_tree), as does an element that leaves the other container (remove_forgets). The shown flavor is that of the model except for basic over an inherited flavor (flavor_not_saved).')
c('C77','partial',ts('C77','status_zero_iff','information','failure_reported','files_kept','report_there_partial','validate_only','report_lost','level_unchecked'),'The report is complete if what fclose has to write gets to the disk; otherwise it is lost with status 0 (report_lost). Loading, analysis and the text of the report are parameters.')
c('C78','proved',ts('C78','value_exact','deeper','allOf_exact','build_exact','switch_exact','unary_exact','trigonometric_exact','binary_exact','several_exact'),'Real numbers (no rounding, NaN or infinities). Random deviates, event-tree tests and extern functions are in C46, C68, C75. The failure models other than the exponential are those of C34.')
