{"id": "C01", "title": "BDD construction is exact", "statement": "For every fault-tree graph (any nesting of AND/OR gates with complemented arguments, shared sub-graphs and module gates) and every truth assignment to the basic events, evaluating the binary decision diagram that the analysis builds gives exactly the value of the graph's top event; this holds whatever collisions, evictions and clean-ups happen in the computation caches.", "quantifier": "all graphs, all variable orders, all assignments, all cache sizes and hash functions, all unique-table clean-up schedules", "why_tests_cant": "The number of graphs, orders and cache collision patterns is unbounded; a unit test fixes one graph and one hash layout.", "anchors": ["src/bdd.cc: Bdd::Bdd, Bdd::ConvertGraph, Bdd::Apply<kAnd>, Bdd::Apply<kOr>, Bdd::FindOrAddVertex", "src/bdd.h: Bdd, Ite, ComputeTable"]}
{"id": "C02", "title": "BDD results are canonical", "statement": "Two Boolean functions built in the same decision-diagram manager are semantically equal if and only if they are represented by the same root vertex identifier and complement flag; in particular the analysis reports a constant (always/never failing) top event exactly when the top event really is a tautology/contradiction.", "quantifier": "all pairs of functions, all operation histories of the manager", "why_tests_cant": "Canonicity is a statement over all pairs of functions reachable by any history; a test compares a few.", "anchors": ["src/bdd.cc: Bdd::FindOrAddVertex, Bdd::Apply", "src/bdd.h: UniqueTable"]}
{"id": "C03", "title": "Hash-consing tables never duplicate or confuse live vertices", "statement": "For every interleaving of vertex creation, release of the last reference, table growth and rehashing, the unique table returns an existing live vertex if and only if one with the same variable, high and low branches exists, never returns an expired vertex, and never gives two different live vertices the same identifier.", "quantifier": "all histories of create/hold/release/rehash operations, all hash functions, all table capacities", "why_tests_cant": "Depends on the order in which reference counts drop relative to rehashes and collisions; histories are unbounded.", "anchors": ["src/bdd.h: UniqueTable, UniqueTable::FindOrAdd, UniqueTable::Rehash, WeakIntrusivePtr", "src/bdd.cc: Bdd::FindOrAddVertex"]}
{"id": "C04", "title": "Computation caches only return what was stored for the same key", "statement": "A lookup in a computation cache returns either nothing or the value most recently stored for exactly that key since the last clear; growth of the table and collisions may forget entries but never return another key's value.", "quantifier": "all histories of insert/lookup/clear/reserve, all hash functions and sizes", "why_tests_cant": "A lossy direct-mapped cache has exponentially many eviction histories.", "anchors": ["src/bdd.h: CacheTable"]}
{"id": "C05", "title": "Minimal cut sets are exact", "statement": "For a coherent fault tree the set of products reported with no order limit is exactly the set of minimal cut sets of the top event: every reported product makes the top event occur, no proper subset does, and every minimal cut set is reported.", "quantifier": "all coherent Boolean functions, all variable orders", "why_tests_cant": "Missing or non-minimal cut sets show only on particular overlap patterns; all Boolean functions must be covered.", "anchors": ["src/zbdd.cc: Zbdd::ConvertBdd, Zbdd::Minimize, Zbdd::Subsume, Zbdd::GetReducedVertex"]}
{"id": "C06", "title": "Order limit cuts exactly the longer cut sets", "statement": "With a product order limit L the analysis reports exactly those minimal cut sets that have at most L events: truncation never loses a short minimal cut set, and never reports a set that is not minimal because its proper subset was truncated.", "quantifier": "all functions, all limits", "why_tests_cant": "Truncation is done inside recursive operations; losing a short set requires particular nesting.", "anchors": ["src/zbdd.cc: Zbdd::ConvertBdd, Zbdd::Prune, Zbdd::Apply", "src/zbdd.h: Zbdd::const_iterator"]}
{"id": "C07", "title": "Prime implicants are exact", "statement": "With prime implicants requested, the reported products (over events and complements) are exactly the prime implicants of the top event, coherent or not.", "quantifier": "all Boolean functions, all variable orders", "why_tests_cant": "Requires reasoning over all consensus combinations.", "anchors": ["src/zbdd.cc: Zbdd::ConvertBddPrimeImplicants", "src/bdd.cc: Bdd::CalculateConsensus"]}
{"id": "C08", "title": "Set-family operations of the ZBDD engine are exact", "statement": "The set-algebra operations used by the ZBDD and MOCUS engines (union, product, minimization, subsumption, pruning) produce exactly the family of sets that the corresponding operation on families defines, up to absorption by smaller members.", "quantifier": "all pairs of families, all order limits", "why_tests_cant": "Recursive double-diagram operations with many order cases; unbounded diagrams.", "anchors": ["src/zbdd.cc: Zbdd::Apply, Zbdd::Minimize, Zbdd::Subsume, Zbdd::Prune, Zbdd::GetReducedVertex"]}
{"id": "C09", "title": "All three algorithms agree", "statement": "For coherent fault trees, the BDD, ZBDD and MOCUS algorithms report the same set of minimal cut sets. For non-coherent ones the ZBDD and MOCUS algorithms still report exactly the minimal cut sets within the limit, and the BDD algorithm (without prime implicants) reports a subset of them with all the ones below the limit.", "quantifier": "all graphs without complemented gates (what the preprocessor hands over), all orders, all limits", "why_tests_cant": "Agreement must hold for every graph; tests compare a handful of benchmark models.", "anchors": ["src/bdd.cc", "src/zbdd.cc: Zbdd::ConvertGraph", "src/mocus.cc: Mocus::Analyze, Mocus::AnalyzeModule"]}
{"id": "C10", "title": "Product listing is complete, duplicate-free and consistently counted", "statement": "Iterating the result yields every product of the result exactly once, the reported number of products equals the length of that listing, and the per-order distribution adds up to the number of products.", "quantifier": "all results, all order limits", "why_tests_cant": "Iteration is a stateful backtracking walk; any diagram shape with nested modules can occur.", "anchors": ["src/zbdd.h: Zbdd::const_iterator", "src/zbdd.cc: Zbdd::CountProducts", "src/fault_tree_analysis.cc: ProductContainer"]}
{"id": "C11", "title": "Exact probability", "statement": "The probability computed from the BDD equals the probability of the top event under independent basic events, i.e. the sum of the weights of all assignments satisfying it, including with complement edges and modules.", "quantifier": "all Boolean functions, all probability vectors, all orders", "why_tests_cant": "Numeric identity over all functions and all real probabilities.", "anchors": ["src/probability_analysis.cc: ProbabilityAnalyzer<Bdd>::CalculateProbability"]}
{"id": "C12", "title": "Probabilities stay within [0,1]", "statement": "If every basic-event probability is in [0,1] then the exact, rare-event and min-cut-upper-bound results, and every product probability, are in [0,1].", "quantifier": "all functions/product lists and probability vectors", "why_tests_cant": "Range invariants over reals cannot be exhausted.", "anchors": ["src/probability_analysis.cc: CutSetProbabilityCalculator, RareEventCalculator, McubCalculator, ProbabilityAnalyzer<Bdd>"]}
{"id": "C13", "title": "Approximations are conservative", "statement": "For coherent models the exact probability is at most the min-cut-upper-bound, which is at most the rare-event approximation; so switching to an approximation never under-reports risk.", "quantifier": "all coherent functions, all probability vectors", "why_tests_cant": "An inequality over all monotone functions and reals (needs positive correlation).", "anchors": ["src/probability_analysis.cc: RareEventCalculator::Calculate, McubCalculator::Calculate"]}
{"id": "C14", "title": "Importance factors mean what they say", "statement": "The marginal importance factor of an event equals P(top | event occurs) - P(top | event does not occur), computed on a diagram with complement edges and shared modules; critical, diagnosis, achievement and reduction factors are the standard functions of it.", "quantifier": "all functions, events, probabilities", "why_tests_cant": "Computed by a separate diagram walk; must agree with conditional probabilities on all diagrams.", "anchors": ["src/importance_analysis.cc: ImportanceAnalyzer<Bdd>::CalculateMif, ImportanceAnalysis::Analyze"]}
{"id": "C15", "title": "Occurrence counts in importance analysis are right", "statement": "Importance analysis reports exactly the events that appear in the products, and the occurrence number of an event is the number of products that contain it (positively or complemented).", "quantifier": "all product lists", "why_tests_cant": "Unbounded product lists.", "anchors": ["src/importance_analysis.cc: ImportanceAnalyzer<Calculator>::occurrences", "src/importance_analysis.h"]}
{"id": "C16", "title": "Safety-integrity-level figures are consistent averages", "statement": "The reported PFD average is the time-weighted average of the piecewise-linear probability curve, so it lies between the curve's minimum and maximum, and the reported SIL histogram fractions sum to one for curves inside [0,1].", "quantifier": "all time grids and probability curves", "why_tests_cant": "Continuous inputs; boundary coincidences are missed by samples.", "anchors": ["src/probability_analysis.cc: Integrate, AverageY, PartitionY, ProbabilityAnalysis::ComputeSil"]}
{"id": "C17", "title": "Mission time grid is complete", "statement": "The probability-over-time result has a point at time 0 and at the mission time, strictly increasing times spaced by the time step, and at each time the value computed with that mission time; the mission time is restored afterwards.", "quantifier": "all mission times and steps", "why_tests_cant": "Unbounded mission/step ratios.", "anchors": ["src/probability_analysis.cc: ProbabilityAnalyzerBase / ProbabilityAnalyzer::CalculateProbabilityOverTime"]}
{"id": "C18", "title": "Duplicate, complementary and constant arguments are simplified soundly", "statement": "Adding arguments to a gate one by one (including repeated, complemented and house-event arguments) for every connective, including K-out-of-N, leaves a gate that computes the same function as the connective applied to the raw list of arguments.", "quantifier": "all connectives, all argument lists, all K", "why_tests_cant": "Special cases interact (repeated K/N arguments); unbounded lists.", "anchors": ["src/pdag.cc: Gate::AddArg, Gate::ProcessDuplicateArg, Gate::ProcessAtleastGateDuplicateArg, Gate::ProcessComplementArg, Gate::AddConstantArg, Gate::RemoveConstantArg"]}
{"id": "C19", "title": "Model formulas are translated to the analysis graph faithfully", "statement": "For every formula of the input language (and, or, not, null, xor, iff, imply, nand, nor, atleast, cardinality, constants and house events), the graph built for analysis evaluates to the same value as the formula.", "quantifier": "all formulas and assignments", "why_tests_cant": "Unbounded nesting of connectives.", "anchors": ["src/pdag.cc: Pdag::ConstructGate, Pdag::ConstructComplexGate, Pdag::AddArg"]}
{"id": "C20", "title": "Normalization keeps the top event", "statement": "Rewriting XOR, NAND, NOR, NOT and K-out-of-N gates to AND/OR form does not change the top event's function.", "quantifier": "all graphs, all K and N", "why_tests_cant": "Unbounded N and nesting.", "anchors": ["src/preprocessor.cc: Preprocessor::NormalizeGates, NormalizeXorGate, NormalizeAtleastGate, NotifyParentsOfNegativeGates"]}
{"id": "C21", "title": "Complement propagation keeps the top event and leaves no complemented gate", "statement": "Pushing complements to the leaves (duplicating shared gates where needed) does not change the function and every remaining complement is on a variable.", "quantifier": "all AND/OR graphs", "why_tests_cant": "Shared gates with both polarities; unbounded depth.", "anchors": ["src/preprocessor.cc: Preprocessor::PropagateComplements"]}
{"id": "C22", "title": "Gate merging rewrites keep the top event", "statement": "Coalescing gates, removing duplicate gates, factoring common arguments, absorption/distributivity and pass-through/constant gate removal each preserve the top event's function.", "quantifier": "all graphs", "why_tests_cant": "Rewrites mutate shared structure; unbounded graphs.", "anchors": ["src/preprocessor.cc: CoalesceGates, ProcessMultipleDefinitions, MergeCommonArgs, DetectDistributivity", "src/pdag.cc: Gate::CoalesceGate, Gate::JoinNullGate, Pdag::RemoveNullGates"]}
{"id": "C23", "title": "Detected modules are independent", "statement": "Every gate marked as a module shares no variable or gate with the rest of the graph outside it, so analysing it separately is sound.", "quantifier": "all graphs", "why_tests_cant": "A single shared variable in an unusual place breaks it; all DAGs must be covered.", "anchors": ["src/preprocessor.cc: Preprocessor::DetectModules, AssignTiming, FindModules, CreateNewModule, FilterModularArgs, GroupModularArgs"]}
{"id": "C24", "title": "Failure propagation simplification is sound", "statement": "Replacing shared nodes based on propagated failure/success states (Boolean optimization) and on conditioning in ancestors (decomposition) preserves the top event's function.", "quantifier": "all graphs, all common nodes", "why_tests_cant": "Depends on global ancestor/descendant structure.", "anchors": ["src/preprocessor.cc: BooleanOptimization, PropagateState, DetermineGateState, DecomposeCommonNodes"]}
{"id": "C25", "title": "Common-cause models conserve probability", "statement": "For beta-factor, MGL and alpha-factor common cause groups, the sum over all common-cause events that contain a given member equals the group's total probability Q; all event probabilities are non-negative and at most Q for factors in [0,1].", "quantifier": "all group sizes, factor vectors, Q", "why_tests_cant": "Algebraic identity over all n and real factors.", "anchors": ["src/ccf_group.cc: BetaFactorModel, MglModel, AlphaFactorModel, PhiFactorModel::CalculateProbabilities"]}
{"id": "C26", "title": "Common-cause expansion enumerates every combination once", "statement": "Applying an accepted common cause group creates exactly one new event per non-empty allowed-size subset of the members, and each member is replaced by a gate that occurs iff some created event containing it occurs; the only accepted groups whose application raises an error are alpha- and phi-factor groups with a single level.", "quantifier": "all group sizes and levels", "why_tests_cant": "Combination enumeration over arbitrary n,k with in-place permutation.", "anchors": ["src/ccf_group.cc: CcfGroup::ApplyModel", "src/ext/combination.h: for_each_combination"]}
{"id": "C27", "title": "Common-cause group validation", "statement": "A group accepted by validation has at least two members, a distribution, factors levels consecutive from the model's first level and at most the number of members, and factor values in the allowed range; ill-formed sequences of operations are rejected with an error and leave the group unchanged.", "quantifier": "all sequences of AddMember/AddDistribution/AddFactor/Validate", "why_tests_cant": "Order-dependent state machine.", "anchors": ["src/ccf_group.cc: CcfGroup::AddMember, AddDistribution, AddFactor, Validate"]}
{"id": "C28", "title": "Cycle detection is sound and complete", "statement": "Model validation reports a cycle if and only if the gates, expressions or event-tree links contain one; the reported path is a real cycle; and acyclic models are accepted and analysis recursion terminates on them.", "quantifier": "all finite graphs", "why_tests_cant": "All graphs and traversal orders.", "anchors": ["src/cycle.h: DetectCycle, ContinueConnector, CheckCycle", "src/cycle.cc"]}
{"id": "C29", "title": "Event-tree sequences cover exactly the paths", "statement": "The formula computed for a sequence is the disjunction over all paths of the event tree ending in that sequence (through links) of the conjunction of formulas collected on the path.", "quantifier": "all event trees, instructions and links", "why_tests_cant": "Unbounded branching and linking.", "anchors": ["src/event_tree_analysis.cc: EventTreeAnalysis::Analyze, CollectSequences, WalkBranch"]}
{"id": "C30", "title": "Settings stay consistent", "statement": "After any sequence of setting changes (including ones that raise errors), the settings satisfy: prime implicants only with the BDD algorithm and without approximation; safety-integrity levels only with a non-zero time step; importance, uncertainty and SIL analyses only with probability analysis; limits and seed non-negative, counts at least one, cut-off within [0,1], times not negative; and a rejected change leaves the settings unchanged.", "quantifier": "all sequences of setter calls", "why_tests_cant": "Setters have cross-effects depending on order.", "anchors": ["src/settings.cc: Settings::algorithm, approximation, prime_implicants, limit_order, cut_off, mission_time, time_step, num_trials, num_quantiles, num_bins, seed", "src/settings.h"]}
{"id": "C31", "title": "Analyses do not leak context changes into the model", "statement": "After analysing alignment phases and initiating events, every house event state and the mission time have the values they had before; failures do not leave partial changes.", "quantifier": "all phases and instruction lists", "why_tests_cant": "Depends on order and duplicates of state changes.", "anchors": ["src/risk_analysis.cc: RiskAnalysis::Analyze, RunAnalysis"]}
{"id": "C32", "title": "Expression intervals enclose values", "statement": "The interval that validation computes for an expression contains the expression's value for all sub-expression values inside their intervals, so that accepted probability expressions can never evaluate outside [0,1].", "quantifier": "all expression trees and values", "why_tests_cant": "Continuous domains.", "anchors": ["src/expression.h: Expression::interval", "src/expression/numerical.h", "src/expression/conditional.h", "src/expression.cc: EnsureProbability, EnsureWithin"]}
{"id": "C33", "title": "Sampling is consistent within a trial and fresh across trials", "statement": "Within one Monte Carlo trial every occurrence of the same expression yields the same value, a reset before the next trial reaches every expression sampled in the previous trial, and a non-deviate expression samples to its deterministic value.", "quantifier": "all expression DAGs, all sample/reset schedules", "why_tests_cant": "Memoised flags on shared DAG; reset stops early.", "anchors": ["src/expression.cc: Expression::Sample, Expression::Reset", "src/uncertainty_analysis.cc: UncertaintyAnalyzer::Sample, SampleExpressions"]}
{"id": "C34", "title": "Built-in failure models return probabilities", "statement": "The exponential, GLM, Weibull and periodic-test expressions evaluate to a number in [0,1] for every parameter vector that validation accepts, and exponential/Weibull are nondecreasing in mission time.", "quantifier": "all real parameters accepted by validation", "why_tests_cant": "Continuous parameters.", "anchors": ["src/expression/exponential.cc: Exponential, Glm, Weibull, PeriodicTest"]}
{"id": "C35", "title": "Formula validation accepts exactly well-formed formulas", "statement": "A formula can be constructed iff its connective has a legal number of arguments, no argument is repeated, and atleast/cardinality bounds are legal for the number of arguments; otherwise an error is raised.", "quantifier": "all connectives, argument lists, bounds", "why_tests_cant": "Unbounded argument counts and numbers.", "anchors": ["src/event.cc: Formula::Formula, Formula::ArgSet::Add, Formula::ValidateMinMaxNumber, Formula::ValidateConnective"]}
{"id": "C36", "title": "Top events of a fault tree are exactly the unreferenced gates", "statement": "The collected top events of a fault tree are exactly the gates of the tree (including its components) that are not referenced by any other gate of the tree; in an acyclic non-empty tree there is at least one.", "quantifier": "all fault trees", "why_tests_cant": "All reference graphs.", "anchors": ["src/fault_tree.cc: FaultTree::CollectTopEvents, MarkNonTopGates"]}
{"id": "C37", "title": "Substitutions are applied as implications", "statement": "Non-declarative substitutions rewrite each product that satisfies the hypothesis by the target event, and declarative substitutions constrain the top event by the hypothesis-implies-target formula.", "quantifier": "all hypothesis formulas, products", "why_tests_cant": "Combinatorial hypotheses.", "anchors": ["src/zbdd.cc: Zbdd::ApplySubstitutions", "src/substitution.cc", "src/pdag.cc: Pdag::ConstructSubstitution"]}
{"id": "C38", "title": "Linear map behaves as a map", "statement": "After any sequence of insertions, erasures, lookups and swaps, the vector-backed map and set behave exactly like an abstract finite map/set (no duplicated keys, lookups return the last stored value, size is exact).", "quantifier": "all operation histories, both eraser policies", "why_tests_cant": "Unbounded histories; swap-with-last erasure perturbs positions.", "anchors": ["src/ext/linear_map.h", "src/ext/linear_set.h"]}
{"id": "C39", "title": "Element identity", "statement": "Public element names contain no dots and are valid identifiers, private elements are identified by full path, and two distinct elements accepted by the model never have the same identifier; redefinitions are rejected.", "quantifier": "all names, base paths, roles", "why_tests_cant": "Unbounded strings.", "anchors": ["src/element.cc: Element, Role, Id::MakePath, GetUniqueName", "src/model.cc: Model::Add"]}
{"id": "C40", "title": "Uncertainty statistics are well-formed", "statement": "Every Monte-Carlo sample of the total probability is in [0,1] even when sampled event probabilities fall outside, and the number of samples equals the number of trials.", "quantifier": "all samplers", "why_tests_cant": "Random inputs.", "anchors": ["src/uncertainty_analysis.cc: UncertaintyAnalyzer::Sample, UncertaintyAnalysis::SampleExpressions"]}
{"id": "C41", "title": "No setting change terminates the program", "statement": "Every call of a setting function on reachable settings returns normally or raises a settings error that the caller can catch; no change of settings aborts the program.", "quantifier": "all sequences of setting changes", "why_tests_cant": "The failing combination depends on the history of earlier changes; the space of histories is unbounded.", "anchors": ["src/settings.cc: Settings::algorithm, Settings::approximation, Settings::prime_implicants", "src/settings.h: Settings"]}
{"id": "C42", "title": "References resolve to the element in the nearest scope", "statement": "In an accepted model, a reference used in a container denotes the element with that (relative) path in the container if there is one, otherwise the public element of that name or the element with that full path; exactly one element can qualify, and elements can be referenced by name from their own container.", "quantifier": "all accepted models, containers and references", "why_tests_cant": "Unbounded nesting of containers and arbitrary strings; shadowing interacts with roles.", "anchors": ["src/initializer.cc: Initializer::GetEntity, Initializer::GetEvent, Initializer::Register, Initializer::ProcessCcfMembers", "src/element.h: Id, GetFullPath"]}
{"id": "C43", "title": "Results refer to the model whatever the preprocessing does", "statement": "For every acyclic validated model and every run of the preprocessor - any sequence of its passes on any candidates (except the wrong K/N case of C18), any traversal order - the graph handed to the algorithms meets what they assume (independent flagged modules, topological order, several arguments, right coherence mark), its value is the one of the top formula, the products reported by the BDD, ZBDD and MOCUS algorithms are exactly the minimal cut sets of the formula in terms of basic events (ZBDD and MOCUS: all models; BDD: coherent models, and sound and complete below the limit for non-coherent ones), and the exact probability is the one of the formula.", "quantifier": "all models, top formulas, sequences of preprocessing passes, choices of candidates, orders, limits, probabilities", "why_tests_cant": "The passes interact: each one relies on module flags and indices left by all earlier ones; the number of sequences and graphs is unbounded.", "anchors": ["src/preprocessor.cc: Preprocessor::Run, RunPhaseOne..RunPhaseFive, CustomPreprocessor, MarkCoherence, TopologicalOrder, InvertOrder", "src/pdag.cc: Pdag::Pdag, Pdag::IsTrivial, Pdag::RemoveNullGates", "src/bdd.cc: Bdd::Bdd", "src/zbdd.cc: Zbdd::Zbdd", "src/mocus.cc: Mocus::Analyze"]}
{"id": "C44", "title": "XML output is well-formed and carries the data in every history", "statement": "Whatever calls are made on an XML stream and its elements, in any order, with errors caught in between and with the work cut short by an exception anywhere: a call is accepted exactly if it is in order (one root; attributes before content; text or children, not both; only the innermost live element), a rejected call writes nothing, and once the live elements are destroyed the file holds one well-formed document whose elements, attributes and texts are exactly those of the accepted calls (names being XML names, no duplicate attributes, no control characters, no newlines in attributes, no ]]> in texts). Numbers are decimal and fit their buffer, indentation is bounded.", "quantifier": "all finite histories of root/SetAttribute/AddText/AddChild/destructor calls, all names and values, every point of interruption", "why_tests_cant": "Well-formedness depends on the whole history of calls and on every character of every value; exceptions may unwind the elements at any point.", "anchors": ["src/xml_stream.h: Stream, StreamElement::SetAttribute, StreamElement::AddText, StreamElement::AddChild, StreamElement::~StreamElement, StreamElement::PutValue, detail::Indenter, detail::FileStream::write"]}
{"id": "C45", "title": "The report states the results", "statement": "For every set of analysis results the reporter's calls on the XML stream all succeed, and the report file is one XML document whose result section holds exactly the results: per target one sum-of-products element with one product element per product in order, one entry per literal (complemented iff negative; CCF events with all members), its order (unity counts as 1), its probability (the product over its literals) and its share of the sum; the header counts (number of products, events occurring in products, distribution by order) are those of the product list and the distribution adds up to the number of products; curves, SIL histograms, importance records, quantiles and histograms are complete, numbered from one, and contiguous; event-tree sequences with their values. Shares add up to one.", "quantifier": "all analysis results (any number of targets, products, literals, records, bins), with or without each optional analysis, any printed form of numbers, indentation on or off", "why_tests_cant": "The report is written by nested loops over results of unbounded size; a lost, duplicated or misnumbered element shows only for particular shapes of results.", "anchors": ["src/reporter.cc: Reporter::Report, Reporter::ReportResults, ReportBasicEvent, ReportLiteral, PutId", "src/fault_tree_analysis.cc: ProductContainer::ProductContainer", "src/fault_tree_analysis.h: Product::order, Product::p, LiteralExtractor"]}
{"id": "C46", "title": "The point value of a random deviate is the mean of its samples", "statement": "For every accepted random deviate (uniform, normal, lognormal in both parametrisations, gamma, beta, histogram; confidence level not one half, histogram not without weight) the samples drawn in uncertainty analysis have a distribution with a finite mean, and that mean is the value used by every analysis without sampling. A lognormal deviate given by mean, error factor and level has a median such that samples are below median*EF and above median/EF with the level's probability. Samples and means of uniform and histogram deviates are in the interval used for validation; normal deviates are in it with at least 99.9%, lognormal deviates (level above one half) with at least 98%.", "quantifier": "all real parameter values accepted by the validation, any number of histogram bins", "why_tests_cant": "Equality of a mean and a closed formula over a continuum of parameters is a statement about integrals; sampling tests see only noise around it, and only for a few parameters.", "anchors": ["src/expression/random_deviate.cc: LognormalDeviate::Logarithmic::scale, location, Normal::mean, Histogram::value, DoSample, Validate, interval", "src/expression/random_deviate.h: value, interval"]}
{"id": "C47", "title": "A saved model loads as the same model", "statement": "Saving a model that consists of fault trees, gates with null/not/and/or/nand/nor/xor/atleast formulas over events of the model, basic events with constant or exponential expressions (or none) and house events, all public and with valid names, one-line trimmed labels and values, succeeds in builds with and without assertions and writes the same calls, none of which the XML stream refuses. The file is one XML document, conforms to the input schema, and loading it gives a model with the same fault trees, gates, formulas (connective, minimum, arguments with complements and kinds of events), basic events, house events, states, labels and attributes; only numbers are rounded by printing, and basic and house events are outside of fault trees. With numbers that survive printing the loaded model is the saved one, and saving a loaded model writes the same file again.", "quantifier": "all models of the supported constructs (any number of trees, gates, arguments, nesting of expressions, attributes), any printing and reading of doubles that are inverse up to rounding, debug and release builds, indentation on or off", "why_tests_cant": "The round trip composes a writer, an escaping stream, a schema, a reader, a registry of names and a reference resolver over models of unbounded size; tests compare a few saved files.", "anchors": ["src/serialization.cc: Serialize (all overloads), SerializeElement, SerializeLabelAndAttributes", "src/initializer.cc: AttachLabelAndAttributes, GetNonAttributeElements, ProcessInputFile, Register, Define, DefineFaultTree, ProcessModelData, GetFormula, GetExpression, GetEvent", "src/xml.h: Element::attribute, Element::text, detail::to", "share/input.rng"]}
{"id": "C48", "title": "Accepted event trees are fit for the analysis", "statement": "If the checks of event trees accept a model, then on every way through each of its event trees (through forks and named branches) the functional events have strictly increasing orders, so none occurs twice; links to other event trees are only in end sequences; and an event tree together with all that it links to collects only formulas or only expressions on all of its paths, so the analysis' assertion that a sequence never has both holds, and the exactness results of the event-tree analysis apply to every accepted tree. The checks reject no tree whose functional events are in order on every way, that has links in end sequences only, or that collects only one kind.", "quantifier": "all sets of event trees of any depth and width with named branches, links, nested blocks, rules and conditional instructions", "why_tests_cant": "The checks walk recursively over trees of unbounded size and must together imply what a separate recursive analysis assumes; tests show a few rejected files.", "anchors": ["src/initializer.cc: ValidateInitialization, CheckFunctionalEventOrder, EnsureLinksOnlyInSequences, EnsureHomogeneousEventTree", "src/event_tree_analysis.cc: Analyze", "src/instruction.h: NullVisitor"]}
{"id": "C49", "title": "A risk analysis answers every target once in every context, independently of the others", "statement": "The results of a risk analysis are, in order: for each context (every phase of every alignment, or a single run without context if there are no alignments), one result for every sequence of the event tree of every initiating event that has one, then one for every top event of every fault tree. Each result equals what the fault tree, probability, importance and uncertainty analyses give for that gate alone on the model as the context asks for it (house events, fraction of the mission time), whatever was analysed before; only sampling is handed on from one uncertainty analysis to the next, starting from the seed of the settings. Exactly the requested analyses are present (sequences of expressions only have neither fault tree nor importance analysis), the probability of every sequence is that of its gate, identifiers of results are unique, the model is unchanged afterwards, and the results do not depend on the earlier state of the generator.", "quantifier": "all models (any numbers of alignments, phases, initiating events, sequences, fault trees), all consistent settings, all single analyses as functions of what they read", "why_tests_cant": "The claim is about all combinations of targets, contexts and settings and about the absence of interference between analyses that share one mutable model; tests look at single results.", "anchors": ["src/risk_analysis.cc: RiskAnalysis::Analyze, RunAnalysis (all overloads)", "src/risk_analysis.h: Result, EtaResult", "src/probability_analysis.cc: CalculateProbabilityOverTime"]}
{"id": "C50", "title": "Preprocessing always comes to an end", "statement": "On every fault tree graph the repeated passes of the preprocessor stop after finitely many rounds: removing pass-through gates, joining gates of the same type into their parents and merging gates with the same definition cannot go on for ever, in whatever order gates and parents are taken and however often passes create new gates; when they stop, nothing is left to remove.", "quantifier": "all graphs, all orders of gates, parents and hash tables, all mixtures of the steps", "why_tests_cant": "Termination is about all graphs and all orders; a K/N gate that meets the same argument twice creates up to three new gates, so the graph can grow while it is simplified.", "anchors": ["src/preprocessor.cc: RunPhaseTwo, RunPhaseFive, CoalesceGates, ProcessMultipleDefinitions, ReplaceGate", "src/pdag.cc: Pdag::RemoveNullGates, Pdag::PropagateNullGate, Gate::JoinNullGate, Gate::CoalesceGate, Gate::ProcessAtleastGateDuplicateArg"]}
{"id": "C51", "title": "The settings of a run are what the project file and the command line ask for", "statement": "The program reads the options of the project file, if there is one, and then those of the command line. The run starts exactly if all values are legal and the combination makes sense (prime implicants only with BDD and without approximation, SIL only with a time step), and then every setting has the value that the command line gives, otherwise that of the project file, otherwise the default; the settings are consistent. The order of the limits in the project file plays no role, and no input makes the program abort.", "quantifier": "all project files, all command lines, all values of the options", "why_tests_cant": "Options interact (setters reset each other and some are refused depending on earlier ones), so the claim is about all combinations and orders of a dozen options with unbounded values.", "anchors": ["src/scram.cc: ParseArguments, ConstructSettings, RunScram", "src/project.cc: Project::GatherOptions, SetAnalysis, SetLimits", "src/settings.cc: Settings", "share/project.rng"]}
{"id": "C52", "title": "Undo and redo in the graphical editor retrace the model exactly", "statement": "In the graphical editor, after any sequence of edits (labels, names, expressions, flavors, states, formulas, changes of type, additions and removals of events and fault trees, single or grouped), undos and redos, the model is exactly the one that the history of models says: undo gives the very model before the last edit, redo the one after it, a new edit forgets what was undone, the undo limit forgets only the oldest. No undo or redo throws, and the model stays consistent: unique names, tables, proxies and fault trees agree, formulas refer to events of the model, no cycles.", "quantifier": "all consistent models, all sequences of legal commands, undos and redos of any length, all undo limits", "why_tests_cant": "The claim is about all histories; commands keep state between redo and undo (the object they own, the value they swap), so an error shows only in particular orders.", "anchors": ["gui/command.h: Involution, Inverse", "gui/model.h: Element::SetId, Model::AddEvent, Model::RemoveEvent, Model::ChangeEventType", "gui/model.cpp: SetLabel, SetExpression, SetFlavor, SetState, SetFormula, SetName, AddFaultTree, RemoveFaultTree", "src/event.cc: Formula::Swap", "src/element.h: Container::Add, Container::Remove"]}
{"id": "C53", "title": "Accepted dialogs of the editor do what they show and keep the model valid", "statement": "Whatever the user types into the event dialog, for a new or an existing event: the dialog answers every input (the check for cycles ends), and if it accepts, then all commands succeed, the model has an event with exactly the name, label, type and data that the dialog shows, undefined arguments exist as undeveloped events, every other event is as before (with the event's new name in formulas), and the model is consistent and without cycles. An event is removed unless it has parents or is the root of a fault tree with other gates. A dialog accepted without a change changes nothing. The saved model can be opened again.", "quantifier": "all consistent models, all sequences of inputs to the dialog, all events", "why_tests_cant": "Name, type and arguments interact (a renamed gate with itself as argument, an argument created on the way, a change of type under several parents); the claim ranges over all models and all input sequences.", "anchors": ["gui/eventdialog.cpp: EventDialog, validate, checkCycle, setupData", "gui/mainwindow.cpp: addElement, editElement, extract, removeEvent", "gui/validator.cpp", "gui/model.h: ChangeEventType", "share/gui.rng: Identifier"]}
{"id": "C54", "title": "Which inputs are accepted, and independence of the order of declarations and files", "statement": "An input (fault trees, components, gates, basic events, house events, parameters, CCF groups, in any number of files) is loaded exactly if it is legal: valid and unique names, every reference denotes a declared element of the right type and unit, every formula is well formed, no gate and no parameter depends on itself, and the numeric checks pass. The loaded model has exactly the declared elements, each with the definition that its declaration means. Changing the order of declarations at any level, or distributing them over other files, changes neither whether the input is accepted nor what is loaded.", "quantifier": "all documents: any nesting, sizes, names, roles, references, formulas, expressions; all rearrangements", "why_tests_cant": "Forward references, shadowing by local names, private names and duplicates interact in unboundedly many ways; order independence is a statement about all pairs of inputs.", "anchors": ["src/initializer.cc: ProcessInputFiles, ProcessInputFile, Register, RegisterFaultTreeData, ProcessTbdElements, Define, GetFormula, GetExpression, GetEntity, GetEvent, ValidateInitialization, ValidateExpressions", "src/model.h: Model::Add", "src/fault_tree.cc: Component::Add", "src/element.cc: Role"]}
{"id": "C55", "title": "Numbers, flags and versions in the files are read as what they stand for", "statement": "An integer, real or boolean attribute (or limit) of an input or project file is read as the value its text, stripped of spaces, stands for, or the file is refused: an integer is read iff its text writes one in the range of int; a real iff its text writes a decimal or hexadecimal number whose rounded value is finite, or not-a-number, and then it is that rounded value; a flag iff its text is true, false, 1 or 0. An attribute counts as missing only if it is missing or blank. A project file is refused for its version exactly if the version text is not of the form of a version or (numbers within int) is later than the program.", "quantifier": "all texts of attributes and limits, all rounding functions, all versions of file and program", "why_tests_cant": "The readers are scanners over unbounded texts that run behind the end of the view they are given; greedy scanning, saturation and trailing characters interact.", "anchors": ["src/xml.h: detail::to, detail::trim, Element::attribute, Element::text", "src/ext/version.cc: extract_version", "src/project.cc: Project::Project, SetLimits, SetAnalysis"]}
{"id": "C56", "title": "The tables and the tree of the model window show the model", "statement": "A table of gates, basic events or house events that was opened in the window, and the tree of the model, follow every session of editing, undoing and redoing through their notifications alone: at the end the table has exactly one row for every event of its type in the model with its current identifier, type, value and label, the tree lists the fault trees by name and shows the right numbers of elements, the title of the window is the name of the model, and no internal assertion fails on the way. The rows under a gate name its arguments.", "quantifier": "all sessions of commands, macros, undo and redo, all models, all three tables and the tree", "why_tests_cant": "A view is wrong only if some notification is missing or comes with wrong indices after a history of additions and removals that has permuted the rows; there are unboundedly many histories.", "anchors": ["gui/elementcontainermodel.cpp: ElementContainerModel::addElement, removeElement, connectElement, data", "gui/modeltree.cpp: ModelTree", "gui/model.h: signals, command classes"]}
{"id": "C57", "title": "Opening, saving and closing in the main window do not lose work", "statement": "In every session of the main window (editing, undo, redo, saving under the old or a new name, automatic saving, opening and adding files, creating a model, running the analysis, closing): whenever the window is not marked as modified, its files hold the model in it; the model is replaced or the window closed only if the user chose to discard the changes or the model is on the disk; a save that reports failure leaves the mark, the names and all files as they were; a crash at any point of a save leaves the old or the complete new content; a report that is shown belongs to the current model.", "quantifier": "all sessions, all answers of the user, all results of the system calls, all crash points of a save", "why_tests_cant": "Loss needs a particular interleaving of edits, undo, saves with failures and answers in dialogs; there are unboundedly many, and crash points cannot be enumerated by tests.", "anchors": ["gui/mainwindow.cpp: addInputFiles, createNewModel, openFiles, autoSave, saveModel, saveModelAs, saveToFile, closeEvent, resetReportTree", "src/serialization.cc: Serialize", "src/xml_stream.h: Stream"]}
{"id": "C58", "title": "Merging common arguments is safe as a whole pass", "statement": "The pass that factors common arguments of AND or OR gates into new gates, as it searches and rewrites (collecting candidate gates in a module, reusing gates whose arguments are contained in others, grouping candidates, choosing options and chains of options, making new gates), keeps the top event of the graph for every assignment; none of its assertions fails; its searches end; and no two candidates with at least two common arguments are missed.", "quantifier": "all graphs, all modules, all counts and choices that steer the search, all orders of unordered containers", "why_tests_cant": "A wrong pairing of candidates, options and rewritten gates shows only for particular overlaps of argument sets; the options, their order and their interaction over several rounds are combinatorial.", "anchors": ["src/preprocessor.cc: Preprocessor::MergeCommonArgs, GatherCommonArgs, FilterMergeCandidates, GroupCandidatesByArgs, GroupCommonParents, GroupCommonArgs, FindOptionGroup, TransformCommonArgs"]}
{"id": "C59", "title": "Distributivity is safe as a whole pass", "statement": "The pass that takes common arguments out of the argument gates of AND/OR/NAND/NOR gates, as it traverses, searches and rewrites (collecting candidates, absorbing those that share an argument with the gate and those that contain another one, choosing options and chains of options, cloning shared gates, making new gates), keeps the top event of the graph for every assignment; none of its assertions fails, in particular each rewritten gate has a single living parent and keeps an argument; the traversal ends; every absorbable candidate is absorbed and two remaining candidates with a common argument are always rewritten.", "quantifier": "all graphs, all flags of modules, all choices that steer the search, all orders of unordered containers and unstable sorts", "why_tests_cant": "Rewriting a gate in place is only right if no other living gate uses it at that moment; whether that holds depends on all earlier clones and rewrites in the traversal.", "anchors": ["src/preprocessor.cc: Preprocessor::DetectDistributivity, HandleDistributiveArgs, FilterDistributiveArgs, GroupDistributiveArgs, TransformDistributiveArgs"]}
{"id": "C60", "title": "The loops that join gates and remove duplicate definitions stop only when nothing is left to do", "statement": "Joining nested gates of the same kind and replacing gates with equal definitions, as the preprocessor repeats them until a pass reports no change, keep the top event for every assignment. A joining pass that reports a change has joined a gate; one that reports none has left the graph as it was, and then no gate below the root has an argument that could be joined. If shared gates are joined too, a single pass is enough. The duplicates that are found are equal gates below the root, never the root or a gate that stands for others, and if none are found no two gates below the root (other than modules) have equal definitions. The loops end.", "quantifier": "all graphs, all flags of modules, all tests of shared gates, all orders in which parents get the originals and pass-through gates are removed", "why_tests_cant": "A pass marks gates and changes arguments while it walks over shared gates, so that a gate may be looked at before another one below it changes; whether the reported flag is right depends on the whole graph and its history.", "anchors": ["src/preprocessor.cc: Preprocessor::CoalesceGates, ProcessMultipleDefinitions, DetectMultipleDefinitions, GateSet, ReplaceGate"]}
{"id": "C61", "title": "Pass-through gates are removed completely, and a trivial graph is recognized", "statement": "When the preprocessor removes pass-through gates, it takes the registered ones and joins each into its parents; a parent that becomes a pass-through gate by that, or by a constant that spreads, is removed at once. For every graph this ends, whatever parent is taken next; if all pass-through gates with parents were registered, then afterwards no gate below the root has a pass-through gate or a constant as argument, except that the root itself may be a pass-through gate over one node. The top event is kept for every assignment, unless a K/N gate meets the case recorded under C18. The test for a trivial graph keeps the top event; if it answers no, the root is a proper gate, nothing refers to it, and no pass-through gates or constants are left; if it answers yes, the graph is a single variable or constant and is not complemented.", "quantifier": "all graphs, all registrations, all orders in which the parents of a gate are taken", "why_tests_cant": "One join can make the parent a pass-through gate, add gates, or spread a constant upwards through shared gates while the removal is still going through the parents of the gate; registration is switched off meanwhile, so nothing that is missed is ever looked at again.", "anchors": ["src/pdag.cc: Pdag::RemoveNullGates, Pdag::PropagateNullGate, Pdag::IsTrivial, Gate::JoinNullGate"]}
{"id": "C62", "title": "The settings dialog gives the settings it shows", "statement": "Whatever settings are in use and whatever the user clicks and enters in the settings dialog, in any order: the mutual updates of the controls come to rest; the control that was used shows what was asked for; the combination that is shown is allowed (prime implicants only with BDD and no approximation, importance only with probability); controls that do not conflict with the choice stay as they are; accepting the dialog never fails; and the settings of the next analysis are exactly those shown. Accepting a dialog in which nothing was changed keeps the settings that were in use.", "quantifier": "all settings in use, all sequences of clicks and inputs", "why_tests_cant": "The controls update each other through signals, so that each click starts a chain of further changes that depends on the state left by all earlier clicks; the last claim is about every combination of settings from a project file.", "anchors": ["gui/settingsdialog.cpp: SettingsDialog::settings, setupState, setupConnections", "gui/settingsdialog.ui", "gui/mainwindow.cpp: actionSettings"]}
{"id": "C63", "title": "The fault tree diagram shows the model", "statement": "For every valid model and every gate of it the graphical front end draws a diagram: drawing ends; each gate the root depends on is drawn exactly once in full, with its arguments below it in their order and with the symbols of their kinds; every other occurrence of a gate is a transfer symbol, which refers to a gate drawn in full elsewhere, and exactly these gates carry the mark of a transfer; no two boxes overlap; and after any sequence of changes in the editor (formulas, flavors, added and removed gates, changes of type) the diagram is that of the changed model, until the gate itself is removed, after which it stays empty.", "quantifier": "all valid models (acyclic graphs of gates of any size), all gates, all histories of edits", "why_tests_cant": "Gates can be shared in any way, and the diagram redraws itself only on signals of gates and basic events it has connected itself to; a missed connection shows only after particular histories of edits.", "anchors": ["gui/diagram.cpp: Gate::Gate, Gate::width, Gate::addTransferOut, DiagramScene::redraw, DiagramScene::DiagramScene", "gui/model.h: Model::ChangeEventType, Gate::SetFormula", "share/gui.rng"]}
{"id": "C64", "title": "References of the input files are found, and unused elements are reported", "statement": "Input files with gates, events, parameters, common-cause groups, event trees (functional events, named branches, forks, sequences, instructions), rules, initiating events, alignments, substitutions, extern libraries and functions are accepted exactly if the names of the elements of each type differ, every name in a definition stands for a registered element of the right type (whatever the order of definitions and files), and nothing else is wrong with a definition. The warnings of the report list exactly the elements to which no definition refers. After any changes in the graphical editor the exported report still lists exactly the events that are in no formula.", "quantifier": "all sets of definitions with arbitrarily nested expressions, instructions and forks; all histories of edits, undos and redos", "why_tests_cant": "References occur in many kinds of nested places, and a forgotten mark or look-up shows only for the combination that needs it; the claim for the editor is about every history.", "anchors": ["src/initializer.cc: ProcessTbdElements, Define, DefineBranch, DefineBranchTarget, GetInstruction, GetExpression, GetParameter, GetFormula, DefineExternFunction", "src/reporter.cc: ReportInformation, ReportUnusedElements", "src/event.cc: Formula::ArgSet::Add, Formula::Swap", "gui/model.cpp: Gate::SetFormula::redo"]}
{"id": "C65", "title": "The decomposition of common nodes is a sound pass that ends with clean marks", "statement": "The preprocessing step that sets a common node to a constant below those of its parents that already decide it, taken as the whole pass with its three kinds of marks and the removal of pass-through gates after each node, always ends, fails none of its assertions about marks and gate types, leaves a well-formed graph without pass-through gates and with clean marks, and keeps the value of the top event for every assignment (unless a K/N gate met the duplicate case of C18, which cannot happen in graphs without K/N gates). If it reports no change, the graph is unchanged. The branch for clones is never taken.", "quantifier": "all graphs without pass-through gates, all sets and orders of common nodes, all orders of the parents of the nodes, all module flags, all assignments of the variables", "why_tests_cant": "The answer of the ancestry test is stored in the gates while the graph is being changed, so its soundness depends on the order in which ancestors are visited and on every earlier change in the pass.", "anchors": ["src/preprocessor.cc: Preprocessor::DecomposeCommonNodes, DecompositionProcessor::operator(), MarkDestinations, ProcessDestinations, ProcessAncestors, IsAncestryWithinGraph, ClearAncestorMarks", "src/pdag.h: Gate::mark, Gate::descendant, Gate::ancestor, Pdag::Clear", "src/pdag.cc: Gate::ProcessConstantArg, Pdag::RemoveNullGates"]}
{"id": "C66", "title": "The passes of the preprocessor, as the code searches, give the exact products and probability in any sequence", "statement": "When the graph of a legal model goes through any sequence of the passes of the preprocessor, each pass searching and rewriting as the code does and the module flags being carried from pass to pass, then after every pass the top event has the same value for every assignment and every flagged gate is a module; and the analysis of the final graph reports exactly the minimal cut sets within the limit (BDD for coherent models; ZBDD and MOCUS for all models) and the exact probability of the top event.", "quantifier": "all legal models, all sequences and repetitions of passes, all orders of parents, nodes and candidates inside of the passes, all assignments, all probabilities, all limits on order", "why_tests_cant": "Each pass relies on module flags and on the absence of pass-through gates left by the passes before it, so the claim ranges over all models and all histories of passes.", "anchors": ["src/preprocessor.cc: Preprocessor::Run*, CoalesceGates, ProcessMultipleDefinitions, DetectModules, MergeCommonArgs, DetectDistributivity, BooleanOptimization, DecomposeCommonNodes, NormalizeGates, PropagateComplements", "src/pdag.cc: Pdag::RemoveNullGates, Pdag::IsTrivial", "src/bdd.cc, src/zbdd.cc, src/mocus.cc, src/probability_analysis.cc"]}
{"id": "C67", "title": "The GUI shows the results of the last analysis of the current model, and only these", "statement": "After a run, the report tree has one item per target with the name of the gate, and below it exactly the analyses that were done, with the number of products, the total probability and the number of importance records. The product table has one row per product with a text that determines the product, its order, its probability and its contribution (the contributions are between 0 and 1 and sum to 1 unless all probabilities are 0); the importance table has the factors of every record. In every session of edits, undo, loading, changed settings, runs, opened and closed tabs, the results shown come from a run on the present model with the settings of that run, every open table belongs to them, a change of the model removes results and tables, and no assertion fails.", "quantifier": "all analysis results, all items a view can ask for, all event identifiers admitted by the GUI schema, all sequences of events in the window", "why_tests_cant": "Stale or dangling tables show only after particular interleavings of runs, edits and tabs; the texts and contributions must be right for every set of products.", "anchors": ["gui/reporttree.cpp: ReportTree", "gui/producttablemodel.cpp: ProductTableModel", "gui/importancetablemodel.cpp: ImportanceTableModel", "gui/mainwindow.cpp: runAnalysis, resetReportTree, activateReportTree, closeTab, setupConnections", "src/risk_analysis.cc: RiskAnalysis::RunAnalysis", "src/fault_tree_analysis.h: Product"]}
{"id": "C68", "title": "The value of an event-tree sequence is the sum over its paths of the products of the collected expressions", "statement": "For a model that collects expressions in its event trees, the reported probability of a sequence is the total over all paths to the sequence (through forks, named branches, rules, conditions and links) of the product of the expressions collected on the path, each evaluated with the states that the functional events have at its place on the path; a path without expressions counts as one. If the factors of the alternatives of every fork sum to one, the frequencies of the sequences sum to the factor of the initial branch.", "quantifier": "all event trees with expressions (any depth, forks, rules, conditions, links), all sequences, all values", "why_tests_cant": "The total runs over all paths of arbitrary trees, and the context of the walk is shared mutable state that is read after the walk; only particular combinations of tests and forks show it.", "anchors": ["src/event_tree_analysis.cc: EventTreeAnalysis::Analyze, CollectSequences", "src/expression/test_event.cc: TestFunctionalEvent::value", "src/expression/test_event.h: Context", "src/risk_analysis.cc: RiskAnalysis::RunAnalysis", "src/expression/conditional.h: Ite"]}
{"id": "C69", "title": "Preferences take effect, are shown, and survive restarts; the list of recent files is in order", "statement": "What the user sets in the preferences of the GUI (undo limit, automatic save, language) is stored and in effect while the program runs (the language from the next start); the dialog shows what is in effect; it survives the end of the program, crashes included. The list of recent files has the files opened last, the latest first, at most five, each once; the menu is enabled if and only if the list is not empty; the list survives a restart.", "quantifier": "all histories of starts, ends, crashes, commands, changes in the dialog and opened files; all numbers of languages", "why_tests_cant": "The store, the undo stack, the timer and the widgets are four copies of one setting; they must agree after every history, and a test runs one history.", "anchors": ["gui/preferencesdialog.cpp: PreferencesDialog", "gui/preferencesdialog.ui", "gui/mainwindow.cpp: MainWindow::loadPreferences, savePreferences, updateRecentFiles, setupStartPage", "gui/language.cpp: translations"]}
{"id": "C70", "title": "Importance factors and approximations refer to the model, whatever the preprocessing does", "statement": "For a coherent fault tree, the importance factors that are reported for a basic event are functions of three probabilities of the fault tree of the input file: P, P1 with the event certain, P0 with the event impossible: MIF = P1 - P0, CIF = p (P1 - P0) / P, DIF = P(top and event) / P, RAW = P1 / P, RRW = P / P0; every event of a minimal cut set gets its factors. For every fault tree (with the BDD algorithm: coherent), the min-cut upper bound and the rare-event approximation are the formulas over the minimal cut sets of the input within the limit; without a limit on the order, the probability is at most the min-cut upper bound, and this is at most the rare-event approximation.", "quantifier": "all valid models, all sequences of preprocessing passes, all probabilities, all histories of calculations, all limits, all algorithms", "why_tests_cant": "Preprocessing renumbers, merges, clones and drops gates and cuts the graph into modules; that the numbers reported under the name of an event are those of this event in the input must hold for every model and every sequence of passes.", "anchors": ["src/importance_analysis.cc: ImportanceAnalysis::Analyze", "src/importance_analysis.h: ImportanceAnalyzer::CalculateMif", "src/probability_analysis.cc: RareEventCalculator, McubCalculator, ProbabilityAnalyzer<Bdd>", "src/preprocessor.cc: Preprocessor::Run", "src/fault_tree_analysis.h: FaultTreeAnalyzer::Analyze"]}
{"id": "C71", "title": "Prime implicants refer to the model, whatever the preprocessing does", "statement": "If prime implicants are requested, the reported products are exactly the prime implicants of the fault tree of the input file with at most the requested number of literals, in terms of its basic events with signs, whatever passes the preprocessor does; no module of the preprocessed graph is a constant function (asserted by the code).", "quantifier": "all valid models, coherent or not, all sequences of preprocessing passes, all variable orders, all limits", "why_tests_cant": "Prime implicants of non-coherent functions depend on the function as a whole; that normalization, merging, decomposition and modules keep all of them and add none must hold for every model and every sequence of passes.", "anchors": ["src/fault_tree_analysis.h: FaultTreeAnalyzer::Analyze", "src/zbdd.cc: Zbdd::Zbdd(const Bdd*, const Settings&), Zbdd::ConvertBddPrimeImplicants", "src/preprocessor.cc: Preprocessor::Run", "src/pdag.cc: Pdag::Pdag"]}
{"id": "C72", "title": "The curve over time and the Monte Carlo samples are those of the model, whatever the preprocessing does", "statement": "The reported probability over time is, at the grid of times from zero in steps up to and including the mission time, the probability of the fault tree of the input file with the probabilities that its basic events have at these times; each Monte Carlo sample of the uncertainty analysis is the probability of that fault tree (or the min-cut upper bound over its minimal cut sets) with the clamped samples of one trial for the uncertain events and the given probabilities for the others, and there are as many samples as trials.", "quantifier": "all valid models, all sequences of preprocessing passes, all variable orders, all probabilities over time, steps and mission times, all expression graphs with deviates, all numbers of trials and states of the random number generator", "why_tests_cant": "The result of each point and trial depends on caches of the calculator left by the earlier ones and on the transformed graph; that every one of them is the probability of the original formula must hold for every model, every pass and every history.", "anchors": ["src/probability_analysis.h: ProbabilityAnalyzerBase", "src/probability_analysis.cc: ProbabilityAnalysis::CalculateProbabilityOverTime", "src/uncertainty_analysis.h: UncertaintyAnalyzer::Sample", "src/uncertainty_analysis.cc: UncertaintyAnalysis::SampleExpressions", "src/preprocessor.cc: Preprocessor::Run"]}
{"id": "C73", "title": "The zoom box shows the zoom of the diagram, and only the visible diagram is zoomed", "statement": "Whatever the user does, the level of every diagram is at least ten percents and its drawing is scaled by this level; unless the user is editing the zoom box, it shows the level of the visible diagram; typing, picking from the menu, zooming in and out, the wheel and the best fit set the level of the visible diagram to what they say and leave the others alone; a diagram keeps its level while it is hidden; the signals between the views and the box always end. This holds as long as the levels fit into an int: the code has no upper bound.", "quantifier": "all numbers of diagrams, all finite sequences of showing, hiding, typing, picking and zooming, all texts that the validator admits", "why_tests_cant": "The views and the box change each other through signals that run inside each other; that this ends in a consistent state must hold for every history of tabs and edits, not for the few that a test clicks through.", "anchors": ["gui/zoomableview.h: ZoomableView", "gui/zoomableview.cpp: ZoomableView::setZoom, zoomBestFit, wheelEvent", "gui/mainwindow.cpp: MainWindow::setupZoomableView", "gui/validator.cpp: Validator::percent"]}
{"id": "C74", "title": "Printing, exporting, filtering and removing act on the visible tab, and only on it", "statement": "Whatever tabs are opened, visited and left, and however the model changes: print and export act on the visible diagram, once; the search bar is there exactly for tables, shows the filter of the visible one unless the user is typing, and the end of an edit sets the filter of this table and of no other; remove takes only the element that is selected in the visible table, only if nothing depends on it; the action to remove is enabled exactly when such an element is selected.", "quantifier": "all numbers and kinds of tabs, all finite sequences of showing, hiding, typing, selecting and changes of the model, all filters", "why_tests_cant": "The tools are shared: connections are made and cut when tabs are shown and hidden, and the model changes behind hidden tabs. Whether a tool acts on the right tab depends on the whole history.", "anchors": ["gui/mainwindow.cpp: MainWindow::setupPrintableView, setupExportableView, setupSearchable, setupRemovable, constructTableView, constructElementTable"]}
{"id": "C75", "title": "Extern functions are called as declared, from the library that is meant", "statement": "A definition of an extern function is accepted if and only if its library is declared, the library has the symbol, the name is new and there are at most five parameters. An expression can apply it to exactly as many arguments as it has parameters; its value, at the means and in every sample, is what the symbol gives when called with the declared result and parameter types for the values of the arguments in their order; a number for an int loses its fraction. A library with a proper file name is searched by the system if it is declared so and has no directory, and is otherwise the file that its path stands for in the directory of the input file, wherever the program is started.", "quantifier": "all signatures, all libraries and symbols, all arguments and their values, all paths, directories, working directories and file systems", "why_tests_cant": "There are 126 compiled interfaces that are looked up by a number computed at run time, and unbounded paths and directories; tests try a few signatures and one library.", "anchors": ["src/expression/extern.h: ExternLibrary, ExternFunction, ExternExpression", "src/expression/extern.cc: ExternLibrary::ExternLibrary", "src/initializer.cc: DefineExternLibraries, DefineExternFunction, Encode, GenerateExternFunctionExtractor"]}
{"id": "C76", "title": "Attributes of elements: own, inherited, and changed in the editor", "statement": "Whatever calls are made, the attributes of every element have different, nonempty names, and values. Adding is refused exactly for an empty name or value or for a name that the element has itself; setting replaces that attribute in its place and no other; removing gives and takes exactly that one. What an element is said to have is its own attribute or else that of the nearest of its containers that has it, and the search ends. An element that is in a container inherits from it. When the flavor of a basic event is changed in the editor, the model has the flavor that is shown.", "quantifier": "all elements, attributes, containers nested to any depth, and all sequences of calls", "why_tests_cant": "Histories and the depth of nesting are unbounded; what is inherited depends on the last container that an element entered or left; tests add a few attributes to one element.", "anchors": ["src/element.h: Attribute, Element, Container::Add, Container::Remove", "src/element.cc: Element::AddAttribute, SetAttribute, GetAttribute, RemoveAttribute", "gui/model.cpp: BasicEvent::BasicEvent, BasicEvent::SetFlavor", "gui/model.h: Element::SetId"]}
{"id": "C77", "title": "A run of the program ends with the status, the files and the report it should", "statement": "The exit status is 0 if and only if only information was asked for, or the arguments make sense together, the settings and all input files are valid and, unless only validation was asked for, the analysis was done and the report written. A failure is always reported on the standard error. At no time is a file other than that of the report changed, and that only after the whole analysis is done; a validating run analyzes and writes nothing. The model is that of the files of the project and then those of the arguments. A run with status 0 leaves the whole report where it was asked to go.", "quantifier": "all arguments, project files, input files, results of loading and analysis, reports, and all ways in which output can fail", "why_tests_cant": "Which phase fails, where the output fails and what was in the file before are unbounded; tests run the program on a few inputs with a disk that is not full.", "anchors": ["src/scram.cc: ParseArguments, RunScram, main", "src/reporter.cc: Reporter::Report", "src/xml_stream.h: Stream::~Stream"]}
{"id": "C78", "title": "The value of an expression in the input file is the one that the format gives it", "statement": "What is built from an expression element of an input file has the value that the Open-PSA format gives to it: numbers and parameters, the sum, the first less the sum of the others, products and quotients, the least and the greatest, the mean, powers and remainders, truth values and comparisons, elementary functions, the chosen branch, the first case that is true, and the failure models, of the values of its elements in their order. Nothing is built exactly if the number of elements is wrong at some place.", "quantifier": "all expression elements of any depth and number of arguments, all values of parameters and all mission times", "why_tests_cant": "Expressions nest without bound, and the dispatch is by name and number of arguments; tests evaluate each class for a few arguments.", "anchors": ["src/initializer.cc: GetExpression, Extractor, Extract, kExpressionExtractors_", "src/expression.h: NaryExpression", "src/expression/numerical.h, boolean.h, conditional.h, exponential.h"]}
