# Formal model of rakhimov/scram in Lean 4

## 1. Trusted base

* **Lean 4.33.0's kernel.** Every theorem is checked by it (`vcheck` replays the compiled modules).
* **Axioms.** Only `propext`, `Classical.choice` and `Quot.sound` occur (Lean's standard three). No axiom is added, no
  proof is left open, nothing rests on compiled code. Examples that are evaluated use `decide` / `decide +kernel`
  (kernel reduction).
* **The reading of `/repo`.** The C++ is not run. Each definition of the model cites the file and lines it models, and
  says what it leaves out. Whether the definition says the same as the C++ is the part a reader has to check.
* **Numbers.** `double` is modelled by an ordered field (`ℚ`, `ℝ`, or any), so rounding, overflow and NaN are outside
  the model. Exceptions: `Settings` models NaN and the infinities because range checks depend on them. `int`,
  `size_t` are `Nat`/`Int` without overflow, except the 16-bit K/N bounds of formulas (C35), which are modelled.
* **Pointers.** Reference counts and weak pointers are modelled where behaviour depends on them (unique table: C03,
  C02). In the PDAG model node identities are indices in a heap and "parents" are computed from the arguments of the
  gates reachable from the root; in the code they are maintained by `NodeParentManager`.
* **Containers and order.** Iteration orders of hash containers, comparators with ties, hash functions and garbage
  collection moments are parameters of the model ("environment"), and theorems quantify over them.
* **Recursion.** Recursive C++ functions over graphs are modelled with a fuel argument; the theorems either show that
  every fuel above a stated bound gives the result, or quantify over all executions by an inductive relation.
* **Compiler, standard library, Boost, libxml2, threads.** Not modelled.

## 2. How the properties are stated

`properties.jsonl` has the English properties; `lean/Verif/Props/Cxx.lean` has the theorems (names in `MANIFEST.json`).
Specification notions are small definitions that do not use the model's own helpers: truth tables of connectives
(`Formula.eval`, `Gate.eval`, `G.eval`), minimal cut set / prime implicant, `prob` (sum of weights of assignments),
`IsCycle`, path enumeration of event trees, abstract maps, families of sets, etc. Each property file contains concrete
examples that meet the hypotheses. A theorem whose name ends in `_partial` proves part of its property; where the full
property is **false of the code**, a second theorem gives the counterexample (see section 5).

## 3. Properties: model, proof, limits

| id | code modelled (src/) | model files | method | limits |
|----|------|------|------|------|
| C01 | bdd.h, bdd.cc (FindOrAddVertex, Apply, CalculateConsensus, ConvertGraph, cache use) | Bdd, BddLemmas, BddGraph | invariant: every cache entry and table entry denotes the function of its key; well-founded induction | ids are unbounded naturals |
| C02 | same | BddCanon, BddCanonGraph | reduced, ordered, hash-consed invariant ⇒ equal functions have equal roots | vertices die between operations, not inside one Apply |
| C03 | bdd.h 40-330 (WeakIntrusivePtr, UniqueTable) | UniqueTable(.Lemmas) | invariant over all histories of create / copy / release / sweep / rehash | load factors are parameters |
| C04 | bdd.h 335-470 (CacheTable) | CacheTable | invariant against a log of stores | arbitrary hash |
| C05-C07 | zbdd.cc 62-742, bdd.cc 41-91, fault_tree_analysis.h | ZbddConv, ZbddFlags, ZbddTree, ZbddLevel, ZbddBuild, Products | families of signed sets, level-wise conversion with slack, module expansion | input graph is "prepared": see C43 for where that comes from |
| C08 | zbdd.cc 198-260, 397-699 | Zbdd, ZbddLemmas, ZbddApply | structural induction on families | |
| C09 | zbdd.cc 325-395, 546-611, 882-945; zbdd.h 882-1004; mocus.cc | ZbddGraph, ZbddGate, ZbddCompl, Mocus, MocusLoop, MocusModule, MocusOrder | loop invariant: family ∪ expansion of gates = cut sets; complements eliminated and minimized at the end of each module | coherent or not, no complemented gates (phase IV, C43), all gates have two arguments (asserted by the code) |
| C10 | zbdd.h 139-309, fault_tree_analysis.cc | ZbddIter, ZbddList | iterator state machine refines the list of walks; partial_fixpoint for the mutually recursive functions | |
| C11, C12 | probability_analysis.h/.cc | Prob, ProbBdd, Quant, Modular | Shannon expansion; marks as memo validity | modules have disjoint variables |
| C13 | probability_analysis.cc 60-110 | Quant, Prob | Harris/FKG inequality by induction over variables | untruncated |
| C14, C15 | importance_analysis.cc/.h, probability_analysis | Mif, Order, Props/C15 | derivative along the diagram, mark/clear traversals | |
| C16, C17 | probability_analysis.cc 113-290 | OverTime | list induction, piecewise linear integral | |
| C18 | pdag.cc 98-446 | Pdag, PdagArgs | case analysis on connective, all K/N | |
| C19 | pdag.cc 458-705 | PdagBuild, FormulaSem | induction on rank of gates, construction state invariant | |
| C20 | preprocessor.cc 480-630 | PdagNorm | K/N recursion, sign flips | visit order arbitrary |
| C21 | preprocessor.cc 631-686 | PdagCompl | signed simulation relation between old and new heap | |
| C22 | pdag.cc 229-276, 794-822; preprocessor.cc 688-800, 1095-1775 | PdagNull, PdagRules, PdagMulti, PdagTop, PdagAbsorb, PdagDistr, PdagMerge | one lemma per rewriting rule, any sequence of rule applications | the searches that pick the candidates (clique/group heuristics) are replaced by "any candidate that meets the rule's condition" |
| C23 | preprocessor.cc 801-1066 | PdagTiming, PdagModule, PdagFind, PdagFindCut, PdagFindRun | interval laminarity of DFS times | |
| C24 | preprocessor.cc 1778-2330 | PdagDecomp, PdagOpti, PdagOptiRun | case split on the value of the common node | |
| C25-C27 | ccf_group.cc/.h, ext/combination.h | Combination, Ccf, CcfLemmas | binomial identities, permutation invariant of the rotation algorithm | names without spaces |
| C28 | cycle.h/.cc | Cycle | three-colour DFS invariant | |
| C29 | event_tree_analysis.cc | EventTree | structural induction over event trees | links unfolded (acyclic by C28) |
| C30, C41 | settings.cc/.h | Settings | invariant over histories of calls | |
| C31 | analysis of alignments: risk_analysis.cc | Phases | state machine | |
| C32, C34 | expression/*.h, expression.cc | Intervals, FailureModels | real analysis | |
| C33, C40 | expression.h 40-130, uncertainty_analysis.h | Sampling, Uncertainty | DAG of expressions with sampled flags | random generator is an arbitrary state machine |
| C35 | event.cc 60-238 | Formula | | |
| C36 | fault_tree.cc | TopEvents | | |
| C37 | substitution.cc, pdag.cc 707-757, zbdd.cc 744-782, initializer.cc 1720-1754 | Substitution, ZbddSubst, PdagSubst | | |
| C38 | ext/linear_map.h, linear_set.h | LinearMap | refinement to finite maps | |
| C43 | preprocessor.cc 108-166, 318-420, 2365-2409 and all passes | PdagFlag, PdagEdit, PdagKeep*, PdagRun, PdagTree, PdagHand | simulation of every edit on "who sees whom", invariant over runs, unfolding of the heap | candidates of the passes are any that meet the guards; destroyed gates are dropped after a pass |
| C44 | xml_stream.h (all) | XmlStream, XmlSpec, XmlRead, XmlWrite | history of calls as a story (specification); simulation; grammar of XML proved unambiguous, so reading back gives the written tree | doubles are the text printf gives; children are destroyed before parents (scopes) |
| C45 | reporter.cc 66-90, 290-582, fault_tree_analysis.cc 86-105, .h 55-125 | Report, ReportSpec, ReportProof, ReportSane | every reporting function adds exactly one list of subtrees; with C44 the file reads back as that tree | information section abstract; number formatting arbitrary |
| C46 | expression/random_deviate.h, .cc (all) | Deviates, DeviateLaws | distributions as measures; means by integrals of Mathlib, quantiles through the complementary error function, tails by Chernoff bounds | real numbers; special functions of Boost by their definitions |
| C47 | serialization.cc (all); initializer.cc (head of elements, registration, formulas, float and exponential, fault trees, model data); xml.h (attributes, text, conversions); input.rng (the parts used) | Save, SaveSpec, SaveTree, SaveSchema, SaveLoad | the calls of the writer describe a tree (C44), the tree conforms to the schema, and the reader composed with name resolution (C42) inverts it | doubles by print/read/round with laws; only the elements the writer emits are read; post-load validation not included |
| C48 | initializer.cc 1544–1718 (checks of event trees) | EventTreeCheck, EventTree | induction over the unfolded trees; combined with the path semantics and exactness of C29 | named branches and links unfolded (acyclic by C28); that references point to members of the model is the hypothesis `Closed` |
| C49 | risk_analysis.cc (all) | Risk, Phases, Settings | loops of analyses over arbitrary single analyses; invariant `Adds` (model unchanged, entries appended that answer the jobs) through all loops, with C31 for contexts | single analyses are arbitrary functions of the model state, the settings and the state of sampling; phases set a house event at most once (C31) |
| C50 | pdag.cc 229-276, 794-822; preprocessor.cc 341-357, 408-419, 688-800, 2331-2340 | PdagEnd | weight of K/N gates, then multiset of the levels of the edges (Dershowitz-Manna) or the number of live gates | steps as in C43; the other passes are recursions down the graph and loops over finite lists |
| C51 | scram.cc 58-92, 170-183, 202-259; project.cc 115-203 | CommandLine, Settings | exact result of the sequence of setters, group by group | boost program options, the XML parser and the schema are trusted to deliver the options |
| C52 | gui/command.h, gui/model.h, gui/model.cpp; src/element.h 489-515, src/event.cc 109-130 | Editor, EditorSpec, EditorUndo, EditorWf, EditorHistory | each command has an effect and an exact inverse; the undo stack refines a list of models; invariant of consistent models | Qt signals, usage flags, `container()` and `top_events_` left out; an object exists at its address before a command brings it in |
| C53 | gui/eventdialog.cpp 84-446, gui/mainwindow.cpp 975-1395, gui/validator.cpp 30-36 | EditorDialog, EditorDialogProof, EditorAccept, EditorEdit, EditorFrame | invariant of the dialog over its inputs; simulation of the commands, frame condition by views | names in ASCII; hidden types cannot be chosen; the range of the min number left out |
| C54 | initializer.cc 193-411, 412-463, 596-706, 708-785, 1157-1380, 1544-1546, 1795-1823 | Ids, LoadSpec, LoadReg, LoadAll, Load | registration succeeds iff the declared elements are well-named (mutual induction, local names ↔ paths); each definition ↔ its meaning; C28 for cycles; all conditions are invariant under permutation | event trees, rules, alignments, substitutions and extern functions left out; numeric checks are a parameter that sees all definitions |
| C55 | xml.h 68-143, 288-352, ext/version.cc, project.cc 68-82 | XmlValueSpec, XmlValue, XmlValueProof | the scanners of strtoll/strtod are modelled from the C standard and proved to read to the end of the view iff the text is in the grammar (both directions, blanks behind the view included); rounding is a parameter | locale is "C"; texts below 2 GB; the schema check itself |
| C56 | gui/elementcontainermodel.cpp, gui/modeltree.cpp 25-70, signals of gui/model.h/.cpp | Tables, TablesProof, TablesStep, TablesRun, TablesTree | the signals each command emits with the state at the moment, the slots, and a view that changes only what it is told to; invariant over sessions: index map = positions, rows = data of the current state | sorting and filtering proxy, headers, flags; the views of Qt themselves |
| C57 | gui/mainwindow.cpp 278-326, 500-532, 606-748, 767-792, 1631-1640; serialization.cc 340-360; xml_stream.h (FILE stream) | SaveFile, MainWindow, MainWindowSpec, MainWindowProof | session automaton over the editor of C52/C53, a disk, oracle results for fopen, every flush, fclose and rename, and the clean index of QUndoStack; invariant: the clean state of the stack is in the files | loading and saving enter as a faithful pair (C47 has the details); the start with a project file (setProjectFile does not catch mef::ValidityError) |
| C58 | preprocessor.cc 1096-1513 | SortedSets, PdagSearch, PdagSearchProof, PdagSearchRun, PdagSearchAll, PdagSearchAsserts, PdagSearchFull | the searches are executable functions on the graph of C22; each rewrite they find is shown to meet the guard of a legal rule of C22 at the moment it is applied; invariants over groups and chains of options | the counts of MarkCommonArgs and of parents in FindBaseOption are arbitrary functions (they only steer the choice); RemoveNullGates as rules of C22 |
| C59 | preprocessor.cc 1515-1776 | PdagDistrSearch, PdagDistrFrame, PdagDistrStep, PdagDistrGroup, PdagDistrClone, PdagDistrFilter, PdagDistrAll, PdagDistrMore | the traversal and searches are executable functions on the graph of C22; frame lemmas: a step changes only the gate, its members and new gates, so gates that are being visited and groups not yet transformed stay as they were; each rewrite meets the guard of a legal rule of C22 | the number of parents is an arbitrary function that is at most 1 only if there is at most one living parent; the counts in FindBaseOption are arbitrary; the returned flag (no caller reads it) is not modelled; RemoveNullGates as rules of C22 |
| C60 | preprocessor.cc 192-241, 683-800 | PdagLoops, PdagDefs | the two traversals with marks, tests and returned flags are executable functions on the graph of C18; induction over the depth with frame facts (marked gates keep their definition until the traversal returns to them), closure of the marked gates under arguments, and the measures of C50 for the end of the loops | the number of parents is an arbitrary test; RemoveNullGates as the rules of C18/C50; the replacement of duplicates as the steps of C50 in any order |
| C61 | pdag.cc 252-276, 759-822 | PdagRemove | the recursion over the parents as an executable function with the choice of the parent left open; frame of one join (only the parent and new gates change, new gates are no pass-through gates, living gates stay living or are new), induction over the depth, end by the measure of C50 | expired gates are those without living parents; the order number of the variable in IsTrivial is left out; a flag that is not in the code records the wrong K/N joins |
| C62 | gui/settingsdialog.cpp, settingsdialog.ui, mainwindow.cpp 508-512 | SettingsDialog, Settings | the buttons as a machine with signals (setChecked of Qt with exclusive groups), case analysis over the states of the buttons, induction over the actions, the setters of C30 | partial: the last claim is false (`unchanged_fails`, `unchanged_partial` says exactly when it holds); rounding of the spin box to one decimal is to the nearest tenth, ties upwards |
| C63 | gui/diagram.cpp, gui/model.h 589-661 | Diagram | the recursion of the constructor with the map of transfers on an arbitrary acyclic graph, induction over arguments and depth; layout in rational numbers; invariant `Shows` (all signals that matter are connected) over histories of changes | proved; the shapes of the symbols and the text in the boxes are not modelled |
| C64 | initializer.cc 410-1270, 1496-1540, reporter.cc 235-265, 340-353, event.cc 52-127, gui/model.cpp 118-128 | Usage, UsageEdit | each function as an action on the set of marks with exceptions; `Does`: an action succeeds iff the references in the text are found, and marks what they stand for; structural induction over expressions, instructions and forks; invariant over the undo stack | partial: the claim for the editor is false (`unused_not_reported`: marks are never taken back), what holds is `reported_is_unused_partial`. Checks of common-cause groups, alignments, substitutions and of the system's libraries are parameters |
| C65 | preprocessor.cc 2099-2344, pdag.h 1152-1179, pdag.cc 71-77, 278-284, 795-822 | PdagDecompRun, PdagDecompSound, PdagDecompMarks, PdagDecompEnds, PdagTiming | every function of `DecompositionProcessor` with the marks as state and `none` for a failed assertion; invariants: a stored answer `P` means that every path from the root to the gate leads through `P` (kept by each cut), the marked gates are linked to the ancestors on the stack; the measure of the clearing is the number of marked gates | proved. The assertions about times (`IsNodeWithinGraph`) and the one about modules among the parents are not modelled |
| C66 | preprocessor.cc 192-2409, pdag.cc 759-822 | PdagRule, PdagPass, PdagOptiRun, PdagSearchKeep, Props/C43 | `Pass`: one constructor per pass, with the functions of C24, C58-C61 and C65; every pass is a run of the rules of C43 with the flags swept at its end (a rule works with fewer flags too), so the results of C43 hold for sequences of passes; the searches of the optimization have one result from some depth on | proved |
| C67 | gui/reporttree.cpp, producttablemodel.cpp, importancetablemodel.cpp, mainwindow.cpp 508-531, 750-792, 1472-1490, 1534-1578, 1631-1640 | ReportView | the indices that a view can get (`Got`) are characterized and every question about them has an answer; the texts are cut at the first space; induction over the events of a session: tables belong to the present analysis, which comes from a run after which the model was not changed. Numbers are elements of a field | proved |
| C68 | event_tree_analysis.cc 96-246, expression/test_event.cc, conditional.h 38-44, risk_analysis.cc 84-108 | EventTree (of C29), EventTreeValue | expressions are functions of the states of functional events; mutual induction over trees: the walk leaves the context empty and the weight that it collects is the weight that flows into the sequence; induction over trees for the sum of all frequencies | partial (the code violates it: `test_ignored`, `certain_dropped`) |
| C69 | gui/preferencesdialog.cpp 38-137, mainwindow.cpp 390-404, 533-569, 695-726 | Preferences | the store survives, the program is an option; invariants by induction over histories of events; the lists of recent files by induction over the slots | partial (the code violates it: `undo_limit_ignored`) |
| C70 | the way from pdag.cc to importance_analysis.cc: all of C19, C43, C66, C11, C13, C14 | Props/C70 (model as for these) | transport of sums over assignments of the variables to sums over sets of basic events (the numbering is injective); the listing of products is a permutation of the minimal cut sets of the model | proved; for non-coherent models the MIF is right but for the sign (`importance_partial`, C14 `mif_wrong_sign`) |
| C71 | the way from pdag.cc to zbdd.cc: all of C19, C43, C66, C07 | Props/C71 (model as for these) | literals of events and signed indices correspond (injective numbering); implicants, subsets and sizes are carried over; events that are not in the formula are in no prime implicant | proved; the condition on modules is the assertion of the code (C07 `prime_implicant_lost` without it) |
| C72 | the way from pdag.cc to the curve and the samples: all of C17, C33, C40, C66, C70 | Props/C72 (model as for these) | the calculator that keeps its invariant (C17, C40) with the transport of C70; each value of a variable is that of the basic event at its position | proved; one analysis of a model with clean expressions (see C33 for the second analysis) |
| C73 | zoomableview.{h,cpp}; mainwindow.cpp 121–136, 810–874; validator.cpp 37–42 | Zoom.lean | the nested signals as mutually recursive calls with fuel (six is enough); invariant over all histories; the effect of each event on each level | proved; finding: typing 2147483647 and zooming in overflows an `int` (`overflow`); a number that is the level already stays without the percent sign (`stays_bare`) |
| C74 | mainwindow.cpp 330–338, 453–458, 876–972, 1034–1106, 1395–1468 | Tools.lean | invariant over all histories on the connections of every tool; ghost state says what an observer knows | partial (the code violates the last clause: `not_removable`, `assertion_reachable`) |
| C75 | expression/extern.{h,cc}; initializer.cc 1188–1210, 1380–1540 | Extern.lean | the two encodings are the same number in base 3 without zeros, injective by induction; the table of interfaces by induction over the generation; conversion characterized without floor; a path is followed through an arbitrary graph of directories | proved; the loader of the system and what a symbol does at given types are parameters; `boost::filesystem` on POSIX without leading double slashes; the URL of the document is taken to be the name of the input file |
| C76 | element.h 50–230, 500–560; element.cc 22–68; gui/model.cpp 46–101; gui/model.h 104–140 | Attributes.lean | own attributes as an association list, specified by the first entry with the name; the invariant over all histories by induction; inheritance against an inductively defined chain of containers, finite by a layering | partial (the inheritance from containers and the shown flavor are violated: `rename_forgets_tree`, `remove_forgets`, `flavor_not_saved`); elements are not destroyed; one key for name and identifier |
| C77 | scram.cc 103–185, 243–286, 340–410; reporter.cc 71–118; xml_stream.h 418–434 | ProgramRun.lean (on CommandLine, SaveFile) | an inductive account of the ways a run can end, to which every run is shown to belong; the disk as it is after every system call | partial (a report that `fclose` cannot write is lost with status 0: `report_lost`; the level of the log is not checked if help is asked for: `level_unchecked`); loading, analysis and text are parameters; release build |
| C78 | initializer.cc 915–1085, 1105–1228; expression.h 157–279; expression/*.h | Extraction.lean (on Intervals) | a denotation of elements by closed forms (sum, least element, first true case), equal to the value of what is built by induction over the depth; folds by induction over the arguments | proved; real numbers; random deviates (C46), event-tree tests (C68) and extern functions (C75) left out; what a parameter stands for is given |
| C39, C42 | element.h/.cc, model.cc, initializer.cc (register/get) | Ids | invariant over loads | |

## 4. What is not modelled

Not modelled at all: the XML parser (libxml2) below the tree of elements and RelaxNG validation (C55 models how values are read
from the tree, C54 how elements are registered and defined), the widgets, the painting of diagrams (C63 models which boxes are drawn and where) and views of Qt (C52, C53,
C56, C57 model the undo commands, the event dialog, the item models and the file handling of the main window), logging, the dynamic loader (C75 has the paths, signatures and calls of extern
functions; an extern function is an arbitrary function in C32), the statistics accumulators of Boost used for
quantiles and histograms, floating point rounding, memory exhaustion. The file system is modelled only in C57, as a map from
names to contents with an atomic rename (and, for the libraries of C75, as an arbitrary graph of directories).

## 5. Findings: where the code does not satisfy the English property

Each has a theorem with a concrete counterexample.

* C06 `cut_set_lost`: a non-coherent module at the order limit loses cut sets of exactly that order. Only the BDD algorithm does: ZBDD and MOCUS cut by order in coherent modules only and are exact (`C09.zbdd_exact`, `C09.mocus_exact`, `C09.lost_found`), so for such models the result depends on the algorithm that is selected.
* C07 `prime_implicant_lost`: needs modules that are not constant (asserted in the code).
* C13 `truncated_not_conservative`: with a limit the bounds are those of the reported products only.
* C14 `mif_wrong_sign`: the BDD importance calculation ignores the complement flag of the root.
* C16 `boundary_counted_twice`, `hourly_above_one_lost`: SIL fractions at bucket bounds.
* C18 `dupAtleast_wrong`, C22 `merge_wrong`: `ProcessAtleastGateDuplicateArg` with two arguments keeps the wrong one.
* C26 `apply_single_level`: an accepted alpha/phi group with one level raises an error when applied.
* C29 `certain_path_dropped`: a path without formulas is dropped when other paths have formulas.
* C30 `nan_accepted`: NaN passes the range checks of settings.
* C31 `leak`: a house event set twice in one phase is not restored.
* C32 `accepted_but_not_probability`, `extern_ignores_deviates`.
* C33 `stale_across_analyses`, `test_event_sample`.
* C35 `overflow_accepted`: K/N bounds are truncated to 16 bits.
* C41 `abort_reachable`: selecting ZBDD/MOCUS with prime implicants on terminates the program (noexcept).
* C42 `private_member_unreachable`: members of private CCF groups cannot be referenced.
* C47 `constant_does_not_load` (a formula with a literal `<constant/>` loads, is saved as a reference to an event `__true__` and then
  does not load), `unsupported_formula` (iff, imply, cardinality: assertion, or end of a function without a result in release builds),
  `unsupported_expression_dropped`, `asserted_dropped`, `role_dropped` (release builds silently lose expressions other than constants and
  exponentials, CCF groups, parameters, event trees, private roles), `ignored_dropped` (every build silently loses substitutions,
  alignments and extern functions), `label_trimmed`.
* C46 `lognormal_low_level` (a level below one half makes the scale negative and the interval misses 98% of the samples), `level_half_accepted` and
  `zero_histogram_accepted` (division by zero in accepted models), `gamma_mean_outside` (the gamma interval is not the 99th percentile; it may not
  even hold the mean), `beta_interval_above_one` (so a beta deviate never validates as a probability, up to rounding), `lognormal_mean_outside`.
* C51 `project_lost`, `kept_iff`: the program passes every analysis flag and the prime-implicants flag to the settings whether or not it is on the
  command line (scram.cc 212, 221-226), so a project file that asks for importance, uncertainty, CCF, SIL or probability analysis or for prime
  implicants gets none of them unless the flag is repeated. `cli_terminates`: prime implicants in the project file and `--zbdd` abort the program (C41).
* C52 `flavor_undo_loses`: `SetFlavor` removes or overwrites the `flavor` attribute, and its undo does not restore a value that another program has
  written (or the place of the attribute).
* C53 `atleast_fails` (`extract_atleast`): the lambda that hands the min number to the formula (mainwindow.cpp 1132-1144) has no `return` in the case of
  at-least; the dialog accepts the input, then the constructor throws. At-least gates can be neither made nor changed in the editor.
* C53 `single_top_lost`: accepted edits can leave a second unreferenced gate in a fault tree; the editor saves the model and refuses to open it again
  ("must have a single top-gate").
* C53 `incomplete_argument`: the button that adds an argument does not ask the validator, so that `a-` becomes an event; the schema refuses the saved file.
* C53 `type_change_throws`: a basic event that a fault tree of the file defines cannot become a gate: the table of the fault tree keeps it and
  `DuplicateElementError` is thrown out of the command.
* C53 `accept_unchanged_rounds`: the fields have six significant digits; a dialog accepted without a change replaces a probability or a rate by the
  rounded value.
* C55 `nan_accepted`: the text `NaN` is a valid `xsd:double` and is read as not-a-number; the range checks of the form
  `value < 0 || value > 1` (expression.cc 77, settings.cc 143) do not refuse it. `hex_accepted`: `0x1p4` is read as 16.
* C55 `newline_refused`: the schema collapses white space, `trim` strips only spaces: a project file with
  `<seed>5(newline)</seed>` is refused although it is valid.
* C55 `version_wraps`: a version number too large for `int` overflows (undefined; usually wraps), so a version text far
  later than the program's may be accepted.
* C55 (not a theorem): `strtod` depends on the numeric locale; the graphical front end runs `QApplication`, which sets the
  locale of the environment, so `0.5` may be refused there. The model fixes the "C" locale.
* C56 `removed_gate_rows`: `removeElement` takes away the last row and announces only the cells of the row that the last
  element moved to: in the table of gates, whose rows have rows under them (the arguments), a view that follows the
  notifications keeps the rows of the removed gate under the gate that took its place.
* C56 `renamed_argument_rows`: renaming an event announces only the row of the event: the rows under gates keep its old
  identifier until something else makes the view read them again.
* C57 `silent_loss`: `~Stream` tests `ferror` before `fclose` writes the rest of the buffer and nobody looks at the
  result of `fclose`: if the disk is full at that moment an empty or truncated file is renamed over the good one, the mark
  of modification is taken away, and the window closes without a question. The reporter (reporter.cc 106-113) has the same pattern.
* C57 `undone_but_different`: because the undo of a change of flavor is not exact (C52), the window can be unmarked with a
  model that differs from its file.
* C57 `temporary_left`: a save that fails leaves its temporary file behind.
* C67 `tree_sequence_fails`: a result for a sequence of an event tree fails an assertion of the report tree; only the schema of the GUI input (no event trees) keeps it away. `unity_shown`: the unity product is an empty text with order 1.
* C68 `test_ignored`: a collected expression that tests a functional event is evaluated after the walk of the tree, when no functional event has a state; the test is always false. `certain_dropped`: a path that collects nothing is dropped from the sum if another path to the sequence collects an expression (with formulas: C29 `certain_path_dropped`).
* C69 `undo_limit_ignored`: an undo limit that is set while there are commands to undo is stored, but `QUndoStack::setUndoLimit` ignores it on a stack that is not empty; until the next start the old limit holds, and the dialog, opened again, shows the old limit.
* C73 `overflow`: the zoom has no upper bound: a user who types 2147483647 into the zoom box and zooms in makes an `int` overflow (undefined behaviour). `stays_bare`: a typed number that is the level already stays in the box without the percent sign.
* C74 `assertion_reachable`, `not_removable`: `RemoveFilter` cuts only the connection of the action when its table is hidden, not those of the selection and of the model reset. A hidden table that changes (undo of an addition, change of a formula) enables the action to remove while nothing is selected in the visible table, and choosing it shows "Assertion Failure", or disables it while an element is selected.
* C65 `pass_result`: the branch of `ProcessAncestors` that works on a clone (preprocessor.cc 2261-2274) is never taken: it asks whether the clone is a constant or
  a pass-through gate before the constant is put in, and no sub-parent is one then. Gates made by the K/N duplicate handling inside of the pass have no visit times; if such a gate becomes a
  destination, the debug assertion `enter_time > 0` (preprocessor.cc 457) would fail (not proved), while the release build only answers that no node is inside.
* C64 `unused_not_reported`: the mark of usage is set when an event becomes an argument (`ArgSet::Add`, `Swap`) and never taken back; an
  event that was removed from all formulas in the graphical editor (or only was in a formula that was undone) is missing from the warnings of the exported report.
* C62 `unchanged_fails`: `SettingsDialog::settings` starts from default settings, so opening the dialog and pressing OK resets
  everything it does not show (cut-off, seed, trials, bins, quantiles, time step, SIL, uncertainty and common-cause analysis from
  the project file); an order limit above 99 (range of the spin box) and mission times below 1 or with more than one decimal change too.
* C44 `cdata_end_ill_formed`: `>` is not escaped, so a text with `]]>` (a label, a warning) makes the report ill-formed.
* C75 (notes): the fraction of an argument for an `int` parameter is dropped without a message (`fraction_dropped`), and a value outside of `int` is undefined behaviour; nothing warns about either. The schema allows a
  label and attributes in the definition of an extern function, but `DefineExternFunction` never attaches them (initializer.cc 1496-1540 has no `AttachLabelAndAttributes`), unlike that of libraries: they are lost.
* C76 `rename_forgets_tree`, `remove_forgets`: an element has one pointer to a container, although a gate is in its fault tree and in the model; the last that it enters or leaves wins. `SetId` of the editor leaves and enters the tree before the model, so a renamed gate no longer inherits the attributes of its fault tree until the file is saved and opened again. `flavor_not_saved`: a basic event that inherits `flavor` = `undeveloped` is shown as basic after the user changes it, and is undeveloped when the saved file is opened again. (Not modelled: the label and the attributes of the root element of the second and later input files are dropped, as the model is created from the first.)
* C77 `report_lost`: as in C57, `~Stream` looks at the error flag before `fclose` writes the rest of the buffer: on a full disk a report of less than the buffer is lost, the old one is gone, and the exit status is 0. `level_unchecked`: `--help --verbosity 99` stores 99 as a `LogLevel`, since the check of the level comes after the return for help.

Observations without theorem: `Zbdd::Analyze` drops the result of `Prune`; the comparator of arguments in
`ConvertGraph` is not a strict weak order on terminals; the exact BDD probability is calculated on a graph built
without the model, so declarative substitutions do not constrain it; `InstantTest` has a 0/0 for equal rates in
floating point (excluded over the reals by `instant_test_no_zero_division`). The XML stream checks no names, accepts
duplicate attributes, does not escape newlines and tabs in attributes (readers turn them into blanks), cuts strings at
NUL, negates INT_MIN when it prints it, and prints doubles with `%g`; the reporter prints the members of a CCF event by
name, not by identifier.

## 6. Tests of the theorems against wrong programs

`tools/mut2.py` edits one definition of a scratch copy the way a bug would, rebuilds everything, and records which
theorems fail in `seeded/LOG.jsonl`. Edits that no theorem rejects are examined: either the edit does not change the
claim (recorded with that reason), or the theorem is tightened.
