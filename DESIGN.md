# Formal verification of pandaPIengine: design

## Scope and method

The source in /repo (C++) is modelled by hand, function by function, in Lean 4
(`lean/Verif`).  Every model definition cites the file and lines it models and
says where it simplifies.  Specifications are written separately and do not use
the helper functions of the model.  Property theorems live in files
`Verif/Props/*.lean`, next to `example`s that show that their hypotheses can be
met by a non-trivial instance.

Modelling conventions

* C++ `int` is modelled by `Nat` / `Int` without overflow.  Theorems say nothing
  about runs in which an `int` overflows.
* Memory: a plan step is an index into a heap (list of steps); `new` appends.
  The iteration order of `std::set<planStep*>` depends on addresses; the model
  takes the order as a parameter (arbitrary permutation), so theorems hold for
  every allocation behaviour.
* `rand()` is an arbitrary oracle parameter.
* Loops that need not terminate are given fuel; running out of fuel is the
  distinct outcome `none`.  Termination is a separate theorem (enough fuel exists).
* Reads outside an array, uninitialised reads, shifts by the word width are
  distinct outcomes (`none` / `ub`) in the models where the code can reach them.

## Trusted base

* Lean 4.33.0 kernel; Mathlib modules imported one at a time.
* Axioms: at most `propext`, `Classical.choice`, `Quot.sound` (see the end of
  this file and `MANIFEST.json`).  No `sorry`, no `native_decide`, no added axioms.
* The correspondence of the hand-written model with the C++ source (by reading).

## Properties and plan

| Id | What is modelled | How it is proved |
|----|------------------|------------------|
| C01 | apply, decompose, initializeMethod, isGoal, prepareTNi, search loop | specification by decomposition trees; induction over the search run: "a solution of the child gives a solution of the parent" |
| C02 | the same plus duplicate check and heuristic as parameters | invariant of the loop: every solvable node met is represented in the fringe with no larger remaining number of steps |
| C03 | the candidate filter of apply | loop invariant (partial correctness), characterisation by minimal elements |
| C04 | decompose | relation of successor graphs before/after, transitive closure argument |
| C05 | effect-less and one-modification progression | move-to-front argument on solutions |
| C06 | fuel of the two loops | weight measure on acyclic graphs, number of remaining steps decreases |
| C07 | counters | invariant over operations |
| C08 | solution step records and extraction | invariant: instance numbers are unique and parents refer to earlier steps |
| C09 | computeTransitiveChangeOfMethodOrderings | Warshall invariant; reduction of finite strict orders |
| C10 | degree counts on the reduced relation | chain iff at most one element without exactly one successor / predecessor |
| C11 | flags | violated by the code for the initial task's methods: negation by witness, positive part for other methods |
| C12 | reachable nodes of totally ordered models | invariant over search histories |
| C13 | updateTaskCounterA/M, sortedDistinctSubtasks | merge correctness against multiset count |
| C14 | reachability sets | closure |
| C15 | calcMinimalImpliedX | invariant of the work list: value <= true minimum |
| C16 | calcMinimalImpliedX | violated: non-termination for A -> a A, proved by invariant on a witness |
| C17 | RC model construction | simulation of solutions by relaxed plans |
| C18 | add/FF reachability | fixed point of relaxed reachability |
| C19 | h-max exploration | Dijkstra invariant |
| C20 | LM-cut | landmark argument and cost partitioning |
| C21 | search with re-opening | invariant on optimal remaining path |
| C22 | priority queue comparator | total preorder, multiset semantics |
| C23 | key construction, TO mode | injectivity |
| C24 | state2Int | round trip |
| C25 | bucket trie | refinement to finite map; undefined shift at multiples of 64 is a distinct outcome |
| C26 | matching | violated (mapping passed by value): witness; correct fragment |
| C27 | payload logic | history invariant |
| C28 | IntUtil | functional correctness |
| C29 | integer sets | refinement to finite sets |
| C30 | IntPairHeap | heap invariant, multiset |
| C31 | chunked deque | refinement to list |
| C32 | Tarjan | DFS invariant |
| C33 | readers | round trip |
| C34 | atMostOne | semantics of clauses, both encodings |
| C35 | atMostK | sequential counter semantics |
| C36 | state transition clauses | soundness and completeness against executions |
| C37 | block compression | commutation |
| C38 | Rintanen invariants | induction over reachable states |
| C39 | resolution | soundness of each rule |
| C40 | reference counts | counting invariant (count = pointers from live nodes and allocated steps, positive), kept by increments, by the recursive destructors, by `apply`, `decompose` with automatic progression and by deletions; induction over arbitrary interleavings |
| C41 | VisitedList::topSort | run invariant: popped steps are unconstrained; all live steps popped |
| C42 | hsLmCut: value vs. h-max | min(h-max, goal value - minimal cost) is still a fixed-point bound after reducing the cut |
| C43 | hsLmCut: stored cuts | closure of the goal zone, facts not in the zone are justified from the state |
| C44 | hsAddFF: FF value | processed facts are justified by earlier ones; marked facts closed under supporters |
| C45 | hsAddFF: additive value | Dijkstra argument: below the current key all values are final |
| C46 | hsAddFF::getFF stack | potential argument; violated for the capacity of the code |
| C47 | Model::analyseSCCcyclicity | components are numbered bottom-up; equivalence with infinite chains by pigeonhole |
| C48 | hhRC2 with LM-cut: lower bounds | a solution gives a relaxed plan of the classical problem whose operators are the actions and methods used, each once; further copies of contained actions are counted separately |
| C49 | hhRC2: transformed cuts | C43 for the relaxed plan of a solution; loop invariant of the binary search |
| C50 | methodTopSortDFS, verdict | depth-first search invariant (black subtasks closed and sorted); chain of consecutive subtasks is pairwise by transitivity |
| C51 | runTOSOGOptimiser | the diagonal of the dynamic program is always a 'put', so backtracking places all subtasks; invariant of the greedy compact mode |
| C52 | expandPDT | pointers and causes are inverse (`ExpOK`); induction over the depth from choices to trees and back |
| C53 | pruning | the number of unset flags decreases; closure by an invariant on the vertices still to visit; safety because each rule only prunes what no executable choice uses |
| C54 | SAT plans are solutions | the clauses of the tree hold iff the assignment encodes a consistent choice (C52); the state formula makes the chosen actions executable (C36, C37); induction over the depths with an invariant on the table of variables |
| C55 | SAT completeness | a choice is extended to a model stage by stage, each stage only adding new variables; minimal depth by induction |
| C57 | invariants and options | the clauses of `extract` and `rintanen` hold in reachable states (C38, C39); both formulas have the plans of C55 |
| C56 | printed SAT decomposition | the walk that assigns output numbers is shown to number exactly the selected tasks, once each (fold invariant over vertices); reading the lines back gives the decomposition of C52/C54 by induction on the tree |
| C58 | SAT cost optimisation | the cost clauses extend a model iff the scaled costs are within the bound (C35); induction over the steps of the loop, and strong induction over the distance to the least cost |
| C59 | AND/OR landmarks | invariant of the propagation (every mark contains the greatest fixed point; unqueued nodes are consistent), measure for termination, exactness by induction over derivations; solutions give derivations that use only what occurs in them |
| C60 | planning graph | counting invariant over the popped facts (with duplicates) for completeness, the invariant that no fact is popped twice for exactness; measure for termination; induction over plans and decomposition trees for solutions |
| C61 | tests of hhDOfree (partial) | C60 applied to the sets of C14; false for the setting used by SearchEngine |
| C62 | `sasPlus` (partial) | values correspond to states under `SasInput`; initial state right under `S0Fits`, false in general |
| C63 | `reorderTasks` (partial) | `subs` is the total order of the method; exact condition for the reverse order; false in general |
| C64 | translation of totally ordered problems keeps solutions (partial) | stack machine (`Stk`) between solutions and plans; simulation |
| C65 | plans of the translated problem are solutions (partial) | same simulation backwards; false without `NoConf` or with blank operators |
| C66 | the printed plan of a translated problem describes a decomposition (partial) | induction along the stack (`Work`), the lines found for the tasks on the stack are known; for plans without blank operators |
| C67 | names of operators are read back (partial) | `find`, `substr`, `stoi` on lists of characters; false for names that contain `subtasks` or `firstPrim` |
| C68 | translation of parallel sequences (partial) | parallel stacks (`PStk`) are proved to derive exactly the solutions (`parSolution_iff`), the plans of the translated problem simulate them; for methods of the initial task with equally many subtasks whose orderings `reorderTasks` leaves in a usable order; violations by witnesses |
| C69 | the first bound skips no plan (partial) | invariants of the work list: lower bound for every tree that fits, least solution of the equations, termination by growth; the loop overflows if a task can not be decomposed (witness for every range of integers) |
| C70 | images of sets of states are exact (partial) | values of variables as numbers of their bits; relation between the numbers of an assignment and the facts (`Corr`), lifted to BDDs; violated if an action adds and deletes a fact, or if no value of a variable is given |
| C71 | "Goal reached! Length=c" (partial) | invariant of the automaton: every edge from the start stands for executed prefixes, every other edge for the context of its vertex, every epsilon set for completed methods, with costs at most that of the layer; BDD operations by contract, satisfied by the model of C70; witnesses run with tables and are transferred by a homomorphism; completeness and optimality are violated |
| C72 | delete- and order-free heuristic is admissible (partial) | every solution gives a point of the program (counts of tasks and methods, first achievers, ranks as times, distances in the components as layers) that is feasible for each group of constraints and has the costs of the solution as objective; the solver returns an optimum by contract; without the bound of 100 occurrences the claim is violated |
| C73 | delete- and order-free heuristic is exact for the relaxation (partial) | from an integer point a multiset of methods is read off that is connected (times order the actions, layers reach every task of a cyclic component), and trees are built from it by induction on its size; the other direction is C72 for relaxed solutions; the bound of 100 occurrences remains |
| C74 | problem files are read as described | the format is a relation between descriptions and lists of lines, built from sequence, repetition and single lines; readers are shown to consume exactly the lines of their format, and compose along it; every description has a text; tables by loop invariants; equality of solutions by C09 |
| C75 | from the file to the verdict | the conditions of C01, C02, C21 (well-formedness, total order with reduced orderings, task numbering, reachability of tasks) are derived from the description through C74; a primitive initial task by running the model |
| C76 | the common graph of partially ordered methods | invariants of the placement (edges and forbidden edges are disjoint and cover all pairs of a method; every edge stems from a method); closure under transitivity for the simple cases; cycles and transitive orders by running the model |
| C77 | printed plans are solutions (partially ordered) | from a model: the decomposition by the constraints of the tree, the schedule by the matching of leaves and positions; the orders through the graph of the leaves, its expansion and the removal of transitive edges (acyclic graphs); violations: concrete models of the formula of problems that have no solution |
| C78 | the formula is exact, least depth (partially ordered) | from a solution: choice in the tree, the schedule as positions of the leaves, variables for forbidden positions from the transitive closure; violations: refutation of the concrete formula by a verified case distinction |
| C79 | Push translation exact for a bound | refinement: values of the new variables encode a task network with an injective map of tasks to cells; each operator is a step of the bounded progression or keeps the network (moves); for the converse, moves bring the tasks to the lowest cells before each decomposition; violations: plans and closed sets of states of concrete translations |
| C80 | rounds of the Push translation are complete | every solution has a progression with networks of bounded size (induction over the decomposition tree), then C79 |
| C81 | BaseStrips translation sound | refinement: cells and the edges between them are an acyclic graph; the order of the tasks is reachability in it, also through cells with empty tasks; each operator removes a vertex without predecessors or replaces it; violations: plans of concrete translations, a potential function for the cheapest plan |
| C82 | BaseStrips translation complete | strong induction on occupied cells and remaining decompositions: remove an empty task, decompose or execute a task without predecessors; the combinations are shown to be enumerated completely |
| C83 | printed decompositions for BaseStrips (partial, as C81) | backward induction over the plan: the line found for each task of the current network is the root of its part of the decomposition; one generic run of tasks in cells (`CellRun`), instantiated by the three translations |
| C84 | printed decompositions for Push (partial: only without moves) | as C83; violations: two concrete plans with moves whose output is no decomposition |
| C85 | printed decompositions for parallel sequences (partial, as C68) | as C83, the cells are the positions in the stacks |
| C86 | SAT output for partially ordered problems (partial, as C77) | the numbering of the vertices of the tree in one pass; the leaves matched with positions are those with actions, in the order of the schedule; induction over the tree for the lines |
| C87 | printed order of the actions (partial, as C77; exact only if the common graphs are) | invariant of the depth-first search: the set of a finished vertex is what is reachable from it; reachable leaves are those ordered after it (C77) |
| C88 | optimisation of costs for partially ordered problems (partial: all actions have effects, common graphs exact, at most 65536 leaves) | at most one action per position in every model, so that the lemma for the cost clauses of C58 applies; the clauses use no later variables; induction over the steps with the distance to the least costs and to the depth of a cheapest solution |
| C89 | printed order of the actions, totally ordered problems | the numbers of the actions are those of the canonical linearisation; two leaves are ordered by their first different subtasks |
| C90 | whole run with optimisation, totally ordered problems (partial: costs between 1 and 999, improvement from the second plan on) | the outputs refine the plans of C58; the run is the loop of C55 followed by the one of C58 |
| C91 | whole run with optimisation, partially ordered problems (partial: as C86-C88, costs between 1 and 999, improvement from the second plan on) | the outputs refine the plans of C88; the run is the loop of C78 followed by the one of C88, with the number of steps that is left |
| C92 | `writeToPDDL`: methods keep their meaning (partial: method totally ordered, or its no-op subtasks not ordered and not numbered next after an ordered one; names without replaced characters) | potential (stack + pending orderings) and invariant of the stack loop; a chain has one linearisation; otherwise precondition first and no-ops last extend a written linearisation |
| C93 | specifications of heuristics and the array of values (partial: well-formed specifications; option `pg` of `dof` is wrong) | words of a joined list; last assignment wins; entry n of the array of objects is the first equal specification, induction over the loop |
| C94 | sessions of the interactive planner (partial: sessions that choose applicable actions; the program does not check this) | every round is a step of `Reached`; soundness from C05, definedness from C06; inputs constructed for every choice |

## What is modelled (files of /repo/src)

| Lean module | Code | Simplifications |
|---|---|---|
| HtnSpec, HtnLemmas | none (specification of HTN solutions by decomposition) | |
| TaskCounter, IntSearch | Model.cpp updateTaskCounterA/M; IntUtil binary search | |
| Progression* , DecomposeInv | Model.cpp apply, decompose, initializeMethod, prepareTNi, isApplicable, isGoal, generateMethodRepresentation (distinct subtasks) | no conditional effects (the code ignores them), no landmark tracking, no freeing of memory |
| Search*, Reached, Termination | search/PriorityQueueSearch.h main loop | time, heuristics, fringe, duplicate check are parameters with stated conditions |
| Fringe, SimpleHeur | OneQueueWAStarFringe, hhZero, hhSimple | priority_queue as sorted insertion with an arbitrary choice among equal elements |
| Ordering, OrderFlags | computeTransitiveChangeOfMethodOrderings, isMethodTotallyOrdered, isParallelSequences flags | |
| Chains | VisitedList.cpp to_dfs | |
| Bits, Trie, TopSort, VisKey, VisSound | VisitedList.cpp state2Int, topSort, hash functions, insertVisi (TO / sequences mode), HashTable, compressed trie | hash-table and trie pointers as values; `none` = undefined behaviour |
| Matching, VisPo | VisitedList.cpp dfsdfs, matching*, insertVisi in partial order mode | stored nodes as values; iteration orders are parameters |
| MinImplied | Model.cpp calcMinimalImpliedX | non-negative costs; overflow is the outcome `none` |
| Record, Extract, SearchReached | ProgressionNetwork.cpp 160-210 (extractSolutionFromSearchNode); solution step records of apply/decompose (Model.cpp 604-1393) | lines are tuples instead of text; the text framing (`==>`, `<==`) and printTraceOfSearchNode are not modelled; `std::sort` on distinct pairs is insertion sort (the result is unique) |
| Strips, HMax | hsLmCut::getHMax, inverse mappings of RCModelFactory; priority queue by its contract, instantiated with IntPairHeap | delete effects (not read by these heuristics); costs are natural numbers whose sum is below INT_MAX |
| LmCut | hsLmCut::getHeuristicValue, calcGoalZone, forwardReachabilityDFS; stack capacity and the access `goalZone->get(UNREACHABLE)` are an outcome of their own | `updateHMax` (compiled only with LMCINCHMAX, which is never defined); the sets are finite sets, but erasing while iterating follows the counters of bucketSet |
| AddFF | hsAddFF: exploration (both variants), early exit, overflow test, getFF with the stack capacity | the wrap-around test of the code is modelled as "mathematical value above INT_MAX" |
| Scc | Model::tarjan, graph::tarjan | integers unbounded; `dfsI`, `lowlink` start with arbitrary contents; out-of-bounds access and popping the empty stack are the outcome `none` |
| SccGraph | Model::calcSCCs, constructSCCGraph, calcSCCGraph, analyseSCCcyclicity (without topsortDFS, whose result is never read); graph::calcSCCs | a `std::set` of component or task numbers is the ascending list of its content; a component's array is the list of the entries written |
| Reach | Model::updateReachability, calcReachability, noDelIntSet | `reachableT` is a map from steps to sets; steps are never freed |
| Rc | RCModelFactory::getRCmodelSTRIPS, hhRC2::setHeuristicValue with hsLmCut, hsAddFF (FF) and hsFilter | names, delete lists and the unused initial state of the classical model left out; the inner heuristics get the contents of the two sets as lists |
| RcSearch | the search with hhRC2 as heuristic (PriorityQueueSearch.h 113-138, SearchEngine.cpp 227-262, 319-348) | `updateReachability` is called when a node is evaluated, not when it is created; an undefined value sets a flag and the search goes on with 0 |
| StateFormula | sat/state_formula.cpp generate_state_transition_formula; sat/disabling_graph.cpp doActionsInterfere, compute_block_compression | leaves given as lists of (variable, action); no leaves without compression is undefined (`none`); debug output not modelled |
| Invariants | Invariants.cpp extract_invariants_from_parsed_model, insert_invariant, can_state_features_co_occur | array of hash sets as a function with lists; traversal order is a parameter; inserting into the traversed set is `ub` |
| Rintanen | Invariants.cpp compute_Rintanen_* | index lists per predicate replaced by loops over all candidates; conditional effects are ignored as in the code |
| MethodOrder | Model.cpp methodTopSortDFS, isMethodTotallyOrdered | iteration order of hash sets left open |
| TotalOrder | (specification) decompositions of bounded height of totally ordered problems, their only linearisation | |
| Sog | sat/sog.cpp optimiseSOG, runTOSOGOptimiser | positions as numbers |
| PoSog, PoExact, PoBound | sat/sog.cpp runPOSOGOptimiser (8-174) | graphs as lists of pairs (`bdj`, `antiBdj` are the transposed ones); more than 65536 vertices are the outcome `none` |
| PoLeaf, PoRep | sat/pdt.cpp getLeafSOG (441-460), sog.cpp removeTransitiveOrderings, expandSOG (592-726) | the graph of the leaves by paths instead of numbers |
| PoMatch | sat/partial_order.cpp, state_formula.cpp 232-347, sat_planner.cpp 98-117, 297-475, 782-838 for partially ordered problems | the order of iteration over the `unordered_set` of actions is a parameter; that over successors only changes the order of clauses and is fixed |
| PoSem, PoPlan, PoSched, PoFormula, PoComplete, PoLoop | none (meaning of the clauses, schedules, soundness and completeness) | |
| Flat | none (problems without hierarchy; refutation of formulas by case distinction; for concrete cases) | |
| Pdt, PdtTree, PdtSel | sat/pdt.cpp constructors, expandPDT, expandPDTUpToLevel, getLeafs | flat arrays as nested lists; the result of `std::sort` (unstable) is a parameter; the read beyond `numAdds` in compact mode and `exit(0)` are `none` |
| PdtPrune, PdtPruneInv, PdtFilter | sat/pdt.cpp propagatePruning, pruneCause; sat/sat_planner.cpp filter_leafs_ff, filter_leafs_Rintanen, pruning loop of createFormulaForDepth | all pruning tables as one set of flags; recursion with fuel, proved sufficient |
| SatItems, PdtSat, PdtVars, PdtFormula, PdtDecode | sat/pdt.cpp assignVariableIDs, addDecompositionClauses, addPrunedClauses; sat/sat_encoder.cpp impliesOr, impliesAllNot | the tables of variables as one partial map; clauses as lists; an at-most-one constraint is an item that `emit` expands with new variables (C34) |
| SatMutex, SatPlan, SatLoop, SatInvs | sat/state_formula.cpp generate_mutex_formula, get_linear_state_atoms; sat/sat_planner.cpp createFormulaForDepth (totally ordered, no cost bound), loop over depths, action lines of printSolution; SearchEngine.cpp 465-468 | the SAT solver is a parameter: any function that returns models (for completeness: and only fails on unsatisfiable formulas); time limits and memory are not modelled |
| SatPrint | sat/pdt.cpp assignOutputNumbers, printDecomposition; sat/sat_planner.cpp printSolution (totally ordered) | identifiers and lists of lines, not the characters |
| PoPrint, PoPrintMain, PoOrder, PoPrintLoop | sat/sat_planner.cpp printSolution (66-148) for partially ordered problems, sat/sog.cpp `succdfs`, `calcSucessorSets` (616-636), the loop over depths with the output | identifiers and lists of lines, not the characters; the sets are lists; the order lines for totally ordered problems (126-134) are `orderTO` in Props/SatOrder |
| PoCost | sat/sat_planner.cpp 483-512, 707-777 for partially ordered problems | as SatCost: costs are a parameter, no overflow; more than 65536 leaves are a distinct outcome that is not followed |
| SatMain | sat/sat_planner.cpp 707-838 with all of `printSolution`, totally ordered problems | costs are a parameter, no overflow; the time and the statistics that are printed are left out |
| PoMain | sat/sat_planner.cpp 707-838 with all of `printSolution`, partially ordered problems | as SatMain and PoCost |
| WriteHddl | Model.cpp 2781-2941 (`writeToPDDL`, domain), StringUtil.cpp `cleanStr` | files as structures (tasks, methods, actions by number) instead of text; the lists of facts of actions, the initial state, the goal (2916-2971), which are copied one by one, are not modelled; costs and conditional effects are not written by the code |
| HeurArgs | SearchEngine.cpp 49-98, 277-411 (reading of specifications, repeated ones, inner heuristic of `rc2`, planning graph of `dof`); PriorityQueueSearch.h 115-132, 180-197 | a map is a function; repeated specifications by equality of an arbitrary type; a heuristic is a function of the node (value and flag); other options are read in the same way and not modelled one by one |
| Interactive | interactivePlanner.cpp 7-61 | the lists printed are not modelled; standard input is a list of integers, its end is an outcome of its own (not a read of an unset variable); a ghost flag records whether every chosen action was applicable |
| SatCost | sat/sat_planner.cpp cost clauses of createFormulaForDepth, optimise_with_sat_planner_linear_bound_increase, logarithmic costs | sums of costs do not overflow; `log` is the real logarithm; the loop is cut after any number of steps |
| PdtEval | none | variants of the pruning functions that the kernel can evaluate, proved equal, for witnesses only |
| RefCount | ProgressionNetwork.cpp ~solutionStep, ~planStep, ~searchNode; the counting of `pointersToMe` in Model.cpp apply, initializeMethod, decompose and prepareTNi | addresses are never reused, counts unbounded; destructors recurse as in the code, stack depth not modelled; heuristic data of nodes not modelled |
| AndOrGraph, AndOrLM, LmCausal, LandmarkHtn, Props/Landmarks | src/heuristics/landmarks/lmExtraction/LMsInAndOrGraphs.cpp, LmCausal.cpp, lmDataStructures/LmAoNode.cpp | heaps: any order of popping; the SCC numbers used as keys in LmCausal are left open (`key`); conversion to `landmark` objects is left out; sets left over from an earlier call of generateAndOrLMs on the same object are not modelled (arrays of LmCausal are) |
| PlanGraph | planningGraph.cpp (calcReachability), LmCausal.cpp 638-650, hhDOfree.cpp 411-460 (updatePG, tests before the linear program; optional LM-cut call left out) |
| SasTask | (specification: SAS+ tasks, plans, costs) | |
| SasVars, SasActs, SasInit | translation/htnToSAS.cpp `sasPlus` (67-216), table `convertMutexVars` of `writeToFastDown` | mutex groups and names not modelled |
| ToStack | (specification: working off a decomposition with a bounded stack) | |
| ToTrans, ToTransOps, ToTransComb, ToTransSim, ToTransMain, ToTransWF, ToReorder, ToTransInput | htnToSAS.cpp `calculatePrecsAndAdds` (218-301), `reorderTasks` (304-418), `tohtnToStrips` (952-1166), `writeToFastDown` (2208-2490) | result as abstract SAS+ task, not as text; the translation `htnToCond` (never called) is not modelled |
| PsSpec, PsStack, PsTrans, PsOps, PsSim, PsMain, PsWF | htnToSAS.cpp `htnPS` (1169-1479), `reorderTasks(true)` (304-418), first bounds translationController.cpp 192-205 | result as abstract SAS+ task; out-of-bounds reads are `none`; names of operators as in PoHddl |
| PushTrans, PushOps, PushSim, PushMain, PushEq | htnToSAS.cpp `htnToCondSorted` (547-949), `reorderTasks(false)` (304-418), `writeToFastDown` with conditional effects | result as abstract SAS+ task with conditional effects; out-of-bounds reads are `none`; the two conditional effects of each move that are never assigned (allocated 714-730, assigned 856-906) are a parameter (`junk`) |
| StripsTrans, StripsComb, StripsOps, StripsNet, StripsMain, StripsCompl, StripsEq | htnToSAS.cpp `htnToStrips` (1481-1849), `combination`, `bin` (12-49), `hasNoLastTask` in `reorderTasks` (304-418), `writeToFastDown` without conditional effects (2208-2490) | result as abstract SAS+ task; out-of-bounds reads, overflows of `bin` and the early return with the rest uninitialised are `none` |
| ProgSpec | none (specification: progression with networks of at most `B` tasks; relation to the solutions) | |
| Pgb | htnToSAS.cpp `minProgressionBound`, `calcMinimalProgressionBound` (419-540), translationController.cpp 187-213 | for totally ordered problems; integer overflow is `none` |
| SymVars, SymImage | sym_variables.cpp, transition_relation.cpp (`init`, `image`, `preimage`) | a BDD is the Boolean function it represents; `ceil(log2(.))` without rounding; merging of relations, limits of nodes and time of the library are left out |
| Automaton, AutomatonSpec, AutomatonInv, AutomatonPrim, AutomatonAbs, AutomatonTwo, AutomatonRun, AutomatonSym, AutomatonHom, AutomatonTab | automaton.cpp (`build_automaton`) | maps are sorted lists; the loop has fuel (`none`: not finished); extraction of the plan, `tracingInfo` members that only it reads, and output are left out; iterating over `edges` while `ensureBDD` inserts is modelled with the entries at the start of the loop |
| Dof, DofTree, DofShape, DofFeas, DofCons, DofLayer, DofSafe, DofNet, DofRun | hhDOfree.cpp (whole program of `recreateModel`), LmCausal.cpp 786-832 | variables have names instead of indices; the solver is a contract (an optimal value, or none if there is no feasible point); rational instead of floating point numbers; `TRACKLMSFULL` is compiled out |
| DofRelax, DofExact | the problem without delete effects and orderings; integer points of the program of hhDOfree.cpp | |
| ToHddl, HddlText | htnToSAS.cpp `planToHddl` (2520-2735), the names written by `tohtnToStrips` (1137-1163), the text parts of `calculatePrecsAndAdds` (218-242) and `writeToFastDown` (2361-2379) | strings as lists of characters; `subHeadsFixed` and lines `move`, which only matter for the other translations, are left out; the planner is assumed to write `(name)` per operator |
| PoHddl, PoHddlSt, PoHddlPs, PoHddlPush | htnToSAS.cpp `planToHddl` (2520-2736) for plans of the translations of partially ordered problems, with `subHeadsFixed` and the lines `move`; the names of the operators (913-946, 1350-1362, 1426-1470, 1662-1680, 1813-1835) | lines by the numbers in the names of the operators; reading them from text is not modelled for these names (see HddlText for the one of totally ordered problems) |
| IntSort, IntHeap, IntSets*, Deque | intDataStructures/*, UnsortedFringe, chunk containers | |
| Parse | readIntList, readConditionalIntList | input = list of characters |
| ReadFile, ReadSpec, ReadMain, ReadTables | Model::read, readClassical, readHierarchical, generateMethodRepresentation: the whole problem file | input = list of characters with the flags of the stream; uninitialised numbers, indices out of range and failed assertions are the outcome `ub`; indices are checked when they are read; the number of conditions of conditional effects (never written by the code) is left out |
| SatEncoder | sat/sat_encoder.cpp atMostOne, atMostK, basic clauses | clauses instead of solver calls |
| Iso | none (network isomorphism preserves solutions) | |

Not modelled: command line handling (apart from the specifications of heuristics), statistics output, the SAT solver itself,
the extraction of plans from the BDDs, anything not listed above.

## Findings (places where the code does not have the property)

Proved in Lean (theorem names ending in `_violated` or mentioned):

1. C11: `isParallelSequences` stays true for methods of the initial task whose order is an in-tree or out-tree.
2. C25: trie lookup of a key whose length is a multiple of 64 and which is a proper prefix of a stored key shifts by 64.
3. C27: with evaluation -1 the payload is 0, the node is never recognised as visited.
4. C29: `noDelIntSet::setIntersection`, iteration of `delIterIntSet` after deletion, `bIntSet` erase after append.
5. C30: `IntPairHeap` constructed with capacity 0 never grows.
6. C31: the assertion in `UnsortedFringe::empty` fails at chunk boundaries.
7. C33: `readIntList` does not terminate if the closing -1 is missing.
8. C35: `atMostK` with K = -1 emits no constraint.
9. C26: `matchingDFS` takes the mapping by value, so that networks that are not isomorphic are judged equal.
10. C02: as a consequence, the search reports a solvable partially ordered problem as unsolvable
    (`C02_network_comparison_violated`); likewise a problem wrongly taken for parallel sequences
    (`C02_parallel_sequences_violated`).
11. C16: `calcMinimalImpliedX` does not terminate (or overflows) if a task has only recursive methods.
12. C19: an action without preconditions overwrites the h-max value of a state fact, the value is then no lower
    bound (`C19_precless_violated`); a precondition listed twice makes a reachable goal unreachable
    (`C19_duplicate_violated`).
13. C18: a value that reaches INT_MAX is confused with UNREACHABLE (`C18_saturation_violated`).
14. C46: `getFF` pushes preconditions repeatedly on a stack with capacity numStateBits, without a check: out-of-bounds
    write on a model with six facts (`C46_stack_violated`).
15. C32: `calcSCCs` leaves tasks that cannot be obtained from the initial task without component and then counts
    them at index -1 (`C32_unreachable_task_undefined`); C14, C32, C47 therefore assume that there are none.
16. C48: the distance estimate with the correction for several copies is not a lower bound of the distance, even with
    LM-cut (`C48_distance_correction_violated`; the code does not claim it).
17. C02/C17: an RC value which becomes exactly INT_MAX by the correction for several copies of a task is taken for
    UNREACHABLE; the search reports a solvable totally ordered problem as unsolvable (`C02_rc_saturation_violated`).
18. C36: a fact in both the add and the delete list of an action gives contradictory clauses in the SAT state formula:
    the action is executable (adds win) but no model selects it (`C36_add_and_delete_contradict`).
19. C38: an action that adds and deletes the same facts makes the invariant synthesis unsound
    (`C38_unsound_violated`).
20. C39: if the given clauses imply a literal, resolution inserts into the `unordered_set` it is traversing (iterators are
    invalidated if the table is rehashed; `C39_insert_while_iterating`).
21. C52: with `--methodPreconditionsInSeparateLeafs`, the choice of a child for an inherited action reads `numAdds` at the
    number of an abstract task, beyond the end of the array, already in tiny problems (`C52_compact_violated`).
22. C55: an action that adds and deletes the same fact makes the fact true when executed (`Model::apply`), but its clauses
    demand that the fact is both true and false; a solvable problem whose plans need such an action makes the SAT planner
    run forever (`C55_clash_violated`).
23. C54: if an abstract task without methods shares a position with an action, the position of the action in the children
    of a vertex without children is read; undefined behaviour before the solver is called, in a solvable problem
    (`C54_no_methods_violated`).
24. C58: after a plan of cost 0 the bound becomes -1, with which the cardinality constraint is empty (C35): the optimisation
    then prints arbitrary, possibly more expensive plans (`C58_zero_cost_violated`).
25. C58: the optimisation replaces every cost c > 0 by 1 + floor(ln c); the last plan is the cheapest for these costs, not for
    those of the problem: with actions of cost 7 and 2 it ends with a plan of cost 7 instead of 6, for every correct
    solver (`C58_true_costs_violated`).  The branch that resets the depth after 15 depths without improvement is dead
    (`optLoop_step`: its condition is never true).
26. C59: `generateAndOrLMs` starts from the initial state of the problem even when it is called for another search node; what it returns for
    a node after an action has been executed need not occur in its solutions (`C59_andor_other_state_violated`).
27. C59: `LmCausal::copyGlobalLMsToResultSet` reads `numNodes` entries of the array of a goal fact or task without derivation (full set),
    which has not that many (`C59_causal_unreachable_ub`); a node with a solution is not affected.
28. C60: the planning graph enters facts of the state and facts added by actions without preconditions into its queue once per occurrence, so
    such a fact may be counted twice as precondition and an action marked though a precondition is unreachable (`C60_exact_violated`). The
    result is still an over-approximation.
29. C61: SearchEngine.cpp 228 maintains reachability of actions only (`mtrACTIONS`), but `hhDOfree` passes these sets to the planning graph,
    which requires that the decomposed task of a method is in the set. So no method and no abstract task is ever marked, and the
    heuristic `dof` declares every node with an abstract task unreachable, including the initial node of every problem
    (`C61_actions_only`, `C61_dof_safe_violated`). With `mtrALL` the test is safe (`C61_dof_safe_partial`).
30. C62, C64, C65: `sasPlus` looks for the variable of a true fact only among the first `s0Size` variables (htnToSAS.cpp 180-187, the bound
    should be `numVars`). A variable with one fact whose number is at least the number of true facts is always written as false
    (`C62_initial_state_violated_general`), and the value of its fact is written to another variable. Solvable problems become unsolvable
    (`C64_initial_state_violated`) and unsolvable ones solvable (`C65_initial_state_violated`).
31. C63: `reorderTasks` uses `subTasks[n-1-subs[j]]` where `subTasks[subs[n-1-j]]` is meant; for totally ordered methods the result is the
    reverse order iff the numbering is symmetric (`C63_reorder_iff`). For partially ordered methods subtasks are lost and others doubled
    (`C63_reorder_violated`). The leading actions are counted by number, not by order, so an abstract task may be used as an action, reading
    `actionCosts` out of bounds (`C63_abstract_prefix_violated`).
32. C65: `calculatePrecsAndAdds` ignores a precondition that contradicts an earlier one on a variable that has not been changed: the
    translated problem of an unsolvable problem has a plan (`C65_prefix_violated`). When it does notice a contradiction, the operator is
    written without precondition and effect instead of being left out; a plan with such an operator is not a solution
    (`C65_blank_violated`); plans of least costs do not contain one (`C65_translate_optimal`).
33. C67: the functions that read names of operators search for keywords in the whole name. `planToHddl` throws an exception for a method with
    actions only whose name contains `subtasks`, like `m_no_subtasks` (`C67_subtasks_violated`); `writeToFastDown` throws one for an action
    named `firstPrim`, and takes action 0 for a leading action of one named `firstPrim_0_` (`C67_firstPrim_violated`).
34. C68: the order of the subtasks that `reorderTasks` computes for methods of the initial task that are not totally ordered loses subtasks and
    doubles others: plans that are no solutions (`C68_lost_task_violated`), and a solvable problem without plan (`C68_unsolvable_violated`).
35. C68: `htnPS` takes the number of sequences from the first method of the initial task; if the others have fewer subtasks, arrays are read
    out of bounds, if they have more, subtasks are lost (`C68_top_methods_violated`).
36. C68: methods without subtasks change the height of the first stack instead of that of the stack they are applied on
    (`C68_empty_method_violated`). (Models read from files have no such methods.)
37. C69: `calcMinimalProgressionBound` runs until an integer overflows if a task can not be decomposed, e.g. has the only method t → t, a,
    though the problem is solvable without it (`C69_overflow_violated`). Methods that have not been reached count as 0, so that the bound may be
    far too small; it is a lower bound nevertheless.
38. C70: if an action adds and deletes a fact that is a variable of its own, the transition relation of the symbolic planner removes the fact,
    while it holds after the action everywhere else in the planner (`C70_clash_violated`).
39. C70: if no fact of a variable with several facts holds initially, the symbolic planner starts with the state in which the second fact of
    the variable holds (`C70_no_value_violated`).
40. C71: the symbolic planner reports "Problem is unsolvable" for a solvable problem (`C71_incomplete`): if a task is decomposed in the same
    state at two costs, the second context is not continued.
41. C71: for the same reason, the reported costs are not those of a cheapest plan (`C71_not_optimal`).
42. C71: the search dereferences the end of a map (`C71_undefined`), or exits with "state attached to edge is
    empty ... bug!" (`C71_bug_exit`), for solvable problems.
43. C71: if a method lists its subtasks in the wrong order (ordering `1 0`), the condition `ordering[method][0] == 1 && ordering[method][1]`
    is false and the subtasks are not exchanged: the planner reports plans that do not exist and misses plans
    (`C71_wrong_order_unsound`, `C71_wrong_order_incomplete`).
44. C72: the constant 100 in the constraints (hhDOfree.cpp 566, 773, `largeC`) is not a bound on the number of occurrences of a task: a
    solvable node all of whose solutions contain an action more than 100 times gets the value UNREACHABLE with the constraints for the
    planning graph (`C72_hundred_violated`).
45. C73: the assertion in hhDOfree.cpp 156 is wrong: it fails exactly if the initial task is among its own descendants, which is legal
    (`C73_assertion`).
46. C74: cyclic method orderings are not reported but dropped: a constraint that involves a subtask on a cycle is not stored, so a problem
    without solution becomes solvable (`C74_cyclic_violated`).
47. C74: at the end of the file `getline` leaves its string unchanged and the reader does not look at the stream's state, so a file that
    ends within the list of tasks is accepted, with its last task repeated (`C74_truncated_violated`).
48. C75: if the initial task is primitive, the problem is always reported as unsolvable: the task is put among the abstract ones and has no
    method (`C75_primitive_init`, `C75_primitive_violated`).
49. C76: the common graph of methods without cycles may have a cycle, and orders follow by transitivity that no method has
    (`C76_cycle_violated`, `C76_transitive_violated`).
50. C77: actions without effects may share the position of the action that is ordered before them, and then are executed before it: the
    planner prints a "plan" for a problem without solution (`C77_effectless_violated`).
51. C77: if the graph of a vertex has a cycle, `removeTransitiveOrderings` removes orders that do not follow from others; the planner prints a
    "plan" for a problem without solution although every action has an effect (`C77_cycle_violated`).
52. C78: there are as many positions as leaves that have actions with effects, so that actions without effects cannot come after the last of
    them: a solution of height 1 is not found at depth 1 (`C78_effectless_violated`).
53. C78: the orders that follow by transitivity in the common graph are imposed on the methods: a solution of height 1 is not found at
    depth 1, even if all actions have effects (`C78_transitive_violated`).
54. C79: the operators that move tasks are written with two conditional effects that were never assigned; with suitable contents of the
    memory, the file has plans for problems without solution, no plans for problems that have one, or the array of facts is read out of
    bounds (`C79_uninit_violated`).
55. C79: `BaseCondEffects` writes the same operators without their conditional effects, so that the orderings of the methods are lost
    (`C79_no_cond_violated`).
56. C79, C80: as in C68, `reorderTasks` loses a subtask if the last two subtasks are not ordered: plans that are no solutions, solutions that
    are no plans (`C79_lost_task_violated`, `C80_lost_task_violated`).
57. C81: `hasNoLastTask` looks for a subtask that is before all others instead of one that is after all others. For a method with a first but
    no last subtask, the tasks after it need not wait for all of its subtasks: plans that are no solutions (`C81_first_not_last_violated`).
58. C81: the operators for empty tasks are written with the costs of the first action: a cheapest plan is not a cheapest solution
    (`C81_empty_cost_violated`).
59. C81: as in C68, `reorderTasks` loses a subtask if the last two subtasks are not ordered (`C81_lost_task_violated`).
60. C82: the number of operators of a method with two unordered subtasks does not fit for 65538 cells and more; the function returns early
    and the caller goes on with what has not been initialised (`C82_overflow_violated`).
61. C84: after a move, two tasks of the same kind that have been executed in the same cell one after the other are printed with the same line; the
    line of the second one is a subtask of no line (`C84_push_hddl_twice_violated`).
62. C84: `planToHddl` marks a subtask as done only for lines of actions; a later move from the same cell then changes the cell of a subtask that
    has been decomposed, and -1 is printed for it and for the moved task (`C84_push_hddl_lost_violated`).
63. C86: for partially ordered problems the numbers of the subtasks in a printed line are in the order of the vertices of the common graph, not in
    the order of the subtasks of the method, as they are for totally ordered problems (`C86_method_order_violated`).
64. C87: the printed order contains orders that follow from the orders of other methods of the same vertex by transitivity and not from the
    decomposition (`C87_exact_violated`).
65. C88: actions without effects may share a position of the plan, where the cost variables count them once: the optimisation prints the same
    plan again and again, although each time the bound is below its costs (`C88_effectless_violated`).
66. C88: the cost variables of a position exclude that actions with different costs share it, so that with actions without effects cheaper plans
    are not found, although the formula without costs has models for them (`C88_effectless_incomplete_violated`).
67. C90, C91: the second plan of a run can be more expensive than the first, since the first bound of the optimisation (costs of the first
    plan minus 1, factor 1000) is rounded down to a multiple of 1000 and so are the costs of the actions (sat_planner.cpp 29, 492-510, 717; `C90_second_plan_violated`, `C91_second_plan_violated`).
68. C92: `writeToPDDL` leaves out orderings by testing whether the *number after* the first subtask is a no-op, instead of whether the second
    subtask is.  So orderings between other subtasks are lost (`C92_order_lost_violated`), and orderings with a label which is not declared are
    written (`C92_dangling_violated`).  Also `cleanStr` is not injective, so different facts get the same name (`C92_names_violated`).
69. C93: `pg=relaxed` has no effect for the heuristic `dof`, since the value of `tdg` is tested (SearchEngine.cpp 375; `C93_pg_violated`).  A
    specification without closing parenthesis loses its last character without a message, so that `rc2(h=lmc` is FF (`C93_unclosed_violated`).
70. C94: the interactive planner carries out actions whose preconditions do not hold, so a session can end with all tasks done and the
    goal true although the actions are no solution (interactivePlanner.cpp 58; `C94_inapplicable_violated`).  When no task is left it asks
    on, and any number but -1 and -2 is an out-of-bounds read (`C94_end_violated`); so are numbers below -2 (`C94_negative_violated`).

Found by reading, not (yet) proved:

* With `OPTIMIZEUNTILTIMELIMIT` (set only together with `SAVESEARCHSPACE`) a node stored as solution by the early goal test is also pushed to the fringe and deleted after expansion, so the printed solution is read from a freed node. Nodes that the heuristic recognises as unsolvable are never deleted outside suboptimal search; so are processed nodes of the optimal search.
* `__builtin_clz(0)` for instances with a single task; separators lose their top bit outside sequences mode.
* `bucketSet` erase during iteration in `hsLmCut` keeps actions in the cut (harmless, modelled in LmCut).
* suboptimal search with network comparison reads the uninitialised `fValue`.
