{"id": "C01", "title": "Every plan the progression search reports is a valid HTN solution", "statement": "If the search prints 'Status: Solved', the printed action sequence is an executable linearisation, from the initial state to a state containing all goal facts, of the leaves of some decomposition tree of the initial task that uses only methods of the input and respects every ordering constraint of every method used.", "quantifier": "every grounded HTN problem, every heuristic, every fringe strategy, every outcome of rand(), every allocation order of plan steps", "why_tests_cant": "Tests run a finite set of domains; validity has to hold for every domain, every interleaving of decompositions and progressions and every tie-breaking choice.", "anchors": ["src/Model.cpp: Model::apply, Model::decompose, Model::initializeMethod, Model::isGoal, Model::prepareTNi", "src/search/PriorityQueueSearch.h: search"]}
{"id": "C02", "title": "'Proven unsolvable' is only reported for unsolvable problems", "statement": "If the fringe runs empty and the search prints 'Status: Proven unsolvable', the problem has no solution, provided that the duplicate check only identifies search nodes that are solvable in the same ways and the heuristic only marks nodes unreachable that have no solution.", "quantifier": "every grounded HTN problem, fringe strategy, random choice, allocation order, and every safe heuristic and exact duplicate check", "why_tests_cant": "An exhaustive-search verdict quantifies over all decompositions and all linearisations, including infinitely many trees; no test suite enumerates them.", "anchors": ["src/search/PriorityQueueSearch.h: search", "src/Model.cpp: Model::apply, Model::decompose"]}
{"id": "C03", "title": "After applying an action the unconstrained tasks are exactly the tasks without remaining predecessors", "statement": "When an unconstrained primitive task is applied, the new node's list of unconstrained tasks contains, without repetition, exactly those remaining tasks that have no remaining predecessor, and every other remaining task is still reachable through the successor links.", "quantifier": "every task network (arbitrary acyclic order with shared successors), every choice of the applied task, every address order of the std::set of candidates", "why_tests_cant": "The candidate set is filtered by a graph search with an early exit whose correctness depends on the shape of the whole partial order.", "anchors": ["src/Model.cpp: Model::apply (potentiallyFirst / potentialPredecessors / done loop)"]}
{"id": "C04", "title": "Decomposing a task replaces it by the method's subtasks inside the order", "statement": "When an unconstrained abstract task is decomposed with a method, the resulting network consists of the remaining tasks plus one fresh task per subtask; new tasks are ordered as in the method, inherit all successors of the decomposed task, all other order relations are unchanged, and the unconstrained tasks are again exactly the tasks without predecessors.", "quantifier": "every task network, every unconstrained abstract task, every method with an acyclic ordering", "why_tests_cant": "Whether transitively implied orderings survive the re-linking of only the last subtasks is a statement about all partial orders.", "anchors": ["src/Model.cpp: Model::decompose, Model::initializeMethod, Model::generateMethodRepresentation"]}
{"id": "C05", "title": "Immediate progression of effect-free and forced actions loses no solution", "statement": "Applying an applicable, unconstrained action without add and delete effects right away, and applying the only applicable action when no abstract task is unconstrained, preserves solvability of the node exactly; a node flagged as dead by this mechanism has no solution.", "quantifier": "every search node and every number of chained effect-free / forced actions", "why_tests_cant": "Preservation is a claim about all solutions below a node; tests only observe that some solution is found.", "anchors": ["src/Model.cpp: Model::apply, Model::decompose (progressEffectLess, progressOneModActions)"]}
{"id": "C06", "title": "Progression of a node always terminates", "statement": "Computing a successor node terminates: the predecessor filter stops although nodes may be queued several times, and the chain of automatic effect-free / forced progressions is finite.", "quantifier": "every acyclic task network and every state", "why_tests_cant": "Termination on every network cannot be observed by running finitely many of them.", "anchors": ["src/Model.cpp: Model::apply"]}
{"id": "C07", "title": "Reported costs and depth equal the plan's costs and length", "statement": "In every node reached by search the stored action cost is the sum of the costs of the actions applied on the way, and the stored modification depth is the number of decompositions plus applied actions; the reported solution length is that number.", "quantifier": "every sequence of decompositions and action applications including automatic progressions", "why_tests_cant": "The counters are maintained incrementally in several places; the equality must hold for every history.", "anchors": ["src/Model.cpp: Model::apply, Model::decompose", "src/ProgressionNetwork.cpp: extractSolutionFromSearchNode"]}
{"id": "C08", "title": "The printed decomposition hierarchy is a decomposition tree of the printed plan", "statement": "The printed hierarchy lists every applied method exactly once; reading it from the printed root along the listed children gives a valid decomposition tree of the initial task whose leaves are exactly the printed plan steps, with the children of each line listed in subtask order.", "quantifier": "every solution found, whatever the instance numbers handed out to other branches of the search", "why_tests_cant": "Instance numbers are global counters shared by all branches; uniqueness along each branch is an invariant over all search histories.", "anchors": ["src/ProgressionNetwork.cpp: extractSolutionFromSearchNode", "src/Model.cpp: apply, decompose, initializeMethod (instance numbers)"]}
{"id": "C09", "title": "Transitive reduction of method orderings preserves the order", "statement": "After reading a method with acyclic ordering constraints, the stored ordering constraints imply exactly the same precedences as the ones in the input, contain no duplicate and no constraint implied by others.", "quantifier": "every number of subtasks and every acyclic set of ordering constraints, with duplicates and redundant constraints", "why_tests_cant": "Equality of generated partial orders over all inputs; the algorithm mutates a matrix in place.", "anchors": ["src/Model.cpp: Model::computeTransitiveChangeOfMethodOrderings"]}
{"id": "C10", "title": "The totally-ordered flag is exact", "statement": "A method with acyclic ordering is counted as totally ordered if and only if its ordering constraints order every pair of subtasks; the instance-wide flag holds iff this is true of every method.", "quantifier": "every number of subtasks and every acyclic ordering", "why_tests_cant": "Test is a degree count on the reduced relation; that this characterises chains is a theorem about all finite partial orders.", "anchors": ["src/Model.cpp: Model::computeTransitiveChangeOfMethodOrderings (isTotallyOrdered)"]}
{"id": "C11", "title": "The parallel-sequences flag is only set when task networks are parallel sequences", "statement": "If the instance is classified as parallel sequences then in every method each subtask has at most one direct successor and at most one direct predecessor.", "quantifier": "every set of methods", "why_tests_cant": "The classification is a nested condition over all methods.", "anchors": ["src/Model.cpp: Model::computeTransitiveChangeOfMethodOrderings (isParallelSequences, isUniquePaths)"]}
{"id": "C12", "title": "In totally ordered instances every reachable network is one chain", "statement": "If every method is totally ordered, every node reachable by search has at most one unconstrained task and every task in it has at most one direct successor, so following single successors enumerates the whole network.", "quantifier": "every reachable search node of every totally ordered instance", "why_tests_cant": "An invariant over all search histories.", "anchors": ["src/VisitedList.cpp: to_dfs, VisitedList::insertVisi (useTotalOrderMode)", "src/Model.cpp: apply, decompose"]}
{"id": "C13", "title": "The tracked task counts equal the tasks in the network", "statement": "In every search node the sorted list of contained tasks with multiplicities is exactly the multiset of tasks of all steps in the node's network (constrained and unconstrained).", "quantifier": "every search history of decompositions and applications", "why_tests_cant": "The list is merged incrementally with removal corner cases (task contained once, method re-introducing the decomposed task, repeated subtasks).", "anchors": ["src/Model.cpp: Model::updateTaskCounterA, Model::updateTaskCounterM, Model::readHierarchical (sortedDistinctSubtasks)"]}
{"id": "C14", "title": "Per-step reachability over-approximates every task that can still occur", "statement": "The set of reachable tasks stored with a step contains every task of the step itself, of all its successors, and every task that can be obtained from them by repeated decomposition (restricted to actions when configured so).", "quantifier": "every step in every reachable network", "why_tests_cant": "Closure over arbitrarily deep decompositions.", "anchors": ["src/Model.cpp: Model::calcReachability, Model::updateReachability, Model::calcSCCGraph"]}
{"id": "C15", "title": "Minimal implied costs and distances are lower bounds", "statement": "At any time during and after the computation, the stored minimal implied cost (distance) of a task is at most the total action cost (number of decompositions plus actions) of every complete decomposition of that task.", "quantifier": "every decomposition tree of every task, every number of worklist steps, non-negative action costs", "why_tests_cant": "Recursive methods give infinitely many decompositions per task.", "anchors": ["src/Model.cpp: Model::calcMinimalImpliedX"]}
{"id": "C16", "title": "The minimal-implied-cost computation terminates", "statement": "Preprocessing of minimal implied costs terminates for every model.", "quantifier": "every set of methods, including tasks that only decompose into themselves", "why_tests_cant": "Non-termination only shows for particular recursion patterns; every model must be covered.", "anchors": ["src/Model.cpp: Model::calcMinimalImpliedX"]}
{"id": "C17", "title": "The relaxed composition heuristic never prunes a solvable node", "statement": "If the relaxed-composition encoding of a node (state facts, top-down reachable actions; goal facts plus one bottom-up fact per contained task) has no relaxed plan, then the node has no HTN solution.", "quantifier": "every node of every HTN problem", "why_tests_cant": "Safety quantifies over all solutions of all nodes.", "anchors": ["src/heuristics/rcHeuristics/RCModelFactory.cpp: getRCmodelSTRIPS", "src/heuristics/rcHeuristics/hhRC2.h: setHeuristicValue"]}
{"id": "C18", "title": "Add/FF heuristics report unreachable exactly when the goal is relaxed unreachable", "statement": "The additive/FF heuristic returns 'unreachable' iff some goal fact cannot be made true when delete effects are ignored.", "quantifier": "every STRIPS model in which each action has a precondition, every state, every goal", "why_tests_cant": "Depends on a priority-queue exploration with lazy deletion; must hold for all models.", "anchors": ["src/heuristics/rcHeuristics/hsAddFF.cpp: getHeuristicValue"]}
{"id": "C19", "title": "h-max values are correct and admissible", "statement": "The h-max exploration assigns every fact its true h-max value (least fixed point), which is a lower bound on the cost of every plan reaching it.", "quantifier": "every STRIPS model with non-negative costs in which each action has a precondition", "why_tests_cant": "Optimality of a Dijkstra style exploration on every model.", "anchors": ["src/heuristics/rcHeuristics/hsLmCut.cpp: getHMax"]}
{"id": "C20", "title": "LM-cut is admissible", "statement": "The LM-cut heuristic value is never larger than the cost of any plan of the delete relaxation, hence of any plan.", "quantifier": "every STRIPS model with non-negative integer costs in which each action has a precondition", "why_tests_cant": "Admissibility is a statement about all plans.", "anchors": ["src/heuristics/rcHeuristics/hsLmCut.cpp: getHeuristicValue, calcGoalZone, forwardReachabilityDFS, updateHMax"]}
{"id": "C21", "title": "A* search with an admissible heuristic returns cost-optimal plans", "statement": "With action-cost g-value, weight 1, an admissible heuristic, late goal test and an exact duplicate check with re-opening, the first goal node returned has minimal action cost among all solutions.", "quantifier": "every HTN problem with non-negative action costs and every admissible heuristic", "why_tests_cant": "Optimality compares with all solutions.", "anchors": ["src/search/PriorityQueueSearch.h: search", "src/search/fringes/OneQueueWAStarFringe.h", "src/VisitedList.cpp: insertVisi (re-opening)"]}
{"id": "C22", "title": "The priority fringe returns a node of minimal evaluation", "statement": "Nodes pushed on the weighted-A* fringe are popped each exactly once, and each popped node has minimal evaluation f (ties by further heuristic values) among those contained.", "quantifier": "every sequence of pushes and pops and every heuristic vector, weight and g-mode", "why_tests_cant": "Unbounded operation sequences.", "anchors": ["src/search/fringes/OneQueueWAStarFringe.h: push, pop, CmpNodePtrs"]}
{"id": "C23", "title": "Totally ordered duplicate keys are exact", "statement": "In totally ordered mode two nodes get the same duplicate-detection bit string iff they have the same state and the same remaining task sequence.", "quantifier": "every pair of nodes of a totally ordered instance", "why_tests_cant": "Injectivity over all states and sequences of all lengths.", "anchors": ["src/VisitedList.cpp: insertVisi, to_dfs, state2Int"]}
{"id": "C24", "title": "Packing of bit strings into words is lossless", "statement": "Packing a bit string into 64-bit words plus padding count is injective and the packed words reproduce the bits.", "quantifier": "all bit strings of all lengths", "why_tests_cant": "All lengths, in particular multiples of 64.", "anchors": ["src/VisitedList.cpp: state2Int"]}
{"id": "C25", "title": "The bucket trie behaves as a map from bit strings to payload cells", "statement": "Inserting bit strings in the bucket trie returns the same payload cell for equal strings and distinct, initially empty, cells for different strings, independently of insertion order.", "quantifier": "every sequence of insertions of bit strings of arbitrary lengths", "why_tests_cant": "Path splitting depends on the interaction of all previously inserted strings.", "anchors": ["src/intDataStructures/CompressedSequenceSet.cpp: compressed_sequence_trie"]}
{"id": "C26", "title": "The partial-order duplicate check only identifies isomorphic networks", "statement": "Two nodes whose networks are accepted by the graph-isomorphism check have isomorphic labelled partial orders.", "quantifier": "every pair of task networks", "why_tests_cant": "Needs all pairs of partial orders, including ones with shared successors.", "anchors": ["src/VisitedList.cpp: matching, matchingDFS, matchingGenerate"]}
{"id": "C27", "title": "Duplicates in re-opening mode are decided by evaluation only", "statement": "With re-opening, a node is kept exactly if its key is new or its evaluation is smaller than that of every earlier kept node with the same key.", "quantifier": "every sequence of insertions with non-negative evaluations", "why_tests_cant": "History property over all insertion sequences.", "anchors": ["src/VisitedList.cpp: insertVisi (payload handling)"]}
{"id": "C28", "title": "Sorting, searching and set-making of int arrays", "statement": "The array sort yields an ascending permutation, binary search on a sorted range finds an element iff it is present, and makeSet returns the sorted distinct elements.", "quantifier": "all int arrays of all lengths and all ranges", "why_tests_cant": "All lengths and contents, duplicates and boundary positions.", "anchors": ["src/intDataStructures/IntUtil.cpp: sort, indexOf, containsInt, makeSet, copyExcluding"]}
{"id": "C29", "title": "The integer set containers implement sets", "statement": "The insertion-only, deletable, bucket and iteration-deletion integer sets behave like mathematical sets: membership, size and full iteration reflect exactly the performed inserts and erases.", "quantifier": "every sequence of operations", "why_tests_cant": "Unbounded operation histories including clear and re-insertion.", "anchors": ["src/intDataStructures/noDelIntSet.cpp", "src/intDataStructures/bIntSet.cpp", "src/intDataStructures/bucketSet.cpp", "src/intDataStructures/delIterIntSet.cpp"]}
{"id": "C30", "title": "The integer pair heap is a priority queue", "statement": "Each pop of the heap removes a pair with minimal key among those added and not yet popped; no pair is lost or duplicated.", "quantifier": "every sequence of add / pop / clear operations", "why_tests_cant": "Unbounded operation sequences, growth of the array.", "anchors": ["src/intDataStructures/IntPairHeap.h"]}
{"id": "C31", "title": "The chunked first-in-first-out / last-in-first-out fringes keep order", "statement": "Nodes leave the breadth-first fringe in insertion order and the depth-first fringe in reverse insertion order, across chunk boundaries.", "quantifier": "every sequence of pushes and pops and every chunk size", "why_tests_cant": "Boundary behaviour at chunk borders for arbitrary interleavings.", "anchors": ["src/search/UnsortedFringe.h", "src/search/UnsrtFringeContainer.h"]}
{"id": "C32", "title": "Strongly connected components are exact", "statement": "The SCC computation assigns two tasks reachable from the start the same component iff they reach each other.", "quantifier": "every directed graph", "why_tests_cant": "All graphs.", "anchors": ["src/Model.cpp: tarjan, calcSCCs", "src/sat/disabling_graph.cpp: graph::tarjan"]}
{"id": "C33", "title": "Integer list lines are read back exactly", "statement": "A line containing the encoding of a list of integers followed by the terminator is read as exactly that list, with negative literals shifted back; conditional effect lines are split into unconditional and conditional effects.", "quantifier": "all integer lists", "why_tests_cant": "Round-trip for all lists.", "anchors": ["src/Model.cpp: readIntList, readConditionalIntList"]}
{"id": "C34", "title": "At-most-one constraints are correct for every number of literals", "statement": "The clauses generated for 'at most one' are satisfiable together with an assignment of the given variables (by choosing the auxiliary variables) iff at most one of the variables is true.", "quantifier": "every list of distinct variables of any length (pairwise and logarithmic encoding)", "why_tests_cant": "All lengths beyond the 256 threshold and all assignments.", "anchors": ["src/sat/sat_encoder.cpp: atMostOne, atMostOneBinomial"]}
{"id": "C35", "title": "At-most-K constraints are correct", "statement": "The clauses generated for 'at most K' are satisfiable together with an assignment of the given variables iff at most K of them are true.", "quantifier": "every K >= 0, every list of variables, every assignment", "why_tests_cant": "All sizes and assignments.", "anchors": ["src/sat/sat_encoder.cpp: atMostK"]}
{"id": "C36", "title": "The state-transition formula describes exactly the executions", "statement": "The models of the generated state-transition clauses correspond exactly to executions: with one action or none per time step, the state variables of consecutive steps satisfy preconditions, effects and frame conditions from the initial state to the goal.", "quantifier": "every number of time steps, every STRIPS action set in which no action adds and deletes the same fact", "why_tests_cant": "All plan lengths and action sets.", "anchors": ["src/sat/state_formula.cpp: generate_state_transition_formula"]}
{"id": "C37", "title": "Block compression keeps executions", "statement": "Leaves grouped in one block never interfere: executing the selected actions of a block in leaf order is possible whenever all their preconditions hold at the block start, and yields the state given by the union of their effects.", "quantifier": "every sequence of leaves with arbitrary action sets and every selection of at most one action per leaf", "why_tests_cant": "All groupings and selections.", "anchors": ["src/sat/disabling_graph.cpp: compute_block_compression, doActionsInterfere"]}
{"id": "C38", "title": "Inferred binary invariants hold in every reachable state", "statement": "Every binary clause kept by the invariant synthesis holds in each state reachable from the initial state by applicable actions.", "quantifier": "every STRIPS problem and every reachable state", "why_tests_cant": "Reachable states are exponentially many.", "anchors": ["src/Invariants.cpp: compute_Rintanen_Invariants and helpers"]}
{"id": "C39", "title": "Invariant resolution only derives implied clauses", "statement": "Every binary clause added by resolution or inference from SAS groups holds in every state that satisfies the given clauses and groups.", "quantifier": "every input of mutex groups, strict mutexes and invariants", "why_tests_cant": "All rounds of a fixpoint computation.", "anchors": ["src/Invariants.cpp: extract_invariants_from_parsed_model"]}
{"id": "C40", "title": "Reference counting frees a plan step exactly when it is unreferenced", "statement": "Deleting search nodes never frees a step still reachable from a live node and frees every step that is no longer referenced; no step is freed twice.", "quantifier": "every interleaving of node creation and deletion", "why_tests_cant": "Use-after-free and leaks depend on the order of deletions over the whole search.", "anchors": ["src/ProgressionNetwork.cpp: destructors", "src/Model.cpp: apply, decompose (pointersToMe)"]}
{"id": "C41", "title": "The topological ordering used as duplicate key lists the whole network in order", "statement": "For every node the search can generate, topSort terminates and returns the tasks of the steps of its network, one entry per step, in an order in which no step comes before one of its predecessors.", "quantifier": "every reachable search node of every instance, partially ordered ones included", "why_tests_cant": "Needs all partial orders that search can build, and termination of two work-list loops.", "anchors": ["src/VisitedList.cpp: VisitedList::topSort"]}
{"id": "C42", "title": "LM-cut dominates h-max", "statement": "The LM-cut value of a state is never smaller than its h-max value.", "quantifier": "every STRIPS model with non-negative integer costs in which each action has a precondition, every state and goal", "why_tests_cant": "Depends on the zone, the removal of unreachable cut actions and the repeated cost reduction on every model.", "anchors": ["src/heuristics/rcHeuristics/hsLmCut.cpp: getHeuristicValue, getHMax"]}
{"id": "C43", "title": "Stored LM-cut cuts are disjunctive action landmarks", "statement": "Every cut stored by the LM-cut heuristic contains an action of each plan of the delete relaxation; a cut has no repeated action, and at least one cut is stored whenever the value is positive and finite.", "quantifier": "every STRIPS model with non-negative integer costs in which each action has a precondition, every state and goal", "why_tests_cant": "A statement about all plans; the cut set is also modified while it is iterated.", "anchors": ["src/heuristics/rcHeuristics/hsLmCut.cpp: getHeuristicValue, calcGoalZone, forwardReachabilityDFS", "src/heuristics/rcHeuristics/LMCutLandmark.cpp"]}
{"id": "C44", "title": "The FF value is the cost of a relaxed plan", "statement": "If the FF heuristic returns a finite value, then there is a plan of the delete relaxation from the state to the goal whose summed action costs are exactly this value (the number of its actions if all costs are one).", "quantifier": "every STRIPS model with non-negative integer costs in which each action has a precondition, every state and goal", "why_tests_cant": "The marking follows supporters chosen by a priority-queue exploration; must be closed for every model.", "anchors": ["src/heuristics/rcHeuristics/hsAddFF.cpp: getHeuristicValue, getFF"]}
{"id": "C45", "title": "The additive value is the sum of the least additive fact values", "statement": "If the additive heuristic returns a finite value, then it is the sum over the goal facts of their additive values (least fixed point of: 0 for state facts, else minimum over producers of cost plus sum of the precondition values).", "quantifier": "every STRIPS model with non-negative integer costs in which each action has a precondition, every state and goal", "why_tests_cant": "Early termination of the exploration must not leave a goal fact with a preliminary value; all models.", "anchors": ["src/heuristics/rcHeuristics/hsAddFF.cpp: getHeuristicValue, getFF"]}
{"id": "C46", "title": "The FF extraction stays within its stack", "statement": "The stack used to mark supporters in the FF extraction never holds more entries than its capacity.", "quantifier": "every STRIPS model with non-negative integer costs in which each action has a precondition, every state and goal", "why_tests_cant": "The stack height depends on the structure of the supporters; preconditions are pushed repeatedly.", "anchors": ["src/heuristics/rcHeuristics/hsAddFF.cpp: getHeuristicValue, getFF", "src/intDataStructures/IntStack.cpp: push"]}
{"id": "C47", "title": "The acyclicity mark of tasks is exact", "statement": "After the component analysis a task is marked as acyclic iff there is no infinite sequence of decompositions that starts with it (each task being a subtask of a method of the one before).", "quantifier": "every model whose tasks can all be obtained from the initial task", "why_tests_cant": "The claim is about infinite sequences and all task hierarchies; it relies on the numbering of the components by the search.", "anchors": ["src/Model.cpp: calcSCCs, constructSCCGraph, analyseSCCcyclicity"]}
{"id": "C48", "title": "The relaxed composition heuristic with LM-cut gives lower bounds", "statement": "With the cost estimate, with or without the correction for tasks contained several times, the value of the relaxed composition heuristic with inner heuristic LM-cut is not larger than the cost of any solution of the node; without correction, the distance estimate is not larger than the number of actions plus decompositions of any solution, and the mixed estimate not larger than cost plus number of decompositions.", "quantifier": "every grounded HTN problem whose tasks can all be obtained from the initial task and whose action costs sum to less than INT_MAX, every node reached by progression, every solution of the node, every order of equal keys in the queue", "why_tests_cant": "A lower bound quantifies over all solutions of a node, in general infinitely many; the correction adds costs on top of a relaxed plan and could count an action twice.", "anchors": ["src/heuristics/rcHeuristics/hhRC2.h: setHeuristicValue", "src/heuristics/rcHeuristics/RCModelFactory.cpp: getRCmodelSTRIPS", "src/heuristics/rcHeuristics/hsLmCut.cpp: getHeuristicValue"]}
{"id": "C49", "title": "Cuts of the relaxed composition heuristic are landmarks of the HTN problem", "statement": "Every cut stored by the relaxed composition heuristic with LM-cut is, after the renumbering, a list of actions followed (from index firstMethod on) by method numbers of the HTN model such that every solution of the node executes one of these actions or uses one of these methods in its decompositions.", "quantifier": "every grounded HTN problem as in C48, every node reached by progression, every estimate, every stored cut, every solution of the node", "why_tests_cant": "Being a landmark quantifies over all solutions; the border between actions and methods is found by a binary search whose exit condition must hold for every mixture of actions and methods.", "anchors": ["src/heuristics/rcHeuristics/hhRC2.h: setHeuristicValue", "src/heuristics/rcHeuristics/LMCutLandmark.h"]}
{"id": "C50", "title": "Linearisation of methods and the per-method total-order verdict", "statement": "For acyclic orderings, the order computed for a method lists every subtask exactly once and respects all ordering constraints; after the transitive closure, the verdict 'totally ordered' is given iff every two subtasks are ordered, and then the computed order is the only one possible.", "quantifier": "every method (any number of subtasks, any acyclic orderings), every iteration order of the hash sets", "why_tests_cant": "The claim ranges over all partial orders and all iteration orders of hash sets; the array is filled from its end, and off-by-one errors depend on the size.", "anchors": ["src/Model.cpp: methodTopSortDFS, isMethodTotallyOrdered, computeTransitiveClosureOfMethodOrderings, buildOrderingDatastructures"]}
{"id": "C51", "title": "Sharing positions between methods keeps every method's order", "statement": "Given the methods of a vertex sorted by length, the placement assigns to the subtasks of every method pairwise different positions that increase along the method's order; in the default mode the number of positions is the length of the longest method.", "quantifier": "every list of totally ordered methods sorted by decreasing length, every problem, both modes, as long as the positions fit into 16 bits", "why_tests_cant": "The dynamic program that shares positions has a different table for every combination of methods; a placement that violates an order only shows with special label patterns.", "anchors": ["src/sat/sog.cpp: optimiseSOG, runTOSOGOptimiser"]}
{"id": "C52", "title": "The path decomposition tree represents exactly the decompositions of bounded height", "statement": "In the tree of depth K of a totally ordered problem, every consistent choice of tasks and methods along the pointers is a decomposition with at most K methods on each path, whose only linearisation is the sequence of actions chosen at the leaves from left to right; conversely every such decomposition is obtained by a consistent choice. In the default mode the tree can be computed to every depth without undefined behaviour.", "quantifier": "every well-formed totally ordered problem in which every abstract task has a method, every depth K, every result of the unstable sort", "why_tests_cant": "The set of decompositions is infinite over all depths and problems; sharing positions could lose or invent combinations in large trees only.", "anchors": ["src/sat/pdt.cpp: PDT, expandPDT, expandPDTUpToLevel, getLeafs"]}
{"id": "C53", "title": "Pruning of the path decomposition tree terminates, is closed and safe", "statement": "The pruning (propagation from the leaves, forward filters 'none', 'ff' and 'h2' on the leaf actions, propagation again) terminates; it never prunes a task or method used by an executable decomposition of the tree; afterwards the remaining tasks, methods and causes support each other (a remaining abstract task has a remaining method, a remaining method has all its subtasks remaining, a remaining non-root task has a remaining cause). If the initial task is pruned there is no solution with at most K methods on a path.", "quantifier": "every well-formed totally ordered problem as in C52, every depth, every pruning mode (for 'h2': decompositions whose actions do not add and delete the same fact)", "why_tests_cant": "The recursion goes up and down the tree and could run forever or stop before a fixpoint in trees of a special shape; safety quantifies over all decompositions.", "anchors": ["src/sat/pdt.cpp: propagatePruning, pruneCause, resetPruning", "src/sat/sat_planner.cpp: filter_leafs_ff, filter_leafs_Rintanen, createFormulaForDepth"]}
{"id": "C54", "title": "Plans of the SAT planner are solutions (totally ordered problems)", "statement": "Whatever satisfying assignments the SAT solver returns, the planner for totally ordered problems never reaches undefined behaviour, and every plan it prints is a solution of the HTN problem: a linearisation of a decomposition of the initial task that is executable and reaches the goal, with at most as many methods on each path as the depth at which it stops.", "quantifier": "every well-formed totally ordered problem in which every abstract task has a method, all options (pruning mode, blocks, mutexes, at-most-one encoding), every solver answer, every depth", "why_tests_cant": "The formula, the pruning, the blocks and the reuse of variables between depths interact; a wrong clause shows only for particular models of particular formulas.", "anchors": ["src/sat/sat_planner.cpp: createFormulaForDepth, solve_with_sat_planner_linear_bound_increase, printSolution", "src/sat/pdt.cpp: assignVariableIDs, addDecompositionClauses, addPrunedClauses", "src/sat/state_formula.cpp: generate_state_transition_formula, generate_mutex_formula"]}
{"id": "C55", "title": "The SAT planner is complete and stops at the least depth", "statement": "The formula for depth K is satisfiable iff there is a solution with at most K methods on each path whose actions do not add and delete the same fact, and each such solution is printed for some model. With a correct and complete SAT solver the planner ends iff there is such a solution, at the least such depth; otherwise it runs forever.", "quantifier": "every well-formed totally ordered problem in which every abstract task has a method, all options, all depths", "why_tests_cant": "Incompleteness shows as a run that never ends or as a later depth; no test distinguishes a missing solution from an unsolvable problem.", "anchors": ["src/sat/sat_planner.cpp: createFormulaForDepth, solve_with_sat_planner_linear_bound_increase"]}
{"id": "C57", "title": "Invariants and options do not change the plans of the SAT planner", "statement": "The binary clauses computed from the mutex groups, invariants and finite-domain variables of the input and by the synthesis of invariants hold in all states that can be reached by actions that do not add and delete the same fact, if the input holds there; with them, and with any choice of pruning, blocks and at-most-one encoding, the formulas for each depth have models with the same printed plans.", "quantifier": "every problem as in C54, every input of mutex groups that holds in the reachable states, every pair of option settings", "why_tests_cant": "A clause that is not an invariant removes plans silently; only some problems have no other plan.", "anchors": ["src/SearchEngine.cpp 465-468", "src/Invariants.cpp: extract_invariants_from_parsed_model, compute_Rintanen_Invariants", "src/sat/state_formula.cpp: generate_mutex_formula", "src/sat/sat_planner.cpp: insert_invariant, createFormulaForDepth"]}
{"id": "C56", "title": "The decomposition printed by the SAT planner is a decomposition of the initial task with the printed plan", "statement": "Whenever the SAT planner prints a plan, the printed lines describe a decomposition of the initial task: the actions are numbered from 0 in the order of the plan, the abstract tasks get the numbers after them, every line of an abstract task has one of its methods and the lines of the subtasks in the order of the method, the root has a line, every other line is a subtask of exactly one line, and the actions of that decomposition are the plan.", "quantifier": "every well-formed totally ordered problem in which every abstract task has a method, all options, all answers of a solver that returns models", "why_tests_cant": "Identifiers are assigned while walking a tree in which tasks are inherited across levels; a wrong or repeated identifier shows only for particular shapes of models that the solver is free to choose.", "anchors": ["src/sat/sat_planner.cpp: printSolution", "src/sat/pdt.cpp: assignOutputNumbers, printDecomposition"]}
{"id": "C58", "title": "The SAT planner's optimisation ends with a plan of least cost", "statement": "The formula with a cost bound has, as printed plans, exactly the solutions of the depth whose (scaled) costs are within the bound. The optimisation loop only prints solutions, its depth never decreases, and a plan following one with costs between 1 and 999 is strictly cheaper; if all solutions cost between 1 and 999, then from some step on the last printed plan is of least cost.", "quantifier": "every problem as in C54, all costs, all options, every correct solver, any number of steps", "why_tests_cant": "Optimality is about plans that are not printed; the loop never ends, so no run shows that no cheaper plan would follow.", "anchors": ["src/sat/sat_planner.cpp: createFormulaForDepth (costMode), optimise_with_sat_planner_linear_bound_increase, solve_with_sat_planner"]}
{"id": "C59", "title": "Landmarks from the AND/OR graph occur in every solution", "statement": "Both implementations of the AND/OR graph landmarks stop, whatever order the heaps return entries in, with exactly the facts, tasks and methods that occur in every derivation of some goal fact or task of the network; every such fact holds at some time in every solution of the node, every such task and method occurs in its decomposition. The second implementation makes no access outside its arrays if the node has a solution (also with arrays left over from earlier calls). The local landmarks are exactly what is obtained by repeatedly going to subtasks shared by all methods of a task, occur in every decomposition, and are landmarks of the AND/OR graph.", "quantifier": "every well-formed problem, every reached search node, every order of heap entries, every content of the arrays, every solution of the node", "why_tests_cant": "A landmark is a statement about all solutions, of which there may be infinitely many; the fixed point is reached by propagation in an order that depends on heap ties.", "anchors": ["src/heuristics/landmarks/lmExtraction/LMsInAndOrGraphs.cpp: generateAndOrLMs, generateLocalLMs, genLocalLMs", "src/heuristics/landmarks/lmExtraction/LmCausal.cpp: calcLMs, setUnion, setIntersection, setToSelfLM, copyGlobalLMsToResultSet", "src/heuristics/landmarks/lmDataStructures/LmAoNode.cpp"]}
{"id": "C60", "title": "The planning graph keeps everything that can occur in a solution", "statement": "planningGraph::calcReachability stops without overflowing its stack, unless an additive value reaches INT_MAX. It marks every fact and action that is reachable in the delete relaxation with the given tasks, exactly the tasks that can be composed from the marked actions by methods of given tasks, exactly the methods whose subtasks are marked, and as useful exactly the unsatisfied goal facts and unsatisfied preconditions of marked actions. If no fact enters the queue twice at the start, nothing else is marked. For a reached node, everything that occurs in a solution made of given tasks is marked, so landmarks computed on the planning graph are met by all these solutions.", "quantifier": "every well-formed problem, state, set of given tasks, priority queue, reached node and solution", "why_tests_cant": "Solutions and relaxed derivations are unbounded sets; whether a counter is decremented once per fact depends on how entries of the queue interleave.", "anchors": ["src/heuristics/planningGraph.cpp: calcReachability, factReachable, taskReachable, methodReachable", "src/heuristics/landmarks/lmExtraction/LmCausal.cpp: reachable"]}
{"id": "C61", "title": "The tests of the delete- and order-free heuristic prune only nodes without solution", "statement": "hhDOfree::updatePG and the tests at the start of recreateModel end with a verdict (unless an additive value reaches INT_MAX). A node that they declare unreachable has no solution, and value 0 is given exactly to goal nodes.", "quantifier": "every well-formed problem, reached node, priority queue and setting of the maintained task reachability", "why_tests_cant": "That a pruned node has no solution is a statement about infinitely many decompositions.", "anchors": ["src/heuristics/dofHeuristics/hhDOfree.cpp: updatePG, recreateModel", "src/SearchEngine.cpp: 227-262", "src/Model.cpp: calcSCCGraph, updateReachability"]}
{"id": "C62", "title": "sasPlus describes states, actions and goal by values of variables", "statement": "sasPlus ends without access outside of its arrays, gives variables with one fact a second value, and its preconditions, effects and goal hold of / lead to exactly the values that describe the state: for every reachable state an action's translated preconditions hold iff it is applicable, its translated effects yield the values describing the successor state, the translated goal holds iff the goal facts do, and the initial values describe the initial state.", "quantifier": "every well-formed problem whose variables partition the facts with exactly one true fact per variable with several facts in every reachable state, every action, reachable state and values", "why_tests_cant": "Whether the values stay right is a statement about all reachable states; the error in the initial state shows only for particular numberings of variables and true facts.", "anchors": ["src/translation/htnToSAS.cpp: sasPlus (67-216), writeToFastDown (2229-2252)"]}
{"id": "C63", "title": "reorderTasks reverses the order of subtasks and finds the leading actions", "statement": "For every totally ordered method, subTasksInOrder lists the subtasks in reverse order of execution, and the first firstNumTOPrimTasks executed subtasks are actions, as many as possible.", "quantifier": "every totally ordered method of a well-formed problem, every numbering of its subtasks", "why_tests_cant": "Generated inputs number subtasks in their order; other numberings, for which the index arithmetic differs, are legal inputs.", "anchors": ["src/translation/htnToSAS.cpp: reorderTasks (304-418)"]}
{"id": "C64", "title": "The translation of totally ordered problems keeps all solutions that fit the stack", "statement": "For every bound pgb >= 1 the translation is defined and writes a well-formed SAS+ task (initial values, goal, preconditions and effects within the domains). Every solution with a decomposition that can be worked off with a stack of pgb tasks is a plan of that task with the same costs, and every solution is one for all large enough pgb.", "quantifier": "every well-formed totally ordered problem with variables as in C62, every bound, every solution", "why_tests_cant": "Solutions are infinitely many and their decompositions arbitrarily deep; that none is lost is a statement about all of them.", "anchors": ["src/translation/htnToSAS.cpp: tohtnToStrips (952-1166), calculatePrecsAndAdds (218-301), writeToFastDown (2208-2490)"]}
{"id": "C65", "title": "Plans of the translated totally ordered problem are solutions", "statement": "The actions named by a plan of the translated problem (an action, or the leading actions of a method) are a solution of the problem with the same costs, worked off with a stack of pgb tasks; the translated problem is solvable iff there is such a solution, and a plan of least costs is a solution of least costs among those.", "quantifier": "every well-formed totally ordered problem with variables as in C62, every bound, every plan of the translated problem", "why_tests_cant": "The classical planner may return any plan; a wrong operator shows only if some plan uses it.", "anchors": ["src/translation/htnToSAS.cpp: tohtnToStrips (952-1166), calculatePrecsAndAdds (218-301), writeToFastDown (2208-2490)"]}
{"id": "C66", "title": "The printed plan of a translated problem describes a decomposition", "statement": "For a plan of the translated totally ordered problem, the program prints the actions of a solution, numbered from 0 in their order, a root, and one line per applied method, numbered after the actions; read from the root, these lines are a decomposition of the initial task whose actions are the printed ones; no subtask is missing (-1) and every action and method line but the root is a subtask of exactly one line.", "quantifier": "every well-formed totally ordered problem, every bound, every plan of the translated problem (without operators that the translation blanked)", "why_tests_cant": "The subtasks are found by searching for equal tasks at equal points of the stack, which recur in long plans; only a proof over all plans excludes that a wrong line is found.", "anchors": ["src/translation/htnToSAS.cpp: planToHddl (2520-2735)"]}
{"id": "C67", "title": "Names of translated operators are read back as what they stand for", "statement": "The name written for an operator contains its action or method, the point of the stack, the leading actions and the points of the other subtasks; reading the operator's line in the plan file gives exactly these values and the name of the action or method, and reading the name when the SAS+ file is written gives exactly the leading actions. Lines with the costs and empty lines are skipped. Neither throws an exception.", "quantifier": "every totally ordered problem, every operator, all names of actions and methods (that do not contain the keywords), all numbers in the range of int", "why_tests_cant": "Names are arbitrary strings chosen by users of the planner.", "anchors": ["src/translation/htnToSAS.cpp: tohtnToStrips (1137-1163), calculatePrecsAndAdds (218-242), writeToFastDown (2361-2379), planToHddl (2553-2663)"]}
{"id": "C68", "title": "Translated parallel sequences have exactly the solutions as plans", "statement": "For a problem in which only the methods of the initial task are partially ordered, the translation to SAS+ reads and writes no array out of bounds and yields a well-formed SAS+ task; the actions of its plans are exactly the solutions whose subtasks of the initial task can each be worked off on a stack of its given size, interleaved in any way the order of the method allows; costs are the same. For every solution there are bounds from which on it is a plan, and the rounds of the controller reach them. A plan of least costs is a solution of least costs among those that fit.", "quantifier": "every well-formed problem whose methods other than those of the initial task are totally ordered, every list of bounds, every plan of the translated problem, every solution of the original one", "why_tests_cant": "Plans interleave arbitrarily many stacks of any height over recursive methods; equality of the sets of plans and solutions can not be enumerated.", "anchors": ["src/translation/htnToSAS.cpp: htnPS (1169-1479), reorderTasks (304-418), sasPlus (37-215), writeToFastDown (2208-2490)", "src/translation/translationController.cpp: runTranslationPlanner (192-205, 244-250)"]}
{"id": "C69", "title": "The first bound of the translation skips no plan", "statement": "For totally ordered problems the computation of the first bound ends without overflow; no solution can be worked off with a stack of fewer cells than the computed bound, so the translations with smaller bounds, which are skipped, have no plan. The computed bounds of tasks and methods are the smallest solution of the equations: 1 for an action, the minimum over its methods for a task, for a method the cells its subtasks take and that are taken while each of them is worked off. Starting from this bound the rounds of the controller reach every solution.", "quantifier": "every well-formed totally ordered problem, every solution, every bound, every number of iterations", "why_tests_cant": "The bound is compared with all decompositions of a recursive problem, of which there are infinitely many; that the work list ends is a statement about unbounded runs.", "anchors": ["src/translation/htnToSAS.cpp: minProgressionBound (419-425), calcMinimalProgressionBound (440-540)", "src/translation/translationController.cpp: runTranslationPlanner (187-213, 219-260)"]}
{"id": "C70", "title": "The symbolic planner computes images of sets of states exactly", "statement": "The BDD of the initial state is satisfied by exactly the encodings of the initial state, the BDD of the goal by exactly the encodings of goal states. Applied to a BDD that represents a set of states, `image` of the transition relation of an action represents exactly the set of the states that the action leads to from states of the set in which it is applicable, and a state satisfies the preimage iff the action is applicable and leads into the set. Every consistent state has an encoding and the encoding determines the facts.", "quantifier": "every well-formed problem, every partition of the facts into variables of any sizes, with and without auxiliary variables, every action, every represented set of states", "why_tests_cant": "A BDD stands for a set of up to 2^n states; exactness is a statement about all states and all numbers and sizes of variables, and a wrong exchange of variables shows only for sets that mix several copies of the variables.", "anchors": ["src/symbolic_search/sym_variables.cpp: init (28-120), getStateBDD (165-183), getPartialStateBDD (209-219), generateBDDVar (241-253), getDomainSize (275-285)", "src/symbolic_search/transition_relation.cpp: init (19-91), image (93-98), preimage (107-111)"]}
{"id": "C71", "title": "\"Goal reached\" of the symbolic planner is the cost of a cheapest plan", "statement": "If the symbolic planner (`build_automaton`) prints \"Goal reached! Length=c\", the problem has a plan that costs at most c. If the problem has a plan, the planner prints the costs of a cheapest one; it prints \"Problem is unsolvable\" only if there is no plan.", "quantifier": "every totally ordered problem whose methods have one or two subtasks, with recursion of any kind and actions of any costs including 0; every partition of the facts into variables; runs of any length", "why_tests_cant": "The search shares the expansions of a task between all contexts, states and costs in which it is reached and repairs this sharing with extra costs and shortcuts; whether a repair is missing or unsound depends on the interleaving of costs and depths over unboundedly many layers, and the sets of states are too large to be enumerated.", "anchors": ["src/symbolic_search/automaton.cpp: ensureBDD (86-90), build_automaton (1145-1777)", "src/symbolic_search/sym_variables.cpp: swapVars*, existsVars* (131-152)"]}
{"id": "C72", "title": "The delete- and order-free heuristic never overestimates", "statement": "The value that the delete- and order-free heuristic computes for a search node by building and solving its linear program is at most the cost of every solution of the node: the sum of the action costs in the setting for optimal search, else the number of actions and methods. In particular a node that has a solution never gets the value UNREACHABLE.", "quantifier": "every problem, every reached node, every solution, every combination of the constraints (planning graph, hierarchy with layers for cyclic components, cuts, AND/OR landmarks, net change), integer and linear programs, any content of the reused sets", "why_tests_cant": "The claim compares the optimum of a program with thousands of constraints with all solutions of the node, of which there are infinitely many; one wrong constraint cuts off only some solutions, and a test sees a value that is too high only if it knows the optimal costs.", "anchors": ["src/heuristics/dofHeuristics/hhDOfree.cpp: constructor (60-330), updatePG, recreateModel (411-1023)", "src/heuristics/dofHeuristics/hhDOfree.h: settings and largeC (37-60, 137)", "src/heuristics/landmarks/lmExtraction/LmCausal.cpp: iterators (786-832)"]}
{"id": "C73", "title": "The delete- and order-free heuristic is the cost of a cheapest delete- and order-free solution", "statement": "With the full constraints for planning graph and hierarchy, the value that the integer program gives a search node is, unless it is UNREACHABLE, the cost of an actual solution of the node in the problem without delete effects and orderings (whatever other constraints are switched on); and without the landmark and net change constraints no such solution is cheaper. The constructor's assertion about methods into cyclic components holds if and only if the initial task is not among its own descendants.", "quantifier": "every problem, every reached node, every solution of the relaxed problem, both cost measures", "why_tests_cant": "That a feasible point of the program always comes from a decomposition is a statement about all integer points of all programs: one missing or too weak constraint only lets the value drop on inputs with, for example, a cycle of methods that pay for each other, and no test fails since the heuristic stays admissible.", "anchors": ["src/heuristics/dofHeuristics/hhDOfree.cpp: constructor (60-330), recreateModel (411-1023)"]}
{"id": "C74", "title": "A problem file is read as the problem it describes", "statement": "Every text in the grounder's format, whose indices are in range, whose methods have subtasks and decompose abstract tasks, is read to the end without error. The stored facts, variables, groups, actions, initial state, goal, tasks and methods are those of the text (preconditions without repetitions), and all derived tables (achievers, actions without precondition, methods of a task, methods with a subtask, first and last subtasks, successor counts, distinct subtasks, the flag for total order) are what they are named after. If orderings are acyclic and effects unconditional, the problem handed to search is well-formed and has exactly the solutions, with the same costs, of the described problem. A task line too many makes the planner exit.", "quantifier": "every description, every text for it (any spacing, any numerals, any content of the separator lines)", "why_tests_cant": "The round trip is over all texts and all problems; tables that miss an entry for repeated subtasks or preconditions, or a precedence list that loses a constraint, give a planner that still finds plans on most inputs.", "anchors": ["src/Model.cpp: read (2083-2100), readClassical (1542-1798), calcAddToActionMapping (1800-1820), readHierarchical (1822-2054), generateMethodRepresentation (1452-1540)"]}
{"id": "C75", "title": "From the problem file to the verdict", "statement": "Take a text in the grounder's format whose initial task is abstract, whose method orderings are acyclic and whose effects are unconditional. The planner reads it, and then: a plan reported by the progression search solves the problem described by the text, whatever fringe, heuristics and visited list are used; if search without visited list ends with \"unsolvable\", the described problem has no solution; uniform cost search reports a cheapest plan. If the described methods are totally ordered, the same holds with the visited list in the mode that is chosen from the flags the reader has computed, and for A* with the relaxed composition heuristic on LM-cut, if the text lists the actions first, all tasks can be obtained from the initial one, and the costs sum up to less than INT_MAX. If the initial task is an action, the verdict is always \"unsolvable\", even if the action is a plan.", "quantifier": "every description, every text for it, every configuration of the search, all random choices", "why_tests_cant": "An end-to-end statement over all files and options: each stage relies on what the stage before has computed (reduced orderings, flags, task numbering, precondition lists without repetitions), and a mismatch between the stages shows up only on inputs where both matter.", "anchors": ["src/Model.cpp: read (2083-2100)", "src/search/PriorityQueueSearch.h: search (33-313)", "src/VisitedList.cpp: constructor, insertVisi", "src/heuristics/rcHeuristics/hhRC2.h"]}
{"id": "C76", "title": "The common graph of the methods of a vertex of the decomposition tree", "statement": "For partially ordered problems, all methods that can be applied at a vertex of the path decomposition tree share one ordered graph. Each method puts different subtasks on different vertices of the graph. A pair of vertices is an edge if and only if one of the methods orders two subtasks that it puts on them; and for the subtasks of one method, there is an edge between their vertices if and only if the method orders them (no order is lost, none is added). If all methods are totally ordered, or at most one of them has orderings, then the graph has no cycle, and also by transitivity no method gets an order it does not have.", "quantifier": "every list of methods (with acyclic, transitively closed orderings), both settings for actions without effects, every order in which the methods are placed", "why_tests_cant": "Whether an edge from one method ends up between the subtasks of another one depends on the interplay of all methods of a vertex, their sizes and the order in which a sort puts them; the number of combinations is unbounded, and a wrong edge silently loses plans.", "anchors": ["src/sat/sog.cpp: runPOSOGOptimiser (8-174), optimiseSOG (539-572)"]}
{"id": "C77", "title": "SAT planner, partially ordered problems: printed plans are solutions", "statement": "Whatever satisfying assignments the SAT solver returns, every plan that the SAT planner prints for a partially ordered problem solves the problem, by a decomposition with at most as many methods on each path as the depth that it announces; and constructing the formulas never runs into undefined behaviour as long as the leaves can be numbered with 16 bits.", "quantifier": "every well-formed partially ordered problem in which every abstract task has a method, every configuration and set of options, every solver that returns only models, every number of iterations", "why_tests_cant": "The formula has a model for each schedule of each decomposition; a test sees the model that the solver happens to return, not the unsound ones it could have returned.", "anchors": ["src/sat/sat_planner.cpp: createFormulaForDepth (297-475), printSolution (98-117), solve_with_sat_planner_linear_bound_increase (782-838)", "src/sat/partial_order.cpp: generate_matching_formula (4-195)", "src/sat/pdt.cpp: getLeafSOG (441-460)", "src/sat/sog.cpp: removeTransitiveOrderings, expandSOG", "src/sat/state_formula.cpp: no_abstract_in_leaf, get_partial_state_atoms (232-347)"]}
{"id": "C78", "title": "SAT planner, partially ordered problems: the formula is exact and the least depth is found", "statement": "The plans that are printed for the models of the formula for depth K are exactly the solutions with at most K methods on each path whose actions do not add and delete the same fact. Hence, with a correct and complete solver, if there is such a solution, the planner stops at the least depth for which there is one and prints a solution of this depth.", "quantifier": "every well-formed partially ordered problem in which every abstract task has a method, every configuration and set of options (mutexes that hold), every depth at which the leaves can be numbered with 16 bits", "why_tests_cant": "A missing model shows only as a larger depth or as non-termination, for which a test has no reference to compare with.", "anchors": ["src/sat/sat_planner.cpp: createFormulaForDepth (297-475), solve_with_sat_planner_linear_bound_increase (782-838)", "src/sat/partial_order.cpp: generate_matching_formula (4-195)", "src/sat/sog.cpp: runPOSOGOptimiser (8-174)"]}
{"id": "C79", "title": "Translation of partially ordered problems to SAS+ (Push): exact for each bound", "statement": "The SAS+ task with conditional effects that the Push translation writes for a progression bound B is well-formed (only existing variables and values), no array is read out of bounds on the way, and its plans are exactly the solutions of the partially ordered problem that can be found by working off its task network with never more than B tasks at a time; a plan costs as much as the solution it stands for. Hence an optimal plan is an optimal solution among those.", "quantifier": "every partially ordered problem whose method orderings the reordering of subtasks can handle, every partition of its facts into SAS+ variables, every bound; uninitialised memory taken as zero", "why_tests_cant": "Tasks are pushed around between cells, constraints are copied by conditional effects and moves are forced; a wrong constraint between two cells shows only for particular interleavings of decompositions, of which there are exponentially many for each bound.", "anchors": ["src/translation/htnToSAS.cpp: htnToCondSorted (547-949), reorderTasks (304-418), writeToFastDown (2208-2500)", "src/translation/translationController.cpp: 20-75"]}
{"id": "C80", "title": "Translation of partially ordered problems to SAS+ (Push): the rounds of the controller are complete", "statement": "Enlarging the progression bound round by round, every solution of the partially ordered problem becomes a plan (of the same cost) of the translated task and stays one in all later rounds, and the plans of all rounds are solutions. The problem has no solution if and only if no round has a plan.", "quantifier": "every partially ordered problem as in C79, every first bound and every step of at least 1, every solution", "why_tests_cant": "For how many rounds a solution is missed depends on the largest task network of its best progression, which has no bound; a test that stops after some rounds cannot tell a late solution from a lost one.", "anchors": ["src/translation/htnToSAS.cpp: htnToCondSorted (547-949)", "src/translation/translationController.cpp: 188-262"]}
{"id": "C81", "title": "Translation of partially ordered problems to SAS+ without conditional effects (BaseStrips): plans are solutions", "statement": "The SAS+ task that the BaseStrips translation writes for B cells is well-formed (only existing variables and values), no array is read out of bounds on the way, and the actions of each of its plans are a solution of the partially ordered problem. A plan costs as much as the solution it stands for, plus the cost that is written for removing an empty task, once for each such operator in the plan.", "quantifier": "every partially ordered problem whose method orderings the reordering of subtasks can handle and whose methods with a first subtask have a last one, every partition of its facts into SAS+ variables, every number of cells for which the numbers of operators fit the integer types", "why_tests_cant": "The cell of a decomposed task is reused for one of its subtasks or for an empty task, and orderings between cells are only implied through such cells; whether an ordering is lost depends on the nesting of the methods and on the interleaving of the decompositions, which are unbounded.", "anchors": ["src/translation/htnToSAS.cpp: htnToStrips (1481-1849), combination, bin (12-49), reorderTasks (304-418), writeToFastDown (2208-2490)", "src/translation/translationController.cpp: 35-37"]}
{"id": "C82", "title": "Translation of partially ordered problems to SAS+ without conditional effects (BaseStrips): solutions are plans", "statement": "A solution that is obtained by k decompositions with methods of at most M subtasks each is a plan of the BaseStrips translation for each number of cells from 1 + k*M on. So if such a translation has no plan, there is no solution with that few decompositions, and if removing empty tasks costs nothing, a cheapest plan is at most as expensive as each solution with that few decompositions.", "quantifier": "every partially ordered problem as in C81, every solution, every number of cells from the stated bound on for which the numbers of operators fit the integer types", "why_tests_cant": "For each method and cell there is one operator per choice of further cells, and only the one for the lowest free cells is applicable; a missing combination shows only for the states in which exactly these cells are free.", "anchors": ["src/translation/htnToSAS.cpp: htnToStrips (1481-1849), combination, bin (12-49)", "src/translation/translationController.cpp: 35-37, 188-262"]}
{"id": "C83", "title": "Printed decompositions for plans of the BaseStrips translation", "statement": "What is printed for a plan of the BaseStrips translation is a decomposition of the initial task: the actions are those of the plan in their order and numbered from 0, the lines of the methods have the following numbers, all numbers of subtasks are numbers of lines, the lines form a tree that decomposes the initial task by the methods of the problem, every line but the root is a subtask of exactly one line, and the printed order of the actions respects the orderings of that decomposition.", "quantifier": "every partially ordered problem as in C81, every number of cells for which the numbers of operators fit the integer types, every plan of the translated task", "why_tests_cant": "The lines of the subtasks are found again only by the cells in the names of the operators, which are reused many times in a plan; whether the wrong line is taken depends on the nesting of the methods and the interleaving of the decompositions, which are unbounded.", "anchors": ["src/translation/htnToSAS.cpp: planToHddl (2520-2736), the names of the operators (1662-1680, 1813-1835)"]}
{"id": "C84", "title": "Printed decompositions for plans of the Push translation", "statement": "What is printed for a plan of the Push translation is a decomposition of the initial task: the actions are those of the plan in their order and numbered from 0, the lines of the methods have the following numbers, all numbers of subtasks are numbers of lines, the lines form a tree that decomposes the initial task by the methods of the problem, every line but the root is a subtask of exactly one line, and the printed order of the actions respects the orderings of that decomposition. (This is false for plans in which tasks are moved; it is proved for the others.)", "quantifier": "every partially ordered problem as in C79, every number of cells, every plan of the translated task", "why_tests_cant": "The lines of the subtasks are found again only by the cells in the names of the operators, which are reused many times in a plan; whether the wrong line is taken depends on the nesting of the methods and the interleaving of the decompositions, which are unbounded.", "anchors": ["src/translation/htnToSAS.cpp: planToHddl (2520-2736), the names of the operators (913-946)"]}
{"id": "C85", "title": "Printed decompositions for plans of the translation of parallel sequences", "statement": "What is printed for a plan of the parallel-sequences translation is a decomposition of the initial task: the actions are those of the plan in their order and numbered from 0, the lines of the methods have the following numbers, all numbers of subtasks are numbers of lines, the lines form a tree that decomposes the initial task by the methods of the problem, every line but the root is a subtask of exactly one line, and the printed order of the actions respects the orderings of that decomposition.", "quantifier": "every problem of parallel sequences as in C68, every list of positive bounds, every plan of the translated task", "why_tests_cant": "The lines of the subtasks are found again only by the cells in the names of the operators, which are reused many times in a plan; whether the wrong line is taken depends on the nesting of the methods and the interleaving of the decompositions, which are unbounded.", "anchors": ["src/translation/htnToSAS.cpp: planToHddl (2520-2736), the names of the operators (1350-1362, 1426-1470)"]}
{"id": "C86", "title": "SAT planner, partially ordered problems: the printed decomposition", "statement": "The lines that are printed with the plan describe a decomposition of the initial task: every line of an abstract task has one of the methods of the task and, in some order, the numbers of the lines of the subtasks of the method; the numbers of all lines are those from 0 on without repetition, and each but the one of the root is a subtask of exactly one line; the plan is a linearisation of the decomposition, and the number of each printed action is that of its leaf. A plan is never printed without this.", "quantifier": "as in C77: every well-formed partially ordered problem in which every abstract task has a method, every configuration and set of options, every solver that returns only models, every number of iterations", "why_tests_cant": "The leaf of a printed action is found by the variables that match leaves with positions; that it is the leaf with this action, and that every leaf is printed exactly once, depends on all clauses of the matching and must hold for every model that the solver may return.", "anchors": ["src/sat/sat_planner.cpp: printSolution (66-123)", "src/sat/pdt.cpp: assignOutputNumbers (620-671), printDecomposition (673-688)", "src/sat/partial_order.cpp: generate_matching_formula (4-195)"]}
{"id": "C87", "title": "SAT planner, partially ordered problems: the printed order of the actions", "statement": "With the option for printing the order, there is one line for each printed action, in the order of the plan, with the numbers of the printed actions that have to be executed after it in the decomposition, and no others. Hence the plan keeps the printed order, and every arrangement of its actions that does is a linearisation of the same decomposition.", "quantifier": "as in C77", "why_tests_cant": "The order is that of all leaves of the tree, also of those that are not used, with the edges that remain after the removal of those that follow by transitivity; whether the order that goes through unused leaves is found depends on the shape of the tree.", "anchors": ["src/sat/sat_planner.cpp: printSolution (124-148)", "src/sat/sog.cpp: succdfs, calcSucessorSets (616-636)"]}
{"id": "C88", "title": "SAT planner, partially ordered problems: optimisation of plan costs", "statement": "For a bound B and a factor F the plans of the models of the formula for a depth are the solutions of this height whose costs, each divided by F and rounded down, add up to at most B / F. Every plan that the optimisation prints is a solution, found at a depth that never decreases; a plan printed after one with costs between 1 and 999 is cheaper. If all solutions have costs between 1 and 999, the last plan that a correct solver leads to is a cheapest solution, once the number of steps is at least the greatest costs plus the difference of the depths.", "quantifier": "every well-formed partially ordered problem in which every abstract task has a method, every configuration and set of options, every cost function, bound and factor, every depth, every solver (that returns only models; for optimality, that is correct), every number of steps", "why_tests_cant": "The costs are counted per position of the plan, while the plan that is printed comes from the leaves matched with the positions; that both agree must hold for every model, and optimality speaks about all solutions of all heights.", "anchors": ["src/sat/sat_planner.cpp: createFormulaForDepth (441-512), optimise_with_sat_planner_linear_bound_increase (707-777), printSolution (98-117)", "src/sat/state_formula.cpp: get_partial_state_atoms (255-347)"]}
{"id": "C89", "title": "SAT planner, totally ordered problems: the printed order of the actions", "statement": "With the option for printing the order, there is one line for each printed action, in the order of the plan, with the right count and, without repetition, exactly the numbers of the printed actions that have to be executed after it in the decomposition that is printed.", "quantifier": "every well-formed totally ordered problem in which every abstract task has a method, every configuration and set of options, every solver that returns only models, every number of iterations", "why_tests_cant": "That all later actions have to be executed later, and no others, holds because the leaves of the tree are in the order of the decomposition for every model, not only for those that a solver happened to return.", "anchors": ["src/sat/sat_planner.cpp: printSolution (124-134)"]}
{"id": "C90", "title": "SAT planner, totally ordered problems: a whole run with optimisation of the plan costs", "statement": "A run of the planner with optimisation prints outputs each of which is a solution together with lines that describe a decomposition of the initial task for it, no deeper than the announced depth; the depths never decrease and every plan is cheaper than the one printed before it. If the problem has a solution, then from some number of steps on the last printed plan is a cheapest solution; if it has none, nothing is ever printed.", "quantifier": "every well-formed totally ordered problem in which every abstract task has a method, every configuration and set of options, every cost function, every solver (that returns only models; for the last plan, that is correct), every number of steps", "why_tests_cant": "The properties relate everything a run prints, over two loops that share the counter of variables but not the tree, to all solutions of all heights; and the wrong step from the first to the second plan only shows with some solvers.", "anchors": ["src/sat/sat_planner.cpp: solve_with_sat_planner_linear_bound_increase (782-838), optimise_with_sat_planner_linear_bound_increase (707-777), printSolution (41-156)"]}
{"id": "C91", "title": "SAT planner, partially ordered problems: a whole run with optimisation of the plan costs", "statement": "A run of the planner with optimisation prints outputs each of which is a solution together with lines that describe a decomposition of the initial task for it, no deeper than the announced depth, and an order that contains what the decomposition demands and whose linearisations are those of the decomposition; the depths never decrease and every plan is cheaper than the one printed before it. If the problem has a solution, then after enough steps (the greatest costs plus the depth of a cheapest solution) the last printed plan is a cheapest solution; if it has none, nothing is ever printed.", "quantifier": "every well-formed partially ordered problem in which every abstract task has a method, every configuration and set of options, every cost function, every solver (that returns only models; for the last plan, that is correct), every number of steps", "why_tests_cant": "The properties relate everything a run prints, over two loops that share the counter of variables but not the tree, to all solutions of all heights and to all arrangements of each plan.", "anchors": ["src/sat/sat_planner.cpp: solve_with_sat_planner_linear_bound_increase (782-838), optimise_with_sat_planner_linear_bound_increase (707-777), printSolution (41-156)"]}
{"id": "C92", "title": "Writing a problem as HDDL: methods keep their meaning", "statement": "Writing a method as HDDL succeeds. The written method has a precondition iff exactly one subtask has the name of a precondition action and the orderings demand that it is before all others, and its facts are the preconditions of that action. The sequences of tasks the written method allows are exactly those the method allows, with the subtask for the precondition and no-op subtasks left out. Every task in a written method is declared, once; only actions which occur in written methods are declared. Different tasks and facts get different names.", "quantifier": "every method with orderings that are acyclic and in range, all names, every iteration order of the hash sets; for the declarations every set of such methods", "why_tests_cant": "Sets of allowed sequences are exponentially large, and the check for no-op subtasks looks at the wrong subtask only for some numberings of subtasks.", "anchors": ["src/Model.cpp: Model::writeToPDDL (2781-2972)", "src/intDataStructures/StringUtil.cpp: StringUtil::cleanStr (30-51)"]}
{"id": "C93", "title": "Specifications of heuristics are read exactly and every value lands in its own entry", "statement": "A specification name(a1;a2;...) with arguments of the form value or key=value is read exactly: the name is the text before the parenthesis and an option has the value given with its key, else the value in its position, else none. For a new node, entry n of the array of heuristic values becomes the value of the n-th specified heuristic, also if it was specified before (then it is computed once and copied), and UNREACHABLE behind a heuristic that refuses the node; no entry is read before it is set, and the node is dropped iff some heuristic refuses it. Malformed specifications are reported; options choose what the help text says.", "quantifier": "all names without parenthesis, all non-empty lists of arguments whose parts are not empty and have no white space, semicolons or equals signs; all lists of specifications with repetitions, all values and verdicts of the heuristics", "why_tests_cant": "Strings and lists of specifications are unbounded; repeated specifications share one object that writes to another entry, so wrong entries depend on the pattern of repetitions.", "anchors": ["src/SearchEngine.cpp: parse_list_of_strings (49-63), parse_heuristic_with_arguments_from_braced_expression (66-98), main (277-411)", "src/search/PriorityQueueSearch.h: PriorityQueueSearch::search (115-132, 180-197)"]}
{"id": "C94", "title": "Sessions of the interactive planner carry out legal steps", "statement": "A session of the interactive planner only carries out decompositions and actions that the task network and state admit; so if no task is left and the goal holds, the actions carried out are a solution. Every unconstrained task with every method of it, and every unconstrained applicable action, can be chosen by some input, and the round then has a defined outcome. The session ends properly when no task is left.", "quantifier": "all well-formed problems, all settings of progression, all input sequences of integers, all numbers of rounds", "why_tests_cant": "Sessions are arbitrary long sequences of choices over unbounded problems; illegal choices and out-of-range numbers show no message.", "anchors": ["src/interactivePlanner.cpp: interactivePlanner (7-61)", "src/SearchEngine.cpp: main (274-276)"]}
