import Verif.HtnSpec
import Verif.TaskCounter
import Mathlib.Data.List.Sort

/-! # Model of progression search nodes, `Model::apply` and `Model::decompose`

A `planStep` is an index into a heap (list of steps); `new planStep` appends.  The
planner frees steps only when no node refers to them any more (see
`Verif.RefCount`), therefore the model never removes steps from the heap.
`successorList`s of existing steps are never changed by the code. -/

namespace Verif.Prog

open Verif.Htn Verif.TaskCounter

/-- `struct planStep` (src/ProgressionNetwork.h 49-71).  The index in the heap stands for
the address and the `id`.  Not modelled: `pointersToMe` (see `Verif.RefCount`),
`reachableT` (see `Verif.Reach`), `goalFacts` (unused). -/
structure Step where
  task : Nat
  succs : List Nat
  /-- `parentSolutionStepInstanceNumber` -/
  par : Nat
  /-- `myPositionInParent` -/
  pos : Nat
deriving DecidableEq, Inhabited

abbrev Heap := List Step

/-- `struct solutionStep` (src/ProgressionNetwork.h 36-47); `method = none` stands for -1.
The `prev` pointers are modelled by a list, latest step first. -/
structure SolStep where
  task : Nat
  method : Option Nat
  inst : Nat
  par : Nat
  pos : Nat
deriving DecidableEq, Inhabited

/-- `struct searchNode` (src/ProgressionNetwork.h 73-130) without the heuristic values. -/
structure Node where
  state : List Bool
  /-- `unconstraintPrimitive` -/
  prims : List Nat
  /-- `unconstraintAbstract` -/
  abs : List Nat
  /-- `containedTasks`, `containedTaskCount` -/
  contained : Counter
  /-- `solution` -/
  sol : List SolStep
  /-- `modificationDepth` -/
  depth : Nat
  /-- `mixedModificationDepth` -/
  mixed : Nat
  /-- `actionCosts` -/
  costs : Nat
  /-- `goalReachable` -/
  reachable : Bool
deriving DecidableEq, Inhabited

/-- Global mutable data used by `apply` and `decompose`: the heap, the counter
`currentSolutionStepInstanceNumber`, and the shared stack `effectLess` with its
iteration index (`FlexIntStack`, src/intDataStructures/FlexIntStack.cpp). -/
structure Glob where
  heap : Heap
  inst : Nat
  eff : List Nat
  it : Nat
deriving DecidableEq, Inhabited

/-- Constructor parameters of the model object (src/Model.cpp 33-36), and the iteration
order of `std::set<planStep*>`, which depends on addresses.  `perm` lists a set in that
order. -/
structure Cfg where
  /-- `progressEffectLess` -/
  effLess : Bool
  /-- `progressOneModActions` -/
  oneMod : Bool
  /-- `trackTasksInTN` -/
  trackTasks : Bool
  perm : List Nat → List Nat

/-- Iteration over a `std::set` visits every element exactly once. -/
def Cfg.Ok (cfg : Cfg) : Prop := ∀ l, (cfg.perm l).Perm l

variable (P : Problem) (cfg : Cfg)

/-- `FlexIntStack::getFirst` (src/intDataStructures/FlexIntStack.cpp 56-61). -/
def Glob.getFirst (g : Glob) : Glob × Option Nat :=
  match g.eff with
  | [] => (g, none)
  | x :: _ => ({ g with it := 0 }, some x)

/-- `FlexIntStack::getNext` (src/intDataStructures/FlexIntStack.cpp 63-69). -/
def Glob.getNext (g : Glob) : Glob × Option Nat :=
  ({ g with it := g.it + 1 }, g.eff[g.it + 1]?)

/-- `Model::isApplicable` (src/Model.cpp 1395-1401). -/
def isApplicable (st : List Bool) (a : Nat) : Bool :=
  (P.prec a).all (fun f => st[f]?.getD false)

/-- State update in `Model::apply` (src/Model.cpp 1009-1014): deletes, then adds. -/
def applyState (st : List Bool) (a : Nat) : List Bool :=
  (P.add a).foldl (fun st f => st.set f true) ((P.del a).foldl (fun st f => st.set f false) st)

/-- `Model::isGoal` (src/Model.cpp 1403-1411). -/
def isGoal (n : Node) : Bool :=
  n.abs.isEmpty && n.prims.isEmpty && P.goal.all (fun f => n.state[f]?.getD false)

/-- `successorList` of a step. -/
def succsOf (h : Heap) (u : Nat) : List Nat := ((h[u]?).map Step.succs).getD []

/-- `task` of a step. -/
def taskOf (h : Heap) (u : Nat) : Nat := ((h[u]?).map Step.task).getD 0

/-- The `while (true)` loop of `Model::apply` (src/Model.cpp 1047-1072).  `pf` is the set
`potentiallyFirst`, `st` the forward list `potentialPredecessors`, `done` the set `done`.
Outcome `none`: out of fuel. -/
def candLoop (h : Heap) : Nat → List Nat → List Nat → List Nat → Option (List Nat)
  | 0, _, _, _ => none
  | _ + 1, [], _, _ => some []
  | _ + 1, pf, [], _ => some pf
  | f + 1, pf, x :: st, done =>
    candLoop h f (pf.erase x)
      (((succsOf h x).filter (fun y => !(x :: done).contains y)).reverse ++ st) (x :: done)

/-- What `apply` pushes on `potentialPredecessors` before the loop, in push order
(src/Model.cpp 1019-1046). -/
def initPreds (h : Heap) (n : Node) (i : Nat) (succs : List Nat) : List Nat :=
  succs.flatMap (succsOf h) ++ n.abs.flatMap (succsOf h) ++ (n.prims.eraseIdx i).flatMap (succsOf h)

/-- The effect-free, applicable actions at positions `from` and later, as pushed on
`effectLess` (src/Model.cpp 1101-1140 and 670-686). -/
def effIdx (h : Heap) (st : List Bool) (prims : List Nat) (start : Nat) : List Nat :=
  (List.range prims.length).filter (fun j => decide (start ≤ j) &&
    (let t := taskOf h (prims[j]?.getD 0)
     (P.add t).isEmpty && (P.del t).isEmpty && isApplicable P st t))

/-- `if (trackTasksInTN) updateTaskCounterA(...)` (src/Model.cpp 1173-1175). -/
def counterA (c : Counter) (a : Nat) : Option Counter :=
  if cfg.trackTasks then updA c a else some []

/-- `Model::apply` up to the automatic progression (src/Model.cpp 1001-1338). -/
def applyBase (fuel : Nat) (g : Glob) (n : Node) (i : Nat) : Option (Glob × Node) := do
  let u ← n.prims[i]?
  let ps ← g.heap[u]?
  let state := applyState P n.state ps.task
  let pf ← candLoop g.heap fuel ps.succs.dedup (initPreds g.heap n i ps.succs).reverse []
  let new := cfg.perm pf
  let prims := n.prims.eraseIdx i ++ new.filter (fun v => P.prim (taskOf g.heap v))
  let abs := n.abs ++ new.filter (fun v => !P.prim (taskOf g.heap v))
  let eff := if cfg.effLess then effIdx P g.heap state prims 0 else g.eff
  -- `n->solution->pointersToMe++` (src/Model.cpp 1162) dereferences the parent's solution
  if n.sol.isEmpty then none else
  let contained ← counterA cfg n.contained ps.task
  return ({ g with inst := g.inst + 1, eff := eff },
    { state := state, prims := prims, abs := abs, contained := contained,
      sol := ⟨ps.task, none, g.inst, ps.par, ps.pos⟩ :: n.sol,
      depth := n.depth + 1, mixed := n.mixed + P.cost ps.task, costs := n.costs + P.cost ps.task,
      reachable := true })

/-- The loop over `effectLess` (src/Model.cpp 1340-1351 and 902-913); `app` is the
recursive call of `apply`. -/
def effLoop (app : Glob → Node → Nat → Option (Glob × Node)) :
    Nat → Glob → Node → Option Nat → Option (Glob × Node)
  | 0, _, _, _ => none
  | _ + 1, g, n, none => some (g, n)
  | f + 1, g, n, some ac =>
    match app g n ac with
    | none => none
    | some (g', n') => effLoop app f g'.getNext.1 n' g'.getNext.2

/-- The one-modification part (src/Model.cpp 1352-1378 and 914-940): if no abstract task is
unconstrained and exactly one action is applicable it is applied; if none is, the node
is marked as dead. -/
def oneModStep (app : Glob → Node → Nat → Option (Glob × Node)) (g : Glob) (n : Node) :
    Option (Glob × Node) :=
  if n.abs.isEmpty && !n.prims.isEmpty then
    match (List.range n.prims.length).filter
        (fun j => isApplicable P n.state (taskOf g.heap (n.prims[j]?.getD 0))) with
    | [] => some (g, { n with reachable := false })
    | [j] => app g n j
    | _ => some (g, n)
  else some (g, n)

/-- `if (progressEffectLess) for ...` (src/Model.cpp 1340-1351 and 902-913). -/
def effPart (app : Glob → Node → Nat → Option (Glob × Node)) (fuel : Nat) (g : Glob) (n : Node) :
    Option (Glob × Node) :=
  if cfg.effLess then effLoop app fuel g.getFirst.1 n g.getFirst.2 else some (g, n)

/-- Automatic progression after a node has been built (src/Model.cpp 1340-1378, 902-940). -/
def post (app : Glob → Node → Nat → Option (Glob × Node)) (fuel : Nat) (g : Glob) (n : Node) :
    Option (Glob × Node) := do
  let (g, n) ← effPart cfg app fuel g n
  if cfg.oneMod then oneModStep P app g n else some (g, n)

/-- `Model::apply` (src/Model.cpp 1001-1393).  Outcome `none`: out of fuel or undefined
behaviour.  Not modelled: landmark tracking (disabled by `flags.h`). -/
def apply : Nat → Glob → Node → Nat → Option (Glob × Node)
  | 0, _, _, _ => none
  | f + 1, g, n, i => do
    let (g, n) ← applyBase P cfg f g n i
    post P cfg (apply f) f g n

/-- `methodsFirstTasks` (`Model::generateMethodRepresentation`, src/Model.cpp 1489-1536):
positions that are not the second component of an ordering pair. -/
def firstTasks (m : Nat) : List Nat :=
  (List.range (P.sub m).length).filter (fun i => !(P.ord m).any (fun o => o.2 == i))

/-- Positions without successor inside the method, `methodsLastTasks`
(src/Model.cpp 1489-1536). -/
def isLast (m i : Nat) : Bool := !(P.ord m).any (fun o => o.1 == i)

/-- The plan steps created for a method: `Model::initializeMethod` (src/Model.cpp 958-999)
followed by the re-linking of the last tasks in `decompose` (src/Model.cpp 650-665). -/
def methodSteps (m base inst : Nat) (outer : List Nat) : List Step :=
  (List.range (P.sub m).length).map fun i =>
    { task := (P.sub m)[i]?.getD 0
      succs := if isLast P m i then outer
        else ((P.ord m).filter (fun o => o.1 == i)).map (fun o => base + o.2)
      par := inst
      pos := i }

/-- `taskToMethods` (src/Model.cpp 1455-1482). -/
def methodsOf (t : Nat) : List Nat := (List.range P.numMethods).filter (fun m => P.head m == t)

/-- The sorted distinct subtasks with counts (src/Model.cpp 2014-2055); sorting is
modelled by `List.insertionSort` (`IntUtil::sort` is treated in `Verif.IntSort`). -/
def distinctSubs (m : Nat) : Counter := compress ((P.sub m).insertionSort (· ≤ ·))

/-- `if (trackTasksInTN) updateTaskCounterM(...)` (src/Model.cpp 730-732). -/
def counterM (c : Counter) (m : Nat) : Option Counter :=
  if cfg.trackTasks then updM c (distinctSubs P m) (P.head m) else some []

/-- `Model::decompose` up to the automatic progression (src/Model.cpp 604-728). -/
def decomposeBase (g : Glob) (n : Node) (j m : Nat) : Option (Glob × Node) := do
  let u ← n.abs[j]?
  let ps ← g.heap[u]?
  let base := g.heap.length
  let heap := g.heap ++ methodSteps P m base g.inst ps.succs
  let new := (firstTasks P m).map (base + ·)
  let prims := n.prims ++ new.filter (fun v => P.prim (taskOf heap v))
  let abs := n.abs.eraseIdx j ++ new.filter (fun v => !P.prim (taskOf heap v))
  let eff := if cfg.effLess then effIdx P heap n.state prims n.prims.length else g.eff
  let contained ← counterM P cfg n.contained m
  return ({ g with heap := heap, inst := g.inst + 1, eff := eff },
    { state := n.state, prims := prims, abs := abs, contained := contained,
      sol := ⟨ps.task, some m, g.inst, ps.par, ps.pos⟩ :: n.sol,
      depth := n.depth + 1, mixed := n.mixed + 1, costs := n.costs, reachable := true })

/-- `Model::decompose` (src/Model.cpp 604-956). -/
def decompose (fuel : Nat) (g : Glob) (n : Node) (j m : Nat) : Option (Glob × Node) := do
  let (g, n) ← decomposeBase P cfg g n j m
  post P cfg (apply P cfg fuel) fuel g n

/-- `Model::prepareTNi` (src/Model.cpp 2641-2673): the initial node and global data. -/
def initNode : Glob × Node :=
  ({ heap := [{ task := P.init, succs := [], par := 0, pos := 0 }], inst := 0, eff := [], it := 0 },
   { state := P.s0.foldl (fun st f => st.set f true) (List.replicate P.numFacts false),
     prims := [], abs := [0], contained := if cfg.trackTasks then [(P.init, 1)] else [],
     sol := [], depth := 0, mixed := 0, costs := 0, reachable := true })

end Verif.Prog
