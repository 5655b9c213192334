import Verif.Progression

/-! # Model of the search loop `PriorityQueueSearch::search`

The fringe, the visited list and the heuristics are parameters (in the code: template
parameters `Fringe` and `VisitedList`, and the virtual class `Heuristic`). -/

namespace Verif.Prog

open Verif.Htn

/-- A search node together with what is stored in it by heuristics and fringe
(src/ProgressionNetwork.h 73-130): `heuristicValue` and `fValue`.  `f = none` means that
`fValue` has not been initialised yet. -/
structure SNode where
  node : Node
  hv : List Int
  f : Option Int
deriving DecidableEq, Inhabited

/-- What the search is given. -/
structure Env (V F H : Type) where
  /-- `suboptimalSearch` -/
  subopt : Bool
  /-- `Fringe::push` -/
  push : F → SNode → F
  /-- `Fringe::isEmpty` and `Fringe::pop` -/
  pop : F → Option (SNode × F)
  /-- `VisitedList::insertVisi`, which also reads the plan steps -/
  ins : V → Heap → SNode → V × Bool
  /-- all calls of `setHeuristicValue` for a new node (arguments: parent and new node); the
  result consists of the values and the flag `goalReachable` -/
  heur : H → Heap → Node → Node → H × List Int × Bool
  /-- results of `rand()` -/
  rnd : Nat → Nat
  /-- whether the time limit is found to be exceeded in an iteration -/
  timeUp : Nat → Bool
  /-- `hLength` -/
  hLength : Nat

/-- Local and global variables changed by the search. -/
structure St (V F H : Type) where
  g : Glob
  fr : F
  vis : V
  hs : H
  iter : Nat

inductive Result
  /-- "Status: Solved", with `tnSol` -/
  | solved (n : SNode)
  /-- "Status: Timeout" -/
  | timeout
  /-- "Status: Proven unsolvable" -/
  | unsolvable

variable {V F H : Type} (P : Problem) (cfg : Cfg) (E : Env V F H)

/-- Treatment of a new node `n2` (src/search/PriorityQueueSearch.h 102-153 and 166-219): drop
if dead, drop if seen before (suboptimal mode), compute heuristics and drop if found to
be unsolvable, early goal test (suboptimal mode), push.  The second component is the
solution node if the search stops (`optimzeSol` is the constant `false`, src/flags.h). -/
def child (s : St V F H) (par n2 : Node) : St V F H × Option SNode :=
  if n2.reachable = false then (s, none)
  else
    let r := if E.subopt then E.ins s.vis s.g.heap ⟨n2, [], none⟩ else (s.vis, true)
    let s := { s with vis := r.1 }
    if r.2 = false then (s, none)
    else
      let q := E.heur s.hs s.g.heap par n2
      let s := { s with hs := q.1 }
      if q.2.2 = false then (s, none)
      else if E.subopt && isGoal P n2 then (s, some ⟨n2, q.2.1, none⟩)
      else ({ s with fr := E.push s.fr ⟨n2, q.2.1, none⟩ }, none)

/-- The loop over the unconstrained primitive tasks (src/search/PriorityQueueSearch.h 96-155).
Outcome `none`: fuel or undefined behaviour of `apply`. -/
def applyAll (fuel : Nat) (par : Node) : List Nat → St V F H → Option (St V F H × Option SNode)
  | [], s => some (s, none)
  | i :: is, s =>
    if isApplicable P par.state (taskOf s.g.heap (par.prims[i]?.getD 0)) = false then
      applyAll fuel par is s
    else
      match apply P cfg fuel s.g par i with
      | none => none
      | some (g, n2) =>
        match child P E { s with g := g } par n2 with
        | (s, some x) => some (s, some x)
        | (s, none) => applyAll fuel par is s

/-- The loop over the methods for the chosen abstract task
(src/search/PriorityQueueSearch.h 164-220). -/
def decAll (fuel : Nat) (par : Node) (d : Nat) : List Nat → St V F H → Option (St V F H × Option SNode)
  | [], s => some (s, none)
  | m :: ms, s =>
    match decompose P cfg fuel s.g par d m with
    | none => none
    | some (g, n2) =>
      match child P E { s with g := g } par n2 with
      | (s, some x) => some (s, some x)
      | (s, none) => decAll fuel par d ms s

/-- Expansion of a node (src/search/PriorityQueueSearch.h 96-221). -/
def expand (fuel : Nat) (par : Node) (s : St V F H) : Option (St V F H × Option SNode) :=
  if par.abs.isEmpty then applyAll P cfg E fuel par (List.range par.prims.length) s
  else
    let d := E.rnd s.iter % par.abs.length
    decAll P cfg E fuel par d (methodsOf P (taskOf s.g.heap (par.abs[d]?.getD 0))) s

/-- The duplicate test of the popped node (src/search/PriorityQueueSearch.h 79-82). -/
def popCheck (s : St V F H) (n : SNode) : V × Bool :=
  if E.subopt then (s.vis, true) else E.ins s.vis s.g.heap n

/-- End of an iteration (src/search/PriorityQueueSearch.h 157-158, 224-252): stop if a solution
has been found during expansion or the time is up.  `next` stands for the next iteration. -/
def afterExpand (next : St V F H → Option (Result × St V F H)) :
    Option (St V F H × Option SNode) → Option (Result × St V F H)
  | none => none
  | some (s, some x) => some (.solved x, s)
  | some (s, none) =>
    if E.timeUp s.iter then some (.timeout, s) else next { s with iter := s.iter + 1 }

/-- An iteration after the duplicate test (src/search/PriorityQueueSearch.h 85-252). -/
def afterCheck (next : St V F H → Option (Result × St V F H)) (fuel : Nat) (n : SNode)
    (s : St V F H) : Option (Result × St V F H) :=
  if !E.subopt && isGoal P n.node then some (.solved n, s)
  else afterExpand E next (expand P cfg E fuel n.node s)

/-- The main loop (src/search/PriorityQueueSearch.h 74-256) and the choice of the reported
status (284-303).  Outcome `none`: fuel. -/
def loop : Nat → St V F H → Option (Result × St V F H)
  | 0, _ => none
  | fuel + 1, s =>
    match E.pop s.fr with
    | none => some (.unsolvable, s)
    | some (n, fr) =>
      if (popCheck E s n).2 = false then loop fuel { s with fr := fr, vis := (popCheck E s n).1 }
      else afterCheck P cfg E (loop fuel) fuel n { s with fr := fr, vis := (popCheck E s n).1 }

/-- The root node as pushed on the fringe: all heuristic values are 0
(src/search/PriorityQueueSearch.h 60-69). -/
def rootNode (hLength : Nat) : SNode := ⟨(initNode P cfg).2, List.replicate hLength 0, none⟩

/-- `PriorityQueueSearch::search` (src/search/PriorityQueueSearch.h 33-313) on the initial node. -/
def search (fuel : Nat) (v0 : V) (f0 : F) (hs0 : H) : Option (Result × St V F H) :=
  loop P cfg E fuel
    { g := (initNode P cfg).1, fr := E.push f0 (rootNode P cfg E.hLength), vis := v0, hs := hs0, iter := 0 }

/-- The printed plan: the actions of the solution list in order of application
(`extractSolutionFromSearchNode`, src/ProgressionNetwork.cpp 160-210). -/
def planOf (sol : List SolStep) : List Nat :=
  sol.reverse.filterMap fun s => if s.method = none then some s.task else none

/-- The number of decompositions in the solution list. -/
def decsOf (sol : List SolStep) : Nat := (sol.filter fun s => s.method.isSome).length

end Verif.Prog
