import Verif.HtnSpec
import Mathlib.Data.List.Dedup

/-! # Model of the symbolic search

`build_automaton`, src/symbolic_search/automaton.cpp 1145-1777.  The planner explores the decompositions of a totally ordered
problem whose methods have one or two subtasks.  Vertex 0 is the start and vertex 1 the end of the automaton; every method with
two subtasks has a vertex of its own.  Edges are labelled with tasks and carry BDDs, for every layer (cost and depth) of the
search.  A BDD has three copies of the state variables: `v`, `v'` and `v''`.

The BDD library is modelled by the operations `Ops`; `Lawful` (`Verif.AutomatonSpec`) says what they compute.  Maps are lists of
pairs that are sorted by the keys.  Not modelled: the extraction of a plan (lines 112-1121), the members of `tracingInfo` that only
the extraction reads, output, and the branch for empty methods, which the parser rejects (src/Model.cpp 1877-1884).  Outcomes of
a run are explicit: undefined behaviour (reading a missing map entry, dereferencing `end()`) and failed assertions are
`undef`. -/

namespace Verif.Sym

open Verif.Htn

/-- The BDD operations that the search uses. -/
structure Ops (B : Type) where
  zero : B
  and : B → B → B
  or : B → B → B
  not : B → B
  /-- `==` -/
  isEq : B → B → Bool
  /-- `SwapVariables(swapVarsEff, swapVarsAux)`: exchanges `v'` and `v''` -/
  swapEA : B → B
  /-- `SwapVariables(swapVarsPre, swapVarsEff)`: exchanges `v` and `v'` -/
  swapPE : B → B
  /-- `AndAbstract(one, existsVarsPre)`: quantifies `v` -/
  exP : B → B
  /-- `AndAbstract(one, existsVarsEff)`: quantifies `v'` -/
  exE : B → B
  /-- `AndAbstract(one, existsVarsAux)`: quantifies `v''` -/
  exA : B → B
  /-- `trs[task].image` -/
  image : Nat → B → B
  /-- `biimp`: `v = v''` -/
  biimp : B
  init : B
  goal : B

def Ops.isZero {B : Type} (O : Ops B) (x : B) : Bool := O.isEq x O.zero

/-! ## Maps -/

/-- Order of keys: lexicographic. -/
def lexLt : List Nat → List Nat → Bool
  | [], [] => false
  | [], _ :: _ => true
  | _ :: _, [] => false
  | a :: r, b :: s => a < b || (a == b && lexLt r s)

/-- `std::map`, nested maps have the sequence of their keys as key. -/
abbrev Map (V : Type) := List (List Nat × V)

def Map.get? {V : Type} : Map V → List Nat → Option V
  | [], _ => none
  | (k', v) :: r, k => if k = k' then some v else Map.get? r k

/-- Assignment to an entry, which is inserted if it is missing. -/
def Map.set {V : Type} : Map V → List Nat → V → Map V
  | [], k, v => [(k, v)]
  | (k', v') :: r, k, v => if k = k' then (k, v) :: r else if lexLt k k' then (k, v) :: (k', v') :: r else (k', v') :: Map.set r k v

/-! ## State of the search -/

/-- `tracingInfo`: the cost at which the entry was made, `cost` (`none` for -1) and `extraCost`. -/
structure Info where
  src : Nat
  param : Option Nat
  extra : Nat
deriving DecidableEq

/-- `sourceCost`, automaton.cpp 1284-1285. -/
def Info.source (i : Info) : Nat := if i.param = some i.extra then i.src else i.src + i.extra

/-- Why a run stops. -/
inductive Out
  /-- "Goal reached! Length=" -/
  | goal (cost : Nat)
  /-- "Problem is unsolvable" -/
  | unsolvable
  /-- "state attached to edge is empty ... bug!" -/
  | bug
  /-- undefined behaviour or a failed assertion -/
  | undef
deriving DecidableEq

structure St (B : Type) where
  /-- `edges`; key: from, task, to, cost, depth -/
  edges : Map B
  /-- `edgesExtraCost`; key: from, task, to, extra cost -/
  extra : Map B
  /-- `eps`; key: vertex, cost, depth -/
  eps : Map B
  /-- the keys (vertex, cost, depth) for which `eps_inserted` is not empty -/
  ins : List (List Nat)
  /-- `prim_q`; key: cost, task, to -/
  prim : Map (List Info)
  /-- `abst_q`; key: cost, depth, task, to -/
  abst : Map (List Info)

variable {B : Type}

/-- What does not change during the search of a layer: `currentCost` and `currentDepthInAbstract`. -/
structure Ctx (B : Type) where
  O : Ops B
  P : Problem
  nA : Nat
  c : Nat
  d : Nat

/-- `ensureBDD`, automaton.cpp 86-90. -/
def ensure (O : Ops B) (st : St B) (k : List Nat) : St B :=
  match st.edges.get? k with
  | some _ => st
  | none => { st with edges := st.edges.set k O.zero }

/-- The BDD of an edge after `ensureBDD`. -/
def edgeAt (O : Ops B) (st : St B) (k : List Nat) : B := (st.edges.get? k).getD O.zero

/-- `addQ`, automaton.cpp 1234-1265. -/
def addQ (x : Ctx B) (st : St B) (task isTo extra : Nat) (param : Option Nat) (only : Bool) : St B :=
  let info : Info := ⟨x.c, param, extra⟩
  if x.nA ≤ task ∨ x.P.cost task = 0 then
    let k := if extra = 0 then [x.c, x.d + 1, task, isTo] else [x.c + extra, 1, task, isTo]
    let l := (st.abst.get? k).getD []
    { st with abst := st.abst.set k (if only = false ∨ l ≠ [] then l ++ [info] else l) }
  else
    let k := [x.c + extra + x.P.cost task, task, isTo]
    { st with prim := st.prim.set k ((st.prim.get? k).getD [] ++ [info]) }

/-! ## Primitive tasks -/

/-- The loop over the extra costs, automaton.cpp 1373-1411.  The second component is `addStateWithIntermediate`. -/
def extraStep (x : Ctx B) (t2 to2 : Nat) (acc : St B × B) (e : Nat × B) : St B × B :=
  let part := x.O.and acc.2 e.2
  if x.O.isZero part then acc
  else
    let fut := x.O.exE part
    let k := [0, t2, to2, x.c + e.1, if e.1 = 0 then x.d else 0]
    let st := ensure x.O acc.1 k
    let cur := edgeAt x.O st k
    let dj := x.O.or cur fut
    let st := if x.O.isEq cur dj then addQ x st t2 to2 e.1 (some e.1) true
      else addQ x { st with edges := st.edges.set k dj } t2 to2 e.1 (some e.1) false
    (st, x.O.and acc.2 (x.O.not part))

/-- The extra costs of an edge in ascending order. -/
def extrasOf (m : Map B) (isTo t2 to2 : Nat) : List (Nat × B) :=
  m.filterMap fun e => match e.1 with
    | [a, b, c, ec] => if a = isTo ∧ b = t2 ∧ c = to2 then some (ec, e.2) else none
    | _ => none

/-- An edge that leaves the vertex `isTo`, automaton.cpp 1358-1448. -/
def primEdge (x : Ctx B) (isTo lc ld : Nat) (next : B) (st : St B) (e : Nat × Nat) : St B :=
  match st.edges.get? [isTo, e.1, e.2, lc, ld] with
  | none => st
  | some bdd =>
    let k := [0, e.1, e.2, x.c, x.d]
    let st := ensure x.O st k
    let add := x.O.and (x.O.and next bdd) (x.O.not (edgeAt x.O st k))
    if x.O.isZero add then st
    else
      let r := (extrasOf st.extra isTo e.1 e.2).foldl (extraStep x e.1 e.2) (st, add)
      if x.O.isZero r.2 then r.1
      else
        let cur := edgeAt x.O r.1 k
        let dj := x.O.or cur (x.O.exE r.2)
        if x.O.isEq dj cur then r.1
        else
          let st := addQ x { r.1 with edges := r.1.edges.set k dj } e.1 e.2 0 none false
          { st with ins := [isTo, x.c, x.d] :: st.ins }

/-- The edges that leave a vertex: task and target, in order. -/
def outEdges (m : Map B) (v : Nat) : List (Nat × Nat) :=
  (m.filterMap fun e => match e.1 with
    | [a, t, u, _, _] => if a = v then some (t, u) else none
    | _ => none).dedup

/-- A primitive task, automaton.cpp 1328-1469. -/
def doPrim (x : Ctx B) (task isTo lc ld : Nat) (state : B) (st : St B) : Except Out (St B) :=
  let next := x.O.swapEA (x.O.image task state)
  if x.O.isZero next then .ok st
  else match st.eps.get? [isTo, x.c, x.d] with
    | none => .error .undef
    | some cur =>
      let dj := x.O.or cur next
      if x.O.isEq dj cur then .ok st
      else
        let st := { st with eps := st.eps.set [isTo, x.c, x.d] dj }
        let st := (outEdges st.edges isTo).foldl (primEdge x isTo lc ld next) st
        if isTo = 1 ∧ x.O.isZero (x.O.and next x.O.goal) = false then .error (.goal x.c) else .ok st

/-! ## Abstract tasks -/

/-- The methods with two subtasks, automaton.cpp 1171-1180. -/
def twoMethods (P : Problem) : List Nat := (List.range P.numMethods).filter fun m => (P.sub m).length == 2

/-- `methods_with_two_tasks_vertex`. -/
def vertexOf (P : Problem) (m : Nat) : Nat := (twoMethods P).idxOf m + 2

/-- `tasks_per_method`, automaton.cpp 1192-1203.  The assertion `numOrderings[method] == 2` is the outcome `none`.  The subtasks
are exchanged if the ordering starts with 1 and its second number is not 0. -/
def taskPair (P : Problem) (m : Nat) : Option (Nat × Nat) :=
  match P.sub m, P.ord m with
  | [a, b], [(i, j)] => some (if i = 1 ∧ j ≠ 0 then (b, a) else (a, b))
  | _, _ => none

/-- A method with one subtask, automaton.cpp 1481-1491. -/
def unitMethod (x : Ctx B) (isTo t : Nat) (state : B) (st : St B) : St B :=
  let k := [0, t, isTo, x.c, x.d]
  let st := ensure x.O st k
  let cur := edgeAt x.O st k
  let dj := x.O.or cur state
  if x.O.isEq dj cur then st
  else addQ x { st with edges := st.edges.set k dj } t isTo 0 none false

/-- The search for a shortcut at one layer, automaton.cpp 1561-1623.  `g` is the second subtask, `fresh` is
`actually_new_r_temp`.  The second component is `sIntersect`; if it is zero, the loops are left.  Every layer of `epsLayers` has
an entry of `eps`, as the depths of a cost are consecutive; a missing one is skipped here. -/
def epsStep (x : Ctx B) (vm g isTo getHere : Nat) (fresh : B) (acc : St B × B) (l : Nat × Nat) : St B × B :=
  if x.O.isZero acc.2 then acc
  else if [vm, l.1, l.2] ∉ acc.1.ins then acc
  else match acc.1.eps.get? [vm, l.1, l.2] with
    | none => acc
    | some e =>
      let ei := x.O.and e acc.2
      if x.O.isZero ei then acc
      else
        let actual := l.1 - getHere
        let k := [0, g, isTo, x.c + actual, if actual = 0 then x.d else 0]
        let st := ensure x.O acc.1 k
        let new := x.O.exE (x.O.and (x.O.exA ei) fresh)
        let cur := edgeAt x.O st k
        let dj := x.O.or cur new
        let st := if x.O.isEq cur dj then addQ x st g isTo actual (some l.1) true
          else addQ x { st with edges := st.edges.set k dj } g isTo actual (some l.1) false
        (st, x.O.and acc.2 (x.O.not (x.O.exP ei)))

/-- The layers with a cost between `getHere` and `lc`, automaton.cpp 1561-1562. -/
def epsLayers (eps : Map B) (vm getHere lc : Nat) : List (Nat × Nat) :=
  (List.range' getHere (lc + 1 - getHere)).flatMap fun cost =>
    (List.range (eps.countP fun e => match e.1 with
      | [a, c, _] => a == vm && c == cost
      | _ => false)).map fun depth => (cost, depth)

/-- One depth of the loop over the layers in which a state was pushed, automaton.cpp 1534-1661.  Returns the remaining
`alreadyKnown`, and whether there was an intersection. -/
def knownStep (x : Ctx B) (f vm g isTo lc getHere gd : Nat) (fresh : B) (st : St B) (ak : B) : St B × B × Bool :=
  let k := [0, f, vm, getHere, gd]
  let st := ensure x.O st k
  let inter := x.O.and ak (edgeAt x.O st k)
  if x.O.isZero inter then (st, ak, false)
  else
    let r := (epsLayers st.eps vm getHere lc).foldl (epsStep x vm g isTo getHere fresh) (st, x.O.swapPE inter)
    let si := x.O.and (x.O.exA (x.O.swapPE inter)) fresh
    let st := if x.O.isZero si then r.1
      else
        let ke := [vm, g, isTo, x.c - getHere]
        { r.1 with extra := r.1.extra.set ke (x.O.or ((r.1.extra.get? ke).getD x.O.zero) si) }
    (st, x.O.and ak (x.O.not inter), true)

/-- The loop over the depths, automaton.cpp 1534-1661; left when `alreadyKnown` becomes zero. -/
def knownLoop (x : Ctx B) (f vm g isTo lc getHere : Nat) (fresh : B) : List Nat → St B → B → St B × B
  | [], st, ak => (st, ak)
  | gd :: r, st, ak =>
    let q := knownStep x f vm g isTo lc getHere gd fresh st ak
    if q.2.2 ∧ x.O.isZero q.2.1 then (q.1, q.2.1) else knownLoop x f vm g isTo lc getHere fresh r q.1 q.2.1

/-- The largest depth of an edge at a cost. -/
def maxDepth (m : Map B) (a t u c : Nat) : Option Nat :=
  (m.filterMap fun e => match e.1 with
    | [a', t', u', c', dd] => if a' = a ∧ t' = t ∧ u' = u ∧ c' = c then some dd else none
    | _ => none).max?

/-- One cost of the loop over the costs at which a state was pushed, automaton.cpp 1525-1662. -/
def getHereStep (x : Ctx B) (f vm g isTo lc : Nat) (fresh : B) (acc : St B × B) (getHere : Nat) : St B × B :=
  match maxDepth acc.1.edges 0 f vm getHere with
  | none => acc
  | some ld => knownLoop x f vm g isTo lc getHere fresh (List.range ((if getHere = x.c then x.d else ld) + 1)) acc.1 acc.2

/-- A method with two subtasks, automaton.cpp 1493-1690. -/
def twoMethod (x : Ctx B) (isTo lc ld vm f g : Nat) (state : B) (st : St B) : St B :=
  let kr := [vm, g, isTo, x.c, x.d]
  let r := x.O.swapPE state
  let st := ensure x.O st kr
  let fresh := x.O.and r (x.O.not (edgeAt x.O st kr))
  let ss := x.O.and (x.O.exA state) x.O.biimp
  let kp := [0, f, vm, lc, ld]
  let st := ensure x.O st kp
  let ak := x.O.and ss (edgeAt x.O st kp)
  let st := if x.O.isZero ak then st
    else ((List.range (lc + 1)).foldl (getHereStep x f vm g isTo lc fresh) (st, ak)).1
  let st := ensure x.O st kr
  let st := { st with edges := st.edges.set kr (x.O.or (edgeAt x.O st kr) r) }
  let k := [0, f, vm, x.c, x.d]
  let st := ensure x.O st k
  let cur := edgeAt x.O st k
  let dj := x.O.or cur ss
  if x.O.isEq dj cur then addQ x st f vm 0 none true
  else addQ x { st with edges := st.edges.set k dj } f vm 0 none false

/-- A method, automaton.cpp 1473-1691. -/
def doMethod (x : Ctx B) (isTo lc ld : Nat) (state : B) (st : St B) (m : Nat) : Except Out (St B) :=
  match x.P.sub m with
  | [] => .ok st
  | [t] => .ok (unitMethod x isTo t state st)
  | _ => match taskPair x.P m with
    | none => .error .undef
    | some (f, g) => .ok (twoMethod x isTo lc ld (vertexOf x.P m) f g state st)

/-- `taskToMethods[task]`. -/
def methodsOf (P : Problem) (task : Nat) : List Nat := (List.range P.numMethods).filter fun m => P.head m == task

/-! ## Layers -/

/-- One element of the queue, automaton.cpp 1282-1697, for one source cost. -/
def doInfo (x : Ctx B) (task isTo source : Nat) (st : St B) : Except Out (St B) :=
  match (if x.d ≠ 0 then some (x.c, x.d - 1) else (maxDepth st.edges 0 task isTo source).map fun ld => (source, ld)) with
  | none => .error .undef
  | some (lc, ld) => match st.edges.get? [0, task, isTo, lc, ld] with
    | none => .error .undef
    | some state =>
      if x.O.isZero state then .error .bug
      else if task < x.nA then doPrim x task isTo lc ld state st
      else (methodsOf x.P task).foldlM (doMethod x isTo lc ld state) st

/-- An entry of the queue: one round for every source cost, automaton.cpp 1277-1698. -/
def doEntry (x : Ctx B) (st : St B) (e : (Nat × Nat) × List Info) : Except Out (St B) :=
  ((e.2.map Info.source).reverse.dedup.reverse).foldlM (fun st s => doInfo x e.1.1 e.1.2 s st) st

/-- `prim_q[c]`. -/
def primQueue (m : Map (List Info)) (c : Nat) : List ((Nat × Nat) × List Info) :=
  m.filterMap fun e => match e.1 with
    | [c', t, u] => if c' = c then some ((t, u), e.2) else none
    | _ => none

/-- `abst_q[c][d]`. -/
def abstQueue (m : Map (List Info)) (c d : Nat) : List ((Nat × Nat) × List Info) :=
  m.filterMap fun e => match e.1 with
    | [c', d', t, u] => if c' = c ∧ d' = d then some ((t, u), e.2) else none
    | _ => none

/-- The smallest number that satisfies the predicate. -/
def least (l : List Nat) (p : Nat → Bool) : Option Nat := (l.filter p).min?

/-- The next layer, automaton.cpp 1711-1744; depth 0 is the transition to the next cost.  If only `abst_q` has
later costs, the iterator of `prim_q` is dereferenced at its end. -/
def nextLayer (st : St B) (c d : Nat) : Except Out (Nat × Nat × List ((Nat × Nat) × List Info)) :=
  let depths := st.abst.filterMap fun e => match e.1 with
    | [c', d', _, _] => if c' = c then some d' else none
    | _ => none
  let next := if d = 0 then least depths (fun _ => true) else if d ∈ depths then least depths (d < ·) else none
  match next with
  | some d' => .ok (c, d', abstQueue st.abst c d')
  | none =>
    match least (st.prim.filterMap fun e => e.1.head?) (c < ·) with
    | some c' => .ok (c', 0, primQueue st.prim c')
    | none => if (least (st.abst.filterMap fun e => e.1.head?) (c < ·)).isNone then .error .unsolvable else .error .undef

/-- Copying the edges and epsilon sets to the new layer, automaton.cpp 1747-1761. -/
def copyLayer (O : Ops B) (nV c d c' d' : Nat) (st : St B) : St B :=
  let st := st.edges.foldl (fun st e => match e.1 with
    | [a, t, u, lc, ld] =>
      if lc = c ∧ ld = d then
        let k := [a, t, u, c', d']
        let st := ensure O st k
        { st with edges := st.edges.set k (O.or (edgeAt O st k) e.2) }
      else st
    | _ => st) st
  (List.range nV).foldl (fun st v => { st with eps := st.eps.set [v, c', d'] ((st.eps.get? [v, c, d]).getD O.zero) }) st

/-- The main loop, automaton.cpp 1276-1764.  `none` if the fuel does not suffice. -/
def runLoop (O : Ops B) (P : Problem) (nA nV : Nat) : Nat → Nat → Nat → List ((Nat × Nat) × List Info) → St B → Option Out
  | 0, _, _, _, _ => none
  | fuel + 1, c, d, queue, st =>
    match queue.foldlM (doEntry ⟨O, P, nA, c, d⟩) st with
    | .error o => some o
    | .ok st => match nextLayer st c d with
      | .error o => some o
      | .ok (c', d', queue') => runLoop O P nA nV fuel c' d' queue' (copyLayer O nV c d c' d' st)

/-- The number of vertices, automaton.cpp 1183. -/
def numVertices (P : Problem) : Nat := 2 + (twoMethods P).length

/-- The state before the loop, automaton.cpp 1183-1224. -/
def startSt (O : Ops B) (P : Problem) : St B where
  edges := [([0, P.init, 1, 0, 0], O.init)]
  extra := []
  eps := (List.range (numVertices P)).map fun v => ([v, 0, 0], O.zero)
  ins := []
  prim := []
  abst := [([0, 1, P.init, 1], [⟨0, none, 0⟩])]

/-- `build_automaton`.  The loop of the lines 1192-1203 asserts that every method with two subtasks is ordered. -/
def buildAutomaton (O : Ops B) (P : Problem) (nA fuel : Nat) : Option Out :=
  if (twoMethods P).any fun m => (taskPair P m).isNone then some .undef
  else runLoop O P nA (numVertices P) fuel 0 0 [] (startSt O P)

end Verif.Sym
