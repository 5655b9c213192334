import Verif.PlanGraph
import Verif.LmCausal
import Verif.SccGraph
import Verif.Props.Reach
import Mathlib.Algebra.Order.Floor.Ring
import Mathlib.Data.Rat.Floor

/-! # Model of the linear program of `hhDOfree` (src/heuristics/dofHeuristics/hhDOfree.cpp)

The variables of the program have names instead of indices (`iUF`, `iUA`, ... contain the index of the variable that was
added last under that name).  The sets of the planning graph (`PgRes`) list the last inserted element first; the loops visit
them in order of insertion.  The compiled-out constraints for tracked landmarks (`TRACKLMSFULL`, lines 778-793) are not
modelled. -/

namespace Verif.Dof

open Verif.Htn Verif.Prog Verif.TaskCounter Verif.Scc Verif.PG Verif.IntUtil Verif.Props

/-- Variables: facts, tasks, methods, add effects, times of facts and of actions, layers (component, time, task) and steps between
layers (component, time, from, to). -/
inductive Var
  | uf (f : Nat)
  | ua (t : Nat)
  | me (m : Nat)
  | ef (a i : Nat)
  | tp (f : Nat)
  | ta (a : Nat)
  | ly (c k i : Nat)
  | inn (c k i j : Nat)
deriving DecidableEq, Repr

/-- `v.add(IloNumVar(lenv, 0, up, type))`. -/
structure Decl where
  var : Var
  up : Nat

/-- A linear expression; `none` stands for the constant 1. -/
abbrev Lin := List (Int × Option Var)

def V (x : Var) : Lin := [(1, some x)]
def K (c : Int) : Lin := [(c, none)]
def cV (c : Int) (x : Var) : Lin := [(c, some x)]
def sumV (l : List Var) : Lin := l.map fun x => (1, some x)

inductive Rel
  | ge
  | eq
  | le

/-- `model.add(lhs rel rhs)`. -/
structure Con where
  lhs : Lin
  rel : Rel
  rhs : Lin

/-- `csPg`. -/
inductive Pg
  | full
  | relaxed
  | none
deriving DecidableEq

/-- `csAndOrLms`. -/
inductive AoLms
  | none
  | onlyTnI
  | full
deriving DecidableEq

/-- The settings (hhDOfree.h 37-60); `tdgFull`: `cTdgFull` (with `cTdgNone` the constructor ends the program). -/
structure Conf where
  optimal : Bool
  tdgFull : Bool
  pg : Pg
  ao : AoLms
  lmc : Bool
  nc : Bool
deriving DecidableEq

/-- The program: variables, objective, constraints. -/
structure Prog where
  decls : List Decl
  obj : Lin
  cons : List Con

section Build

variable (P : Problem) (nA nT U : Nat) (S : Sccs) (vars : List (Nat × Nat)) (cf : Conf) (n : Node) (r : PgRes)

def stateOf (n : Node) (f : Nat) : Bool := n.state[f]?.getD false

/-- Order of iteration of the sets. -/
def useful : List Nat := r.useful.reverse
def tasks : List Nat := r.tasks.reverse
def meths : List Nat := r.methods.reverse

/-- The loops over actions stop at the first task that is not an action. -/
def acts : List Nat := (tasks r).takeWhile fun a => a < nA

/-- `iu.indexOf(n->containedTasks, ...)` and `n->containedTaskCount` (hhDOfree.cpp 638-643, 681-684). -/
def tnCount (t : Nat) : Nat :=
  match indexOf (keys n.contained) 0 ((keys n.contained).length - 1) t with
  | some i => if 0 ≤ i then ((n.contained[i.toNat]?).map Prod.snd).getD 0 else 0
  | none => 0

/-! ## Variables -/

/-- Indices of the add effects for which a variable exists. -/
def effIdxs (a : Nat) : List Nat := (List.range (P.add a).length).filter fun i => (P.add a)[i]?.getD 0 ∈ r.useful

/-- hhDOfree.cpp 463-508. -/
def declsBase : List Decl :=
  (useful r).map (fun f => ⟨.uf f, 1⟩) ++ (tasks r).map (fun t => ⟨.ua t, U⟩) ++ (meths r).map (fun m => ⟨.me m, U⟩) ++
    (acts nA r).flatMap fun a => (effIdxs P r a).map fun i => ⟨.ef a i, 1⟩

/-- hhDOfree.cpp 510-529. -/
def declsTime : List Decl :=
  if cf.pg = .none then []
  else (useful r).map (fun f => ⟨.tp f, nA⟩) ++ (acts nA r).map fun a => ⟨.ta a, nA⟩

/-- The indices of the tasks of a component that are in the planning graph. -/
def idxs (c : Nat) : List Nat := (List.range (S.tasks c).length).filter fun i => (S.tasks c)[i]?.getD 0 ∈ r.tasks

/-- `htn->sccToTasks[scc][i]`. -/
def taskAt (c i : Nat) : Nat := (S.tasks c)[i]?.getD 0

/-- hhDOfree.cpp 660-673, 694-724. -/
def declsScc (c : Nat) : List Decl :=
  (idxs S r c).map (fun i => ⟨.ly c 0 i, U⟩) ++
    (List.range ((S.tasks c).length - 1)).flatMap fun k => (idxs S r c).flatMap fun i =>
      ⟨.ly c (k + 1) i, U⟩ :: (idxs S r c).map fun j => ⟨.inn c (k + 1) i j, U⟩

def decls : List Decl :=
  declsBase P nA U r ++ declsTime nA cf r ++ if cf.tdgFull then S.cyclic.flatMap (declsScc U S r) else []

/-! ## Objective -/

/-- hhDOfree.cpp 531-550. -/
def objective : Lin :=
  (acts nA r).map (fun a => (if cf.optimal then (P.cost a : Int) else 1, some (.ua a))) ++
    if cf.optimal then [] else (meths r).map fun m => (1, some (.me m))

/-! ## Delete-relaxation -/

/-- `iEInvActionIndex`, `iEInvEffIndex` (hhDOfree.cpp 60-94): the add effects that add fact `f`, the last first. -/
def einv (f : Nat) : List (Nat × Nat) :=
  ((List.range nA).flatMap fun a => ((List.range (P.add a).length).filter fun i => (P.add a)[i]?.getD 0 == f).map fun i => (a, i)).reverse

/-- C1 to C4 (hhDOfree.cpp 552-588). -/
def consPg : List Con :=
  (P.goal.filter fun f => f ∈ r.useful).map (fun f => ⟨V (.uf f), .eq, K 1⟩) ++
    ((acts nA r).flatMap fun a =>
      ((P.prec a).filter fun f => f ∈ r.useful).map (fun f => ⟨cV 100 (.uf f), .ge, V (.ua a)⟩) ++
        (effIdxs P r a).map fun i => ⟨V (.ua a) ++ cV (-1) (.ef a i), .ge, K 0⟩) ++
    (useful r).map fun f =>
      ⟨sumV (((einv P nA f).filter fun x => x.1 ∈ r.tasks).map fun x => .ef x.1 x.2) ++ cV (-1) (.uf f), .eq, K 0⟩

/-- C5, C6 (hhDOfree.cpp 590-622). -/
def consTime : List Con :=
  ((acts nA r).flatMap fun a => ((P.prec a).filter fun f => f ∈ r.useful).map fun f => ⟨V (.ta a) ++ cV (-1) (.tp f), .ge, K 0⟩) ++
    (acts nA r).flatMap fun a => (effIdxs P r a).map fun i =>
      ⟨V (.ta a) ++ K 1, .le, V (.tp ((P.add a)[i]?.getD 0)) ++ K ((nA : Int) + 1) ++ cV (-((nA : Int) + 1)) (.ef a i)⟩

/-! ## Hierarchy -/

/-- `tup[t]` (hhDOfree.cpp 626-634). -/
def tup (t : Nat) : Lin := (meths r).flatMap fun m => ((P.sub m).filter (· == t)).map fun _ => (1, some (.me m))

/-- hhDOfree.cpp 636-655. -/
def consTasks : List Con :=
  (tasks r).flatMap fun t =>
    ⟨tup P r t ++ K (tnCount n t), .eq, V (.ua t)⟩ ::
      if nA ≤ t then [⟨sumV (((methodsOf P t).filter fun m => m ∈ r.methods).map .me), .eq, V (.ua t)⟩] else []

/-- `sccIncommingMethods` (hhDOfree.cpp 104-153): methods for tasks of other components with the task as subtask. -/
def incoming (c i : Nat) : List Nat :=
  (List.range P.numMethods).filter fun m =>
    (sccPred nT (taskAdj P) S c).any fun d => (S.tasks d).contains (P.head m) && (P.sub m).contains (taskAt S c i)

/-- The assertion in line 156: some task of a cyclic component is a subtask of a method of another component. -/
def assertOK : Bool := S.cyclic.all fun c => (List.range (S.tasks c).length).any fun i => !(incoming P nT S c i).isEmpty

/-- `sccInnerFromToMethods` (hhDOfree.cpp 178-240). -/
def inner (c i j : Nat) : List Nat :=
  (List.range P.numMethods).filter fun m => P.head m == taskAt S c i && (P.sub m).contains (taskAt S c j)

/-- `sccInnerToFrom` (hhDOfree.cpp 178-240). -/
def innerToFrom (c j : Nat) : List Nat := (List.range (S.tasks c).length).filter fun i => !(inner P S c i j).isEmpty

/-- The constraints between two layers, C10 to C12 (hhDOfree.cpp 726-766); `k + 1` is `iTime`. -/
def consLayer (c k : Nat) : List Con :=
  (idxs S r c).flatMap fun i =>
    ⟨V (.ly c (k + 1) i), .le, V (.ly c k i) ++
        sumV (((innerToFrom P S c i).filter fun j => taskAt S c j ∈ r.tasks).map fun j => .inn c (k + 1) j i)⟩ ::
      (idxs S r c).flatMap fun j =>
        [⟨V (.inn c (k + 1) j i), .le, V (.ly c k j)⟩,
          ⟨V (.inn c (k + 1) j i), .le, K 0 ++ sumV (((inner P S c j i).filter fun m => m ∈ r.methods).map .me)⟩]

/-- C9 to C13 for a component (hhDOfree.cpp 675-774). -/
def consScc (c : Nat) : List Con :=
  ((idxs S r c).map fun i =>
    ⟨K (tnCount n (taskAt S c i)) ++ sumV (((incoming P nT S c i).filter fun m => m ∈ r.methods).map .me), .ge, V (.ly c 0 i)⟩) ++
    (List.range ((S.tasks c).length - 1)).flatMap (consLayer P S r c) ++
    (idxs S r c).map fun i => ⟨V (.ua (taskAt S c i)), .le, cV 100 (.ly c ((S.tasks c).length - 1) i)⟩

/-! ## Landmarks -/

/-- A stored cut: actions before position `firstMethod`, methods from there on (hhDOfree.cpp 795-814). -/
def consCut (cut : Nat × List Nat) : Con :=
  ⟨sumV (((cut.2.take cut.1).filter fun a => a ∈ r.tasks).map .ua) ++ sumV (((cut.2.drop cut.1).filter fun m => m ∈ r.methods).map .me),
    .ge, K 1⟩

/-- The variable for a node of the AND/OR graph, or none, if there is no constraint (hhDOfree.cpp 821-839). -/
def lmVar (x : Nat) : Option Var :=
  if x < P.numFacts then if stateOf n x = false ∧ x ∈ r.useful then some (.uf x) else none
  else if x < P.numFacts + nT then if x - P.numFacts ∈ r.tasks then some (.ua (x - P.numFacts)) else none
  else if x - P.numFacts - nT ∈ r.methods then some (.me (x - P.numFacts - nT)) else none

/-- hhDOfree.cpp 816-841. -/
def consLms (lms : List Nat) : List Con := (lms.filterMap (lmVar P nT n r)).map fun x => ⟨V x, .ge, K 1⟩

/-- The constraint for landmark `x` of what variable `y` stands for (hhDOfree.cpp 845-868, 873-896, 901-924). -/
def consImp (y : Var) (x : Nat) : List Con :=
  match lmVar P nT n r x with
  | some v => [⟨cV 100 v, .ge, V y⟩]
  | none => if x < P.numFacts ∧ r.hP x ≠ U then [] else [⟨V y, .eq, K 0⟩]

/-- hhDOfree.cpp 842-927; `imp x` lists the landmarks of node `x` (none if it has the full set). -/
def consImps (imp : Nat → List Nat) : List Con :=
  ((tasks r).flatMap fun t => (imp (AO.tN P t)).flatMap (consImp P nT U n r (.ua t))) ++
    ((meths r).flatMap fun m => (imp (AO.mN P nT m)).flatMap (consImp P nT U n r (.me m))) ++
    (useful r).flatMap fun f => (imp f).flatMap (consImp P nT U n r (.uf f))

/-! ## Net change -/

/-- `vOfL` (hhDOfree.cpp 260-265), with the borders of the variable instead of its number. -/
def varOf (f : Nat) : Option (Nat × Nat) := vars.reverse.find? fun v => v.1 ≤ f && f ≤ v.2

/-- What an action does to the variable of one of its add effects. -/
inductive Cls
  | keeps
  | always (p : Nat)
  | sometimes
deriving DecidableEq

/-- The first value in `lo .. lo + k - 1` that is a precondition (hhDOfree.cpp 277-283). -/
def precIn (a : Nat) : Nat → Nat → Option (Option Nat)
  | _, 0 => some none
  | lo, k + 1 =>
    match containsInt (P.prec a) 0 ((P.prec a).length - 1) lo with
    | none => none
    | some true => some (some lo)
    | some false => precIn a (lo + 1) k

/-- hhDOfree.cpp 272-293; `none`: `vOfL` is read without being set. -/
def effClass (a e : Nat) : Option Cls :=
  match varOf vars e with
  | none => none
  | some v =>
    match precIn P a v.1 (v.2 + 1 - v.1) with
    | none => none
    | some none => some .sometimes
    | some (some p) => some (if p = e then .keeps else .always p)

/-- `apList`, `spList`, `acList` (hhDOfree.cpp 267-322). -/
def apList (f : Nat) : List Nat :=
  (List.range nA).filter fun a => (P.add a).any fun e => e == f && (match effClass P vars a e with | some (.always _) => true | _ => false)

def spList (f : Nat) : List Nat := (List.range nA).filter fun a => (P.add a).any fun e => e == f && effClass P vars a e == some .sometimes

def acList (f : Nat) : List Nat := (List.range nA).filter fun a => (P.add a).any fun e => effClass P vars a e == some (.always f)

/-- `iu.containsInt(htn->gList, 0, htn->gSize - 1, f)`. -/
def inGoal (f : Nat) : Bool := (containsInt P.goal 0 (P.goal.length - 1) f).getD false

/-- The bound `l` (hhDOfree.cpp 934-960); the loop over the values of the variable leaves out the last one. -/
def ncBound (f : Nat) : Int :=
  let vEq := inGoal P f
  let ovEq := !vEq && (match varOf vars f with
    | none => false
    | some v => (List.range' v.1 (v.2 - v.1)).any (inGoal P))
  let notIn := !vEq && !ovEq
  if stateOf n f then if notIn || ovEq then -1 else 0 else if vEq then 1 else 0

/-- hhDOfree.cpp 929-979. -/
def consNc : List Con :=
  ((List.range P.numFacts).filter fun f => f ∈ r.useful).map fun f =>
    ⟨sumV (((apList P nA vars f).filter fun a => a ∈ r.tasks).map .ua) ++ sumV (((spList P nA vars f).filter fun a => a ∈ r.tasks).map .ua) ++
        ((acList P nA vars f).filter fun a => a ∈ r.tasks).map (fun a => (-1, some (.ua a))), .ge, K (ncBound P vars n f)⟩

/-! ## The program -/

/-- The landmarks: stored cuts, landmarks of the node, landmarks of the nodes of the AND/OR graph. -/
structure Lms where
  cuts : List (Nat × List Nat)
  lms : List Nat
  imp : Nat → List Nat

/-- `recreateModel` from line 463 to the call of the solver. -/
def prog (L : Lms) : Prog where
  decls := decls P nA U S cf r
  obj := objective P nA cf r
  cons :=
    (if cf.pg = .none then [] else consPg P nA r) ++ (if cf.pg = .full then consTime P nA r else []) ++ consTasks P nA n r ++
      (if cf.tdgFull then S.cyclic.flatMap (consScc P nT S n r) else []) ++ (if cf.lmc then L.cuts.map (consCut r) else []) ++
      (if cf.ao = .none then [] else consLms P nT n r L.lms) ++ (if cf.ao = .full then consImps P nT U n r L.imp else []) ++
      if cf.nc then consNc P nA vars n r else []

end Build

/-! ## Solutions -/

/-- Value of an expression. -/
def eval (x : Var → ℚ) (l : Lin) : ℚ := (l.map fun t => (t.1 : ℚ) * (match t.2 with | none => 1 | some v => x v)).sum

def Con.Holds (x : Var → ℚ) (c : Con) : Prop :=
  match c.rel with
  | .ge => eval x c.rhs ≤ eval x c.lhs
  | .eq => eval x c.lhs = eval x c.rhs
  | .le => eval x c.lhs ≤ eval x c.rhs

/-- Feasible points; `ints`: integer program (`IloNumVar::Int`, `IloNumVar::Bool`), else linear program (`IloNumVar::Float`). -/
structure Feasible (ints : Bool) (p : Prog) (x : Var → ℚ) : Prop where
  bounds : ∀ d ∈ p.decls, 0 ≤ x d.var ∧ x d.var ≤ d.up
  int : ints = true → ∀ d ∈ p.decls, ∃ k : ℤ, x d.var = k
  cons : ∀ c ∈ p.cons, c.Holds x

/-- What the solver has to return (`none`: `cplex.solve()` is false). -/
def Solver (ints : Bool) (p : Prog) (o : Option ℚ) : Prop :=
  match o with
  | none => ¬ ∃ x, Feasible ints p x
  | some v => (∃ x, Feasible ints p x ∧ eval x p.obj = v) ∧ ∀ x, Feasible ints p x → v ≤ eval x p.obj

/-- `res` (hhDOfree.cpp 992-1022): `round`, or `UNREACHABLE`. -/
def result (U : Nat) : Option ℚ → Nat
  | none => U
  | some v => (⌊v + 1 / 2⌋).toNat

end Verif.Dof
