import Mathlib.Logic.Relation
import Mathlib.Data.Finset.Basic
import Mathlib.Algebra.BigOperators.Group.Finset.Basic

/-!
# Specification of HTN planning problems and their solutions

This file is the *specification*: it does not mention the planner.  A grounded
problem has actions (primitive tasks), abstract tasks, methods, an initial task,
an initial state and goal facts.  A solution is described by a decomposition
tree of the initial task and an executable linearisation of its leaves.
-/

namespace Verif.Htn

open Relation

/-- A grounded HTN planning problem (the data the engine reads; see
`Model::readClassical` / `Model::readHierarchical`, src/Model.cpp 1542-2080).
Tasks, facts and methods are numbers. -/
structure Problem where
  /-- number of facts (`numStateBits`) -/
  numFacts : Nat
  /-- `isPrimitive` -/
  prim : Nat → Bool
  /-- `precLists` -/
  prec : Nat → List Nat
  /-- `addLists` -/
  add : Nat → List Nat
  /-- `delLists` -/
  del : Nat → List Nat
  /-- `actionCosts` -/
  cost : Nat → Nat
  /-- `numMethods` -/
  numMethods : Nat
  /-- `decomposedTask` -/
  head : Nat → Nat
  /-- `subTasks` -/
  sub : Nat → List Nat
  /-- `ordering`, as pairs -/
  ord : Nat → List (Nat × Nat)
  /-- `initialTask` -/
  init : Nat
  /-- `s0List` -/
  s0 : List Nat
  /-- `gList` -/
  goal : List Nat

/-- Direct ordering constraints between subtask positions of a method. -/
def Problem.OrdRel (P : Problem) (m : Nat) (i j : Nat) : Prop := (i, j) ∈ P.ord m

/-- What the grounder guarantees about its output: orderings refer to existing
subtask positions and are acyclic, every method has a subtask, the initial task
is abstract, and facts are in range. -/
structure Problem.WF (P : Problem) : Prop where
  ord_lt : ∀ m < P.numMethods, ∀ i j, (i, j) ∈ P.ord m →
    i < (P.sub m).length ∧ j < (P.sub m).length
  ord_acyclic : ∀ m < P.numMethods, ∃ rank : Nat → Nat, ∀ i j, (i, j) ∈ P.ord m → rank i < rank j
  sub_ne : ∀ m < P.numMethods, P.sub m ≠ []
  head_abs : ∀ m < P.numMethods, P.prim (P.head m) = false
  init_abs : P.prim P.init = false
  prec_lt : ∀ a, ∀ f ∈ P.prec a, f < P.numFacts
  add_lt : ∀ a, ∀ f ∈ P.add a, f < P.numFacts
  del_lt : ∀ a, ∀ f ∈ P.del a, f < P.numFacts
  s0_lt : ∀ f ∈ P.s0, f < P.numFacts
  goal_lt : ∀ f ∈ P.goal, f < P.numFacts

/-- A state: the facts that hold. -/
abbrev State := Nat → Prop

/-- The action's preconditions hold. -/
def Problem.Applicable (P : Problem) (s : State) (a : Nat) : Prop := ∀ f ∈ P.prec a, s f

/-- State after an action: deletes first, adds win. -/
def Problem.result (P : Problem) (s : State) (a : Nat) : State :=
  fun f => f ∈ P.add a ∨ (s f ∧ f ∉ P.del a)

/-- `Exec P s π s'`: the action sequence `π` is executable in `s` and ends in `s'`. -/
inductive Exec (P : Problem) : State → List Nat → State → Prop
  | nil (s : State) : Exec P s [] s
  | cons {s s' : State} {a : Nat} {π : List Nat} :
      P.Applicable s a → Exec P (P.result s a) π s' → Exec P s (a :: π) s'

/-- All goal facts hold. -/
def Problem.GoalState (P : Problem) (s : State) : Prop := ∀ f ∈ P.goal, s f

/-- The initial state. -/
def Problem.initState (P : Problem) : State := fun f => f ∈ P.s0

/-- Decomposition trees.  `node m cs`: method `m` was used; child `i` belongs to
subtask position `i` (only positions below the number of subtasks matter). -/
inductive Tree
  | leaf (a : Nat)
  | node (m : Nat) (cs : Nat → Tree)

/-- `Valid P t tr`: `tr` is a complete decomposition of task `t`. -/
inductive Valid (P : Problem) : Nat → Tree → Prop
  | leaf {a : Nat} : P.prim a = true → Valid P a (.leaf a)
  | node {m : Nat} {cs : Nat → Tree} : m < P.numMethods →
      (∀ i t, (P.sub m)[i]? = some t → Valid P t (cs i)) →
      Valid P (P.head m) (.node m cs)

/-- `LeafAt P tr p a`: following child positions `p` from the root leads to a leaf
labelled with action `a`. -/
inductive LeafAt (P : Problem) : Tree → List Nat → Nat → Prop
  | here {a : Nat} : LeafAt P (.leaf a) [] a
  | child {m : Nat} {cs : Nat → Tree} {i : Nat} {p : List Nat} {a : Nat} :
      i < (P.sub m).length → LeafAt P (cs i) p a → LeafAt P (.node m cs) (i :: p) a

/-- `Before P tr p q`: the ordering constraints of the methods in the tree force
the leaf at `p` to be executed before the leaf at `q`. -/
inductive Before (P : Problem) : Tree → List Nat → List Nat → Prop
  | same {m : Nat} {cs : Nat → Tree} {i : Nat} {p q : List Nat} :
      Before P (cs i) p q → Before P (.node m cs) (i :: p) (i :: q)
  | diff {m : Nat} {cs : Nat → Tree} {i j : Nat} {p q : List Nat} :
      TransGen (P.OrdRel m) i j → Before P (.node m cs) (i :: p) (j :: q)

/-- Number of methods used in a tree (decompositions). -/
def Tree.inner (P : Problem) : Tree → Nat
  | .leaf _ => 0
  | .node m cs => 1 + ∑ i ∈ Finset.range (P.sub m).length, (cs i).inner P

/-- `occ` is a linearisation of exactly the leaves of `tr`, respecting all ordering
constraints, and `π` is the sequence of its actions. -/
structure Linearises (P : Problem) (tr : Tree) (occ : List (List Nat)) (π : List Nat) : Prop where
  nodup : occ.Nodup
  all : ∀ p, p ∈ occ ↔ ∃ a, LeafAt P tr p a
  order : occ.Pairwise (fun p q => ¬ Before P tr q p)
  labels : List.Forall₂ (LeafAt P tr) occ π

/-- `π` solves the problem, by a decomposition with `k` method applications. -/
def IsSolutionN (P : Problem) (π : List Nat) (k : Nat) : Prop :=
  ∃ tr, Valid P P.init tr ∧ tr.inner P = k ∧ (∃ occ, Linearises P tr occ π) ∧
    ∃ s', Exec P P.initState π s' ∧ P.GoalState s'

/-- `π` is a solution (plan) of the HTN problem. -/
def IsSolution (P : Problem) (π : List Nat) : Prop := ∃ k, IsSolutionN P π k

/-- Plan cost. -/
def Problem.planCost (P : Problem) (π : List Nat) : Nat := (π.map P.cost).sum

/-! ## Solutions of partially ordered task networks

A task network is given by a finite set `I` of task occurrences, their labels and
a strict order on them. -/

/-- Order between leaves of the trees hanging below the occurrences of a network. -/
def OccBefore (P : Problem) (lt : Nat → Nat → Prop) (tr : Nat → Tree) (x y : Nat × List Nat) : Prop :=
  (x.1 = y.1 ∧ Before P (tr x.1) x.2 y.2) ∨ lt x.1 y.1

/-- `SolvesN P I lab lt s π k`: the network can be decomposed with `k` method
applications and linearised to `π`, executable in `s` and reaching the goal. -/
def SolvesN (P : Problem) (I : Finset Nat) (lab : Nat → Nat) (lt : Nat → Nat → Prop)
    (s : State) (π : List Nat) (k : Nat) : Prop :=
  ∃ tr : Nat → Tree, (∀ u ∈ I, Valid P (lab u) (tr u)) ∧ (∑ u ∈ I, (tr u).inner P = k) ∧
    (∃ occ : List (Nat × List Nat), occ.Nodup ∧
      (∀ x, x ∈ occ ↔ x.1 ∈ I ∧ ∃ a, LeafAt P (tr x.1) x.2 a) ∧
      occ.Pairwise (fun x y => ¬ OccBefore P lt tr y x) ∧
      List.Forall₂ (fun x a => LeafAt P (tr x.1) x.2 a) occ π) ∧
    ∃ s', Exec P s π s' ∧ P.GoalState s'

end Verif.Htn
