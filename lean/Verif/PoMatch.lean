import Verif.PoRep
import Verif.SatLoop

/-! # Model of the formula for partially ordered problems

`no_abstract_in_leaf`, `get_partial_state_atoms` (src/sat/state_formula.cpp 232-347), `generate_matching_formula`
(src/sat/partial_order.cpp 4-190), `createFormulaForDepth` (src/sat/sat_planner.cpp 297-475) for partially ordered
problems, and the actions that `printSolution` prints (98-117).

The leaves are matched with the positions of the plan.  There are no pruning and no blocks in this case. -/

namespace Verif.Pdt

open Verif.Htn Verif.Sog Verif.Sat Relation

/-- `no_abstract_in_leaf` (state_formula.cpp 232-239). -/
def noAbs (t : T) (V : VM) : List Clause :=
  t.leaves.flatMap fun q =>
    match t.nd q with
    | none => []
    | some d => (varsOf V ((List.range d.abss.length).map (.abs q))).map assertNot

/-- Does the action have an effect (state_formula.cpp 267)? -/
def hasEff (P : Problem) (a : Nat) : Bool := !(P.add a).isEmpty || !(P.del a).isEmpty

/-- `possiblePrimitives`. -/
def leafPrims (t : T) (q : Path) : List Nat :=
  match t.nd q with
  | none => []
  | some d => d.prims

/-- `leafContainsEffectAction` (state_formula.cpp 261-277). -/
def effLeaf (P : Problem) (t : T) (q : Path) : Bool := (leafPrims t q).any (hasEff P)

/-- The program ends (`exit(0)`, state_formula.cpp 274). -/
def mixedLeaf (P : Problem) (t : T) (q : Path) : Bool := effLeaf P t q && (leafPrims t q).any fun a => !hasEff P a

/-- The leaves with their numbers, the actions of a position in the order of the variables (the same for all positions),
the number of positions, and the numbers of variables in use before the variables for the actions and before the ones for
the matching. -/
structure MData where
  vs : List Path
  acts : List Nat
  steps : Nat
  np : Nat
  nm : Nat

/-- The number of positions (state_formula.cpp 279-281). -/
def poSteps (P : Problem) (t : T) (vs : List Path) : Nat := max 1 (vs.countP (effLeaf P t))

/-- The actions of a position: `iter` is the order in which the elements of an `unordered_set` are visited
(state_formula.cpp 292-324). -/
def poActs (iter : List Nat → List Nat) (t : T) (vs : List Path) : List Nat := iter (vs.flatMap (leafPrims t)).dedup

/-- The leaf with number `l`. -/
def MData.leaf (M : MData) (l : Nat) : Path := M.vs.getD l []

/-- The variable for an action at a position (state_formula.cpp 335-346; `variablesPerPrimitive`, partial_order.cpp 97-101). -/
def MData.pv (M : MData) (p a : Nat) : Nat := M.np + p * M.acts.length + M.acts.idxOf a + 1

/-- The variables for the actions of all positions. -/
def MData.vars (M : MData) : List (List (Nat × Nat)) := (List.range M.steps).map fun p => M.acts.map fun a => (M.pv p a, a)

/-- `matchingPerLeaf[l][p]` (partial_order.cpp 14-26). -/
def MData.mv (M : MData) (l p : Nat) : Nat := M.nm + l * M.steps + p + 1

/-- `leafActive[l]` (partial_order.cpp 29-34). -/
def MData.la (M : MData) (l : Nat) : Nat := M.nm + M.vs.length * M.steps + l + 1

/-- `positionActive[p]` (partial_order.cpp 36-41). -/
def MData.pa (M : MData) (p : Nat) : Nat := M.nm + M.vs.length * M.steps + M.vs.length + p + 1

/-- The number of variables after these. -/
def MData.n1 (M : MData) : Nat := M.nm + M.vs.length * M.steps + M.vs.length + M.steps

/-- A list of variables as literals. -/
def lits (l : List Nat) : List Int := l.map fun x : Nat => (x : Int)

/-- `impliesAnd` (sat_encoder.cpp 96-103). -/
def impliesAnd (i j k : Int) : Clause := [-i, -j, k]

/-- `notImpliesAllNot` (sat_encoder.cpp 139-146). -/
def notImpliesAllNot (i : Int) (js : List Int) : List Clause := js.map fun j => [i, -j]

/-- The variables for the leaves with effects at a position (`matchingPerPositionAMO`, partial_order.cpp 20-24). -/
def MData.effVars (M : MData) (P : Problem) (t : T) (p : Nat) : List Nat :=
  ((List.range M.vs.length).filter fun l => effLeaf P t (M.leaf l)).map fun l => M.mv l p

/-- The variable of an action of a leaf (`leafPrimitives`, partial_order.cpp 125-130). -/
def leafPrim (t : T) (V : VM) (q : Path) (a : Nat) : Option Nat :=
  if a ∈ leafPrims t q then V (.prim q ((leafPrims t q).idxOf a)) else none

/-- The variables of the actions of a leaf. -/
def leafVarsOf (V : VM) (t : T) (q : Path) : List Nat := (leafVars V t q).map Prod.fst

/-- An action with effects at the position of a leaf is an action of this leaf (partial_order.cpp 132-142). -/
def upClause (t : T) (V : VM) (M : MData) (l p a : Nat) : Clause :=
  match leafPrim t V (M.leaf l) a with
  | some x => impliesAnd (M.mv l p) (M.pv p a) x
  | none => impliesNot (M.mv l p) (M.pv p a)

/-- The constraints up to the order (partial_order.cpp 43-143). -/
def matchItems (P : Problem) (t : T) (V : VM) (M : MData) : List Item :=
  ((List.range M.vs.length).map fun l => .amo (lits ((List.range M.steps).map (M.mv l)))) ++
  ((List.range M.steps).map fun p => .amo (lits (M.effVars P t p))) ++
  ((((List.range M.vs.length).flatMap fun l =>
      impliesOr (M.la l) (lits (leafVarsOf V t (M.leaf l))) ::
        notImpliesAllNot (M.la l) (lits (leafVarsOf V t (M.leaf l)))) ++
    ((List.range M.vs.length).map fun l => impliesOr (M.la l) (lits ((List.range M.steps).map (M.mv l)))) ++
    ((List.range M.steps).flatMap fun p =>
      impliesOr (M.pa p) (lits ((M.acts.filter (hasEff P)).map (M.pv p))) ::
        notImpliesAllNot (M.pa p) (lits ((M.acts.filter (hasEff P)).map (M.pv p)))) ++
    ((List.range M.steps).map fun p => impliesOr (M.pa p) (lits (M.effVars P t p))) ++
    ((List.range M.steps).flatMap fun p => (List.range M.vs.length).flatMap fun l =>
      (leafVars V t (M.leaf l)).map fun e : Nat × Nat => impliesAnd (M.mv l p) e.1 (M.pv p e.2)) ++
    ((List.range M.vs.length).filter fun l => effLeaf P t (M.leaf l)).flatMap fun l => (List.range M.steps).flatMap fun p =>
      (M.acts.filter (hasEff P)).map (upClause t V M l p)).map .cl)

/-- `forbiddenPerLeaf[l][p]` (partial_order.cpp 147-157), if `g` variables are in use. -/
def MData.fv (M : MData) (g l p : Nat) : Nat := g + l * M.steps + p + 1

/-- The edges of the graph of the leaves by the numbers of the leaves. -/
def MData.edges (M : MData) (es : List (Path × Path)) : List (Nat × Nat) := es.map fun e => (M.vs.idxOf e.1, M.vs.idxOf e.2)

/-- The successors of a leaf.  The code visits them in the order of an `unordered_set`, which is not modelled: it only
affects the order of the clauses. -/
def MData.succs (M : MData) (es : List (Path × Path)) (l : Nat) : List Nat := ((M.edges es).filter fun e => e.1 == l).map (·.2)

/-- The constraints for the order (partial_order.cpp 160-195). -/
def orderClauses (M : MData) (es : List (Path × Path)) (g : Nat) : List Clause :=
  ((List.range M.vs.length).flatMap fun l => (M.succs es l).flatMap fun k =>
    ((List.range M.steps).filter fun p => 1 ≤ p).map fun p => implies (M.mv l p) (M.fv g k (p - 1))) ++
  ((List.range M.vs.length).flatMap fun l => (M.succs es l).flatMap fun k =>
    (List.range M.steps).map fun p => implies (M.fv g l p) (M.fv g k p)) ++
  ((List.range M.vs.length).flatMap fun l =>
    ((List.range M.steps).filter fun p => 1 ≤ p).map fun p => implies (M.fv g l p) (M.fv g l (p - 1))) ++
  (List.range M.vs.length).flatMap fun l => (List.range M.steps).map fun p => impliesNot (M.fv g l p) (M.mv l p)

/-- The constraints for mutexes; there are no invariants from the pruning. -/
def mutexPO (P : Problem) (o : SatOpts) (bases : List Nat) : List Item :=
  match o.mutex with
  | none => []
  | some (G, B) => bases.flatMap (mutexItems P.numFacts G B fun _ => [])

/-- How `createFormulaForDepth` ends: undefined behaviour, exit, or more leaves than can be numbered with 16 bits (what
happens then is not followed); or a formula. -/
inductive FResPO where
  | undef
  | formula (V : VM) (n : Nat) (cs : List Clause) (M : MData)

/-- `createFormulaForDepth` (sat_planner.cpp 297-475) after the expansion of the tree, for partially ordered problems. -/
def depthFormulaPO (P : Problem) (cfg : Cfg) (o : SatOpts) (iter : List Nat → List Nat) (t : T) (n : Nat) (V : VM) : FResPO :=
  let g := leafSog t (adjAt P cfg t) t.K []
  let a := assignVars P t Flags.empty n V
  if 65536 < g.1.length then .undef
  else if cfg.compact && g.1.any (mixedLeaf P t) then .undef
  else
    match treeItems P t a.2 Flags.empty with
    | none => .undef
    | some l =>
      let r := emit o.bits a.1 (l ++ (noAbs t a.2).map .cl)
      let acts := poActs iter t g.1
      let T := poSteps P t g.1
      let nm := r.1 + T * acts.length
      match stateFormulaUnit P nm (MData.vars ⟨g.1, acts, T, r.1, 0⟩) with
      | none => .undef
      | some s =>
        let M : MData := ⟨g.1, acts, T, r.1, s.1⟩
        let e := emit o.bits M.n1 (matchItems P t a.2 M)
        let x := emit o.bits (e.1 + M.vs.length * M.steps) (mutexPO P o s.2.1)
        .formula a.2 x.1 (r.2 ++ (s.2.2 ++ (e.2 ++ (orderClauses M g.2 e.1 ++ x.2)))) M

/-- `outputTask` of a leaf (pdt.cpp 619-635): the action of the last variable that is true. -/
def outTask (t : T) (V : VM) (w : Assignment) (q : Path) : Option Nat := (selOf w (leafVars V t q)).getLast?

/-- The actions that are printed (sat_planner.cpp 98-117). -/
def printedPO (t : T) (V : VM) (M : MData) (w : Assignment) : List Nat :=
  (List.range M.steps).flatMap fun p => (M.acts.filter fun a => w (M.pv p a)).flatMap fun a =>
    ((List.range M.vs.length).filter fun l => w (M.mv l p) && outTask t V w (M.leaf l) == some a).map fun _ => a

/-- The loop over depths (sat_planner.cpp 782-838). -/
def satLoopPO (P : Problem) (cfg : Cfg) (o : SatOpts) (iter : List Nat → List Nat) (solve : List Clause → Option Assignment) :
    Nat → Nat → Nat → VM → LRes
  | 0, _, _, _ => .outOfFuel
  | f + 1, K, n, V =>
    match depthFormulaPO P cfg o iter (tree P cfg K) n V with
    | .undef => .undef
    | .formula V' n' cs M =>
      match solve cs with
      | some w => .plan K (printedPO (tree P cfg K) V' M w)
      | none => satLoopPO P cfg o iter solve f (K + 1) n' V'

/-- The planner from depth 1 on with an empty table. -/
def satPlanPO (P : Problem) (cfg : Cfg) (o : SatOpts) (iter : List Nat → List Nat) (solve : List Clause → Option Assignment)
    (fuel : Nat) : LRes := satLoopPO P cfg o iter solve fuel 1 0 fun _ => none

end Verif.Pdt
