import Verif.PsTrans

/-! # Model of the translation of partially ordered problems to SAS+ without conditional effects

src/translation/htnToSAS.cpp: `htnToStrips` (1481-1849), together with `combination`, `bin` (12-49), `reorderTasks` (304-418) and
`writeToFastDown` (2208-2490), as called for `BaseStrips` in src/translation/translationController.cpp 35-37.  The translated problem
has the variables of the problem, `B` cells with tasks, a variable for the order between each two cells, and a variable for each cell
that tells whether it is occupied. -/

namespace Verif.Sas

open Verif.Htn

/-! ## `combination` and `bin` -/

/-- One round of the loop of `combination`, htnToSAS.cpp 16-31: the rightmost entry that can be increased is, and those after it
follow directly.  `none`: there is no such entry, and `array[-1]` is read. -/
def nextComb (n : Nat) : List Nat → Option (List Nat)
  | [] => none
  | x :: r => match nextComb n r with
    | some r' => some (x :: r')
    | none => if x + 1 + r.length < n then some (List.range' (x + 1) (r.length + 1)) else none

/-- `combination(array, n, k, i)`, htnToSAS.cpp 12-33. -/
def combAt (n k : Nat) : Nat → Option (List Nat)
  | 0 => some (List.range k)
  | i + 1 => (combAt n k i).bind (nextComb n)

/-- The loop of `bin`, htnToSAS.cpp 43-45, in 64 bits; `none`: overflow. -/
def binLoop (n : Nat) : Nat → Option Nat
  | 0 => some 1
  | i + 1 => (binLoop n i).bind fun b => if b * (n - i) < 2 ^ 63 then some (b * (n - i) / (i + 1)) else none

/-- The number of operators of a method with `n` subtasks per cell, htnToSAS.cpp 1604-1619, with `bin` (35-49).  `none`: an overflow,
or the function returns before anything is written and what it has not initialised is used (`m == INT_MAX`). -/
def stCount (B n : Nat) (noLast : Bool) : Option Nat :=
  if n ≤ 1 then some 1
  else
    let k := if noLast then n else n - 1
    if B - 1 < k then some 1
    else if k = B - 1 then some 1
    else (binLoop (B - 1) k).bind fun b => if b < 2 ^ 31 - 1 then some b else none

/-! ## `reorderTasks` -/

/-- One round of the loop that fills `lower`, htnToSAS.cpp 398-402. -/
def lowerPass (ord : List (Nat × Nat)) (L : List Nat) : List Nat := ord.foldl (fun L o => if o.1 ∈ L then o.2 :: L else L) L

/-- `hasNoLastTask`, htnToSAS.cpp 311-321, 388-414, for a method with `n` subtasks and the orderings `ord` after `reorderTasks`. -/
def noLastTask (n : Nat) (ord : List (Nat × Nat)) : Bool :=
  if n ≤ 1 then false
  else if ord.length < n - 1 then true
  else !(List.range n).all fun x => decide (x ∈ (lowerPass ord)^[n - 1] [n - 1])

/-! ## `htnToStrips` -/

/-- The new variables: the task in cell `j`, the task of cell `k` is before that of cell `l`, cell `j` is occupied. -/
inductive SV
  | task (j : Nat)
  | con (k l : Nat)
  | occ (j : Nat)
deriving DecidableEq, Repr

/-- Their numbers, htnToSAS.cpp 1486-1490 and the uses of `firstConstraintIndex`. -/
def svIx (nV B : Nat) : SV → Nat
  | .task j => nV + j
  | .con k l => nV + B + k * (B - 1) + (if k ≤ l then l - 1 else l)
  | .occ j => nV + B + B * (B - 1) + j

/-- The name of an operator: `emptyTask(head j)`, `primitive(id[a],head[j])` or `method(id[m],head[j],subtasks[...])`. -/
inductive SLab
  | empty (j : Nat)
  | prim (a j : Nat)
  | meth (m j : Nat) (cells : List Nat)
deriving DecidableEq, Repr

/-- The sizes of the new variables, htnToSAS.cpp 1501-1514. -/
def stSizes (nT B : Nat) : List Nat :=
  List.replicate B (nT + 1) ++ List.replicate (B * (B - 1)) 1 ++ List.replicate B 1

/-- `firstIndexTrans`, `lastIndexTrans`, htnToSAS.cpp 1496-1514. -/
def stVars (S : SasP) (nT B : Nat) : List (Nat × Nat) :=
  S.vars ++ chainVars ((S.vars.getLast?.map fun v => v.2 + 1).getD 0) (stSizes nT B)

/-- The fact that a new variable has a value. -/
def stBit (W : List (Nat × Nat)) (nV B : Nat) (x : SV × Nat) : Nat := bitOf W (svIx nV B x.1) x.2

/-- The preconditions on cell `j`, htnToSAS.cpp 1584-1597, 1656-1666, 1724-1734: its value is `t`, no task of another cell is before. -/
def stPre (B t j : Nat) : List (SV × Nat) := (List.range B).map fun l => if l = j then (.task j, t) else (.con l j, 0)

/-- The effects that clear cell `j`, htnToSAS.cpp 1583-1597, 1668-1672, 1735-1741. -/
def stClear (B j : Nat) : List (SV × Nat) :=
  (.task j, 0) :: ((List.range (B - 1)).map fun k => (SV.con j (if k < j then k else k + 1), 0)) ++ [(.occ j, 0)]

/-- The `c`-th of the cells other than `j`. -/
def skip (j c : Nat) : Nat := if j ≤ c then c + 1 else c

/-- The orderings between the tasks in the given cells. -/
def ordCells (cells : List Nat) (ord : List (Nat × Nat)) : Option (List (Nat × Nat)) :=
  ord.mapM fun o => do
    let f ← cells[o.1]?
    let c ← cells[o.2]?
    pure (f, c)

/-- Preconditions and effects of a method in cell `j` that needs further cells, htnToSAS.cpp 1745-1809: cell `j` has the value `t`, the
cells given by `subs` are the lowest free ones of the others with that choice (see `occ`), cell `j` gets the value `v`, the other cells
the tasks `ts`; `e1` and `e2` are the orderings that are set. -/
def stDec (B t j v : Nat) (subs ts : List Nat) (e1 e2 : List (Nat × Nat)) : List (SV × Nat) × List (SV × Nat) :=
  (stPre B t j ++ (subs.map fun c => (SV.task (skip j c), 0)) ++
      (List.range (subs.getLast?.getD 0 + 1)).map fun c => (SV.occ (skip j c), if c ∈ subs then 0 else 1),
    (SV.task j, v) :: (List.zipWith (fun c t => (SV.task (skip j c), 2 + t)) subs ts ++ (e1.map fun e => (SV.con e.1 e.2, 1)) ++
      (subs.map fun c => (SV.occ (skip j c), 1)) ++ e2.map fun e => (SV.con e.1 e.2, 1)))

/-- Preconditions, effects and cells of a method for task `t` in cell `j`, htnToSAS.cpp 1680-1836; `order` are its subtasks and `ord` its
orderings, both after `reorderTasks`.  `none`: `subs[-1]` is used. -/
def stMeth (B t j : Nat) (noLast : Bool) (order : List Nat) (ord : List (Nat × Nat)) (subs : List Nat) :
    Option ((List (SV × Nat) × List (SV × Nat)) × List Nat) :=
  match order with
  | [] => some ((stPre B (t + 2) j, stClear B j), [])
  | [t'] => some ((stPre B (t + 2) j, [(.task j, 2 + t')]), [j])
  | t' :: rest =>
    if noLast then do
      let cells := subs.map (skip j)
      let es ← ordCells cells ord
      pure (stDec B (t + 2) j 1 subs (t' :: rest) (cells.map fun c => (c, j)) es, cells)
    else do
      let cells := j :: subs.map (skip j)
      if ord.any fun o => o.1 == 0 then none
      else do
        let es ← ordCells cells ord
        pure (stDec B (t + 2) j (t' + 2) subs rest [] es, cells)

/-- Writing an operator without conditional effects. -/
def stWrite (W : List (Nat × Nat)) (nV B : Nat) (bp ba : List Nat) (d : List (SV × Nat) × List (SV × Nat)) (cost : Nat) : Option SOp :=
  writeOp W (bp ++ d.1.map (stBit W nV B)) (ba ++ d.2.map (stBit W nV B)) cost

/-- The cost that is written for the operators of the empty tasks, htnToSAS.cpp 2349: `actionCostsTrans[i]` with `i < B` is the cost of
the first action; if there are no actions, that of a method. -/
def emptyCost (P : Problem) (nA : Nat) : Nat := if nA = 0 then 0 else P.cost 0

/-- The `i`-th choice of further cells for a method with `n` subtasks, htnToSAS.cpp 1694-1710. -/
def stPick (B n : Nat) (nl : Bool) (i : Nat) : Option (List Nat) :=
  if n ≤ 1 then some [] else combAt (B - 1) (if nl then n else n - 1) i

/-- One operator of a method. -/
def stMethOp (W : List (Nat × Nat)) (nV B m t j : Nat) (nl : Bool) (order : List Nat) (ord : List (Nat × Nat)) (subs : List Nat) :
    Option (SLab × SOp) := do
  let d ← stMeth B t j nl order ord subs
  let o ← stWrite W nV B [] [] d.1 0
  pure (SLab.meth m j d.2, o)

/-- The operators of a method. -/
def stMethOps (P : Problem) (W : List (Nat × Nat)) (nV B m : Nat) : Option (List (SLab × SOp)) := do
  let r ← reorder P.prim (P.sub m) (P.ord m)
  let ord ← remapOrd (P.sub m) (P.ord m)
  let n := (P.sub m).length
  let nl := noLastTask n ord
  let cnt ← stCount B n nl
  if n + (if nl then 1 else 0) > B then pure []
  else do
    let os ← (List.range B).mapM fun j => (List.range cnt).mapM fun i =>
      (stPick B n nl i).bind fun subs => stMethOp W nV B m (P.head m) j nl r.order ord subs
    pure os.flatten

/-- The operators that are written: for the empty tasks (htnToSAS.cpp 1571-1599, 2300-2355), the actions (1640-1672) and the methods
(1680-1836); the methods that do not fit are left out. -/
def stOps (P : Problem) (S : SasP) (nA : Nat) (W : List (Nat × Nat)) (B : Nat) : Option (List (SLab × SOp)) := do
  let es ← (List.range B).mapM fun j => (stWrite W S.vars.length B [] [] (stPre B 1 j, stClear B j) (emptyCost P nA)).map fun o =>
    (SLab.empty j, o)
  let as ← (List.range nA).mapM fun a => (List.range B).mapM fun j =>
    (stWrite W S.vars.length B (S.prec a) (S.add a) (stPre B (a + 2) j, stClear B j) (P.cost a)).map fun o => (SLab.prim a j, o)
  let ms ← (List.range P.numMethods).mapM fun m => stMethOps P W S.vars.length B m
  pure (es ++ as.flatten ++ ms.flatten)

/-- The initial values of the new variables, htnToSAS.cpp 1556-1563. -/
def stInit (P : Problem) (W : List (Nat × Nat)) (nV B : Nat) : List Nat :=
  (List.range (2 * B + B * (B - 1))).map fun i =>
    bitOf W (nV + i) (if i = 0 then P.init + 2 else if i = B + B * (B - 1) then 1 else 0)

/-- The whole file: `sasPlus`, `reorderTasks`, `htnToStrips(B)` and `writeToFastDown` without conditional effects.  The goal: htnToSAS.cpp
1565-1569. -/
def stTranslate (P : Problem) (vars : List (Nat × Nat)) (nA nT B : Nat) : Option (STask SLab) := do
  let S ← sasPlus P vars
  if B = 0 then none
  else
    let W := stVars S nT B
    let nV := S.vars.length
    let ops ← stOps P S nA W B
    let s0 ← S.s0.mapM (conv W)
    let s1 ← (stInit P W nV B).mapM (conv W)
    let g ← (S.goal ++ (List.range B).map fun i => bitOf W (nV + i) 0).mapM (conv W)
    pure { doms := W.map fun v => v.2 - v.1 + 1, init := (s0 ++ s1).map Prod.snd, goal := g, ops := ops }

/-- The actions of a plan. -/
def stActs (ρ : List (SLab × SOp)) : List Nat := ρ.filterMap fun x => match x.1 with
  | .prim a _ => some a
  | _ => none

/-- The number of operators for empty tasks in a plan. -/
def stEmpties (ρ : List (SLab × SOp)) : Nat := ρ.countP fun x => match x.1 with
  | .empty _ => true
  | _ => false

end Verif.Sas
