import Verif.SasVars

/-! # Model of the translation of totally ordered problems to SAS+

src/translation/htnToSAS.cpp: `reorderTasks` (304-418), `calculatePrecsAndAdds` (218-301), `tohtnToStrips` (952-1166) and
`writeToFastDown` (2208-2490).  The translated problem has the variables of the problem, one variable for the height of the
stack of tasks ("head") and one variable for each cell of the stack. -/

namespace Verif.Sas

open Verif.Htn

/-! ## `reorderTasks` -/

/-- The loop over `m`, htnToSAS.cpp 342-351: is `k` (`ka`) or the predecessor `x` (`alreadyUsed`) found first in `subs`? -/
def scanSubs (k x : Nat) : List Nat → Bool × Bool
  | [] => (false, false)
  | y :: r => if k = y then (true, false) else if x = y then (false, true) else scanSubs k x r

/-- `notAlone`, htnToSAS.cpp 338-360. -/
def notAlone (ord : List (Nat × Nat)) (subs : List Nat) (k : Nat) : Bool :=
  ord.any fun o => let r := scanSubs k o.1 subs; r.1 || (!r.2 && o.2 == k)

/-- The loop over `j`, htnToSAS.cpp 335-369: `subs[j]` is the smallest `k` that is not `notAlone`.  If there is none, `subs[j]`
is not initialised: `none`.  The first argument is the number of entries still to be chosen. -/
def chooseSubs (n : Nat) (ord : List (Nat × Nat)) : Nat → List Nat → Option (List Nat)
  | 0, subs => some subs
  | j + 1, subs => match (List.range n).find? fun k => !notAlone ord subs k with
    | none => none
    | some k => chooseSubs n ord j (subs ++ [k])

/-- `subTasksInOrder` and `firstNumTOPrimTasks` of a method. -/
structure Reo where
  order : List Nat
  first : Nat
deriving DecidableEq, Repr

/-- The number of leading primitive tasks, htnToSAS.cpp 379-386. -/
def leadPrims (prim : Nat → Bool) (sub : List Nat) : Nat := (sub.takeWhile prim).length

/-- `reorderTasks` for one method, htnToSAS.cpp 304-418.  Not modelled: the warnings, `hasNoLastTask` and the rewriting of
`ordering`, which are not used by the translation of totally ordered problems. -/
def reorder (prim : Nat → Bool) (sub : List Nat) (ord : List (Nat × Nat)) : Option Reo :=
  if sub.length ≤ 1 then some ⟨sub, leadPrims prim sub⟩
  else if ord = [] then some ⟨sub.reverse, 0⟩
  else match chooseSubs sub.length ord sub.length [] with
    | none => none
    | some subs => some ⟨subs.map fun x => sub[sub.length - 1 - x]?.getD 0, leadPrims prim sub⟩

/-- The leading primitive tasks of a method (`firstPrim` of its name), htnToSAS.cpp 1152-1157. -/
def Reo.prefixTasks (r : Reo) : List Nat := (List.range r.first).map fun k => r.order[r.order.length - 1 - k]?.getD 0

/-! ## `calculatePrecsAndAdds` -/

/-- `varChange[v][.]`, htnToSAS.cpp 254-261: the last of the given facts that belongs to variable `v`. -/
def lastIn (vars : List (Nat × Nat)) (v : Nat) : List Nat → Option Nat
  | [] => none
  | b :: r => match lastIn vars v r with
    | some c => some c
    | none => if varIdx vars b = some v then some b else none

/-- The loop over the tasks for one variable, htnToSAS.cpp 264-287; the pairs are the precondition and the effect of each
task.  `none`: a task needs another value than the one that was set before. -/
def startEnd : List (Option Nat × Option Nat) → Option Nat → Option Nat → Option (Option Nat × Option Nat)
  | [], st, en => some (st, en)
  | (p, a) :: r, st, none => startEnd r (st.or p) (a.or none)
  | (p, a) :: r, st, some e => if p ≠ none ∧ p ≠ some e then none else startEnd r st (a.or (some e))

/-- `calculatePrecsAndAdds`, htnToSAS.cpp 218-301: the preconditions and effects of a sequence of actions. -/
def combine (S : SasP) (tasks : List Nat) : Option (List Nat × List Nat) :=
  match tasks with
  | [t] => some (S.prec t, S.add t)
  | _ => ((List.range S.vars.length).mapM fun v =>
      startEnd (tasks.map fun t => (lastIn S.vars v (S.prec t), lastIn S.vars v (S.add t))) none none).map fun l =>
    (l.filterMap fun x => x.1, l.filterMap fun x => x.2)

/-! ## `tohtnToStrips` -/

/-- The name of an operator: `primitive(id[a],head[j])` or `method(id[m],head[j],...)`. -/
inductive Lab
  | prim (a j : Nat)
  | meth (m j : Nat)
deriving DecidableEq, Repr

/-- The intervals of the cells of the stack, htnToSAS.cpp 978-982. -/
def slotVars (nT : Nat) : Nat → Nat → List (Nat × Nat)
  | 0, _ => []
  | n + 1, b => (b, b + nT) :: slotVars nT n (b + nT + 1)

/-- `firstIndexTrans`, `lastIndexTrans`, htnToSAS.cpp 964-984.  `nT` is the number of tasks. -/
def transVars (S : SasP) (nT pgb : Nat) : List (Nat × Nat) :=
  let b := (S.vars.getLast?.map fun v => v.2 + 1).getD 0
  S.vars ++ (b, b + pgb) :: slotVars nT pgb (b + pgb + 1)

/-- Value `v` of variable `i` as a fact: `firstIndexTrans[i] + v`. -/
def bitOf (W : List (Nat × Nat)) (i v : Nat) : Nat := ((W[i]?).map fun x => x.1 + v).getD v

/-- The operator of action `a` with the head at point `j`: preconditions and effects, htnToSAS.cpp 1089-1102. -/
def actBits (S : SasP) (W : List (Nat × Nat)) (a j : Nat) : List Nat × List Nat :=
  let h := S.vars.length
  (S.prec a ++ [bitOf W (h + 1 + j) (1 + a), bitOf W h (1 + j)], S.add a ++ [bitOf W (h + 1 + j) 0, bitOf W h j])

/-- The operator of a method for task `t` with `n` subtasks, with the head at point `j`, htnToSAS.cpp 1109-1131. -/
def methBits (S : SasP) (W : List (Nat × Nat)) (r : Reo) (t n j : Nat) : List Nat × List Nat :=
  let h := S.vars.length
  ([bitOf W h (1 + j), bitOf W (h + 1 + j) (t + 1)],
    match n - r.first with
    | 0 => [bitOf W h j, bitOf W (h + 1 + j) 0]
    | 1 => [bitOf W (h + 1 + j) (1 + r.order[0]?.getD 0)]
    | k + 2 => ((List.range (k + 2)).map fun x => bitOf W (h + 1 + j + x) (1 + r.order[x]?.getD 0)) ++ [bitOf W h (j + (k + 2))])

/-! ## `writeToFastDown` -/

/-- The operator that is written for preconditions and effects, htnToSAS.cpp 2398-2466: a precondition on a variable with an
effect becomes the old value of that effect (the last one, if there are several). -/
def mkOp (precs adds : List (Nat × Nat)) (cost : Nat) : SOp where
  prevail := precs.filter fun p => !adds.any fun q => q.1 == p.1
  eff := adds.map fun q => (q.1, ((precs.filter fun p => p.1 == q.1).getLast?).map Prod.snd, q.2)
  cost := cost

/-- The operator that is written if the leading primitive tasks do not fit together, htnToSAS.cpp 2380-2386. -/
def blankOp : SOp := ⟨[], [], 1⟩

/-- Writing an operator: the facts are looked up in `convertMutexVars`. -/
def writeOp (W : List (Nat × Nat)) (precs adds : List Nat) (cost : Nat) : Option SOp :=
  match precs.mapM (conv W), adds.mapM (conv W) with
  | some p, some a => some (mkOp p a cost)
  | _, _ => none

/-- The operator of an action at point `j`. -/
def actOp (P : Problem) (S : SasP) (W : List (Nat × Nat)) (a j : Nat) : Option (Lab × SOp) :=
  (writeOp W (actBits S W a j).1 (actBits S W a j).2 (P.cost a)).map fun o => (.prim a j, o)

/-- The operator of a method at point `j`; the cost is the sum of the costs of the leading primitive tasks (1049-1059), whose
preconditions and effects are added (2361-2379).  `none`: a task that is not an action is used as one. -/
def methOp (P : Problem) (S : SasP) (nA : Nat) (W : List (Nat × Nat)) (r : Reo) (m j : Nat) : Option (Lab × SOp) :=
  let pt := r.prefixTasks
  if pt.any fun t => decide (nA ≤ t) then none
  else
    let cost := (pt.map P.cost).sum
    let b := methBits S W r (P.head m) (P.sub m).length j
    if pt = [] then (writeOp W b.1 b.2 cost).map fun o => (.meth m j, o)
    else match combine S pt with
      | none => some (.meth m j, blankOp)
      | some (p, a) => (writeOp W (b.1 ++ p) (b.2 ++ a) cost).map fun o => (.meth m j, o)

/-- The operators that are written, in this order; the methods that do not fit are left out (1075-1077). -/
def allOps (P : Problem) (S : SasP) (nA : Nat) (W : List (Nat × Nat)) (reo : Nat → Option Reo) (pgb : Nat) :
    Option (List (Lab × SOp)) := do
  let as ← (List.range nA).mapM fun a => (List.range pgb).mapM fun j => actOp P S W a j
  let ms ← (List.range P.numMethods).mapM fun m => do
    let r ← reo m
    ((List.range pgb).filter fun j => !decide ((P.sub m).length + j - r.first > pgb)).mapM fun j => methOp P S nA W r m j
  pure (as.flatten ++ ms.flatten)

/-- The whole file: `sasPlus`, `reorderTasks`, `tohtnToStrips(pgb)` and `writeToFastDown`.  `nA` and `nT` are the numbers of
actions and tasks. -/
def translate (P : Problem) (vars : List (Nat × Nat)) (nA nT pgb : Nat) : Option (STask Lab) := do
  let S ← sasPlus P vars
  if pgb = 0 then none
  else
    let W := transVars S nT pgb
    let h := S.vars.length
    let reo := fun m => reorder P.prim (P.sub m) (P.ord m)
    let ops ← allOps P S nA W reo pgb
    let s0 ← S.s0.mapM (conv W)
    let s1 ← (bitOf W h 1 :: bitOf W (h + 1) (P.init + 1) :: (List.range (pgb - 1)).map fun i => bitOf W (h + 2 + i) 0).mapM (conv W)
    let g ← (S.goal ++ [bitOf W h 0]).mapM (conv W)
    pure { doms := W.map fun v => v.2 - v.1 + 1, init := (s0 ++ s1).map Prod.snd, goal := g, ops := ops }

end Verif.Sas
