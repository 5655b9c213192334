import Verif.ToTrans

/-! # Model of the translation of parallel sequences to SAS+

src/translation/htnToSAS.cpp: `htnPS` (1169-1479), together with `reorderTasks` (304-418) and `writeToFastDown` (2208-2490), and
the choice of the bounds in src/translation/translationController.cpp (192-205).  The translated problem has the variables of the
problem, a variable that tells whether the initial task is still to be decomposed, one variable for the height of each stack,
variables for the order constraints between sequences and the cells of the stacks. -/

namespace Verif.Sas

open Verif.Htn

/-- `ordering` after `reorderTasks`, htnToSAS.cpp 371-376. -/
def remapOrd (sub : List Nat) (ord : List (Nat × Nat)) : Option (List (Nat × Nat)) :=
  if sub.length ≤ 1 ∨ ord = [] then some ord
  else match chooseSubs sub.length ord sub.length [] with
    | none => none
    | some subs => ord.mapM fun o => do
      let a ← subs[o.1]?
      let b ← subs[o.2]?
      pure (sub.length - 1 - a, sub.length - 1 - b)

/-- Consecutive intervals; the variable with interval `(b, b + s)` has `s + 1` values. -/
def chainVars : Nat → List Nat → List (Nat × Nat)
  | _, [] => []
  | b, s :: r => (b, b + s) :: chainVars (b + s + 1) r

/-- The new variables, htnToSAS.cpp 1195-1216: `top`, one head per sequence, the constraints, the cells.  `h` is `pgbList`. -/
def psSizes (nT : Nat) (h : List Nat) : List Nat :=
  1 :: (h ++ List.replicate (h.length * (h.length - 1)) 1 ++ h.flatMap fun p => List.replicate p nT)

/-- `firstIndexTrans`, `lastIndexTrans`, htnToSAS.cpp 1187-1216. -/
def psVars (S : SasP) (nT : Nat) (h : List Nat) : List (Nat × Nat) :=
  S.vars ++ chainVars ((S.vars.getLast?.map fun v => v.2 + 1).getD 0) (psSizes nT h)

/-- `headIndex + k`, where `nV` is the number of variables of the problem, htnToSAS.cpp 1181. -/
def psHead (nV k : Nat) : Nat := nV + 1 + k

/-- `firstConstraintIndex + c`, htnToSAS.cpp 1182. -/
def psCon (nV : Nat) (h : List Nat) (c : Nat) : Nat := nV + 1 + h.length + c

/-- `taskIndezes[k] + j`, htnToSAS.cpp 1183, 1208-1210. -/
def psSlot (nV : Nat) (h : List Nat) (k j : Nat) : Nat := nV + 1 + h.length + h.length * (h.length - 1) + (h.take k).sum + j

/-- The constraints that keep sequence `k` from proceeding, htnToSAS.cpp 1352-1357, 1443-1448. -/
def conPrec (n k : Nat) : List Nat :=
  (List.range (n - 1)).map fun l =>
    let off := if l ≥ k then 1 else 0
    (l + off) * (n - 1) + k - 1 + off

/-- The constraints of sequence `k` on the others, htnToSAS.cpp 1359. -/
def conAdd (n k : Nat) : List Nat := (List.range (n - 1)).map fun l => (n - 1) * k + l

/-- The operator of action `a` with the head of sequence `k` at point `j`, htnToSAS.cpp 1335-1366. -/
def psActBits (S : SasP) (W : List (Nat × Nat)) (h : List Nat) (a j k : Nat) : List Nat × List Nat :=
  let nV := S.vars.length
  (S.prec a ++ [bitOf W (psHead nV k) (1 + j), bitOf W (psSlot nV h k j) (1 + a)] ++
      (conPrec h.length k).map fun c => bitOf W (psCon nV h c) 0,
    S.add a ++ [bitOf W (psHead nV k) j, bitOf W (psSlot nV h k j) 0] ++
      if j = 0 then (conAdd h.length k).map fun c => bitOf W (psCon nV h c) 0 else [])

/-- The operator of a method for task `t` with `n` subtasks, with the head of sequence `k` at point `j`, htnToSAS.cpp 1437-1463.
For a method without subtasks, the head of the first sequence is set (1455). -/
def psMethBits (S : SasP) (W : List (Nat × Nat)) (h : List Nat) (r : Reo) (t n j k : Nat) : List Nat × List Nat :=
  let nV := S.vars.length
  ([bitOf W (psHead nV k) (1 + j), bitOf W (psSlot nV h k j) (t + 1)] ++ (conPrec h.length k).map fun c => bitOf W (psCon nV h c) 0,
    match n with
    | 0 => [bitOf W (psHead nV 0) j, bitOf W (psSlot nV h k j) 0] ++
      if j = 0 then (conAdd h.length k).map fun c => bitOf W (psCon nV h c) 0 else []
    | 1 => [bitOf W (psSlot nV h k j) (1 + r.order[0]?.getD 0)]
    | n + 2 => ((List.range (n + 2)).map fun x => bitOf W (psSlot nV h k j + x) (1 + r.order[x]?.getD 0)) ++
      [bitOf W (psHead nV k) (j + (n + 2))])

/-- The number of the constraint of an ordering, htnToSAS.cpp 1417-1422. -/
def conIdx (n a b : Nat) : Nat := a * (n - 1) + b - if a < b then 1 else 0

/-- The operator of a method of the initial task, htnToSAS.cpp 1400-1424: `order` are its subtasks, `ord` its orderings, both after
`reorderTasks`. -/
def psTopBits (S : SasP) (W : List (Nat × Nat)) (h : List Nat) (order : List Nat) (ord : List (Nat × Nat)) : List Nat × List Nat :=
  let nV := S.vars.length
  let n := h.length
  ([bitOf W nV 1],
    bitOf W nV 0 :: (((List.range n).map fun l => bitOf W (psHead nV l) 1) ++
      ((List.range n).map fun l => bitOf W (psSlot nV h l 0) (order[l]?.getD 0 + 1)) ++
      (List.range (n * (n - 1))).map fun c => bitOf W (psCon nV h c) (if (ord.map fun o => conIdx n o.1 o.2).contains c then 1 else 0)))

/-- The bound of sequence `k`. -/
def hAt (h : List Nat) (k : Nat) : Nat := h[k]?.getD 0

/-- `pgb` in `htnPS`: the largest bound, htnToSAS.cpp 1174-1179. -/
def hMax (h : List Nat) : Nat := h.foldl (fun a b => if a < b then b else a) 0

/-- The operator of an action; `head[k * pgb + j]` in its name, htnToSAS.cpp 1368. -/
def psActOp (P : Problem) (S : SasP) (W : List (Nat × Nat)) (h : List Nat) (a j k : Nat) : Option (Lab × SOp) :=
  let b := psActBits S W h a j k
  (writeOp W b.1 b.2 (P.cost a)).map fun o => (.prim a (k * hMax h + j), o)

/-- The operator of a method.  `none`: the array of the subtasks or that of the effects is left (1413, 1423). -/
def psMethOp (P : Problem) (S : SasP) (W : List (Nat × Nat)) (h : List Nat) (r : Reo) (ord : List (Nat × Nat)) (m j k : Nat) :
    Option (Lab × SOp) :=
  if P.head m = P.init then
    if r.order.length < h.length ∨ ∃ o ∈ ord, h.length * (h.length - 1) ≤ conIdx h.length o.1 o.2 then none
    else
      let b := psTopBits S W h r.order ord
      (writeOp W b.1 b.2 0).map fun o => (.meth m (k * hMax h + j), o)
  else
    let b := psMethBits S W h r (P.head m) (P.sub m).length j k
    (writeOp W b.1 b.2 0).map fun o => (.meth m (k * hMax h + j), o)

/-- The loop over the points and sequences. -/
def psPoints (h : List Nat) : List (Nat × Nat) :=
  (List.range (hMax h)).flatMap fun j => (List.range h.length).map fun k => (j, k)

/-- Which methods are written at which points, htnToSAS.cpp 1386-1391, 1401, 1425-1428. -/
def psMethAt (P : Problem) (h : List Nat) (m : Nat) (x : Nat × Nat) : Bool :=
  if P.head m = P.init then x.1 == 0 && x.2 == 0 else !decide ((P.sub m).length + x.1 > hAt h x.2)

/-- The operators that are written, htnToSAS.cpp 1322-1476. -/
def psOps (P : Problem) (S : SasP) (nA : Nat) (W : List (Nat × Nat)) (h : List Nat) : Option (List (Lab × SOp)) := do
  let as ← (List.range nA).mapM fun a =>
    ((psPoints h).filter fun x => !decide (x.1 ≥ hAt h x.2)).mapM fun x => psActOp P S W h a x.1 x.2
  let ms ← (List.range P.numMethods).mapM fun m => do
    let r ← reorder P.prim (P.sub m) (P.ord m)
    let ord ← remapOrd (P.sub m) (P.ord m)
    ((psPoints h).filter (psMethAt P h m)).mapM fun x => psMethOp P S W h r ord m x.1 x.2
  pure (as.flatten ++ ms.flatten)

/-- The whole file: `sasPlus`, `reorderTasks`, `htnPS(h.length, h)` and `writeToFastDown`.  A bound of 0, which the controller does
not use, is not modelled. -/
def psTranslate (P : Problem) (vars : List (Nat × Nat)) (nA nT : Nat) (h : List Nat) : Option (STask Lab) := do
  let S ← sasPlus P vars
  if h.contains 0 then none
  else
    let W := psVars S nT h
    let nV := S.vars.length
    let ops ← psOps P S nA W h
    let s0 ← S.s0.mapM (conv W)
    let s1 ← (bitOf W nV 1 :: (List.range (W.length - (nV + 1))).map fun i => bitOf W (nV + 1 + i) 0).mapM (conv W)
    let g ← (S.goal ++ bitOf W nV 0 :: (List.range h.length).map fun i => bitOf W (psHead nV i) 0).mapM (conv W)
    pure { doms := W.map fun v => v.2 - v.1 + 1, init := (s0 ++ s1).map Prod.snd, goal := g, ops := ops }

/-- `taskToMethods[initialTask][0]`. -/
def topMethod (P : Problem) : Option Nat := (List.range P.numMethods).find? fun m => P.head m == P.init

/-- `parallel` and the first `pgbList`, translationController.cpp 194-205; `pgb = 0` stands for any value ≤ 0. -/
def psBounds (P : Problem) (pgb : Nat) : Option (List Nat) :=
  (topMethod P).map fun m => List.replicate (P.sub m).length (if pgb > 0 then pgb else (P.sub m).length)

end Verif.Sas
