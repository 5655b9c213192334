import Verif.PsTrans
import Verif.SasActs

/-! # Model of the translation of partially ordered problems to SAS+ ("Push")

src/translation/htnToSAS.cpp: `htnToCondSorted` (547-949), together with `reorderTasks` (304-418) and `writeToFastDown` (2208-2500),
as called by src/translation/translationController.cpp (20-75, 127-160).  The translated problem has the variables of the problem and,
for a bound `B`, `B` cells for tasks, a bit for each pair of cells (the task of the higher cell has to be done before that of the
lower one), a bit for each cell that tells whether it is occupied and one that tells whether its task has to be moved next.  Its
operators execute the action of a cell, decompose the task of a cell, or move a task to the next lower cell. -/

namespace Verif.Sas

open Verif.Htn

/-! ## SAS+ tasks with conditional effects -/

/-- An operator with conditional effects: conditions, variable, new value. -/
structure COp where
  base : SOp
  cond : List (List (Nat × Nat) × Nat × Nat)
deriving DecidableEq, Repr

/-- The operator is applicable. -/
def COp.App (o : COp) (σ : Val) : Prop := o.base.App σ

/-- The conditions are evaluated in the state before, the new values are assigned one after the other. -/
def COp.res (o : COp) (σ : Val) : Val :=
  ((o.cond.filter fun e => e.1.all fun c => σ c.1 == c.2).map Prod.snd).foldl (fun σ e => Function.update σ e.1 e.2) (o.base.res σ)

instance (o : COp) (σ : Val) : Decidable (o.App σ) := inferInstanceAs (Decidable (o.base.App σ))

/-- A task whose operators have conditional effects. -/
structure CTask (L : Type) where
  doms : List Nat
  init : List Nat
  goal : List (Nat × Nat)
  ops : List (L × COp)

variable {L : Type}

/-- The initial state. -/
def CTask.start (T : CTask L) : Val := fun i => T.init[i]?.getD 0

/-- Executing named operators of the task. -/
inductive CRun (T : CTask L) : Val → List (L × COp) → Val → Prop
  | nil (σ : Val) : CRun T σ [] σ
  | cons {σ σ' : Val} {x : L × COp} {ρ : List (L × COp)} : x ∈ T.ops → x.2.App σ → CRun T (x.2.res σ) ρ σ' → CRun T σ (x :: ρ) σ'

/-- The goal holds. -/
def CTask.Goal (T : CTask L) (σ : Val) : Prop := ∀ g ∈ T.goal, σ g.1 = g.2

/-- `ρ` is a plan of the task. -/
def CTask.Plan (T : CTask L) (ρ : List (L × COp)) : Prop := ∃ σ, CRun T T.start ρ σ ∧ T.Goal σ

/-- A variable with a value of its domain. -/
def CTask.In (T : CTask L) (p : Nat × Nat) : Prop := ∃ d, T.doms[p.1]? = some d ∧ p.2 < d

/-- What the classical planner requires of its input file: one initial value per variable, in its domain, and only existing
variables and values in the goal and in the operators. -/
structure CTask.WF (T : CTask L) : Prop where
  init_len : T.init.length = T.doms.length
  init_in : ∀ (i v : Nat), T.init[i]? = some v → T.In (i, v)
  goal_in : ∀ g ∈ T.goal, T.In g
  prevail_in : ∀ x ∈ T.ops, ∀ p ∈ x.2.base.prevail, T.In p
  eff_in : ∀ x ∈ T.ops, ∀ e ∈ x.2.base.eff, T.In (e.1, e.2.2) ∧ ∀ v, e.2.1 = some v → T.In (e.1, v)
  cond_in : ∀ x ∈ T.ops, ∀ e ∈ x.2.cond, T.In e.2 ∧ ∀ c ∈ e.1, T.In c

/-- The cost of a plan. -/
def cplanCost (ρ : List (L × COp)) : Nat := (ρ.map fun x => x.2.base.cost).sum

/-! ## `htnToCondSorted` -/

/-- The name of an operator: `primitive(id[a],head[j])`, `method(id[m],head[j],...)` or `move(task[t],from[j],to[j-1])`,
htnToSAS.cpp 913-946. -/
inductive PLab
  | prim (a j : Nat)
  | meth (m j : Nat)
  | move (t j : Nat)
deriving DecidableEq, Repr

/-- The sizes of the new variables, htnToSAS.cpp 562-587: the cells, the constraints, `occupied` and `movable`. -/
def pushSizes (nT B : Nat) : List Nat :=
  List.replicate B nT ++ List.replicate (B * (B - 1) / 2) 1 ++ List.replicate B 1 ++ List.replicate B 1

/-- `firstIndexTrans`, `lastIndexTrans`, htnToSAS.cpp 562-587. -/
def pushVars (S : SasP) (nT B : Nat) : List (Nat × Nat) :=
  S.vars ++ chainVars ((S.vars.getLast?.map fun v => v.2 + 1).getD 0) (pushSizes nT B)

/-- `firstTaskIndex + j`, htnToSAS.cpp 554. -/
def puTask (nV j : Nat) : Nat := nV + j

/-- `firstConstraintIndex + k * (k - 1) / 2 + j`, htnToSAS.cpp 555: the task of cell `k` is before that of cell `j`. -/
def puCon (nV B k j : Nat) : Nat := nV + B + k * (k - 1) / 2 + j

/-- `firstStackIndex + j`, htnToSAS.cpp 556. -/
def puOcc (nV B j : Nat) : Nat := nV + B + B * (B - 1) / 2 + j

/-- `firstMoveIndex + j`, htnToSAS.cpp 557. -/
def puMov (nV B j : Nat) : Nat := nV + B + B * (B - 1) / 2 + B + j

/-- The preconditions of actions and methods on the cells, htnToSAS.cpp 751-762, 802-812: the lower cells are occupied, no task of a
higher cell has to be done before, and the cell has the task with value `t`. -/
def puPre (W : List (Nat × Nat)) (nV B t j : Nat) : List Nat :=
  (List.range B).map fun k =>
    if k < j then bitOf W (puOcc nV B k) 1 else if j < k then bitOf W (puCon nV B k j) 0 else bitOf W (puTask nV j) t

/-- The effects that clear cell `j`, htnToSAS.cpp 754, 764-765, 815-819. -/
def puClear (W : List (Nat × Nat)) (nV B j : Nat) : List Nat :=
  ((List.range j).map fun k => bitOf W (puCon nV B j k) 0) ++ [bitOf W (puTask nV j) 0, bitOf W (puOcc nV B j) 0]

/-- The preconditions, effects and conditional effects (condition, effect) of an operator. -/
structure PBits where
  pre : List Nat
  add : List Nat
  cond : List (Nat × Nat)

/-- The operator of action `a` in cell `j`, htnToSAS.cpp 735-767. -/
def puActBits (S : SasP) (W : List (Nat × Nat)) (B a j : Nat) : PBits where
  pre := S.prec a ++ puPre W S.vars.length B (a + 1) j
  add := S.add a ++ puClear W S.vars.length B j
  cond := []

/-- The cell of subtask `x` (in the order after `reorderTasks`) of a method with `n` subtasks, htnToSAS.cpp 836-848. -/
def puCell (B n j x : Nat) : Nat := if x = 0 then j else B - n + x

/-- The operator of a method for task `t` with `n` subtasks in cell `j`, htnToSAS.cpp 780-854; `order` are its subtasks and `ord` its
orderings, both after `reorderTasks`. -/
def puMethBits (W : List (Nat × Nat)) (nV B t n j : Nat) (order : List Nat) (ord : List (Nat × Nat)) : PBits :=
  match n with
  | 0 => { pre := puPre W nV B (t + 1) j, add := puClear W nV B j, cond := [] }
  | 1 => { pre := puPre W nV B (t + 1) j, add := [bitOf W (puTask nV j) (1 + order[0]?.getD 0)], cond := [] }
  | n' + 2 =>
    { pre := puPre W nV B (t + 1) j ++ (List.range (n' + 1)).map fun l => bitOf W (puTask nV (B - 1 - l)) 0
      add := bitOf W (puTask nV j) (1 + order[0]?.getD 0) ::
        (((List.range (n' + 1)).map fun l => bitOf W (puTask nV (B - (n' + 2) + 1 + l)) (1 + order[l + 1]?.getD 0)) ++
        (List.range (n' + 1)).map fun l => bitOf W (puOcc nV B (B - 1 - l)) 1)
      cond := ((List.range (n' + 1)).flatMap fun l => (List.range j).map fun x =>
          (bitOf W (puCon nV B j x) 1, bitOf W (puCon nV B (B - l - 1) x) 1)) ++
        ord.map fun o =>
          let v := puCon nV B (puCell B (n' + 2) j o.1) (puCell B (n' + 2) j o.2)
          (bitOf W v 0, bitOf W v 1) }

/-- The operator that moves task `t` from cell `j` to the next lower one, htnToSAS.cpp 857-906.  The array of the conditional effects
is larger by 2 than what is written to it (714-730); `junk` are the facts found there. -/
def puMoveBits (W : List (Nat × Nat)) (nV B t j : Nat) (junk : List (Nat × Nat)) : PBits where
  pre := [bitOf W (puTask nV j) (1 + t), bitOf W (puOcc nV B j) 1, bitOf W (puTask nV (j - 1)) 0, bitOf W (puOcc nV B (j - 1)) 0] ++
    (List.range (B - 2)).map fun l => if l < j then bitOf W (puMov nV B l) 0 else bitOf W (puMov nV B (l + 1)) 0
  add := [bitOf W (puTask nV j) 0, bitOf W (puOcc nV B j) 0, bitOf W (puTask nV (j - 1)) (1 + t), bitOf W (puOcc nV B (j - 1)) 1,
      bitOf W (puMov nV B j) 0] ++
    (List.range (B - 2)).map fun l => if l < j - 1 then bitOf W (puCon nV B j l) 0 else bitOf W (puCon nV B (l + 2) j) 0
  cond := ((List.range (B - 2)).map fun l =>
      if l < j - 1 then (bitOf W (puCon nV B j l) 1, bitOf W (puCon nV B (j - 1) l) 1)
      else (bitOf W (puCon nV B (l + 2) j) 1, bitOf W (puCon nV B (l + 2) (j - 1)) 1)) ++
    (if 1 < j then [(bitOf W (puOcc nV B (j - 2)) 0, bitOf W (puMov nV B (j - 1)) 1),
      (bitOf W (puOcc nV B (j - 2)) 1, bitOf W (puMov nV B (j - 1)) 0)] else []) ++ junk

/-- Writing an operator, htnToSAS.cpp 2388-2489; the conditional effects are written if `ce` (`hasCondEff`). -/
def writeCOp (W : List (Nat × Nat)) (ce : Bool) (b : PBits) (cost : Nat) : Option COp := do
  let o ← writeOp W b.pre b.add cost
  let cs ← (if ce then b.cond else []).mapM fun e => do
    let c ← conv W e.1
    let v ← conv W e.2
    pure ([c], v)
  pure ⟨o, cs⟩

/-- The operators that are written, htnToSAS.cpp 735-910.  The methods that do not fit are left out (796-799).  `junk t j` are the two
conditional effects of the operator that moves `t` from `j` that are not initialised. -/
def pushOps (P : Problem) (S : SasP) (nA nT : Nat) (W : List (Nat × Nat)) (B : Nat) (ce : Bool) (junk : Nat → Nat → List (Nat × Nat)) :
    Option (List (PLab × COp)) := do
  let as ← (List.range nA).mapM fun a => (List.range B).mapM fun j =>
    (writeCOp W ce (puActBits S W B a j) (P.cost a)).map fun o => (PLab.prim a j, o)
  let ms ← (List.range P.numMethods).mapM fun m => do
    let r ← reorder P.prim (P.sub m) (P.ord m)
    let ord ← remapOrd (P.sub m) (P.ord m)
    ((List.range B).filter fun j => !decide ((P.sub m).length + j > B)).mapM fun j =>
      (writeCOp W ce (puMethBits W S.vars.length B (P.head m) (P.sub m).length j r.order ord) 0).map fun o => (PLab.meth m j, o)
  let vs ← (List.range nT).mapM fun t => (List.range (B - 1)).mapM fun j =>
    (writeCOp W ce (puMoveBits W S.vars.length B t (j + 1) (junk t (j + 1))) 0).map fun o => (PLab.move t (j + 1), o)
  pure (as.flatten ++ ms.flatten ++ vs.flatten)

/-- The initial values of the new variables, htnToSAS.cpp 633-640. -/
def pushInit (P : Problem) (W : List (Nat × Nat)) (nV B : Nat) : List Nat :=
  (List.range (B * 3 + B * (B - 1) / 2)).map fun i =>
    bitOf W (nV + i) (if i = 0 then P.init + 1 else if i = B + B * (B - 1) / 2 then 1 else 0)

/-- The whole file: `sasPlus`, `reorderTasks`, `htnToCondSorted(B)` and `writeToFastDown` with conditional effects (`ce`: Push) or
without them (BaseCondEffects), translationController.cpp 26-28, 38-40, 69.  The goal: htnToSAS.cpp 642-647.  `none`: a fact is looked up that does not exist. -/
def pushTranslate (P : Problem) (vars : List (Nat × Nat)) (nA nT B : Nat) (ce : Bool) (junk : Nat → Nat → List (Nat × Nat)) :
    Option (CTask PLab) := do
  let S ← sasPlus P vars
  if B = 0 then none
  else
    let W := pushVars S nT B
    let nV := S.vars.length
    let ops ← pushOps P S nA nT W B ce junk
    let s0 ← S.s0.mapM (conv W)
    let s1 ← (pushInit P W nV B).mapM (conv W)
    let g ← (S.goal ++ (List.range B).map fun i => bitOf W (puTask nV i) 0).mapM (conv W)
    pure { doms := W.map fun v => v.2 - v.1 + 1, init := (s0 ++ s1).map Prod.snd, goal := g, ops := ops }

/-- The actions of a plan. -/
def plabAct : PLab → Option Nat
  | .prim a _ => some a
  | _ => none

/-- The actions of a plan of the translated problem. -/
def pushActs (ρ : List (PLab × COp)) : List Nat := ρ.filterMap fun x => plabAct x.1

/-- The memory of the uninitialised entries happens to be zero. -/
def zeroJunk (_ _ : Nat) : List (Nat × Nat) := [(0, 0), (0, 0)]

end Verif.Sas
