import Mathlib.Logic.Function.Basic
import Mathlib.Data.List.Basic

/-! # SAS+ planning tasks

The semantics of the files that are handed to the classical planner: variables with a finite domain, operators with prevail
conditions and effects (variable, required old value if any, new value), an initial state and a goal.  This is the
specification of what the classical planner looks for; it does not mention the translation. -/

namespace Verif.Sas

/-- An operator of the file: prevail conditions, effects `(variable, old value or any, new value)`, cost. -/
structure SOp where
  prevail : List (Nat × Nat)
  eff : List (Nat × Option Nat × Nat)
  cost : Nat
deriving DecidableEq, Repr

/-- A state: the value of each variable. -/
abbrev Val := Nat → Nat

/-- The operator is applicable. -/
def SOp.App (o : SOp) (σ : Val) : Prop :=
  (∀ p ∈ o.prevail, σ p.1 = p.2) ∧ ∀ e ∈ o.eff, ∀ v, e.2.1 = some v → σ e.1 = v

/-- The new values are assigned one after the other. -/
def SOp.res (o : SOp) (σ : Val) : Val := o.eff.foldl (fun σ e => Function.update σ e.1 e.2.2) σ

instance (o : SOp) (σ : Val) : Decidable (o.App σ) :=
  decidable_of_iff ((∀ p ∈ o.prevail, σ p.1 = p.2) ∧ ∀ e ∈ o.eff, e.2.1 = none ∨ e.2.1 = some (σ e.1)) <| by
    refine and_congr_right fun _ => forall₂_congr fun e _ => ?_
    cases e.2.1 <;> simp [eq_comm]

/-- A task: domain sizes, initial values, goal, operators with their names. -/
structure STask (L : Type) where
  doms : List Nat
  init : List Nat
  goal : List (Nat × Nat)
  ops : List (L × SOp)

variable {L : Type}

/-- The initial state. -/
def STask.start (T : STask L) : Val := fun i => T.init[i]?.getD 0

/-- Executing named operators of the task. -/
inductive SRun (T : STask L) : Val → List (L × SOp) → Val → Prop
  | nil (σ : Val) : SRun T σ [] σ
  | cons {σ σ' : Val} {x : L × SOp} {ρ : List (L × SOp)} : x ∈ T.ops → x.2.App σ → SRun T (x.2.res σ) ρ σ' → SRun T σ (x :: ρ) σ'

/-- The goal holds. -/
def STask.Goal (T : STask L) (σ : Val) : Prop := ∀ g ∈ T.goal, σ g.1 = g.2

/-- `ρ` is a plan of the task. -/
def STask.Plan (T : STask L) (ρ : List (L × SOp)) : Prop := ∃ σ, SRun T T.start ρ σ ∧ T.Goal σ

/-- A variable with a value of its domain. -/
def STask.In (T : STask L) (p : Nat × Nat) : Prop := ∃ d, T.doms[p.1]? = some d ∧ p.2 < d

/-- What the classical planner requires of its input file: one initial value per variable, in its domain, and only existing
variables and values in the goal and in the operators. -/
structure STask.WF (T : STask L) : Prop where
  init_len : T.init.length = T.doms.length
  init_in : ∀ (i v : Nat), T.init[i]? = some v → T.In (i, v)
  goal_in : ∀ g ∈ T.goal, T.In g
  prevail_in : ∀ x ∈ T.ops, ∀ p ∈ x.2.prevail, T.In p
  eff_in : ∀ x ∈ T.ops, ∀ e ∈ x.2.eff, T.In (e.1, e.2.2) ∧ ∀ v, e.2.1 = some v → T.In (e.1, v)

/-- The cost of a plan. -/
def planCost (ρ : List (L × SOp)) : Nat := (ρ.map fun x => x.2.cost).sum

end Verif.Sas
