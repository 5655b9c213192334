import Verif.SasActs
import Mathlib.Data.Nat.Log

/-! # Model of the BDD variables and the transition relations of the symbolic planner

src/symbolic_search/sym_variables.cpp and src/symbolic_search/transition_relation.cpp.  A BDD is modelled by the Boolean
function that it represents: the set of the assignments of the BDD variables that satisfy it.  Equality of BDDs (nodes of
the library CUDD) is equality of these functions.  Limits of memory and time of the library are not modelled.

The variables of the problem are given by their first and last facts, as in `Verif.Sas`; a fact is converted to variable and
value by `conv` (`varOfStateBit` and `firstIndex`).  Facts out of range (`conv = none`) are excluded by `Problem.WF`. -/

namespace Verif.Sym

open Verif.Htn Verif.Sas

/-- Assignments of the BDD variables. -/
abbrev Asg := Nat → Bool

/-- BDDs, by their satisfying assignments. -/
abbrev Bdd := Asg → Prop

/-! ## The library -/

/-- `AndAbstract` with the conjunction of the variables `vs`: `f * g` with the variables quantified. -/
def andAbs (f g : Bdd) (vs : List Nat) : Bdd := fun α => ∃ β : Asg, (∀ v, v ∉ vs → β v = α v) ∧ f β ∧ g β

/-- The variable that replaces `v` when the variables `xs` are exchanged with `ys`. -/
def swapVar : List Nat → List Nat → Nat → Nat
  | x :: xs, y :: ys, v => if v = x then y else if v = y then x else swapVar xs ys v
  | _, _, v => v

/-- `SwapVariables`. -/
def swapBdd (f : Bdd) (xs ys : List Nat) : Bdd := fun α => f fun v => α (swapVar xs ys v)

/-! ## `SymVariables` -/

/-- `getDomainSize`, sym_variables.cpp 275-285. -/
def domSize (v : Nat × Nat) : Nat := if v.1 = v.2 then 2 else v.2 - v.1 + 1

/-- `var_len`, sym_variables.cpp 64: `ceil(log2(.))`, computed without rounding errors. -/
def varLen (v : Nat × Nat) : Nat := Nat.clog 2 (domSize v)

/-- `bdd_index_pre`, sym_variables.cpp 62-78.  `st` is 3 with auxiliary variables and 2 without. -/
def preIdxs (st : Nat) : Nat → List (Nat × Nat) → List (List Nat)
  | _, [] => []
  | b, v :: r => (List.range (varLen v)).map (fun j => b + st * j) :: preIdxs st (b + st * varLen v) r

/-- `bdd_index_pre[i]`. -/
def pre (st : Nat) (vars : List (Nat × Nat)) (i : Nat) : List Nat := (preIdxs st 0 vars)[i]?.getD []

/-- `bdd_index_eff[i]`, sym_variables.cpp 68. -/
def eff (st : Nat) (vars : List (Nat × Nat)) (i : Nat) : List Nat := (pre st vars i).map (· + 1)

/-- `bdd_index_aux[i]`, sym_variables.cpp 71. -/
def aux (st : Nat) (vars : List (Nat × Nat)) (i : Nat) : List Nat := (pre st vars i).map (· + 2)

/-- `generateBDDVar`, sym_variables.cpp 241-253. -/
def gen : List Nat → Nat → Bdd
  | [], _ => fun _ => True
  | v :: vs, k => fun α => (if k % 2 = 0 then α v = false else α v = true) ∧ gen vs (k / 2) α

/-- `createBiimplicationBDD`, sym_variables.cpp 255-262. -/
def biimp : List Nat → List Nat → Bdd
  | x :: xs, y :: ys => fun α => α x = α y ∧ biimp xs ys α
  | _, _ => fun _ => True

/-- `getStateBDD`, sym_variables.cpp 165-183: the listed facts hold, variables without listed fact have the value 1. -/
def stateBdd (st : Nat) (vars : List (Nat × Nat)) (fs : List Nat) : Bdd := fun α =>
  (∀ p ∈ fs.filterMap (conv vars), gen (pre st vars p.1) p.2 α) ∧
    ∀ i < vars.length, (∀ p ∈ fs.filterMap (conv vars), p.1 ≠ i) → gen (pre st vars i) 1 α

/-- `getPartialStateBDD`, sym_variables.cpp 209-219. -/
def partialBdd (st : Nat) (vars : List (Nat × Nat)) (fs : List Nat) : Bdd := fun α =>
  ∀ p ∈ fs.filterMap (conv vars), gen (pre st vars p.1) p.2 α

/-! ## `TransitionRelation` -/

/-- The writes to the map `effects` in their order, transition_relation.cpp 31-55: variable, value, and whether the BDD of the
value is used (adds) or its negation (deletes). -/
def effWrites (P : Problem) (vars : List (Nat × Nat)) (a : Nat) : List (Nat × Nat × Bool) :=
  ((P.add a).filterMap (conv vars)).map (fun p => (p.1, p.2, true)) ++
    (((P.del a).filter (bitAlone vars)).filterMap (conv vars)).map fun p => (p.1, p.2, false)

/-- `effects[i]` after these writes. -/
def effAt (i : Nat) : List (Nat × Nat × Bool) → Option (Nat × Bool)
  | [] => none
  | w :: r => match effAt i r with
    | some e => some e
    | none => if w.1 = i then some w.2 else none

/-- The BDD in the map, transition_relation.cpp 40 and 54. -/
def effBdd (st : Nat) (vars : List (Nat × Nat)) (i : Nat) : Option (Nat × Bool) → Bdd
  | none => fun _ => True
  | some (v, true) => gen (eff st vars i) v
  | some (v, false) => fun α => ¬ gen (eff st vars i) v α

/-- `tBDD` after `TransitionRelation::init`, transition_relation.cpp 19-70.  The map `effect_conditions` only has the value
zero, so that the lines 65-67 do nothing. -/
def trBdd (st : Nat) (P : Problem) (vars : List (Nat × Nat)) (a : Nat) : Bdd := fun α =>
  (∀ p ∈ (P.prec a).filterMap (conv vars), gen (pre st vars p.1) p.2 α) ∧
    ∀ i < vars.length, effBdd st vars i (effAt i (effWrites P vars a)) α

/-- `effVars`, transition_relation.cpp 35-37, 49-51 and 76. -/
def effVars (P : Problem) (vars : List (Nat × Nat)) (a : Nat) : List Nat :=
  (List.range vars.length).filter fun i => (effAt i (effWrites P vars a)).isSome

/-- `swapVarsS`, transition_relation.cpp 78-80; also the variables of `existsVars`. -/
def swapS (st : Nat) (P : Problem) (vars : List (Nat × Nat)) (a : Nat) : List Nat :=
  (effVars P vars a).flatMap (pre st vars)

/-- `swapVarsSp`, transition_relation.cpp 81-83; also the variables of `existsBwVars`. -/
def swapSp (st : Nat) (P : Problem) (vars : List (Nat × Nat)) (a : Nat) : List Nat :=
  (effVars P vars a).flatMap (eff st vars)

/-- `image`, transition_relation.cpp 93-98. -/
def image (st : Nat) (P : Problem) (vars : List (Nat × Nat)) (a : Nat) (f : Bdd) : Bdd :=
  swapBdd (andAbs (trBdd st P vars a) f (swapS st P vars a)) (swapS st P vars a) (swapSp st P vars a)

/-- `preimage`, transition_relation.cpp 107-111. -/
def preimage (st : Nat) (P : Problem) (vars : List (Nat × Nat)) (a : Nat) (f : Bdd) : Bdd :=
  andAbs (trBdd st P vars a) (swapBdd f (swapS st P vars a) (swapSp st P vars a)) (swapSp st P vars a)

end Verif.Sym
