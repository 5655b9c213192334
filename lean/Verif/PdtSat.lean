import Verif.PdtFilter
import Verif.SatItems

/-! # Model of the decomposition part of the formula (src/sat/pdt.cpp)

The variables of the vertices, `assignVariableIDs`, `addDecompositionClauses` and `addPrunedClauses`. -/

namespace Verif.Pdt

open Verif.Htn Verif.Sog Verif.Sat

/-- What a variable stands for: `noTaskPresent`, `primitiveVariable`, `abstractVariable` and `methodVariables` of the
vertex at a path (src/sat/pdt.h 82-97). -/
inductive Atom
  | none (p : Path)
  | prim (p : Path) (i : Nat)
  | abs (p : Path) (a : Nat)
  | meth (p : Path) (a m : Nat)
deriving DecidableEq, Repr

/-- The tables of variables; `none` is the entry -1 (or a table that is not there yet). -/
abbrev VM := Atom → Option Nat

/-- A method variable. -/
def Atom.isMeth : Atom → Bool
  | .meth _ _ _ => true
  | _ => false

/-- A new variable for an entry that has none (`capsule.new_variable`, sat_encoder.cpp 45-47). -/
def giveVar (x : Nat × VM) (a : Atom) : Nat × VM :=
  match x.2 a with
  | some _ => x
  | none => (x.1 + 1, fun b => if b = a then some (x.1 + 1) else x.2 b)

/-- The tasks of a vertex. -/
def taskAtoms (p : Path) (d : ND) : List Atom :=
  (List.range d.prims.length).map (.prim p) ++ (List.range d.abss.length).map (.abs p)

/-- The methods of the abstract tasks of a vertex that satisfy a test. -/
def methAtoms (P : Problem) (p : Path) (d : ND) (f : Nat → Bool) : List Atom :=
  ((List.range d.abss.length).filter f).flatMap fun a => (List.range (meths P (d.abss.getD a 0)).length).map fun m => .meth p a m

/-- The pruning flag of an atom. -/
def Atom.pruned (S : Flags) : Atom → Bool
  | .none _ => false
  | .prim p i => S (.prim p i)
  | .abs p a => S (.abs p a)
  | .meth p a m => S (.meth p a m)

/-- The entries of one vertex that must have variables, in the order of the code (pdt.cpp 514-607). -/
def nodeAtoms (P : Problem) (t : T) (S : Flags) (p : Path) : List Atom :=
  match t.nd p with
  | .none => []
  | some d =>
    .none p :: (taskAtoms p d ++ if (t.ex p).isSome then methAtoms P p d (fun _ => true) else []).filter fun a => !a.pruned S

/-- `assignVariableIDs` (pdt.cpp 514-616).  The tables of methods are made anew at every expanded vertex, just before
they are filled (587-592); here all are dropped at the beginning. -/
def assignVars (P : Problem) (t : T) (S : Flags) (n : Nat) (V : VM) : Nat × VM :=
  (t.nodes.flatMap (nodeAtoms P t S)).foldl giveVar (n, fun a => if a.isMeth then none else V a)

/-- The entry as a literal. -/
def lv (V : VM) (a : Atom) : Int :=
  match V a with
  | some x => (x : Int)
  | none => -1

/-- The entries different from -1. -/
def varsOf (V : VM) (l : List Atom) : List Int := (l.filterMap V).map fun x : Nat => (x : Int)

/-- `impliesOr` (sat_encoder.cpp 113-119). -/
def impliesOr (i : Int) (js : List Int) : Clause := -i :: js

/-- `impliesAllNot` (sat_encoder.cpp 130-137). -/
def impliesAllNot (i : Int) (js : List Int) : List Clause := js.map fun j => [-i, -j]

/-- The atom of the mother for a cause. -/
def motherAtom (p : Path) : Cause → Atom
  | .meth a m => .meth p a m
  | .inh i => .prim p i

/-- The atom of a task. -/
def taskAtom (b : Bool) (p : Path) (i : Nat) : Atom := if b then .prim p i else .abs p i

/-- The atom that a method demands of a child: the subtask, or that there is no task (pdt.cpp 990-1010). -/
def ptrAtom (e : EX) (p : Path) (a m c : Nat) : Atom :=
  match e.ptr a m c with
  | some q => taskAtom q.isPrim (c :: p) q.task
  | none => .none (c :: p)

/-- A primitive task is inherited (pdt.cpp 955-967). -/
def primClauses (V : VM) (p : Path) (d : ND) (e : EX) : List Clause :=
  (List.range d.prims.length).flatMap fun i =>
    match V (.prim p i) with
    | none => []
    | some x =>
      match e.posP[i]? with
      | none => []
      | some (c, j, _) =>
        implies x (lv V (.prim (c :: p) j)) ::
          ((List.range e.children.length).filter fun c' => c' != c).map fun c' => implies x (lv V (.none (c' :: p)))

/-- A method puts its subtasks into the children (pdt.cpp 984-1012). -/
def methClauses (V : VM) (p : Path) (e : EX) (a m : Nat) (av mv : Int) : List Clause :=
  implies mv av :: (List.range e.children.length).map fun c => implies mv (lv V (ptrAtom e p a m c))

/-- Abstract tasks and their methods (pdt.cpp 976-1024). -/
def absClauses (P : Problem) (V : VM) (p : Path) (d : ND) (e : EX) : List Clause :=
  (List.range d.abss.length).flatMap fun a =>
    match V (.abs p a) with
    | none => []
    | some av =>
      ((List.range (meths P (d.abss.getD a 0)).length).flatMap fun m =>
        match V (.meth p a m) with
        | none => []
        | some mv => methClauses V p e a m av mv) ++
      [impliesOr av (varsOf V ((List.range (meths P (d.abss.getD a 0)).length).map fun m => .meth p a m))]

/-- The tasks of one kind of child `c` have causes (pdt.cpp 1031-1074).  The code asserts that abstract tasks are caused
by methods. -/
def causeClauses (V : VM) (S : Flags) (p : Path) (c : Nat) (ch : ND) (b : Bool) : List Clause :=
  (List.range (ch.tasks b).length).flatMap fun i =>
    match V (taskAtom b (c :: p) i) with
    | none => []
    | some x =>
      [impliesOr x ((((ch.causes b).getD i []).zipIdx.filter fun y => !S (causeFlag b (c :: p) i y.2)).map fun y =>
        lv V (motherAtom p y.1))]

/-- The clauses and at-most-one constraints of one expanded vertex (pdt.cpp 912-1100). -/
def nodeItems (P : Problem) (V : VM) (S : Flags) (p : Path) (d : ND) (e : EX) : List Item :=
  [.amo (varsOf V (taskAtoms p d))] ++
  (if varsOf V (methAtoms P p d fun a => !S (.abs p a)) = [] then []
    else [.amo (varsOf V (methAtoms P p d fun a => !S (.abs p a)))]) ++
  (primClauses V p d e ++ absClauses P V p d e ++
  ((List.range e.children.length).flatMap fun c =>
    causeClauses V S p c (e.children.getD c ⟨[], [], [], []⟩) false ++
    causeClauses V S p c (e.children.getD c ⟨[], [], [], []⟩) true) ++
  impliesAllNot (lv V (.none p)) (varsOf V ((List.range d.prims.length).map (.prim p))) ++
  impliesAllNot (lv V (.none p)) (varsOf V ((List.range d.abss.length).map (.abs p))) ++
  (List.range e.children.length).map fun c => implies (lv V (.none p)) (lv V (.none (c :: p)))).map .cl

/-- Undefined behaviour at a vertex: the position of a primitive task is looked up and there is none, because the vertex
has no children (pdt.cpp 957-959); or the program ends with the output "OO" (999-1002). -/
def nodeBad (P : Problem) (V : VM) (p : Path) (d : ND) (e : EX) : Bool :=
  ((List.range d.prims.length).any fun i => (V (.prim p i)).isSome && (e.posP[i]?).isNone) ||
  (List.range d.abss.length).any fun a => (V (.abs p a)).isSome &&
    (List.range (meths P (d.abss.getD a 0)).length).any fun m => (V (.meth p a m)).isSome &&
      (List.range e.children.length).any fun c => (e.ptr a m c).isSome && (V (ptrAtom e p a m c)).isNone

/-- The vertices for which `addDecompositionClauses` generates clauses: it stops at vertices that are not expanded or
have no variables for tasks (pdt.cpp 903, 922). -/
def emitted (t : T) (V : VM) : Nat → Path → List Path
  | 0, _ => []
  | f + 1, p =>
    match t.nd p, t.ex p with
    | some d, some e =>
      if varsOf V (taskAtoms p d) = [] then []
      else p :: (List.range e.children.length).flatMap fun c => emitted t V f (c :: p)
    | _, _ => []

/-- `addDecompositionClauses` (pdt.cpp 902-1112); `none`: undefined behaviour or exit. -/
def decompItems (P : Problem) (t : T) (V : VM) (S : Flags) : Option (List Item) :=
  if (emitted t V t.K []).any (fun p =>
    match t.nd p, t.ex p with
    | some d, some e => nodeBad P V p d e
    | _, _ => false) then none
  else some ((emitted t V t.K []).flatMap fun p =>
    match t.nd p, t.ex p with
    | some d, some e => nodeItems P V S p d e
    | _, _ => [])

/-- `addPrunedClauses` (pdt.cpp 879-898). -/
def prunedClauses (P : Problem) (t : T) (V : VM) (S : Flags) : List Clause :=
  t.nodes.flatMap fun p =>
    match t.nd p with
    | none => []
    | some d =>
      (varsOf V ((taskAtoms p d ++ if (t.ex p).isSome then methAtoms P p d (fun _ => true) else []).filter
        (·.pruned S))).map assertNot

end Verif.Pdt
