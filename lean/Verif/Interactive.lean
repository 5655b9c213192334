import Verif.Progression

/-! # The interactive planner (src/interactivePlanner.cpp 7-61) -/

namespace Verif.Interactive

open Verif.Htn Verif.Prog

/-- How a session stands after some rounds.  `ok` is not part of the program: it records whether
every action chosen so far was applicable when it was chosen. -/
inductive Out where
  /-- left with `-2` (line 23) -/
  | quit (g : Glob) (n : Node) (ok : Bool)
  /-- left with `-1`, which ends the process (line 24) -/
  | exited
  /-- all input is used up and the next number is awaited -/
  | waiting (g : Glob) (n : Node) (ok : Bool)
  /-- after the given number of rounds -/
  | running (ins : List Int) (g : Glob) (n : Node) (ok : Bool)
deriving DecidableEq

/-- A choice between `k` things: the first one without asking if `k = 1`, otherwise the next number
of the input (lines 19-22 and 34-37).  `none`: the input is used up. -/
def ask (k : Nat) (ins : List Int) : Option (Int × List Int) :=
  if k = 1 then some (0, ins) else match ins with
    | [] => none
    | s :: r => some (s, r)

/-- Element of an array at an `int` index; `none`: out of bounds. -/
def at? {α : Type} (l : List α) (i : Int) : Option α := if i < 0 then none else l[i.toNat]?

variable (P : Problem) (cfg : Cfg)

/-- `interactivePlanner` (lines 7-61): at most the given number of rounds of `while (true)` with the
numbers `ins` on standard input.  The lists printed are not modelled.  `F` is the fuel of `apply`
and `decompose`.  Outcome `none`: an array is read out of bounds (or fuel). -/
def play (F : Nat) : Nat → List Int → Glob → Node → Bool → Option Out
  | 0, ins, g, n, ok => some (.running ins g n ok)
  | K + 1, ins, g, n, ok =>
    match ask (n.abs.length + n.prims.length) ins with
    | none => some (.waiting g n ok)
    | some (step, ins) =>
      if step = -2 then some (.quit g n ok)
      else if step = -1 then some .exited
      else if step < n.abs.length then
        match at? n.abs step with
        | none => none
        | some u =>
          match ask (methodsOf P (taskOf g.heap u)).length ins with
          | none => some (.waiting g n ok)
          | some (step2, ins) =>
            match at? (methodsOf P (taskOf g.heap u)) step2 with
            | none => none
            | some m =>
              match decompose P cfg F g n step.toNat m with
              | none => none
              | some (g', n') => play F K ins g' n' ok
      else
        match at? n.prims (step - n.abs.length) with
        | none => none
        | some u =>
          match apply P cfg F g n (step - n.abs.length).toNat with
          | none => none
          | some (g', n') => play F K ins g' n' (ok && isApplicable P n.state (taskOf g.heap u))

/-- The session starts with the initial node (src/SearchEngine.cpp 276, `interactivePlanner(htn, tnI)`). -/
def session (F K : Nat) (ins : List Int) : Option Out :=
  play P cfg F K ins (initNode P cfg).1 (initNode P cfg).2 true

/-- The node at which a session stands. -/
def Out.node : Out → Option (Glob × Node × Bool)
  | .quit g n ok => some (g, n, ok)
  | .exited => none
  | .waiting g n ok => some (g, n, ok)
  | .running _ g n ok => some (g, n, ok)

end Verif.Interactive
