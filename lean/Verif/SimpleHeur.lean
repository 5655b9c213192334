import Verif.Fringe
import Verif.Reached

/-! # Model of the simple heuristics and of a search with `OneQueueWAStarFringe` -/

namespace Verif.Prog

open Verif.Htn

/-- The heuristics of src/heuristics/hhZero.cpp and src/heuristics/hhSimple.cpp; the argument is
`invert`. -/
inductive SimpleH
  | zero | modDepth (inv : Bool) | mixedModDepth (inv : Bool) | cost (inv : Bool)
deriving DecidableEq

/-- `setHeuristicValue` (src/heuristics/hhZero.cpp 21-30, src/heuristics/hhSimple.cpp 15-22,
27-34, 39-46): both overloads are equal.  They all set `goalReachable`. -/
def SimpleH.value (n : Node) : SimpleH → Int
  | .zero => 0
  | .modDepth inv => n.depth * (if inv then -1 else 1)
  | .mixedModDepth inv => n.mixed * (if inv then -1 else 1)
  | .cost inv => n.costs * (if inv then -1 else 1)

/-- Options of a search with the priority queue fringe (src/SearchEngine.cpp, calls of
`search.search`). -/
structure Opts where
  subopt : Bool
  aStar : AStar
  weight : Int
  heurs : List SimpleH
  /-- `rand()` as called by the fringe -/
  rndF : Nat → Nat
  /-- `rand()` as called by the search -/
  rndS : Nat → Nat
  /-- choices left open by the specification of `std::priority_queue` -/
  choice : List Entry → Nat
  timeUp : Nat → Bool

/-- Search with simple heuristics and a visited list given by `ins`. -/
def Opts.env {V : Type} (o : Opts) (ins : V → Heap → SNode → V × Bool) : Env V WFringe Unit where
  subopt := o.subopt
  push := wpush o.aStar o.weight o.rndF
  pop := wpop o.heurs.length o.choice
  ins := ins
  heur := fun _ _ _ n2 => ((), o.heurs.map (SimpleH.value n2), true)
  rnd := o.rndS
  timeUp := o.timeUp
  hLength := o.heurs.length

/-- The empty queue. -/
def emptyFringe : WFringe := ⟨[], 0⟩

/-- The value assigned by `push`. -/
def Opts.eval (o : Opts) (x : SNode) : Option Int := some (fval o.aStar o.weight x)

/-- The priority queue fringe meets the contract of fringes. -/
theorem wfringe_ok {V H : Type} {E : Env V WFringe H} {opt w rnd numH choice}
    (h1 : E.push = wpush opt w rnd) (h2 : E.pop = wpop numH choice) :
    FringeOK E emptyFringe witems (fun x => some (fval opt w x)) where
  empty := rfl
  push := fun fr x => by rw [h1]; exact List.Perm.refl _
  pop_none := fun fr h => by
    rw [h2] at h
    simp [witems, wpop_spec.1.1 h]
  pop_some := fun fr x fr' h => by
    rw [h2] at h
    obtain ⟨e, he, rfl, hq, -, -⟩ := wpop_spec.2 x fr' h
    simp only [witems, hq]
    exact (List.perm_cons_erase he).map Entry.x

theorem cons_le_cons' {x y : Int} {a b : List Int} : x :: a ≤ y :: b ↔ x < y ∨ x = y ∧ a ≤ b := by
  rw [← not_lt, List.cons_lt_cons_iff, ← not_lt]
  constructor
  · intro h
    rcases lt_trichotomy x y with hl | he | hg
    · exact .inl hl
    · exact .inr ⟨he, fun hb => h (.inr ⟨he.symm, hb⟩)⟩
    · exact absurd (.inl hg) h
  · rintro (h | ⟨h1, h2⟩) (h' | ⟨h1', h2'⟩)
    · omega
    · omega
    · omega
    · exact h2 h2'

theorem wfringe_min {numH choice fr x fr'} (h : wpop numH choice fr = some (x, fr')) :
    ∀ y ∈ witems fr, ∀ a b, x.f = some a → y.f = some b → a ≤ b := by
  intro y hy a b ha hb
  obtain ⟨e, he, rfl, -, -, hle⟩ := wpop_spec.2 x fr' h
  obtain ⟨e', he', rfl⟩ := List.mem_map.1 hy
  have := hle e' he'
  rw [entryKey, entryKey, cons_le_cons', ha, hb] at this
  rcases this with h | ⟨h, -⟩
  · exact Int.le_of_lt h
  · exact Int.le_of_eq h

/-- `noVisitedCheck` (src/VisitedList.cpp 381-384): every node is accepted. -/
def insNone : Unit → Heap → SNode → Unit × Bool := fun v _ _ => (v, true)

theorem insNone_sound {P cfg F H} {E : Env Unit F H} (hE : E.ins = insNone) (Q c) :
    VisSound P cfg E () Q c := by
  intro hist h x _ _ _ hr
  rw [hE] at hr
  simp [insNone] at hr

end Verif.Prog
