import Verif.Reached

/-! # Properties of the search: C01, C02, C06 (search level), C07, C21

The visited list, the fringe and the heuristics are arbitrary here, subject to the stated
contracts.  `Verif.Props.EndToEnd` instantiates the contracts with the code's own data
structures. -/

namespace Verif.Props

open Verif.Htn Verif.Prog Verif.TaskCounter Relation

variable {P : Problem} {cfg : Cfg} {V F H : Type}
variable {E : Env V F H} {items : F → List SNode} {v0 : V} {f0 : F} {hs0 : H} {eval : SNode → Option Int}
variable {K : Heap → Node → Prop} {Q : Heap → SNode → Prop} {J : Heap → H → Prop}

/-- **C01.**  Whatever visited list and heuristics are used, and whatever `rand()` and the
iteration order of pointer sets are: if the search reports a solution then the printed action
sequence is a solution of the problem in the sense of the specification. -/
theorem C01_reported_plan_is_solution (hP : P.WF) (hcfg : cfg.Ok) (hF : FringeOK E f0 items eval)
    {fuel n s'} (h : search P cfg E fuel v0 f0 hs0 = some (.solved n, s')) :
    IsSolution P (planOf n.node.sol) :=
  ⟨_, (search_sound hP hcfg hF h).isSolution⟩

/-- **C02.**  If the visited list only rejects nodes that are represented by an accepted one
and the heuristics only discard nodes without solution, "Proven unsolvable" is correct. -/
theorem C02_unsolvable_is_correct (hP : P.WF) (hcfg : cfg.Ok) (hF : FringeOK E f0 items eval)
    (hK : Keeps P cfg E eval K Q J) (hV : VisSound P cfg E v0 Q 0) (hH : HeurSafe P cfg E K J noBound 0)
    (hJ : HeurInv P cfg E K J hs0)
    {fuel s'} (h : search P cfg E fuel v0 f0 hs0 = some (.unsolvable, s')) :
    ∀ π, ¬ IsSolution P π := by
  rintro π ⟨k, hs⟩
  obtain ⟨closed, hist, I, he⟩ := search_post hP hcfg hF hK hV hH hJ (fun _ _ _ _ _ _ h => h) h
  obtain ⟨x, hx, -⟩ := I.fringe_cov (fun _ _ _ _ _ _ h => h) _ _ trivial (I.root π k trivial hs)
  simp [he] at hx

/-- **C02**, for heuristics that may also discard nodes whose solutions all have total costs (with `c = 1`) or size
violating `B`: after "Proven unsolvable", there is no solution that meets `B`. -/
theorem C02_unsolvable_below (hP : P.WF) (hcfg : cfg.Ok) (hF : FringeOK E f0 items eval) {c : Nat}
    {B : Nat → Nat → Prop} (hB : ∀ a b x y, a ≤ b → x ≤ y → B b y → B a x)
    (hK : Keeps P cfg E eval K Q J) (hV : VisSound P cfg E v0 Q c) (hH : HeurSafe P cfg E K J B c)
    (hJ : HeurInv P cfg E K J hs0)
    {fuel s'} (h : search P cfg E fuel v0 f0 hs0 = some (.unsolvable, s')) :
    ∀ π k, IsSolutionN P π k → ¬ B (c * P.planCost π) (k + π.length) := by
  intro π k hs hb
  obtain ⟨closed, hist, I, he⟩ := search_post hP hcfg hF hK hV hH hJ hB h
  obtain ⟨x, hx, -⟩ := I.fringe_cov hB _ _ (by simpa using hb) (I.root π k hb hs)
  simp [he] at hx

/-- **C06** (search level).  Every expansion is defined: if the time limit is noticed from some
iteration on, the search ends with one of the three results.  In particular no call of
`apply` or `decompose` made by the search runs into undefined behaviour or fails to terminate. -/
theorem C06_search_terminates (hP : P.WF) (hcfg : cfg.Ok) (hF : FringeOK E f0 items eval)
    (hT : ∃ T, ∀ i, T ≤ i → E.timeUp i = true) :
    ∃ F, ∃ r, ∀ f, F ≤ f → search P cfg E f v0 f0 hs0 = some r := by
  obtain ⟨T, hT⟩ := hT
  obtain ⟨f, r, h⟩ := search_total hP hcfg hF hT v0 hs0
  exact ⟨f, r, fun f' hf => loop_mono _ _ _ hf _ h⟩

/-- **C07** (reported solution).  The reported cost is the cost of the printed plan and the
reported length is the number of actions plus the number of decompositions, where that many
decompositions indeed lead to the plan. -/
theorem C07_reported_costs (hP : P.WF) (hcfg : cfg.Ok) (hF : FringeOK E f0 items eval)
    {fuel n s'} (h : search P cfg E fuel v0 f0 hs0 = some (.solved n, s')) :
    n.node.costs = P.planCost (planOf n.node.sol) ∧
      ∃ k, IsSolutionN P (planOf n.node.sol) k ∧
        n.node.sol.length = (planOf n.node.sol).length + k ∧ n.node.depth = n.node.sol.length := by
  have hs := search_sound hP hcfg hF h
  refine ⟨hs.1.costs, decsOf n.node.sol, hs.isSolution, ?_, hs.1.depth⟩
  generalize n.node.sol = l
  induction l with
  | nil => rfl
  | cons x l ih =>
    obtain ⟨t, m, i, p, q⟩ := x
    cases m with
    | none => rw [planOf_cons_action, decsOf_cons_action]; simp [ih]; omega
    | some m => rw [planOf_cons_method, decsOf_cons_method]; simp [ih]; omega

/-- The first heuristic value. -/
def h0 (x : SNode) : Int := x.hv.headD 0

/-- `f = g + h` with action costs as `g`, and `h` non-negative and admissible. -/
structure AStarQ (P : Problem) (h : Heap) (x : SNode) : Prop where
  f : x.f = some (h0 x + x.node.costs)
  nonneg : 0 ≤ h0 x
  adm : ∀ π k, NodeSol P h x.node π k → h0 x ≤ P.planCost π

/-- **C21**, for heuristics that may discard nodes whose solutions all have total costs or
size violating `B`. -/
theorem C21_astar_optimal_below (hP : P.WF) (hcfg : cfg.Ok) (hF : FringeOK E f0 items eval)
    (hlate : E.subopt = false)
    (hmin : ∀ fr x fr', E.pop fr = some (x, fr') → ∀ y ∈ items fr, ∀ a b, x.f = some a → y.f = some b → a ≤ b)
    {B : Nat → Nat → Prop} (hB : ∀ a b x y, a ≤ b → x ≤ y → B b y → B a x)
    (hK : Keeps P cfg E eval K Q J) (hQ : ∀ h x, Q h x → AStarQ P h x)
    (hV : VisSound P cfg E v0 Q 1) (hH : HeurSafe P cfg E K J B 1) (hJ : HeurInv P cfg E K J hs0)
    {fuel n s'} (h : search P cfg E fuel v0 f0 hs0 = some (.solved n, s')) :
    IsSolution P (planOf n.node.sol) ∧
      ∀ π k, IsSolutionN P π k → B (P.planCost π) (k + π.length) → P.planCost (planOf n.node.sol) ≤ P.planCost π := by
  refine ⟨C01_reported_plan_is_solution hP hcfg hF h, ?_⟩
  intro π k hs hb
  obtain ⟨hsol, hex, -⟩ := search_post hP hcfg hF hK hV hH hJ hB h
  obtain ⟨s0, closed, hist, I, hpop, hg, hq⟩ := hex hlate
  have hb' : B (1 * P.planCost π) (k + π.length) := by rw [Nat.one_mul]; exact hb
  obtain ⟨x, hx, π', k', hs', hc⟩ := I.fringe_cov hB _ _ (by simpa using hb) (I.root π k hb' hs)
  have hqn := hQ _ _ hq
  have hqx := hQ _ _ (I.items_ok x hx).2.1
  have h1 := hmin _ _ _ hpop x hx _ _ hqn.f hqx.f
  have h2 := hqx.adm _ _ hs'
  have h3 := hqn.nonneg
  rw [← hsol.1.costs]
  simp only [Nat.one_mul] at hc
  omega

/-- **C21.**  A* is cost optimal: late goal test, evaluation `f = g + h`, fringe that pops a node
of minimal `f`, non-negative admissible heuristic, and a visited list that rejects a node only
if an accepted one represents it at no higher costs. -/
theorem C21_astar_optimal (hP : P.WF) (hcfg : cfg.Ok) (hF : FringeOK E f0 items eval)
    (hlate : E.subopt = false)
    (hmin : ∀ fr x fr', E.pop fr = some (x, fr') → ∀ y ∈ items fr, ∀ a b, x.f = some a → y.f = some b → a ≤ b)
    (hK : Keeps P cfg E eval K Q J) (hQ : ∀ h x, Q h x → AStarQ P h x)
    (hV : VisSound P cfg E v0 Q 1) (hH : HeurSafe P cfg E K J noBound 1) (hJ : HeurInv P cfg E K J hs0)
    {fuel n s'} (h : search P cfg E fuel v0 f0 hs0 = some (.solved n, s')) :
    IsSolution P (planOf n.node.sol) ∧
      ∀ π, IsSolution P π → P.planCost (planOf n.node.sol) ≤ P.planCost π := by
  obtain ⟨h1, h2⟩ := C21_astar_optimal_below hP hcfg hF hlate hmin (fun _ _ _ _ _ _ h => h) hK hQ hV hH hJ h
  exact ⟨h1, fun π ⟨k, hs⟩ => h2 π k hs trivial⟩

end Verif.Props
