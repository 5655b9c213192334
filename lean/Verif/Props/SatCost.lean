import Mathlib.Analysis.SpecialFunctions.Log.Basic
import Mathlib.Analysis.Complex.ExponentialBounds
import Verif.SatCost
import Verif.Props.SatPrint

/-! # C58: optimisation of plan costs by the SAT planner -/

namespace Verif.Props

open Verif.Htn Verif.Pdt Verif.Sog Verif.Sat Verif.Inv Relation

/-- C58, the formula: with a bound `B` and factor `F` the plans of the models of the formula for depth `K` are the
solutions of height `K` whose costs, each divided by the factor and rounded down, add up to at most `B / F`. -/
theorem C58_formula_exact (P : Problem) (cfg : Cfg) (o : SatOpts) (hin : SatInput P cfg o) (hcf : cfg.compact = false)
    (hmu : MutexAll P o) (cost : Nat → Nat) (F : Nat) (B : Int) (hB : 0 ≤ B) (K n : Nat) :
    (costDepth P o cost F B (tree P cfg K) n (fun _ => none) = .pruned ∧ ¬ ∃ π, SolutionOfHeight P K π ∧ ∀ a ∈ π, NoClash P a) ∨
    ∃ V n' cs, costDepth P o cost F B (tree P cfg K) n (fun _ => none) = .formula V n' cs ∧
      ∀ π, (∃ w, satAll w cs ∧ printed (tree P cfg K) V w = π) ↔
        SolutionOfHeight P K π ∧ (∀ a ∈ π, NoClash P a) ∧ ((π.map fun a => cost a / F).sum : Int) ≤ B / F := by
  rcases costDepth_spec (cost := cost) (F := F) hin (C52_defined P hin.wf cfg hin.conf hcf K) (vmInv_empty _ n) B with h | ⟨V, n', cs, h, -, hs, hc⟩
  · exact .inl h
  · refine .inr ⟨V, n', cs, h, fun π => ⟨?_, ?_⟩⟩
    · rintro ⟨w, hw, rfl⟩
      obtain ⟨h1, h2, h3⟩ := hs w hw
      exact ⟨h1, h2, h3 hB⟩
    · rintro ⟨h1, h2, h3⟩
      exact hc hmu π h1 h2 (fun _ => h3) (.inl hB)

/-- C58, the loop: it is always defined; every plan it prints is a solution of the given height; the depth never
decreases; a plan printed after a plan whose costs are positive and below 1000 is cheaper than that. -/
theorem C58_plans_improve (P : Problem) (cfg : Cfg) (o : SatOpts) (hin : SatInput P cfg o) (hcf : cfg.compact = false)
    (cost : Nat → Nat) (solve : List Clause → Option Assignment) (hsat : ∀ cs w, solve cs = some w → satAll w cs)
    (fuel K n c : Nat) :
    ∃ l, optLoop P cfg o cost solve fuel K K n (fun _ => none) 1000 ((c : Int) - 1) = some l ∧
      (∀ x ∈ l, K ≤ x.1 ∧ SolutionOfHeight P x.1 x.2) ∧
      l.IsChain fun x y => x.1 ≤ y.1 ∧
        (0 < (x.2.map cost).sum → (x.2.map cost).sum < 1000 → (y.2.map cost).sum < (x.2.map cost).sum) := by
  obtain ⟨l, h1, h2, h3, h4⟩ := optLoop_sound (cost := cost) hin (fun K => C52_defined P hin.wf cfg hin.conf hcf K) hsat fuel K K n
    (fun _ => none) 1000 ((c : Int) - 1) (Nat.le_refl _) (vmInv_empty _ _)
  refine ⟨l, h1, fun x hx => ⟨?_, (h2 x hx).1⟩, h3⟩
  have hle : ∀ (l : List (Nat × List Nat)), l.IsChain (Better cost) → (∀ x ∈ l.head?, K ≤ x.1) → ∀ x ∈ l, K ≤ x.1 := by
    intro l
    induction l with
    | nil => intro _ _ x hx; simp at hx
    | cons y l ih =>
      intro hc hh x hx
      rw [List.isChain_cons] at hc
      have hy := hh y (by simp)
      rcases List.mem_cons.1 hx with rfl | hx
      · exact hy
      · exact ih hc.2 (fun z hz => hy.trans (hc.1 z hz).1) x hx
  exact hle l h3 (fun x hx => (h4 x hx).1) x hx

/-- C58, optimality: after a first plan `π0` found at depth `K`, if all solutions cost more than 0 and less than 1000 and
the solver is correct, then from some number of steps on the last printed plan has the least costs of all solutions. -/
theorem C58_last_plan_is_cheapest (P : Problem) (cfg : Cfg) (o : SatOpts) (hin : SatInput P cfg o) (hcf : cfg.compact = false)
    (hmu : MutexAll P o) (cost : Nat → Nat) (solve : List Clause → Option Assignment) (hso : SolverOK solve)
    (hcl : ∀ a, NoClash P a) (hrange : ∀ π, IsSolution P π → 0 < (π.map cost).sum ∧ (π.map cost).sum < 1000)
    (K n : Nat) (π0 : List Nat) (h0 : SolutionOfHeight P K π0) :
    ∃ N, ∀ fuel ≥ N, ∃ l x,
      optLoop P cfg o cost solve fuel K K n (fun _ => none) 1000 (((π0.map cost).sum : Int) - 1) = some l ∧
      l.getLast? = some x ∧ IsSolution P x.2 ∧ ∀ π, IsSolution P π → (x.2.map cost).sum ≤ (π.map cost).sum := by
  have hst := fun K => C52_defined P hin.wf cfg hin.conf hcf K
  classical
  have hex : ∃ c, ∃ π, IsSolution P π ∧ (π.map cost).sum = c := ⟨_, π0, h0.isSolution, rfl⟩
  obtain ⟨πs, hs, hc⟩ := Nat.find_spec hex
  have hmin : ∀ π, IsSolution P π → sumCost cost πs ≤ sumCost cost π := by
    intro π hπ
    show (πs.map cost).sum ≤ (π.map cost).sum
    rw [hc]
    exact Nat.find_min' hex ⟨π, hπ, rfl⟩
  obtain ⟨hp0, hl0⟩ := hrange π0 h0.isSolution
  have hw : Within cost 1000 (((π0.map cost).sum : Int) - 1) π0 := by
    intro _
    have : sumCost (fun a => cost a / 1000) π0 = 0 := by
      unfold sumCost
      rw [List.sum_eq_zero_iff]
      intro x hx
      obtain ⟨a, ha, rfl⟩ := List.mem_map.1 hx
      have := List.single_le_sum (l := π0.map cost) (by simp) (cost a) (List.mem_map_of_mem ha)
      exact Nat.div_eq_of_lt (by omega)
    rw [this]
    exact Int.ediv_nonneg (by omega) (by simp)
  rcases optLoop_step (cost := cost) hin hst hso.sat (Nat.le_refl K) (vmInv_empty (tree P cfg K) n) 1000 (((π0.map cost).sum : Int) - 1)
    with ⟨n', V', -, -, h3⟩ | ⟨n', π, g1, -, -, g4⟩
  · exact absurd ⟨π0, h0, fun a _ => hcl a, hw⟩ (h3 hmu hso (.inl (by omega)))
  · have hr := hrange π g1.isSolution
    have hge := hmin π g1.isSolution
    have hlt : sumCost cost π < 1000 := hr.2
    obtain ⟨N, hN⟩ := optLoop_optimal (cost := cost) hin hst hmu hso hs (fun a _ => hcl a) (hrange πs hs).1 (fun π h _ => hmin π h)
      (sumCost cost π - sumCost cost πs) K K n' (fun _ => none) (Nat.le_refl _) (vmInv_empty _ _)
    refine ⟨N + 1, fun f hf => ?_⟩
    obtain ⟨f', rfl⟩ : ∃ f', f = f' + 1 := ⟨f - 1, by omega⟩
    obtain ⟨l, k1, k2, k3⟩ := hN f' (by omega)
    have hbb : ((sumCost cost π : Int) - ((1 : Nat) : Int)) = (sumCost cost πs : Int) + ((sumCost cost π - sumCost cost πs : Nat) : Int) - 1 := by
      push_cast [Nat.cast_sub hge]
      omega
    have hl : optLoop P cfg o cost solve (f' + 1) K K n (fun _ => none) 1000 (((π0.map cost).sum : Int) - 1) = some ((K, π) :: l) := by
      rw [g4 f', if_pos hlt, hbb, k1]
      rfl
    by_cases hb : sumCost cost π - sumCost cost πs = 0
    · refine ⟨_, (K, π), hl, by rw [k2 hb]; rfl, g1.isSolution, fun π' h' => ?_⟩
      have := hmin π' h'
      show sumCost cost π ≤ sumCost cost π'
      omega
    · obtain ⟨x, hx, hx1, hx2⟩ := k3 hb
      refine ⟨_, x, hl, by rw [List.getLast?_cons, hx]; rfl, hx1, fun π' h' => ?_⟩
      show sumCost cost x.2 ≤ sumCost cost π'
      rw [hx2]
      exact hmin π' h'

/-- C58 does not extend to plans without costs: after a plan of cost 0 the bound is 0 - 1, which excludes nothing; for
every solution there is a correct solver with which it is the next plan, however expensive it is. -/
theorem C58_zero_cost_violated (P : Problem) (cfg : Cfg) (o : SatOpts) (hin : SatInput P cfg o) (hcf : cfg.compact = false)
    (hmu : MutexAll P o) (cost : Nat → Nat) (K n : Nat) (π : List Nat) (hπ : SolutionOfHeight P K π) (hcl : ∀ a ∈ π, NoClash P a) :
    ∃ solve, SolverOK solve ∧ optLoop P cfg o cost solve 1 K K n (fun _ => none) 1 (((0 : Nat) : Int) - ((1 : Nat) : Int)) = some [(K, π)] := by
  rcases costDepth_spec (cost := cost) (F := 1) hin (C52_defined P hin.wf cfg hin.conf hcf K) (vmInv_empty _ n) (((0 : Nat) : Int) - ((1 : Nat) : Int)) with
    ⟨-, h⟩ | ⟨V, n', cs, h, -, -, hc⟩
  · exact absurd ⟨π, hπ, hcl⟩ h
  · obtain ⟨w, hw, hp⟩ := hc hmu π hπ hcl (fun h => by simp at h) (.inr ⟨rfl, by simp⟩)
    refine ⟨fun cs' => if cs' = cs then some w else idealSolver cs', ⟨fun cs' w' h' => ?_, fun cs' h' => ?_⟩, ?_⟩
    · split_ifs at h' with he
      · cases h'; rw [he]; exact hw
      · exact idealSolver_ok.sat cs' w' h'
    · split_ifs at h' with he
      exact idealSolver_ok.unsat cs' h'
    · rw [optLoop, h]
      simp only [if_true]
      rw [hp]
      rfl

/-! ## The logarithms of the costs -/

/-- The costs that are used for the optimisation (sat_planner.cpp 1081-1086). -/
noncomputable def logCost (c : Nat) : Nat := if c = 0 then 0 else ⌊1 + Real.log c⌋₊

theorem logCost_two : logCost 2 = 1 := by
  unfold logCost
  rw [if_neg (by decide), Nat.floor_eq_iff (by have := Real.log_nonneg (x := ((2 : Nat) : ℝ)) (by norm_num); linarith)]
  have h1 := Real.log_nonneg (x := ((2 : Nat) : ℝ)) (by norm_num)
  have h2 : Real.log ((2 : Nat) : ℝ) < 1 := by
    rw [Real.log_lt_iff_lt_exp (by norm_num)]
    have := Real.exp_one_gt_d9
    push_cast
    linarith
  push_cast at *
  constructor <;> linarith

theorem logCost_seven : logCost 7 = 2 := by
  unfold logCost
  rw [if_neg (by decide), Nat.floor_eq_iff (by have := Real.log_nonneg (x := ((7 : Nat) : ℝ)) (by norm_num); linarith)]
  have h1 : (1 : ℝ) ≤ Real.log ((7 : Nat) : ℝ) := by
    rw [Real.le_log_iff_exp_le (by norm_num)]
    have := Real.exp_one_lt_d9
    push_cast
    linarith
  have h2 : Real.log ((7 : Nat) : ℝ) < 2 := by
    rw [Real.log_lt_iff_lt_exp (by norm_num)]
    have h := Real.exp_one_gt_d9
    have : Real.exp 2 = Real.exp 1 * Real.exp 1 := by rw [← Real.exp_add]; norm_num
    rw [this]
    push_cast
    nlinarith
  push_cast at *
  constructor <;> linarith

/-- Action 0 costs 7, action 1 costs 2; both add fact 0.  The initial task 2 is decomposed into 0 or into 1, 1, 1. -/
def costP : Problem where
  numFacts := 1
  prim := fun t => decide (t < 2)
  prec := fun _ => []
  add := fun a => if a < 2 then [0] else []
  del := fun _ => []
  cost := fun a => if a = 0 then 7 else 2
  numMethods := 2
  head := fun _ => 2
  sub := fun m => if m = 0 then [0] else [1, 1, 1]
  ord := fun m => if m = 0 then [] else [(0, 1), (1, 2)]
  init := 2
  s0 := []
  goal := [0]

/-- Its configuration. -/
def costCfg : Cfg where
  tot := fun m => if m = 0 then [0] else [0, 1, 2]
  compact := false
  sortM := List.insertionSort fun a b => (costP.sub b.1).length ≤ (costP.sub a.1).length

theorem cost_input (mode : Mode) (compress : Bool) : SatInput costP costCfg ⟨fun k => k, mode, compress, none⟩ := by
  refine ⟨?_, ?_, ?_, ⟨⟨0, by decide, rfl⟩, by decide⟩, fun _ => Nat.lt_two_pow_self.le, rfl⟩
  · refine ⟨?_, ?_, by decide, by decide, by decide, by intro a f h; simp [costP] at h, ?_, by intro a f h; simp [costP] at h,
      by decide, by decide⟩
    · intro m hm i j h
      match m, hm with
      | 0, _ => simp [costP] at h
      | 1, _ => simp [costP] at h ⊢; omega
    · intro m hm
      refine ⟨id, fun i j h => ?_⟩
      match m, hm with
      | 0, _ => simp [costP] at h
      | 1, _ => simp [costP] at h ⊢; omega
    · intro a f hf
      simp only [costP] at hf ⊢
      split_ifs at hf <;> simp at hf
      omega
  · have hsort : SortOK costP costCfg.sortM := by
      intro l
      refine ⟨List.perm_insertionSort _ _, ?_⟩
      have : Std.Total fun a b : Nat × Nat × Nat => (costP.sub b.1).length ≤ (costP.sub a.1).length := ⟨fun a b => Nat.le_total _ _⟩
      have : IsTrans (Nat × Nat × Nat) fun a b => (costP.sub b.1).length ≤ (costP.sub a.1).length := ⟨fun a b c h h' => Nat.le_trans h' h⟩
      exact List.pairwise_insertionSort _ _
    refine ⟨by decide, hsort, fun d _ => ?_, fun h => nomatch h⟩
    cases h : (costCfg.sortM (applicable costP d)).map (·.1) with
    | nil => exact Nat.zero_le _
    | cons m ms =>
      show (costP.sub m).length ≤ 65536
      simp only [costP]
      split_ifs <;> simp
  · have h : ∀ m i j, (i, j) ∈ costP.ord m → TransGen (costP.OrdRel m) i j := fun m i j h => .single h
    intro m hm
    match m, hm with
    | 0, _ => exact ⟨by decide, by simp [costCfg]⟩
    | 1, _ =>
      refine ⟨by decide, ?_⟩
      have h1 := h 1 0 1 (by decide)
      have h2 := h 1 1 2 (by decide)
      simpa [costCfg] using ⟨⟨h1, h1.trans h2⟩, h2⟩

theorem costP_leaf {a : Nat} (ha : a < 2) {tr : Tree} (h : Valid costP a tr) : tr = .leaf a := by
  cases h with
  | leaf => rfl
  | node => simp [costP] at ha

/-- It has the solutions `[0]` and `[1, 1, 1]`, both of height 1. -/
theorem costP_solutions (π : List Nat) : (IsSolution costP π ↔ π = [0] ∨ π = [1, 1, 1]) ∧
    (IsSolution costP π → SolutionOfHeight costP 1 π) := by
  have hin := cost_input .none false
  have h1 : SolutionOfHeight costP 1 [0] := by
    rw [solutionOfHeight_iff hin.wf hin.tot]
    refine ⟨.node 0 fun _ => .leaf 0, Valid.node (P := costP) (m := 0) (by decide) fun i t hi => ?_, .node fun i _ => .leaf, by decide, _,
      .cons (by simp [Problem.Applicable, costP]) (.nil _), by simp [Problem.GoalState, Problem.result, costP]⟩
    match i, hi with
    | 0, hi => obtain rfl : 0 = t := by simpa [costP] using hi
               exact .leaf (by decide)
  have h2 : SolutionOfHeight costP 1 [1, 1, 1] := by
    rw [solutionOfHeight_iff hin.wf hin.tot]
    refine ⟨.node 1 fun _ => .leaf 1, Valid.node (P := costP) (m := 1) (by decide) fun i t hi => ?_, .node fun i _ => .leaf, by decide, _,
      .cons (by simp [Problem.Applicable, costP]) (.cons (by simp [Problem.Applicable, costP]) (.cons (by simp [Problem.Applicable, costP])
        (.nil _))), by simp [Problem.GoalState, Problem.result, costP]⟩
    match i, hi with
    | 0, hi => obtain rfl : 1 = t := by simpa [costP] using hi
               exact .leaf (by decide)
    | 1, hi => obtain rfl : 1 = t := by simpa [costP] using hi
               exact .leaf (by decide)
    | 2, hi => obtain rfl : 1 = t := by simpa [costP] using hi
               exact .leaf (by decide)
  have h3 : IsSolution costP π → π = [0] ∨ π = [1, 1, 1] := by
    intro h
    obtain ⟨k, hk⟩ := h.height
    obtain ⟨tr, hv, -, rfl, -⟩ := (solutionOfHeight_iff hin.wf hin.tot).1 (hk k (Nat.le_refl _))
    have hinv : ∀ t, Valid costP t tr → t = 2 → ∃ m cs, m < 2 ∧ tr = .node m cs ∧
        ∀ i t, (costP.sub m)[i]? = some t → Valid costP t (cs i) := by
      intro t h' ht
      cases h' with
      | leaf hp => subst ht; simp [costP] at hp
      | @node m cs hm hc => exact ⟨m, cs, hm, rfl, hc⟩
    obtain ⟨m, cs, hm, rfl, hc⟩ := hinv _ hv rfl
    match m, hm with
    | 0, _ =>
      left
      have h0 := costP_leaf (by decide) (hc 0 0 rfl)
      simp [yield, costCfg, h0]
    | 1, _ =>
      right
      have h0 := costP_leaf (by decide) (hc 0 1 rfl)
      have h1 := costP_leaf (by decide) (hc 1 1 rfl)
      have h2 := costP_leaf (by decide) (hc 2 1 rfl)
      simp [yield, costCfg, h0, h1, h2]
  refine ⟨⟨h3, ?_⟩, fun h => ?_⟩
  · rintro (rfl | rfl)
    · exact h1.isSolution
    · exact h2.isSolution
  · rcases h3 h with rfl | rfl
    · exact h1
    · exact h2

theorem costP_noClash (a : Nat) : NoClash costP a := by
  intro f _
  simp [costP]

/-- The costs of its solutions with the logarithms. -/
theorem costP_costs : (([0].map fun a => logCost (costP.cost a)).sum = 2 ∧ ([1, 1, 1].map fun a => logCost (costP.cost a)).sum = 3) := by
  simp [costP, logCost_two, logCost_seven]

/-- The costs of the problem itself are not minimised, since the planner replaces them by their logarithms: whatever the
correct solver, from some number of steps on the last printed plan is `[0]`, which costs 7, although `[1, 1, 1]` costs 6. -/
theorem C58_true_costs_violated (mode : Mode) (compress : Bool) (solve : List Clause → Option Assignment) (hso : SolverOK solve)
    (n : Nat) (π0 : List Nat) (h0 : SolutionOfHeight costP 1 π0) :
    (∃ N, ∀ fuel ≥ N, ∃ l x, optLoop costP costCfg ⟨fun k => k, mode, compress, none⟩ (fun a => logCost (costP.cost a)) solve fuel 1 1 n
        (fun _ => none) 1000 (((π0.map fun a => logCost (costP.cost a)).sum : Int) - 1) = some l ∧ l.getLast? = some x ∧ x.2 = [0]) ∧
    ([0].map costP.cost).sum = 7 ∧ IsSolution costP [1, 1, 1] ∧ ([1, 1, 1].map costP.cost).sum = 6 := by
  refine ⟨?_, by decide, (costP_solutions _).1.2 (.inr rfl), by decide⟩
  obtain ⟨c1, c2⟩ := costP_costs
  obtain ⟨N, hN⟩ := C58_last_plan_is_cheapest costP costCfg _ (cost_input mode compress) rfl (fun G B h => by simp at h)
    (fun a => logCost (costP.cost a)) solve hso costP_noClash (fun π hπ => by
      rcases (costP_solutions π).1.1 hπ with rfl | rfl
      · rw [c1]; decide
      · rw [c2]; decide) 1 n π0 h0
  refine ⟨N, fun f hf => ?_⟩
  obtain ⟨l, x, h1, h2, h3, h4⟩ := hN f hf
  refine ⟨l, x, h1, h2, ?_⟩
  rcases (costP_solutions x.2).1.1 h3 with h | h
  · exact h
  · have := h4 [0] ((costP_solutions _).1.2 (.inl rfl))
    rw [h, c1, c2] at this
    omega

/-! ## Concrete cases -/

/-- With the costs of the problem itself the last plan would be `[1, 1, 1]`. -/
example (mode : Mode) (compress : Bool) (n : Nat) : ∃ N, ∀ fuel ≥ N, ∃ l x,
    optLoop costP costCfg ⟨fun k => k, mode, compress, none⟩ costP.cost idealSolver fuel 1 1 n (fun _ => none) 1000 (7 - 1) = some l ∧
      l.getLast? = some x ∧ x.2 = [1, 1, 1] := by
  obtain ⟨N, hN⟩ := C58_last_plan_is_cheapest costP costCfg _ (cost_input mode compress) rfl (fun G B h => by simp at h)
    costP.cost idealSolver idealSolver_ok costP_noClash (fun π hπ => by
      rcases (costP_solutions π).1.1 hπ with rfl | rfl <;> decide) 1 n [0] ((costP_solutions _).2 ((costP_solutions _).1.2 (.inl rfl)))
  refine ⟨N, fun f hf => ?_⟩
  obtain ⟨l, x, h1, h2, h3, h4⟩ := hN f hf
  refine ⟨l, x, h1, h2, ?_⟩
  rcases (costP_solutions x.2).1.1 h3 with h | h
  · have := h4 [1, 1, 1] ((costP_solutions _).1.2 (.inr rfl))
    rw [h] at this
    exact absurd this (by decide)
  · exact h

/-- A bound of 6 leaves `[1, 1, 1]`. -/
example : ∃ V n' cs w, costDepth costP ⟨fun k => k, .h2, true, none⟩ costP.cost 1 6 (tree costP costCfg 1) 0 (fun _ => none) = .formula V n' cs ∧
    satAll w cs ∧ printed (tree costP costCfg 1) V w = [1, 1, 1] := by
  have hsol := (costP_solutions [1, 1, 1]).2 ((costP_solutions _).1.2 (.inr rfl))
  rcases C58_formula_exact costP costCfg _ (cost_input .h2 true) rfl (fun G B h => by simp at h) costP.cost 1 6 (by decide) 1 0 with
    ⟨-, h⟩ | ⟨V, n', cs, h, hiff⟩
  · exact absurd ⟨_, hsol, fun a _ => costP_noClash a⟩ h
  · obtain ⟨w, hw, hp⟩ := (hiff [1, 1, 1]).2 ⟨hsol, fun a _ => costP_noClash a, by decide⟩
    exact ⟨V, n', cs, w, h, hw, hp⟩

/-- After a plan without costs a plan of cost 6. -/
example : ∃ solve, SolverOK solve ∧ optLoop costP costCfg ⟨fun k => k, .h2, true, none⟩ costP.cost solve 1 1 1 0 (fun _ => none) 1
    (((0 : Nat) : Int) - ((1 : Nat) : Int)) = some [(1, [1, 1, 1])] :=
  C58_zero_cost_violated costP costCfg _ (cost_input .h2 true) rfl (fun G B h => by simp at h) costP.cost 1 0 _
    ((costP_solutions [1, 1, 1]).2 ((costP_solutions _).1.2 (.inr rfl))) fun a _ => costP_noClash a

end Verif.Props
