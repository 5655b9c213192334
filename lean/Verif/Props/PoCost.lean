import Mathlib.Algebra.Order.BigOperators.Group.List
import Verif.PoCost
import Verif.Props.PoPrint

/-! # C88: optimisation of plan costs by the SAT planner, partially ordered problems -/

namespace Verif.Props

open Verif.Htn Verif.Pdt Verif.Sog Verif.Sat Verif.Inv Relation

/-- C88, the formula: if all actions have effects, the graphs impose nothing beyond the methods and there are not too many
leaves, then with a bound `B` and factor `F` the plans of the models of the formula for depth `K` are the solutions of height
`K` whose costs, each divided by the factor and rounded down, add up to at most `B / F`. -/
theorem C88_formula_exact_partial (P : Problem) (cfg : Cfg) (o : SatOpts) (iter : List Nat → List Nat) (hin : PoInput P cfg o iter)
    (hcf : cfg.compact = false) (heff : AllEff P) (hmu : MutexAll P o) (cost : Nat → Nat) (F : Nat) (B : Int) (hB : 0 ≤ B) (K n : Nat)
    (hac : AcyclicAll P cfg K) (hexa : ExactAll P cfg K) (hsz : (tree P cfg K).leaves.length ≤ 65536) :
    ∃ V n' cs M, costDepthPO P cfg o iter cost F B (tree P cfg K) n (fun _ => none) = .formula V n' cs M ∧
      ∀ π, (∃ w, satAll w cs ∧ printedPO (tree P cfg K) V M w = π) ↔
        SolutionOfHeight P K π ∧ (∀ a ∈ π, NoClash P a) ∧ ((π.map fun a => cost a / F).sum : Int) ≤ B / F := by
  have hst := C52_defined P hin.wf cfg hin.conf hcf K
  obtain ⟨V, n', cs, M, h⟩ := costDepthPO_exists (cost := cost) (F := F) hin hst heff hsz (vmInv_empty _ n) B
  obtain ⟨-, hs, hc⟩ := costDepthPO_spec hin hst heff hac (vmInv_empty _ n) B h
  refine ⟨V, n', cs, M, h, fun π => ⟨?_, ?_⟩⟩
  · rintro ⟨w, hw, rfl⟩
    obtain ⟨h1, h2, h3⟩ := hs w hw
    exact ⟨h1, h2, h3 hB⟩
  · rintro ⟨h1, h2, h3⟩
    exact hc hexa hmu π h1 h2 (fun _ => h3) (.inl hB)

/-- C88, the loop: under these assumptions every plan it prints is a solution of the given height; the depth never
decreases; a plan printed after a plan whose costs are positive and below 1000 is cheaper than that. -/
theorem C88_plans_improve_partial (P : Problem) (cfg : Cfg) (o : SatOpts) (iter : List Nat → List Nat) (hin : PoInput P cfg o iter)
    (hcf : cfg.compact = false) (heff : AllEff P) (hac : ∀ K, AcyclicAll P cfg K)
    (cost : Nat → Nat) (solve : List Clause → Option Assignment) (hsat : ∀ cs w, solve cs = some w → satAll w cs)
    (fuel K n c : Nat) (hsz : ∀ k < K + fuel, (tree P cfg k).leaves.length ≤ 65536) :
    ∃ l, optLoopPO P cfg o iter cost solve fuel K K n (fun _ => none) 1000 ((c : Int) - 1) = some l ∧
      (∀ x ∈ l, K ≤ x.1 ∧ SolutionOfHeight P x.1 x.2) ∧
      l.IsChain fun x y => x.1 ≤ y.1 ∧
        (0 < (x.2.map cost).sum → (x.2.map cost).sum < 1000 → (y.2.map cost).sum < (x.2.map cost).sum) := by
  obtain ⟨l, h1, h2, h3, h4⟩ := optLoopPO_sound (cost := cost) hin (fun K => C52_defined P hin.wf cfg hin.conf hcf K) heff hac hsat fuel K K n
    (fun _ => none) 1000 ((c : Int) - 1) hsz (Nat.le_refl _) (vmInv_empty _ _)
  refine ⟨l, h1, fun x hx => ⟨?_, (h2 x hx).1⟩, h3⟩
  have hle : ∀ (l : List (Nat × List Nat)), l.IsChain (Better cost) → (∀ x ∈ l.head?, K ≤ x.1) → ∀ x ∈ l, K ≤ x.1 := by
    intro l
    induction l with
    | nil => intro _ _ x hx; simp at hx
    | cons y l ih =>
      intro hc hh x hx
      rw [List.isChain_cons] at hc
      have hy := hh y (by simp)
      rcases List.mem_cons.1 hx with rfl | hx
      · exact hy
      · exact ih hc.2 (fun z hz => hy.trans (hc.1 z hz).1) x hx
  exact hle l h3 (fun x hx => (h4 x hx).1) x hx

/-- C88, optimality: after a first plan `π0` found at depth `K`, if all solutions cost more than 0 and at most `C` < 1000, a
cheapest one has height `Ks`, and the solver is correct, then after `C + (Ks - K)` or more steps the last printed plan has the
least costs of all solutions. -/
theorem C88_last_plan_is_cheapest_partial (P : Problem) (cfg : Cfg) (o : SatOpts) (iter : List Nat → List Nat) (hin : PoInput P cfg o iter)
    (hcf : cfg.compact = false) (heff : AllEff P) (hac : ∀ K, AcyclicAll P cfg K) (hexa : ∀ K, ExactAll P cfg K)
    (hmu : MutexAll P o) (cost : Nat → Nat) (solve : List Clause → Option Assignment) (hso : SolverOK solve)
    (hcl : ∀ a, NoClash P a) (C : Nat) (hC : C < 1000) (hrange : ∀ π, IsSolution P π → 0 < (π.map cost).sum ∧ (π.map cost).sum ≤ C)
    (K n : Nat) (π0 : List Nat) (h0 : SolutionOfHeight P K π0)
    (Ks : Nat) (hKs : ∃ πs, SolutionOfHeight P Ks πs ∧ ∀ π, IsSolution P π → (πs.map cost).sum ≤ (π.map cost).sum)
    (fuel : Nat) (hfuel : C + (Ks - K) ≤ fuel) (hsz : ∀ k < K + fuel, (tree P cfg k).leaves.length ≤ 65536) :
    ∃ l x, optLoopPO P cfg o iter cost solve fuel K K n (fun _ => none) 1000 (((π0.map cost).sum : Int) - 1) = some l ∧
      l.getLast? = some x ∧ IsSolution P x.2 ∧ ∀ π, IsSolution P π → (x.2.map cost).sum ≤ (π.map cost).sum := by
  have hst := fun K => C52_defined P hin.wf cfg hin.conf hcf K
  obtain ⟨πs, hs, hmin⟩ := hKs
  obtain ⟨hp0, hl0⟩ := hrange π0 h0.isSolution
  have hw : Within cost 1000 (((π0.map cost).sum : Int) - 1) π0 := by
    intro _
    have : sumCost (fun a => cost a / 1000) π0 = 0 := by
      unfold sumCost
      rw [List.sum_eq_zero_iff]
      intro x hx
      obtain ⟨a, ha, rfl⟩ := List.mem_map.1 hx
      have := List.single_le_sum (l := π0.map cost) (by simp) (cost a) (List.mem_map_of_mem ha)
      exact Nat.div_eq_of_lt (by omega)
    rw [this]
    exact Int.ediv_nonneg (by omega) (by simp)
  obtain ⟨f', rfl⟩ : ∃ f', fuel = f' + 1 := ⟨fuel - 1, by omega⟩
  rcases optLoopPO_step (cost := cost) hin hst heff hac hso.sat (hsz K (by omega)) (Nat.le_refl K) (vmInv_empty (tree P cfg K) n) 1000
    (((π0.map cost).sum : Int) - 1) with ⟨n', V', -, -, h3⟩ | ⟨n', π, g1, -, -, g4⟩
  · exact absurd ⟨π0, h0, fun a _ => hcl a, hw⟩ (h3 (hexa K) hmu hso (.inl (by omega)))
  · have hr : 0 < sumCost cost π ∧ sumCost cost π ≤ C := hrange π g1.isSolution
    have hge : sumCost cost πs ≤ sumCost cost π := hmin π g1.isSolution
    have hs0 : 0 < sumCost cost πs := (hrange πs hs.isSolution).1
    have hlt : sumCost cost π < 1000 := by omega
    have hsk : ∀ k ≥ Ks, SolutionOfHeight P k πs := by
      intro k hk
      obtain ⟨tr, k1, k2, k3⟩ := hs
      exact ⟨tr, k1, k2.mono k hk, k3⟩
    obtain ⟨l, k1, k2, k3⟩ := optLoopPO_optimal (cost := cost) hin hst heff hac hexa hmu hso hsk (fun a _ => hcl a) hs0 (fun π h _ => hmin π h)
      f' (sumCost cost π - sumCost cost πs) K K n' (fun _ => none) (fun k hk => hsz k (by omega)) (Nat.le_refl _) (vmInv_empty _ _)
      (fun _ => by omega)
    have hbb : ((sumCost cost π : Int) - ((1 : Nat) : Int)) = (sumCost cost πs : Int) + ((sumCost cost π - sumCost cost πs : Nat) : Int) - 1 := by
      push_cast [Nat.cast_sub hge]
      omega
    have hl : optLoopPO P cfg o iter cost solve (f' + 1) K K n (fun _ => none) 1000 (((π0.map cost).sum : Int) - 1) = some ((K, π) :: l) := by
      rw [g4 f', if_pos hlt, hbb, k1]
      rfl
    by_cases hb : sumCost cost π - sumCost cost πs = 0
    · refine ⟨_, (K, π), hl, by rw [k2 hb]; rfl, g1.isSolution, fun π' h' => ?_⟩
      have : sumCost cost πs ≤ sumCost cost π' := hmin π' h'
      show sumCost cost π ≤ sumCost cost π'
      omega
    · obtain ⟨x, hx, hx1, hx2⟩ := k3 hb
      refine ⟨_, x, hl, by rw [List.getLast?_cons, hx]; rfl, hx1, fun π' h' => ?_⟩
      show sumCost cost x.2 ≤ sumCost cost π'
      rw [hx2]
      exact hmin π' h'

/-! ## Actions without effects -/

/-- The clauses in cost mode. -/
def costClauses (P : Problem) (cfg : Cfg) (n F : Nat) (B : Int) (K : Nat) : Option (List Clause) :=
  match costDepthPO P cfg poO id P.cost F B (tree P cfg K) n (fun _ => none) with
  | .undef => none
  | .formula _ _ cs _ => some cs

/-- A solver that knows some models, and is otherwise perfect. -/
noncomputable def solveKnown (ts : List (List Nat)) (cs : List Clause) : Option Assignment :=
  match ts.find? fun t => checkModel t cs with
  | some t => some fun x => t.contains x
  | none => idealSolver cs

theorem solveKnown_ok (ts : List (List Nat)) : SolverOK (solveKnown ts) := by
  constructor
  · intro cs w h
    unfold solveKnown at h
    cases hf : ts.find? fun t => checkModel t cs with
    | none => rw [hf] at h; exact idealSolver_ok.sat cs w h
    | some t =>
      rw [hf] at h
      obtain rfl := Option.some.inj h
      have := List.find?_some hf
      exact checkModel_sound this
  · intro cs h
    unfold solveKnown at h
    cases hf : ts.find? fun t => checkModel t cs with
    | none => rw [hf] at h; exact idealSolver_ok.unsat cs h
    | some t => rw [hf] at h; simp at h

/-- The initial task is decomposed into twice action 0, which has no effect and costs 1. -/
def twinP : Problem where
  numFacts := 0
  prim := fun t => decide (t < 1)
  prec := fun _ => []
  add := fun _ => []
  del := fun _ => []
  cost := fun _ => 1
  numMethods := 1
  head := fun _ => 1
  sub := fun _ => [0, 0]
  ord := fun _ => []
  init := 1
  s0 := []
  goal := []

def twinCfg : Cfg := poCfgOf twinP (fun _ => [0, 1]) fun _ => false

theorem twinP_input : PoInput twinP twinCfg poO id := by
  refine ⟨⟨?_, ?_, by decide, by decide, by decide, ?_, ?_, ?_, by decide, by decide⟩,
    poCfgOf_ok _ _ _ (by decide) (by decide) (by decide) (by decide), ⟨⟨0, by decide, rfl⟩, by decide⟩, fun k => Nat.lt_two_pow_self.le, rfl,
    fun l => .refl l⟩
  · have : ∀ m < twinP.numMethods, ∀ e ∈ twinP.ord m, e.1 < (twinP.sub m).length ∧ e.2 < (twinP.sub m).length := by decide
    exact fun m hm i j h => this m hm (i, j) h
  · exact fun m hm => ⟨id, fun i j h => by simp [Problem.OrdRel, twinP] at h⟩
  all_goals
    intro a f hf
    simp [twinP] at hf

def twinModels : List (List Nat) := [[35, 25, 29, 28, 31, 30, 24, 22, 20, 19], [58, 59, 55, 54, 44, 48, 47, 50, 49, 43, 41, 39, 38]]

set_option maxRecDepth 10000 in
/-- C88 without the assumption on effects fails: actions without effects may share a position, where their costs count once.
After the plan with twice action 0, which costs 2, the bound is 1; the same plan is printed again and again. -/
theorem C88_effectless_violated : PoInput twinP twinCfg poO id ∧ (∀ K, AcyclicAll twinP twinCfg K ∧ ExactAll twinP twinCfg K) ∧
    ∃ solve, SolverOK solve ∧ optLoopPO twinP twinCfg poO id twinP.cost solve 2 1 1 17 (fun _ => none) 1000 (((2 : Nat) : Int) - 1) =
      some [(1, [0, 0]), (1, [0, 0])] := by
  refine ⟨twinP_input, fun K => C76_tame_graphs _ _ twinP_input.wf twinP_input.conf rfl rfl K fun p d _ => .inr ⟨0, fun m hm hne => ?_⟩,
    solveKnown twinModels, solveKnown_ok _, by decide +kernel⟩
  have : m < 1 := msAt_lt twinP_input.conf m hm
  omega

/-- Actions 0, 1 and 2 without effects cost 1, 2 and 4.  The initial task is decomposed into 0 and 1 in any order or into 2. -/
def mixP : Problem where
  numFacts := 0
  prim := fun t => decide (t < 3)
  prec := fun _ => []
  add := fun _ => []
  del := fun _ => []
  cost := fun a => if a = 0 then 1 else if a = 1 then 2 else 4
  numMethods := 2
  head := fun _ => 3
  sub := fun m => if m = 0 then [0, 1] else [2]
  ord := fun _ => []
  init := 3
  s0 := []
  goal := []

def mixCfg : Cfg := poCfgOf mixP (fun m => if m = 0 then [0, 1] else [0]) fun _ => false

theorem mixP_input : PoInput mixP mixCfg poO id := by
  refine ⟨⟨?_, ?_, by decide, by decide, by decide, ?_, ?_, ?_, by decide, by decide⟩,
    poCfgOf_ok _ _ _ (by decide) (by decide) (by decide) (by decide), ⟨⟨0, by decide, rfl⟩, by decide⟩, fun k => Nat.lt_two_pow_self.le, rfl,
    fun l => .refl l⟩
  · have : ∀ m < mixP.numMethods, ∀ e ∈ mixP.ord m, e.1 < (mixP.sub m).length ∧ e.2 < (mixP.sub m).length := by decide
    exact fun m hm i j h => this m hm (i, j) h
  · exact fun m hm => ⟨id, fun i j h => by simp [Problem.OrdRel, mixP] at h⟩
  all_goals
    intro a f hf
    simp [mixP] at hf

def mixModel : List Nat := [12, 10, 16, 15, 18, 17, 9, 6, 3, 2]

set_option maxRecDepth 10000 in
/-- Nor are all cheaper plans found then: the cost variables of a position exclude that actions with different costs share it.
After the plan with action 2, which costs 4, the bound is 3; the plan with 0 and 1 costs 3, but the formula has no model, even
though the formula without costs has a model for it. -/
theorem C88_effectless_incomplete_violated : PoInput mixP mixCfg poO id ∧ (∀ K, AcyclicAll mixP mixCfg K ∧ ExactAll mixP mixCfg K) ∧
    SolutionOfHeight mixP 1 [0, 1] ∧ (([0, 1].map mixP.cost).sum : Int) ≤ 3 ∧
    (∃ V n' cs M, depthFormulaPO mixP mixCfg poO id (tree mixP mixCfg 1) 0 (fun _ => none) = .formula V n' cs M ∧
      ∃ w, satAll w cs ∧ printedPO (tree mixP mixCfg 1) V M w = [0, 1]) ∧
    ∃ V n' cs M, costDepthPO mixP mixCfg poO id mixP.cost 1 3 (tree mixP mixCfg 1) 0 (fun _ => none) = .formula V n' cs M ∧
      ¬ ∃ w, satAll w cs := by
  refine ⟨mixP_input, fun K => C76_tame_graphs _ _ mixP_input.wf mixP_input.conf rfl rfl K fun p d _ => .inr ⟨0, fun m hm hne i j h => ?_⟩, ?_,
    by decide, ?_, ?_⟩
  · simp [Problem.OrdRel, mixP] at h
  · rw [flat_solution mixP_input.wf (by unfold FlatP; decide)]
    refine ⟨0, by decide, rfl, [0, 1], by decide, ?_, by decide, by decide⟩
    have hcl := closed_ord (P := mixP) (m := 0) (by decide)
    simp only [← hcl]
    decide
  · have h : (match depthFormulaPO mixP mixCfg poO id (tree mixP mixCfg 1) 0 (fun _ => none) with
        | .undef => none
        | .formula V _ cs M => (solveWith mixModel cs).map (printedPO (tree mixP mixCfg 1) V M)) = some [0, 1] := by decide +kernel
    cases hd : depthFormulaPO mixP mixCfg poO id (tree mixP mixCfg 1) 0 (fun _ => none) with
    | undef => rw [hd] at h; simp at h
    | formula V n' cs M =>
      rw [hd] at h
      simp only at h
      cases hs : solveWith mixModel cs with
      | none => rw [hs] at h; simp at h
      | some w =>
        rw [hs] at h
        exact ⟨V, n', cs, M, rfl, w, solveWith_sat _ _ _ hs, Option.some.inj h⟩
  · have h : (costClauses mixP mixCfg 0 1 3 1).any (refute 100) = true := by decide +kernel
    unfold costClauses at h
    cases hd : costDepthPO mixP mixCfg poO id mixP.cost 1 3 (tree mixP mixCfg 1) 0 (fun _ => none) with
    | undef => rw [hd] at h; simp at h
    | formula V n' cs M =>
      rw [hd] at h
      exact ⟨V, n', cs, M, rfl, refute_sound 100 cs h⟩

/-! ## Concrete cases -/

/-- Actions 0, 1 and 2 add fact 0 and cost 1, 2 and 4.  The initial task is decomposed into 0 and 1 in any order or into 2. -/
def priceP : Problem := { mixP with numFacts := 1, add := fun a => if a < 3 then [0] else [], goal := [0] }

def priceCfg : Cfg := poCfgOf priceP (fun m => if m = 0 then [0, 1] else [0]) fun _ => false

theorem priceP_input : PoInput priceP priceCfg poO id := by
  refine ⟨⟨?_, ?_, by decide, by decide, by decide, ?_, ?_, ?_, by decide, by decide⟩,
    poCfgOf_ok _ _ _ (by decide) (by decide) (by decide) (by decide), ⟨⟨0, by decide, rfl⟩, by decide⟩, fun k => Nat.lt_two_pow_self.le, rfl,
    fun l => .refl l⟩
  · have : ∀ m < priceP.numMethods, ∀ e ∈ priceP.ord m, e.1 < (priceP.sub m).length ∧ e.2 < (priceP.sub m).length := by decide
    exact fun m hm i j h => this m hm (i, j) h
  · exact fun m hm => ⟨id, fun i j h => by simp [Problem.OrdRel, priceP, mixP] at h⟩
  · intro a f hf
    simp [priceP, mixP] at hf
  · intro a f hf
    simp only [priceP] at hf ⊢
    split_ifs at hf <;> simp at hf <;> omega
  · intro a f hf
    simp [priceP, mixP] at hf

theorem priceP_eff : AllEff priceP := by
  intro a ha
  simp only [priceP, mixP, decide_eq_true_eq] at ha
  match a, ha with
  | 0, _ | 1, _ | 2, _ => rfl

theorem priceP_graphs (K : Nat) : AcyclicAll priceP priceCfg K ∧ ExactAll priceP priceCfg K :=
  C76_tame_graphs _ _ priceP_input.wf priceP_input.conf rfl rfl K fun p d _ => .inr ⟨0, fun m hm hne i j h => by
    simp [Problem.OrdRel, priceP, mixP] at h⟩

theorem priceP_sol : SolutionOfHeight priceP 1 [1, 0] ∧ SolutionOfHeight priceP 1 [2] := by
  rw [flat_solution priceP_input.wf (by unfold FlatP; decide), flat_solution priceP_input.wf (by unfold FlatP; decide)]
  refine ⟨⟨0, by decide, rfl, [1, 0], by decide, ?_, by decide, by decide⟩, ⟨1, by decide, rfl, [0], by decide, ?_, by decide, by decide⟩⟩
  · have hcl := closed_ord (P := priceP) (m := 0) (by decide)
    simp only [← hcl]
    decide
  · have hcl := closed_ord (P := priceP) (m := 1) (by decide)
    simp only [← hcl]
    decide

theorem priceP_all (π : List Nat) (h : IsSolution priceP π) : π = [0, 1] ∨ π = [1, 0] ∨ π = [2] := by
  obtain ⟨k, hk⟩ := h.height
  obtain ⟨m, hm, -, idx, hp, -, rfl, -⟩ := (flat_solution priceP_input.wf (by unfold FlatP; decide)).1 (hk (k + 1) (by omega))
  have : ∀ m < 2, ∀ idx ∈ (List.range (priceP.sub m).length).permutations', idx.map (fun i => (priceP.sub m).getD i 0) = [0, 1] ∨
      idx.map (fun i => (priceP.sub m).getD i 0) = [1, 0] ∨ idx.map (fun i => (priceP.sub m).getD i 0) = [2] := by decide
  exact this m hm idx (List.mem_permutations'.2 hp)

/-- The hypotheses of C88 are met: after the plan with action 2 a plan with 0 and 1 is printed last. -/
example : ∃ l x, optLoopPO priceP priceCfg poO id priceP.cost idealSolver 4 1 1 0 (fun _ => none) 1000 (4 - 1) = some l ∧
    l.getLast? = some x ∧ (x.2 = [0, 1] ∨ x.2 = [1, 0]) ∧ (∀ y ∈ l, 1 ≤ y.1 ∧ SolutionOfHeight priceP y.1 y.2) := by
  have hsz : ∀ k < 1 + 4, (tree priceP priceCfg k).leaves.length ≤ 65536 := by decide +kernel
  have hcl : ∀ a, NoClash priceP a := fun a f _ h => by simp [priceP, mixP] at h
  obtain ⟨l, x, h1, h2, h3, h4⟩ := C88_last_plan_is_cheapest_partial _ _ _ _ priceP_input rfl priceP_eff (fun K => (priceP_graphs K).1)
    (fun K => (priceP_graphs K).2) (poO_mutex _) priceP.cost idealSolver idealSolver_ok hcl 4 (by decide) (fun π hπ => by
      rcases priceP_all π hπ with rfl | rfl | rfl <;> decide) 1 0 [2] priceP_sol.2 1 ⟨[1, 0], priceP_sol.1, fun π hπ => by
      rcases priceP_all π hπ with rfl | rfl | rfl <;> decide⟩ 4 (by decide) hsz
  obtain ⟨l', k1, k2, -⟩ := C88_plans_improve_partial _ _ _ _ priceP_input rfl priceP_eff (fun K => (priceP_graphs K).1) priceP.cost idealSolver
    idealSolver_ok.sat 4 1 0 4 hsz
  refine ⟨l, x, h1, h2, ?_, ?_⟩
  · rcases priceP_all x.2 h3 with h | h | h
    · exact .inl h
    · exact .inr h
    · have := h4 [1, 0] priceP_sol.1.isSolution
      rw [h] at this
      exact absurd this (by decide)
  · have h1' : optLoopPO priceP priceCfg poO id priceP.cost idealSolver 4 1 1 0 (fun _ => none) 1000 (((4 : Nat) : Int) - 1) = some l := h1
    rw [h1'] at k1
    obtain rfl := Option.some.inj k1
    exact k2

/-- A bound of 3 leaves the plans with 0 and 1. -/
example : ∃ V n' cs M, costDepthPO priceP priceCfg poO id priceP.cost 1 3 (tree priceP priceCfg 1) 0 (fun _ => none) = .formula V n' cs M ∧
    (∃ w, satAll w cs ∧ printedPO (tree priceP priceCfg 1) V M w = [1, 0]) ∧
    ¬ ∃ w, satAll w cs ∧ printedPO (tree priceP priceCfg 1) V M w = [2] := by
  obtain ⟨V, n', cs, M, h, hiff⟩ := C88_formula_exact_partial _ _ _ _ priceP_input rfl priceP_eff (poO_mutex _) priceP.cost 1 3 (by decide) 1 0
    (priceP_graphs 1).1 (priceP_graphs 1).2 (by decide +kernel)
  refine ⟨V, n', cs, M, h, (hiff _).2 ⟨priceP_sol.1, fun a _ f _ h => by simp [priceP, mixP] at h, by decide⟩, fun hw => ?_⟩
  exact absurd ((hiff _).1 hw).2.2 (by decide)

end Verif.Props
