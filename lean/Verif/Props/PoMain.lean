import Verif.PoMain
import Verif.Props.PoCost

/-! # C91: a whole run of the SAT planner with optimisation of the plan costs, partially ordered problems -/

namespace Verif.Props

open Verif.Htn Verif.Pdt Verif.Sog Verif.Sat Verif.Inv

/-- C91, everything that is printed: a run with optimisation is defined as long as the leaves can be numbered with 16 bits.
Every output is a solution together with lines that describe a decomposition for it, no deeper than the depth of the output,
and lines for its order, which the plan keeps and every other arrangement of its actions that keeps it is a linearisation of
the decomposition.  The depths do not decrease, and from the second output on a plan printed after one whose costs are
positive and below 1000 is cheaper than that.  Missing: actions without effects, graphs with cycles (see C77, C86), and the
second plan, see `C91_second_plan_violated`. -/
theorem C91_outputs_partial (P : Problem) (cfg : Cfg) (o : SatOpts) (iter : List Nat → List Nat) (hin : PoInput P cfg o iter)
    (hcf : cfg.compact = false) (heff : AllEff P) (hac : ∀ K, AcyclicAll P cfg K)
    (cost : Nat → Nat) (solve : List Clause → Option Assignment) (hsat : ∀ cs w, solve cs = some w → satAll w cs) (fuel : Nat)
    (hsz : ∀ k ≤ fuel, (tree P cfg k).leaves.length ≤ 65536) :
    ∃ l, satOptRunPO P cfg o iter cost solve fuel 1 0 (fun _ => none) = some l ∧
      (∀ x ∈ l, IsSolution P (x.2.1.acts.map Prod.snd) ∧
        (x.2.1.acts.Pairwise fun y z => ∀ ys, (z.1, ys) ∈ x.2.2 → y.1 ∉ ys) ∧
        ∃ tr k n ν occ, Valid P P.init tr ∧ HeightLE P tr x.1 ∧ Linearises P tr occ (x.2.1.acts.map Prod.snd) ∧
          x.2.1.acts.map Prod.fst = occ.map ν ∧ x.2.1.root = some k ∧ ReadsPO P x.2.1.acts x.2.1.decs k tr ν ∧
          (x.2.1.acts.map Prod.fst ++ x.2.1.decs.map DLine.id).Perm (List.range n) ∧
          (k :: x.2.1.decs.flatMap DLine.subs).Perm (List.range n) ∧
          x.2.2.map Prod.fst = x.2.1.acts.map Prod.fst ∧
          (∀ q q' a a', LeafAt P tr q a → LeafAt P tr q' a' → Before P tr q q' → ∃ ys, (ν q, ys) ∈ x.2.2 ∧ ν q' ∈ ys) ∧
          ∀ σ : List (Nat × Nat), σ.Perm x.2.1.acts → (σ.Pairwise fun y z => ∀ ys, (z.1, ys) ∈ x.2.2 → y.1 ∉ ys) →
            ∃ occ, Linearises P tr occ (σ.map Prod.snd) ∧ σ.map Prod.fst = occ.map ν) ∧
      (l.IsChain fun x y => x.1 ≤ y.1) ∧
      l.tail.IsChain fun x y => 0 < ((x.2.1.acts.map Prod.snd).map cost).sum → ((x.2.1.acts.map Prod.snd).map cost).sum < 1000 →
        ((y.2.1.acts.map Prod.snd).map cost).sum < ((x.2.1.acts.map Prod.snd).map cost).sum := by
  have hst := fun K => C52_defined P hin.wf cfg hin.conf hcf K
  have hright : ∀ x, RightPO P cfg x → (x.2.1.acts.Pairwise fun y z => ∀ ys, (z.1, ys) ∈ x.2.2 → y.1 ∉ ys) ∧
        ∃ tr k n ν occ, Valid P P.init tr ∧ HeightLE P tr x.1 ∧ Linearises P tr occ (x.2.1.acts.map Prod.snd) ∧
          x.2.1.acts.map Prod.fst = occ.map ν ∧ x.2.1.root = some k ∧ ReadsPO P x.2.1.acts x.2.1.decs k tr ν ∧
          (x.2.1.acts.map Prod.fst ++ x.2.1.decs.map DLine.id).Perm (List.range n) ∧
          (k :: x.2.1.decs.flatMap DLine.subs).Perm (List.range n) ∧
          x.2.2.map Prod.fst = x.2.1.acts.map Prod.fst ∧
          (∀ q q' a a', LeafAt P tr q a → LeafAt P tr q' a' → Before P tr q q' → ∃ ys, (ν q, ys) ∈ x.2.2 ∧ ν q' ∈ ys) ∧
          ∀ σ : List (Nat × Nat), σ.Perm x.2.1.acts → (σ.Pairwise fun y z => ∀ ys, (z.1, ys) ∈ x.2.2 → y.1 ∉ ys) →
            ∃ occ, Linearises P tr occ (σ.map Prod.snd) ∧ σ.map Prod.fst = occ.map ν := by
    rintro x ⟨tr, k, n, ν, occ, ho, hr, -⟩
    exact ⟨hr.plan, tr, k, n, ν, occ, ho.valid, ho.height, ho.lin, ho.nums, ho.root, ho.reads, ho.ids, ho.once, hr.lines, hr.keeps, hr.other⟩
  rcases satOptRunPO_cases (cost := cost) hin hst heff hac hsat fuel 1 0 (fun _ => none) (fun k hk => hsz k (by omega)) (vmInv_empty _ _) with
    ⟨-, h⟩ | ⟨K, out, order, n, h1, h2, -, h4, h5, h6⟩
  · exact ⟨[], h, by simp, by simp, by simp⟩
  · obtain ⟨l1, k1, k2, k3⟩ := C88_plans_improve_partial P cfg o iter hin hcf heff hac cost solve hsat (fuel - (K + 1 - 1)) K n
      (sumCost cost out.plan) (fun k hk => hsz k (by omega))
    obtain ⟨g1, g2⟩ := outLoopPO_spec (cost := cost) hin hst heff hac hsat (fuel - (K + 1 - 1)) K K n (fun _ => none) 1000
      ((sumCost cost out.plan : Int) - 1) (Nat.le_refl _) (vmInv_empty _ _)
    rw [k1, Option.map_eq_some_iff] at g1
    obtain ⟨l, hl, rfl⟩ := g1
    rw [hl] at h6
    have hch := (List.isChain_map _).1 k3
    refine ⟨(K, out, order) :: l, h6, ?_, ?_, ?_⟩
    · intro x hx
      rcases List.mem_cons.1 hx with rfl | hx
      · exact ⟨h4.isSolution, hright _ h5⟩
      · exact ⟨(k2 _ (List.mem_map_of_mem hx)).2.isSolution, hright x (g2 l hl x hx)⟩
    · rw [List.isChain_cons]
      exact ⟨fun y hy => (k2 _ (List.mem_map_of_mem (List.mem_of_mem_head? hy))).1, hch.imp fun x y h => h.1⟩
    · exact hch.imp fun x y h => h.2

/-- C91, the last plan: if all solutions cost more than 0 and at most `C` < 1000, a cheapest one has height `Ks`, no action
adds and deletes the same fact, and the solver is correct, then the last plan of a run of `C + Ks` or more steps is one of
the least costs of all solutions; and for a problem without solutions nothing is ever printed.  Missing: as in C88 and
above; and the planner does not end. -/
theorem C91_last_plan_partial (P : Problem) (cfg : Cfg) (o : SatOpts) (iter : List Nat → List Nat) (hin : PoInput P cfg o iter)
    (hcf : cfg.compact = false) (heff : AllEff P) (hac : ∀ K, AcyclicAll P cfg K) (hexa : ∀ K, ExactAll P cfg K)
    (hmu : MutexAll P o) (cost : Nat → Nat) (solve : List Clause → Option Assignment) (hso : SolverOK solve)
    (hcl : ∀ a, NoClash P a) (C : Nat) (hC : C < 1000) (hrange : ∀ π, IsSolution P π → 0 < (π.map cost).sum ∧ (π.map cost).sum ≤ C)
    (fuel : Nat) (hsz : ∀ k ≤ fuel, (tree P cfg k).leaves.length ≤ 65536) :
    (∀ Ks, (∃ πs, SolutionOfHeight P Ks πs ∧ ∀ π, IsSolution P π → (πs.map cost).sum ≤ (π.map cost).sum) → C + Ks ≤ fuel →
      ∃ l x, satOptRunPO P cfg o iter cost solve fuel 1 0 (fun _ => none) = some l ∧
        l.getLast? = some x ∧ IsSolution P (x.2.1.acts.map Prod.snd) ∧
        ∀ π, IsSolution P π → ((x.2.1.acts.map Prod.snd).map cost).sum ≤ (π.map cost).sum) ∧
    ((¬ ∃ π, IsSolution P π) → satOptRunPO P cfg o iter cost solve fuel 1 0 (fun _ => none) = some []) := by
  have hst := fun K => C52_defined P hin.wf cfg hin.conf hcf K
  have hcases := satOptRunPO_cases (cost := cost) hin hst heff hac hso.sat fuel 1 0 (fun _ => none) (fun k hk => hsz k (by omega)) (vmInv_empty _ _)
  constructor
  · intro Ks hKs hfuel
    obtain ⟨πs, hs, hmin⟩ := hKs
    obtain ⟨k0, hk0, hleast, hplan⟩ := C78_stops_at_least_depth_partial P cfg o iter hin hcf heff hmu hac hexa solve hso Ks
      (fun k hk => hsz k (by omega)) ⟨πs, hs, fun a _ => hcl a⟩
    obtain ⟨π0, hp0, -⟩ := hplan fuel (by omega)
    unfold satPlanPO at hp0
    rcases hcases with ⟨h, -⟩ | ⟨K, out, order, n, h1, h2, h3, h4, h5, h6⟩
    · rw [h] at hp0; simp at hp0
    · rw [h3] at hp0
      simp only [LRes.plan.injEq] at hp0
      obtain ⟨rfl, -⟩ := hp0
      obtain ⟨l1, x1, k1, k2, k3, k4⟩ := C88_last_plan_is_cheapest_partial P cfg o iter hin hcf heff hac hexa hmu cost solve hso hcl C hC hrange
        K n out.plan h4 Ks ⟨πs, hs, hmin⟩ (fuel - (K + 1 - 1)) (by omega) (fun k hk => hsz k (by omega))
      obtain ⟨g1, -⟩ := outLoopPO_spec (cost := cost) hin hst heff hac hso.sat (fuel - (K + 1 - 1)) K K n (fun _ => none) 1000
        ((sumCost cost out.plan : Int) - 1) (Nat.le_refl _) (vmInv_empty _ _)
      have e : ((sumCost cost out.plan : Int) - 1) = (((out.plan.map cost).sum : Nat) : Int) - 1 := rfl
      rw [← e] at k1
      rw [k1, Option.map_eq_some_iff] at g1
      obtain ⟨l, hl, rfl⟩ := g1
      rw [hl] at h6
      rw [List.getLast?_map, Option.map_eq_some_iff] at k2
      obtain ⟨x, hx, rfl⟩ := k2
      exact ⟨_, x, h6, by rw [List.getLast?_cons, hx]; rfl, k3, k4⟩
  · intro hno
    rcases hcases with ⟨-, h⟩ | ⟨K, out, order, n, h1, h2, h3, h4, -⟩
    · exact h
    · exact absurd ⟨_, h4.isSolution⟩ hno

/-! ## The second plan -/

/-- The clauses of a formula. -/
def clausesOfPO : FResPO → List Clause
  | .formula _ _ cs _ => cs
  | _ => []

/-- The number of variables after a formula. -/
def numVarsOfPO : FResPO → Nat
  | .formula _ n _ _ => n
  | _ => 0

set_option maxRecDepth 100000 in
theorem priceP_formulas_differ :
    clausesOfPO (depthFormulaPO priceP priceCfg poO id (tree priceP priceCfg 1) 0 (fun _ => none)) ≠
    clausesOfPO (costDepthPO priceP priceCfg poO id (fun _ => 1) 1000 0 (tree priceP priceCfg 1)
      (numVarsOfPO (depthFormulaPO priceP priceCfg poO id (tree priceP priceCfg 1) 0 (fun _ => none))) (fun _ => none)) := by
  decide +kernel

/-- The second plan can be more expensive than the first: with all costs 1, which is also 1 plus the logarithm of 1, there
is a correct solver with which `[2]` is printed first and then `[1, 0]`. -/
theorem C91_second_plan_violated : ∃ solve out1 out2 order1 order2, SolverOK solve ∧
    satOptRunPO priceP priceCfg poO id (fun _ => 1) solve 2 1 0 (fun _ => none) = some [(1, out1, order1), (1, out2, order2)] ∧
    out1.acts.map Prod.snd = [2] ∧ out2.acts.map Prod.snd = [1, 0] := by
  have hin := priceP_input
  have hst := C52_defined priceP hin.wf priceCfg hin.conf rfl 1
  have hcl : ∀ a, NoClash priceP a := fun a f _ h => by simp [priceP, mixP] at h
  have hsz : (tree priceP priceCfg 1).leaves.length ≤ 65536 := by decide +kernel
  have hdiff := priceP_formulas_differ
  obtain ⟨V, n, cs, M, h, hi⟩ := C78_formula_exact_partial priceP priceCfg poO id hin rfl priceP_eff (poO_mutex _) 1 (priceP_graphs 1).1 (priceP_graphs 1).2 hsz
  obtain ⟨V', n', cs', M', h', hi'⟩ := C88_formula_exact_partial priceP priceCfg poO id hin rfl priceP_eff (poO_mutex _) (fun _ => 1) 1000 0 (le_refl _) 1 n
    (priceP_graphs 1).1 (priceP_graphs 1).2 hsz
  obtain ⟨w, hw, hp⟩ := (hi [2]).2 ⟨priceP_sol.2, fun a _ => hcl a⟩
  obtain ⟨w', hw', hp'⟩ := (hi' [1, 0]).2 ⟨priceP_sol.1, fun a _ => hcl a, by decide⟩
  rw [h] at hdiff
  simp only [numVarsOfPO] at hdiff
  rw [h'] at hdiff
  simp only [clausesOfPO] at hdiff
  obtain ⟨m, c1, c2, hd', rfl⟩ := costDepthPO_form h'
  have e1 := (depthPO_out hin hst priceP_eff (priceP_graphs 1).1 (vmInv_empty _ _) h w hw).1
  have e2 := (depthPO_out hin hst priceP_eff (priceP_graphs 1).1 (vmInv_empty _ _) hd' w' (satAll_append.1 hw').1).1
  rw [hp] at e1
  rw [hp'] at e2
  refine ⟨fun c => if c = cs then some w else if c = c1 ++ c2 then some w' else idealSolver c, _, _,
    orderAt priceP priceCfg id 1 V M w, orderAt priceP priceCfg id 1 V' M' w', ⟨fun c v hv => ?_, fun c hv => ?_⟩, ?_, e1, e2⟩
  · split_ifs at hv with g1 g2
    · cases hv; rw [g1]; exact hw
    · cases hv; rw [g2]; exact hw'
    · exact idealSolver_ok.sat c v hv
  · split_ifs at hv
    exact idealSolver_ok.unsat c hv
  · rw [satOptRunPO, h]
    simp only [if_true]
    rw [e1, outLoopPO, show ((sumCost (fun _ => 1) [2] : Nat) : Int) - 1 = 0 from rfl, h']
    simp only [if_neg (Ne.symm hdiff), if_true]
    rfl

/-! ## Concrete cases -/

/-- The hypotheses of C91 are met: the last plan of a run of 5 steps has actions 0 and 1. -/
example : ∃ l x, satOptRunPO priceP priceCfg poO id priceP.cost idealSolver 5 1 0 (fun _ => none) = some l ∧
    l.getLast? = some x ∧ (x.2.1.acts.map Prod.snd = [0, 1] ∨ x.2.1.acts.map Prod.snd = [1, 0]) ∧
    ∀ y ∈ l, IsSolution priceP (y.2.1.acts.map Prod.snd) := by
  have hsz : ∀ k ≤ 5, (tree priceP priceCfg k).leaves.length ≤ 65536 := by decide +kernel
  have hcl : ∀ a, NoClash priceP a := fun a f _ h => by simp [priceP, mixP] at h
  obtain ⟨l, x, h1, h2, h3, h4⟩ := (C91_last_plan_partial _ _ _ _ priceP_input rfl priceP_eff (fun K => (priceP_graphs K).1)
    (fun K => (priceP_graphs K).2) (poO_mutex _) priceP.cost idealSolver idealSolver_ok hcl 4 (by decide) (fun π hπ => by
      rcases priceP_all π hπ with rfl | rfl | rfl <;> decide) 5 hsz).1 1 ⟨[1, 0], priceP_sol.1, fun π hπ => by
      rcases priceP_all π hπ with rfl | rfl | rfl <;> decide⟩ (by decide)
  obtain ⟨l', k1, k2, -⟩ := C91_outputs_partial _ _ _ _ priceP_input rfl priceP_eff (fun K => (priceP_graphs K).1) priceP.cost idealSolver
    idealSolver_ok.sat 5 hsz
  rw [h1] at k1
  obtain rfl := Option.some.inj k1
  refine ⟨l, x, h1, h2, ?_, fun y hy => (k2 y hy).1⟩
  rcases priceP_all _ h3 with h | h | h
  · exact .inl h
  · exact .inr h
  · have := h4 [1, 0] priceP_sol.1.isSolution
    rw [h] at this
    exact absurd this (by decide)

end Verif.Props
