import Verif.SatMain
import Verif.PdtEval
import Verif.Props.SatPrint
import Verif.Props.SatCost

/-! # C90: a whole run of the SAT planner with optimisation of the plan costs, totally ordered problems -/

namespace Verif.Props

open Verif.Htn Verif.Pdt Verif.Sog Verif.Sat Verif.Inv

/-- C90, everything that is printed: a run with optimisation is always defined.  Every output is a solution together with
lines that describe a decomposition for it, no deeper than the depth of the output.  The depths do not decrease, and from
the second output on a plan printed after one whose costs are positive and below 1000 is cheaper than that.  Missing: the
second plan need not be cheaper than the first, see `C90_second_plan_violated`. -/
theorem C90_outputs_partial (P : Problem) (cfg : Cfg) (o : SatOpts) (hin : SatInput P cfg o) (hcf : cfg.compact = false)
    (cost : Nat → Nat) (solve : List Clause → Option Assignment) (hsat : ∀ cs w, solve cs = some w → satAll w cs) (fuel : Nat) :
    ∃ l, satOptRun P cfg o cost solve fuel 1 0 (fun _ => none) = some l ∧
      (∀ x ∈ l, IsSolution P (x.2.acts.map Prod.snd) ∧
        ∃ tr k n j, Valid P P.init tr ∧ HeightLE P tr x.1 ∧ (∃ occ, Linearises P tr occ (x.2.acts.map Prod.snd)) ∧
          x.2.root = some k ∧ Reads P cfg.tot x.2.acts x.2.decs k tr ∧
          x.2.acts.map Prod.fst = List.range n ∧ x.2.decs.map DLine.id = List.range' n j ∧
          (k :: x.2.decs.flatMap DLine.subs).Perm (List.range (n + j))) ∧
      (l.IsChain fun x y => x.1 ≤ y.1) ∧
      l.tail.IsChain fun x y => 0 < ((x.2.acts.map Prod.snd).map cost).sum → ((x.2.acts.map Prod.snd).map cost).sum < 1000 →
        ((y.2.acts.map Prod.snd).map cost).sum < ((x.2.acts.map Prod.snd).map cost).sum := by
  have hst := fun K => C52_defined P hin.wf cfg hin.conf hcf K
  have hC := C56_printed_decomposition P cfg o hin hcf solve hsat fuel
  cases hr : satRun P cfg o solve fuel 1 0 (fun _ => none) with
  | none =>
    exact ⟨[], satOptRun_none fuel 1 0 _ hr (C54_plans_are_solutions P cfg o hin hcf solve hsat fuel).1, by simp, by simp, by simp⟩
  | some r =>
    obtain ⟨K, out⟩ := r
    obtain ⟨s, n, hs, hrun⟩ := satOptRun_some (cost := cost) fuel 1 0 _ K out hr
    have h0 := hC.1 K out hr
    have hrun' := hrun (fuel - s)
    rw [Nat.sub_add_cancel hs] at hrun'
    obtain ⟨l1, k1, k2, k3⟩ := C58_plans_improve P cfg o hin hcf cost solve hsat (fuel - s) K n (sumCost cost out.plan)
    obtain ⟨g1, g2⟩ := outLoop_spec (cost := cost) hin hst hsat (fuel - s) K K n (fun _ => none) 1000
      ((sumCost cost out.plan : Int) - 1) (Nat.le_refl _) (vmInv_empty _ _)
    rw [k1, Option.map_eq_some_iff] at g1
    obtain ⟨l, hl, rfl⟩ := g1
    rw [hl] at hrun'
    have hch := (List.isChain_map _).1 k3
    refine ⟨(K, out) :: l, hrun', ?_, ?_, ?_⟩
    · intro x hx
      rcases List.mem_cons.1 hx with rfl | hx
      · exact ⟨h0.2.1, h0.2.2⟩
      · obtain ⟨tr, k, n, j, ho⟩ := g2 l hl x hx
        refine ⟨(k2 _ (List.mem_map_of_mem hx)).2.isSolution, tr, k, n, j, ho.valid, ho.height, ?_, ho.root, ho.reads, ho.actIds, ho.decIds, ho.once⟩
        rw [ho.plan]
        exact ⟨_, linearises_canon hin.wf hin.tot ho.valid⟩
    · rw [List.isChain_cons]
      exact ⟨fun y hy => (k2 _ (List.mem_map_of_mem (List.mem_of_mem_head? hy))).1, hch.imp fun x y h => h.1⟩
    · exact hch.imp fun x y h => h.2

/-- C90, the last plan: if all solutions cost more than 0 and less than 1000, no action adds and deletes the same fact and
the solver is correct, then for a problem with solutions the last printed plan of a run is, from some number of steps on,
one of the least costs of all solutions; and for one without solutions nothing is ever printed.  Missing: plans without
costs and with costs from 1000 on, and that the planner ends: it searches on after the last plan, without end. -/
theorem C90_last_plan_partial (P : Problem) (cfg : Cfg) (o : SatOpts) (hin : SatInput P cfg o) (hcf : cfg.compact = false)
    (hmu : MutexAll P o) (cost : Nat → Nat) (solve : List Clause → Option Assignment) (hso : SolverOK solve)
    (hcl : ∀ a, NoClash P a) (hrange : ∀ π, IsSolution P π → 0 < (π.map cost).sum ∧ (π.map cost).sum < 1000) :
    ((∃ π, IsSolution P π) → ∃ N, ∀ fuel ≥ N, ∃ l x, satOptRun P cfg o cost solve fuel 1 0 (fun _ => none) = some l ∧
      l.getLast? = some x ∧ IsSolution P (x.2.acts.map Prod.snd) ∧
      ∀ π, IsSolution P π → ((x.2.acts.map Prod.snd).map cost).sum ≤ (π.map cost).sum) ∧
    ((¬ ∃ π, IsSolution P π) → ∀ fuel, satOptRun P cfg o cost solve fuel 1 0 (fun _ => none) = some []) := by
  have hst := fun K => C52_defined P hin.wf cfg hin.conf hcf K
  constructor
  · rintro ⟨π, hπ⟩
    obtain ⟨f0, K, π0, hp⟩ := ((C55_stops_at_least_depth P cfg o hin hcf hmu solve hso).2.1).2 ⟨π, hπ, fun a _ => hcl a⟩
    obtain ⟨hC, hC'⟩ := C56_printed_decomposition P cfg o hin hcf solve hso.sat f0
    obtain ⟨out, hr⟩ := hC' K π0 hp
    have hp' := (hC K out hr).1
    have hh := ((C54_plans_are_solutions P cfg o hin hcf solve hso.sat f0).2 K _ hp').2
    obtain ⟨s, n, -, hrun⟩ := satOptRun_some (cost := cost) f0 1 0 _ K out hr
    obtain ⟨N, hN⟩ := C58_last_plan_is_cheapest P cfg o hin hcf hmu cost solve hso hcl hrange K n _ hh
    refine ⟨N + s, fun fuel hf => ?_⟩
    obtain ⟨l1, x1, k1, k2, k3, k4⟩ := hN (fuel - s) (by omega)
    obtain ⟨g1, -⟩ := outLoop_spec (cost := cost) hin hst hso.sat (fuel - s) K K n (fun _ => none) 1000
      ((sumCost cost out.plan : Int) - 1) (Nat.le_refl _) (vmInv_empty _ _)
    have hrun' := hrun (fuel - s)
    rw [Nat.sub_add_cancel (by omega)] at hrun'
    have e : ((sumCost cost out.plan : Int) - 1) = ((((out.acts.map Prod.snd).map cost).sum : Nat) : Int) - 1 := rfl
    rw [← e] at k1
    rw [k1, Option.map_eq_some_iff] at g1
    obtain ⟨l, hl, rfl⟩ := g1
    rw [hl] at hrun'
    rw [List.getLast?_map, Option.map_eq_some_iff] at k2
    obtain ⟨x, hx, rfl⟩ := k2
    exact ⟨_, x, hrun', by rw [List.getLast?_cons, hx]; rfl, k3, k4⟩
  · intro hno fuel
    refine satOptRun_none fuel 1 0 _ ?_ (C54_plans_are_solutions P cfg o hin hcf solve hso.sat fuel).1
    cases hr : satRun P cfg o solve fuel 1 0 (fun _ => none) with
    | none => rfl
    | some r => exact absurd ⟨_, ((C56_printed_decomposition P cfg o hin hcf solve hso.sat fuel).1 r.1 r.2 hr).2.1⟩ hno

/-- The clauses of a formula. -/
def clausesOf : FRes → List Clause
  | .formula _ _ cs => cs
  | _ => []

/-- The number of variables after a formula. -/
def numVarsOf : FRes → Nat
  | .formula _ n _ => n
  | _ => 0

/-- The options of the case below. -/
def plainOpts : SatOpts := ⟨fun k => k, .none, false, none⟩

set_option maxRecDepth 100000 in
theorem costP_formulas_differ :
    clausesOf (depthFormula costP plainOpts (tree costP costCfg 1) 0 (fun _ => none)) ≠
    clausesOf (costDepth costP plainOpts (fun _ => 1) 1000 0 (tree costP costCfg 1)
      (numVarsOf (depthFormula costP plainOpts (tree costP costCfg 1) 0 (fun _ => none))) (fun _ => none)) := by
  unfold costDepth depthFormula
  rw [prune_eq]
  decide +kernel

/-- The second plan can be more expensive than the first: with all costs 1, which is also 1 plus the logarithm of 1, there
is a correct solver with which `[0]` is printed first and then `[1, 1, 1]`, since the bound 1 - 1 is divided by the factor
1000 and so are the costs. -/
theorem C90_second_plan_violated : ∃ solve out1 out2, SolverOK solve ∧
    satOptRun costP costCfg plainOpts (fun _ => 1) solve 2 1 0 (fun _ => none) = some [(1, out1), (1, out2)] ∧
    out1.acts.map Prod.snd = [0] ∧ out2.acts.map Prod.snd = [1, 1, 1] := by
  have hin : SatInput costP costCfg plainOpts := cost_input .none false
  have hst := C52_defined costP hin.wf costCfg hin.conf rfl 1
  have hmu : MutexAll costP plainOpts := fun G B h => by simp [plainOpts] at h
  have s0 := (costP_solutions [0]).2 ((costP_solutions _).1.2 (.inl rfl))
  have s1 := (costP_solutions [1, 1, 1]).2 ((costP_solutions _).1.2 (.inr rfl))
  have hdiff := costP_formulas_differ
  rcases C55_formula_exact costP costCfg plainOpts hin rfl hmu 1 with ⟨-, h⟩ | ⟨V, n, cs, h, hi⟩
  · exact absurd ⟨_, s0, fun a _ => costP_noClash a⟩ h
  rcases C58_formula_exact costP costCfg plainOpts hin rfl hmu (fun _ => 1) 1000 0 (le_refl _) 1 n with ⟨-, h'⟩ | ⟨V', n', cs', h', hi'⟩
  · exact absurd ⟨_, s0, fun a _ => costP_noClash a⟩ h'
  obtain ⟨w, hw, hp⟩ := (hi [0]).2 ⟨s0, fun a _ => costP_noClash a⟩
  obtain ⟨w', hw', hp'⟩ := (hi' [1, 1, 1]).2 ⟨s1, fun a _ => costP_noClash a, by decide⟩
  rw [h] at hdiff
  simp only [numVarsOf] at hdiff
  rw [h'] at hdiff
  simp only [clausesOf] at hdiff
  obtain ⟨m, c1, c2, hd', rfl⟩ := costDepth_form h'
  have e1 := (depth_out hin hst (vmInv_empty _ _) h w hw).1
  have e2 := (depth_out hin hst (vmInv_empty _ _) hd' w' (satAll_append.1 hw').1).1
  rw [hp] at e1
  rw [hp'] at e2
  refine ⟨fun c => if c = cs then some w else if c = c1 ++ c2 then some w' else idealSolver c, _, _, ⟨fun c v hv => ?_, fun c hv => ?_⟩, ?_, e1, e2⟩
  · split_ifs at hv with g1 g2
    · cases hv; rw [g1]; exact hw
    · cases hv; rw [g2]; exact hw'
    · exact idealSolver_ok.sat c v hv
  · split_ifs at hv
    exact idealSolver_ok.unsat c hv
  · rw [satOptRun, h]
    simp only [if_true]
    rw [show (satOut costP (tree costP costCfg 1) V w).plan = [0] from e1]
    rw [outLoop]
    rw [show ((sumCost (fun _ => 1) [0] : Nat) : Int) - 1 = 0 from rfl, h']
    simp only [if_neg (Ne.symm hdiff), if_true]
    rfl

/-! ## Concrete cases -/

/-- With the costs of the problem the last plan of a run is `[1, 1, 1]`. -/
example (mode : Mode) (compress : Bool) : ∃ N, ∀ fuel ≥ N, ∃ l x,
    satOptRun costP costCfg ⟨fun k => k, mode, compress, none⟩ costP.cost idealSolver fuel 1 0 (fun _ => none) = some l ∧
      l.getLast? = some x ∧ x.2.acts.map Prod.snd = [1, 1, 1] := by
  obtain ⟨N, hN⟩ := (C90_last_plan_partial costP costCfg _ (cost_input mode compress) rfl (fun G B h => by simp at h)
    costP.cost idealSolver idealSolver_ok costP_noClash (fun π hπ => by
      rcases (costP_solutions π).1.1 hπ with rfl | rfl <;> decide)).1 ⟨[0], (costP_solutions _).1.2 (.inl rfl)⟩
  refine ⟨N, fun f hf => ?_⟩
  obtain ⟨l, x, h1, h2, h3, h4⟩ := hN f hf
  refine ⟨l, x, h1, h2, ?_⟩
  rcases (costP_solutions _).1.1 h3 with h | h
  · have := h4 [1, 1, 1] ((costP_solutions _).1.2 (.inr rfl))
    rw [h] at this
    exact absurd this (by decide)
  · exact h

end Verif.Props
