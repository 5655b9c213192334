import Verif.SatPrint
import Verif.Props.SatPlan

/-! # C56: the decomposition printed by the SAT planner -/

namespace Verif.Props

open Verif.Htn Verif.Pdt Verif.Sog Verif.Sat Verif.Inv

/-- C56: the lines that are printed with the plan describe a decomposition of the initial task whose actions are the plan.
The actions have the numbers from 0 on in the order of the plan, the abstract tasks the numbers after them; every line
of an abstract task has one of the methods of the task and, in the order of the method, the lines of the subtasks; the
root has a line; and every other line is a subtask of exactly one line.  A plan is never printed without this. -/
theorem C56_printed_decomposition (P : Problem) (cfg : Cfg) (o : SatOpts) (hin : SatInput P cfg o) (hcf : cfg.compact = false)
    (solve : List Clause → Option Assignment) (hsat : ∀ cs w, solve cs = some w → satAll w cs) (fuel : Nat) :
    (∀ K out, satRun P cfg o solve fuel 1 0 (fun _ => none) = some (K, out) →
      satPlan P cfg o solve fuel = .plan K (out.acts.map Prod.snd) ∧
      IsSolution P (out.acts.map Prod.snd) ∧
      ∃ tr k n j, Valid P P.init tr ∧ HeightLE P tr K ∧ (∃ occ, Linearises P tr occ (out.acts.map Prod.snd)) ∧
        out.root = some k ∧ Reads P cfg.tot out.acts out.decs k tr ∧
        out.acts.map Prod.fst = List.range n ∧ out.decs.map DLine.id = List.range' n j ∧
        (k :: out.decs.flatMap DLine.subs).Perm (List.range (n + j))) ∧
    ∀ K π, satPlan P cfg o solve fuel = .plan K π → ∃ out, satRun P cfg o solve fuel 1 0 (fun _ => none) = some (K, out) := by
  obtain ⟨h1, h2⟩ := satRun_spec hin (fun K => C52_defined P hin.wf cfg hin.conf hcf K) hsat fuel 1 0 (fun _ => none) (vmInv_empty _ _)
  refine ⟨fun K out h => ?_, h2⟩
  obtain ⟨k1, tr, k, n, j, ho⟩ := h1 K out h
  refine ⟨k1, ((C54_plans_are_solutions P cfg o hin hcf solve hsat fuel).2 K _ k1).1, tr, k, n, j, ho.valid, ho.height, ?_, ho.root,
    ho.reads, ho.actIds, ho.decIds, ho.once⟩
  rw [ho.plan]
  exact ⟨_, linearises_canon hin.wf hin.tot ho.valid⟩

/-- Something is printed for the problem of C52. -/
example : ∃ fuel K out, satRun pdtP pdtCfg ⟨fun k => k, .h2, true, none⟩ idealSolver fuel 1 0 (fun _ => none) = some (K, out) := by
  obtain ⟨fuel, K, π, h⟩ := ((C55_stops_at_least_depth _ _ _ (pdt_input .h2 true none) rfl (fun G B h => by simp at h) _
    idealSolver_ok).2.1).2 ⟨[0, 1], pdtP_solution.isSolution, fun a _ => pdtP_noClash a⟩
  exact ⟨fuel, K, (C56_printed_decomposition _ _ _ (pdt_input .h2 true none) rfl _ idealSolver_ok.sat fuel).2 K π h⟩

/-- The output for the decomposition with plan 0, 1, 0, 1 in the tree of depth 3: task 2 is decomposed by method 0 into
action 0 and task 3, that by method 2 into actions 1, 0 and task 3, that by method 1 into action 1. -/
example : satOut pdtP (tree pdtP pdtCfg 3) (assignVars pdtP (tree pdtP pdtCfg 3) (fun _ => false) 0 (fun _ => none)).2
      (fun x => decide (x ∈ [2, 3, 5, 7, 9, 11, 13, 15, 16, 19])) =
    ⟨[(0, 0), (1, 1), (2, 0), (3, 1)], some 4, [⟨4, 2, some 0, [0, 5]⟩, ⟨5, 3, some 2, [1, 2, 6]⟩, ⟨6, 3, some 1, [3]⟩]⟩ := by
  decide +kernel

end Verif.Props
