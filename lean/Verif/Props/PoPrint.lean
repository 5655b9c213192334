import Verif.PoPrintLoop
import Verif.Props.PoSat

/-! # C86, C87: the decomposition and the order printed by the SAT planner for partially ordered problems -/

namespace Verif.Props

open Verif.Htn Verif.Pdt Verif.Sog Verif.Sat Verif.Inv Relation

/-- C86, partial: the lines that are printed with the plan describe a decomposition of the initial task.  The plan is a
linearisation of it, and each printed action has the number of its leaf; every line of an abstract task has one of the
methods of the task and, in some order, the lines of the subtasks of the method; the root has a line; the numbers of all
lines are those from 0 on; and every line but the one of the root is a subtask of exactly one line.  A plan is never
printed without this.  Assumed in addition to what the statement says: every action has an effect, and no graph of a
vertex has a cycle. -/
theorem C86_printed_decomposition_partial (P : Problem) (cfg : Cfg) (o : SatOpts) (iter : List Nat → List Nat)
    (hin : PoInput P cfg o iter) (hcf : cfg.compact = false) (heff : AllEff P) (hac : ∀ K, AcyclicAll P cfg K)
    (solve : List Clause → Option Assignment) (hsat : ∀ cs w, solve cs = some w → satAll w cs) (fuel : Nat) :
    (∀ K out order, satRunPO P cfg o iter solve fuel 1 0 (fun _ => none) = some (K, out, order) →
      satPlanPO P cfg o iter solve fuel = .plan K (out.acts.map Prod.snd) ∧
      IsSolution P (out.acts.map Prod.snd) ∧
      ∃ tr k n ν occ, Valid P P.init tr ∧ HeightLE P tr K ∧ Linearises P tr occ (out.acts.map Prod.snd) ∧
        out.acts.map Prod.fst = occ.map ν ∧
        out.root = some k ∧ ReadsPO P out.acts out.decs k tr ν ∧
        (out.acts.map Prod.fst ++ out.decs.map DLine.id).Perm (List.range n) ∧
        (k :: out.decs.flatMap DLine.subs).Perm (List.range n)) ∧
    ∀ K π, satPlanPO P cfg o iter solve fuel = .plan K π →
      ∃ out order, satRunPO P cfg o iter solve fuel 1 0 (fun _ => none) = some (K, out, order) := by
  obtain ⟨h1, h2⟩ := satRunPO_spec hin (fun K => C52_defined P hin.wf cfg hin.conf hcf K) heff hac hsat fuel 1 0 (fun _ => none) (vmInv_empty _ _)
  refine ⟨fun K out order h => ?_, h2⟩
  obtain ⟨k1, tr, k, n, ν, occ, ho, -, -⟩ := h1 K out order h
  exact ⟨k1, ((C77_plans_are_solutions_partial P cfg o iter hin hcf heff hac solve hsat fuel).2 K _ k1).1, tr, k, n, ν, occ, ho.valid, ho.height,
    ho.lin, ho.nums, ho.root, ho.reads, ho.ids, ho.once⟩

/-- C87, partial: the printed order.  There is one line for each printed action, in the order of the plan, and it has numbers
of other printed actions.  For a decomposition that the printed lines describe and the numbers of its leaves: if one leaf
has to be executed before another, the line of the first has the number of the second.  The plan keeps the printed order,
and every arrangement of its actions that does is a linearisation of the decomposition.  If the graphs of the vertices
impose no order beyond those of the methods, the line has nothing but what has to be after the action.  Assumed in
addition to what the statement says: every action has an effect, and no graph of a vertex has a cycle. -/
theorem C87_printed_order_partial (P : Problem) (cfg : Cfg) (o : SatOpts) (iter : List Nat → List Nat)
    (hin : PoInput P cfg o iter) (hcf : cfg.compact = false) (heff : AllEff P) (hac : ∀ K, AcyclicAll P cfg K)
    (solve : List Clause → Option Assignment) (hsat : ∀ cs w, solve cs = some w → satAll w cs) (fuel K : Nat) (out : SatOut)
    (order : List (Nat × List Nat)) (h : satRunPO P cfg o iter solve fuel 1 0 (fun _ => none) = some (K, out, order)) :
    order.map Prod.fst = out.acts.map Prod.fst ∧
    (∀ x ys, (x, ys) ∈ order → ∀ y ∈ ys, y ≠ x ∧ y ∈ out.acts.map Prod.fst) ∧
    (out.acts.Pairwise fun x y => ∀ ys, (y.1, ys) ∈ order → x.1 ∉ ys) ∧
    ∃ tr k ν, Valid P P.init tr ∧ out.root = some k ∧ ReadsPO P out.acts out.decs k tr ν ∧
      (∀ q q' a a', LeafAt P tr q a → LeafAt P tr q' a' → Before P tr q q' → ∃ ys, (ν q, ys) ∈ order ∧ ν q' ∈ ys) ∧
      (∀ σ : List (Nat × Nat), σ.Perm out.acts → (σ.Pairwise fun x y => ∀ ys, (y.1, ys) ∈ order → x.1 ∉ ys) →
        ∃ occ, Linearises P tr occ (σ.map Prod.snd) ∧ σ.map Prod.fst = occ.map ν) ∧
      (ExactAll P cfg K → ∀ q q' a a', LeafAt P tr q a → LeafAt P tr q' a' →
        ((∃ ys, (ν q, ys) ∈ order ∧ ν q' ∈ ys) ↔ Before P tr q q')) := by
  obtain ⟨h1, -⟩ := satRunPO_spec hin (fun K => C52_defined P hin.wf cfg hin.conf hcf K) heff hac hsat fuel 1 0 (fun _ => none) (vmInv_empty _ _)
  obtain ⟨-, tr, k, n, ν, occ, ho, hr, hx⟩ := h1 K out order h
  exact ⟨hr.lines, hr.known, hr.plan, tr, k, ν, ho.valid, ho.root, ho.reads, hr.keeps, hr.other, fun he q q' a a' hq hq' =>
    ⟨hx he q q' a a' hq hq', hr.keeps q q' a a' hq hq'⟩⟩

/-! ## Concrete cases -/

/-- A solver that knows one model. -/
def solveWith (t : List Nat) : List Clause → Option Assignment := fun cs => if checkModel t cs then some fun x => t.contains x else none

theorem solveWith_sat (t : List Nat) (cs : List Clause) (w : Assignment) (h : solveWith t cs = some w) : satAll w cs := by
  unfold solveWith at h
  split_ifs at h with hc
  obtain rfl := Option.some.inj h
  exact checkModel_sound hc

/-- The model of the formula for depth 2 that the example of C78 has. -/
def poModel : List Nat := [2, 3, 5, 7, 8, 10, 12, 14, 15, 19, 23, 26, 30, 33, 34, 36, 37, 38, 39, 40, 41, 42, 47, 53, 56, 58, 59, 60, 61, 62,
  63, 64, 65, 74, 78]

set_option maxRecDepth 10000 in
/-- The output for the problem of C78: task 3 is decomposed into action 0 and task 4, that into action 1 and, after it, twice
action 2; the two have the numbers 4 and 5 and are printed in the other order. -/
theorem poP_run : satRunPO poP poCfg poO id (solveWith poModel) 1 2 0 (fun _ => none) =
    some (2, ⟨[(1, 0), (3, 1), (5, 2), (4, 2)], some 0, [⟨0, 3, some 0, [1, 2]⟩, ⟨2, 4, some 1, [3, 4, 5]⟩]⟩,
      [(1, []), (3, [4, 5]), (5, []), (4, [])]) := by
  decide +kernel

/-- The hypotheses are met, and something is printed. -/
example : PoInput poP poCfg poO id ∧ AllEff poP ∧ (∀ K, AcyclicAll poP poCfg K ∧ ExactAll poP poCfg K) ∧
    ∃ K out order, satRunPO poP poCfg poO id idealSolver 2 1 0 (fun _ => none) = some (K, out, order) := by
  have hall := fun K => C76_tame_graphs _ _ poP_input.wf poP_input.conf rfl rfl K (poP_tame K)
  have hm : (clausesAt poP poCfg 2).any (checkModel poModel) = true := by decide +kernel
  have hsz : ∀ k ≤ 2, (tree poP poCfg k).leaves.length ≤ 65536 := by decide +kernel
  obtain ⟨V, n, cs, M, hd, hc⟩ := clausesAt_some hm
  obtain ⟨V', n', cs', M', hd', hiff⟩ := C78_formula_exact_partial _ _ _ _ poP_input rfl poP_eff (poO_mutex _) 2 (hall 2).1 (hall 2).2
    (hsz 2 (Nat.le_refl _))
  rw [hd] at hd'
  obtain ⟨rfl, rfl, rfl, rfl⟩ := FResPO.formula.inj hd'
  have hsol := (hiff _).1 ⟨_, checkModel_sound hc, rfl⟩
  obtain ⟨k, hk, -, h⟩ := C78_stops_at_least_depth_partial _ _ _ _ poP_input rfl poP_eff (poO_mutex _) (fun K => (hall K).1) (fun K => (hall K).2)
    idealSolver idealSolver_ok 2 hsz ⟨_, hsol⟩
  obtain ⟨π, h1, h2⟩ := h 2 (Nat.le_refl _)
  exact ⟨poP_input, poP_eff, hall, k, (C86_printed_decomposition_partial _ _ _ _ poP_input rfl poP_eff (fun K => (hall K).1) idealSolver
    idealSolver_ok.sat 2).2 k π h1⟩

/-- Three methods for the initial task: 0 before 1, 1 before 2, and 2 and 0 in any order.  The goal needs 0 and 2. -/
def freeP : Problem where
  numFacts := 3
  prim := fun t => decide (t < 3)
  prec := fun _ => []
  add := fun a => if a = 0 then [1] else if a = 1 then [2] else if a = 2 then [0] else []
  del := fun _ => []
  cost := fun _ => 1
  numMethods := 3
  head := fun _ => 3
  sub := fun m => if m = 0 then [0, 1] else if m = 1 then [1, 2] else [2, 0]
  ord := fun m => if m = 2 then [] else [(0, 1)]
  init := 3
  s0 := []
  goal := [0, 1]

def freeCfg : Cfg := poCfgOf freeP (fun _ => [0, 1]) fun m => m != 2

theorem freeP_input : PoInput freeP freeCfg poO id := by
  refine ⟨⟨?_, ?_, by decide, by decide, by decide, ?_, ?_, ?_, by decide, by decide⟩,
    poCfgOf_ok _ _ _ (by decide) (by decide) (by decide) (by decide), ⟨⟨0, by decide, rfl⟩, by decide⟩, fun k => Nat.lt_two_pow_self.le, rfl,
    fun l => .refl l⟩
  · have : ∀ m < freeP.numMethods, ∀ e ∈ freeP.ord m, e.1 < (freeP.sub m).length ∧ e.2 < (freeP.sub m).length := by decide
    exact fun m hm i j h => this m hm (i, j) h
  · have : ∀ m < freeP.numMethods, ∀ e ∈ freeP.ord m, e.1 < e.2 := by decide
    exact fun m hm => ⟨id, fun i j h => this m hm (i, j) h⟩
  · intro a f hf
    simp [freeP] at hf
  · intro a f hf
    simp only [freeP] at hf ⊢
    split_ifs at hf <;> simp at hf <;> omega
  · intro a f hf
    simp [freeP] at hf

theorem freeP_eff : AllEff freeP := by
  intro a ha
  simp only [freeP, decide_eq_true_eq] at ha
  match a, ha with
  | 0, _ | 1, _ | 2, _ => rfl

def freeModel : List Nat := [2, 5, 7, 8, 11, 15, 20, 28, 30, 31, 34, 41, 42, 44, 46, 47, 51, 54]

set_option maxRecDepth 10000 in
theorem freeP_run : satRunPO freeP freeCfg poO id (solveWith freeModel) 1 1 0 (fun _ => none) =
    some (1, ⟨[(1, 0), (2, 2)], some 0, [⟨0, 3, some 2, [1, 2]⟩]⟩, [(1, [2]), (2, [])]) := by
  decide +kernel

/-- The numbers of the subtasks in a line are not in the order of the method: the line of the task has method 2 with the
numbers 1 and 2, which are the actions 0 and 2; but the method has the subtasks 2 and 0. -/
theorem C86_method_order_violated : PoInput freeP freeCfg poO id ∧ AllEff freeP ∧
    ∃ solve : List Clause → Option Assignment, (∀ cs w, solve cs = some w → satAll w cs) ∧ ∃ out order,
      satRunPO freeP freeCfg poO id solve 1 1 0 (fun _ => none) = some (1, out, order) ∧
      ∃ l ∈ out.decs, ∃ m, l.meth = some m ∧ ∃ k a, l.subs[0]? = some k ∧ (k, a) ∈ out.acts ∧ (∀ b, (k, b) ∈ out.acts → b = a) ∧
        (freeP.sub m)[0]? ≠ some a :=
  ⟨freeP_input, freeP_eff, solveWith freeModel, solveWith_sat _, _, _, freeP_run, ⟨0, 3, some 2, [1, 2]⟩, by decide, 2, rfl, 1, 0, rfl,
    by decide, by simp, by decide⟩

/-- The printed order may have more than what follows from the decomposition: the line of action 0 has action 2, though the
method that is used has no orderings at all. -/
theorem C87_exact_violated : PoInput freeP freeCfg poO id ∧ AllEff freeP ∧
    ∃ solve : List Clause → Option Assignment, (∀ cs w, solve cs = some w → satAll w cs) ∧ ∃ out order,
      satRunPO freeP freeCfg poO id solve 1 1 0 (fun _ => none) = some (1, out, order) ∧
      (∃ x y ys, (x, ys) ∈ order ∧ y ∈ ys) ∧ ∀ l ∈ out.decs, ∃ m, l.meth = some m ∧ freeP.ord m = [] :=
  ⟨freeP_input, freeP_eff, solveWith freeModel, solveWith_sat _, _, _, freeP_run, ⟨1, 2, [2], by decide, by decide⟩, by
    intro l hl
    simp only [List.mem_singleton] at hl
    subst hl
    exact ⟨2, rfl, rfl⟩⟩

end Verif.Props
