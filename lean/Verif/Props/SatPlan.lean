import Verif.PdtEval
import Verif.SatInvs
import Verif.Props.Pdt

/-! # C54, C55, C57: the SAT planner for totally ordered problems -/

namespace Verif.Props

open Verif.Htn Verif.Pdt Verif.Sog Verif.Sat Verif.Inv

/-! ## C54 -/

/-- C54: whatever satisfying assignments the solver returns, the planner never runs into undefined behaviour, and what it
prints is a solution, with at most as many methods on each path as the depth it announces. -/
theorem C54_plans_are_solutions (P : Problem) (cfg : Cfg) (o : SatOpts) (hin : SatInput P cfg o) (hcf : cfg.compact = false)
    (solve : List Clause → Option Assignment) (hsat : ∀ cs w, solve cs = some w → satAll w cs) (fuel : Nat) :
    satPlan P cfg o solve fuel ≠ .undef ∧
    ∀ K π, satPlan P cfg o solve fuel = .plan K π → IsSolution P π ∧ SolutionOfHeight P K π := by
  obtain ⟨h1, h2⟩ := satLoop_sound hin (fun K => C52_defined P hin.wf cfg hin.conf hcf K) hsat fuel 1 0 (fun _ => none)
    (vmInv_empty _ _)
  exact ⟨h1, fun K π h => ⟨(h2 K π h).1.isSolution, (h2 K π h).1⟩⟩

/-! ## C55 -/

/-- C55: the formula for depth `K` is exact.  The plans that are printed for its models are the solutions with at most `K`
methods on each path whose actions do not add and delete the same fact; if the initial task is pruned there are none. -/
theorem C55_formula_exact (P : Problem) (cfg : Cfg) (o : SatOpts) (hin : SatInput P cfg o) (hcf : cfg.compact = false)
    (hmu : MutexAll P o) (K : Nat) :
    (depthFormula P o (tree P cfg K) 0 (fun _ => none) = .pruned ∧ ¬ ∃ π, SolutionOfHeight P K π ∧ ∀ a ∈ π, NoClash P a) ∨
    ∃ V n cs, depthFormula P o (tree P cfg K) 0 (fun _ => none) = .formula V n cs ∧
      ∀ π, (∃ w, satAll w cs ∧ printed (tree P cfg K) V w = π) ↔ SolutionOfHeight P K π ∧ ∀ a ∈ π, NoClash P a := by
  rcases depth_spec hin (C52_defined P hin.wf cfg hin.conf hcf K) (vmInv_empty (tree P cfg K) 0) with h | ⟨V, n, cs, h, -, h1, h2⟩
  · exact .inl h
  · right
    refine ⟨V, n, cs, h, fun π => ⟨?_, fun ⟨hs, hna⟩ => h2 hmu π hs hna⟩⟩
    rintro ⟨w, hw, rfl⟩
    exact h1 w hw

/-- C55: the planner ends if and only if there is a solution of actions that do not add and delete the same fact, and then
it stops at the least depth for which there is one. -/
theorem C55_stops_at_least_depth (P : Problem) (cfg : Cfg) (o : SatOpts) (hin : SatInput P cfg o) (hcf : cfg.compact = false)
    (hmu : MutexAll P o) (solve : List Clause → Option Assignment) (hso : SolverOK solve) :
    (∀ K, (∃ π, SolutionOfHeight P K π ∧ ∀ a ∈ π, NoClash P a) →
      (∀ k < K, ¬ ∃ π, SolutionOfHeight P k π ∧ ∀ a ∈ π, NoClash P a) →
      ∀ fuel ≥ K, ∃ π, satPlan P cfg o solve fuel = .plan K π ∧ SolutionOfHeight P K π) ∧
    ((∃ fuel K π, satPlan P cfg o solve fuel = .plan K π) ↔ ∃ π, IsSolution P π ∧ ∀ a ∈ π, NoClash P a) ∧
    ((¬ ∃ π, IsSolution P π ∧ ∀ a ∈ π, NoClash P a) → ∀ fuel, satPlan P cfg o solve fuel = .outOfFuel) := by
  have hst := fun K => C52_defined P hin.wf cfg hin.conf hcf K
  have hA : ∀ K, (∃ π, SolutionOfHeight P K π ∧ ∀ a ∈ π, NoClash P a) →
      (∀ k < K, ¬ ∃ π, SolutionOfHeight P k π ∧ ∀ a ∈ π, NoClash P a) →
      ∀ fuel ≥ K, ∃ π, satPlan P cfg o solve fuel = .plan K π ∧ SolutionOfHeight P K π := by
    intro K hex hmin fuel hf
    have hK : K ≠ 0 := by
      rintro rfl
      obtain ⟨π, hπ, -⟩ := hex
      exact no_height_zero hin.wf ⟨π, hπ⟩
    exact satLoop_complete hin hst hmu hso hex hmin fuel 1 0 _ (vmInv_empty _ _) (by omega) (by omega)
  have hB := fun fuel => satLoop_sound hin hst hso.sat fuel 1 0 (fun _ => none) (vmInv_empty _ _)
  have hC : (∃ fuel K π, satPlan P cfg o solve fuel = .plan K π) ↔ ∃ π, IsSolution P π ∧ ∀ a ∈ π, NoClash P a := by
    constructor
    · rintro ⟨fuel, K, π, h⟩
      obtain ⟨h1, h2⟩ := (hB fuel).2 K π h
      exact ⟨π, h1.isSolution, h2⟩
    · rintro ⟨π, hπ, hna⟩
      obtain ⟨K, hK⟩ := hπ.height
      classical
      have hex : ∃ K, ∃ π, SolutionOfHeight P K π ∧ ∀ a ∈ π, NoClash P a := ⟨K, π, hK K (Nat.le_refl _), hna⟩
      obtain ⟨π', h, -⟩ := hA (Nat.find hex) (Nat.find_spec hex) (fun k hk => Nat.find_min hex hk) _ (Nat.le_refl _)
      exact ⟨_, _, π', h⟩
  refine ⟨hA, hC, fun hno fuel => ?_⟩
  cases h : satPlan P cfg o solve fuel with
  | outOfFuel => rfl
  | undef => exact absurd h (hB fuel).1
  | plan K π => exact absurd (hC.1 ⟨fuel, K, π, h⟩) hno

/-- Action 0 adds and deletes fact 0; the initial task 1 is decomposed into it. -/
def clashSatP : Problem where
  numFacts := 1
  prim := fun t => decide (t < 1)
  prec := fun _ => []
  add := fun a => if a = 0 then [0] else []
  del := fun a => if a = 0 then [0] else []
  cost := fun _ => 1
  numMethods := 1
  head := fun _ => 1
  sub := fun _ => [0]
  ord := fun _ => []
  init := 1
  s0 := []
  goal := [0]

/-- Its configuration. -/
def clashSatCfg : Cfg where
  tot := fun _ => [0]
  compact := false
  sortM := id

theorem clashSat_input (o : SatOpts) (hb : ∀ k, k ≤ 2 ^ o.bits k) : SatInput clashSatP clashSatCfg o := by
  refine ⟨?_, ?_, ?_, ⟨⟨0, by decide, rfl⟩, by decide⟩, hb, rfl⟩
  · refine ⟨by intro m _ i j h; simp [clashSatP] at h, fun m _ => ⟨id, fun i j h => by simp [clashSatP] at h⟩, by decide, by decide,
      by decide, by intro a f h; simp [clashSatP] at h, ?_, ?_, by decide, by decide⟩ <;>
    · intro a f hf
      simp only [clashSatP] at hf ⊢
      split_ifs at hf <;> simp at hf
      omega
  · refine ⟨by decide, fun l => ⟨List.Perm.refl _, ?_⟩, fun d _ => ?_, fun h => nomatch h⟩
    · exact List.pairwise_iff_getElem.2 fun _ _ _ _ _ => Nat.le_refl 1
    · cases h : (clashSatCfg.sortM (applicable clashSatP d)).map (·.1) with
      | nil => exact Nat.zero_le _
      | cons m ms => show (clashSatP.sub m).length ≤ 65536; simp [clashSatP]
  · intro m hm
    exact ⟨by simp [clashSatCfg, clashSatP], by simp [clashSatCfg]⟩

/-- C55 without the restriction on the actions fails: the action adds and deletes fact 0, so that the fact is true after
it and `[0]` is a solution, but the formula demands that the fact is both true and false; the planner never ends,
whatever the options. -/
theorem C55_clash_violated (o : SatOpts) (hb : ∀ k, k ≤ 2 ^ o.bits k) (solve : List Clause → Option Assignment)
    (hsat : ∀ cs w, solve cs = some w → satAll w cs) :
    SolutionOfHeight clashSatP 1 [0] ∧ ∀ fuel, satPlan clashSatP clashSatCfg o solve fuel = .outOfFuel := by
  have hin := clashSat_input o hb
  constructor
  · rw [solutionOfHeight_iff hin.wf hin.tot]
    refine ⟨.node 0 fun _ => .leaf 0, Valid.node (P := clashSatP) (m := 0) (by decide) fun i t hi => ?_, .node fun i _ => .leaf, by decide, _,
      .cons (by simp [Problem.Applicable, clashSatP]) (.nil _), by simp [Problem.GoalState, Problem.result, clashSatP]⟩
    have h0 := (List.getElem?_eq_some_iff.1 hi).1
    have : i = 0 := by simpa [clashSatP] using h0
    subst this
    obtain rfl : 0 = t := by simpa [clashSatP] using hi
    exact .leaf (by decide)
  · intro fuel
    obtain ⟨h1, h2⟩ := satLoop_sound hin (fun K => C52_defined _ hin.wf _ hin.conf rfl K) hsat fuel 1 0 (fun _ => none)
      (vmInv_empty _ _)
    cases h : satPlan clashSatP clashSatCfg o solve fuel with
    | outOfFuel => rfl
    | undef => exact absurd h h1
    | plan K π =>
      exfalso
      obtain ⟨h3, h4⟩ := h2 K π h
      obtain ⟨tr, hv, -, hy, s', hex, hg⟩ := (solutionOfHeight_iff hin.wf hin.tot).1 h3
      cases π with
      | nil =>
        cases hex
        exact absurd (hg 0 (by simp [clashSatP])) (by simp [Problem.initState, clashSatP])
      | cons a π =>
        have h5 := h4 a List.mem_cons_self
        cases hex with
        | cons ha _ =>
          by_cases ha0 : a = 0
          · subst ha0
            exact h5 0 (by simp [clashSatP]) (by simp [clashSatP])
          · have hp : clashSatP.prim a = true := by
              have hm : a ∈ yield clashSatCfg.tot tr := by rw [← hy]; exact List.mem_cons_self
              exact yield_prim (P := clashSatP) hin.conf.tot hv a hm
            simp [clashSatP] at hp
            exact ha0 hp

/-- Actions 0, 1; the initial task 2 is decomposed into 0, 3 or 4, 3; task 3 into 1; task 4 has no method. -/
def ubP : Problem where
  numFacts := 1
  prim := fun t => decide (t < 2)
  prec := fun _ => []
  add := fun a => if a = 1 then [0] else []
  del := fun _ => []
  cost := fun _ => 1
  numMethods := 3
  head := fun m => if m = 2 then 3 else 2
  sub := fun m => if m = 0 then [0, 3] else if m = 1 then [4, 3] else [1]
  ord := fun m => if m = 2 then [] else [(0, 1)]
  init := 2
  s0 := []
  goal := [0]

/-- Its configuration. -/
def ubCfg : Cfg where
  tot := fun m => if m = 2 then [0] else [0, 1]
  compact := false
  sortM := List.insertionSort fun a b => (ubP.sub b.1).length ≤ (ubP.sub a.1).length

/-- No pruning by filters, no blocks, no mutexes. -/
def ubO : SatOpts := ⟨fun k => k, .none, false, none⟩

theorem ubP_wf : ubP.WF := by
  refine ⟨?_, fun m _ => ⟨id, fun i j h => ?_⟩, by decide, by decide, by decide, by intro a f h; simp [ubP] at h, ?_,
    by intro a f h; simp [ubP] at h, by decide, by decide⟩
  · intro m hm i j h
    match m, hm with
    | 0, _ => simp [ubP] at h ⊢; omega
    | 1, _ => simp [ubP] at h ⊢; omega
    | 2, _ => simp [ubP] at h
  · simp only [ubP] at h
    split_ifs at h <;> simp at h
    show i < j
    omega
  · intro a f hf
    simp only [ubP] at hf ⊢
    split_ifs at hf <;> simp at hf
    omega

theorem ubP_tot : TotOK ubP ubCfg.tot := by
  intro m hm
  match m, hm with
  | 0, _ => exact ⟨by decide, by simpa [ubCfg] using .single (show (0, 1) ∈ ubP.ord 0 by decide)⟩
  | 1, _ => exact ⟨by decide, by simpa [ubCfg] using .single (show (0, 1) ∈ ubP.ord 1 by decide)⟩
  | 2, _ => exact ⟨by decide, by simp [ubCfg]⟩

set_option maxRecDepth 10000 in
/-- C54 needs the assumption that every abstract task has a method: here `[0, 1]` is a solution of height 2, but at depth 2,
before the solver is called for the first time, the position of action 0 in the children of a vertex is looked up that has
no children. -/
theorem C54_no_methods_violated (solve : List Clause → Option Assignment) (fuel : Nat) :
    SolutionOfHeight ubP 2 [0, 1] ∧ satPlan ubP ubCfg ubO solve (fuel + 2) = .undef := by
  constructor
  · rw [solutionOfHeight_iff ubP_wf ubP_tot]
    refine ⟨.node 0 fun i => if i = 0 then .leaf 0 else .node 2 fun _ => .leaf 1,
      Valid.node (P := ubP) (m := 0) (by decide) fun i t hi => ?_, .node fun i hi => ?_, by decide, _,
      .cons (by simp [Problem.Applicable, ubP]) (.cons (by simp [Problem.Applicable, ubP]) (.nil _)),
      by simp [Problem.GoalState, Problem.result, ubP]⟩
    · match i, hi with
      | 0, hi => obtain rfl : 0 = t := by simpa [ubP] using hi
                 exact .leaf (by decide)
      | 1, hi =>
        obtain rfl : 3 = t := by simpa [ubP] using hi
        refine Valid.node (P := ubP) (m := 2) (by decide) fun i t hi => ?_
        match i, hi with
        | 0, hi => obtain rfl : 1 = t := by simpa [ubP] using hi
                   exact .leaf (by decide)
    · match i, hi with
      | 0, _ => exact .leaf
      | 1, _ => exact .node fun i hi => .leaf
  · have h1 : (match depthFormula ubP ubO (tree ubP ubCfg 1) 0 (fun _ => none) with | .pruned => true | _ => false) = true := by
      unfold depthFormula
      rw [prune_eq]
      decide +kernel
    have h2 : (match depthFormula ubP ubO (tree ubP ubCfg 2) 0 (fun _ => none) with | .undef => true | _ => false) = true := by
      unfold depthFormula
      rw [prune_eq]
      decide +kernel
    unfold satPlan
    rw [satLoop]
    cases h : depthFormula ubP ubO (tree ubP ubCfg 1) 0 (fun _ => none) with
    | undef => simp [h] at h1
    | formula V n cs => simp [h] at h1
    | pruned =>
      simp only
      rw [satLoop]
      cases h : depthFormula ubP ubO (tree ubP ubCfg (1 + 1)) 0 (fun _ => none) with
      | undef => rfl
      | formula V n cs => rw [h] at h2; simp at h2
      | pruned => rw [h] at h2; simp at h2

/-! ## C57 -/

/-- C57: the clauses that are computed from the mutex groups and invariants of the input and by the synthesis of
invariants are about existing facts, and they hold in all states that actions can reach that do not add and delete the
same fact, if the input holds there. -/
theorem C57_clauses_hold (P : Problem) (nA : Nat) (hprim : ∀ a, P.prim a = true → a < nA) (G : Inv.Given) (hG : GivenIn P.numFacts G)
    (hok : ∀ π s, (∀ a ∈ π, P.prim a = true) → Exec P P.initState π s → G.Ok s) (ord : List Int → List Int)
    (hord : ∀ l, (ord l).Perm l) (f1 f2 : Nat) (B : BinInv) (h : globalInvs P nA G ord f1 f2 = some B) (o : SatOpts) :
    MutexAll P { o with mutex := some (G, B) } := by
  intro G' B' ho
  simp only [Option.some.injEq, Prod.mk.injEq] at ho
  obtain ⟨rfl, rfl⟩ := ho
  obtain ⟨h1, h2⟩ := globalInvs_ok hord h
  refine ⟨hG, h1, fun π s hπ hex => ?_⟩
  have hg := hok π s (fun a ha => (hπ a ha).1) hex
  exact ⟨hg, h2 π s (fun a ha => hprim a (hπ a ha).1) (fun a ha => (hπ a ha).2) hex hg⟩

/-- C57: the options do not change the set of plans: whatever the encoding of at-most-one constraints, the pruning, the
blocks and the mutexes, the formulas for the same depth have models with the same printed plans. -/
theorem C57_options_do_not_matter (P : Problem) (cfg : Cfg) (o o' : SatOpts) (hin : SatInput P cfg o) (hin' : SatInput P cfg o')
    (hcf : cfg.compact = false) (hmu : MutexAll P o) (hmu' : MutexAll P o') (K : Nat) (π : List Nat) :
    (∃ V n cs w, depthFormula P o (tree P cfg K) 0 (fun _ => none) = .formula V n cs ∧ satAll w cs ∧
      printed (tree P cfg K) V w = π) ↔
    ∃ V n cs w, depthFormula P o' (tree P cfg K) 0 (fun _ => none) = .formula V n cs ∧ satAll w cs ∧
      printed (tree P cfg K) V w = π := by
  have key : ∀ o, SatInput P cfg o → MutexAll P o → ((∃ V n cs w, depthFormula P o (tree P cfg K) 0 (fun _ => none) = .formula V n cs ∧
      satAll w cs ∧ printed (tree P cfg K) V w = π) ↔ SolutionOfHeight P K π ∧ ∀ a ∈ π, NoClash P a) := by
    intro o hin hmu
    rcases C55_formula_exact P cfg o hin hcf hmu K with ⟨h, hno⟩ | ⟨V, n, cs, h, hiff⟩
    · refine ⟨?_, fun hs => absurd ⟨π, hs⟩ hno⟩
      rintro ⟨V, n, cs, w, h', -⟩
      rw [h] at h'
      simp at h'
    · rw [← hiff]
      constructor
      · rintro ⟨V', n', cs', w, h', hw, hp⟩
        rw [h, FRes.formula.injEq] at h'
        obtain ⟨rfl, rfl, rfl⟩ := h'
        exact ⟨w, hw, hp⟩
      · rintro ⟨w, hw, hp⟩
        exact ⟨V, n, cs, w, h, hw, hp⟩
  rw [key o hin hmu, key o' hin' hmu']

/-! ## Concrete cases -/

/-- A solver that does what is asked. -/
noncomputable def idealSolver (cs : List Clause) : Option Assignment :=
  open Classical in if h : ∃ w, satAll w cs then some h.choose else none

theorem idealSolver_ok : SolverOK idealSolver := by
  classical
  constructor
  · intro cs w h
    unfold idealSolver at h
    split_ifs at h with h'
    cases h
    exact h'.choose_spec
  · intro cs h
    unfold idealSolver at h
    split_ifs at h with h'
    exact h'

/-- All options for the problem of C52. -/
theorem pdt_input (mode : Mode) (compress : Bool) (mu : Option (Inv.Given × BinInv)) :
    SatInput pdtP pdtCfg ⟨fun k => k, mode, compress, mu⟩ :=
  ⟨pdtP_wf, pdtCfg_ok, pdtP_tot, pdtP_allMeth, fun _ => Nat.lt_two_pow_self.le, rfl⟩

/-- The planner finds a plan for it with the pruning of mode h2 and blocks. -/
example : ∃ fuel K π, satPlan pdtP pdtCfg ⟨fun k => k, .h2, true, none⟩ idealSolver fuel = .plan K π :=
  ((C55_stops_at_least_depth _ _ _ (pdt_input .h2 true none) rfl (fun G B h => by simp at h) _ idealSolver_ok).2.1).2
    ⟨[0, 1], pdtP_solution.isSolution, fun a _ => pdtP_noClash a⟩

/-- Facts 0 and 1, of which exactly one is true; action 0 changes to 1, action 1 changes to 0.  The initial task 2 is
decomposed into 0 or into 0, 1, 2. -/
def switchP : Problem where
  numFacts := 2
  prim := fun t => decide (t < 2)
  prec := fun a => if a = 0 then [0] else if a = 1 then [1] else []
  add := fun a => if a = 0 then [1] else if a = 1 then [0] else []
  del := fun a => if a = 0 then [0] else if a = 1 then [1] else []
  cost := fun _ => 1
  numMethods := 2
  head := fun _ => 2
  sub := fun m => if m = 0 then [0] else [0, 1, 2]
  ord := fun m => if m = 0 then [] else [(0, 1), (1, 2)]
  init := 2
  s0 := [0]
  goal := [1]

/-- The variable with the values 0 and 1. -/
def switchG : Inv.Given := ⟨[], [], [], [(0, 1)]⟩

/-- The hypotheses of C57 hold and the computed clauses are those of the variable. -/
example : GivenIn switchP.numFacts switchG ∧
    (∀ π s, (∀ a ∈ π, switchP.prim a = true) → Exec switchP switchP.initState π s → switchG.Ok s) ∧
    (globalInvs switchP 2 switchG id 10 10).map (fun B => (B (-1), B 0)) = some ([-2], [1]) := by
  refine ⟨⟨by simp [switchG, switchP], by simp [switchG], by simp [switchG], by simp [switchG]⟩, fun π s hπ hex => ?_, ?_⟩
  · have key : ∀ π s s', Exec switchP s π s' → (∀ a ∈ π, switchP.prim a = true) → (s 0 ↔ ¬ s 1) → (s' 0 ↔ ¬ s' 1) := by
      intro π s s' h
      induction h with
      | nil => intro _ h; exact h
      | @cons s s' a π ha _ ih =>
        intro hp h
        refine ih (fun b hb => hp b (List.mem_cons_of_mem _ hb)) ?_
        have := hp a List.mem_cons_self
        simp only [switchP, decide_eq_true_eq] at this
        match a, this with
        | 0, _ => simp [Problem.result, switchP]
        | 1, _ => simp [Problem.result, switchP]
    have h0 := key π _ _ hex hπ (by simp [Problem.initState, switchP])
    refine ⟨by simp [switchG], by simp [switchG], by simp [switchG], by simp [switchG], ?_, ?_⟩
    · intro g hg a b h1 h2 h3 h4
      simp only [switchG, List.mem_singleton] at hg
      subst hg
      obtain ⟨rfl, rfl⟩ : a = 0 ∧ b = 1 := by simp only at h1 h2 h3; omega
      exact (h0.1 h4.1) h4.2
    · intro g hg _
      simp only [switchG, List.mem_singleton] at hg
      subst hg
      by_cases h : s 0
      · exact ⟨0, by simp, by simp, h⟩
      · exact ⟨1, by simp, by simp, by by_contra h'; exact h (h0.2 h')⟩
  · decide +kernel

end Verif.Props
