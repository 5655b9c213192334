import Verif.AutomatonTab
import Verif.Props.SymImage

/-! # C71: "Goal reached" of the symbolic planner

`build_automaton` with the BDDs of the planner, for problems whose methods have one or two subtasks.  If it reports that a goal
is reached, there is a plan, and it costs at most what is reported.  The converse does not hold: the search reports that a
solvable problem is unsolvable, reports more than the costs of a cheapest plan, exits because of a "bug", or dereferences
the end of a map.  If a method lists its subtasks in the wrong order, it is executed in the wrong order. -/

namespace Verif.Props

open Verif.Htn Verif.Sas Verif.Sym

/-- What the search is given: methods with one or two subtasks, of which the first is ordered before the second; the actions are
the tasks before `nA`. -/
structure SymInput (P : Problem) (nA : Nat) : Prop where
  wf : P.WF
  prim : ∀ t, P.prim t = true ↔ t < nA
  two : ∀ m < P.numMethods, (P.sub m).length ≤ 2
  ord : ∀ m < P.numMethods, (P.sub m).length = 2 → P.ord m = [(0, 1)]

variable {P : Problem} {vars : List (Nat × Nat)} {nA : Nat}

/-- C71: if the symbolic planner reports that the goal is reached with the costs `k`, the problem has a plan that costs at most
`k`.  Missing: if there is a plan, the planner reports the costs of a cheapest one (which is not the case, see below). -/
theorem C71_goal_reached_partial (hP : SymInput P nA) (hv : SymVarsOK P vars)
    (hinv : ∀ π s, Exec P P.initState π s → Consistent vars s) {fuel k : Nat}
    (h : buildAutomaton (symOps P vars) P nA fuel = some (.goal k)) : ∃ π, IsSolution P π ∧ P.planCost π ≤ k := by
  obtain ⟨a, π, b, h1, h2, h3, h4⟩ := buildAutomaton_sound (symOps_lawful P hv.contig) hP.prim hP.wf.init_abs hP.ord h
  have ht := totOK_two hP.wf.sub_ne hP.two hP.ord
  have hs := hinv _ _ (.nil _)
  obtain ⟨s', e1, e2⟩ := h2.exec hP.wf hv.contig hv.alone hinv (.nil _)
    ((stateBdd_iff hv.contig hP.wf.s0_lt hs _).1 h1)
  obtain ⟨T, e3, e4⟩ := h2.tree ht
  refine ⟨π, ⟨_, T, e3, rfl, ⟨_, e4 ▸ linearises_canon hP.wf ht e3⟩, s', e1, ?_⟩, h4⟩
  rw [partialBdd, val_pair] at h3
  exact (e2.holds hv.contig hP.wf.goal_lt).1 h3

/-! ## The converse does not hold -/

/-- Executions of decompositions on states. -/
abbrev stateTr (P : Problem) (a : Nat) (s s' : State) : Prop := P.Applicable s a ∧ s' = P.result s a

theorem full_exec {t : Nat} {s s' : State} {π : List Nat} (h : Full P (stateTr P) t s π s') : Exec P s π s' := by
  induction h with
  | act _ h =>
    obtain ⟨h1, rfl⟩ := h
    exact .cons h1 (.nil _)
  | one _ _ _ ih => exact ih
  | two _ _ _ _ ih1 ih2 => exact Exec.append' ih1 ih2

theorem full_solution (hP : SymInput P nA) {s' : State} {π : List Nat} (h : Full P (stateTr P) P.init P.initState π s')
    (hg : P.GoalState s') : IsSolution P π := by
  have ht := totOK_two hP.wf.sub_ne hP.two hP.ord
  obtain ⟨T, e3, e4⟩ := h.tree ht
  exact ⟨_, T, e3, rfl, ⟨_, e4 ▸ linearises_canon hP.wf ht e3⟩, s', full_exec h, hg⟩

/-- A problem with one fact, given by lists: the methods are pairs of a task and its subtasks. -/
def symProb (costs : List Nat) (needs dels : List Nat) (ms : List (Nat × List Nat)) (s0 goal : List Nat) : Problem where
  numFacts := 1
  prim := fun t => t < costs.length
  prec := fun a => if a ∈ needs then [0] else []
  add := fun _ => []
  del := fun a => if a ∈ dels then [0] else []
  cost := fun a => costs.getD a 0
  numMethods := ms.length
  head := fun m => (ms.getD m (0, [])).1
  sub := fun m => (ms.getD m (0, [])).2
  ord := fun m => if (ms.getD m (0, [])).2.length = 2 then [(0, 1)] else []
  init := costs.length
  s0 := s0
  goal := goal

/-- The lists describe a problem as the search expects it. -/
def symProbOK (costs : List Nat) (ms : List (Nat × List Nat)) (s0 goal : List Nat) : Bool :=
  (ms.all fun m => decide (costs.length ≤ m.1) && (m.2.length == 1 || m.2.length == 2)) && s0.all (· == 0) && goal.all (· == 0)

theorem symProb_input {costs needs dels : List Nat} {ms : List (Nat × List Nat)} {s0 goal : List Nat}
    (h : symProbOK costs ms s0 goal = true) : SymInput (symProb costs needs dels ms s0 goal) costs.length := by
  simp only [symProbOK, Bool.and_eq_true, List.all_eq_true, decide_eq_true_eq, Bool.or_eq_true, beq_iff_eq] at h
  obtain ⟨⟨h1, h2⟩, h3⟩ := h
  have hm : ∀ m < ms.length, costs.length ≤ (ms.getD m (0, [])).1 ∧ ((ms.getD m (0, [])).2.length = 1 ∨ (ms.getD m (0, [])).2.length = 2) := by
    intro m hm
    have := h1 ms[m] (List.getElem_mem hm)
    simpa [List.getD, List.getElem?_eq_getElem hm] using this
  have hif : ∀ (l : List Nat) a, ∀ f ∈ (if a ∈ l then [0] else []), f < 1 := by
    intro l a f hf
    split at hf <;> simp_all
  exact
    { wf :=
        { ord_lt := by
            intro m _ i j hij
            simp only [symProb] at hij ⊢
            split at hij
            · next e =>
              simp only [List.mem_singleton, Prod.mk.injEq] at hij
              omega
            · cases hij
          ord_acyclic := by
            intro m _
            refine ⟨id, fun i j hij => ?_⟩
            simp only [symProb] at hij
            split at hij
            · simp only [List.mem_singleton, Prod.mk.injEq] at hij
              simp [hij]
            · cases hij
          sub_ne := by
            intro m hm' h
            simp only [symProb] at h hm'
            have := (hm m hm').2
            rw [h] at this
            simp at this
          head_abs := by
            intro m hm'
            have := (hm m hm').1
            simp only [symProb, decide_eq_false_iff_not]
            omega
          init_abs := by simp [symProb]
          prec_lt := fun a => hif needs a
          add_lt := by intro a f hf; cases hf
          del_lt := fun a => hif dels a
          s0_lt := by intro f hf; have := h2 f hf; simp [symProb, this]
          goal_lt := by intro f hf; have := h3 f hf; simp [symProb, this] }
      prim := by intro t; simp [symProb]
      two := by
        intro m hm'
        have := (hm m hm').2
        simp only [symProb]
        omega
      ord := by
        intro m _ h
        simp only [symProb] at h ⊢
        rw [if_pos h] }

theorem symProb_one {costs needs dels : List Nat} {ms : List (Nat × List Nat)} {s0 goal : List Nat}
    (h : symProbOK costs ms s0 goal = true) : OneFact (symProb costs needs dels ms s0 goal) := by
  have hP := symProb_input (needs := needs) (dels := dels) h
  have h1 : ∀ f, f < (symProb costs needs dels ms s0 goal).numFacts → f = 0 := by
    intro f hf
    simp only [symProb] at hf
    omega
  exact ⟨fun t f hf => h1 f (hP.wf.prec_lt t f hf), fun t f hf => h1 f (hP.wf.add_lt t f hf), fun t f hf => h1 f (hP.wf.del_lt t f hf),
    fun f hf => h1 f (hP.wf.s0_lt f hf), fun f hf => h1 f (hP.wf.goal_lt f hf)⟩

theorem symProb_vars (costs needs dels : List Nat) (ms : List (Nat × List Nat)) (s0 goal : List Nat) :
    SymVarsOK (symProb costs needs dels ms s0 goal) oneVar ∧
      ∀ π s, Exec (symProb costs needs dels ms s0 goal) (symProb costs needs dels ms s0 goal).initState π s → Consistent oneVar s := by
  refine ⟨⟨by simp [Contig, symProb], fun a f hf => (by cases hf)⟩, fun π s _ v hv hlt => ?_⟩
  simp only [List.mem_singleton] at hv
  subst hv
  exact absurd hlt (by simp)

/-- A task with a method. -/
theorem full_one {σ : Type} {tr : Nat → σ → σ → Prop} {t u : Nat} {x y : σ} {π : List Nat} (m : Nat) (hm : m < P.numMethods)
    (hh : P.head m = t) (hs : P.sub m = [u]) (h : Full P tr u x π y) : Full P tr t x π y := hh ▸ .one hm hs h

theorem full_two {σ : Type} {tr : Nat → σ → σ → Prop} {t u w : Nat} {x y z : σ} {π ρ : List Nat} (m : Nat) (hm : m < P.numMethods)
    (hh : P.head m = t) (hs : P.sub m = [u, w]) (h : Full P tr u x π y) (h' : Full P tr w y ρ z) : Full P tr t x (π ++ ρ) z :=
  hh ▸ .two hm hs h h'

theorem full_act {a : Nat} {s : State} (hp : P.prim a = true) (h : P.prec a = [] ∨ ∀ f ∈ P.prec a, s f) :
    Full P (stateTr P) a s [a] (P.result s a) := by
  refine .act hp ⟨fun f hf => ?_, rfl⟩
  rcases h with h | h
  · rw [h] at hf; cases hf
  · exact h f hf

/-- The actions 0 (costs 5), 1 (costs 1), 2, 3 (needs a fact that never holds) and 4; the tasks 5 (initial), 6 and 7. -/
def symLostP : Problem := symProb [5, 1, 0, 0, 0] [3] [] [(5, [7, 3]), (5, [1, 6]), (6, [7, 4]), (7, [0, 2])] [] []

/-- C71 (negation): the search reports that a solvable problem is unsolvable.  The task 7 is decomposed in the same state
at the costs 0 and 1.  When action 0 has been executed (costs 5), only the edges are followed that existed at the costs 0; when it
is executed again (costs 6), its result is not new, and nothing is done. -/
theorem C71_incomplete : SymInput symLostP 5 ∧ SymVarsOK symLostP oneVar ∧
    (∀ π s, Exec symLostP symLostP.initState π s → Consistent oneVar s) ∧
    (∃ fuel, buildAutomaton (symOps symLostP oneVar) symLostP 5 fuel = some .unsolvable) ∧ IsSolution symLostP [1, 0, 2, 4] := by
  have hP : SymInput symLostP 5 := symProb_input (costs := [5, 1, 0, 0, 0]) (by decide)
  refine ⟨hP, (symProb_vars _ _ _ _ _ _).1, (symProb_vars _ _ _ _ _ _).2, ⟨30, ?_⟩, ?_⟩
  · rw [run_tab (P := symLostP) (symProb_one (by decide))]
    decide +kernel
  · have h : ∃ s', Full symLostP (stateTr symLostP) 5 symLostP.initState [1, 0, 2, 4] s' := ⟨_, full_two (π := [1]) 1 (by decide) rfl rfl (full_act rfl (.inl rfl))
      (full_two (π := [0, 2]) 2 (by decide) rfl rfl (full_two (π := [0]) 3 (by decide) rfl rfl (full_act rfl (.inl rfl)) (full_act rfl (.inl rfl)))
        (full_act rfl (.inl rfl)))⟩
    exact full_solution hP h.choose_spec (by intro f hf; cases hf)

/-- The same problem with the action 5 (costs 10), which also does the initial task. -/
def symDearP : Problem := symProb [5, 1, 0, 0, 0, 10] [3] [] [(6, [8, 3]), (6, [1, 7]), (7, [8, 4]), (8, [0, 2]), (6, [5])] [] []

/-- C71 (negation): the reported costs are not those of a cheapest plan. -/
theorem C71_not_optimal : SymInput symDearP 6 ∧ (∃ fuel, buildAutomaton (symOps symDearP oneVar) symDearP 6 fuel = some (.goal 10)) ∧
    IsSolution symDearP [1, 0, 2, 4] ∧ symDearP.planCost [1, 0, 2, 4] = 6 := by
  have hP : SymInput symDearP 6 := symProb_input (costs := [5, 1, 0, 0, 0, 10]) (by decide)
  refine ⟨hP, ⟨30, ?_⟩, ?_, by decide⟩
  · rw [run_tab (P := symDearP) (symProb_one (by decide))]
    decide +kernel
  · have h : ∃ s', Full symDearP (stateTr symDearP) 6 symDearP.initState [1, 0, 2, 4] s' := ⟨_, full_two (π := [1]) 1 (by decide) rfl rfl (full_act rfl (.inl rfl))
      (full_two (π := [0, 2]) 2 (by decide) rfl rfl (full_two (π := [0]) 3 (by decide) rfl rfl (full_act rfl (.inl rfl)) (full_act rfl (.inl rfl)))
        (full_act rfl (.inl rfl)))⟩
    exact full_solution hP h.choose_spec (by intro f hf; cases hf)

/-- As `symLostP`, but action 1 costs 6, and the task 8 stands for action 0. -/
def symUndefP : Problem := symProb [5, 6, 0, 0, 0] [3] [] [(5, [7, 3]), (5, [1, 6]), (6, [7, 4]), (7, [8, 2]), (8, [0])] [] []

/-- C71 (negation): the search has undefined behaviour: there are abstract tasks with higher costs left, but no actions, and the end of
the map of the actions is dereferenced (automaton.cpp 1733). -/
theorem C71_undefined : SymInput symUndefP 5 ∧ (∃ fuel, buildAutomaton (symOps symUndefP oneVar) symUndefP 5 fuel = some .undef) ∧
    IsSolution symUndefP [1, 0, 2, 4] := by
  have hP : SymInput symUndefP 5 := symProb_input (costs := [5, 6, 0, 0, 0]) (by decide)
  refine ⟨hP, ⟨30, ?_⟩, ?_⟩
  · rw [run_tab (P := symUndefP) (symProb_one (by decide))]
    decide +kernel
  · have h : ∃ s', Full symUndefP (stateTr symUndefP) 5 symUndefP.initState [1, 0, 2, 4] s' := ⟨_, full_two (π := [1]) 1 (by decide) rfl rfl (full_act rfl (.inl rfl))
      (full_two (π := [0, 2]) 2 (by decide) rfl rfl (full_two (π := [0]) 3 (by decide) rfl rfl
        (full_one 4 (by decide) rfl rfl (full_act rfl (.inl rfl))) (full_act rfl (.inl rfl))) (full_act rfl (.inl rfl)))⟩
    exact full_solution hP h.choose_spec (by intro f hf; cases hf)

/-- The fact holds initially and is the goal; the actions 1 and 4 delete it, action 2 needs it.  Task 7 can be done by action 6. -/
def symBugP : Problem := symProb [1, 4, 1, 2, 2, 0, 20] [2] [1, 4]
  [(7, [0, 8]), (8, [9, 5]), (9, [10]), (9, [1, 10]), (10, [11, 4]), (11, [2, 12]), (12, [3]), (7, [6])] [0] [0]

/-- C71 (negation): the search exits with "state attached to edge is empty ... bug!" (automaton.cpp 1322-1325) although the
problem is solvable. -/
theorem C71_bug_exit : SymInput symBugP 7 ∧ (∃ fuel, buildAutomaton (symOps symBugP oneVar) symBugP 7 fuel = some .bug) ∧
    IsSolution symBugP [6] := by
  have hP : SymInput symBugP 7 := symProb_input (costs := [1, 4, 1, 2, 2, 0, 20]) (by decide)
  refine ⟨hP, ⟨40, ?_⟩, ?_⟩
  · rw [run_tab (P := symBugP) (symProb_one (by decide))]
    decide +kernel
  · refine full_solution hP (full_one 7 (by decide) rfl rfl (full_act rfl (.inl rfl))) ?_
    intro f hf
    exact .inr ⟨hf, by simp [symBugP, symProb]⟩

/-- The hypotheses of `C71_goal_reached_partial` are met by a run with four methods, in which the same task is reached at several
costs. -/
def symFineP : Problem := symProb [5, 1, 0, 0, 0] [] [] [(5, [7, 4]), (5, [1, 6]), (6, [7, 4]), (7, [0, 2])] [] []

example : SymInput symFineP 5 ∧ SymVarsOK symFineP oneVar ∧ (∀ π s, Exec symFineP symFineP.initState π s → Consistent oneVar s) ∧
    buildAutomaton (symOps symFineP oneVar) symFineP 5 30 = some (.goal 5) := by
  refine ⟨symProb_input (costs := [5, 1, 0, 0, 0]) (by decide), (symProb_vars _ _ _ _ _ _).1, (symProb_vars _ _ _ _ _ _).2, ?_⟩
  rw [run_tab (P := symFineP) (symProb_one (by decide))]
  decide +kernel

/-! ## The order of the subtasks -/

/-- One method with the subtasks 0 and 1, of which 1 is ordered before 0.  Action `needs` needs the fact, action `adds` adds it. -/
def symOrderP (needs adds : Nat) : Problem where
  numFacts := 1
  prim := fun t => t < 2
  prec := fun a => if a = needs then [0] else []
  add := fun a => if a = adds then [0] else []
  del := fun _ => []
  cost := fun _ => 3
  numMethods := 1
  head := fun _ => 2
  sub := fun _ => [0, 1]
  ord := fun _ => [(1, 0)]
  init := 2
  s0 := []
  goal := []

theorem symOrderP_wf (n a : Nat) : (symOrderP n a).WF where
  ord_lt := by intro m _ i j h; simp [symOrderP] at h ⊢; omega
  ord_acyclic := by
    intro m _
    refine ⟨fun i => 1 - i, fun i j h => ?_⟩
    simp only [symOrderP, List.mem_singleton, Prod.mk.injEq] at h
    simp [h]
  sub_ne := by intro m _; simp [symOrderP]
  head_abs := by intro m _; simp [symOrderP]
  init_abs := by simp [symOrderP]
  prec_lt := by intro b f hf; simp only [symOrderP] at hf ⊢; split at hf <;> simp_all
  add_lt := by intro b f hf; simp only [symOrderP] at hf ⊢; split at hf <;> simp_all
  del_lt := by intro b f hf; cases hf
  s0_lt := by intro f hf; cases hf
  goal_lt := by intro f hf; cases hf

theorem symOrderP_one (n a : Nat) : OneFact (symOrderP n a) := by
  have h := symOrderP_wf n a
  have h1 : ∀ f, f < (symOrderP n a).numFacts → f = 0 := fun f hf => Nat.lt_one_iff.1 hf
  exact ⟨fun t f hf => h1 f (h.prec_lt t f hf), fun t f hf => h1 f (h.add_lt t f hf), fun t f hf => h1 f (h.del_lt t f hf),
    fun f hf => h1 f (h.s0_lt f hf), fun f hf => h1 f (h.goal_lt f hf)⟩

theorem symOrderP_tot (n a : Nat) : TotOK (symOrderP n a) fun _ => [1, 0] := by
  intro m _
  refine ⟨show [1, 0].Perm (List.range 2) by decide, ?_⟩
  simp only [List.pairwise_cons, List.mem_singleton, forall_eq, List.not_mem_nil, false_imp_iff, implies_true, List.Pairwise.nil, and_true]
  exact .single (by simp [Problem.OrdRel, symOrderP])

/-- The only sequence that respects the order is 1, 0. -/
theorem symOrderP_solution (n a : Nat) (π : List Nat) : IsSolution (symOrderP n a) π ↔
    π = [1, 0] ∧ ∃ s, Exec (symOrderP n a) (symOrderP n a).initState π s := by
  have hwf := symOrderP_wf n a
  have ht := symOrderP_tot n a
  constructor
  · intro h
    obtain ⟨k, hk⟩ := h.height
    obtain ⟨tr, h1, -, h2, s, h3, -⟩ := (solutionOfHeight_iff hwf ht).1 (hk k (Nat.le_refl _))
    refine ⟨?_, s, h3⟩
    have key : ∀ t tr, Valid (symOrderP n a) t tr → t < 2 → tr = .leaf t := by
      intro t tr hv ht'
      cases hv with
      | leaf => rfl
      | node => simp [symOrderP] at ht'
    rw [h2]
    clear h2
    have hi : (symOrderP n a).init = 2 := rfl
    rw [hi] at h1
    generalize e : 2 = t at h1
    cases h1 with
    | leaf h =>
      subst e
      simp [symOrderP] at h
    | @node m cs hm hc =>
      rw [yield]
      have c0 := key 0 (cs 0) (hc 0 0 rfl) (by omega)
      have c1 := key 1 (cs 1) (hc 1 1 rfl) (by omega)
      simp [c0, c1, yield]
  · rintro ⟨rfl, s, hs⟩
    have hv : Valid (symOrderP n a) 2 (.node 0 .leaf) := by
      refine .node (m := 0) (by simp [symOrderP]) fun i t hi => ?_
      rcases i with _ | _ | i
      · cases hi; exact .leaf (by simp [symOrderP])
      · cases hi; exact .leaf (by simp [symOrderP])
      · simp [symOrderP] at hi
    refine ⟨_, _, hv, rfl, ⟨_, linearises_canon hwf ht hv⟩, s, hs, ?_⟩
    intro f hf
    cases hf

/-- C71 (negation): with the ordering (1, 0), the search reports a plan for a problem that has none ... -/
theorem C71_wrong_order_unsound : (symOrderP 1 0).WF ∧
    (∃ fuel, buildAutomaton (symOps (symOrderP 1 0) oneVar) (symOrderP 1 0) 2 fuel = some (.goal 6)) ∧ ∀ π, ¬ IsSolution (symOrderP 1 0) π := by
  refine ⟨symOrderP_wf _ _, ⟨20, ?_⟩, fun π h => ?_⟩
  · rw [run_tab (symOrderP_one _ _)]
    decide +kernel
  · obtain ⟨rfl, s, hs⟩ := (symOrderP_solution _ _ π).1 h
    cases hs with
    | cons ha _ =>
      have := ha 0 (by simp [symOrderP])
      simp [symOrderP, Problem.initState] at this

/-- ... and misses the plan of another one. -/
theorem C71_wrong_order_incomplete :
    (∃ fuel, buildAutomaton (symOps (symOrderP 0 1) oneVar) (symOrderP 0 1) 2 fuel = some .unsolvable) ∧ IsSolution (symOrderP 0 1) [1, 0] := by
  refine ⟨⟨20, ?_⟩, (symOrderP_solution _ _ _).2 ⟨rfl, _, .cons ?_ (.cons ?_ (.nil _))⟩⟩
  · rw [run_tab (symOrderP_one _ _)]
    decide +kernel
  · intro f hf
    simp [symOrderP] at hf
  · intro f hf
    simp only [symOrderP, if_true, List.mem_singleton] at hf
    subst hf
    exact .inl (by simp [symOrderP])

end Verif.Props
