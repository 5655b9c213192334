import Verif.StateFormula

/-! # C36, C37: the state-transition formula and block compression -/

namespace Verif.Props

open Verif.Sat Verif.Htn

/-- C36: with one action or none per time step, the formula can be satisfied for a choice of the action variables iff the
selected actions can be executed one after the other from the initial state and lead to a goal state. -/
theorem C36_formula_exact (P : Problem) (hP : P.WF) (n : Nat) (vars : List (List (Nat × Nat)))
    (hv : ∀ l ∈ vars, ∀ e ∈ l, 0 < e.1 ∧ e.1 ≤ n) (hc : ∀ l ∈ vars, ∀ e ∈ l, ∀ f ∈ P.add e.2, f ∉ P.del e.2)
    (r : Nat × List Nat × List Clause) (hr : stateFormulaUnit P n vars = some r)
    (v : Assignment) (h1 : ∀ l ∈ vars, l.countP (fun e => v e.1) ≤ 1) :
    (∃ w : Assignment, (∀ i ≤ n, w i = v i) ∧ satAll w r.2.2) ↔
      ∃ s', Exec P P.initState ((vars.flatten.filter fun e => v e.1).map (·.2)) s' ∧ P.GoalState s' := by
  have h1' : ∀ w : Assignment, (∀ i ≤ n, w i = v i) → ∀ l ∈ vars, (selOf w l).length ≤ 1 := fun w hw l hl => by
    rw [selOf_congr hw fun e he => (hv l hl e he).2, selOf, List.length_map, ← List.countP_eq_length_filter]
    exact h1 l hl
  have hb : ∀ b ∈ (List.range vars.length).map fun l => [l], BlockOK P (vars.map fun l => l.map (·.2)) b := by
    intro b hb
    obtain ⟨l, -, rfl⟩ := List.mem_map.1 hb
    exact unit_blockOK _ _
  have hsel : (vars.flatten.filter fun e => v e.1).map (·.2) = selected v vars := selOf_flatten v vars
  rw [hsel]
  constructor
  · rintro ⟨w, hwv, hw⟩
    have := stateFormula_sound hP hr (fun l hl e he => (hv l hl e he).1) (unit_flatten _) hb hw (h1' w hwv)
    rwa [← selOf_flatten, selOf_congr (n := n) hwv (fun e he => by
      obtain ⟨l, hl, he⟩ := List.mem_flatten.1 he; exact (hv l hl e he).2), selOf_flatten] at this
  · rintro ⟨s', hex, hg⟩
    refine stateFormula_complete hP hr hv (unit_flatten _) hb v (fun a ha => ?_) (h1' v fun _ _ => rfl) hex hg
    rw [← selOf_flatten] at ha
    obtain ⟨x, hx, -⟩ := mem_selOf.1 ha
    obtain ⟨l, hl, he⟩ := List.mem_flatten.1 hx
    exact hc l hl _ he

/-- C36: in every model the variables of time step `t` describe the state after the actions selected before `t`; the last
of these states is a goal state.  No assumption on effects is needed for this direction. -/
theorem C36_states (P : Problem) (hP : P.WF) (n : Nat) (vars : List (List (Nat × Nat)))
    (hv : ∀ l ∈ vars, ∀ e ∈ l, 0 < e.1) (r : Nat × List Nat × List Clause) (hr : stateFormulaUnit P n vars = some r)
    (w : Assignment) (hw : satAll w r.2.2) (h1 : ∀ l ∈ vars, l.countP (fun e => w e.1) ≤ 1) :
    (∀ t ≤ vars.length, Exec P P.initState (((vars.take t).flatten.filter fun e => w e.1).map (·.2))
      (fun f => f < P.numFacts ∧ w (n + 1 + t * max 1 P.numFacts + f) = true)) ∧
    r.2.1 = (List.range vars.length).map (fun t => n + 1 + t * max 1 P.numFacts) ∧
    ∀ f ∈ P.goal, w (n + 1 + vars.length * max 1 P.numFacts + f) = true := by
  have hb : ∀ b ∈ (List.range vars.length).map fun l => [l], BlockOK P (vars.map fun l => l.map (·.2)) b := by
    intro b hb
    obtain ⟨l, -, rfl⟩ := List.mem_map.1 hb
    exact unit_blockOK _ _
  refine ⟨fun t ht => ?_, ?_, fun f hf => ?_⟩
  · have := stateFormula_states hP hr hv hb hw (fun l hl => by
      rw [selOf, List.length_map, ← List.countP_eq_length_filter]; exact h1 l hl) t (by simpa using ht)
    have e : (((List.range vars.length).map fun l => [l]).take t).flatMap (fun b => selOf w (blockActs vars b)) =
        ((vars.take t).flatten.filter fun e => w e.1).map (·.2) := by
      have h2 : ((List.range vars.length).map fun l => [l]).take t =
          (List.range (vars.take t).length).map fun l => [l] := by
        rw [← List.map_take, List.take_range, List.length_take]
      have h3 := selected_blocks (v := w) (vars := vars.take t) (unit_flatten _)
      rw [h2]
      refine Eq.trans ?_ (h3.trans (selOf_flatten w (vars.take t)).symm)
      rw [List.flatMap_def, List.flatMap_def, List.map_map, List.map_map]
      refine congrArg List.flatten (List.map_congr_left fun l hl => ?_)
      have hl := List.mem_range.1 hl
      rw [List.length_take] at hl
      simp only [Function.comp, blockActs, List.flatMap_cons, List.flatMap_nil, List.getElem?_take]
      rw [if_pos (by omega)]
    rw [e] at this
    exact this
  · have := (stateFormula_some hr).2.2.2
    rw [List.length_map, List.length_range] at this
    exact this
  · have := ((stateFormula_sat hP hr hv w).1 hw).2.1 f hf
    simpa [stateBase] using this.2

/-- C36: the clauses only mention variables up to the new counter, and no literal is 0. -/
theorem C36_variables (P : Problem) (hP : P.WF) (n : Nat) (vars : List (List (Nat × Nat))) (blocks : List (List Nat))
    (hv : ∀ l ∈ vars, ∀ e ∈ l, 0 < e.1 ∧ e.1 ≤ n)
    (r : Nat × List Nat × List Clause) (hr : stateFormula P n vars blocks = some r) :
    n < r.1 ∧ ∀ c ∈ r.2.2, ∀ l ∈ c, l ≠ 0 ∧ l.natAbs ≤ r.1 := by
  refine ⟨?_, stateFormula_vars hP hr hv⟩
  rw [(stateFormula_some hr).2.2.1]
  have : 0 < (blocks.length + 1) * max 1 P.numFacts := Nat.mul_pos (by omega) (by omega)
  omega

/-- C37: block compression keeps the order of the leaves, and executing a selection of at most one action per leaf of a
block is possible iff all preconditions hold at the start of the block; the result is the union of the effects. -/
theorem C37_blocks (P : Problem) (acts : List (List Nat)) :
    (blockCompression P acts).flatten = List.range acts.length ∧
    ∀ b ∈ blockCompression P acts, ∀ pick : Nat → Option Nat,
      (∀ l ∈ b, ∀ a, pick l = some a → a ∈ acts[l]?.getD []) → ∀ s s' : State,
      Exec P s (b.filterMap pick) s' ↔ (∀ a ∈ b.filterMap pick, ∀ f ∈ P.prec a, s f) ∧
        s' = fun f => (∃ a ∈ b.filterMap pick, f ∈ P.add a) ∨ (s f ∧ ∀ a ∈ b.filterMap pick, f ∉ P.del a) := by
  obtain ⟨h1, h2, -⟩ := blockCompression_spec (P := P) acts
  refine ⟨h1, fun b hb pick hp s s' => ?_⟩
  have : (b.filterMap pick).Pairwise (Indep P) := by
    have hbo := h2 b hb
    unfold BlockOK at hbo
    rw [List.pairwise_filterMap]
    refine hbo.imp_of_mem fun {l l'} hl hl' h p hpl q hql => h p (hp l hl p hpl) q (hp l' hl' q hql)
  exact exec_union this s s'

/-- C37: a new block is only started when some action of the current block interferes with one of the next leaf. -/
theorem C37_maximal (P : Problem) (prev next : List Nat) (h : interfere P prev next = true) :
    ∃ p ∈ prev, ∃ q ∈ next, ∃ f, (f ∈ P.add p ∧ (f ∈ P.prec q ∨ f ∈ P.del q)) ∨
      (f ∈ P.del p ∧ (f ∈ P.prec q ∨ f ∈ P.add q)) := by
  obtain ⟨p, hp, q, hq, hn⟩ := interfere_true h
  refine ⟨p, hp, q, hq, ?_⟩
  by_contra hno
  push Not at hno
  exact hn ⟨fun f hf => ((hno f).1 hf).1, fun f hf => ((hno f).1 hf).2, fun f hf => ((hno f).2 hf).1,
    fun f hf => ((hno f).2 hf).2⟩

/-- C37: the formula over compressed blocks is as exact as the one with a time step per leaf. -/
theorem C37_formula_exact (P : Problem) (hP : P.WF) (n : Nat) (vars : List (List (Nat × Nat)))
    (hv : ∀ l ∈ vars, ∀ e ∈ l, 0 < e.1 ∧ e.1 ≤ n) (hc : ∀ l ∈ vars, ∀ e ∈ l, ∀ f ∈ P.add e.2, f ∉ P.del e.2)
    (r : Nat × List Nat × List Clause)
    (hr : stateFormula P n vars (blockCompression P (vars.map fun l => l.map (·.2))) = some r)
    (v : Assignment) (h1 : ∀ l ∈ vars, l.countP (fun e => v e.1) ≤ 1) :
    (∃ w : Assignment, (∀ i ≤ n, w i = v i) ∧ satAll w r.2.2) ↔
      ∃ s', Exec P P.initState ((vars.flatten.filter fun e => v e.1).map (·.2)) s' ∧ P.GoalState s' := by
  have h1' : ∀ w : Assignment, (∀ i ≤ n, w i = v i) → ∀ l ∈ vars, (selOf w l).length ≤ 1 := fun w hw l hl => by
    rw [selOf_congr hw fun e he => (hv l hl e he).2, selOf, List.length_map, ← List.countP_eq_length_filter]
    exact h1 l hl
  obtain ⟨hfl, hb, -⟩ := blockCompression_spec (P := P) (vars.map fun l => l.map (·.2))
  rw [List.length_map] at hfl
  have hsel : (vars.flatten.filter fun e => v e.1).map (·.2) = selected v vars := selOf_flatten v vars
  rw [hsel]
  constructor
  · rintro ⟨w, hwv, hw⟩
    have := stateFormula_sound hP hr (fun l hl e he => (hv l hl e he).1) hfl hb hw (h1' w hwv)
    rwa [← selOf_flatten, selOf_congr (n := n) hwv (fun e he => by
      obtain ⟨l, hl, he⟩ := List.mem_flatten.1 he; exact (hv l hl e he).2), selOf_flatten] at this
  · rintro ⟨s', hex, hg⟩
    refine stateFormula_complete hP hr hv hfl hb v (fun a ha => ?_) (h1' v fun _ _ => rfl) hex hg
    rw [← selOf_flatten] at ha
    obtain ⟨x, hx, -⟩ := mem_selOf.1 ha
    obtain ⟨l, hl, he⟩ := List.mem_flatten.1 hx
    exact hc l hl _ he

/-- C37: with compressed blocks the formula is always defined, even without leaves. -/
theorem C37_defined (P : Problem) (n : Nat) (vars : List (List (Nat × Nat))) :
    ∃ r, stateFormula P n vars (blockCompression P (vars.map fun l => l.map (·.2))) = some r := by
  obtain ⟨hfl, -, hne⟩ := blockCompression_spec (P := P) (vars.map fun l => l.map (·.2))
  unfold stateFormula
  rw [if_neg hne, if_pos]
  · exact ⟨_, rfl⟩
  · rw [List.all_eq_true]
    intro b hb
    rw [List.all_eq_true]
    intro l hl
    have : l ∈ (blockCompression P (vars.map fun l => l.map (·.2))).flatten := List.mem_flatten.2 ⟨b, hb, hl⟩
    rw [hfl, List.mem_range, List.length_map] at this
    simpa using this

/-- Two facts; task 0 makes fact 0 false and fact 1 true, task 1 needs fact 1 and makes fact 0 true again; task 2 adds and
deletes fact 1; task 3 is abstract. -/
def sfP : Problem where
  numFacts := 2
  prim := fun t => decide (t < 3)
  prec := fun t => if t = 0 then [0] else if t = 1 then [1] else []
  add := fun t => if t = 0 then [1] else if t = 1 then [0] else if t = 2 then [1] else []
  del := fun t => if t = 0 then [0] else if t = 2 then [1] else []
  cost := fun _ => 1
  numMethods := 1
  head := fun _ => 3
  sub := fun _ => [0, 1]
  ord := fun _ => [(0, 1)]
  init := 3
  s0 := [0]
  goal := [0, 1]

theorem sfP_wf : sfP.WF := by
  refine ⟨?_, ?_, ?_, ?_, by decide, ?_, ?_, ?_, by decide, by decide⟩
  · intro m _ i j h
    simp only [sfP, List.mem_cons, List.not_mem_nil, or_false, Prod.mk.injEq] at h
    simp only [sfP]; simp; omega
  · intro m _
    refine ⟨fun i => i, fun i j h => ?_⟩
    simp only [sfP, List.mem_cons, List.not_mem_nil, or_false, Prod.mk.injEq] at h
    show i < j
    omega
  · intro m _; simp [sfP]
  · intro m _; simp [sfP]
  · intro a f h
    simp only [sfP] at h ⊢
    split_ifs at h <;> simp at h <;> omega
  · intro a f h
    simp only [sfP] at h ⊢
    split_ifs at h <;> simp at h <;> omega
  · intro a f h
    simp only [sfP] at h ⊢
    split_ifs at h <;> simp at h <;> omega

/-- The hypotheses of `C36_formula_exact` and `C37_formula_exact` can be met: two leaves with two actions each; choosing 0
then 1 is executable and reaches the goal. -/
example : (∀ l ∈ [[(1, 0), (2, 1)], [(3, 0), (4, 1)]], ∀ e ∈ l, 0 < e.1 ∧ e.1 ≤ 4) ∧
    (∀ l ∈ [[(1, 0), (2, 1)], [(3, 0), (4, 1)]], ∀ e ∈ l, ∀ f ∈ sfP.add e.2, f ∉ sfP.del e.2) ∧
    (stateFormulaUnit sfP 4 [[(1, 0), (2, 1)], [(3, 0), (4, 1)]]).isSome = true ∧
    (∀ l ∈ [[(1, 0), (2, 1)], [(3, 0), (4, 1)]], l.countP (fun e => decide (e.1 = 1 ∨ e.1 = 4)) ≤ 1) ∧
    ([[(1, 0), (2, 1)], [(3, 0), (4, 1)]].flatten.filter fun e => decide (e.1 = 1 ∨ e.1 = 4)).map (·.2) = [0, 1] ∧
    blockCompression sfP [[0, 1], [0, 1]] = [[0], [1]] ∧ blockCompression sfP [[1], [3], [1], [0], [1]] = [[0, 1, 2], [3], [4]] := by
  decide

example : ∃ s', Exec sfP sfP.initState [0, 1] s' ∧ sfP.GoalState s' := by
  refine ⟨_, .cons (fun f hf => ?_) (.cons (fun f hf => ?_) (.nil _)), fun f hf => ?_⟩
  · simpa [sfP, Problem.initState] using hf
  · left; simpa [sfP] using hf
  · simp only [sfP, List.mem_cons, List.not_mem_nil, or_false] at hf
    rcases hf with rfl | rfl
    · left; simp [sfP]
    · right; exact ⟨.inl (by simp [sfP]), by simp [sfP]⟩

/-- The restriction on effects in C36 is needed: an action that adds and deletes a fact can be executed (adds win), but
the clauses contradict each other, so that no model selects it. -/
theorem C36_add_and_delete_contradict :
    (Exec sfP sfP.initState [2] (sfP.result sfP.initState 2) ∧ sfP.GoalState (sfP.result sfP.initState 2)) ∧
    ∃ r, stateFormulaUnit sfP 1 [[(1, 2)]] = some r ∧ ¬ ∃ w : Assignment, w 1 = true ∧ satAll w r.2.2 := by
  refine ⟨⟨.cons (fun f hf => by simp [sfP] at hf) (.nil _), fun f hf => ?_⟩, _, rfl, ?_⟩
  · simp only [sfP, List.mem_cons, List.not_mem_nil, or_false] at hf
    rcases hf with rfl | rfl
    · right; simp [sfP, Problem.initState]
    · left; simp [sfP]
  · rintro ⟨w, h1, hw⟩
    have := ((stateFormula_sat (r := _) sfP_wf (n := 1) (vars := [[(1, 2)]]) (blocks := [[0]]) rfl (by decide) w).1
      hw).2.2 0 (by decide)
    have hm : 2 ∈ selOf w (blockActs [[(1, 2)]] ([[0]][0]?.getD [])) := mem_selOf.2 ⟨1, by decide, h1⟩
    exact this.del 2 hm 1 (by decide) (this.add 2 hm 1 (by decide))

end Verif.Props
