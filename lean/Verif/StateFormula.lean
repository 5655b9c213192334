import Verif.SatEncoder
import Verif.HtnLemmas

/-! # Model of the state-transition formula and of block compression
(src/sat/state_formula.cpp, src/sat/disabling_graph.cpp)

Action variables come as lists of pairs (variable, action), one list per leaf.  A block is a list of leaves whose
actions are executed between two consecutive states. -/

namespace Verif.Sat

open Verif.Htn

/-- `assertYes` (src/sat/sat_encoder.cpp 76-80). -/
def assertYes (i : Int) : Clause := [i]

/-- `assertNot` (src/sat/sat_encoder.cpp 82-86). -/
def assertNot (i : Int) : Clause := [-i]

/-- `implies` (src/sat/sat_encoder.cpp 88-94). -/
def implies (i j : Int) : Clause := [-i, j]

/-- `impliesPosAndNegImpliesOr` (src/sat/sat_encoder.cpp 121-128). -/
def impliesPosAndNegImpliesOr (i j : Int) (k : List Int) : Clause := -i :: j :: k

/-- First variable of the state at time `t` (state_formula.cpp 28-51), if `n` variables were in use before.  A time step
takes one variable even if there are no facts. -/
def stateBase (P : Problem) (n t : Nat) : Nat := n + 1 + t * max 1 P.numFacts

/-- The rules for an action (state_formula.cpp 74-88); `b`, `b'` first variables of the two states. -/
def actClauses (P : Problem) (b b' : Nat) (e : Nat × Nat) : List Clause :=
  (P.prec e.2).map (fun f => implies e.1 ((b + f : Nat) : Int)) ++
  ((P.add e.2).map (fun f => implies e.1 ((b' + f : Nat) : Int)) ++
   (P.del e.2).map (fun f => impliesNot e.1 ((b' + f : Nat) : Int)))

/-- `causingPositive[f]` and `causingNegative[f]` (state_formula.cpp 81, 87). -/
def causing (eff : Nat → List Nat) (acts : List (Nat × Nat)) (f : Nat) : List Int :=
  acts.flatMap fun e => ((eff e.2).filter (· == f)).map fun _ => (e.1 : Int)

/-- Frame axioms (state_formula.cpp 96-99). -/
def frameClauses (P : Problem) (b b' : Nat) (acts : List (Nat × Nat)) : List Clause :=
  (List.range P.numFacts).flatMap fun f =>
    [impliesPosAndNegImpliesOr ((b' + f : Nat) : Int) ((b + f : Nat) : Int) (causing P.add acts f),
     impliesPosAndNegImpliesOr ((b + f : Nat) : Int) ((b' + f : Nat) : Int) (causing P.del acts f)]

/-- The actions of a block with their variables, in the order of the leaves. -/
def blockActs (vars : List (List (Nat × Nat))) (b : List Nat) : List (Nat × Nat) :=
  b.flatMap fun l => vars[l]?.getD []

/-- One round of the loop over time (state_formula.cpp 54-107). -/
def blockClauses (P : Problem) (b b' : Nat) (acts : List (Nat × Nat)) : List Clause :=
  acts.flatMap (actClauses P b b') ++ frameClauses P b b' acts

/-- Initial state (state_formula.cpp 111-119). -/
def initClauses (P : Problem) (b : Nat) : List Clause :=
  (List.range P.numFacts).map fun f =>
    if f ∈ P.s0 then assertYes ((b + f : Nat) : Int) else assertNot ((b + f : Nat) : Int)

/-- Goal (state_formula.cpp 122-124). -/
def goalClauses (P : Problem) (b : Nat) : List Clause :=
  P.goal.map fun f => assertYes ((b + f : Nat) : Int)

/-- `generate_state_transition_formula` with blocks (state_formula.cpp 21-125): the new number of variables,
`block_base_variables` and the clauses.  Undefined if there are no blocks (`block_base_variables[0]`) or a block names a
leaf that does not exist. -/
def stateFormula (P : Problem) (n : Nat) (vars : List (List (Nat × Nat))) (blocks : List (List Nat)) :
    Option (Nat × List Nat × List Clause) :=
  if blocks = [] then none
  else if blocks.all (fun b => b.all fun l => decide (l < vars.length)) then
    some (n + (blocks.length + 1) * max 1 P.numFacts,
      (List.range blocks.length).map (stateBase P n),
      ((List.range blocks.length).flatMap fun t =>
        blockClauses P (stateBase P n t) (stateBase P n (t + 1)) (blockActs vars (blocks[t]?.getD []))) ++
      (initClauses P (stateBase P n 0) ++ goalClauses P (stateBase P n blocks.length)))
  else none

/-- `generate_state_transition_formula` without blocks (state_formula.cpp 9-19): every leaf is a block. -/
def stateFormulaUnit (P : Problem) (n : Nat) (vars : List (List (Nat × Nat))) : Option (Nat × List Nat × List Clause) :=
  stateFormula P n vars ((List.range vars.length).map fun l => [l])

/-- `doActionsInterfere` (src/sat/disabling_graph.cpp 373-406). -/
def interfere (P : Problem) (prev next : List Nat) : Bool :=
  prev.any fun p =>
    (P.add p).any (fun f => (next.flatMap P.prec).contains f || (next.flatMap P.del).contains f) ||
    (P.del p).any (fun f => (next.flatMap P.prec).contains f || (next.flatMap P.add).contains f)

/-- `compute_block_compression` (src/sat/disabling_graph.cpp 408-448): `acts` are the actions of the leaves that are not
pruned; `l` the next leaf, `cur` the current block, `ps` its actions. -/
def blocksFrom (P : Problem) : List (List Nat) → Nat → List Nat → List Nat → List (List Nat)
  | [], _, cur, _ => [cur]
  | a :: acts, l, cur, ps =>
    if interfere P ps a then cur :: blocksFrom P acts (l + 1) [l] a
    else blocksFrom P acts (l + 1) (cur ++ [l]) (ps ++ a)

def blockCompression (P : Problem) (acts : List (List Nat)) : List (List Nat) := blocksFrom P acts 0 [] []

/-! ## Meaning of the clauses -/

theorem sat_implies {w : Assignment} {i j : Nat} (hi : 0 < i) (hj : 0 < j) :
    satClause w (implies i j) ↔ (w i = true → w j = true) := by
  simp only [satClause, implies, List.mem_cons, List.not_mem_nil, or_false, exists_eq_or_imp, exists_eq_left]
  rw [lit_neg (by omega), lit_pos hi, lit_pos hj]
  cases w i <;> simp

theorem sat_impliesNot {w : Assignment} {i j : Nat} (hi : 0 < i) (hj : 0 < j) :
    satClause w (impliesNot i j) ↔ (w i = true → w j = false) := by
  simp only [satClause, impliesNot, List.mem_cons, List.not_mem_nil, or_false, exists_eq_or_imp, exists_eq_left]
  rw [lit_neg (by omega), lit_neg (by omega), lit_pos hi, lit_pos hj]
  cases w i <;> simp

theorem sat_assertYes {w : Assignment} {i : Nat} (hi : 0 < i) : satClause w (assertYes i) ↔ w i = true := by
  simp [satClause, assertYes, lit_pos hi]

theorem sat_assertNot {w : Assignment} {i : Nat} (hi : 0 < i) : satClause w (assertNot i) ↔ w i = false := by
  simp only [satClause, assertNot, List.mem_cons, List.not_mem_nil, or_false, exists_eq_left]
  rw [lit_neg (by omega), lit_pos hi]
  cases w i <;> simp

theorem sat_frame {w : Assignment} {i j : Nat} {k : List Int} (hi : 0 < i) (hj : 0 < j) :
    satClause w (impliesPosAndNegImpliesOr i j k) ↔ (w i = true → w j = false → ∃ l ∈ k, lit w l = true) := by
  simp only [satClause, impliesPosAndNegImpliesOr, List.mem_cons, exists_eq_or_imp]
  rw [lit_neg (by omega), lit_pos hi, lit_pos hj]
  cases w i <;> cases w j <;> simp

/-- The state described by the variables from `b` on. -/
def stOf (P : Problem) (w : Assignment) (b : Nat) : State := fun f => f < P.numFacts ∧ w (b + f) = true

/-- The selected actions. -/
def selOf (w : Assignment) (acts : List (Nat × Nat)) : List Nat := (acts.filter fun e => w e.1).map (·.2)

theorem mem_selOf {w : Assignment} {acts : List (Nat × Nat)} {a : Nat} :
    a ∈ selOf w acts ↔ ∃ x, (x, a) ∈ acts ∧ w x = true := by
  simp [selOf]

/-- What the clauses of a block say. -/
structure Trans (P : Problem) (s : State) (A : List Nat) (s' : State) : Prop where
  pre : ∀ a ∈ A, ∀ f ∈ P.prec a, s f
  add : ∀ a ∈ A, ∀ f ∈ P.add a, s' f
  del : ∀ a ∈ A, ∀ f ∈ P.del a, ¬ s' f
  pos : ∀ f < P.numFacts, s' f → ¬ s f → ∃ a ∈ A, f ∈ P.add a
  neg : ∀ f < P.numFacts, s f → ¬ s' f → ∃ a ∈ A, f ∈ P.del a

variable {P : Problem}

theorem causing_lit {w : Assignment} {eff : Nat → List Nat} {acts : List (Nat × Nat)} {f : Nat}
    (hv : ∀ e ∈ acts, 0 < e.1) :
    (∃ l ∈ causing eff acts f, lit w l = true) ↔ ∃ a ∈ selOf w acts, f ∈ eff a := by
  constructor
  · rintro ⟨l, hl, ht⟩
    simp only [causing, List.mem_flatMap, List.mem_map, List.mem_filter, beq_iff_eq] at hl
    obtain ⟨e, he, g, ⟨hg, rfl⟩, rfl⟩ := hl
    rw [lit_pos (hv e he)] at ht
    exact ⟨e.2, mem_selOf.2 ⟨e.1, he, ht⟩, hg⟩
  · rintro ⟨a, ha, hf⟩
    obtain ⟨x, hx, ht⟩ := mem_selOf.1 ha
    refine ⟨x, ?_, by rw [lit_pos (hv _ hx)]; exact ht⟩
    simp only [causing, List.mem_flatMap, List.mem_map, List.mem_filter, beq_iff_eq]
    exact ⟨_, hx, f, ⟨hf, rfl⟩, rfl⟩

theorem blockClauses_sat (hP : P.WF) {w : Assignment} {b b' : Nat} {acts : List (Nat × Nat)} (hb : 0 < b) (hb' : 0 < b')
    (hv : ∀ e ∈ acts, 0 < e.1) :
    satAll w (blockClauses P b b' acts) ↔ Trans P (stOf P w b) (selOf w acts) (stOf P w b') := by
  unfold blockClauses
  rw [satAll_append]
  have h1 : satAll w (acts.flatMap (actClauses P b b')) ↔ ∀ a ∈ selOf w acts,
      (∀ f ∈ P.prec a, w (b + f) = true) ∧ (∀ f ∈ P.add a, w (b' + f) = true) ∧ ∀ f ∈ P.del a, w (b' + f) = false := by
    constructor
    · intro h a ha
      obtain ⟨x, hx, ht⟩ := mem_selOf.1 ha
      have hx0 := hv _ hx
      refine ⟨fun f hf => ?_, fun f hf => ?_, fun f hf => ?_⟩
      · have := h (implies x ((b + f : Nat) : Int)) (List.mem_flatMap.2 ⟨_, hx, by
          simp only [actClauses, List.mem_append, List.mem_map]; exact .inl ⟨f, hf, rfl⟩⟩)
        exact (sat_implies hx0 (by omega)).1 this ht
      · have := h (implies x ((b' + f : Nat) : Int)) (List.mem_flatMap.2 ⟨_, hx, by
          simp only [actClauses, List.mem_append, List.mem_map]; exact .inr (.inl ⟨f, hf, rfl⟩)⟩)
        exact (sat_implies hx0 (by omega)).1 this ht
      · have := h (impliesNot x ((b' + f : Nat) : Int)) (List.mem_flatMap.2 ⟨_, hx, by
          simp only [actClauses, List.mem_append, List.mem_map]; exact .inr (.inr ⟨f, hf, rfl⟩)⟩)
        exact (sat_impliesNot hx0 (by omega)).1 this ht
    · intro h c hc
      obtain ⟨e, he, hc⟩ := List.mem_flatMap.1 hc
      have he0 := hv _ he
      simp only [actClauses, List.mem_append, List.mem_map] at hc
      rcases hc with ⟨f, hf, rfl⟩ | ⟨f, hf, rfl⟩ | ⟨f, hf, rfl⟩
      · exact (sat_implies he0 (by omega)).2 fun ht => (h _ (mem_selOf.2 ⟨_, he, ht⟩)).1 f hf
      · exact (sat_implies he0 (by omega)).2 fun ht => (h _ (mem_selOf.2 ⟨_, he, ht⟩)).2.1 f hf
      · exact (sat_impliesNot he0 (by omega)).2 fun ht => (h _ (mem_selOf.2 ⟨_, he, ht⟩)).2.2 f hf
  have h2 : satAll w (frameClauses P b b' acts) ↔ ∀ f < P.numFacts,
      (w (b' + f) = true → w (b + f) = false → ∃ a ∈ selOf w acts, f ∈ P.add a) ∧
      (w (b + f) = true → w (b' + f) = false → ∃ a ∈ selOf w acts, f ∈ P.del a) := by
    constructor
    · intro h f hf
      constructor
      · intro h1 h2
        have := h _ (List.mem_flatMap.2 ⟨f, List.mem_range.2 hf, List.mem_cons_self⟩)
        rw [sat_frame (by omega) (by omega)] at this
        exact (causing_lit hv).1 (this h1 h2)
      · intro h1 h2
        have := h _ (List.mem_flatMap.2 ⟨f, List.mem_range.2 hf, List.mem_cons_of_mem _ List.mem_cons_self⟩)
        rw [sat_frame (by omega) (by omega)] at this
        exact (causing_lit hv).1 (this h1 h2)
    · intro h c hc
      obtain ⟨f, hf, hc⟩ := List.mem_flatMap.1 hc
      have hf := List.mem_range.1 hf
      simp only [List.mem_cons, List.not_mem_nil, or_false] at hc
      rcases hc with rfl | rfl
      · rw [sat_frame (by omega) (by omega)]
        exact fun h1 h2 => (causing_lit hv).2 ((h f hf).1 h1 h2)
      · rw [sat_frame (by omega) (by omega)]
        exact fun h1 h2 => (causing_lit hv).2 ((h f hf).2 h1 h2)
  rw [h1, h2]
  constructor
  · rintro ⟨ha, hf⟩
    refine ⟨fun a h f hf => ⟨hP.prec_lt a f hf, (ha a h).1 f hf⟩, fun a h f hf => ⟨hP.add_lt a f hf, (ha a h).2.1 f hf⟩,
      fun a h f hf h' => ?_, fun f hlt h h' => (hf f hlt).1 h.2 ?_, fun f hlt h h' => (hf f hlt).2 h.2 ?_⟩
    · have := h'.2; rw [(ha a h).2.2 f hf] at this; cases this
    · simpa [stOf, hlt] using h'
    · simpa [stOf, hlt] using h'
  · rintro ⟨p1, p2, p3, p4, p5⟩
    refine ⟨fun a h => ⟨fun f hf => (p1 a h f hf).2, fun f hf => (p2 a h f hf).2, fun f hf => ?_⟩, fun f hlt => ⟨fun h1 h2 =>
      p4 f hlt ⟨hlt, h1⟩ ?_, fun h1 h2 => p5 f hlt ⟨hlt, h1⟩ ?_⟩⟩
    · have := p3 a h f hf
      have hlt := hP.del_lt a f hf
      simpa [stOf, hlt] using this
    · simp [stOf, h2]
    · simp [stOf, h2]

theorem initClauses_sat (hP : P.WF) {w : Assignment} {b : Nat} (hb : 0 < b) :
    satAll w (initClauses P b) ↔ stOf P w b = P.initState := by
  constructor
  · intro h
    funext f
    apply propext
    by_cases hf : f < P.numFacts
    · have := h _ (List.mem_map.2 ⟨f, List.mem_range.2 hf, rfl⟩)
      by_cases hs : f ∈ P.s0
      · rw [if_pos hs, sat_assertYes (by omega)] at this
        exact ⟨fun _ => hs, fun _ => ⟨hf, this⟩⟩
      · rw [if_neg hs, sat_assertNot (by omega)] at this
        exact ⟨fun h => by have h2 := h.2; exact absurd h2 (by simp [this]), fun h => absurd h hs⟩
    · exact ⟨fun h => absurd h.1 hf, fun h => absurd (hP.s0_lt f h) hf⟩
  · intro h c hc
    obtain ⟨f, hf, rfl⟩ := List.mem_map.1 hc
    have hf := List.mem_range.1 hf
    have hh : stOf P w b f ↔ f ∈ P.s0 := by rw [h]; rfl
    by_cases hs : f ∈ P.s0
    · rw [if_pos hs, sat_assertYes (by omega)]
      exact (hh.2 hs).2
    · rw [if_neg hs, sat_assertNot (by omega)]
      cases hw : w (b + f) with
      | false => rfl
      | true => exact absurd (hh.1 ⟨hf, hw⟩) hs

theorem goalClauses_sat (hP : P.WF) {w : Assignment} {b : Nat} (hb : 0 < b) :
    satAll w (goalClauses P b) ↔ P.GoalState (stOf P w b) := by
  constructor
  · intro h f hf
    have := h _ (List.mem_map.2 ⟨f, hf, rfl⟩)
    rw [sat_assertYes (by omega)] at this
    exact ⟨hP.goal_lt f hf, this⟩
  · intro h c hc
    obtain ⟨f, hf, rfl⟩ := List.mem_map.1 hc
    rw [sat_assertYes (by omega)]
    exact (h f hf).2

theorem stateBase_pos {n t : Nat} : 0 < stateBase P n t := by unfold stateBase; omega

/-- Meaning of the whole formula. -/
theorem stateFormula_sat (hP : P.WF) {n : Nat} {vars blocks r} (h : stateFormula P n vars blocks = some r)
    (hv : ∀ l ∈ vars, ∀ e ∈ l, 0 < e.1) (w : Assignment) :
    satAll w r.2.2 ↔ stOf P w (stateBase P n 0) = P.initState ∧ P.GoalState (stOf P w (stateBase P n blocks.length)) ∧
      ∀ t < blocks.length, Trans P (stOf P w (stateBase P n t)) (selOf w (blockActs vars (blocks[t]?.getD [])))
        (stOf P w (stateBase P n (t + 1))) := by
  unfold stateFormula at h
  split_ifs at h with h1 h2
  simp only [Option.some.injEq] at h
  subst h
  simp only
  rw [satAll_append, satAll_append, initClauses_sat hP stateBase_pos, goalClauses_sat hP stateBase_pos]
  have hv' : ∀ b, ∀ e ∈ blockActs vars b, 0 < e.1 := by
    intro b e he
    simp only [blockActs, List.mem_flatMap] at he
    obtain ⟨l, -, he⟩ := he
    cases hl : vars[l]? with
    | none => rw [hl] at he; simp at he
    | some x => rw [hl] at he; exact hv x (List.mem_of_getElem? hl) e he
  have : satAll w ((List.range blocks.length).flatMap fun t =>
        blockClauses P (stateBase P n t) (stateBase P n (t + 1)) (blockActs vars (blocks[t]?.getD []))) ↔
      ∀ t < blocks.length, Trans P (stOf P w (stateBase P n t)) (selOf w (blockActs vars (blocks[t]?.getD [])))
        (stOf P w (stateBase P n (t + 1))) := by
    constructor
    · intro h t ht
      rw [← blockClauses_sat hP stateBase_pos stateBase_pos (hv' _)]
      exact fun c hc => h c (List.mem_flatMap.2 ⟨t, List.mem_range.2 ht, hc⟩)
    · intro h c hc
      obtain ⟨t, ht, hc⟩ := List.mem_flatMap.1 hc
      exact (blockClauses_sat hP stateBase_pos stateBase_pos (hv' _)).2 (h t (List.mem_range.1 ht)) c hc
  rw [this]
  tauto

/-- All variables in the clauses are in the range of variables used. -/
theorem stateFormula_vars (hP : P.WF) {n : Nat} {vars blocks r} (h : stateFormula P n vars blocks = some r)
    (hv : ∀ l ∈ vars, ∀ e ∈ l, 0 < e.1 ∧ e.1 ≤ n) : ∀ c ∈ r.2.2, ∀ l ∈ c, l ≠ 0 ∧ l.natAbs ≤ r.1 := by
  unfold stateFormula at h
  split_ifs at h with h1 h2
  simp only [Option.some.injEq] at h
  subst h
  simp only
  have hb : ∀ t ≤ blocks.length, ∀ f < P.numFacts, stateBase P n t + f ≤ n + (blocks.length + 1) * max 1 P.numFacts := by
    intro t ht f hf
    unfold stateBase
    have : t * max 1 P.numFacts ≤ blocks.length * max 1 P.numFacts := Nat.mul_le_mul_right _ ht
    rw [Nat.add_mul]
    omega
  have hpos : ∀ t f, stateBase P n t + f ≠ 0 := fun t f => by have := stateBase_pos (P := P) (n := n) (t := t); omega
  have hv' : ∀ b, ∀ e ∈ blockActs vars b, 0 < e.1 ∧ e.1 ≤ n := by
    intro b e he
    simp only [blockActs, List.mem_flatMap] at he
    obtain ⟨l, -, he⟩ := he
    cases hl : vars[l]? with
    | none => rw [hl] at he; simp at he
    | some x => rw [hl] at he; exact hv x (List.mem_of_getElem? hl) e he
  intro c hc l hl
  have hst : ∀ t ≤ blocks.length, ∀ f < P.numFacts, ∀ l : Int,
      l = ((stateBase P n t + f : Nat) : Int) ∨ l = -((stateBase P n t + f : Nat) : Int) →
      l ≠ 0 ∧ l.natAbs ≤ n + (blocks.length + 1) * max 1 P.numFacts := by
    intro t ht f hf l hl
    have := hb t ht f hf
    have := hpos t f
    rcases hl with rfl | rfl
    · exact ⟨by omega, by omega⟩
    · exact ⟨by omega, by omega⟩
  have hac : ∀ b, ∀ e ∈ blockActs vars b, ∀ l : Int, l = (e.1 : Int) ∨ l = -(e.1 : Int) →
      l ≠ 0 ∧ l.natAbs ≤ n + (blocks.length + 1) * max 1 P.numFacts := by
    intro b e he l hl
    have := hv' b e he
    rcases hl with rfl | rfl
    · exact ⟨by omega, by omega⟩
    · exact ⟨by omega, by omega⟩
  rcases List.mem_append.1 hc with hc | hc
  · obtain ⟨t, ht, hc⟩ := List.mem_flatMap.1 hc
    have ht := List.mem_range.1 ht
    rcases List.mem_append.1 hc with hc | hc
    · obtain ⟨e, he, hc⟩ := List.mem_flatMap.1 hc
      simp only [actClauses, List.mem_append, List.mem_map] at hc
      rcases hc with ⟨f, hf, rfl⟩ | ⟨f, hf, rfl⟩ | ⟨f, hf, rfl⟩ <;>
        simp only [implies, impliesNot, List.mem_cons, List.not_mem_nil, or_false] at hl <;> rcases hl with rfl | rfl
      · exact hac _ e he _ (.inr rfl)
      · exact hst t (by omega) f (hP.prec_lt _ f hf) _ (.inl rfl)
      · exact hac _ e he _ (.inr rfl)
      · exact hst (t + 1) (by omega) f (hP.add_lt _ f hf) _ (.inl rfl)
      · exact hac _ e he _ (.inr rfl)
      · exact hst (t + 1) (by omega) f (hP.del_lt _ f hf) _ (.inr rfl)
    · obtain ⟨f, hf, hc⟩ := List.mem_flatMap.1 hc
      have hf := List.mem_range.1 hf
      have hcau : ∀ eff : Nat → List Nat, ∀ l ∈ causing eff (blockActs vars (blocks[t]?.getD [])) f,
          l ≠ 0 ∧ l.natAbs ≤ n + (blocks.length + 1) * max 1 P.numFacts := by
        intro eff l hl
        simp only [causing, List.mem_flatMap, List.mem_map] at hl
        obtain ⟨e, he, g, -, rfl⟩ := hl
        exact hac _ e he _ (.inl rfl)
      simp only [List.mem_cons, List.not_mem_nil, or_false] at hc
      rcases hc with rfl | rfl <;> simp only [impliesPosAndNegImpliesOr, List.mem_cons] at hl <;>
        rcases hl with rfl | rfl | hl
      · exact hst (t + 1) (by omega) f hf _ (.inr rfl)
      · exact hst t (by omega) f hf _ (.inl rfl)
      · exact hcau _ l hl
      · exact hst t (by omega) f hf _ (.inr rfl)
      · exact hst (t + 1) (by omega) f hf _ (.inl rfl)
      · exact hcau _ l hl
  · rcases List.mem_append.1 hc with hc | hc
    · obtain ⟨f, hf, rfl⟩ := List.mem_map.1 hc
      have hf := List.mem_range.1 hf
      by_cases hs : f ∈ P.s0
      · rw [if_pos hs] at hl
        simp only [assertYes, List.mem_cons, List.not_mem_nil, or_false] at hl
        exact hst 0 (by omega) f hf _ (.inl hl)
      · rw [if_neg hs] at hl
        simp only [assertNot, List.mem_cons, List.not_mem_nil, or_false] at hl
        exact hst 0 (by omega) f hf _ (.inr hl)
    · obtain ⟨f, hf, rfl⟩ := List.mem_map.1 hc
      simp only [assertYes, List.mem_cons, List.not_mem_nil, or_false] at hl
      exact hst _ (Nat.le_refl _) f (hP.goal_lt f hf) _ (.inl hl)

/-! ## Actions that do not interfere -/

/-- `a` before `b`: what `a` changes is neither needed nor changed back by `b`. -/
structure Indep (P : Problem) (a b : Nat) : Prop where
  ap : ∀ f ∈ P.add a, f ∉ P.prec b
  ad : ∀ f ∈ P.add a, f ∉ P.del b
  dp : ∀ f ∈ P.del a, f ∉ P.prec b
  da : ∀ f ∈ P.del a, f ∉ P.add b

/-- The state after the union of the effects. -/
def unionResult (P : Problem) (s : State) (A : List Nat) : State :=
  fun f => (∃ a ∈ A, f ∈ P.add a) ∨ (s f ∧ ∀ a ∈ A, f ∉ P.del a)

theorem exec_union {A : List Nat} (h : A.Pairwise (Indep P)) : ∀ s s', Exec P s A s' ↔
    (∀ a ∈ A, P.Applicable s a) ∧ s' = unionResult P s A := by
  induction A with
  | nil =>
    intro s s'
    have hu : unionResult P s [] = s := by funext f; simp [unionResult]
    rw [hu]
    constructor
    · intro h; cases h; exact ⟨by simp, rfl⟩
    · rintro ⟨-, rfl⟩; exact .nil _
  | cons a A ih =>
    intro s s'
    have hind := (List.pairwise_cons.1 h).1
    have ih := ih (List.pairwise_cons.1 h).2
    have happ : (∀ b ∈ A, P.Applicable (P.result s a) b) ↔ ∀ b ∈ A, P.Applicable s b := by
      refine forall₂_congr fun b hb => ?_
      refine forall₂_congr fun f hf => ?_
      have h1 : f ∉ P.add a := fun hfa => (hind b hb).ap f hfa hf
      have h2 : f ∉ P.del a := fun hfa => (hind b hb).dp f hfa hf
      simp [Problem.result, h1, h2]
    have hres : unionResult P (P.result s a) A = unionResult P s (a :: A) := by
      funext f
      apply propext
      simp only [unionResult, Problem.result, List.mem_cons, exists_eq_or_imp, forall_eq_or_imp]
      constructor
      · rintro (h | ⟨h1 | ⟨h1, h2⟩, h3⟩)
        · exact .inl (.inr h)
        · exact .inl (.inl h1)
        · exact .inr ⟨h1, h2, h3⟩
      · rintro ((h | h) | ⟨h1, h2, h3⟩)
        · exact .inr ⟨.inl h, fun b hb => (hind b hb).ad f h⟩
        · exact .inl h
        · exact .inr ⟨.inr ⟨h1, h2⟩, h3⟩
    constructor
    · intro h
      cases h with
      | cons h1 h2 =>
        obtain ⟨h3, h4⟩ := (ih _ _).1 h2
        refine ⟨fun b hb => ?_, by rw [h4, hres]⟩
        rcases List.mem_cons.1 hb with rfl | hb
        · exact h1
        · exact happ.1 h3 b hb
    · rintro ⟨h1, h2⟩
      exact .cons (h1 a List.mem_cons_self) ((ih _ _).2
        ⟨happ.2 fun b hb => h1 b (List.mem_cons_of_mem _ hb), by rw [h2, hres]⟩)

/-- No action adds and deletes the same fact. -/
def NoClash (P : Problem) (a : Nat) : Prop := ∀ f ∈ P.add a, f ∉ P.del a

/-- For actions that do not interfere, the clauses only allow their execution. -/
theorem trans_exec {A : List Nat} (h : A.Pairwise (Indep P)) {s s' : State}
    (hs : ∀ f, s f → f < P.numFacts) (hs' : ∀ f, s' f → f < P.numFacts) (ht : Trans P s A s') : Exec P s A s' := by
  rw [exec_union h]
  refine ⟨fun a ha f hf => ht.pre a ha f hf, ?_⟩
  funext f
  apply propext
  constructor
  · intro hf
    by_cases hsf : s f
    · exact .inr ⟨hsf, fun a ha hd => ht.del a ha f hd hf⟩
    · exact .inl (ht.pos f (hs' f hf) hf hsf)
  · rintro (⟨a, ha, hf⟩ | ⟨h1, h2⟩)
    · exact ht.add a ha f hf
    · by_contra hn
      obtain ⟨a, ha, hd⟩ := ht.neg f (hs f h1) h1 hn
      exact h2 a ha hd

/-- If moreover no action adds and deletes the same fact, the clauses allow it. -/
theorem exec_trans {A : List Nat} (h : A.Pairwise (Indep P)) (hc : ∀ a ∈ A, NoClash P a) {s s' : State}
    (he : Exec P s A s') : Trans P s A s' := by
  rw [exec_union h] at he
  have hdis : ∀ a ∈ A, ∀ b ∈ A, ∀ f ∈ P.add a, f ∉ P.del b := by
    intro a ha b hb f hf hd
    obtain ⟨i, hi, rfl⟩ := List.getElem_of_mem ha
    obtain ⟨j, hj, rfl⟩ := List.getElem_of_mem hb
    rcases Nat.lt_trichotomy i j with hij | rfl | hij
    · exact (List.pairwise_iff_getElem.1 h i j hi hj hij).ad f hf hd
    · exact hc _ ha f hf hd
    · exact (List.pairwise_iff_getElem.1 h j i hj hi hij).da f hd hf
  obtain ⟨h1, rfl⟩ := he
  refine ⟨fun a ha f hf => h1 a ha f hf, fun a ha f hf => .inl ⟨a, ha, hf⟩, fun a ha f hf h => ?_, fun f _ h h' => ?_,
    fun f _ h h' => ?_⟩
  · rcases h with ⟨b, hb, hfb⟩ | ⟨-, h⟩
    · exact hdis b hb a ha f hfb hf
    · exact h a ha hf
  · rcases h with h | h
    · exact h
    · exact absurd h.1 h'
  · by_contra hn
    exact h' (.inr ⟨h, fun a ha hd => hn ⟨a, ha, hd⟩⟩)

/-! ## Block compression -/

theorem not_interfere {prev next : List Nat} (h : interfere P prev next = false) :
    ∀ p ∈ prev, ∀ q ∈ next, Indep P p q := by
  intro p hp q hq
  simp only [interfere, List.any_eq_false, Bool.or_eq_true, not_or, Bool.not_eq_true, List.contains_eq_mem,
    decide_eq_true_eq, List.mem_flatMap, not_exists, not_and] at h
  obtain ⟨h1, h2⟩ := h p hp
  exact ⟨fun f hf => (h1 f hf).1 q hq, fun f hf => (h1 f hf).2 q hq, fun f hf => (h2 f hf).1 q hq,
    fun f hf => (h2 f hf).2 q hq⟩

theorem interfere_true {prev next : List Nat} (h : interfere P prev next = true) :
    ∃ p ∈ prev, ∃ q ∈ next, ¬ Indep P p q := by
  simp only [interfere, List.any_eq_true, Bool.or_eq_true, List.contains_eq_mem, decide_eq_true_eq,
    List.mem_flatMap] at h
  obtain ⟨p, hp, ⟨f, hf, ⟨q, hq, h⟩ | ⟨q, hq, h⟩⟩ | ⟨f, hf, ⟨q, hq, h⟩ | ⟨q, hq, h⟩⟩⟩ := h
  · exact ⟨p, hp, q, hq, fun hi => hi.ap f hf h⟩
  · exact ⟨p, hp, q, hq, fun hi => hi.ad f hf h⟩
  · exact ⟨p, hp, q, hq, fun hi => hi.dp f hf h⟩
  · exact ⟨p, hp, q, hq, fun hi => hi.da f hf h⟩

/-- The leaves of a block do not interfere. -/
def BlockOK (P : Problem) (acts : List (List Nat)) (b : List Nat) : Prop :=
  b.Pairwise fun l l' => ∀ p ∈ acts[l]?.getD [], ∀ q ∈ acts[l']?.getD [], Indep P p q

theorem blocksFrom_spec {all : List (List Nat)} : ∀ (acts : List (List Nat)) (l : Nat) (cur ps : List Nat),
    (∀ i, acts[i]? = all[l + i]?) → (∀ p, p ∈ ps ↔ ∃ j ∈ cur, p ∈ all[j]?.getD []) → BlockOK P all cur →
    (blocksFrom P acts l cur ps).flatten = cur ++ List.range' l acts.length ∧
    (∀ b ∈ blocksFrom P acts l cur ps, BlockOK P all b) ∧ blocksFrom P acts l cur ps ≠ [] := by
  intro acts
  induction acts with
  | nil =>
    intro l cur ps _ _ hb
    refine ⟨by simp [blocksFrom], fun b h => ?_, by simp [blocksFrom]⟩
    simp only [blocksFrom, List.mem_cons, List.not_mem_nil, or_false] at h
    rw [h]; exact hb
  | cons a acts ih =>
    intro l cur ps hall hps hb
    have h0 : all[l]? = some a := by have := hall 0; simpa using this.symm
    have hall' : ∀ i, acts[i]? = all[l + 1 + i]? := fun i => by
      have := hall (i + 1)
      rw [List.getElem?_cons_succ] at this
      rw [this]; congr 1; omega
    simp only [blocksFrom, List.length_cons, List.range'_succ]
    by_cases hint : interfere P ps a = true
    · rw [if_pos hint]
      obtain ⟨h1, h2, -⟩ := ih (l + 1) [l] a hall' (fun p => by simp [h0]) (List.pairwise_singleton _ _)
      refine ⟨by rw [List.flatten_cons, h1]; simp, fun b h => ?_, by simp⟩
      rcases List.mem_cons.1 h with rfl | h
      · exact hb
      · exact h2 b h
    · rw [if_neg hint]
      have hni := not_interfere (Bool.eq_false_iff.2 hint)
      obtain ⟨h1, h2, h3⟩ := ih (l + 1) (cur ++ [l]) (ps ++ a) hall'
        (fun p => by
          simp only [List.mem_append, hps, List.mem_cons, List.not_mem_nil, or_false]
          constructor
          · rintro (⟨j, hj, hp⟩ | hp)
            · exact ⟨j, .inl hj, hp⟩
            · exact ⟨l, .inr rfl, by rw [h0]; exact hp⟩
          · rintro ⟨j, hj | rfl, hp⟩
            · exact .inl ⟨j, hj, hp⟩
            · rw [h0] at hp; exact .inr hp)
        (by
          refine List.pairwise_append.2 ⟨hb, List.pairwise_singleton _ _, fun j hj j' hj' p hp q hq => ?_⟩
          simp only [List.mem_cons, List.not_mem_nil, or_false] at hj'
          subst hj'
          rw [h0] at hq
          exact hni p ((hps p).2 ⟨j, hj, hp⟩) q hq)
      exact ⟨by rw [h1]; simp, h2, h3⟩

theorem blockCompression_spec (acts : List (List Nat)) :
    (blockCompression P acts).flatten = List.range acts.length ∧ (∀ b ∈ blockCompression P acts, BlockOK P acts b) ∧
    blockCompression P acts ≠ [] := by
  have := blocksFrom_spec (P := P) (all := acts) acts 0 [] [] (fun i => by simp) (fun p => by simp) List.Pairwise.nil
  rw [List.range_eq_range']
  simpa [blockCompression] using this

/-! ## The formula as a whole -/

/-- The actions of all leaves that are selected, in the order of the leaves. -/
def selected (v : Assignment) (vars : List (List (Nat × Nat))) : List Nat := vars.flatMap (selOf v)

theorem selOf_congr {v w : Assignment} {acts : List (Nat × Nat)} {n : Nat} (h : ∀ i ≤ n, w i = v i)
    (hv : ∀ e ∈ acts, e.1 ≤ n) : selOf w acts = selOf v acts := by
  unfold selOf
  congr 1
  exact List.filter_congr fun e he => h _ (hv e he)

theorem selOf_flatMap (v : Assignment) (ls : List Nat) (g : Nat → List (Nat × Nat)) :
    selOf v (ls.flatMap g) = ls.flatMap fun l => selOf v (g l) := by
  induction ls with
  | nil => rfl
  | cons a ls ih => simp only [List.flatMap_cons, ← ih]; simp [selOf]

theorem flatMap_range_getD {α : Type} (l : List (List α)) :
    (List.range l.length).flatMap (fun i => l[i]?.getD []) = l.flatten := by
  have : (List.range l.length).map (fun i => l[i]?.getD []) = l := by
    apply List.ext_getElem
    · simp
    · intro i h1 h2
      simp at h1
      simp [h1]
  rw [List.flatMap_def, this]

theorem selOf_flatten (v : Assignment) (vars : List (List (Nat × Nat))) :
    selOf v vars.flatten = selected v vars := by
  rw [← flatMap_range_getD, selOf_flatMap]
  have : (fun l : Nat => selOf v (vars[l]?.getD [])) = fun l => (vars.map (selOf v))[l]?.getD [] := by
    funext l
    rw [List.getElem?_map]
    cases vars[l]? <;> simp [selOf]
  rw [this]
  have := flatMap_range_getD (vars.map (selOf v))
  rw [List.length_map] at this
  rw [this, selected, List.flatMap_def]

/-- The blocks together select what the leaves select. -/
theorem selected_blocks {v : Assignment} {vars : List (List (Nat × Nat))} {blocks : List (List Nat)}
    (hb : blocks.flatten = List.range vars.length) :
    blocks.flatMap (fun b => selOf v (blockActs vars b)) = selected v vars := by
  rw [← selOf_flatten, ← flatMap_range_getD, ← hb]
  clear hb
  induction blocks with
  | nil => rfl
  | cons b bs ih =>
    rw [List.flatMap_cons, ih, List.flatten_cons, List.flatMap_append]
    simp [selOf, blockActs]

theorem block_indep_of {acts : List (List Nat)} {v : Assignment} {vars : List (List (Nat × Nat))} {b : List Nat}
    (hb : BlockOK P acts b) (h1 : ∀ l ∈ vars, (selOf v l).length ≤ 1)
    (hsub : ∀ (l : Nat) x, vars[l]? = some x → ∀ a ∈ selOf v x, a ∈ acts[l]?.getD []) :
    (selOf v (blockActs vars b)).Pairwise (Indep P) := by
  unfold blockActs
  rw [selOf_flatMap]
  have hmem : ∀ (l a : Nat), a ∈ selOf v (vars[l]?.getD []) → a ∈ acts[l]?.getD [] := by
    intro l a ha
    cases hvl : vars[l]? with
    | none => rw [hvl] at ha; simp [selOf] at ha
    | some y => rw [hvl] at ha; exact hsub l y hvl a ha
  induction b with
  | nil => simp
  | cons l b ih =>
    rw [List.flatMap_cons]
    obtain ⟨hl, hb⟩ := List.pairwise_cons.1 hb
    refine List.pairwise_append.2 ⟨?_, ih hb, fun p hp q hq => ?_⟩
    · cases hvl : vars[l]? with
      | none => simp [selOf]
      | some x =>
        have := h1 x (List.mem_of_getElem? hvl)
        simp only [Option.getD_some]
        match hs : selOf v x with
        | [] => exact List.Pairwise.nil
        | [_] => exact List.pairwise_singleton _ _
        | _ :: _ :: _ => rw [hs] at this; simp at this
    · obtain ⟨l', hl', hq⟩ := List.mem_flatMap.1 hq
      exact hl l' hl' p (hmem l p hp) q (hmem l' q hq)

theorem block_indep {v : Assignment} {vars : List (List (Nat × Nat))} {b : List Nat}
    (hb : BlockOK P (vars.map fun l => l.map (·.2)) b) (h1 : ∀ l ∈ vars, (selOf v l).length ≤ 1) :
    (selOf v (blockActs vars b)).Pairwise (Indep P) := by
  refine block_indep_of hb h1 fun l x hx a ha => ?_
  obtain ⟨e, he, -⟩ := mem_selOf.1 ha
  rw [List.getElem?_map, hx]
  exact List.mem_map.2 ⟨_, he, rfl⟩

theorem exec_facts (hP : P.WF) {s s' : State} {π : List Nat} (h : Exec P s π s') (hs : ∀ f, s f → f < P.numFacts) :
    ∀ f, s' f → f < P.numFacts := by
  induction h with
  | nil => exact hs
  | cons h1 h2 ih =>
    refine ih fun f hf => ?_
    rcases hf with h | h
    · exact hP.add_lt _ f h
    · exact hs f h.1

/-- An execution of a concatenation, cut at the boundaries. -/
theorem exec_cut : ∀ (As : List (List Nat)) (s s' : State), Exec P s As.flatten s' →
    ∃ σ : Nat → State, σ 0 = s ∧ σ As.length = s' ∧ ∀ t (ht : t < As.length), Exec P (σ t) As[t] (σ (t + 1)) := by
  intro As
  induction As with
  | nil => intro s s' h; cases h; exact ⟨fun _ => s, rfl, rfl, fun t ht => absurd ht (Nat.not_lt_zero _)⟩
  | cons A As ih =>
    intro s s' h
    rw [List.flatten_cons, exec_append] at h
    obtain ⟨s1, h1, h2⟩ := h
    obtain ⟨σ, h3, h4, h5⟩ := ih s1 s' h2
    refine ⟨fun t => match t with | 0 => s | t + 1 => σ t, rfl, h4, fun t ht => ?_⟩
    cases t with
    | zero => simpa [h3] using h1
    | succ t => exact h5 t (by simpa using ht)

/-- The number of variables after the formula. -/
theorem stateFormula_some {n : Nat} {vars blocks r} (h : stateFormula P n vars blocks = some r) :
    blocks ≠ [] ∧ (∀ b ∈ blocks, ∀ l ∈ b, l < vars.length) ∧
    r.1 = n + (blocks.length + 1) * max 1 P.numFacts ∧ r.2.1 = (List.range blocks.length).map (stateBase P n) := by
  unfold stateFormula at h
  split_ifs at h with h1 h2
  simp only [Option.some.injEq] at h
  subst h
  exact ⟨h1, fun b hb l hl => by simpa using List.all_eq_true.1 (List.all_eq_true.1 h2 b hb) l hl, rfl, rfl⟩

/-- In a model of the formula, the state variables give the states of the execution. -/
theorem stateFormula_states_of (hP : P.WF) {n : Nat} {vars blocks r} (h : stateFormula P n vars blocks = some r)
    (hv : ∀ l ∈ vars, ∀ e ∈ l, 0 < e.1)
    {w : Assignment} (hw : satAll w r.2.2) (hind : ∀ b ∈ blocks, (selOf w (blockActs vars b)).Pairwise (Indep P)) :
    ∀ t ≤ blocks.length, Exec P P.initState ((blocks.take t).flatMap fun b => selOf w (blockActs vars b))
      (stOf P w (stateBase P n t)) := by
  obtain ⟨hi, hg, ht⟩ := (stateFormula_sat hP h hv w).1 hw
  intro t
  induction t with
  | zero => intro _; rw [hi]; exact .nil _
  | succ t ih =>
    intro hle
    have hlt : t < blocks.length := hle
    rw [List.take_add_one, List.getElem?_eq_getElem hlt, Option.toList_some, List.flatMap_append, exec_append]
    refine ⟨_, ih (by omega), ?_⟩
    rw [List.flatMap_cons, List.flatMap_nil, List.append_nil]
    have := ht t hlt
    rw [List.getElem?_eq_getElem hlt, Option.getD_some] at this
    exact trans_exec (hind _ (List.getElem_mem hlt)) (fun f h => h.1) (fun f h => h.1) this

/-- The same for leaves with at most one selected action each and blocks without interference. -/
theorem stateFormula_states (hP : P.WF) {n : Nat} {vars blocks r} (h : stateFormula P n vars blocks = some r)
    (hv : ∀ l ∈ vars, ∀ e ∈ l, 0 < e.1) (hblk : ∀ b ∈ blocks, BlockOK P (vars.map fun l => l.map (·.2)) b)
    {w : Assignment} (hw : satAll w r.2.2) (h1 : ∀ l ∈ vars, (selOf w l).length ≤ 1) :
    ∀ t ≤ blocks.length, Exec P P.initState ((blocks.take t).flatMap fun b => selOf w (blockActs vars b))
      (stOf P w (stateBase P n t)) :=
  stateFormula_states_of hP h hv hw fun b hb => block_indep (hblk b hb) h1

/-- A model of the formula selects an executable sequence that leads to a goal state. -/
theorem stateFormula_sound_of (hP : P.WF) {n : Nat} {vars blocks r} (h : stateFormula P n vars blocks = some r)
    (hv : ∀ l ∈ vars, ∀ e ∈ l, 0 < e.1) (hfl : blocks.flatten = List.range vars.length)
    {w : Assignment} (hw : satAll w r.2.2) (hind : ∀ b ∈ blocks, (selOf w (blockActs vars b)).Pairwise (Indep P)) :
    ∃ s', Exec P P.initState (selected w vars) s' ∧ P.GoalState s' := by
  have := stateFormula_states_of hP h hv hw hind blocks.length (Nat.le_refl _)
  rw [List.take_length, selected_blocks hfl] at this
  exact ⟨_, this, ((stateFormula_sat hP h hv w).1 hw).2.1⟩

theorem stateFormula_sound (hP : P.WF) {n : Nat} {vars blocks r} (h : stateFormula P n vars blocks = some r)
    (hv : ∀ l ∈ vars, ∀ e ∈ l, 0 < e.1) (hfl : blocks.flatten = List.range vars.length)
    (hblk : ∀ b ∈ blocks, BlockOK P (vars.map fun l => l.map (·.2)) b)
    {w : Assignment} (hw : satAll w r.2.2) (h1 : ∀ l ∈ vars, (selOf w l).length ≤ 1) :
    ∃ s', Exec P P.initState (selected w vars) s' ∧ P.GoalState s' :=
  stateFormula_sound_of hP h hv hfl hw fun b hb => block_indep (hblk b hb) h1

open Classical in
/-- An executable sequence that leads to a goal state gives a model of the formula. -/
theorem stateFormula_complete_of (hP : P.WF) {n : Nat} {vars blocks r} (h : stateFormula P n vars blocks = some r)
    (hv : ∀ l ∈ vars, ∀ e ∈ l, 0 < e.1 ∧ e.1 ≤ n) (hfl : blocks.flatten = List.range vars.length)
    (v : Assignment) (hc : ∀ a ∈ selected v vars, NoClash P a)
    (hind : ∀ b ∈ blocks, (selOf v (blockActs vars b)).Pairwise (Indep P))
    {s' : State} (hex : Exec P P.initState (selected v vars) s') (hg : P.GoalState s') :
    ∃ w, (∀ i ≤ n, w i = v i) ∧ satAll w r.2.2 := by
  have hacts : ∀ b, ∀ e ∈ blockActs vars b, e.1 ≤ n := by
    intro b e he
    simp only [blockActs, List.mem_flatMap] at he
    obtain ⟨l, -, he⟩ := he
    cases hl : vars[l]? with
    | none => rw [hl] at he; simp at he
    | some x => rw [hl] at he; exact (hv x (List.mem_of_getElem? hl) e he).2
  rw [← selected_blocks hfl] at hc
  rw [← selected_blocks hfl, List.flatMap_def] at hex
  obtain ⟨σ, h3, h4, h5⟩ := exec_cut _ _ _ hex
  rw [List.length_map] at h4
  replace h5 := fun t (ht : t < blocks.length) => h5 t (by rw [List.length_map]; exact ht)
  have hσ : ∀ t ≤ blocks.length, ∀ f, σ t f → f < P.numFacts := by
    intro t
    induction t with
    | zero => intro _ f hf; rw [h3] at hf; exact hP.s0_lt f hf
    | succ t ih => intro hle; exact exec_facts hP (h5 t hle) (ih (by omega))
  let m := max 1 P.numFacts
  let w : Assignment := fun i => if i ≤ n then v i else decide (σ ((i - n - 1) / m) ((i - n - 1) % m))
  have hm : 0 < m := by simp only [m]; omega
  have hst : ∀ t ≤ blocks.length, stOf P w (stateBase P n t) = σ t := by
    intro t ht
    funext f
    apply propext
    constructor
    · rintro ⟨hf, hw⟩
      have hfm : f < m := by simp only [m]; omega
      have e1 : stateBase P n t + f - n - 1 = f + m * t := by
        unfold stateBase; rw [Nat.mul_comm t]; simp only [m]; omega
      have e2 : ¬ stateBase P n t + f ≤ n := by unfold stateBase; omega
      simp only [w, if_neg e2, e1, Nat.add_mul_div_left _ _ hm, Nat.add_mul_mod_self_left, Nat.div_eq_of_lt hfm,
        Nat.mod_eq_of_lt hfm, Nat.zero_add, decide_eq_true_eq] at hw
      exact hw
    · intro hs
      have hf := hσ t ht f hs
      have hfm : f < m := by simp only [m]; omega
      have e1 : stateBase P n t + f - n - 1 = f + m * t := by
        unfold stateBase; rw [Nat.mul_comm t]; simp only [m]; omega
      have e2 : ¬ stateBase P n t + f ≤ n := by unfold stateBase; omega
      refine ⟨hf, ?_⟩
      simp only [w, if_neg e2, e1, Nat.add_mul_div_left _ _ hm, Nat.add_mul_mod_self_left, Nat.div_eq_of_lt hfm,
        Nat.mod_eq_of_lt hfm, Nat.zero_add, decide_eq_true_eq]
      exact hs
  have hwv : ∀ i ≤ n, w i = v i := fun i hi => if_pos hi
  refine ⟨w, hwv, (stateFormula_sat hP h (fun l hl e he => (hv l hl e he).1) w).2 ⟨?_, ?_, fun t ht => ?_⟩⟩
  · rw [hst 0 (by omega), h3]
  · rw [hst _ (Nat.le_refl _), h4]; exact hg
  · rw [hst t (by omega), hst (t + 1) ht, List.getElem?_eq_getElem ht, Option.getD_some,
      selOf_congr hwv fun e he => hacts _ e he]
    have := h5 t ht
    rw [List.getElem_map] at this
    exact exec_trans (hind _ (List.getElem_mem ht))
      (fun a ha => hc a (List.mem_flatMap.2 ⟨_, List.getElem_mem ht, ha⟩)) this

theorem stateFormula_complete (hP : P.WF) {n : Nat} {vars blocks r} (h : stateFormula P n vars blocks = some r)
    (hv : ∀ l ∈ vars, ∀ e ∈ l, 0 < e.1 ∧ e.1 ≤ n) (hfl : blocks.flatten = List.range vars.length)
    (hblk : ∀ b ∈ blocks, BlockOK P (vars.map fun l => l.map (·.2)) b)
    (v : Assignment) (hc : ∀ a ∈ selected v vars, NoClash P a) (h1 : ∀ l ∈ vars, (selOf v l).length ≤ 1)
    {s' : State} (hex : Exec P P.initState (selected v vars) s') (hg : P.GoalState s') :
    ∃ w, (∀ i ≤ n, w i = v i) ∧ satAll w r.2.2 :=
  stateFormula_complete_of hP h hv hfl v hc (fun b hb => block_indep (hblk b hb) h1) hex hg

theorem unit_blockOK (acts : List (List Nat)) (l : Nat) : BlockOK P acts [l] := List.pairwise_singleton _ _

theorem unit_flatten (n : Nat) : ((List.range n).map fun l => [l]).flatten = List.range n := by
  rw [← List.flatMap_def, List.flatMap_singleton']

end Verif.Sat
