import Verif.StripsEq
import Verif.Props.PushTranslate

/-! # Property theorems C81, C82: the translation of partially ordered problems to SAS+ without conditional effects -/

namespace Verif.Props

open Verif.Htn Verif.Sas Relation

/-- Every method with a first subtask also has a last one. -/
def FirstLast (P : Problem) : Prop := ∀ m < P.numMethods, (∀ i, 0 < i → i < (P.sub m).length → TransGen (P.OrdRel m) 0 i) →
  ∀ i, i + 1 < (P.sub m).length → TransGen (P.OrdRel m) i ((P.sub m).length - 1)

/-- The numbers of ways to choose the cells for the subtasks of a method can be computed with the types that are used. -/
def BinFits (P : Problem) (B : Nat) : Prop := ∀ m < P.numMethods, 2 ≤ (P.sub m).length → ∀ k, k = (P.sub m).length - 1 ∨ k = (P.sub m).length →
  (∀ i < k, (B - 1).choose i * (B - 1 - i) < 2 ^ 63) ∧ (B - 1).choose k < 2 ^ 31 - 1

theorem FirstLast.lastOk {P : Problem} {vars : List (Nat × Nat)} {nA nT : Nat} (h : FirstLast P) (hin : PushInput P vars nA nT) : LastOk P :=
  fun m hm hnl => h m hm fun _ h0 hi => mNl_first hin hm hnl h0 hi

/-- **C81** (partial: only if `reorderTasks` can handle the orderings of the methods, `PushInput.top`, every method with a first subtask
has a last one, the numbers of operators fit, and for `SasInput`, `S0Fits`, see C62): the translation with `B` cells is defined, its
result is a well-formed SAS+ task, the actions of its plans are solutions, and the costs of a plan are those of the solution and those
of the first action for each operator that removes an empty task. -/
theorem C81_strips_translate_partial (P : Problem) (vars : List (Nat × Nat)) (nA nT B : Nat) (hin : PushInput P vars nA nT)
    (hd : PrecsDiffer P vars nA) (hfl : FirstLast P) (hB : 0 < B) (hbin : BinFits P B) :
    ∃ T, stTranslate P vars nA nT B = some T ∧ T.WF ∧
      ∀ ρ, T.Plan ρ → IsSolution P (stActs ρ) ∧
        planCost ρ = P.planCost (stActs ρ) + stEmpties ρ * if nA = 0 then 0 else P.cost 0 := by
  have hcnt : ∀ m < P.numMethods, ∃ c, stCount B (P.sub m).length (mNl P m) = some c := fun m hm => stCount_some (hbin m hm)
  obtain ⟨T, hT, -, hwf, -⟩ := stTranslate_eq hin hB hcnt
  exact ⟨T, hT, hwf, (stPlans hin (hd.precFun hin.sas.contig) (hfl.lastOk hin) hB hcnt hT).1⟩

/-- **C82** (partial, see C81): a solution with `k` decompositions by methods with at most `M` subtasks is a plan of the translation for
each number of cells from `1 + k * M` on. -/
theorem C82_strips_complete_partial (P : Problem) (vars : List (Nat × Nat)) (nA nT : Nat) (hin : PushInput P vars nA nT)
    (hd : PrecsDiffer P vars nA) (hfl : FirstLast P) (M : Nat) (hM : ∀ m < P.numMethods, (P.sub m).length ≤ M) (π : List Nat) (k : Nat)
    (hs : IsSolutionN P π k) (B : Nat) (hB : 1 + k * M ≤ B) (hbin : BinFits P B) :
    ∃ T ρ, stTranslate P vars nA nT B = some T ∧ T.Plan ρ ∧ stActs ρ = π := by
  have hcnt : ∀ m < P.numMethods, ∃ c, stCount B (P.sub m).length (mNl P m) = some c := fun m hm => stCount_some (hbin m hm)
  obtain ⟨T, hT, -⟩ := stTranslate_eq hin (by omega) hcnt
  obtain ⟨ρ, h1, h2⟩ := (stPlans hin (hd.precFun hin.sas.contig) (hfl.lastOk hin) (by omega) hcnt hT).2 M hM π k hs hB
  exact ⟨T, ρ, hT, h1, h2⟩

/-- If the first action costs nothing, a plan of least costs is a solution that is not more expensive than any with at most `k`
decompositions. -/
theorem C82_strips_optimal_partial (P : Problem) (vars : List (Nat × Nat)) (nA nT : Nat) (hin : PushInput P vars nA nT)
    (hd : PrecsDiffer P vars nA) (hfl : FirstLast P) (h0 : P.cost 0 = 0) (M : Nat) (hM : ∀ m < P.numMethods, (P.sub m).length ≤ M) (k B : Nat)
    (hB : 1 + k * M ≤ B) (hbin : BinFits P B) (T : STask SLab) (hT : stTranslate P vars nA nT B = some T) (ρ : List (SLab × SOp))
    (hρ : T.Plan ρ) (hopt : ∀ ρ', T.Plan ρ' → planCost ρ ≤ planCost ρ') :
    IsSolution P (stActs ρ) ∧ ∀ π k', k' ≤ k → IsSolutionN P π k' → P.planCost (stActs ρ) ≤ P.planCost π := by
  obtain ⟨T', hT', -, h1⟩ := C81_strips_translate_partial P vars nA nT B hin hd hfl (by omega) hbin
  rw [hT] at hT'
  cases hT'
  have hcost : ∀ ρ, T.Plan ρ → planCost ρ = P.planCost (stActs ρ) := by
    intro ρ hρ
    have := (h1 ρ hρ).2
    rw [h0, ite_self, Nat.mul_zero, Nat.add_zero] at this
    exact this
  refine ⟨(h1 ρ hρ).1, fun π k' hk hs => ?_⟩
  have hle : k' * M ≤ k * M := Nat.mul_le_mul_right _ hk
  obtain ⟨T', ρ', hT', g1, rfl⟩ := C82_strips_complete_partial P vars nA nT hin hd hfl M hM π k' hs B (by omega) hbin
  rw [hT] at hT'
  cases hT'
  rw [← hcost ρ hρ, ← hcost ρ' g1]
  exact hopt ρ' g1

/-- If the problem has no solution, no translation has a plan; if a translation with `B` cells has none, there is no solution with
few decompositions. -/
theorem C82_strips_unsolvable_partial (P : Problem) (vars : List (Nat × Nat)) (nA nT : Nat) (hin : PushInput P vars nA nT)
    (hd : PrecsDiffer P vars nA) (hfl : FirstLast P) (M : Nat) (hM : ∀ m < P.numMethods, (P.sub m).length ≤ M) (B : Nat) (hB : 0 < B)
    (hbin : BinFits P B) (T : STask SLab) (hT : stTranslate P vars nA nT B = some T) :
    ((∀ π, ¬ IsSolution P π) → ∀ ρ, ¬ T.Plan ρ) ∧ ((∀ ρ, ¬ T.Plan ρ) → ∀ π k, 1 + k * M ≤ B → ¬ IsSolutionN P π k) := by
  refine ⟨fun h ρ hρ => ?_, fun h π k hk hs => ?_⟩
  · obtain ⟨T', hT', -, h1⟩ := C81_strips_translate_partial P vars nA nT B hin hd hfl hB hbin
    rw [hT] at hT'
    cases hT'
    exact h _ (h1 ρ hρ).1
  · obtain ⟨T', ρ', hT', g1, -⟩ := C82_strips_complete_partial P vars nA nT hin hd hfl M hM π k hs B hk hbin
    rw [hT] at hT'
    cases hT'
    exact h _ g1

/-! ## A problem that meets the hypotheses -/

/-- Executing operators given by their names. -/
def execS (T : STask SLab) : List SLab → Val → Option (List (SLab × SOp) × Val)
  | [], σ => some ([], σ)
  | l :: r, σ => match T.ops.find? fun x => x.1 == l with
    | none => none
    | some x => if x.2.App σ then (execS T r (x.2.res σ)).map fun y => (x :: y.1, y.2) else none

theorem execS_run {T : STask SLab} : ∀ {l : List SLab} {σ σ' : Val} {ρ : List (SLab × SOp)}, execS T l σ = some (ρ, σ') →
    SRun T σ ρ σ' := by
  intro l
  induction l with
  | nil =>
    intro σ σ' ρ h
    simp only [execS, Option.some.injEq, Prod.mk.injEq] at h
    obtain ⟨rfl, rfl⟩ := h
    exact .nil _
  | cons i r ih =>
    intro σ σ' ρ h
    rw [execS] at h
    cases hx : T.ops.find? fun x => x.1 == i with
    | none => simp [hx] at h
    | some x =>
      rw [hx] at h
      simp only at h
      split at h
      · rename_i happ
        obtain ⟨y, hy, e⟩ := Option.map_eq_some_iff.1 h
        cases e
        exact .cons (List.mem_of_find?_eq_some hx) happ (ih hy)
      · cases h

/-- Executing the operators leads to the goal, the plan has the actions `π` and the costs `c`. -/
def planS (T : STask SLab) (l : List SLab) (π : List Nat) (c : Nat) : Bool := match execS T l T.start with
  | none => false
  | some y => T.goal.all (fun g => y.2 g.1 == g.2) && decide (stActs y.1 = π ∧ planCost y.1 = c)

theorem planS_plan {T : STask SLab} {l : List SLab} {π : List Nat} {c : Nat} (h : planS T l π c = true) :
    ∃ ρ, T.Plan ρ ∧ stActs ρ = π ∧ planCost ρ = c := by
  rw [planS] at h
  cases he : execS T l T.start with
  | none => simp [he] at h
  | some y =>
    rw [he] at h
    simp only [Bool.and_eq_true, List.all_eq_true, beq_iff_eq, decide_eq_true_eq] at h
    exact ⟨y.1, ⟨y.2, execS_run he, h.1⟩, h.2⟩

theorem psP_firstLast : FirstLast psP := by
  intro m hm h i hi
  have hm4 : m < 4 := hm
  have key : ∀ i j, TransGen (psP.OrdRel 0) i j → i = 1 ∧ j = 2 := by
    intro i j h
    induction h with
    | single h => simpa [Problem.OrdRel, psP] using h
    | tail _ h ih =>
      simp [Problem.OrdRel, psP] at h
      omega
  interval_cases m
  · have := (key 0 1 (h 1 (by omega) (by simp [psP]))).1
    omega
  · obtain rfl : i = 0 := by simp [psP] at hi; omega
    exact .single (by simp [Problem.OrdRel, psP])
  · simp [psP] at hi
  · obtain rfl : i = 0 := by simp [psP] at hi; omega
    exact .single (by simp [Problem.OrdRel, psP])

theorem psP_binFits : BinFits psP 6 := by
  intro m hm h2 k hk
  have hm4 : m < 4 := hm
  have hk3 : k ≤ 3 := by
    interval_cases m <;> simp [psP] at hk <;> omega
  refine ⟨fun i hi => ?_, ?_⟩
  · have : i < 3 := by omega
    interval_cases i <;> decide
  · interval_cases k <;> decide

/-- The translation of this problem has a plan in which the tasks are interleaved; one operator is for an empty task. -/
theorem psP_strips_plan : ∃ T ρ, stTranslate psP [(0, 0), (1, 1)] 3 6 6 = some T ∧ T.Plan ρ ∧ stActs ρ = [1, 0, 1, 0] ∧
    planCost ρ = 7 := by
  obtain ⟨ρ, h1, h2, h3⟩ := planS_plan (T := (stTranslate psP [(0, 0), (1, 1)] 3 6 6).get (by decide +kernel))
    (l := [.meth 0 0 [1, 2, 3], .meth 1 2 [2, 4], .meth 2 3 [3], .prim 1 3, .prim 0 4, .meth 2 2 [2], .prim 1 2, .prim 0 1, .empty 0])
    (π := [1, 0, 1, 0]) (c := 7) (by decide +kernel)
  exact ⟨_, ρ, (Option.some_get _).symm, h1, h2, h3⟩

/-- The hypotheses of C81 and C82 are met by a problem with a solution. -/
example : PushInput psP [(0, 0), (1, 1)] 3 6 ∧ PrecsDiffer psP [(0, 0), (1, 1)] 3 ∧ FirstLast psP ∧ BinFits psP 6 ∧
    (∀ m < psP.numMethods, (psP.sub m).length ≤ 3) ∧ IsSolution psP [1, 0, 1, 0] := by
  obtain ⟨T, ρ, h1, h2, h3, -⟩ := psP_strips_plan
  obtain ⟨T', hT', -, k1⟩ := C81_strips_translate_partial psP _ 3 6 6 psP_push psP_differ psP_firstLast (by omega) psP_binFits
  rw [h1] at hT'
  cases hT'
  refine ⟨psP_push, psP_differ, psP_firstLast, psP_binFits, fun m _ => ?_, h3 ▸ (k1 ρ h2).1⟩
  simp only [psP]
  split_ifs <;> simp

/-- The hypotheses of C82 are met with a number of decompositions. -/
example : PushInput (psQ true true true) [(0, 0)] 2 3 ∧ PrecsDiffer (psQ true true true) [(0, 0)] 2 ∧ FirstLast (psQ true true true) ∧
    (∀ m < (psQ true true true).numMethods, ((psQ true true true).sub m).length ≤ 2) ∧ IsSolutionN (psQ true true true) [0, 1] 1 ∧
    BinFits (psQ true true true) (1 + 1 * 2) := by
  refine ⟨psQ_push _ _ _, psQ_differ _ _ _, fun m _ _ i hi => ?_, fun m _ => by simp [psQ], ?_, fun m hm h2 k hk => ?_⟩
  · obtain rfl : i = 0 := by simp [psQ] at hi; omega
    exact .single (by simp [Problem.OrdRel, psQ])
  · obtain ⟨k, tr, hv, hk, hr⟩ := psQ_solution
    obtain ⟨cs, rfl, h0, h1⟩ := psQ_tree hv
    refine ⟨.node 0 cs, hv, ?_, hr⟩
    have : ((psQ true true true).sub 0).length = 2 := rfl
    simp [Tree.inner, this, Finset.sum_range_succ, h0, h1]
  · have hk2 : k ≤ 2 := by simp [psQ] at hk; omega
    refine ⟨fun i hi => ?_, ?_⟩
    · have : i < 2 := by omega
      interval_cases i <;> decide
    · interval_cases k <;> decide

/-! ## Where the code is wrong -/

/-- The initial task 6 is decomposed into 5 and, after it, the action 4; the task 5 into the actions 0 to 3: first 0, then 1 and the
sequence of 2 and 3. -/
def stF : Problem where
  numFacts := 1
  prim t := decide (t < 5)
  prec _ := []
  add _ := []
  del _ := []
  cost _ := 1
  numMethods := 2
  head m := if m = 0 then 6 else 5
  sub m := if m = 0 then [5, 4] else [0, 1, 2, 3]
  ord m := if m = 0 then [(0, 1)] else [(0, 1), (0, 2), (2, 3)]
  init := 6
  s0 := []
  goal := []

theorem stF_push : PushInput stF [(0, 0)] 5 7 where
  wf :=
    { ord_lt := by
        intro m _ i j h
        simp only [stF] at h ⊢
        split_ifs at h ⊢ <;> simp at h ⊢ <;> omega
      ord_acyclic := by
        intro m _
        refine ⟨fun i => i, fun i j h => ?_⟩
        simp only [stF] at h ⊢
        split_ifs at h <;> simp at h <;> omega
      sub_ne := by
        intro m _
        simp only [stF]
        split_ifs <;> simp
      head_abs := by
        intro m _
        simp only [stF]
        split_ifs <;> simp
      init_abs := by simp [stF]
      prec_lt := by simp [stF]
      add_lt := by simp [stF]
      del_lt := by simp [stF]
      s0_lt := by simp [stF]
      goal_lt := by simp [stF] }
  sas :=
    { ne := by simp
      contig := by simp [Contig, stF]
      inv := by
        intro π s _ v hv hlt
        simp only [List.mem_cons, List.not_mem_nil, or_false] at hv
        subst hv
        simp at hlt
      noClash := by simp [stF]
      sorted := by simp [stF] }
  fits := by
    intro _ f hf
    simp [stF] at hf
  prim _ := rfl
  nA_le := by omega
  head_lt m _ := by simp only [stF]; split_ifs <;> omega
  sub_lt m _ t ht := by
    simp only [stF] at ht
    split_ifs at ht <;> simp at ht <;> omega
  init_lt := by simp [stF]
  top m _ := by
    simp only [stF]
    split_ifs <;> simp [TopOrd]

/-- Action 1 is before action 4 in each solution. -/
theorem stF_order : ¬ IsSolution stF [0, 2, 3, 4, 1] := by
  rintro ⟨k, tr, hv, -, ⟨occ, hl⟩, -⟩
  have leaf : ∀ a, a < 5 → ∀ tr, Valid stF a tr → tr = .leaf a := by
    intro a ha tr h
    generalize hu : a = u at h
    cases h with
    | leaf => rfl
    | node => simp only [stF] at hu; split_ifs at hu <;> omega
  have hroot : ∃ cs : Nat → Tree, tr = .node 0 cs ∧ (∃ cs', cs 0 = .node 1 cs' ∧ ∀ i < 4, cs' i = .leaf i) ∧ cs 1 = .leaf 4 := by
    generalize ht : stF.init = t at hv
    cases hv with
    | leaf hp =>
      subst ht
      simp [stF] at hp
    | @node m cs hm hc =>
      have hm2 : m < 2 := hm
      have : m = 0 := by
        by_contra h
        obtain rfl : m = 1 := by omega
        simp [stF] at ht
      subst this
      refine ⟨cs, rfl, ?_, leaf 4 (by omega) _ (hc 1 4 rfl)⟩
      have h5 : Valid stF 5 (cs 0) := hc 0 5 rfl
      generalize ht' : (5 : Nat) = t' at h5
      generalize cs 0 = tr' at h5
      cases h5 with
      | leaf hp =>
        subst ht'
        simp [stF] at hp
      | @node m cs' hm hc =>
        have hm2 : m < 2 := hm
        have : m = 1 := by
          by_contra h
          obtain rfl : m = 0 := by omega
          simp [stF] at ht'
        subst this
        refine ⟨cs', rfl, fun i hi => leaf i (by omega) _ (hc i i ?_)⟩
        interval_cases i <;> rfl
  obtain ⟨cs, rfl, ⟨cs', h0, h0'⟩, h1⟩ := hroot
  have hpos : ∀ p a, LeafAt stF (.node 0 cs) p a → (a = 4 → p = [1]) ∧ (a = 1 → p = [0, 1]) := by
    intro p a h
    cases h with
    | @child _ _ i p a hi h =>
      have : i < 2 := hi
      interval_cases i
      · rw [h0] at h
        cases h with
        | @child _ _ i p a hi h =>
          have hi4 : i < 4 := hi
          rw [h0' i hi4] at h
          cases h
          refine ⟨fun h => by omega, fun h => by subst h; rfl⟩
      · rw [h1] at h
        cases h
        exact ⟨fun _ => rfl, fun h => by omega⟩
  have hlab := hl.labels
  have hord := hl.order
  cases hlab with
  | cons ha hlab =>
    cases hlab with
    | cons hb hlab =>
      cases hlab with
      | cons hc hlab =>
        cases hlab with
        | cons hd hlab =>
          cases hlab with
          | cons he hlab =>
            cases hlab
            obtain rfl := (hpos _ _ hd).1 rfl
            obtain rfl := (hpos _ _ he).2 rfl
            have h2 := (List.pairwise_cons.1 (List.pairwise_cons.1 (List.pairwise_cons.1 (List.pairwise_cons.1 hord).2).2).2).1 [0, 1] (by simp)
            exact h2 (.diff (.single (by simp [Problem.OrdRel, stF])))

/-- `hasNoLastTask` looks for a first subtask, not for a last one: the tasks after a method with a first but no last subtask need not wait
for all of its subtasks, and the translated problem has a plan that is no solution. -/
theorem C81_first_not_last_violated : PushInput stF [(0, 0)] 5 7 ∧ PrecsDiffer stF [(0, 0)] 5 ∧ BinFits stF 5 ∧
    ∃ T ρ, stTranslate stF [(0, 0)] 5 7 5 = some T ∧ T.Plan ρ ∧ stActs ρ = [0, 2, 3, 4, 1] ∧ ¬ IsSolution stF (stActs ρ) := by
  refine ⟨stF_push, fun a _ f hf => by simp [stF] at hf, fun m hm h2 k hk => ?_, ?_⟩
  · have hk4 : k ≤ 4 := by
      have hm2 : m < 2 := hm
      interval_cases m <;> simp [stF] at hk <;> omega
    refine ⟨fun i hi => ?_, ?_⟩
    · have : i < 4 := by omega
      interval_cases i <;> decide
    · interval_cases k <;> decide
  · obtain ⟨ρ, h1, h2, -⟩ := planS_plan (T := (stTranslate stF [(0, 0)] 5 7 5).get (by decide +kernel))
      (l := [.meth 0 0 [0, 1], .meth 1 1 [1, 2, 3, 4], .prim 0 4, .prim 2 2, .prim 3 1, .prim 4 0, .prim 1 3])
      (π := [0, 2, 3, 4, 1]) (c := 5) (by decide +kernel)
    exact ⟨_, ρ, (Option.some_get _).symm, h1, h2, fun hs => stF_order (h2 ▸ hs)⟩

/-- The initial task 3 is decomposed into the action 1 twice, in any order, or into the action 2.  Action 0 is expensive and not needed. -/
def stR : Problem where
  numFacts := 1
  prim t := decide (t < 3)
  prec _ := []
  add _ := []
  del _ := []
  cost t := if t = 0 then 10 else if t = 1 then 1 else 5
  numMethods := 2
  head _ := 3
  sub m := if m = 0 then [1, 1] else [2]
  ord _ := []
  init := 3
  s0 := []
  goal := []

theorem stR_push : PushInput stR [(0, 0)] 3 4 where
  wf :=
    { ord_lt := by simp [stR]
      ord_acyclic m _ := ⟨id, by simp [stR]⟩
      sub_ne := by
        intro m _
        simp only [stR]
        split_ifs <;> simp
      head_abs := by simp [stR]
      init_abs := by simp [stR]
      prec_lt := by simp [stR]
      add_lt := by simp [stR]
      del_lt := by simp [stR]
      s0_lt := by simp [stR]
      goal_lt := by simp [stR] }
  sas :=
    { ne := by simp
      contig := by simp [Contig, stR]
      inv := by
        intro π s _ v hv hlt
        simp only [List.mem_cons, List.not_mem_nil, or_false] at hv
        subst hv
        simp at hlt
      noClash := by simp [stR]
      sorted := by simp [stR] }
  fits := by
    intro _ f hf
    simp [stR] at hf
  prim _ := rfl
  nA_le := by omega
  head_lt m _ := by simp [stR]
  sub_lt m _ t ht := by
    simp only [stR] at ht
    split_ifs at ht <;> simp at ht <;> omega
  init_lt := by simp [stR]
  top m _ := by simp [stR, TopOrd]

theorem stR_firstLast : FirstLast stR := by
  intro m hm h i hi
  have key : ∀ i j, ¬ TransGen (stR.OrdRel m) i j := by
    intro i j h
    induction h with
    | single h => simp [Problem.OrdRel, stR] at h
    | tail _ _ ih => exact ih
  have h2 : 1 < (stR.sub m).length := by omega
  exact absurd (h 1 (by omega) h2) (key _ _)

theorem stR_binFits : BinFits stR 3 := by
  intro m hm h2 k hk
  have hm2 : m < 2 := hm
  have hk2 : k ≤ 2 := by
    interval_cases m <;> simp [stR] at hk <;> omega
  refine ⟨fun i hi => ?_, ?_⟩
  · have : i < 2 := by omega
    interval_cases i <;> decide
  · interval_cases k <;> decide

/-- Lower bounds for the costs to the goal that are consistent with the operators. -/
def potential (T : STask SLab) (S : List (List Nat × Nat)) : Bool :=
  S.all fun l => (l.2 == 0 || T.goal.any fun g => lv l.1 g.1 != g.2) &&
    T.ops.all fun x => x.2.eff.all (fun e => decide (e.1 < l.1.length)) &&
      (!decide (x.2.App (lv l.1)) || S.any fun l' => l'.1 == resL x.2 l.1 && decide (l.2 ≤ x.2.cost + l'.2))

theorem potential_le {T : STask SLab} {S : List (List Nat × Nat)} (h : potential T S = true) {c : Nat} (h0 : (T.init, c) ∈ S)
    {ρ : List (SLab × SOp)} (hρ : T.Plan ρ) : c ≤ planCost ρ := by
  simp only [potential, Bool.and_eq_true, List.all_eq_true, List.any_eq_true, bne_iff_ne, decide_eq_true_eq, beq_iff_eq,
    Bool.or_eq_true, Bool.not_eq_true', decide_eq_false_iff_not] at h
  obtain ⟨σ, hrun, hg⟩ := hρ
  have key : ∀ σ₀ ρ σ, SRun T σ₀ ρ σ → T.Goal σ → ∀ l ∈ S, σ₀ = lv l.1 → l.2 ≤ planCost ρ := by
    intro σ₀ ρ σ hr hg
    induction hr with
    | nil σ =>
      rintro l hl rfl
      rcases (h l hl).1 with h1 | ⟨g, h1, h2⟩
      · omega
      · exact absurd (hg g h1) h2
    | @cons σ σ' x ρ hx happ _ ih =>
      rintro l hl rfl
      obtain ⟨h1, h2⟩ := (h l hl).2 x hx
      rcases h2 with h2 | ⟨l', hl', e, h3⟩
      · exact absurd happ h2
      · have := ih hg l' hl' (by rw [e, resL_eq _ _ h1])
        simp only [planCost, List.map_cons, List.sum_cons] at this ⊢
        omega
  exact key _ _ _ hrun hg _ h0 rfl

/-- The operators for the empty tasks are written with the costs of the first action: a plan of least costs is not a solution of least
costs. -/
theorem C81_empty_cost_violated : PushInput stR [(0, 0)] 3 4 ∧ PrecsDiffer stR [(0, 0)] 3 ∧ FirstLast stR ∧ BinFits stR 3 ∧
    ∃ T ρ ρ', stTranslate stR [(0, 0)] 3 4 3 = some T ∧ T.Plan ρ ∧ (∀ ρ'', T.Plan ρ'' → planCost ρ ≤ planCost ρ'') ∧
      stActs ρ = [2] ∧ T.Plan ρ' ∧ stActs ρ' = [1, 1] ∧ IsSolution stR [1, 1] ∧ stR.planCost [1, 1] < stR.planCost [2] := by
  have hd : PrecsDiffer stR [(0, 0)] 3 := fun a _ f hf => by simp [stR] at hf
  refine ⟨stR_push, hd, stR_firstLast, stR_binFits, ?_⟩
  obtain ⟨ρ, h1, h2, h3⟩ := planS_plan (T := (stTranslate stR [(0, 0)] 3 4 3).get (by decide +kernel))
    (l := [.meth 1 0 [0], .prim 2 0]) (π := [2]) (c := 5) (by decide +kernel)
  obtain ⟨ρ', g1, g2, g3⟩ := planS_plan (T := (stTranslate stR [(0, 0)] 3 4 3).get (by decide +kernel))
    (l := [.meth 0 0 [1, 2], .prim 1 1, .prim 1 2, .empty 0]) (π := [1, 1]) (c := 12) (by decide +kernel)
  obtain ⟨T, hT, -, k⟩ := C81_strips_translate_partial stR _ 3 4 3 stR_push hd stR_firstLast (by omega) stR_binFits
  refine ⟨_, ρ, ρ', (Option.some_get _).symm, h1, fun ρ'' h => ?_, h2, g1, g2, ?_, by decide⟩
  · rw [h3]
    exact potential_le (S := [([1, 5, 0, 0, 0, 0, 0, 0, 0, 0, 1, 0, 0], 5), ([1, 1, 3, 3, 0, 0, 1, 0, 1, 0, 1, 1, 1], 12),
      ([1, 4, 0, 0, 0, 0, 0, 0, 0, 0, 1, 0, 0], 5), ([1, 1, 0, 3, 0, 0, 0, 0, 1, 0, 1, 0, 1], 11),
      ([1, 1, 3, 0, 0, 0, 1, 0, 0, 0, 1, 1, 0], 11), ([1, 0, 0, 0, 0, 0, 0, 0, 0, 0, 0, 0, 0], 0),
      ([1, 1, 0, 0, 0, 0, 0, 0, 0, 0, 1, 0, 0], 10)]) (by decide +kernel) (by decide +kernel) h
  · have : T = (stTranslate stR [(0, 0)] 3 4 3).get (by decide +kernel) := by simp [hT]
    rw [← g2]
    exact (k ρ' (this ▸ g1)).1

/-- `reorderTasks` loses a subtask and executes another one twice: the translated problem has a plan that is no solution. -/
theorem C81_lost_task_violated : ∃ T ρ, stTranslate (psL false) [(0, 0)] 3 4 4 = some T ∧ T.Plan ρ ∧
    stActs ρ = [1, 1, 2] ∧ ¬ IsSolution (psL false) (stActs ρ) := by
  obtain ⟨ρ, h1, h2, -⟩ := planS_plan (T := (stTranslate (psL false) [(0, 0)] 3 4 4).get (by decide +kernel))
    (l := [.meth 0 0 [1, 2, 3], .prim 1 3, .prim 1 2, .prim 2 1, .empty 0]) (π := [1, 1, 2]) (c := 4) (by decide +kernel)
  refine ⟨_, ρ, (Option.some_get _).symm, h1, h2, fun hs => ?_⟩
  have := first_mem rfl (fun _ _ _ => rfl) (by simp [psL]) hs
  rw [h2] at this
  simp at this

/-- The number of operators of a method with two unordered subtasks does not fit for 65538 cells and more: whatever the solutions are,
the translation fails. -/
theorem C82_overflow_violated (s g : Bool) : PushInput (psQ false s g) [(0, 0)] 2 3 ∧
    ∀ B, 65538 ≤ B → stTranslate (psQ false s g) [(0, 0)] 2 3 B = none := by
  refine ⟨psQ_push _ _ _, fun B hB => stTranslate_none (m := 0) (by simp [psQ]) (psQ_push _ _ _) ?_⟩
  have hnl : mNl (psQ false s g) 0 = true := rfl
  have hl : ((psQ false s g).sub 0).length = 2 := rfl
  rw [hnl, hl, stCount, if_neg (by omega)]
  simp only [if_true]
  rw [if_neg (by omega), if_neg (by omega)]
  cases h : binLoop (B - 1) 2 with
  | none => rfl
  | some b =>
    rw [Option.bind_some, if_neg]
    rw [binLoop_eq h]
    have h1 := Nat.choose_le_choose 2 (show 65537 ≤ B - 1 by omega)
    rw [Nat.choose_two_right] at h1
    omega

end Verif.Props
