import Verif.PsWF
import Mathlib.Tactic.IntervalCases

/-! # Property theorem C68: the translation of parallel sequences to SAS+ -/

namespace Verif.Props

open Verif.Htn Verif.Sas

/-- No action needs two facts of the same variable. -/
def PrecsDiffer (P : Problem) (vars : List (Nat × Nat)) (nA : Nat) : Prop :=
  ∀ a < nA, ∀ f ∈ P.prec a, ∀ g ∈ P.prec a, SameVar vars f g → f = g

theorem PrecsDiffer.precFun {P : Problem} {vars : List (Nat × Nat)} {nA n : Nat} (hc : Contig 0 vars n) (h : PrecsDiffer P vars nA) :
    ∀ a < nA, PrecFun vars P a := by
  intro a ha x hx y hy e
  obtain ⟨f, hf, hx⟩ := List.mem_filterMap.1 hx
  obtain ⟨g, hg, hy⟩ := List.mem_filterMap.1 hy
  have := h a ha f hf g hg ((sameVar_of_conv hc hx hy).1 e)
  subst this
  rw [hx] at hy
  cases hy
  rfl

/-- **C68** (partial: only for methods of the initial task whose orderings `reorderTasks` can handle, that all have the same number
of subtasks, and for `SasInput`, `S0Fits`, see C62): the translation is defined, no array is read out of bounds, its result is a
well-formed SAS+ task, its plans are exactly the solutions that can be worked off with stacks of the given sizes (`h` by the
reversed positions of the subtasks), and their costs are the same. -/
theorem C68_ps_translate_partial (P : Problem) (vars : List (Nat × Nat)) (nA nT : Nat) (h : List Nat)
    (hin : PsInput P vars nA nT h.length) (hd : PrecsDiffer P vars nA) (h1 : ∀ p ∈ h, 1 ≤ p) :
    ∃ T, psTranslate P vars nA nT h = some T ∧ T.WF ∧
      (∀ ρ, T.Plan ρ → IsSolution P (psActs ρ) ∧ planCost ρ = P.planCost (psActs ρ)) ∧
      ∀ π, (∃ ρ, T.Plan ρ ∧ psActs ρ = π) ↔ ParSolution P (fun i => h.reverse[i]?.getD (h.headD 0)) π := by
  obtain ⟨T, hT, -⟩ := psTranslate_eq hin h1
  obtain ⟨k1, k2⟩ := psPlans hin (hd.precFun hin.sas.contig) h1 hT
  have hb : (fun i => h.reverse[i]?.getD (h.headD 0)) = posBound h := by
    funext i
    rw [posBound, hAt]
    rcases Nat.lt_or_ge i h.length with hi | hi
    · rw [List.getElem?_reverse hi, List.getElem?_eq_getElem (by omega)]
      rfl
    · rw [List.getElem?_eq_none (by simpa using hi), show h.length - 1 - i = 0 from by omega]
      cases h <;> rfl
  refine ⟨T, hT, psTranslate_wf hin h1 hT, fun ρ hρ => ⟨(k1 ρ hρ).1.isSolution, (k1 ρ hρ).2⟩, fun π => ?_⟩
  rw [hb]
  exact ⟨fun ⟨ρ, h1, h2⟩ => h2 ▸ (k1 ρ h1).1, k2 π⟩

/-- Every solution is found if the bounds are large enough, with the same costs. -/
theorem C68_ps_complete_partial (P : Problem) (vars : List (Nat × Nat)) (nA nT n : Nat) (hin : PsInput P vars nA nT n)
    (hd : PrecsDiffer P vars nA) (π : List Nat) (hs : IsSolution P π) :
    ∃ B, ∀ h : List Nat, h.length = n → (∀ p ∈ h, B ≤ p) → ∃ T ρ, psTranslate P vars nA nT h = some T ∧ T.Plan ρ ∧ psActs ρ = π ∧
      planCost ρ = P.planCost π := by
  obtain ⟨b, hb⟩ := hs.par hin.wf hin.par
  refine ⟨b + 1, fun h hl hB => ?_⟩
  subst hl
  have h1 : ∀ p ∈ h, 1 ≤ p := fun p hp => by have := hB p hp; omega
  have h0 : 0 < h.length := by
    obtain ⟨m, cs, e, hv, -⟩ := hb (fun _ => b) fun _ => le_refl _
    generalize ht : P.init = t at hv e
    obtain _ | ⟨hm, -⟩ := hv
    rw [← hin.top_len m hm (e.trans ht.symm)]
    exact List.length_pos_iff.2 (hin.wf.sub_ne m hm)
  obtain ⟨T, hT, -⟩ := psTranslate_eq hin h1
  obtain ⟨k1, k2⟩ := psPlans hin (hd.precFun hin.sas.contig) h1 hT
  obtain ⟨ρ, hρ, hρ'⟩ := k2 π (hb _ fun i => by
    rw [posBound, hAt, List.getElem?_eq_getElem (by omega)]
    have := hB _ (List.getElem_mem (l := h) (n := h.length - 1 - i) (by omega))
    simp only [Option.getD_some]
    omega)
  exact ⟨T, ρ, hT, hρ, hρ', hρ' ▸ (k1 ρ hρ).2⟩

/-- The controller: with the first bounds, enlarged by `step` in each round, every solution is a plan of the translated problem from
some round on. -/
theorem C68_ps_rounds_partial (P : Problem) (vars : List (Nat × Nat)) (nA nT n pgb step : Nat) (hin : PsInput P vars nA nT n)
    (hd : PrecsDiffer P vars nA) (hstep : 1 ≤ step) (π : List Nat) (hs : IsSolution P π) :
    ∃ h i, psBounds P pgb = some h ∧ h.length = n ∧ (∀ p ∈ h, 1 ≤ p) ∧ ∀ j, i ≤ j →
      ∃ T ρ, psTranslate P vars nA nT (h.map fun p => p + j * step) = some T ∧ T.Plan ρ ∧ psActs ρ = π ∧ planCost ρ = P.planCost π := by
  obtain ⟨m, hm, e⟩ : ∃ m < P.numMethods, P.head m = P.init := by
    obtain ⟨b, hb⟩ := hs.par hin.wf hin.par
    obtain ⟨m, cs, e, hv, -⟩ := hb (fun _ => b) fun _ => le_refl _
    generalize P.init = t at hv e
    obtain _ | ⟨hm, -⟩ := hv
    exact ⟨m, hm, e⟩
  obtain ⟨m', hm'⟩ : ∃ m', topMethod P = some m' := by
    rw [← Option.isSome_iff_exists, topMethod, List.find?_isSome]
    exact ⟨m, by simpa using hm, by simpa using e⟩
  have hlt : m' < P.numMethods := by simpa using List.mem_of_find?_eq_some hm'
  have hhd : P.head m' = P.init := by simpa using List.find?_some hm'
  have hl := hin.top_len m' hlt hhd
  have hpos := List.length_pos_iff.2 (hin.wf.sub_ne m' hlt)
  obtain ⟨B, hB⟩ := C68_ps_complete_partial P vars nA nT n hin hd π hs
  refine ⟨_, B, by rw [psBounds, hm']; rfl, by simpa using hl, fun p hp => ?_, fun j hj => ?_⟩
  · have := (List.mem_replicate.1 hp).2
    split at this <;> omega
  · refine hB _ (by simpa using hl) fun p hp => ?_
    obtain ⟨q, -, rfl⟩ := List.mem_map.1 hp
    have : j * 1 ≤ j * step := Nat.mul_le_mul_left _ hstep
    omega

/-- A plan of least costs is a solution of least costs among those that can be worked off with the stacks. -/
theorem C68_ps_optimal_partial (P : Problem) (vars : List (Nat × Nat)) (nA nT : Nat) (h : List Nat)
    (hin : PsInput P vars nA nT h.length) (hd : PrecsDiffer P vars nA) (h1 : ∀ p ∈ h, 1 ≤ p) (T : STask Lab)
    (hT : psTranslate P vars nA nT h = some T) (ρ : List (Lab × SOp)) (hρ : T.Plan ρ)
    (hopt : ∀ ρ', T.Plan ρ' → planCost ρ ≤ planCost ρ') :
    IsSolution P (psActs ρ) ∧ ∀ π, ParSolution P (fun i => h.reverse[i]?.getD (h.headD 0)) π → P.planCost (psActs ρ) ≤ P.planCost π := by
  obtain ⟨T', hT', -, k1, k2⟩ := C68_ps_translate_partial P vars nA nT h hin hd h1
  rw [hT] at hT'
  cases hT'
  refine ⟨(k1 ρ hρ).1, fun π hπ => ?_⟩
  obtain ⟨ρ', g1, rfl⟩ := (k2 π).2 hπ
  rw [← (k1 ρ hρ).2, ← (k1 ρ' g1).2]
  exact hopt ρ' g1

/-! ## A problem that meets the hypotheses

Task 5 has one method with the subtasks 4, 3, 0 of which the last two are ordered; 3 → 0, 4; 4 → 1; 4 → 2, 4.  Actions: 0 makes fact 0
true, 1 needs and deletes it, 2 needs fact 1. -/

def psP : Problem where
  numFacts := 2
  prim t := decide (t < 3)
  prec t := if t = 1 then [0] else if t = 2 then [1] else []
  add t := if t = 0 then [0] else []
  del t := if t = 1 then [0] else []
  cost t := t + 1
  numMethods := 4
  head m := if m = 0 then 5 else if m = 1 then 3 else 4
  sub m := if m = 0 then [4, 3, 0] else if m = 1 then [0, 4] else if m = 2 then [1] else [2, 4]
  ord m := if m = 0 then [(1, 2)] else if m = 1 then [(0, 1)] else if m = 2 then [] else [(0, 1)]
  init := 5
  s0 := [0, 1]
  goal := []

theorem psP_wf : psP.WF where
  ord_lt := by
    intro m _ i j h
    simp only [psP] at h ⊢
    split_ifs at h ⊢ <;> simp at h ⊢ <;> omega
  ord_acyclic := by
    intro m _
    refine ⟨fun i => i, fun i j h => ?_⟩
    simp only [psP] at h ⊢
    split_ifs at h <;> simp at h <;> omega
  sub_ne := by
    intro m _
    simp only [psP]
    split_ifs <;> simp
  head_abs := by
    intro m _
    simp only [psP]
    split_ifs <;> simp
  init_abs := by simp [psP]
  prec_lt := by
    intro a f h
    simp only [psP] at h ⊢
    split_ifs at h <;> simp at h <;> omega
  add_lt := by
    intro a f h
    simp only [psP] at h ⊢
    split_ifs at h <;> simp at h
    omega
  del_lt := by
    intro a f h
    simp only [psP] at h ⊢
    split_ifs at h <;> simp at h
    omega
  s0_lt := by simp [psP]
  goal_lt := by simp [psP]

theorem psP_in : PsInput psP [(0, 0), (1, 1)] 3 6 3 where
  wf := psP_wf
  sas :=
    { ne := by simp
      contig := by simp [Contig, psP]
      inv := by
        intro π s _ v hv hlt
        simp only [List.mem_cons, List.not_mem_nil, or_false] at hv
        rcases hv with rfl | rfl <;> simp at hlt
      noClash := by
        intro a f h1 h2
        simp only [psP] at h1 h2
        split_ifs at h1 h2 <;> simp at h1 h2
        omega
      sorted := by simp [psP] }
  fits := by
    intro _ f hf i hi
    simp only [psP, List.mem_cons, List.not_mem_nil, or_false] at hf
    rcases hf with rfl | rfl <;> simp [varIdx] at hi <;> simp [← hi, psP]
  prim _ := rfl
  nA_le := by omega
  head_lt m _ := by simp only [psP]; split_ifs <;> omega
  sub_lt m _ t ht := by simp only [psP] at ht; split_ifs at ht <;> simp at ht <;> omega
  par :=
    { tot := by
        intro m hm e
        have hm : m < 4 := hm
        have h1 : Relation.TransGen (psP.OrdRel 1) 0 1 := .single (by simp [Problem.OrdRel, psP])
        have h3 : Relation.TransGen (psP.OrdRel 3) 0 1 := .single (by simp [Problem.OrdRel, psP])
        interval_cases m
        · exact absurd rfl e
        · simpa [psP, List.range_succ] using h1
        · simp [psP, List.range_succ]
        · simpa [psP, List.range_succ] using h3
      noInit := by
        intro m _ h
        simp only [psP] at h
        split_ifs at h <;> simp at h }
  top_len m _ e := by
    simp only [psP] at e ⊢
    split_ifs at e ⊢ <;> simp at e ⊢
  top_ord m _ e := by
    simp only [psP] at e ⊢
    split_ifs at e ⊢ <;> simp [TopOrd] at e ⊢

/-- Executing operators given by their numbers. -/
def execIdx (T : STask Lab) : List Nat → Val → Option (List (Lab × SOp) × Val)
  | [], σ => some ([], σ)
  | i :: r, σ => match T.ops[i]? with
    | none => none
    | some x => if x.2.App σ then (execIdx T r (x.2.res σ)).map fun y => (x :: y.1, y.2) else none

theorem execIdx_run {T : STask Lab} : ∀ {l : List Nat} {σ σ' : Val} {ρ : List (Lab × SOp)}, execIdx T l σ = some (ρ, σ') → SRun T σ ρ σ' := by
  intro l
  induction l with
  | nil =>
    intro σ σ' ρ h
    simp only [execIdx, Option.some.injEq, Prod.mk.injEq] at h
    obtain ⟨rfl, rfl⟩ := h
    exact .nil _
  | cons i r ih =>
    intro σ σ' ρ h
    rw [execIdx] at h
    cases hx : T.ops[i]? with
    | none => simp [hx] at h
    | some x =>
      rw [hx] at h
      simp only at h
      split at h
      · rename_i happ
        obtain ⟨y, hy, e⟩ := Option.map_eq_some_iff.1 h
        cases e
        exact .cons (List.mem_of_getElem? hx) happ (ih hy)
      · cases h

/-- Executing the operators leads to the goal, and the plan has the actions `π`. -/
def planIdx (T : STask Lab) (l : List Nat) (π : List Nat) : Bool := match execIdx T l T.start with
  | none => false
  | some y => T.goal.all (fun g => y.2 g.1 == g.2) && decide (psActs y.1 = π)

theorem planIdx_plan {T : STask Lab} {l π : List Nat} (h : planIdx T l π = true) : ∃ ρ, T.Plan ρ ∧ psActs ρ = π := by
  rw [planIdx] at h
  cases he : execIdx T l T.start with
  | none => simp [he] at h
  | some y =>
    rw [he] at h
    simp only [Bool.and_eq_true, List.all_eq_true, beq_iff_eq, decide_eq_true_eq] at h
    exact ⟨y.1, ⟨y.2, execIdx_run he, h.1⟩, h.2⟩

theorem psP_differ : PrecsDiffer psP [(0, 0), (1, 1)] 3 := by
  intro a _ f hf g hg _
  simp only [psP] at hf hg
  split_ifs at hf hg <;> simp at hf hg <;> omega

/-- The translation of this problem has a plan in which the sequences are interleaved; so the problem has a solution. -/
theorem psP_plan : ∃ T ρ, psTranslate psP [(0, 0), (1, 1)] 3 6 [2, 2, 2] = some T ∧ T.Plan ρ ∧ psActs ρ = [2, 1, 0, 1, 0] := by
  obtain ⟨ρ, h1, h2⟩ := planIdx_plan (T := (psTranslate psP [(0, 0), (1, 1)] 3 6 [2, 2, 2]).get (by decide +kernel))
    (l := [18, 30, 17, 24, 8, 20, 4, 23, 7, 0]) (π := [2, 1, 0, 1, 0]) (by decide +kernel)
  exact ⟨_, ρ, (Option.some_get _).symm, h1, h2⟩

/-- The hypotheses of C68 are met by a problem with a solution. -/
example : PsInput psP [(0, 0), (1, 1)] 3 6 3 ∧ PrecsDiffer psP [(0, 0), (1, 1)] 3 ∧ psBounds psP 0 = some [3, 3, 3] ∧
    IsSolution psP [2, 1, 0, 1, 0] := by
  refine ⟨psP_in, psP_differ, rfl, ?_⟩
  obtain ⟨T, ρ, h1, h2, h3⟩ := psP_plan
  obtain ⟨T', hT', -, k1, -⟩ := C68_ps_translate_partial psP _ 3 6 [2, 2, 2] psP_in psP_differ (by simp)
  rw [h1] at hT'
  cases hT'
  rw [← h3]
  exact (k1 ρ h2).1

/-! ## Where the code is wrong -/

/-- The initial task 3 has one method with the actions 0, 1, 2 as subtasks, of which only 0 is ordered before 1.  If `b` holds, action 1
needs a fact that action 0 adds. -/
def psL (b : Bool) : Problem where
  numFacts := 1
  prim t := decide (t < 3)
  prec t := if b ∧ t = 1 then [0] else []
  add t := if t = 0 then [0] else []
  del _ := []
  cost _ := 1
  numMethods := 1
  head _ := 3
  sub _ := [0, 1, 2]
  ord _ := [(0, 1)]
  init := 3
  s0 := []
  goal := []

/-- If the first subtask of every method of the initial task is action 0, every solution contains it. -/
theorem first_mem {P : Problem} (hi : P.prim P.init = false) (h1 : ∀ m < P.numMethods, P.head m = P.init → (P.sub m)[0]? = some 0)
    (h2 : ∀ m < P.numMethods, P.head m ≠ 0) {π : List Nat} (hs : IsSolution P π) : 0 ∈ π := by
  obtain ⟨k, tr, hv, -, ⟨occ, hl⟩, -⟩ := hs
  generalize ht : P.init = t at hv
  cases hv with
  | leaf hp =>
    rw [ht, hp] at hi
    cases hi
  | @node m cs hm hc =>
    have h0 := h1 m hm ht.symm
    have e : cs 0 = .leaf 0 := by
      have := hc 0 0 h0
      generalize hu : 0 = u at this
      generalize cs u = tr at this
      cases this with
      | leaf => rfl
      | @node m' _ hm' _ => exact absurd hu.symm (h2 m' hm')
    have hla : LeafAt P (.node m cs) [0] 0 := .child (List.getElem?_eq_some_iff.1 h0).1 (by rw [e]; exact .here)
    obtain ⟨i, hi⟩ := List.mem_iff_getElem?.1 ((hl.all [0]).2 ⟨0, hla⟩)
    have : ∀ (occ : List (List Nat)) (π : List Nat), List.Forall₂ (LeafAt P (.node m cs)) occ π → ∀ i : Nat, occ[i]? = some [0] → 0 ∈ π := by
      intro occ π h
      induction h with
      | nil => intro i hi; simp at hi
      | @cons p a occ π hp _ ih =>
        intro i hi
        cases i with
        | zero =>
          simp at hi
          subst hi
          obtain ⟨-, h2⟩ := leafAt_cons.1 hp
          rw [e] at h2
          cases h2
          simp
        | succ i => exact .tail _ (ih i (by simpa using hi))
    exact this occ π hl.labels i hi

/-- A subtask of the initial task is lost and another one is executed twice: the translated problem has a plan that is no solution. -/
theorem C68_lost_task_violated : ∃ T ρ, psTranslate (psL false) [(0, 0)] 3 4 [1, 1, 1] = some T ∧ T.Plan ρ ∧ psActs ρ = [1, 1, 2] ∧
    ¬ IsSolution (psL false) (psActs ρ) := by
  obtain ⟨ρ, h1, h2⟩ := planIdx_plan (T := (psTranslate (psL false) [(0, 0)] 3 4 [1, 1, 1]).get (by decide +kernel))
    (l := [9, 5, 4, 6]) (π := [1, 1, 2]) (by decide +kernel)
  refine ⟨_, ρ, (Option.some_get _).symm, h1, h2, fun hs => ?_⟩
  have := first_mem rfl (fun _ _ _ => rfl) (by simp [psL]) hs
  rw [h2] at this
  simp at this

/-- The values of the variables as a list. -/
def lv (l : List Nat) : Val := fun i => l[i]?.getD 0

/-- The values after an operator. -/
def resL (o : SOp) (l : List Nat) : List Nat := o.eff.foldl (fun l e => l.set e.1 e.2.2) l

theorem resL_eq (o : SOp) (l : List Nat) (h : ∀ e ∈ o.eff, e.1 < l.length) : lv (resL o l) = o.res (lv l) := by
  rw [resL, SOp.res]
  generalize o.eff = E at h
  induction E generalizing l with
  | nil => rfl
  | cons e E ih =>
    rw [List.foldl_cons, List.foldl_cons, ih]
    · congr 1
      funext i
      have he := h e (.head _)
      by_cases hi : i = e.1
      · subst hi
        simp [lv, he]
      · rw [Function.update_of_ne hi, lv, lv, List.getElem?_set_ne (Ne.symm hi)]
    · intro e' he'
      rw [List.length_set]
      exact h e' (.tail _ he')

/-- The set of states contains the initial one, no goal state, and is closed. -/
def closedSet (T : STask Lab) (S : List (List Nat)) : Bool :=
  S.contains T.init && S.all fun l => T.goal.any (fun g => lv l g.1 != g.2) &&
    T.ops.all fun x => x.2.eff.all (fun e => decide (e.1 < l.length)) && (!decide (x.2.App (lv l)) || S.contains (resL x.2 l))

theorem closedSet_noPlan {T : STask Lab} {S : List (List Nat)} (h : closedSet T S = true) (ρ : List (Lab × SOp)) : ¬ T.Plan ρ := by
  simp only [closedSet, Bool.and_eq_true, List.contains_iff_mem, List.all_eq_true, List.any_eq_true, bne_iff_ne, decide_eq_true_eq,
    Bool.or_eq_true, Bool.not_eq_true', decide_eq_false_iff_not] at h
  obtain ⟨h0, hS⟩ := h
  rintro ⟨σ, hrun, hg⟩
  have key : ∀ σ₀ ρ σ, SRun T σ₀ ρ σ → (∃ l ∈ S, σ₀ = lv l) → ∃ l ∈ S, σ = lv l := by
    intro σ₀ ρ σ hr
    induction hr with
    | nil => exact id
    | @cons σ σ' x ρ hx happ _ ih =>
      rintro ⟨l, hl, rfl⟩
      obtain ⟨h1, h2⟩ := (hS l hl).2 x hx
      refine ih ⟨resL x.2 l, h2.resolve_left fun hn => hn happ, (resL_eq _ _ h1).symm⟩
  obtain ⟨l, hl, rfl⟩ := key _ _ _ hrun ⟨_, h0, rfl⟩
  obtain ⟨g, hg1, hg2⟩ := (hS l hl).1
  exact hg2 (hg g hg1)

theorem psL_wf (b : Bool) : (psL b).WF where
  ord_lt := by simp [psL]
  ord_acyclic m _ := ⟨id, by simp [psL]⟩
  sub_ne := by simp [psL]
  head_abs := by simp [psL]
  init_abs := by simp [psL]
  prec_lt a g h := by
    simp only [psL] at h ⊢
    split_ifs at h <;> simp at h
    omega
  add_lt a g h := by
    simp only [psL] at h ⊢
    split_ifs at h <;> simp at h
    omega
  del_lt := by simp [psL]
  s0_lt := by simp [psL]
  goal_lt := by simp [psL]

theorem psL_par (b : Bool) : ParSeq (psL b) := ⟨fun _ _ h => absurd rfl h, by simp [psL]⟩

theorem psL_solution : IsSolution (psL true) [0, 1, 2] := by
  refine ((parSolution_iff (b := fun _ => 1) (psL_wf true) (psL_par true) (fun _ => le_refl 1)).2
    ⟨0, by simp [psL], rfl, (psL true).result ((psL true).result ((psL true).result (psL true).initState 0) 1) 2, ?_,
      by simp [Problem.GoalState, psL]⟩).isSolution
  have hlen : ((psL true).sub 0).length = 3 := rfl
  refine PStk.act (k := 2) (r := []) (by omega) (fun l hl ho => ?_) rfl rfl (by simp [Problem.Applicable, psL])
    (PStk.act (k := 1) (r := []) (by omega) (fun l hl ho => ?_) rfl rfl (by simp [Problem.Applicable, Problem.result, psL])
    (PStk.act (k := 0) (r := []) (by omega) (fun l hl ho => ?_) rfl rfl (by simp [Problem.Applicable, psL]) (.nil fun k hk => ?_)))
  · have : l < 3 := hl
    simp [Problem.OrdRel, psL] at ho
  · have : l < 3 := hl
    interval_cases l <;> simp [Problem.OrdRel, psL] at ho
    rfl
  · have : l < 3 := hl
    simp [Problem.OrdRel, psL] at ho
  · have : k < 3 := hk
    interval_cases k <;> rfl

/-- The same for a problem in which the lost action is needed: the problem has a solution, its translation with the bounds that the
controller starts with has no plan. -/
theorem C68_unsolvable_violated : IsSolution (psL true) [0, 1, 2] ∧ psBounds (psL true) 0 = some [3, 3, 3] ∧
    ∃ T, psTranslate (psL true) [(0, 0)] 3 4 [3, 3, 3] = some T ∧ ∀ ρ, ¬ T.Plan ρ := by
  refine ⟨psL_solution, rfl, (psTranslate (psL true) [(0, 0)] 3 4 [3, 3, 3]).get (by decide +kernel), (Option.some_get _).symm, ?_⟩
  exact closedSet_noPlan (S := [[1, 1, 0, 0, 0, 0, 0, 0, 0, 0, 0, 0, 0, 0, 0, 0, 0, 0, 0, 0],
    [1, 0, 1, 1, 1, 0, 0, 0, 0, 0, 1, 3, 0, 0, 2, 0, 0, 2, 0, 0],
    [1, 0, 0, 1, 1, 0, 0, 0, 0, 0, 1, 0, 0, 0, 2, 0, 0, 2, 0, 0]]) (by decide +kernel)

/-- Two methods for the initial task 2: one with the actions 0 and 1, the other one with action 0; `b`: the longer one is the first. -/
def psU (b : Bool) : Problem where
  numFacts := 1
  prim t := decide (t < 2)
  prec _ := []
  add _ := []
  del _ := []
  cost _ := 1
  numMethods := 2
  head _ := 2
  sub m := if (m = 0) = b then [0, 1] else [0]
  ord _ := []
  init := 2
  s0 := []
  goal := []

/-- Methods of the initial task with different numbers of subtasks: if the first one is longer, the array of the subtasks of the other
one is read out of bounds; if it is shorter, subtasks of the other one are lost and there is a plan that is no solution. -/
theorem C68_top_methods_violated : (psBounds (psU true) 0 = some [2, 2] ∧ psTranslate (psU true) [(0, 0)] 2 3 [2, 2] = none) ∧
    psBounds (psU false) 0 = some [1] ∧ ∃ T ρ, psTranslate (psU false) [(0, 0)] 2 3 [1] = some T ∧ T.Plan ρ ∧ psActs ρ = [1] ∧
      ¬ IsSolution (psU false) (psActs ρ) := by
  refine ⟨⟨by decide +kernel, by rfl⟩, by decide +kernel, ?_⟩
  obtain ⟨ρ, h1, h2⟩ := planIdx_plan (T := (psTranslate (psU false) [(0, 0)] 2 3 [1]).get (by decide +kernel))
    (l := [3, 1]) (π := [1]) (by decide +kernel)
  refine ⟨_, ρ, (Option.some_get _).symm, h1, h2, fun hs => ?_⟩
  have := first_mem rfl (fun m _ _ => by simp only [psU]; split_ifs <;> rfl) (by simp [psU]) hs
  rw [h2] at this
  simp at this

/-- A method without subtasks: the initial task 1 has the subtasks 0 and 0, whose only method has no subtasks. -/
def psE : Problem where
  numFacts := 1
  prim _ := false
  prec _ := []
  add _ := []
  del _ := []
  cost _ := 1
  numMethods := 2
  head m := if m = 0 then 1 else 0
  sub m := if m = 0 then [0, 0] else []
  ord _ := []
  init := 1
  s0 := []
  goal := []

/-- Methods without subtasks change the height of the first stack instead of that of theirs: the empty plan is a solution, but the
translation has no plan. -/
theorem C68_empty_method_violated : IsSolution psE [] ∧ psBounds psE 0 = some [2, 2] ∧
    ∃ T, psTranslate psE [(0, 0)] 0 2 [2, 2] = some T ∧ ∀ ρ, ¬ T.Plan ρ := by
  refine ⟨⟨_, .node 0 fun _ => .node 1 fun _ => .leaf 0, ?_, rfl, ⟨[], ?_⟩, _, .nil _, by simp [Problem.GoalState, psE]⟩, by decide +kernel,
    (psTranslate psE [(0, 0)] 0 2 [2, 2]).get (by decide +kernel), (Option.some_get _).symm, ?_⟩
  · refine Valid.node (P := psE) (m := 0) (by simp [psE]) fun i t hi => ?_
    have : t = 0 := by
      have := List.mem_of_getElem? hi
      simpa [psE] using this
    subst this
    exact Valid.node (P := psE) (m := 1) (by simp [psE]) fun i t hi => by simp [psE] at hi
  · refine ⟨.nil, fun p => ⟨fun h => absurd h List.not_mem_nil, ?_⟩, .nil, .nil⟩
    rintro ⟨a, h⟩
    cases h with
    | child _ h =>
      cases h with
      | child hi _ => simp [psE] at hi
  · exact closedSet_noPlan (S := [[1, 1, 0, 0, 0, 0, 0, 0, 0, 0], [1, 0, 1, 1, 0, 0, 1, 0, 1, 0], [1, 0, 0, 1, 0, 0, 0, 0, 1, 0],
      [1, 0, 0, 1, 0, 0, 1, 0, 0, 0], [1, 0, 0, 1, 0, 0, 0, 0, 0, 0]]) (by decide +kernel)

end Verif.Props
