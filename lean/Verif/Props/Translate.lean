import Verif.ToTransInput
import Mathlib.Tactic.IntervalCases

/-! # Property theorems C62-C65: the translation of totally ordered problems to SAS+ -/

namespace Verif.Props

open Verif.Htn Verif.Sas

/-- The actions of a plan of the translated problem: an operator of an action stands for that action, an operator of a method
for the leading actions of the method. -/
def planActs (P : Problem) (ρ : List (Lab × SOp)) : List Nat := ρ.flatMap fun x => match x.1 with
  | .prim a _ => [a]
  | .meth m _ => (P.sub m).take (primLead P m)

/-- The solutions with a decomposition that can be worked off with a stack of `pgb` tasks, if the leading actions of a method
are executed at once. -/
def StackSolution (P : Problem) (pgb : Nat) (π : List Nat) : Prop :=
  SolutionFits P (fun m => List.range (P.sub m).length) (primLead P) pgb π

section

variable {P : Problem} {vars : List (Nat × Nat)} {nA nT pgb : Nat} {T : STask Lab}

theorem acts_eq (hin : ToInput P vars nA nT) (hp : 1 ≤ pgb) (hT : translate P vars nA nT pgb = some T) {ρ : List (Lab × SOp)}
    (hρ : T.Plan ρ) : acts P ρ = planActs P ρ := by
  obtain ⟨T', hT', hops, -⟩ := translate_eq hin.trans hp
  rw [hT] at hT'
  cases hT'
  obtain ⟨σ, hrun, -⟩ := hρ
  generalize T.start = σ₀ at hrun
  induction hrun with
  | nil => rfl
  | @cons σ σ' x ρ hx _ _ ih =>
    rw [acts, List.flatMap_cons, planActs, List.flatMap_cons]
    rw [acts, planActs] at ih
    rw [ih]
    congr 1
    rcases (hops x).1 hx with ⟨a, j, ha, hj, rfl⟩ | ⟨m, j, hm, hj, hfit, rfl⟩
    · rfl
    · show labActs P (.meth m j) = _
      rw [labActs_meth hin.trans hm, (reorder_range hin.wf hin.totOK hm rfl).1, hin.leadOf hm]
      rfl

theorem stackSolution_iff (hin : ToInput P vars nA nT) {π : List Nat} :
    SolutionFits P (fun m => List.range (P.sub m).length) (leadOf P) pgb π ↔ StackSolution P pgb π :=
  ⟨fun h => h.congr (fun _ hm => hin.leadOf hm) hin.totOK, fun h => h.congr (fun _ hm => (hin.leadOf hm).symm) hin.totOK⟩

end

/-! ## C62: `sasPlus` -/

/-- **C62** (partial: the initial state is right only if the variables of the true facts are found, `S0Fits`, and no action adds
and deletes the same single fact): `sasPlus` ends without reading outside of its arrays; its facts are values of variables;
for every reachable state and the values `σ` describing it, the preconditions hold iff the action is applicable, the effects
lead to the values describing the next state, and the goal holds iff the goal facts do; the initial values describe the
initial state. -/
theorem C62_sasPlus_partial (P : Problem) (hP : P.WF) (vars : List (Nat × Nat)) (hin : SasInput P vars) (hf : S0Fits P vars) :
    ∃ SP, sasPlus P vars = some SP ∧
      (∃ n, Contig 0 SP.vars n) ∧ SP.vars.length = vars.length ∧
      (∀ i f l : Nat, vars[i]? = some (f, l) → ∃ f' l' : Nat, SP.vars[i]? = some (f', l') ∧
        l' - f' + 1 = if f = l then 2 else l - f + 1) ∧
      (∀ s π, Exec P P.initState π s → ∃ σ, Corr vars s σ) ∧
      (∀ a, ∃ ps es : List (Nat × Nat), (SP.prec a).map (conv SP.vars) = ps.map some ∧ (SP.add a).map (conv SP.vars) = es.map some ∧
        ∀ π s σ, Exec P P.initState π s → Corr vars s σ →
          ((∀ p ∈ ps, σ p.1 = p.2) ↔ P.Applicable s a) ∧
          (P.Applicable s a → Corr vars (P.result s a) (es.foldl (fun σ p => Function.update σ p.1 p.2) σ))) ∧
      (∃ gs : List (Nat × Nat), SP.goal.map (conv SP.vars) = gs.map some ∧
        ∀ s σ, Corr vars s σ → ((∀ g ∈ gs, σ g.1 = g.2) ↔ P.GoalState s)) ∧
      ∃ vals : List (Nat × Nat), SP.s0.map (conv SP.vars) = vals.map some ∧ vals.map Prod.fst = List.range vars.length ∧
        Corr vars P.initState fun i => ((vals[i]?).map Prod.snd).getD 0 := by
  obtain ⟨SP, h1, -, h2⟩ := sasPlus_init hP hin hf
  have hS := sasPlus_ok hP hin.contig h1
  refine ⟨SP, h1, hS.contig, hS.len, ?_, fun s π hs => (hin.inv π s hs).exists_corr hin.contig, fun a => ?_, ?_, h2⟩
  · intro i f l hi
    obtain ⟨f', l', h3, h4, h5⟩ := hS.size i f l hi
    refine ⟨f', l', h3, ?_⟩
    split at h5 <;> split <;> omega
  · refine ⟨_, _, hS.prec a, hS.add a, fun π s σ hπ hc => ⟨hc.applicable hP hin.contig a, fun ha => ?_⟩⟩
    exact hc.result hP hin.contig hin.noClash
      (hin.inv (π ++ [a]) _ (exec_append.2 ⟨s, hπ, .cons ha (.nil _)⟩))
  · exact ⟨_, hS.goal, fun s σ hc => hc.holds hin.contig hP.goal_lt⟩

/-- What goes wrong otherwise: a variable with a single fact gets the value "false" if its number is at least the number of
true facts, whether or not its fact is true. -/
theorem C62_initial_state_violated_general (P : Problem) (vars : List (Nat × Nat)) (hc : Contig 0 vars P.numFacts) (SP : SasP)
    (h : sasPlus P vars = some SP) (i f : Nat) (hi : vars[i]? = some (f, f)) (hlen : P.s0.length ≤ i) :
    (SP.s0[i]?).map (conv SP.vars) = some (some (i, 1)) := sasPlus_wrong hc h hi hlen

/-! ## C63: `reorderTasks` -/

/-- **C63** (partial: for other numberings the order is wrong in general, see below): for a totally ordered method whose
subtasks are numbered in their order, `subTasksInOrder` is the reverse order and the first tasks that are not put on the
stack are the maximal leading part that consists of actions. -/
theorem C63_reorder_partial (P : Problem) (hP : P.WF) (ht : TotOK P fun m => List.range (P.sub m).length) (m : Nat)
    (hm : m < P.numMethods) : reorder P.prim (P.sub m) (P.ord m) = some ⟨(P.sub m).reverse, primLead P m⟩ ∧
      (∀ t ∈ (P.sub m).take (primLead P m), P.prim t = true) ∧
      ∀ t, (P.sub m)[primLead P m]? = some t → P.prim t = false := by
  obtain ⟨h1, ⟨r, hr, ho⟩, h3, h4⟩ := reorder_range hP ht hm rfl
  have hl : leadOf P m = primLead P m := leadOf_eq hP ht hm
  rw [h1, hl] at h4
  refine ⟨?_, h4, fun t hmt => ?_⟩
  · rw [hr]
    have : r.first = primLead P m := by rw [← hl, leadOf, hr]; rfl
    rw [← ho, ← this]
  · cases hd : (P.sub m).dropWhile P.prim with
    | nil =>
      have := List.takeWhile_append_dropWhile (p := P.prim) (l := P.sub m)
      rw [hd, List.append_nil] at this
      rw [primLead, this, List.getElem?_eq_none (le_refl _)] at hmt
      cases hmt
    | cons x l =>
      have hx := List.head?_dropWhile_not (p := P.prim) (l := P.sub m)
      rw [hd] at hx
      simp only [List.head?_cons] at hx
      have := List.takeWhile_append_dropWhile (p := P.prim) (l := P.sub m)
      rw [hd] at this
      rw [primLead, ← this, List.takeWhile_append_of_pos (fun a ha => List.all_eq_true.1 List.all_takeWhile a ha)] at hmt
      have hx' : P.prim x = false := by simpa using hx
      rw [List.takeWhile_cons_of_neg (by simp [hx']), List.append_nil, List.getElem?_append_right (le_refl _)] at hmt
      simp at hmt
      rw [← hmt]
      exact hx'

/-- When the order is right, for any numbering of the subtasks of a totally ordered method: iff the numbering is symmetric. -/
theorem C63_reorder_iff (P : Problem) (hP : P.WF) (tot : Nat → List Nat) (ht : TotOK P tot) (m : Nat) (hm : m < P.numMethods) :
    (∃ r, reorder P.prim (P.sub m) (P.ord m) = some r ∧
      r.order = ((tot m).map fun i => (P.sub m)[i]?.getD 0).reverse) ↔
    ∀ i j x y : Nat, i + j + 1 = (P.sub m).length → (tot m)[i]? = some x → (tot m)[j]? = some y →
      (P.sub m)[(P.sub m).length - 1 - x]? = (P.sub m)[y]? := reorder_reverse_iff hP ht hm

/-- A totally ordered method with three actions 5, 6, 7 that are executed in the order 6, 5, 7: they are put on the stack such
that they are executed in the order 5, 7, 6.  A method with subtasks 0, 1, 2 in which only 0 is ordered before 1: task 5 is
lost and 6 is executed twice. -/
theorem C63_reorder_violated :
    reorder (fun _ => false) [5, 6, 7] [(1, 0), (0, 2)] = some ⟨[6, 7, 5], 0⟩ ∧
    reorder (fun _ => false) [5, 6, 7] [(0, 1)] = some ⟨[7, 6, 6], 0⟩ := by decide +kernel

/-! ## C64, C65: the translated problem -/

/-- **C64**: the translation is defined (no array is read out of bounds), its result is a well-formed SAS+ task, and every
solution that can be worked off with a stack of `pgb` tasks is a plan of the translated problem with the same costs; every
solution of the problem is one for all large enough `pgb`. -/
theorem C64_translate_complete_partial (P : Problem) (vars : List (Nat × Nat)) (nA nT : Nat) (hin : ToInput P vars nA nT) :
    (∀ pgb, 1 ≤ pgb → ∃ T, translate P vars nA nT pgb = some T ∧ T.WF ∧ ∀ π, StackSolution P pgb π →
      ∃ ρ, T.Plan ρ ∧ planActs P ρ = π ∧ planCost ρ = P.planCost π) ∧
    ∀ π, IsSolution P π → ∃ B, ∀ pgb, B ≤ pgb → StackSolution P pgb π := by
  refine ⟨fun pgb hp => ?_, fun π hπ => ?_⟩
  · obtain ⟨T, hT, -⟩ := translate_eq hin.trans hp
    refine ⟨T, hT, translate_wf hin.trans hp hT, fun π hπ => ?_⟩
    obtain ⟨ρ, h1, -, h2, h3⟩ := plans_complete hin.trans hp hT ((stackSolution_iff hin).2 hπ)
    exact ⟨ρ, h1, by rw [← acts_eq hin hp hT h1]; exact h2, h3⟩
  · obtain ⟨B, hB⟩ := hπ.fits (lead := primLead P) hin.totOK
    exact ⟨B, hB⟩

/-- **C65** (partial: for plans without blank operators, and under `NoConf`): a plan of the translated problem is a solution of
the problem, with the same costs. -/
theorem C65_translate_sound_partial (P : Problem) (vars : List (Nat × Nat)) (nA nT : Nat) (hin : ToInput P vars nA nT)
    (hnc : NoConf P vars nA) (pgb : Nat) (hp : 1 ≤ pgb) (T : STask Lab) (hT : translate P vars nA nT pgb = some T)
    (ρ : List (Lab × SOp)) (hρ : T.Plan ρ) (hb : ∀ x ∈ ρ, x.2 ≠ blankOp) :
    IsSolution P (planActs P ρ) ∧ StackSolution P pgb (planActs P ρ) ∧ planCost ρ = P.planCost (planActs P ρ) := by
  obtain ⟨h1, h2⟩ := plans_sound hin.trans (hnc.noConflict hin) hp hT hρ hb
  rw [acts_eq hin hp hT hρ] at h1 h2
  exact ⟨h1.isSolution, (stackSolution_iff hin).1 h1, h2⟩

/-- The translated problem is solvable iff a solution can be worked off with a stack of `pgb` tasks. -/
theorem C65_translate_solvable (P : Problem) (vars : List (Nat × Nat)) (nA nT : Nat) (hin : ToInput P vars nA nT)
    (hnc : NoConf P vars nA) (pgb : Nat) (hp : 1 ≤ pgb) (T : STask Lab) (hT : translate P vars nA nT pgb = some T) :
    (∃ ρ, T.Plan ρ) ↔ ∃ π, StackSolution P pgb π := by
  constructor
  · rintro ⟨ρ, hρ⟩
    have h := C65_translate_sound_partial P vars nA nT hin hnc pgb hp T hT _ (plan_drop_blank hρ).1 fun x hx => by
      simpa using (List.mem_filter.1 hx).2
    exact ⟨_, h.2.1⟩
  · rintro ⟨π, hπ⟩
    obtain ⟨T', hT', -, h⟩ := (C64_translate_complete_partial P vars nA nT hin).1 pgb hp
    rw [hT] at hT'
    cases hT'
    obtain ⟨ρ, h1, -⟩ := h π hπ
    exact ⟨ρ, h1⟩

/-- A plan of least costs is a solution of least costs, among those that can be worked off with a stack of `pgb` tasks; blank
operators do not occur in it. -/
theorem C65_translate_optimal (P : Problem) (vars : List (Nat × Nat)) (nA nT : Nat) (hin : ToInput P vars nA nT)
    (hnc : NoConf P vars nA) (pgb : Nat) (hp : 1 ≤ pgb) (T : STask Lab) (hT : translate P vars nA nT pgb = some T)
    (ρ : List (Lab × SOp)) (hρ : T.Plan ρ) (hopt : ∀ ρ', T.Plan ρ' → planCost ρ ≤ planCost ρ') :
    IsSolution P (planActs P ρ) ∧ planCost ρ = P.planCost (planActs P ρ) ∧
      ∀ π, StackSolution P pgb π → P.planCost (planActs P ρ) ≤ P.planCost π := by
  obtain ⟨hd, hc⟩ := plan_drop_blank hρ
  have hb : ∀ x ∈ ρ, x.2 ≠ blankOp := by
    intro x hx hb
    have := hopt _ hd
    have : 0 < (ρ.filter fun x => decide (x.2 = blankOp)).length :=
      List.length_pos_of_mem (List.mem_filter.2 ⟨hx, by simpa using hb⟩)
    omega
  obtain ⟨h1, -, h3⟩ := C65_translate_sound_partial P vars nA nT hin hnc pgb hp T hT ρ hρ hb
  refine ⟨h1, h3, fun π hπ => ?_⟩
  obtain ⟨T', hT', -, h⟩ := (C64_translate_complete_partial P vars nA nT hin).1 pgb hp
  rw [hT] at hT'
  cases hT'
  obtain ⟨ρ', k1, -, k2⟩ := h π hπ
  rw [← h3, ← k2]
  exact hopt ρ' k1

/-! ## A problem that meets the hypotheses

Facts 0 and 1 belong to one variable, fact 2 to another one.  Actions 0: 0 → 1; 1: needs 1, adds 2; 2: needs 2, adds 0, deletes
1 and 2.  Methods: 3 → 0, 1, 4; 4 → 2; 4 → 2, 3. -/

def trP : Problem where
  numFacts := 3
  prim t := decide (t < 3)
  prec t := if t < 3 then [t] else []
  add t := if t = 0 then [1] else if t = 1 then [2] else if t = 2 then [0] else []
  del t := if t = 0 then [0] else if t = 2 then [1, 2] else []
  cost t := t + 1
  numMethods := 3
  head m := if m = 0 then 3 else 4
  sub m := if m = 0 then [0, 1, 4] else if m = 1 then [2] else [2, 3]
  ord m := if m = 0 then [(0, 1), (1, 2)] else if m = 1 then [] else [(0, 1)]
  init := 3
  s0 := [0]
  goal := [0]

theorem trP_wf : trP.WF where
  ord_lt := by
    intro m _ i j h
    simp only [trP] at h ⊢
    split_ifs at h ⊢ <;> simp at h ⊢ <;> omega
  ord_acyclic := by
    intro m _
    refine ⟨fun i => i, fun i j h => ?_⟩
    simp only [trP] at h ⊢
    split_ifs at h <;> simp at h <;> omega
  sub_ne := by
    intro m _
    simp only [trP]
    split_ifs <;> simp
  head_abs := by
    intro m _
    simp only [trP]
    split_ifs <;> simp
  init_abs := by simp [trP]
  prec_lt := by
    intro a f h
    simp only [trP] at h ⊢
    split_ifs at h <;> simp at h <;> omega
  add_lt := by
    intro a f h
    simp only [trP] at h ⊢
    split_ifs at h <;> simp at h <;> omega
  del_lt := by
    intro a f h
    simp only [trP] at h ⊢
    split_ifs at h <;> simp at h <;> omega
  s0_lt := by simp [trP]
  goal_lt := by simp [trP]

theorem trP_step {s : State} {a : Nat} (h : s 0 ↔ ¬ s 1) (ha : trP.Applicable s a) :
    trP.result s a 0 ↔ ¬ trP.result s a 1 := by
  have hp : a < 3 → s a := fun h3 => ha a (by simp [trP, h3])
  simp only [Problem.result, trP]
  rcases Nat.lt_or_ge a 3 with h3 | h3
  · interval_cases a <;> simp_all
  · rw [if_neg (by omega), if_neg (by omega), if_neg (by omega), if_neg (by omega), if_neg (by omega)]
    simpa using h

theorem trP_inv {s s' : State} {π : List Nat} (h : Exec trP s π s') : (s 0 ↔ ¬ s 1) → (s' 0 ↔ ¬ s' 1) := by
  induction h with
  | nil s => exact id
  | cons ha _ ih => exact fun hs => ih (trP_step hs ha)

theorem trP_sas : SasInput trP [(0, 1), (2, 2)] where
  ne := by simp
  contig := by simp [Contig, trP]
  inv π s h := by
    have hs := trP_inv h (by simp [Problem.initState, trP])
    intro v hv hlt
    simp only [List.mem_cons, List.not_mem_nil, or_false] at hv
    rcases hv with rfl | rfl
    · by_cases h1 : s 1
      · refine ⟨1, by omega, by omega, h1, fun c _ hc hsc => ?_⟩
        simp only at hc
        interval_cases c
        · exact absurd h1 (hs.1 hsc)
        · rfl
      · refine ⟨0, by omega, by omega, hs.2 h1, fun c _ hc hsc => ?_⟩
        simp only at hc
        interval_cases c
        · rfl
        · exact absurd hsc h1
    · omega
  noClash a f h1 h2 := by
    simp only [trP] at h1 h2
    split_ifs at h1 h2 <;> simp at h1 h2 <;> omega
  sorted := by simp [trP]

theorem trP_in : ToInput trP [(0, 1), (2, 2)] 3 5 where
  wf := trP_wf
  sas := trP_sas
  fits := by
    intro _ f hf i hi
    simp only [trP, List.mem_singleton] at hf
    subst hf
    simp [varIdx] at hi
    simp [← hi, trP]
  prim _ := rfl
  nA_le := by omega
  head_lt m _ := by simp only [trP]; split_ifs <;> omega
  sub_lt m _ t ht := by simp only [trP] at ht; split_ifs at ht <;> simp at ht <;> omega
  init_lt := by simp [trP]
  totOK := by
    have key : ∀ m < 3, ∀ i j : Nat, i < j → j < (trP.sub m).length → Relation.TransGen (trP.OrdRel m) i j := by
      intro m hm i j hij hj
      have h1 : ∀ k, k + 1 < (trP.sub m).length → trP.OrdRel m k (k + 1) := by
        intro k hk
        simp only [Problem.OrdRel]
        interval_cases m <;> simp [trP] at hk ⊢ <;> omega
      induction j with
      | zero => omega
      | succ j ih =>
        rcases Nat.lt_or_ge i j with h | h
        · exact (ih h (by omega)).tail (h1 j hj)
        · obtain rfl : i = j := by omega
          exact .single (h1 i hj)
    intro m hm
    refine ⟨List.Perm.refl _, ?_⟩
    rw [List.pairwise_iff_getElem]
    intro i j hi hj hij
    simp only [List.length_range] at hi hj
    simp only [List.getElem_range]
    exact key m hm i j hij hj

theorem trP_noConf : NoConf trP [(0, 1), (2, 2)] 3 where
  act a ha f hf g hg _ := by
    simp only [trP] at hf hg
    rw [if_pos ha] at hf hg
    simp at hf hg
    omega
  meth m hm i j a b hij ha hb hk f hf g hg hs hadd := by
    rcases Nat.eq_or_lt_of_le hij with rfl | hlt
    · rw [ha] at hb
      cases hb
      simp only [trP] at hf hg
      split_ifs at hf hg
      · simp at hf hg
        omega
      · simp at hf
    · have hm : m < 3 := hm
      interval_cases m
      · have hj : j < 3 := by simpa [trP] using (List.getElem?_eq_some_iff.1 hb).1
        interval_cases j
        · omega
        · obtain rfl : i = 0 := by omega
          simp [trP] at ha hb
          subst ha hb
          simp [trP] at hf hg
          subst hf hg
          exact absurd ⟨(0, 1), by simp, by simp⟩ (hadd 0 0 (by omega) (by omega) rfl 1 (by simp [trP]))
        · have := hk 2 4 (by omega) rfl
          simp [trP] at this
      · have hj : j < 1 := by simpa [trP] using (List.getElem?_eq_some_iff.1 hb).1
        omega
      · have hj : j < 2 := by simpa [trP] using (List.getElem?_eq_some_iff.1 hb).1
        have := hk 1 3 (by omega) rfl
        simp [trP] at this

/-- The hypotheses of C62 to C65 are met by a problem with a solution. -/
example : SasInput trP [(0, 1), (2, 2)] ∧ S0Fits trP [(0, 1), (2, 2)] ∧ ToInput trP [(0, 1), (2, 2)] 3 5 ∧
    NoConf trP [(0, 1), (2, 2)] 3 ∧ TotOK trP fun m => List.range (trP.sub m).length :=
  ⟨trP_sas, trP_in.fits, trP_in, trP_noConf, trP_in.totOK⟩

/-! ## Where the code is wrong -/

theorem stk_inv {P : Problem} {tot : Nat → List Nat} {h : Nat} {s s' : State} {t : Nat} {r π : List Nat}
    (hs : Stk P tot (fun _ => 0) h s (t :: r) π s') :
    (P.prim t = true ∧ P.Applicable s t ∧ ∃ π', π = t :: π' ∧ Stk P tot (fun _ => 0) h (P.result s t) r π' s') ∨
    ∃ m < P.numMethods, P.head m = t ∧ Stk P tot (fun _ => 0) h s (tasksOf P tot m ++ r) π s' := by
  generalize e : t :: r = st at hs
  cases hs with
  | nil => cases e
  | act h1 h2 h3 =>
    cases e
    exact .inl ⟨h1, h2, _, rfl, h3⟩
  | meth h1 _ h3 h4 =>
    cases e
    rw [List.take_zero] at h3 ⊢
    cases h3
    rw [List.drop_zero] at h4
    exact .inr ⟨_, h1, rfl, h4⟩

theorem stk_of_solution {P : Problem} {tot : Nat → List Nat} (hP : P.WF) (ht : TotOK P tot) {π : List Nat} (h : IsSolution P π) :
    ∃ k s', Stk P tot (fun _ => 0) k P.initState [P.init] π s' ∧ P.GoalState s' := by
  obtain ⟨k, hk⟩ := h.fits (lead := fun _ => 0) ht
  obtain ⟨s', h1, h2⟩ := (stk_iff ht (by simp) hP (by omega)).1 (hk (k + 1) (by omega))
  exact ⟨_, s', h1, h2⟩

/-- A task that needs fact `f`, with two facts in two variables, of which the second holds. -/
def s0P (f : Nat) : Problem where
  numFacts := 2
  prim t := decide (t < 1)
  prec t := if t = 0 then [f] else []
  add _ := []
  del _ := []
  cost _ := 1
  numMethods := 1
  head _ := 1
  sub _ := [0]
  ord _ := []
  init := 1
  s0 := [1]
  goal := []

theorem s0P_wf {f : Nat} (hf : f < 2) : (s0P f).WF where
  ord_lt := by simp [s0P]
  ord_acyclic m _ := ⟨id, by simp [s0P]⟩
  sub_ne := by simp [s0P]
  head_abs := by simp [s0P]
  init_abs := by simp [s0P]
  prec_lt a g h := by
    simp only [s0P] at h ⊢
    split_ifs at h <;> simp at h
    omega
  add_lt := by simp [s0P]
  del_lt := by simp [s0P]
  s0_lt := by simp [s0P]
  goal_lt := by simp [s0P]

theorem s0P_tot (f : Nat) : TotOK (s0P f) fun m => List.range ((s0P f).sub m).length := by
  intro m _
  exact ⟨List.Perm.refl _, by simp [s0P]⟩

/-- What the translation writes for `s0P f`. -/
def s0T (f : Nat) : STask Lab where
  doms := [2, 2, 2, 3]
  init := [0, 1, 1, 2]
  goal := [(2, 0)]
  ops := [(.prim 0 0, ⟨[(f, 0)], [(3, some 1, 0), (2, some 1, 0)], 1⟩), (.meth 0 0, ⟨[(f, 0)], [(2, some 1, 0), (3, some 2, 0)], 1⟩)]

theorem s0T_eq : translate (s0P 0) [(0, 0), (1, 1)] 1 2 1 = some (s0T 0) ∧ translate (s0P 1) [(0, 0), (1, 1)] 1 2 1 = some (s0T 1) :=
  ⟨by rfl, by rfl⟩

/-- The initial state is wrong: everything of `ToInput` but `S0Fits` holds, there is a solution that needs a stack with one
cell, but the translated problem has no plan. -/
theorem C64_initial_state_violated : StackSolution (s0P 1) 1 [0] ∧
    ∃ T, translate (s0P 1) [(0, 0), (1, 1)] 1 2 1 = some T ∧ ∀ ρ, ¬ T.Plan ρ := by
  refine ⟨?_, s0T 1, s0T_eq.2, ?_⟩
  · refine (stk_iff (s0P_tot 1) ?_ (s0P_wf (by omega)) (le_refl 1)).2
      ⟨(s0P 1).result (s0P 1).initState 0, ?_, by simp [Problem.GoalState, s0P]⟩
    · intro m _ t ht
      have : t = 0 := by simpa [tasksOf, s0P, primLead] using ht
      subst this
      rfl
    · have := Stk.meth (P := s0P 1) (tot := fun m => List.range ((s0P 1).sub m).length) (lead := primLead (s0P 1)) (h := 1)
        (s := (s0P 1).initState) (s₁ := (s0P 1).result (s0P 1).initState 0) (s' := (s0P 1).result (s0P 1).initState 0) (m := 0) (r := []) (π := [])
        (by simp [s0P]) (by simp [s0P, primLead]) ?_ (.nil _)
      · exact this
      · refine .cons (fun f hf => ?_) (.nil _)
        have : f = 1 := by simpa [s0P] using hf
        subst this
        simp [Problem.initState, s0P]
  · rintro ρ ⟨σ, hrun, hg⟩
    cases hrun with
    | nil =>
      have := hg (2, 0) (by simp [s0T])
      simp [STask.start, s0T] at this
    | cons hx happ _ =>
      have := happ.1 (1, 0) (by
        simp only [s0T, List.mem_cons, List.not_mem_nil, or_false] at hx
        rcases hx with rfl | rfl <;> simp)
      simp [STask.start, s0T] at this

theorem s0P_unsolvable (π : List Nat) : ¬ IsSolution (s0P 0) π := by
  intro h
  obtain ⟨k, s', h1, -⟩ := stk_of_solution (s0P_wf (by omega)) (s0P_tot 0) h
  rcases stk_inv h1 with ⟨hp, -⟩ | ⟨m, hm, -, h2⟩
  · simp [s0P] at hp
  · rcases stk_inv (t := 0) (r := []) h2 with ⟨-, ha, -⟩ | ⟨m', -, he, -⟩
    · have := ha 0 (by simp [s0P])
      simp [Problem.initState, s0P] at this
    · simp [s0P] at he

/-- The initial state is wrong: the problem has no solution, the translated problem has a plan. -/
theorem C65_initial_state_violated : ∃ T ρ, translate (s0P 0) [(0, 0), (1, 1)] 1 2 1 = some T ∧ T.Plan ρ ∧
    (∀ x ∈ ρ, x.2 ≠ blankOp) ∧ ∀ π, ¬ IsSolution (s0P 0) π := by
  refine ⟨s0T 0, [(.meth 0 0, ⟨[(0, 0)], [(2, some 1, 0), (3, some 2, 0)], 1⟩)], s0T_eq.1, ⟨_, .cons ?_ ?_ (.nil _), ?_⟩, ?_,
    s0P_unsolvable⟩
  · simp [s0T]
  · decide
  · intro g hg
    simp only [s0T, List.mem_singleton] at hg
    subst hg
    rfl
  · intro x hx
    simp only [List.mem_singleton] at hx
    subst hx
    decide

/-- A method for two actions, of which one needs fact 0 and the other one needs fact 1 of the same variable. -/
def cfP : Problem where
  numFacts := 2
  prim t := decide (t < 2)
  prec t := if t < 2 then [t] else []
  add _ := []
  del _ := []
  cost _ := 1
  numMethods := 1
  head _ := 2
  sub _ := [0, 1]
  ord _ := [(0, 1)]
  init := 2
  s0 := [0]
  goal := []

theorem cfP_wf : cfP.WF where
  ord_lt := by simp [cfP]
  ord_acyclic m _ := ⟨id, by simp [cfP]⟩
  sub_ne := by simp [cfP]
  head_abs := by simp [cfP]
  init_abs := by simp [cfP]
  prec_lt a g h := by
    simp only [cfP] at h ⊢
    split_ifs at h <;> simp at h
    omega
  add_lt := by simp [cfP]
  del_lt := by simp [cfP]
  s0_lt := by simp [cfP]
  goal_lt := by simp [cfP]

theorem cfP_in : ToInput cfP [(0, 1)] 2 3 where
  wf := cfP_wf
  sas :=
    { ne := by simp
      contig := by simp [Contig, cfP]
      inv := by
        intro π s h
        have key : ∀ s s' π, Exec cfP s π s' → (s 0 ∧ ¬ s 1) → s' 0 ∧ ¬ s' 1 := by
          intro s s' π h
          induction h with
          | nil s => exact id
          | cons ha _ ih => exact fun hs => ih (by simpa [Problem.result, cfP] using hs)
        obtain ⟨h0, h1⟩ := key _ _ _ h (by simp [Problem.initState, cfP])
        intro v hv _
        simp only [List.mem_singleton] at hv
        subst hv
        refine ⟨0, by omega, by omega, h0, fun c _ hc hsc => ?_⟩
        simp only at hc
        interval_cases c
        · rfl
        · exact absurd hsc h1
      noClash := by simp [cfP]
      sorted := by simp [cfP] }
  fits := by intro h; simp [hasSingle] at h
  prim _ := rfl
  nA_le := by omega
  head_lt := by simp [cfP]
  sub_lt := by simp [cfP]
  init_lt := by simp [cfP]
  totOK m _ := ⟨List.Perm.refl _, by simpa [cfP, List.range_succ] using Relation.TransGen.single (by simp [Problem.OrdRel])⟩

/-- Leading actions that contradict each other: only the first precondition is written; the problem has no solution, the
translated problem has a plan. -/
theorem C65_prefix_violated : ToInput cfP [(0, 1)] 2 3 ∧ ∃ T ρ, translate cfP [(0, 1)] 2 3 1 = some T ∧ T.Plan ρ ∧
    (∀ x ∈ ρ, x.2 ≠ blankOp) ∧ ∀ π, ¬ IsSolution cfP π := by
  refine ⟨cfP_in, ⟨[2, 2, 4], [0, 1, 3], [(1, 0)], [
    (.prim 0 0, ⟨[(0, 0)], [(2, some 1, 0), (1, some 1, 0)], 1⟩), (.prim 1 0, ⟨[(0, 1)], [(2, some 2, 0), (1, some 1, 0)], 1⟩),
    (.meth 0 0, ⟨[(0, 0)], [(1, some 1, 0), (2, some 3, 0)], 2⟩)]⟩, [(.meth 0 0, ⟨[(0, 0)], [(1, some 1, 0), (2, some 3, 0)], 2⟩)],
    by rfl, ⟨_, .cons ?_ ?_ (.nil _), ?_⟩, ?_, ?_⟩
  · simp
  · decide
  · intro g hg
    simp only [List.mem_singleton] at hg
    subst hg
    rfl
  · intro x hx
    simp only [List.mem_singleton] at hx
    subst hx
    decide
  · intro π h
    obtain ⟨k, s', h1, -⟩ := stk_of_solution cfP_wf cfP_in.totOK h
    rcases stk_inv h1 with ⟨hp, -⟩ | ⟨m, hm, -, h2⟩
    · simp [cfP] at hp
    · rcases stk_inv (t := 0) (r := [1]) h2 with ⟨-, -, π', -, h3⟩ | ⟨m', -, he, -⟩
      · rcases stk_inv h3 with ⟨-, ha, -⟩ | ⟨m', -, he, -⟩
        · have := ha 1 (by simp [cfP])
          simp [Problem.result, Problem.initState, cfP] at this
        · simp [cfP] at he
      · simp [cfP] at he

/-- Two methods for the task: the leading actions of the first one contradict each other in a way that is noticed. -/
def blP : Problem where
  numFacts := 2
  prim t := decide (t < 2)
  prec t := if t < 2 then [0] else []
  add t := if t = 0 then [1] else []
  del t := if t = 0 then [0] else []
  cost _ := 1
  numMethods := 2
  head _ := 2
  sub m := if m = 0 then [0, 1] else [1]
  ord m := if m = 0 then [(0, 1)] else []
  init := 2
  s0 := [0]
  goal := []

/-- A blank operator in a plan: the actions are not executable. -/
theorem C65_blank_violated : ∃ T ρ, translate blP [(0, 1)] 2 3 1 = some T ∧ T.Plan ρ ∧ planActs blP ρ = [0, 1, 1] ∧
    ∀ s', ¬ Exec blP blP.initState [0, 1, 1] s' := by
  refine ⟨⟨[2, 2, 4], [0, 1, 3], [(1, 0)], [
    (.prim 0 0, ⟨[], [(0, some 0, 1), (2, some 1, 0), (1, some 1, 0)], 1⟩), (.prim 1 0, ⟨[(0, 0)], [(2, some 2, 0), (1, some 1, 0)], 1⟩),
    (.meth 0 0, blankOp), (.meth 1 0, ⟨[(0, 0)], [(1, some 1, 0), (2, some 3, 0)], 1⟩)]⟩,
    [(.meth 0 0, blankOp), (.meth 1 0, ⟨[(0, 0)], [(1, some 1, 0), (2, some 3, 0)], 1⟩)],
    by rfl, ⟨_, .cons ?_ ?_ (.cons ?_ ?_ (.nil _)), ?_⟩, by decide, ?_⟩
  · simp
  · decide
  · simp
  · decide
  · intro g hg
    simp only [List.mem_singleton] at hg
    subst hg
    rfl
  · intro s' h
    cases h with
    | cons _ h =>
      cases h with
      | cons ha _ =>
        have := ha 0 (by simp [blP])
        simp [Problem.result, Problem.initState, blP] at this

/-- A method whose first subtask is an action that is executed after the abstract second one: `firstNumTOPrimTasks` is 1, and
the abstract task is used as an action (its costs and preconditions are read outside of their arrays). -/
def abP : Problem where
  numFacts := 1
  prim t := decide (t < 1)
  prec _ := []
  add _ := []
  del _ := []
  cost _ := 1
  numMethods := 2
  head m := if m = 0 then 1 else 2
  sub m := if m = 0 then [0, 2] else [0]
  ord m := if m = 0 then [(1, 0)] else []
  init := 1
  s0 := [0]
  goal := []

theorem C63_abstract_prefix_violated : TotOK abP (fun m => if m = 0 then [1, 0] else [0]) ∧
    (reorder abP.prim (abP.sub 0) (abP.ord 0)).map Reo.prefixTasks = some [2] ∧ translate abP [(0, 0)] 1 3 2 = none := by
  refine ⟨fun m hm => ?_, by decide +kernel, by rfl⟩
  simp only [abP] at hm ⊢
  interval_cases m
  · exact ⟨by decide, by simpa using Relation.TransGen.single (by simp [Problem.OrdRel])⟩
  · exact ⟨by decide, by simp⟩

end Verif.Props
