import Verif.PoHddlPs
import Verif.PoHddlPush
import Verif.Props.StripsTranslate

/-! # Property theorems C83, C84, C85: what is printed for plans of the translations of partially ordered problems -/

namespace Verif.Props

open Verif.Htn Verif.Sas Relation

/-- **C83** (partial, see C81): what is printed for a plan of the translation without conditional effects is a decomposition of the
initial task with the actions of the plan in their order: see `HddlPO`. -/
theorem C83_strips_hddl_partial (P : Problem) (vars : List (Nat × Nat)) (nA nT B : Nat) (hin : PushInput P vars nA nT)
    (hd : PrecsDiffer P vars nA) (hfl : FirstLast P) (hB : 0 < B) (hbin : BinFits P B) (T : STask SLab)
    (hT : stTranslate P vars nA nT B = some T) (ρ : List (SLab × SOp)) (hρ : T.Plan ρ) :
    IsSolution P (stActs ρ) ∧
      ∃ tr occ, HddlPO P (planToHddlPO P (fun m => (reoOf P m).order) (ρ.map fun x => slLine x.1)) tr occ (stActs ρ) := by
  have hcnt : ∀ m < P.numMethods, ∃ c, stCount B (P.sub m).length (mNl P m) = some c := fun m hm => stCount_some (hbin m hm)
  have hf := hd.precFun hin.sas.contig
  exact ⟨((stPlans hin hf (hfl.lastOk hin) hB hcnt hT).1 ρ hρ).1, st_hddl hin hf (hfl.lastOk hin) hB hcnt hT hρ⟩

/-- **C84** (partial, see C79; only for plans without operators that move a task, since the code is wrong for the others, see
`C84_push_hddl_twice_violated` and `C84_push_hddl_lost_violated`): what is printed for a plan of the translation with conditional effects
is a decomposition of the initial task with the actions of the plan in their order. -/
theorem C84_push_hddl_partial (P : Problem) (vars : List (Nat × Nat)) (nA nT B : Nat) (hin : PushInput P vars nA nT)
    (hd : PrecsDiffer P vars nA) (hB : 0 < B) (T : CTask PLab) (hT : pushTranslate P vars nA nT B true zeroJunk = some T)
    (ρ : List (PLab × COp)) (hρ : T.Plan ρ) (hmv : ∀ t j, PLab.move t j ∉ ρ.map Prod.fst) :
    IsSolution P (pushActs ρ) ∧
      ∃ tr occ, HddlPO P (planToHddlPO P (fun m => (reoOf P m).order) (ρ.map fun x => puLine P B x.1)) tr occ (pushActs ρ) := by
  have hf := hd.precFun hin.sas.contig
  exact ⟨((pushPlans hin hf hB hT).1 ρ hρ).1.isSolution hin.wf, push_hddl hin hf hB hT hρ hmv⟩

/-- **C85** (partial, see C68): what is printed for a plan of the translation of parallel sequences is a decomposition of the initial
task with the actions of the plan in their order. -/
theorem C85_ps_hddl_partial (P : Problem) (vars : List (Nat × Nat)) (nA nT : Nat) (h : List Nat) (hin : PsInput P vars nA nT h.length)
    (hd : PrecsDiffer P vars nA) (h1 : ∀ p ∈ h, 1 ≤ p) (T : STask Lab) (hT : psTranslate P vars nA nT h = some T)
    (ρ : List (Lab × SOp)) (hρ : T.Plan ρ) :
    IsSolution P (psActs ρ) ∧
      ∃ tr occ, HddlPO P (planToHddlPO P (fun m => (reoOf P m).order) (ρ.map fun x => psLine P h x.1)) tr occ (psActs ρ) := by
  obtain ⟨T', hT', -, k, -⟩ := C68_ps_translate_partial P vars nA nT h hin hd h1
  rw [hT] at hT'
  cases hT'
  exact ⟨(k ρ hρ).1, ps_hddl hin (hd.precFun hin.sas.contig) h1 hT hρ⟩

/-! ## A problem that meets the hypotheses -/

theorem execS_labels {T : STask SLab} : ∀ {l : List SLab} {σ σ' : Val} {ρ : List (SLab × SOp)}, execS T l σ = some (ρ, σ') →
    ρ.map Prod.fst = l := by
  intro l
  induction l with
  | nil =>
    intro σ σ' ρ h
    simp only [execS, Option.some.injEq, Prod.mk.injEq] at h
    obtain ⟨rfl, rfl⟩ := h
    rfl
  | cons i r ih =>
    intro σ σ' ρ h
    rw [execS] at h
    cases hx : T.ops.find? fun x => x.1 == i with
    | none => simp [hx] at h
    | some x =>
      rw [hx] at h
      simp only at h
      split at h
      · obtain ⟨y, hy, e⟩ := Option.map_eq_some_iff.1 h
        cases e
        have := List.find?_some hx
        simp only [beq_iff_eq] at this
        rw [List.map_cons, ih hy, this]
      · cases h

/-- The operators lead to the goal. -/
def goalS (T : STask SLab) (l : List SLab) : Bool := match execS T l T.start with
  | none => false
  | some y => T.goal.all fun g => y.2 g.1 == g.2

theorem goalS_plan {T : STask SLab} {l : List SLab} (h : goalS T l = true) : ∃ ρ, T.Plan ρ ∧ ρ.map Prod.fst = l := by
  rw [goalS] at h
  cases he : execS T l T.start with
  | none => simp [he] at h
  | some y =>
    rw [he] at h
    simp only [List.all_eq_true, beq_iff_eq] at h
    exact ⟨y.1, ⟨y.2, execS_run he, h⟩, execS_labels he⟩

/-- The hypotheses of C83 are met by a plan in which tasks are interleaved, and what is printed for it. -/
example : PushInput psP [(0, 0), (1, 1)] 3 6 ∧ PrecsDiffer psP [(0, 0), (1, 1)] 3 ∧ FirstLast psP ∧ BinFits psP 6 ∧
    ∃ T ρ, stTranslate psP [(0, 0), (1, 1)] 3 6 6 = some T ∧ T.Plan ρ ∧
      planToHddlPO psP (fun m => (reoOf psP m).order) (ρ.map fun x => slLine x.1) =
        ⟨[(0, 1), (1, 0), (2, 1), (3, 0)], 4, [⟨4, 5, 0, [some 6, some 5, some 3]⟩, ⟨5, 3, 1, [some 1, some 7]⟩, ⟨6, 4, 2, [some 0]⟩,
          ⟨7, 4, 2, [some 2]⟩]⟩ := by
  obtain ⟨ρ, h1, h2⟩ := goalS_plan (T := (stTranslate psP [(0, 0), (1, 1)] 3 6 6).get (by decide +kernel))
    (l := [.meth 0 0 [1, 2, 3], .meth 1 2 [2, 4], .meth 2 3 [3], .prim 1 3, .prim 0 4, .meth 2 2 [2], .prim 1 2, .prim 0 1, .empty 0])
    (by decide +kernel)
  refine ⟨psP_push, psP_differ, psP_firstLast, psP_binFits, _, ρ, (Option.some_get _).symm, h1, ?_⟩
  rw [show (ρ.map fun x => slLine x.1) = (ρ.map Prod.fst).map slLine by simp, h2]
  decide +kernel

/-- Executing the operators leads to the goal, and these are their names. -/
def goalIdx (T : STask Lab) (l : List Nat) (L : List Lab) : Bool := match execIdx T l T.start with
  | none => false
  | some y => T.goal.all (fun g => y.2 g.1 == g.2) && decide (y.1.map Prod.fst = L)

theorem goalIdx_plan {T : STask Lab} {l : List Nat} {L : List Lab} (h : goalIdx T l L = true) : ∃ ρ, T.Plan ρ ∧ ρ.map Prod.fst = L := by
  rw [goalIdx] at h
  cases he : execIdx T l T.start with
  | none => simp [he] at h
  | some y =>
    rw [he] at h
    simp only [Bool.and_eq_true, List.all_eq_true, beq_iff_eq, decide_eq_true_eq] at h
    exact ⟨y.1, ⟨y.2, execIdx_run he, h.1⟩, h.2⟩

/-- The hypotheses of C85 are met by a plan in which the sequences are interleaved, and what is printed for it. -/
example : PsInput psP [(0, 0), (1, 1)] 3 6 [2, 2, 2].length ∧ PrecsDiffer psP [(0, 0), (1, 1)] 3 ∧
    ∃ T ρ, psTranslate psP [(0, 0), (1, 1)] 3 6 [2, 2, 2] = some T ∧ T.Plan ρ ∧
      planToHddlPO psP (fun m => (reoOf psP m).order) (ρ.map fun x => psLine psP [2, 2, 2] x.1) =
        ⟨[(0, 2), (1, 1), (2, 0), (3, 1), (4, 0)], 5, [⟨5, 5, 0, [some 6, some 8, some 4]⟩, ⟨6, 4, 3, [some 0, some 7]⟩,
          ⟨7, 4, 2, [some 1]⟩, ⟨8, 3, 1, [some 2, some 9]⟩, ⟨9, 4, 2, [some 3]⟩]⟩ := by
  obtain ⟨ρ, h1, h2⟩ := goalIdx_plan (T := (psTranslate psP [(0, 0), (1, 1)] 3 6 [2, 2, 2]).get (by decide +kernel))
    (l := [18, 30, 17, 24, 8, 20, 4, 23, 7, 0])
    (L := [.meth 0 0, .meth 3 4, .prim 2 5, .meth 2 4, .prim 1 4, .meth 1 2, .prim 0 3, .meth 2 2, .prim 1 2, .prim 0 0])
    (by decide +kernel)
  refine ⟨psP_in, psP_differ, _, ρ, (Option.some_get _).symm, h1, ?_⟩
  rw [show (ρ.map fun x => psLine psP [2, 2, 2] x.1) = (ρ.map Prod.fst).map (psLine psP [2, 2, 2]) by simp, h2]
  decide +kernel

/-! ## Where the code is wrong -/

theorem execLab_labels {T : CTask PLab} : ∀ {l : List PLab} {σ σ' : Val} {ρ : List (PLab × COp)}, execLab T l σ = some (ρ, σ') →
    ρ.map Prod.fst = l := by
  intro l
  induction l with
  | nil =>
    intro σ σ' ρ h
    simp only [execLab, Option.some.injEq, Prod.mk.injEq] at h
    obtain ⟨rfl, rfl⟩ := h
    rfl
  | cons i r ih =>
    intro σ σ' ρ h
    rw [execLab] at h
    cases hx : T.ops.find? fun x => x.1 == i with
    | none => simp [hx] at h
    | some x =>
      rw [hx] at h
      simp only at h
      split at h
      · obtain ⟨y, hy, e⟩ := Option.map_eq_some_iff.1 h
        cases e
        have := List.find?_some hx
        simp only [beq_iff_eq] at this
        rw [List.map_cons, ih hy, this]
      · cases h

/-- The operators lead to the goal. -/
def goalLab (T : CTask PLab) (l : List PLab) : Bool := match execLab T l T.start with
  | none => false
  | some y => T.goal.all fun g => y.2 g.1 == g.2

theorem goalLab_plan {T : CTask PLab} {l : List PLab} (h : goalLab T l = true) : ∃ ρ, T.Plan ρ ∧ ρ.map Prod.fst = l := by
  rw [goalLab] at h
  cases he : execLab T l T.start with
  | none => simp [he] at h
  | some y =>
    rw [he] at h
    simp only [List.all_eq_true, beq_iff_eq] at h
    exact ⟨y.1, ⟨y.2, execLab_run he, h⟩, execLab_labels he⟩

/-- The hypotheses of C84 are met by a plan in which tasks are interleaved, and what is printed for it. -/
example : PushInput psP [(0, 0), (1, 1)] 3 6 ∧ PrecsDiffer psP [(0, 0), (1, 1)] 3 ∧
    ∃ T ρ, pushTranslate psP [(0, 0), (1, 1)] 3 6 3 true zeroJunk = some T ∧ T.Plan ρ ∧ (∀ t j, PLab.move t j ∉ ρ.map Prod.fst) ∧
      planToHddlPO psP (fun m => (reoOf psP m).order) (ρ.map fun x => puLine psP 3 x.1) =
        ⟨[(0, 1), (1, 0), (2, 1), (3, 0)], 4, [⟨4, 5, 0, [some 5, some 6, some 3]⟩, ⟨5, 4, 2, [some 0]⟩, ⟨6, 3, 1, [some 1, some 7]⟩,
          ⟨7, 4, 2, [some 2]⟩]⟩ := by
  obtain ⟨ρ, h1, h2⟩ := goalLab_plan (T := (pushTranslate psP [(0, 0), (1, 1)] 3 6 3 true zeroJunk).get (by decide +kernel))
    (l := [.meth 0 0, .meth 2 2, .prim 1 2, .meth 1 1, .prim 0 2, .meth 2 1, .prim 1 1, .prim 0 0]) (by decide +kernel)
  refine ⟨psP_push, psP_differ, _, ρ, (Option.some_get _).symm, h1, by rw [h2]; simp, ?_⟩
  rw [show (ρ.map fun x => puLine psP 3 x.1) = (ρ.map Prod.fst).map (puLine psP 3) by simp, h2]
  decide +kernel

/-- **C84** does not hold for the `Push` translation: a method with the same action twice is printed with the number of the first one
twice, and the second one is no subtask of any line, since both are executed in the same cell. -/
theorem C84_push_hddl_twice_violated : PushInput stR [(0, 0)] 3 4 ∧ PrecsDiffer stR [(0, 0)] 3 ∧
    ∃ T ρ, pushTranslate stR [(0, 0)] 3 4 2 true zeroJunk = some T ∧ T.Plan ρ ∧ pushActs ρ = [1, 1] ∧
      planToHddlPO stR (fun m => (reoOf stR m).order) (ρ.map fun x => puLine stR 2 x.1) =
        ⟨[(0, 1), (1, 1)], 2, [⟨2, 3, 0, [some 0, some 0]⟩]⟩ ∧
      ∀ tr occ π, ¬ HddlPO stR (planToHddlPO stR (fun m => (reoOf stR m).order) (ρ.map fun x => puLine stR 2 x.1)) tr occ π := by
  refine ⟨stR_push, fun a _ f hf => by simp [stR] at hf, ?_⟩
  obtain ⟨ρ, h1, h2⟩ := goalLab_plan (T := (pushTranslate stR [(0, 0)] 3 4 2 true zeroJunk).get (by decide +kernel))
    (l := [.meth 0 0, .prim 1 0, .move 1 1, .prim 1 0]) (by decide +kernel)
  have hout : planToHddlPO stR (fun m => (reoOf stR m).order) (ρ.map fun x => puLine stR 2 x.1) =
      ⟨[(0, 1), (1, 1)], 2, [⟨2, 3, 0, [some 0, some 0]⟩]⟩ := by
    rw [show (ρ.map fun x => puLine stR 2 x.1) = (ρ.map Prod.fst).map (puLine stR 2) by simp, h2]
    decide +kernel
  refine ⟨_, ρ, (Option.some_get _).symm, h1, ?_, hout, fun tr occ π h => ?_⟩
  · rw [pushActs, show (ρ.filterMap fun x => plabAct x.1) = (ρ.map Prod.fst).filterMap plabAct by rw [List.filterMap_map]; rfl, h2]
    rfl
  · obtain ⟨D, h3, h4, -, h5, -⟩ := h.lines
    rw [hout] at h3 h5
    have h6 := h5.mem_iff (a := 1)
    obtain ⟨d, rfl⟩ : ∃ d, D = [d] := List.length_eq_one_iff.1 (by simpa using (congrArg List.length h3).symm)
    have hs : d.subs.map some = [0, 0].map some := by
      simp only [List.map_cons, List.map_nil, List.cons.injEq, and_true] at h3
      exact congrArg HLine.subs h3.symm
    have hi : d.id = 2 := by
      simp only [List.map_cons, List.map_nil, List.cons.injEq, and_true] at h3
      exact congrArg HLine.id h3.symm
    have hs' : d.subs = [0, 0] := List.map_injective_iff.2 (Option.some_injective _) hs
    simp [hs', hi] at h6

/-- The initial task 5 is decomposed into the action 0, the task 3 and the action 1, in any order; the task 3 into the task 4, and the
task 4 into the action 2. -/
def puN : Problem where
  numFacts := 1
  prim t := decide (t < 3)
  prec _ := []
  add _ := []
  del _ := []
  cost _ := 1
  numMethods := 3
  head m := if m = 0 then 5 else if m = 1 then 3 else 4
  sub m := if m = 0 then [0, 3, 1] else if m = 1 then [4] else [2]
  ord _ := []
  init := 5
  s0 := []
  goal := []

theorem puN_push : PushInput puN [(0, 0)] 3 6 where
  wf :=
    { ord_lt := by simp [puN]
      ord_acyclic m _ := ⟨id, by simp [puN]⟩
      sub_ne := by
        intro m _
        simp only [puN]
        split_ifs <;> simp
      head_abs := by
        intro m _
        simp only [puN]
        split_ifs <;> simp
      init_abs := by simp [puN]
      prec_lt := by simp [puN]
      add_lt := by simp [puN]
      del_lt := by simp [puN]
      s0_lt := by simp [puN]
      goal_lt := by simp [puN] }
  sas :=
    { ne := by simp
      contig := by simp [Contig, puN]
      inv := by
        intro π s _ v hv hlt
        simp only [List.mem_cons, List.not_mem_nil, or_false] at hv
        subst hv
        simp at hlt
      noClash := by simp [puN]
      sorted := by simp [puN] }
  fits := by
    intro _ f hf
    simp [puN] at hf
  prim _ := rfl
  nA_le := by omega
  head_lt m _ := by simp only [puN]; split_ifs <;> omega
  sub_lt m _ t ht := by
    simp only [puN] at ht
    split_ifs at ht <;> simp at ht <;> omega
  init_lt := by simp [puN]
  top m _ := by
    simp only [puN]
    split_ifs <;> simp [TopOrd]

/-- **C84** does not hold for the `Push` translation: only the lines of actions fix the cell of a subtask, so a later move of another
task from this cell changes the cell of a subtask that has been decomposed already.  Then -1 is printed for it, and for the task that
has been moved. -/
theorem C84_push_hddl_lost_violated : PushInput puN [(0, 0)] 3 6 ∧ PrecsDiffer puN [(0, 0)] 3 ∧
    ∃ T ρ, pushTranslate puN [(0, 0)] 3 6 3 true zeroJunk = some T ∧ T.Plan ρ ∧ pushActs ρ = [2, 1, 0] ∧
      planToHddlPO puN (fun m => (reoOf puN m).order) (ρ.map fun x => puLine puN 3 x.1) =
        ⟨[(0, 2), (1, 1), (2, 0)], 3, [⟨3, 5, 0, [none, some 4, some 1]⟩, ⟨4, 3, 1, [none]⟩, ⟨5, 4, 2, [some 0]⟩]⟩ ∧
      ∀ tr occ π, ¬ HddlPO puN (planToHddlPO puN (fun m => (reoOf puN m).order) (ρ.map fun x => puLine puN 3 x.1)) tr occ π := by
  refine ⟨puN_push, fun a _ f hf => by simp [puN] at hf, ?_⟩
  obtain ⟨ρ, h1, h2⟩ := goalLab_plan (T := (pushTranslate puN [(0, 0)] 3 6 3 true zeroJunk).get (by decide +kernel))
    (l := [.meth 0 0, .meth 1 1, .meth 2 1, .prim 2 1, .move 0 2, .prim 1 0, .move 0 1, .prim 0 0]) (by decide +kernel)
  have hout : planToHddlPO puN (fun m => (reoOf puN m).order) (ρ.map fun x => puLine puN 3 x.1) =
      ⟨[(0, 2), (1, 1), (2, 0)], 3, [⟨3, 5, 0, [none, some 4, some 1]⟩, ⟨4, 3, 1, [none]⟩, ⟨5, 4, 2, [some 0]⟩]⟩ := by
    rw [show (ρ.map fun x => puLine puN 3 x.1) = (ρ.map Prod.fst).map (puLine puN 3) by simp, h2]
    decide +kernel
  refine ⟨_, ρ, (Option.some_get _).symm, h1, ?_, hout, fun tr occ π h => ?_⟩
  · rw [pushActs, show (ρ.filterMap fun x => plabAct x.1) = (ρ.map Prod.fst).filterMap plabAct by rw [List.filterMap_map]; rfl, h2]
    rfl
  · obtain ⟨D, h3, -⟩ := h.lines
    rw [hout] at h3
    have h4 : (⟨4, 3, 1, [none]⟩ : HLine) ∈ D.map toH := by rw [← h3]; simp
    obtain ⟨d, -, e⟩ := List.mem_map.1 h4
    have hs : d.subs.map some = [none] := congrArg HLine.subs e
    have : none ∈ d.subs.map some := by rw [hs]; simp
    simp at this

end Verif.Props
