import Verif.AndOrLM
import Verif.LmCausal
import Verif.Rc

/-! # The AND/OR graph of an HTN problem, what its derivations mean, and the collection of the landmarks

Models the construction of the graph (src/heuristics/landmarks/lmExtraction/LMsInAndOrGraphs.cpp 18-100, LmCausal.cpp 9-88), the
collection of landmarks for a search node (LMsInAndOrGraphs.cpp 299-356, LmCausal.cpp 250-283) and the local landmarks
(LMsInAndOrGraphs.cpp 394-494). -/

namespace Verif.AO

open Verif.Htn Verif.TaskCounter Verif.Prog Verif.Rc Relation

section Graph
variable (P : Problem) (nA nT : Nat)

/-- `aNode`, `tNode` (LMsInAndOrGraphs.cpp 362-364, LmCausal.cpp 287). -/
def tN (t : Nat) : Nat := P.numFacts + t

/-- `mNode` (LMsInAndOrGraphs.cpp 366-368, LmCausal.cpp 289). -/
def mN (m : Nat) : Nat := P.numFacts + nT + m

/-- The graph (LMsInAndOrGraphs.cpp 18-67, LmCausal.cpp 13-88): `kf`, `ka` are the kinds of facts and actions, `subs` lists the
subtasks of a method.  Edges are in the order in which the loops insert them. -/
def htnGraph (kf ka : Nat → Kind) (subs : Nat → List Nat) : Graph where
  num := P.numFacts + nT + P.numMethods
  kind n :=
    if n < P.numFacts then kf n
    else if n < P.numFacts + nT then if n - P.numFacts < nA then ka (n - P.numFacts) else .or
    else if n < P.numFacts + nT + P.numMethods then .and else .or
  par n :=
    if n < P.numFacts then (List.range nA).flatMap fun a => ((P.add a).filter (· == n)).map fun _ => tN P a
    else if n < P.numFacts + nT then
      (if n - P.numFacts < nA then P.prec (n - P.numFacts) else []) ++
        ((List.range P.numMethods).filter fun m => P.head m == n - P.numFacts).map (mN P nT)
    else if n < P.numFacts + nT + P.numMethods then (subs (n - (P.numFacts + nT))).map (tN P) else []
  chi n :=
    if n < P.numFacts then (List.range nA).flatMap fun a => ((P.prec a).filter (· == n)).map fun _ => tN P a
    else if n < P.numFacts + nT then
      (if n - P.numFacts < nA then P.add (n - P.numFacts) else []) ++
        (List.range P.numMethods).flatMap fun m => ((subs m).filter (· == n - P.numFacts)).map fun _ => mN P nT m
    else if n < P.numFacts + nT + P.numMethods then [tN P (P.head (n - (P.numFacts + nT)))] else []

/-- The graph of `LMsInAndOrGraphs` after the facts of the initial state got the type `tINIT` (LMsInAndOrGraphs.cpp 26-67, 165-173). -/
def lmGraph : Graph := htnGraph P nA nT (fun f => if f ∈ P.s0 then .init else .or) (fun _ => .and) P.sub

/-- The graph of `LmCausal` (LmCausal.cpp 23-88). -/
def causalGraph : Graph := htnGraph P nA nT (fun _ => .or) (fun a => if P.prec a = [] then .init else .and) fun m => keys (distinctSubs P m)

/-- `precLessActions` (src/Model.cpp 1830-1843) as nodes. -/
def precLess : List Nat := ((List.range nA).filter fun a => P.prec a = []).map (tN P)

end Graph

variable {P : Problem} {nA nT : Nat} {kf ka : Nat → Kind} {subs : Nat → List Nat}

section Mem

theorem par_fact {f x : Nat} (hf : f < P.numFacts) : x ∈ (htnGraph P nA nT kf ka subs).par f ↔ ∃ a < nA, x = tN P a ∧ f ∈ P.add a := by
  simp only [htnGraph, if_pos hf, List.mem_flatMap, List.mem_range, List.mem_map, List.mem_filter, beq_iff_eq]
  constructor
  · rintro ⟨a, ha, y, ⟨hy, rfl⟩, rfl⟩
    exact ⟨a, ha, rfl, hy⟩
  · rintro ⟨a, ha, rfl, hy⟩
    exact ⟨a, ha, f, ⟨hy, rfl⟩, rfl⟩

theorem par_task {t x : Nat} (ht : t < nT) : x ∈ (htnGraph P nA nT kf ka subs).par (tN P t) ↔
    (t < nA ∧ x ∈ P.prec t) ∨ ∃ m < P.numMethods, P.head m = t ∧ x = mN P nT m := by
  have h1 : ¬ tN P t < P.numFacts := by unfold tN; omega
  have h2 : tN P t < P.numFacts + nT := by unfold tN; omega
  have h3 : tN P t - P.numFacts = t := by unfold tN; omega
  simp only [htnGraph, if_neg h1, if_pos h2, h3, List.mem_append, List.mem_map, List.mem_filter, List.mem_range, beq_iff_eq]
  refine or_congr ?_ ?_
  · split_ifs with h <;> simp [h]
  · constructor
    · rintro ⟨m, ⟨hm, hh⟩, rfl⟩
      exact ⟨m, hm, hh, rfl⟩
    · rintro ⟨m, hm, hh, rfl⟩
      exact ⟨m, ⟨hm, hh⟩, rfl⟩

theorem par_meth {m x : Nat} (hm : m < P.numMethods) : x ∈ (htnGraph P nA nT kf ka subs).par (mN P nT m) ↔ ∃ t ∈ subs m, x = tN P t := by
  have h1 : ¬ mN P nT m < P.numFacts := by unfold mN; omega
  have h2 : ¬ mN P nT m < P.numFacts + nT := by unfold mN; omega
  have h3 : mN P nT m < P.numFacts + nT + P.numMethods := by unfold mN; omega
  have h4 : mN P nT m - (P.numFacts + nT) = m := by unfold mN; omega
  simp only [htnGraph, if_neg h1, if_neg h2, if_pos h3, h4, List.mem_map]
  exact ⟨fun ⟨t, ht, e⟩ => ⟨t, ht, e.symm⟩, fun ⟨t, ht, e⟩ => ⟨t, ht, e.symm⟩⟩

theorem chi_fact {f x : Nat} (hf : f < P.numFacts) : x ∈ (htnGraph P nA nT kf ka subs).chi f ↔ ∃ a < nA, x = tN P a ∧ f ∈ P.prec a := by
  simp only [htnGraph, if_pos hf, List.mem_flatMap, List.mem_range, List.mem_map, List.mem_filter, beq_iff_eq]
  constructor
  · rintro ⟨a, ha, y, ⟨hy, rfl⟩, rfl⟩
    exact ⟨a, ha, rfl, hy⟩
  · rintro ⟨a, ha, rfl, hy⟩
    exact ⟨a, ha, f, ⟨hy, rfl⟩, rfl⟩

theorem chi_task {t x : Nat} (ht : t < nT) : x ∈ (htnGraph P nA nT kf ka subs).chi (tN P t) ↔
    (t < nA ∧ x ∈ P.add t) ∨ ∃ m < P.numMethods, t ∈ subs m ∧ x = mN P nT m := by
  have h1 : ¬ tN P t < P.numFacts := by unfold tN; omega
  have h2 : tN P t < P.numFacts + nT := by unfold tN; omega
  have h3 : tN P t - P.numFacts = t := by unfold tN; omega
  simp only [htnGraph, if_neg h1, if_pos h2, h3, List.mem_append, List.mem_flatMap, List.mem_map, List.mem_filter, List.mem_range, beq_iff_eq]
  refine or_congr ?_ ?_
  · split_ifs with h <;> simp [h]
  · constructor
    · rintro ⟨m, hm, y, ⟨hy, rfl⟩, rfl⟩
      exact ⟨m, hm, hy, rfl⟩
    · rintro ⟨m, hm, hh, rfl⟩
      exact ⟨m, hm, t, ⟨hh, rfl⟩, rfl⟩

theorem chi_meth {m x : Nat} (hm : m < P.numMethods) : x ∈ (htnGraph P nA nT kf ka subs).chi (mN P nT m) ↔ x = tN P (P.head m) := by
  have h1 : ¬ mN P nT m < P.numFacts := by unfold mN; omega
  have h2 : ¬ mN P nT m < P.numFacts + nT := by unfold mN; omega
  have h3 : mN P nT m < P.numFacts + nT + P.numMethods := by unfold mN; omega
  have h4 : mN P nT m - (P.numFacts + nT) = m := by unfold mN; omega
  simp only [htnGraph, if_neg h1, if_neg h2, if_pos h3, h4, List.mem_singleton]

/-- A node is a fact, a task, a method or none of them. -/
theorem node_cases (P : Problem) (nT n : Nat) : n < P.numFacts ∨ (∃ t < nT, n = tN P t) ∨ (∃ m < P.numMethods, n = mN P nT m) ∨
    P.numFacts + nT + P.numMethods ≤ n := by
  by_cases h1 : n < P.numFacts
  · exact .inl h1
  by_cases h2 : n < P.numFacts + nT
  · exact .inr (.inl ⟨n - P.numFacts, by omega, by unfold tN; omega⟩)
  by_cases h3 : n < P.numFacts + nT + P.numMethods
  · exact .inr (.inr (.inl ⟨n - (P.numFacts + nT), by omega, by unfold mN; omega⟩))
  · exact .inr (.inr (.inr (by omega)))

theorem par_none {n : Nat} (hn : P.numFacts + nT + P.numMethods ≤ n) : (htnGraph P nA nT kf ka subs).par n = [] := by
  simp [htnGraph, show ¬ n < P.numFacts by omega, show ¬ n < P.numFacts + nT by omega, show ¬ n < P.numFacts + nT + P.numMethods by omega]

theorem chi_none {n : Nat} (hn : P.numFacts + nT + P.numMethods ≤ n) : (htnGraph P nA nT kf ka subs).chi n = [] := by
  simp [htnGraph, show ¬ n < P.numFacts by omega, show ¬ n < P.numFacts + nT by omega, show ¬ n < P.numFacts + nT + P.numMethods by omega]

theorem kind_fact {f : Nat} (hf : f < P.numFacts) : (htnGraph P nA nT kf ka subs).kind f = kf f := by simp [htnGraph, hf]

theorem kind_act {a : Nat} (ha : a < nA) (hT : a < nT) : (htnGraph P nA nT kf ka subs).kind (tN P a) = ka a := by
  have h1 : ¬ tN P a < P.numFacts := by unfold tN; omega
  have h2 : tN P a < P.numFacts + nT := by unfold tN; omega
  have h3 : tN P a - P.numFacts = a := by unfold tN; omega
  simp [htnGraph, h1, h2, h3, ha]

theorem kind_abs {a : Nat} (ha : ¬ a < nA) (hT : a < nT) : (htnGraph P nA nT kf ka subs).kind (tN P a) = .or := by
  have h1 : ¬ tN P a < P.numFacts := by unfold tN; omega
  have h2 : tN P a < P.numFacts + nT := by unfold tN; omega
  have h3 : tN P a - P.numFacts = a := by unfold tN; omega
  simp [htnGraph, h1, h2, h3, ha]

theorem kind_meth {m : Nat} (hm : m < P.numMethods) : (htnGraph P nA nT kf ka subs).kind (mN P nT m) = .and := by
  have h1 : ¬ mN P nT m < P.numFacts := by unfold mN; omega
  have h2 : ¬ mN P nT m < P.numFacts + nT := by unfold mN; omega
  have h3 : mN P nT m < P.numFacts + nT + P.numMethods := by unfold mN; omega
  simp [htnGraph, h1, h2, h3]

theorem kind_none {n : Nat} (hn : P.numFacts + nT + P.numMethods ≤ n) : (htnGraph P nA nT kf ka subs).kind n = .or := by
  simp [htnGraph, show ¬ n < P.numFacts by omega, show ¬ n < P.numFacts + nT by omega, show ¬ n < P.numFacts + nT + P.numMethods by omega]

theorem htnGraph_ok (hP : P.WF) (hR : RcOK P nA nT) (hs : ∀ m < P.numMethods, ∀ t ∈ subs m, t < nT) : (htnGraph P nA nT kf ka subs).OK := by
  have le := hR.le
  refine ⟨fun n p hp _ => ?_, fun n p hp => ?_, fun n p hp => ?_⟩
  · rcases node_cases P nT n with h | ⟨t, ht, rfl⟩ | ⟨m, hm, rfl⟩ | h
    · obtain ⟨a, ha, rfl, hf⟩ := (par_fact h).1 hp
      exact (chi_task (by omega)).2 (.inl ⟨ha, hf⟩)
    · rcases (par_task ht).1 hp with ⟨ha, hx⟩ | ⟨m, hm, hh, rfl⟩
      · exact (chi_fact (hP.prec_lt t p hx)).2 ⟨t, ha, rfl, hx⟩
      · rw [chi_meth hm, hh]
    · obtain ⟨t, ht, rfl⟩ := (par_meth hm).1 hp
      exact (chi_task (hs m hm t ht)).2 (.inr ⟨m, hm, ht, rfl⟩)
    · rw [par_none h] at hp
      simp at hp
  · show p < P.numFacts + nT + P.numMethods
    rcases node_cases P nT n with h | ⟨t, ht, rfl⟩ | ⟨m, hm, rfl⟩ | h
    · obtain ⟨a, ha, rfl, -⟩ := (par_fact h).1 hp
      unfold tN; omega
    · rcases (par_task ht).1 hp with ⟨ha, hx⟩ | ⟨m, hm, hh, rfl⟩
      · have := hP.prec_lt t p hx; omega
      · unfold mN; omega
    · obtain ⟨t, ht, rfl⟩ := (par_meth hm).1 hp
      have := hs m hm t ht
      unfold tN; omega
    · rw [par_none h] at hp
      simp at hp
  · show p < P.numFacts + nT + P.numMethods
    rcases node_cases P nT n with h | ⟨t, ht, rfl⟩ | ⟨m, hm, rfl⟩ | h
    · obtain ⟨a, ha, rfl, -⟩ := (chi_fact h).1 hp
      unfold tN; omega
    · rcases (chi_task ht).1 hp with ⟨ha, hx⟩ | ⟨m, hm, hh, rfl⟩
      · have := hP.add_lt t p hx; omega
      · unfold mN; omega
    · have := hR.head_lt m hm
      rw [chi_meth hm] at hp
      rw [hp]
      unfold tN; omega
    · rw [chi_none h] at hp
      simp at hp

theorem lmGraph_ok (hP : P.WF) (hR : RcOK P nA nT) : (lmGraph P nA nT).OK := htnGraph_ok hP hR hR.sub_lt

theorem causalGraph_ok (hP : P.WF) (hR : RcOK P nA nT) : (causalGraph P nA nT).OK :=
  htnGraph_ok hP hR fun m hm t ht => hR.sub_lt m hm t (mem_distinct.1 ht)

/-- The nodes from which `generateAndOrLMs` starts (LMsInAndOrGraphs.cpp 165-184). -/
theorem lm_seeds (hP : P.WF) (hR : RcOK P nA nT) : Seeds (lmGraph P nA nT) (P.s0 ++ precLess P nA) := by
  have le := hR.le
  have hpl : ∀ n, n ∈ precLess P nA ↔ ∃ a < nA, P.prec a = [] ∧ n = tN P a := by
    intro n
    simp only [precLess, List.mem_map, List.mem_filter, List.mem_range, decide_eq_true_eq]
    exact ⟨fun ⟨a, ⟨h1, h2⟩, h3⟩ => ⟨a, h1, h2, h3.symm⟩, fun ⟨a, h1, h2, h3⟩ => ⟨a, ⟨h1, h2⟩, h3.symm⟩⟩
  have hnohead : ∀ a < nA, ∀ m < P.numMethods, P.head m ≠ a := by
    rintro a ha m hm rfl
    have h1 := hP.head_abs m hm
    rw [hR.prim _ (by omega)] at h1
    simp at h1
    omega
  refine ⟨fun n hn => ?_, fun n hk => ?_, fun n hk hp => ?_⟩
  · rcases List.mem_append.1 hn with hn | hn
    · have hlt := hP.s0_lt n hn
      refine ⟨?_, .inl ?_⟩
      · show n < P.numFacts + nT + P.numMethods
        omega
      · unfold lmGraph
        rw [kind_fact hlt, if_pos hn]
    · obtain ⟨a, ha, hpa, rfl⟩ := (hpl n).1 hn
      refine ⟨?_, .inr ⟨?_, ?_⟩⟩
      · show tN P a < P.numFacts + nT + P.numMethods
        unfold tN; omega
      · unfold lmGraph
        rw [kind_act ha (by omega)]
      · refine List.eq_nil_iff_forall_not_mem.2 fun x hx => ?_
        rcases (par_task (by omega)).1 hx with ⟨-, h⟩ | ⟨m, hm, hh, -⟩
        · rw [hpa] at h
          simp at h
        · exact hnohead a ha m hm hh
  · unfold lmGraph at hk
    rcases node_cases P nT n with h | ⟨t, ht, rfl⟩ | ⟨m, hm, rfl⟩ | h
    · rw [kind_fact h] at hk
      split_ifs at hk with hs
      exact List.mem_append_left _ hs
    · by_cases ha : t < nA
      · rw [kind_act ha ht] at hk
        simp at hk
      · rw [kind_abs ha ht] at hk
        simp at hk
    · rw [kind_meth hm] at hk
      simp at hk
    · rw [kind_none h] at hk
      simp at hk
  · unfold lmGraph at hk hp
    rcases node_cases P nT n with h | ⟨t, ht, rfl⟩ | ⟨m, hm, rfl⟩ | h
    · rw [kind_fact h] at hk
      split_ifs at hk
    · by_cases ha : t < nA
      · refine List.mem_append_right _ ((hpl _).2 ⟨t, ha, List.eq_nil_iff_forall_not_mem.2 fun x hx => ?_, rfl⟩)
        have := (par_task (kf := fun f => if f ∈ P.s0 then .init else .or) (ka := fun _ => .and) (subs := P.sub) ht).2 (.inl ⟨ha, hx⟩)
        rw [hp] at this
        simp at this
      · rw [kind_abs ha ht] at hk
        simp at hk
    · obtain ⟨t, hts⟩ := List.exists_mem_of_ne_nil _ (hP.sub_ne m hm)
      have := (par_meth (nA := nA) (nT := nT) (kf := fun f => if f ∈ P.s0 then .init else .or) (ka := fun _ => .and) (subs := P.sub) hm).2 ⟨t, hts, rfl⟩
      rw [hp] at this
      simp at this
    · rw [kind_none h] at hk
      simp at hk

/-- The reachability information only leaves out what cannot be used: preconditions of reachable actions hold in the state or are
reachable, and subtasks of reachable methods are reachable. -/
structure PgOK (P : Problem) (nA nT : Nat) (state reach : Nat → Bool) : Prop where
  prec : ∀ a < nA, reach (tN P a) = true → ∀ f ∈ P.prec a, reach f = true ∨ state f = true
  sub : ∀ m < P.numMethods, reach (mN P nT m) = true → ∀ t ∈ P.sub m, reach (tN P t) = true
  state_lt : ∀ n, state n = true → n < P.numFacts

theorem causal_hyp (hP : P.WF) (hR : RcOK P nA nT) {state reach : Nat → Bool} (hpg : PgOK P nA nT state reach) :
    CHyp (causalGraph P nA nT) state reach (List.range P.numFacts) (precLess P nA) := by
  have le := hR.le
  have hpl : ∀ n, n ∈ precLess P nA ↔ ∃ a < nA, P.prec a = [] ∧ n = tN P a := by
    intro n
    simp only [precLess, List.mem_map, List.mem_filter, List.mem_range, decide_eq_true_eq]
    exact ⟨fun ⟨a, ⟨h1, h2⟩, h3⟩ => ⟨a, h1, h2, h3.symm⟩, fun ⟨a, h1, h2, h3⟩ => ⟨a, ⟨h1, h2⟩, h3.symm⟩⟩
  have hnohead : ∀ a < nA, ∀ m < P.numMethods, P.head m ≠ a := by
    rintro a ha m hm rfl
    have h1 := hP.head_abs m hm
    rw [hR.prim _ (by omega)] at h1
    simp at h1
    omega
  refine ⟨causalGraph_ok hP hR, fun n hn => List.mem_range.2 (hpg.state_lt n hn), fun n hn => ?_, fun n hn => ?_, fun n hk => ?_, fun n hk hp => ?_,
    fun n hr hs hk p hp => ?_⟩
  · show n < P.numFacts + nT + P.numMethods
    have := List.mem_range.1 hn
    omega
  · obtain ⟨a, ha, -, rfl⟩ := (hpl n).1 hn
    show tN P a < P.numFacts + nT + P.numMethods
    unfold tN; omega
  · unfold causalGraph at hk
    rcases node_cases P nT n with h | ⟨t, ht, rfl⟩ | ⟨m, hm, rfl⟩ | h
    · rw [kind_fact h] at hk
      simp at hk
    · by_cases ha : t < nA
      · rw [kind_act ha ht] at hk
        split_ifs at hk with hp
        exact (hpl _).2 ⟨t, ha, hp, rfl⟩
      · rw [kind_abs ha ht] at hk
        simp at hk
    · rw [kind_meth hm] at hk
      simp at hk
    · rw [kind_none h] at hk
      simp at hk
  · unfold causalGraph at hk hp
    rcases node_cases P nT n with h | ⟨t, ht, rfl⟩ | ⟨m, hm, rfl⟩ | h
    · rw [kind_fact h] at hk
      simp at hk
    · by_cases ha : t < nA
      · rw [kind_act ha ht] at hk
        split_ifs at hk with hpa
        obtain ⟨x, hx⟩ := List.exists_mem_of_ne_nil _ hpa
        have := (par_task (kf := fun _ => .or) (ka := fun a => if P.prec a = [] then .init else .and) (subs := fun m => keys (distinctSubs P m)) ht).2 (.inl ⟨ha, hx⟩)
        rw [hp] at this
        simp at this
      · rw [kind_abs ha ht] at hk
        simp at hk
    · obtain ⟨t, hts⟩ := List.exists_mem_of_ne_nil _ (hP.sub_ne m hm)
      have := (par_meth (nA := nA) (nT := nT) (kf := fun _ => .or) (ka := fun a => if P.prec a = [] then .init else .and)
        (subs := fun m => keys (distinctSubs P m)) hm).2 ⟨t, mem_distinct.2 hts, rfl⟩
      rw [hp] at this
      simp at this
    · rw [kind_none h] at hk
      simp at hk
  · unfold causalGraph at hk hp
    rcases node_cases P nT n with h | ⟨t, ht, rfl⟩ | ⟨m, hm, rfl⟩ | h
    · rw [kind_fact h] at hk
      simp at hk
    · by_cases ha : t < nA
      · rcases (par_task ht).1 hp with ⟨-, hx⟩ | ⟨m, hm, hh, rfl⟩
        · exact hpg.prec t ha hr p hx
        · exact absurd hh (hnohead t ha m hm)
      · rw [kind_abs ha ht] at hk
        simp at hk
    · obtain ⟨t, hts, rfl⟩ := (par_meth hm).1 hp
      exact .inl (hpg.sub m hm hr t (mem_distinct.1 hts))
    · rw [kind_none h] at hk
      simp at hk

end Mem

/-! ## Derivations from solutions -/

/-- Task `t` occurs in a decomposition tree. -/
inductive TaskIn (P : Problem) : Tree → Nat → Prop
  | leaf {a : Nat} : TaskIn P (.leaf a) a
  | node {m : Nat} {cs : Nat → Tree} : TaskIn P (.node m cs) (P.head m)
  | child {m t : Nat} {cs : Nat → Tree} {i : Nat} : i < (P.sub m).length → TaskIn P (cs i) t → TaskIn P (.node m cs) t

/-- Fact `f` holds in a state that is passed when `π` is executed in `s`. -/
def FactIn (P : Problem) (s : State) (π : List Nat) (f : Nat) : Prop :=
  ∃ π₁ π₂ s₁, π = π₁ ++ π₂ ∧ Exec P s π₁ s₁ ∧ s₁ f

/-- What the node of the graph stands for occurs in the solution. -/
def Met (P : Problem) (nT : Nat) (s : State) (π : List Nat) (I : Finset Nat) (tr : Nat → Tree) (x : Nat) : Prop :=
  (∃ f < P.numFacts, x = f ∧ FactIn P s π f) ∨ (∃ t < nT, x = tN P t ∧ ∃ u ∈ I, TaskIn P (tr u) t) ∨
    ∃ m < P.numMethods, x = mN P nT m ∧ ∃ u ∈ I, Uses P (tr u) m

/-- The graph has derivations for all that is possible among the nodes `R`. -/
structure Covers (P : Problem) (nA nT : Nat) (G : Graph) (s : State) (R : Nat → Prop) : Prop where
  start : ∀ f < P.numFacts, s f → G.kind f = .init
  fact : ∀ f < P.numFacts, R f → G.kind f = .init ∨ G.kind f = .or ∧ ∀ a < nA, f ∈ P.add a → R (tN P a) → tN P a ∈ G.par f
  act : ∀ a < nA, R (tN P a) → G.kind (tN P a) = .init ∨ G.kind (tN P a) = .and ∧ ∀ p ∈ G.par (tN P a), p ∈ P.prec a ∧ (R p ∨ s p)
  meth : ∀ m < P.numMethods, R (mN P nT m) → G.kind (mN P nT m) = .and ∧ ∀ p ∈ G.par (mN P nT m), ∃ t ∈ P.sub m, p = tN P t
  abs : ∀ m < P.numMethods, R (mN P nT m) → R (tN P (P.head m)) → G.kind (tN P (P.head m)) = .or ∧ mN P nT m ∈ G.par (tN P (P.head m))

theorem FactIn.of_prefix {s : State} {a : Nat} {π : List Nat} {f : Nat} (hap : P.Applicable s a) (h : FactIn P (P.result s a) π f) :
    FactIn P s (a :: π) f := by
  obtain ⟨π₁, π₂, s₁, rfl, h1, h2⟩ := h
  exact ⟨a :: π₁, π₂, s₁, rfl, .cons hap h1, h2⟩

/-- Facts that hold in a state that is passed, and actions that are executed, have a derivation from what occurs. -/
theorem exec_der {G : Graph} {s0 : State} {R A : Nat → Prop} (hC : Covers P nA nT G s0 R) (hP : P.WF) :
    ∀ {s s' : State} {π : List Nat}, Exec P s π s' → (∀ a ∈ π, a < nA ∧ R (tN P a)) → (∀ a ∈ π, ¬ A (tN P a)) →
      (∀ f < P.numFacts, FactIn P s π f → ¬ A f) → (∀ f < P.numFacts, s f → (R f ∨ s0 f) → Der G A f) →
      (∀ f < P.numFacts, FactIn P s π f → (R f ∨ s0 f) → Der G A f) ∧ ∀ a ∈ π, Der G A (tN P a) := by
  intro s s' π h
  induction h with
  | nil s =>
    intro _ _ hA hs
    refine ⟨fun f hf hfi hr => ?_, by simp⟩
    obtain ⟨π₁, π₂, s₁, he, h1, h2⟩ := hfi
    have : π₁ = [] := (List.append_eq_nil_iff.1 he.symm).1
    subst this
    cases h1
    exact hs f hf h2 hr
  | @cons s s' a π hap hex ih =>
    intro hπ hAa hA hs
    obtain ⟨hla, hra⟩ := hπ a (by simp)
    have hda : Der G A (tN P a) := by
      rcases hC.act a hla hra with hk | ⟨hk, hp⟩
      · exact .init hk (hAa a (by simp))
      · refine .and hk (hAa a (by simp)) fun p hpp => ?_
        obtain ⟨h1, h2⟩ := hp p hpp
        exact hs p (hP.prec_lt a p h1) (hap p h1) h2
    have hfi0 : ∀ f, P.result s a f → FactIn P s (a :: π) f := fun f hf => ⟨[a], π, P.result s a, rfl, .cons hap (.nil _), hf⟩
    have hs2 : ∀ f < P.numFacts, P.result s a f → (R f ∨ s0 f) → Der G A f := by
      intro f hf hres hr
      rcases hres with hadd | ⟨hsf, -⟩
      · have hnA := hA f hf (hfi0 f (.inl hadd))
        rcases hr with hr | hr
        · rcases hC.fact f hf hr with hk | ⟨hk, hp⟩
          · exact .init hk hnA
          · exact .or hk hnA (hp a hla hadd hra) hda
        · exact .init (hC.start f hf hr) hnA
      · exact hs f hf hsf hr
    obtain ⟨h1, h2⟩ := ih (fun b hb => hπ b (List.mem_cons_of_mem _ hb)) (fun b hb => hAa b (List.mem_cons_of_mem _ hb))
      (fun f hf hfi => hA f hf (hfi.of_prefix hap)) hs2
    refine ⟨fun f hf hfi hr => ?_, fun b hb => ?_⟩
    · obtain ⟨π₁, π₂, s₁, he, k1, k2⟩ := hfi
      cases π₁ with
      | nil =>
        cases k1
        exact hs f hf k2 hr
      | cons b π₁ =>
        have e := List.cons.inj he
        cases k1 with
        | cons _ k1 =>
          rw [← e.1] at k1
          exact h1 f hf ⟨π₁, π₂, s₁, e.2, k1, k2⟩ hr
    · rcases List.mem_cons.1 hb with rfl | hb
      · exact hda
      · exact h2 b hb

/-- Every task of a tree has a derivation from what occurs in the tree. -/
theorem tree_der {G : Graph} {s : State} {R A : Nat → Prop} (hC : Covers P nA nT G s R) {t : Nat} {tr : Tree} (hv : Valid P t tr)
    (hl : ∀ p a, LeafAt P tr p a → Der G A (tN P a)) (hT : ∀ t, TaskIn P tr t → R (tN P t) ∧ ¬ A (tN P t))
    (hM : ∀ m, Uses P tr m → R (mN P nT m) ∧ ¬ A (mN P nT m)) : Der G A (tN P t) := by
  induction hv with
  | @leaf a _ => exact hl [] a .here
  | @node m cs hm _ ih =>
    obtain ⟨hr, hnA⟩ := hM m .here
    obtain ⟨hrt, hnt⟩ := hT _ (.node)
    obtain ⟨hk, hp⟩ := hC.meth m hm hr
    obtain ⟨hk2, hp2⟩ := hC.abs m hm hr hrt
    refine .or hk2 hnt hp2 (.and hk hnA fun p hpp => ?_)
    obtain ⟨t, ht, rfl⟩ := hp p hpp
    obtain ⟨i, hi, he⟩ := List.mem_iff_getElem.1 ht
    have hg : (P.sub m)[i]? = some t := by rw [List.getElem?_eq_getElem hi, he]
    exact ih i t hg (fun p a h => hl (i :: p) a (.child hi h)) (fun t h => hT t (.child hi h)) fun m' h => hM m' (.child hi h)

theorem Valid.taskIn {t : Nat} {tr : Tree} (hv : Valid P t tr) : TaskIn P tr t := by
  cases hv with
  | leaf _ => exact .leaf
  | node _ _ => exact .node

theorem LeafAt.taskIn {tr : Tree} {p : List Nat} {a : Nat} (h : LeafAt P tr p a) : TaskIn P tr a := by
  induction h with
  | here => exact .leaf
  | child hi _ ih => exact .child hi ih

theorem TaskIn.lt (hR : RcOK P nA nT) {t : Nat} {tr : Tree} (hv : Valid P t tr) (ht : t < nT) : ∀ t', TaskIn P tr t' → t' < nT := by
  induction hv with
  | leaf _ => intro t' h; cases h; exact ht
  | @node m cs hm _ ih =>
    intro t' h
    cases h with
    | node => exact ht
    | child hi h =>
      exact ih _ _ (List.getElem?_eq_getElem hi) (hR.sub_lt m hm _ (List.getElem_mem hi)) t' h

theorem Uses.lt {t : Nat} {tr : Tree} (hv : Valid P t tr) : ∀ m, Uses P tr m → m < P.numMethods := by
  induction hv with
  | leaf _ => intro m h; cases h
  | @node m cs hm _ ih =>
    intro m' h
    cases h with
    | here => exact hm
    | child hi h => exact ih _ _ (List.getElem?_eq_getElem hi) m' h

/-- A solution derives its tasks and the goal facts from what occurs in it; so everything that is in all derivations occurs. -/
theorem landmarks_met {G : Graph} {s s' : State} {R : Nat → Prop} (hC : Covers P nA nT G s R) (hP : P.WF) (hR : RcOK P nA nT)
    {I : Finset Nat} {lab : Nat → Nat} {lt : Nat → Nat → Prop} {tr : Nat → Tree} {occ : List (Nat × List Nat)} {π : List Nat}
    (hlab : ∀ u ∈ I, lab u < nT) (hl : LinNet P I lab lt tr occ π) (hex : Exec P s π s') (hg : P.GoalState s')
    (hRT : ∀ u ∈ I, ∀ t, TaskIn P (tr u) t → R (tN P t)) (hRM : ∀ u ∈ I, ∀ m, Uses P (tr u) m → R (mN P nT m))
    (hRg : ∀ f ∈ P.goal, R f ∨ s f) {x : Nat} :
    (∀ u ∈ I, ¬ Der G (· = x) (tN P (lab u)) → Met P nT s π I tr x) ∧ (∀ f ∈ P.goal, ¬ Der G (· = x) f → Met P nT s π I tr x) := by
  obtain ⟨hv, hnd, hall, -, hf2⟩ := hl
  set A : Nat → Prop := fun n => ¬ Met P nT s π I tr n with hA
  have hTA : ∀ u ∈ I, ∀ t, TaskIn P (tr u) t → ¬ A (tN P t) := fun u hu t ht h => h (.inr (.inl ⟨t, TaskIn.lt hR (hv u hu) (hlab u hu) t ht, rfl, u, hu, ht⟩))
  have hMA : ∀ u ∈ I, ∀ m, Uses P (tr u) m → ¬ A (mN P nT m) := fun u hu m hm h => h (.inr (.inr ⟨m, Uses.lt (hv u hu) m hm, rfl, u, hu, hm⟩))
  have hπ : ∀ a ∈ π, ∃ u ∈ I, TaskIn P (tr u) a ∧ P.prim a = true := by
    intro a ha
    obtain ⟨y, hy, hya⟩ := forall₂_mem_right hf2 a ha
    have hyI := ((hall y).1 hy).1
    exact ⟨y.1, hyI, LeafAt.taskIn hya, (leaf_reach (hv _ hyI) hya).2⟩
  have hπA : ∀ a ∈ π, a < nA ∧ R (tN P a) := by
    intro a ha
    obtain ⟨u, hu, h1, h2⟩ := hπ a ha
    refine ⟨?_, hRT u hu a h1⟩
    have := hR.prim a (TaskIn.lt hR (hv u hu) (hlab u hu) a h1)
    rw [h2] at this
    simpa using this.symm
  have hstart : ∀ f < P.numFacts, FactIn P s π f → ¬ A f := fun f hf hfi h => h (.inl ⟨f, hf, rfl, hfi⟩)
  have hs0 : ∀ f < P.numFacts, s f → (R f ∨ s f) → Der G A f := fun f hf hsf _ =>
    .init (hC.start f hf hsf) (hstart f hf ⟨[], π, s, rfl, .nil _, hsf⟩)
  obtain ⟨d1, d2⟩ := exec_der hC hP hex hπA (fun a ha => by
    obtain ⟨u, hu, h1, -⟩ := hπ a ha
    exact hTA u hu a h1) hstart hs0
  have hconv : ∀ n, Der G A n → ¬ Der G (· = x) n → Met P nT s π I tr x := by
    intro n hd hnd
    by_contra hno
    exact hnd (hd.anti fun m hm => by rw [hm]; exact hno)
  refine ⟨fun u hu => hconv _ (tree_der hC (hv u hu) (fun p a hpa => d2 a ?_) (fun t ht => ⟨hRT u hu t ht, hTA u hu t ht⟩)
    fun m hm => ⟨hRM u hu m hm, hMA u hu m hm⟩), fun f hf => hconv _ (d1 f (hP.goal_lt f hf) ⟨π, [], s', by simp, hex, hg f hf⟩ (hRg f hf))⟩
  obtain ⟨b, hb, hlb⟩ := forall₂_mem_left hf2 (u, p) ((hall (u, p)).2 ⟨hu, a, hpa⟩)
  rw [hpa.unique hlb]
  exact hb

theorem lm_covers (hP : P.WF) (hR : RcOK P nA nT) {s : State} (hs : ∀ f, s f → f ∈ P.s0) : Covers P nA nT (lmGraph P nA nT) s (fun _ => True) := by
  have le := hR.le
  unfold lmGraph
  refine ⟨fun f hf hsf => ?_, fun f hf _ => ?_, fun a ha _ => ?_, fun m hm _ => ?_, fun m hm _ _ => ?_⟩
  · rw [kind_fact hf, if_pos (hs f hsf)]
  · rw [kind_fact hf]
    by_cases h : f ∈ P.s0
    · exact .inl (if_pos h)
    · exact .inr ⟨if_neg h, fun a ha hadd _ => (par_fact hf).2 ⟨a, ha, rfl, hadd⟩⟩
  · rw [kind_act ha (by omega)]
    refine .inr ⟨rfl, fun p hp => ?_⟩
    rcases (par_task (by omega)).1 hp with ⟨-, h⟩ | ⟨m, hm, hh, -⟩
    · exact ⟨h, .inl trivial⟩
    · have h1 := hP.head_abs m hm
      rw [hh, hR.prim _ (by omega)] at h1
      simp at h1
      omega
  · rw [kind_meth hm]
    exact ⟨rfl, fun p hp => (par_meth hm).1 hp⟩
  · have hlt := hR.head_lt m hm
    have hab : ¬ P.head m < nA := by
      have h1 := hP.head_abs m hm
      rw [hR.prim _ hlt] at h1
      simpa using h1
    rw [kind_abs hab hlt]
    exact ⟨rfl, (par_task hlt).2 (.inr ⟨m, hm, rfl, rfl⟩)⟩

theorem causal_covers (hP : P.WF) (hR : RcOK P nA nT) {state reach : Nat → Bool} (hpg : PgOK P nA nT state reach) {s : State}
    (hs : ∀ f, s f ↔ state f = true) : Covers P nA nT (restr (causalGraph P nA nT) state reach) s (fun n => reach n = true) := by
  have le := hR.le
  have hnst : ∀ n, P.numFacts ≤ n → state n = false := by
    intro n hn
    by_contra h
    have := hpg.state_lt n (by simpa using h)
    omega
  have hk : ∀ n, state n = false → reach n = true → (restr (causalGraph P nA nT) state reach).kind n = (causalGraph P nA nT).kind n ∧
      (restr (causalGraph P nA nT) state reach).par n = ((causalGraph P nA nT).par n).filter reach := by
    intro n h1 h2
    simp [restr, h1, h2]
  refine ⟨fun f hf hsf => ?_, fun f hf hr => ?_, fun a ha hr => ?_, fun m hm hr => ?_, fun m hm hr hrt => ?_⟩
  · simp [restr, (hs f).1 hsf]
  · by_cases hst : state f = true
    · exact .inl (by simp [restr, hst])
    · obtain ⟨k1, k2⟩ := hk f (by simpa using hst) hr
      rw [k1, k2]
      unfold causalGraph
      rw [kind_fact hf]
      exact .inr ⟨rfl, fun a ha hadd hra => List.mem_filter.2 ⟨(par_fact hf).2 ⟨a, ha, rfl, hadd⟩, hra⟩⟩
  · obtain ⟨k1, k2⟩ := hk (tN P a) (hnst _ (by unfold tN; omega)) hr
    rw [k1, k2]
    unfold causalGraph
    rw [kind_act ha (by omega)]
    split_ifs with hp
    · exact .inl rfl
    · refine .inr ⟨rfl, fun p hp => ?_⟩
      obtain ⟨hp, hrp⟩ := List.mem_filter.1 hp
      rcases (par_task (by omega)).1 hp with ⟨-, h⟩ | ⟨m, hm, hh, -⟩
      · exact ⟨h, .inl hrp⟩
      · have h1 := hP.head_abs m hm
        rw [hh, hR.prim _ (by omega)] at h1
        simp at h1
        omega
  · obtain ⟨k1, k2⟩ := hk (mN P nT m) (hnst _ (by unfold mN; omega)) hr
    rw [k1, k2]
    unfold causalGraph
    rw [kind_meth hm]
    refine ⟨rfl, fun p hp => ?_⟩
    obtain ⟨t, ht, rfl⟩ := (par_meth hm).1 (List.mem_of_mem_filter hp)
    exact ⟨t, mem_distinct.1 ht, rfl⟩
  · have hlt := hR.head_lt m hm
    have hab : ¬ P.head m < nA := by
      have h1 := hP.head_abs m hm
      rw [hR.prim _ hlt] at h1
      simpa using h1
    obtain ⟨k1, k2⟩ := hk (tN P (P.head m)) (hnst _ (by unfold tN; omega)) hrt
    rw [k1, k2]
    unfold causalGraph
    rw [kind_abs hab hlt]
    exact ⟨rfl, List.mem_filter.2 ⟨(par_task hlt).2 (.inr ⟨m, hm, rfl, rfl⟩), hr⟩⟩

/-! ## The tasks of the network -/

/-- The elements in ascending order, as a `std::set` is iterated. -/
def ascend (s : Finset Nat) : List Nat := (List.range (s.sup id + 1)).filter fun x => x ∈ s

theorem mem_ascend {s : Finset Nat} {x : Nat} : x ∈ ascend s ↔ x ∈ s := by
  simp only [ascend, List.mem_filter, List.mem_range, decide_eq_true_eq, and_iff_right_iff_imp]
  intro h
  have := Finset.le_sup (f := id) h
  simp only [id] at this
  omega

/-- The loop that collects the tasks of the network of a search node (LMsInAndOrGraphs.cpp 319-338, 400-418): `todo` is the vector
`todoList` (last element first), `done` the set of processed steps; the result lists the processed steps. -/
def tnLoop (h : Heap) : Nat → List Nat → List Nat → Option (List Nat)
  | 0, _, _ => none
  | _ + 1, [], done => some done
  | f + 1, u :: todo, done => tnLoop h f (((succsOf h u).filter fun v => !(u :: done).contains v).reverse ++ todo) (u :: done)

theorem tnLoop_spec {h : Heap} : ∀ (f : Nat) (todo done r : List Nat), tnLoop h f todo done = some r →
    (∀ d ∈ done, ∀ v ∈ succsOf h d, v ∈ done ∨ v ∈ todo) →
    (∀ v ∈ r, v ∈ done ∨ ReachFrom h todo v) ∧ (∀ v ∈ done, v ∈ r) ∧ (∀ v ∈ todo, v ∈ r) ∧ ∀ d ∈ r, ∀ v ∈ succsOf h d, v ∈ r := by
  intro f
  induction f with
  | zero => intro todo done r h; simp [tnLoop] at h
  | succ f ih =>
    intro todo done r hr hd
    cases todo with
    | nil =>
      simp only [tnLoop, Option.some.injEq] at hr
      subst hr
      exact ⟨fun v hv => .inl hv, fun v hv => hv, by simp, fun d hd' v hv => (hd d hd' v hv).resolve_right (by simp)⟩
    | cons u todo =>
      rw [tnLoop] at hr
      obtain ⟨h1, h2, h3, h4⟩ := ih _ _ r hr (by
        intro d hd' v hv
        rcases List.mem_cons.1 hd' with rfl | hd'
        · by_cases hc : v ∈ d :: done
          · exact .inl hc
          · exact .inr (List.mem_append_left _ (by simpa [hv] using hc))
        · rcases hd d hd' v hv with h | h
          · exact .inl (List.mem_cons_of_mem _ h)
          · rcases List.mem_cons.1 h with rfl | h
            · exact .inl List.mem_cons_self
            · exact .inr (List.mem_append_right _ h))
      refine ⟨fun v hv => ?_, fun v hv => h2 v (List.mem_cons_of_mem _ hv), fun v hv => ?_, h4⟩
      · rcases h1 v hv with h | ⟨x, hx, hp⟩
        · rcases List.mem_cons.1 h with rfl | h
          · exact .inr ⟨v, List.mem_cons_self, .refl⟩
          · exact .inl h
        · rcases List.mem_append.1 hx with hx | hx
          · have hx' := List.mem_of_mem_filter (List.mem_reverse.1 hx)
            exact .inr ⟨u, List.mem_cons_self, .head (mem_succsOf.1 hx') hp⟩
          · exact .inr ⟨x, List.mem_cons_of_mem _ hx, hp⟩
      · rcases List.mem_cons.1 hv with rfl | hv
        · exact h2 v List.mem_cons_self
        · exact h3 v (List.mem_append_right _ hv)

theorem tnLoop_term {h : Heap} (hh : HeapOK h) (todo done : List Nat) : ∃ F, ∀ f, F ≤ f → ∃ r, tnLoop h f todo done = some r := by
  obtain ⟨w, hw⟩ := hh.weight
  suffices hsuff : ∀ (k : Nat) (todo done : List Nat), (todo.map w).sum = k → ∃ F, ∀ f, F ≤ f → ∃ r, tnLoop h f todo done = some r from
    hsuff _ todo done rfl
  intro k
  induction k using Nat.strong_induction_on with
  | _ k ih =>
    intro todo done hk
    cases todo with
    | nil => exact ⟨1, fun f hf => by obtain ⟨f, rfl⟩ := Nat.exists_eq_add_of_le' hf; exact ⟨done, rfl⟩⟩
    | cons u todo =>
      have hlt : ((((succsOf h u).filter fun v => !(u :: done).contains v).reverse ++ todo).map w).sum < k := by
        have h1 := hw u
        have h2 : (((succsOf h u).filter fun v => !(u :: done).contains v).map w).sum ≤ ((succsOf h u).map w).sum :=
          (List.filter_sublist.map w).sum_le_sum (by simp)
        rw [List.map_append, List.sum_append, List.map_reverse, List.sum_reverse, ← hk, List.map_cons, List.sum_cons]
        omega
      obtain ⟨F, hF⟩ := ih _ hlt _ (u :: done) rfl
      refine ⟨F + 1, fun f hf => ?_⟩
      obtain ⟨f, rfl⟩ := Nat.exists_eq_add_of_le' (show 1 ≤ f by omega)
      rw [tnLoop]
      exact hF f (by omega)

theorem tnLoop_mono {h : Heap} : ∀ (f : Nat) (todo done r : List Nat), tnLoop h f todo done = some r → ∀ g, f ≤ g → tnLoop h g todo done = some r := by
  intro f
  induction f with
  | zero => intro todo done r h; cases todo <;> simp [tnLoop] at h
  | succ f ih =>
    intro todo done r h g hg
    obtain ⟨g, rfl⟩ := Nat.exists_eq_add_of_le' (show 1 ≤ g by omega)
    cases todo with
    | nil => simpa [tnLoop] using h
    | cons u todo =>
      rw [tnLoop] at h ⊢
      exact ih _ _ r h g (by omega)

/-- The processed steps are the steps of the network. -/
theorem tnLoop_live {h : Heap} {n : Node} (hh : HeapOK h) (hn : ∀ u ∈ n.firsts, u < h.length) {todo : List Nat} (ht : ∀ u, u ∈ todo ↔ u ∈ n.firsts)
    {f : Nat} {r : List Nat} (hr : tnLoop h f todo [] = some r) (v : Nat) : v ∈ r ↔ v ∈ live h n := by
  obtain ⟨h1, -, h3, h4⟩ := tnLoop_spec f todo [] r hr (by simp)
  rw [mem_live hh hn]
  constructor
  · intro hv
    rcases h1 v hv with h | ⟨x, hx, hp⟩
    · simp at h
    · exact ⟨x, (ht x).1 hx, hp⟩
  · rintro ⟨x, hx, hp⟩
    induction hp with
    | refl => exact h3 x ((ht x).2 hx)
    | tail _ he ih => exact h4 _ ih _ (mem_succsOf.2 he)

/-! ## Collecting the landmarks of `generateAndOrLMs` -/

/-- `flm`, `tlm`, `mlm`. -/
structure LmSets where
  f : Finset Nat
  t : Finset Nat
  m : Finset Nat

/-- Insertion of a landmark of a goal fact (LMsInAndOrGraphs.cpp 303-313).  In the last case `lm` is inserted instead of
`nodeToM(lm)`. -/
def addGoalLm (P : Problem) (nT : Nat) (r : LmSets) (lm : Nat) : LmSets :=
  if lm < P.numFacts then { r with f := insert lm r.f }
  else if lm < P.numFacts + nT then { r with t := insert (lm - P.numFacts) r.t }
  else { r with m := insert lm r.m }

/-- Insertion of a landmark of a task (LMsInAndOrGraphs.cpp 344-354). -/
def addTaskLm (P : Problem) (nT : Nat) (r : LmSets) (lm : Nat) : LmSets :=
  if lm < P.numFacts then { r with f := insert lm r.f }
  else if lm < P.numFacts + nT then { r with t := insert (lm - P.numFacts) r.t }
  else { r with m := insert (lm - (P.numFacts + nT)) r.m }

/-- The landmarks of the goal facts and of the tasks of the network (LMsInAndOrGraphs.cpp 299-356), on the result of the
propagation; `tasks` lists the tasks that occur. -/
def collectLms (P : Problem) (nT : Nat) (lms : Nat → Finset Nat) (tasks : List Nat) : LmSets :=
  let r := P.goal.foldl (fun r g => (ascend (lms g)).foldl (addGoalLm P nT) r) ⟨∅, ∅, ∅⟩
  ((List.range nT).filter fun t => t ∈ tasks).foldl (fun r t => (ascend (lms (tN P t))).foldl (addTaskLm P nT) r) r

theorem foldl_addTask (l : List Nat) : ∀ (r : LmSets) (x : Nat),
    (x ∈ (l.foldl (addTaskLm P nT) r).f ↔ x ∈ r.f ∨ x < P.numFacts ∧ x ∈ l) ∧
    (x ∈ (l.foldl (addTaskLm P nT) r).t ↔ x ∈ r.t ∨ x < nT ∧ tN P x ∈ l) ∧
    (x ∈ (l.foldl (addTaskLm P nT) r).m ↔ x ∈ r.m ∨ mN P nT x ∈ l) := by
  induction l with
  | nil => intro r x; simp
  | cons y l ih =>
    intro r x
    rw [List.foldl_cons]
    obtain ⟨h1, h2, h3⟩ := ih (addTaskLm P nT r y) x
    rw [h1, h2, h3]
    unfold addTaskLm
    split_ifs with c1 c2
    · refine ⟨?_, ?_, ?_⟩
      · simp only [Finset.mem_insert, List.mem_cons]
        by_cases e : x = y
        · subst e; simp [c1]
        · simp [e]
      · have : tN P x ≠ y := by unfold tN; omega
        simp [this]
      · have : mN P nT x ≠ y := by unfold mN; omega
        simp [this]
    · refine ⟨?_, ?_, ?_⟩
      · simp only [List.mem_cons]
        by_cases e : x = y
        · subst e; simp [c1]
        · simp [e]
      · simp only [Finset.mem_insert, List.mem_cons]
        by_cases e : tN P x = y
        · have e1 : x = y - P.numFacts := by unfold tN at e; omega
          have e2 : x < nT := by omega
          simp [e, ← e1, e2]
        · have e1 : x ≠ y - P.numFacts := by unfold tN at e; omega
          simp [e, e1]
      · have : mN P nT x ≠ y := by unfold mN; omega
        simp [this]
    · refine ⟨?_, ?_, ?_⟩
      · simp only [List.mem_cons]
        by_cases e : x = y
        · subst e; simp [c1]
        · simp [e]
      · simp only [List.mem_cons]
        by_cases e : tN P x = y
        · have e2 : ¬ x < nT := by unfold tN at e; omega
          simp [e2]
        · simp [e]
      · simp only [Finset.mem_insert, List.mem_cons]
        by_cases e : mN P nT x = y
        · have e1 : x = y - (P.numFacts + nT) := by unfold mN at e; omega
          simp [e, ← e1]
        · have e1 : x ≠ y - (P.numFacts + nT) := by unfold mN at e; omega
          simp [e, e1]

theorem foldl_addGoal (l : List Nat) (hl : ∀ y ∈ l, y < P.numFacts + nT) : ∀ (r : LmSets),
    l.foldl (addGoalLm P nT) r = l.foldl (addTaskLm P nT) r := by
  induction l with
  | nil => intro r; rfl
  | cons y l ih =>
    intro r
    rw [List.foldl_cons, List.foldl_cons, ih fun z hz => hl z (List.mem_cons_of_mem _ hz)]
    congr 1
    unfold addGoalLm addTaskLm
    have := hl y List.mem_cons_self
    simp [this]

theorem foldl_roots (lms : Nat → Finset Nat) (roots : List Nat) : ∀ (r : LmSets) (x : Nat),
    (x ∈ (roots.foldl (fun r g => (ascend (lms g)).foldl (addTaskLm P nT) r) r).f ↔ x ∈ r.f ∨ x < P.numFacts ∧ ∃ g ∈ roots, x ∈ lms g) ∧
    (x ∈ (roots.foldl (fun r g => (ascend (lms g)).foldl (addTaskLm P nT) r) r).t ↔ x ∈ r.t ∨ x < nT ∧ ∃ g ∈ roots, tN P x ∈ lms g) ∧
    (x ∈ (roots.foldl (fun r g => (ascend (lms g)).foldl (addTaskLm P nT) r) r).m ↔ x ∈ r.m ∨ ∃ g ∈ roots, mN P nT x ∈ lms g) := by
  induction roots with
  | nil => intro r x; simp
  | cons g roots ih =>
    intro r x
    rw [List.foldl_cons]
    obtain ⟨h1, h2, h3⟩ := ih ((ascend (lms g)).foldl (addTaskLm P nT) r) x
    obtain ⟨k1, k2, k3⟩ := foldl_addTask (P := P) (nT := nT) (ascend (lms g)) r x
    rw [h1, h2, h3, k1, k2, k3]
    simp only [mem_ascend, List.mem_cons, exists_eq_or_imp, or_assoc, and_or_left]
    trivial

/-- Facts and actions are derived without methods. -/
theorem der_no_method (hP : P.WF) (hR : RcOK P nA nT) {x : Nat} (hx : P.numFacts + nT ≤ x) {n : Nat} (hd : Der (lmGraph P nA nT) (fun _ => False) n) :
    n < P.numFacts + nA → Der (lmGraph P nA nT) (· = x) n := by
  have le := hR.le
  have hpar : ∀ n < P.numFacts + nA, ∀ p ∈ (lmGraph P nA nT).par n, p < P.numFacts + nA := by
    intro n hn p hp
    unfold lmGraph at hp
    rcases node_cases P nT n with h | ⟨t, ht, rfl⟩ | ⟨m, hm, rfl⟩ | h
    · obtain ⟨a, ha, rfl, -⟩ := (par_fact h).1 hp
      unfold tN; omega
    · rcases (par_task ht).1 hp with ⟨-, h⟩ | ⟨m, hm, hh, -⟩
      · have := hP.prec_lt t p h; omega
      · have h1 := hP.head_abs m hm
        rw [hh, hR.prim _ ht] at h1
        unfold tN at hn
        simp at h1
        omega
    · unfold mN at hn; omega
    · omega
  induction hd with
  | init hk _ => exact fun hn => .init hk (by omega)
  | and hk _ _ ih => exact fun hn => .and hk (by omega) fun p hp => ih p hp (hpar _ hn p hp)
  | or hk _ hp _ ih => exact fun hn => .or hk (by omega) hp (ih (hpar _ hn _ hp))

/-- `generateAndOrLMs` (LMsInAndOrGraphs.cpp 150-362). -/
def genAndOr (P : Problem) (nA nT : Nat) (pick : List (Nat × Nat) → Nat) (fuel : Nat) (h : Heap) (n : Node) : Option LmSets :=
  match lmLoop (lmGraph P nA nT) pick fuel (lmStart (lmGraph P nA nT) (P.s0 ++ precLess P nA)), tnLoop h fuel (n.prims ++ n.abs).reverse [] with
  | some s, some r => some (collectLms P nT s.lms (r.map (taskOf h)))
  | _, _ => none

/-- The nodes of which the landmarks are collected: goal facts and tasks of the network. -/
def Root (P : Problem) (h : Heap) (n : Node) (g : Nat) : Prop := g ∈ P.goal ∨ ∃ u ∈ live h n, g = tN P (taskOf h u)

theorem lmLoop_mono {G : Graph} {pick : List (Nat × Nat) → Nat} : ∀ (f : Nat) (s r : LSt), lmLoop G pick f s = some r → ∀ g, f ≤ g → lmLoop G pick g s = some r := by
  intro f
  induction f with
  | zero => intro s r h; simp [lmLoop] at h
  | succ f ih =>
    intro s r h g hg
    obtain ⟨g, rfl⟩ := Nat.exists_eq_add_of_le' (show 1 ≤ g by omega)
    rw [lmLoop] at h ⊢
    split_ifs at h ⊢ with hq
    · exact h
    · exact ih _ r h g (by omega)

/-- Marks from a node: in the set of a derivable node. -/
def IsLm (G : Graph) (g x : Nat) : Prop := Der G (fun _ => False) g ∧ ¬ Der G (· = x) g

theorem genAndOr_spec (hP : P.WF) (hR : RcOK P nA nT) (pick : List (Nat × Nat) → Nat) {h : Heap} {n : Node} (hh : HeapOK h) (hn : NodeOK P h n)
    (hlab : ∀ u ∈ live h n, taskOf h u < nT) :
    ∃ F, ∀ fuel, F ≤ fuel → ∃ r, genAndOr P nA nT pick fuel h n = some r ∧
      (∀ f, f ∈ r.f ↔ f < P.numFacts ∧ ∃ g, Root P h n g ∧ IsLm (lmGraph P nA nT) g f) ∧
      (∀ t, t ∈ r.t ↔ t < nT ∧ ∃ g, Root P h n g ∧ IsLm (lmGraph P nA nT) g (tN P t)) ∧
      (∀ m, m ∈ r.m ↔ ∃ g, Root P h n g ∧ IsLm (lmGraph P nA nT) g (mN P nT m)) := by
  have hS := lm_seeds hP hR
  have hG := lmGraph_ok hP hR
  obtain ⟨f0, s, hs⟩ := lm_term (pick := pick) hG hS
  obtain ⟨F1, hF1⟩ := tnLoop_term hh (n.prims ++ n.abs).reverse []
  refine ⟨max f0 F1, fun fuel hf => ?_⟩
  have hs' := lmLoop_mono f0 _ s hs fuel (by omega)
  obtain ⟨ps, hps⟩ := hF1 fuel (by omega)
  have hlive := tnLoop_live hh hn.lt (todo := (n.prims ++ n.abs).reverse) (by intro u; simp [Node.firsts, or_comm]) hps
  refine ⟨collectLms P nT s.lms (ps.map (taskOf h)), by unfold genAndOr; rw [hs', hps], ?_⟩
  have hlm : ∀ g x, x ∈ s.lms g ↔ IsLm (lmGraph P nA nT) g x := by
    intro g x
    obtain ⟨k1, k2, k3⟩ := lm_exact hG hS hs g
    unfold IsLm
    cases hfull : s.full g with
    | false => rw [k2 hfull x]; simp [k1.1 hfull]
    | true =>
      rw [k3 hfull]
      have : ¬ Der (lmGraph P nA nT) (fun _ => False) g := by
        rw [← k1, hfull]
        simp
      simp [this]
  have hgoal : ∀ g ∈ P.goal, ∀ y ∈ ascend (s.lms g), y < P.numFacts + nT := by
    intro g hg y hy
    rw [mem_ascend, hlm] at hy
    by_contra hlt
    exact hy.2 (der_no_method hP hR (by omega) hy.1 (by have := hP.goal_lt g hg; omega))
  have hcol : collectLms P nT s.lms (ps.map (taskOf h)) =
      (P.goal ++ ((List.range nT).filter fun t => t ∈ ps.map (taskOf h)).map (tN P)).foldl (fun r g => (ascend (s.lms g)).foldl (addTaskLm P nT) r) ⟨∅, ∅, ∅⟩ := by
    unfold collectLms
    rw [List.foldl_append, List.foldl_map]
    have e : ∀ (l : List Nat), (∀ g ∈ l, g ∈ P.goal) → ∀ r, l.foldl (fun r g => (ascend (s.lms g)).foldl (addGoalLm P nT) r) r =
        l.foldl (fun r g => (ascend (s.lms g)).foldl (addTaskLm P nT) r) r := by
      intro l
      induction l with
      | nil => intro _ r; rfl
      | cons g l ih =>
        intro hl r
        rw [List.foldl_cons, List.foldl_cons, foldl_addGoal _ (hgoal g (hl g List.mem_cons_self)), ih fun z hz => hl z (List.mem_cons_of_mem _ hz)]
    rw [e P.goal fun g hg => hg]
  have hroot : ∀ g, g ∈ P.goal ++ ((List.range nT).filter fun t => t ∈ ps.map (taskOf h)).map (tN P) ↔ Root P h n g := by
    intro g
    unfold Root
    rw [List.mem_append]
    refine or_congr Iff.rfl ?_
    simp only [List.mem_map, List.mem_filter, List.mem_range, decide_eq_true_eq]
    constructor
    · rintro ⟨t, ⟨-, u, hu, rfl⟩, rfl⟩
      exact ⟨u, (hlive u).1 hu, rfl⟩
    · rintro ⟨u, hu, rfl⟩
      exact ⟨taskOf h u, ⟨hlab u hu, u, (hlive u).2 hu, rfl⟩, rfl⟩
  rw [hcol]
  refine ⟨fun x => ?_, fun x => ?_, fun x => ?_⟩
  · rw [(foldl_roots _ _ _ x).1]
    simp only [Finset.notMem_empty, false_or, hroot, hlm]
  · rw [(foldl_roots _ _ _ x).2.1]
    simp only [Finset.notMem_empty, false_or, hroot, hlm]
  · rw [(foldl_roots _ _ _ x).2.2]
    simp only [Finset.notMem_empty, false_or, hroot, hlm]

/-! ## Collecting the landmarks of `LmCausal` -/

/-- Reading a node's landmarks (LmCausal.cpp 255-262, 267-274): for the full set all entries of the array up to the number of nodes
are read.  `none`: outside the array. -/
def readLms (N : Nat) (u : AoNode) : Option (List Int) :=
  if u.full then if N ≤ u.arr.length then some (u.arr.take N) else none
  else if u.num ≤ u.arr.length then some (u.arr.take u.num) else none

/-- Insertion into `unionSet` (a set for 0, ..., N-1; other values are outside its array). -/
def insertLms (N : Nat) : List Int → Finset Nat → Option (Finset Nat)
  | [], s => some s
  | v :: l, s => if 0 ≤ v ∧ v < N then insertLms N l (insert v.toNat s) else none

/-- `copyGlobalLMsToResultSet` (LmCausal.cpp 248-296) up to the conversion to `landmark` objects. -/
def collectC (N : Nat) (node : Nat → AoNode) : List Nat → Finset Nat → Option (Finset Nat)
  | [], s => some s
  | g :: l, s =>
    match readLms N (node g) with
    | none => none
    | some L =>
      match insertLms N L s with
      | none => none
      | some s => collectC N node l s

theorem insertLms_spec {N : Nat} : ∀ (L : List Int) (s : Finset Nat), (∀ v ∈ L, 0 ≤ v ∧ v < (N : Int)) →
    ∃ s', insertLms N L s = some s' ∧ ∀ x : Nat, x ∈ s' ↔ x ∈ s ∨ (x : Int) ∈ L := by
  intro L
  induction L with
  | nil => intro s _; exact ⟨s, rfl, by simp⟩
  | cons v L ih =>
    intro s hL
    obtain ⟨s', h1, h2⟩ := ih (insert v.toNat s) fun w hw => hL w (List.mem_cons_of_mem _ hw)
    have hv := hL v List.mem_cons_self
    refine ⟨s', by rw [insertLms, if_pos hv, h1], fun x => ?_⟩
    rw [h2, Finset.mem_insert, List.mem_cons]
    have : x = v.toNat ↔ (x : Int) = v := by omega
    rw [this]
    tauto

theorem collectC_spec {N : Nat} {node : Nat → AoNode} (hN : ∀ n, NOK N (node n)) : ∀ (roots : List Nat) (s : Finset Nat), (∀ g ∈ roots, (node g).full = false) →
    ∃ s', collectC N node roots s = some s' ∧ ∀ x : Nat, x ∈ s' ↔ x ∈ s ∨ ∃ g ∈ roots, (x : Int) ∈ (node g).set := by
  intro roots
  induction roots with
  | nil => intro s _; exact ⟨s, rfl, by simp⟩
  | cons g roots ih =>
    intro s hf
    have hread : readLms N (node g) = some (node g).set := by
      unfold readLms AoNode.set
      rw [hf g List.mem_cons_self, if_neg (by simp), if_pos (hN g).len]
    obtain ⟨s1, h1, h2⟩ := insertLms_spec (node g).set s (hN g).rng
    obtain ⟨s2, h3, h4⟩ := ih s1 fun g hg => hf g (List.mem_cons_of_mem _ hg)
    refine ⟨s2, by rw [collectC, hread]; simp only; rw [h1]; exact h3, fun x => ?_⟩
    rw [h4, h2]
    simp [or_assoc]

/-- The outcome of `calcLMs`. -/
inductive LmOut
  | ub
  | fuel
  | done (s : Finset Nat)
deriving DecidableEq

/-- `calcLMs` (LmCausal.cpp 118-296); `reach`: see `reachable` (LmCausal.cpp 638-650). -/
def calcLms (P : Problem) (nA nT : Nat) (srt : (Nat → Nat) → List Nat → List Nat) (pick : List (Nat × Nat) → Nat) (key : AoNode → Nat → Nat)
    (reach : Nat → Bool) (old : Nat → List Int) (fuel : Nat) (n : Node) : LmOut :=
  let st := fun f => n.state[f]?.getD false
  match causalLoop srt pick key (causalGraph P nA nT) st reach fuel (causalStart (causalGraph P nA nT) st reach (List.range P.numFacts) (precLess P nA) old) with
  | .ub => .ub
  | .fuel => .fuel
  | .done s =>
    match collectC (causalGraph P nA nT).num s.node ((keys n.contained).map (tN P) ++ P.goal) ∅ with
    | none => .ub
    | some r => .done r

theorem calcLms_spec (hP : P.WF) (hR : RcOK P nA nT) {srt : (Nat → Nat) → List Nat → List Nat} (hsrt : SortOK srt) (pick : List (Nat × Nat) → Nat)
    (key : AoNode → Nat → Nat) {reach : Nat → Bool} (old : Nat → List Int) {h : Heap} {n : Node} (hc : CounterOK h n)
    (hpg : PgOK P nA nT (fun f => n.state[f]?.getD false) reach)
    (hd : ∀ g, Root P h n g → Der (restr (causalGraph P nA nT) (fun f => n.state[f]?.getD false) reach) (fun _ => False) g) :
    ∃ F r, (∀ fuel, F ≤ fuel → calcLms P nA nT srt pick key reach old fuel n = .done r) ∧
      ∀ x, x ∈ r ↔ ∃ g, Root P h n g ∧ ¬ Der (restr (causalGraph P nA nT) (fun f => n.state[f]?.getD false) reach) (· = x) g := by
  obtain ⟨s, f, hf, hnok, hex⟩ := causal_exact hsrt pick key (causal_hyp hP hR hpg) old
  have hroot : ∀ g, g ∈ (keys n.contained).map (tN P) ++ P.goal ↔ Root P h n g := by
    intro g
    unfold Root
    rw [List.mem_append, or_comm]
    refine or_congr Iff.rfl ?_
    rw [List.mem_map]
    constructor
    · rintro ⟨t, ht, rfl⟩
      rw [mem_keys_iff hc.1, hc.2, Finset.card_pos] at ht
      obtain ⟨u, hu⟩ := ht
      obtain ⟨h1, h2⟩ := Finset.mem_filter.1 hu
      exact ⟨u, h1, by rw [h2]⟩
    · rintro ⟨u, hu, rfl⟩
      refine ⟨taskOf h u, ?_, rfl⟩
      rw [mem_keys_iff hc.1, hc.2, Finset.card_pos]
      exact ⟨u, Finset.mem_filter.2 ⟨hu, rfl⟩⟩
  have hnf : ∀ g ∈ (keys n.contained).map (tN P) ++ P.goal, (s.node g).full = false := fun g hg => (hex g).1.2 (hd g ((hroot g).1 hg))
  obtain ⟨r, h1, h2⟩ := collectC_spec hnok _ ∅ hnf
  refine ⟨f, r, fun fuel hfu => ?_, fun x => ?_⟩
  · unfold calcLms
    simp only
    rw [hf fuel hfu]
    simp only
    rw [h1]
  · rw [h2]
    simp only [Finset.notMem_empty, false_or]
    constructor
    · rintro ⟨g, hg, hx⟩
      exact ⟨g, (hroot g).1 hg, ((hex g).2 (hnf g hg) x).1 hx⟩
    · rintro ⟨g, hg, hx⟩
      have hg' := (hroot g).2 hg
      exact ⟨g, hg', ((hex g).2 (hnf g hg') x).2 hx⟩

/-! ## Local landmarks -/

/-- The loop of `genLocalLMs` (LMsInAndOrGraphs.cpp 471-491). -/
def localLoop (P : Problem) : List Nat → Bool → Finset Nat → Finset Nat
  | [], _, r => r
  | m :: l, true, r => localLoop P l false (r ∪ (P.sub m).toFinset)
  | m :: l, false, r => localLoop P l false ((P.sub m).toFinset.filter (· ∈ r))

/-- `genLocalLMs` (LMsInAndOrGraphs.cpp 467-494). -/
def genLocal (P : Problem) (t : Nat) : Finset Nat := localLoop P ((List.range P.numMethods).filter fun m => P.head m == t) true ∅

/-- Insertion of new landmarks into `collect` and `lms` (LMsInAndOrGraphs.cpp 438-444). -/
def addNew (l : List Nat) (s : Finset Nat × Finset Nat) : Finset Nat × Finset Nat :=
  l.foldl (fun s lm => if lm ∈ s.2 then s else (insert lm s.1, insert lm s.2)) s

/-- The loop over rounds (LMsInAndOrGraphs.cpp 432-448). -/
def localRounds (P : Problem) : Nat → Finset Nat → Finset Nat → Option (Finset Nat)
  | 0, _, _ => none
  | f + 1, collect, lms =>
    if collect = ∅ then some lms
    else
      let r := (ascend collect).foldl (fun s t => addNew (ascend (genLocal P t)) s) (∅, lms)
      localRounds P f r.1 r.2

/-- `generateLocalLMs` (LMsInAndOrGraphs.cpp 394-465). -/
def genLocalLms (P : Problem) (fuel : Nat) (h : Heap) (n : Node) : Option (Finset Nat) :=
  match tnLoop h fuel (n.prims ++ n.abs).reverse [] with
  | none => none
  | some ps =>
    let s := (ascend ((ps.map (taskOf h)).toFinset)).foldl (fun s t => s ∪ genLocal P t) ∅
    localRounds P fuel s s

theorem localLoop_false (l : List Nat) : ∀ (r : Finset Nat) (x : Nat), x ∈ localLoop P l false r ↔ x ∈ r ∧ ∀ m ∈ l, x ∈ P.sub m := by
  induction l with
  | nil => intro r x; simp [localLoop]
  | cons m l ih =>
    intro r x
    rw [localLoop, ih]
    simp
    tauto

theorem mem_genLocal {t x : Nat} : x ∈ genLocal P t ↔ (∃ m < P.numMethods, P.head m = t) ∧ ∀ m < P.numMethods, P.head m = t → x ∈ P.sub m := by
  unfold genLocal
  have hm : ∀ m, m ∈ (List.range P.numMethods).filter (fun m => P.head m == t) ↔ m < P.numMethods ∧ P.head m = t := by simp
  cases hl : (List.range P.numMethods).filter (fun m => P.head m == t) with
  | nil =>
    rw [localLoop]
    have : ¬ ∃ m < P.numMethods, P.head m = t := by
      rintro ⟨m, h⟩
      have := (hm m).2 h
      rw [hl] at this
      simp at this
    simp [this]
  | cons m0 l =>
    rw [localLoop, localLoop_false]
    rw [hl] at hm
    have h0 := (hm m0).1 List.mem_cons_self
    constructor
    · rintro ⟨h1, h2⟩
      refine ⟨⟨m0, h0⟩, fun m h3 h4 => ?_⟩
      rcases List.mem_cons.1 ((hm m).2 ⟨h3, h4⟩) with rfl | h
      · simpa using h1
      · exact h2 m h
    · rintro ⟨-, h⟩
      refine ⟨by simpa using h m0 h0.1 h0.2, fun m hml => ?_⟩
      have := (hm m).1 (List.mem_cons_of_mem _ hml)
      exact h m this.1 this.2

theorem addNew_spec (l : List Nat) : ∀ (s : Finset Nat × Finset Nat) (x : Nat),
    (x ∈ (addNew l s).2 ↔ x ∈ s.2 ∨ x ∈ l) ∧ (x ∈ (addNew l s).1 ↔ x ∈ s.1 ∨ x ∉ s.2 ∧ x ∈ l) := by
  unfold addNew
  induction l with
  | nil => intro s x; simp
  | cons y l ih =>
    intro s x
    rw [List.foldl_cons]
    obtain ⟨h1, h2⟩ := ih (if y ∈ s.2 then s else (insert y s.1, insert y s.2)) x
    rw [h1, h2]
    split_ifs with hy
    · constructor
      · by_cases e : x = y
        · subst e; simp [hy]
        · simp [e]
      · by_cases e : x = y
        · subst e; simp [hy]
        · simp [e]
    · by_cases e : x = y
      · subst e; simp [hy]
      · simp [e]

theorem round_spec (l : List Nat) : ∀ (s : Finset Nat × Finset Nat) (x : Nat),
    (x ∈ (l.foldl (fun s t => addNew (ascend (genLocal P t)) s) s).2 ↔ x ∈ s.2 ∨ ∃ t ∈ l, x ∈ genLocal P t) ∧
      (x ∈ (l.foldl (fun s t => addNew (ascend (genLocal P t)) s) s).1 ↔ x ∈ s.1 ∨ x ∉ s.2 ∧ ∃ t ∈ l, x ∈ genLocal P t) := by
  induction l with
  | nil => intro s x; simp
  | cons t l ih =>
    intro s x
    rw [List.foldl_cons]
    obtain ⟨h1, h2⟩ := ih (addNew (ascend (genLocal P t)) s) x
    obtain ⟨k1, k2⟩ := addNew_spec (ascend (genLocal P t)) s x
    rw [h1, h2, k1, k2]
    simp only [mem_ascend, List.mem_cons, exists_eq_or_imp, or_assoc]
    refine ⟨trivial, ?_⟩
    clear h1 h2 k1 k2 ih
    generalize (∃ a ∈ l, x ∈ genLocal P a) = p
    by_cases h1 : x ∈ genLocal P t <;> by_cases h2 : x ∈ s.1 <;> by_cases h3 : x ∈ s.2 <;> simp [h1, h2, h3]

/-- Task `b` is a subtask in all methods of `a`. -/
def LocalStep (P : Problem) (a b : Nat) : Prop := b ∈ genLocal P a

theorem localRounds_spec {N : Nat} {R : Nat → Prop} (hlt : ∀ t x, x ∈ genLocal P t → x < N) (hR : ∀ a b, R a → LocalStep P a b → R b) :
    ∀ (k : Nat) (c s : Finset Nat), N - s.card ≤ k → (∀ x ∈ s, x < N ∧ R x) → c ⊆ s → (∀ x ∈ s, x ∉ c → ∀ y ∈ genLocal P x, y ∈ s) →
      ∃ r, (∀ f, k + 2 ≤ f → localRounds P f c s = some r) ∧ (∀ x ∈ r, R x) ∧ s ⊆ r ∧ ∀ x ∈ r, ∀ y ∈ genLocal P x, y ∈ r := by
  intro k
  induction k with
  | zero =>
    intro c s hk hs hc hcl
    have hfull : ∀ x < N, x ∈ s := by
      have hsub : s ⊆ Finset.range N := fun x hx => Finset.mem_range.2 (hs x hx).1
      have := Finset.eq_of_subset_of_card_le hsub (by rw [Finset.card_range]; omega)
      intro x hx
      rw [this]
      exact Finset.mem_range.2 hx
    refine ⟨s, fun f hf => ?_, fun x hx => (hs x hx).2, fun x hx => hx, fun x hx y hy => hfull y (hlt x y hy)⟩
    obtain ⟨f, rfl⟩ := Nat.exists_eq_add_of_le' (show 2 ≤ f by omega)
    rw [localRounds]
    split_ifs with he
    · rfl
    · simp only
      rw [localRounds]
      have h1 : ((ascend c).foldl (fun s t => addNew (ascend (genLocal P t)) s) (∅, s)).1 = ∅ := by
        refine Finset.eq_empty_of_forall_notMem fun x hx => ?_
        rw [(round_spec _ _ x).2] at hx
        obtain h | ⟨h, t, -, h'⟩ := hx
        · simp at h
        · exact h (hfull x (hlt t x h'))
      have h2 : ((ascend c).foldl (fun s t => addNew (ascend (genLocal P t)) s) (∅, s)).2 = s := by
        ext x
        rw [(round_spec _ _ x).1]
        exact ⟨fun h => h.elim id fun ⟨t, _, h⟩ => hfull x (hlt t x h), .inl⟩
      rw [if_pos h1, h2]
  | succ k ih =>
    intro c s hk hs hc hcl
    by_cases he : c = ∅
    · refine ⟨s, fun f hf => ?_, fun x hx => (hs x hx).2, fun x hx => hx, fun x hx => hcl x hx (by rw [he]; simp)⟩
      obtain ⟨f, rfl⟩ := Nat.exists_eq_add_of_le' (show 1 ≤ f by omega)
      rw [localRounds, if_pos he]
    · set r := (ascend c).foldl (fun s t => addNew (ascend (genLocal P t)) s) (∅, s) with hr
      have m1 : ∀ x, x ∈ r.1 ↔ x ∉ s ∧ ∃ t ∈ c, x ∈ genLocal P t := by
        intro x
        rw [hr, (round_spec _ _ x).2]
        simp [mem_ascend]
      have m2 : ∀ x, x ∈ r.2 ↔ x ∈ s ∨ ∃ t ∈ c, x ∈ genLocal P t := by
        intro x
        rw [hr, (round_spec _ _ x).1]
        simp [mem_ascend]
      have hstep : ∀ f, localRounds P (f + 1) c s = localRounds P f r.1 r.2 := by
        intro f
        rw [localRounds, if_neg he]
      have hs2 : ∀ x ∈ r.2, x < N ∧ R x := by
        intro x hx
        rcases (m2 x).1 hx with h | ⟨t, ht, h⟩
        · exact hs x h
        · exact ⟨hlt t x h, hR t x (hs t (hc ht)).2 h⟩
      have hc2 : r.1 ⊆ r.2 := fun x hx => (m2 x).2 (.inr ((m1 x).1 hx).2)
      have hcl2 : ∀ x ∈ r.2, x ∉ r.1 → ∀ y ∈ genLocal P x, y ∈ r.2 := by
        intro x hx hx1 y hy
        by_cases hxs : x ∈ s
        · by_cases hxc : x ∈ c
          · exact (m2 y).2 (.inr ⟨x, hxc, hy⟩)
          · exact (m2 y).2 (.inl (hcl x hxs hxc y hy))
        · exact absurd ((m1 x).2 ⟨hxs, ((m2 x).1 hx).resolve_left hxs⟩) hx1
      by_cases h1 : r.1 = ∅
      · refine ⟨r.2, fun f hf => ?_, fun x hx => (hs2 x hx).2, fun x hx => (m2 x).2 (.inl hx), fun x hx => hcl2 x hx (by rw [h1]; simp)⟩
        obtain ⟨f, rfl⟩ := Nat.exists_eq_add_of_le' (show 2 ≤ f by omega)
        rw [hstep, localRounds, if_pos h1]
      · obtain ⟨x, hx⟩ := Finset.nonempty_iff_ne_empty.2 h1
        have hcard : s.card < r.2.card := Finset.card_lt_card ⟨fun y hy => (m2 y).2 (.inl hy), fun hsub => ((m1 x).1 hx).1 (hsub (hc2 hx))⟩
        have hsub : r.2.card ≤ N := by
          have : r.2 ⊆ Finset.range N := fun y hy => Finset.mem_range.2 (hs2 y hy).1
          have := Finset.card_le_card this
          rwa [Finset.card_range] at this
        obtain ⟨q, q1, q2, q3, q4⟩ := ih r.1 r.2 (by omega) hs2 hc2 hcl2
        refine ⟨q, fun f hf => ?_, q2, fun y hy => q3 ((m2 y).2 (.inl hy)), q4⟩
        obtain ⟨f, rfl⟩ := Nat.exists_eq_add_of_le' (show 1 ≤ f by omega)
        rw [hstep]
        exact q1 f (by omega)

/-- The local landmarks are the tasks that are found by going from the tasks of the network to subtasks that all methods share. -/
theorem genLocalLms_spec (hR : RcOK P nA nT) {h : Heap} {n : Node} (hh : HeapOK h) (hn : NodeOK P h n) :
    ∃ F r, (∀ fuel, F ≤ fuel → genLocalLms P fuel h n = some r) ∧ ∀ t, t ∈ r ↔ ∃ u ∈ live h n, TransGen (LocalStep P) (taskOf h u) t := by
  obtain ⟨F1, hF1⟩ := tnLoop_term hh (n.prims ++ n.abs).reverse []
  have hlt : ∀ t x, x ∈ genLocal P t → x < nT := by
    intro t x hx
    obtain ⟨⟨m, hm, ht⟩, h2⟩ := mem_genLocal.1 hx
    exact hR.sub_lt m hm x (h2 m hm ht)
  have hstart : ∀ (l : List Nat) (s : Finset Nat) (x : Nat), x ∈ l.foldl (fun s t => s ∪ genLocal P t) s ↔ x ∈ s ∨ ∃ t ∈ l, x ∈ genLocal P t := by
    intro l
    induction l with
    | nil => intro s x; simp
    | cons t l ih => intro s x; rw [List.foldl_cons, ih]; simp [or_assoc]
  set S : Set Nat := { t | ∃ u ∈ live h n, taskOf h u = t } with hS
  have hps : ∀ f ps, tnLoop h f (n.prims ++ n.abs).reverse [] = some ps → ∀ x,
      x ∈ ((ascend ((ps.map (taskOf h)).toFinset)).foldl (fun s t => s ∪ genLocal P t) ∅) ↔ ∃ u ∈ live h n, x ∈ genLocal P (taskOf h u) := by
    intro f ps hps x
    have hlive := tnLoop_live hh hn.lt (todo := (n.prims ++ n.abs).reverse) (by intro u; simp [Node.firsts, or_comm]) hps
    rw [hstart]
    simp only [Finset.notMem_empty, false_or, mem_ascend, List.mem_toFinset, List.mem_map]
    constructor
    · rintro ⟨t, ⟨u, hu, rfl⟩, hx⟩
      exact ⟨u, (hlive u).1 hu, hx⟩
    · rintro ⟨u, hu, hx⟩
      exact ⟨_, ⟨u, (hlive u).2 hu, rfl⟩, hx⟩
  obtain ⟨ps0, hps0⟩ := hF1 F1 (Nat.le_refl _)
  set s := ((ascend ((ps0.map (taskOf h)).toFinset)).foldl (fun s t => s ∪ genLocal P t) ∅) with hs
  obtain ⟨r, h1, h2, h3, h4⟩ := localRounds_spec (P := P) (N := nT) (R := fun t => ∃ u ∈ live h n, TransGen (LocalStep P) (taskOf h u) t) hlt
    (fun a b ⟨u, hu, hp⟩ hab => ⟨u, hu, hp.tail hab⟩) (nT - s.card) s s (Nat.le_refl _) (fun x hx => by
      obtain ⟨u, hu, hx⟩ := (hps F1 ps0 hps0 x).1 hx
      exact ⟨hlt _ x hx, u, hu, .single hx⟩) (fun x hx => hx) (fun x hx hx' => absurd hx hx')
  refine ⟨max F1 (nT - s.card + 2), r, fun fuel hf => ?_, fun t => ⟨fun ht => h2 t ht, ?_⟩⟩
  · obtain ⟨ps, hps1⟩ := hF1 fuel (by omega)
    unfold genLocalLms
    rw [hps1]
    simp only
    have : ((ascend ((ps.map (taskOf h)).toFinset)).foldl (fun s t => s ∪ genLocal P t) ∅) = s := by
      ext x
      rw [hps fuel ps hps1 x, hs, hps F1 ps0 hps0 x]
    rw [this]
    exact h1 fuel (by omega)
  · rintro ⟨u, hu, hp⟩
    induction hp with
    | single hab => exact h3 ((hps F1 ps0 hps0 _).2 ⟨u, hu, hab⟩)
    | tail _ hab ih => exact h4 _ ih _ hab

theorem localStep_taskIn {t t' : Nat} (hst : LocalStep P t t') {tr : Tree} (hv : Valid P t tr) (ha : P.prim t = false) :
    ∃ m cs i, tr = .node m cs ∧ i < (P.sub m).length ∧ Valid P t' (cs i) := by
  obtain ⟨-, h2⟩ := mem_genLocal.1 hst
  cases hv with
  | leaf hp => rw [ha] at hp; simp at hp
  | @node m cs hm hc =>
    obtain ⟨i, hi, he⟩ := List.mem_iff_getElem.1 (h2 m hm rfl)
    exact ⟨m, cs, i, rfl, hi, hc i t' (by rw [List.getElem?_eq_getElem hi, he])⟩

/-- Local landmarks occur in every decomposition. -/
theorem local_met (hP : P.WF) {t t' : Nat} (hst : TransGen (LocalStep P) t t') {tr : Tree} (hv : Valid P t tr) : TaskIn P tr t' := by
  have habs : ∀ a b, LocalStep P a b → P.prim a = false := by
    intro a b hab
    obtain ⟨⟨m, hm, rfl⟩, -⟩ := mem_genLocal.1 hab
    exact hP.head_abs m hm
  induction hst using TransGen.head_induction_on generalizing tr with
  | single hab =>
    obtain ⟨m, cs, i, rfl, hi, hv'⟩ := localStep_taskIn hab hv (habs _ _ hab)
    exact .child hi (Valid.taskIn hv')
  | head hab _ ih =>
    obtain ⟨m, cs, i, rfl, hi, hv'⟩ := localStep_taskIn hab hv (habs _ _ hab)
    exact .child hi (ih hv')

/-- Local landmarks are landmarks of the graph. -/
theorem local_isLm (hP : P.WF) (hR : RcOK P nA nT) {t t' : Nat} (ht : t < nT) (hst : TransGen (LocalStep P) t t') : ¬ Der (lmGraph P nA nT) (· = tN P t') (tN P t) := by
  have hstep : ∀ a b, LocalStep P a b → a < nT ∧ b < nT ∧ ∀ A : Nat → Prop, Der (lmGraph P nA nT) A (tN P a) → Der (lmGraph P nA nT) A (tN P b) := by
    intro a b hab
    obtain ⟨⟨m, hm, ha⟩, h2⟩ := mem_genLocal.1 hab
    have hlt : a < nT := ha ▸ hR.head_lt m hm
    have hna : ¬ a < nA := by
      have h1 := hP.head_abs m hm
      rw [ha, hR.prim _ hlt] at h1
      simpa using h1
    refine ⟨hlt, hR.sub_lt m hm b (h2 m hm ha), fun A hd => ?_⟩
    have hk : (lmGraph P nA nT).kind (tN P a) = .or := kind_abs hna hlt
    cases hd with
    | init hk' _ => rw [hk] at hk'; simp at hk'
    | and hk' _ _ => rw [hk] at hk'; simp at hk'
    | or _ _ hp hd =>
      rcases (par_task hlt).1 hp with ⟨h, -⟩ | ⟨m', hm', hh, rfl⟩
      · exact absurd h hna
      · have hk2 : (lmGraph P nA nT).kind (mN P nT m') = .and := kind_meth hm'
        cases hd with
        | init hk' _ => rw [hk2] at hk'; simp at hk'
        | or hk' _ _ _ => rw [hk2] at hk'; simp at hk'
        | and _ _ hall => exact hall _ ((par_meth hm').2 ⟨b, h2 m' hm' hh, rfl⟩)
  intro hd
  have : Der (lmGraph P nA nT) (· = tN P t') (tN P t') := by
    clear ht
    induction hst using TransGen.head_induction_on with
    | single hab => exact (hstep _ _ hab).2.2 _ hd
    | head hab _ ih => exact ih ((hstep _ _ hab).2.2 _ hd)
  cases this with
  | init _ h => exact h rfl
  | and _ h _ => exact h rfl
  | or _ h _ _ => exact h rfl

end Verif.AO
