import Verif.HeapExt
import Verif.Search

/-! # One search step keeps the invariants of nodes -/

namespace Verif.Prog

open Verif.Htn Verif.TaskCounter Relation

variable {P : Problem} {cfg : Cfg}

/-- What holds of every node generated by the search. -/
structure NInv (P : Problem) (cfg : Cfg) (h : Heap) (n : Node) : Prop where
  good : Good P cfg h n
  solne : n.sol = [] → n.prims = []
  sound : ∀ π k, NodeSol P h n π k → IsSolutionN P (planOf n.sol ++ π) (k + decsOf n.sol)
  costs : n.costs = P.planCost (planOf n.sol)
  depth : n.depth = n.sol.length
  mixed : n.mixed = n.costs + decsOf n.sol

theorem planOf_cons_action (sol : List SolStep) (t i p q : Nat) :
    planOf (⟨t, none, i, p, q⟩ :: sol) = planOf sol ++ [t] := by simp [planOf]

theorem planOf_cons_method (sol : List SolStep) (t m i p q : Nat) :
    planOf (⟨t, some m, i, p, q⟩ :: sol) = planOf sol := by simp [planOf]

theorem decsOf_cons_action (sol : List SolStep) (t i p q : Nat) :
    decsOf (⟨t, none, i, p, q⟩ :: sol) = decsOf sol := by simp [decsOf]

theorem decsOf_cons_method (sol : List SolStep) (t m i p q : Nat) :
    decsOf (⟨t, some m, i, p, q⟩ :: sol) = decsOf sol + 1 := by simp [decsOf]

theorem planCost_perm {π ρ : List Nat} (h : π.Perm ρ) : P.planCost π = P.planCost ρ :=
  (h.map _).sum_eq

theorem planCost_cons (a : Nat) (π : List Nat) : P.planCost (a :: π) = P.cost a + P.planCost π := by
  simp [Problem.planCost]

theorem AStep.ninv (hP : P.WF) (hcfg : cfg.Ok) {h inst n u n'} (hn : NInv P cfg h n)
    (a : AStep P cfg h inst n u n') : NInv P cfg h n' := by
  obtain ⟨hu, hg1, -⟩ := a.inv hP hcfg hn.good
  obtain ⟨ps, hps, hsol, hd, hm, hc, hne⟩ := a.sol
  have ht : taskOf h u = ps.task := by simp [taskOf, hps]
  refine ⟨hg1, fun h0 => by rw [hsol] at h0; simp at h0, fun π k hs => ?_, ?_, ?_, ?_⟩
  · have h1 := hn.sound _ _ (a.sound hP hcfg hn.good hs)
    rw [hsol, planOf_cons_action, decsOf_cons_action, List.append_assoc]
    rw [ht] at h1
    exact h1
  · rw [hc, hsol, planOf_cons_action, planCost_append, hn.costs]; simp [Problem.planCost]
  · rw [hd, hsol, hn.depth]; simp
  · rw [hm, hsol, decsOf_cons_action, hn.mixed, hc]; omega

theorem Chain.ninv (hP : P.WF) (hcfg : cfg.Ok) {h i n us j n'} (hn : NInv P cfg h n)
    (c : Chain P cfg h i n us j n') : NInv P cfg h n' := by
  induction c with
  | nil => exact hn
  | step a f _ ih => exact ih (a.ninv hP hcfg hn)
  | flag d _ ih =>
    exact ih ⟨hn.good.flag, hn.solne, hn.sound, hn.costs, hn.depth, hn.mixed⟩

/-- Everything needed about one call of `apply` made by the search. -/
theorem apply_step (hP : P.WF) (hcfg : cfg.Ok) {f g n i u g' n2} (hn : NInv P cfg g.heap n)
    (hu : n.prims[i]? = some u) (happ : P.Applicable (holds n.state) (taskOf g.heap u))
    (h : apply P cfg f g n i = some (g', n2)) :
    g'.heap = g.heap ∧ NInv P cfg g.heap n2 ∧
      (n2.reachable = false → ∀ π k, ¬ NodeSol P g.heap n2 π k) ∧
      ∀ π k, SolvesN P ((live g.heap n).erase u) (taskOf g.heap) (TransGen (Edge g.heap))
          (P.result (holds n.state) (taskOf g.heap u)) π k →
        ∃ π', NodeSol P g.heap n2 π' k ∧ π'.length ≤ π.length ∧
          n2.costs + P.planCost π' = n.costs + P.cost (taskOf g.heap u) + P.planCost π := by
  obtain ⟨hheap, -, n1, us, a, c⟩ := apply_chain f g n i g' n2 u hu happ h
  obtain ⟨-, hg1, hl, hst, hr, -⟩ := a.inv hP hcfg hn.good
  have hn1 := a.ninv hP hcfg hn
  obtain ⟨h1, h2, h3, h4⟩ := c.inv hP hcfg hg1
  obtain ⟨ps, hps, hsol, hd, hm, hc, hne⟩ := a.sol
  have ht : taskOf g.heap u = ps.task := by simp [taskOf, hps]
  refine ⟨hheap, c.ninv hP hcfg hn1, fun hf π k hs => ?_, fun π k hs => ?_⟩
  · exact (h4 (by simp [hr]) hf).no_sol hP h1 hs
  · have hs1 : NodeSol P g.heap n1 π k := by unfold NodeSol; rw [hl, hst]; exact hs
    obtain ⟨π', hp, hs'⟩ := h3 π k hs1
    refine ⟨π', hs', ?_, ?_⟩
    · have := hp.length_eq; simp at this; omega
    · have := planCost_perm (P := P) hp
      rw [planCost_append] at this
      have hcc := c.acc.2.2.1
      rw [hcc, hc, this, ht]; omega

/-- Everything needed about one call of `decompose` made by the search. -/
theorem decompose_step (hP : P.WF) (hcfg : cfg.Ok) {f g n d u m g' n2} (hn : NInv P cfg g.heap n)
    (hu : n.abs[d]? = some u) (hm : m ∈ methodsOf P (taskOf g.heap u))
    (h : decompose P cfg f g n d m = some (g', n2)) :
    g.heap <+: g'.heap ∧ HeapOK g'.heap ∧ NInv P cfg g'.heap n2 ∧
      (n2.reachable = false → ∀ π k, ¬ NodeSol P g'.heap n2 π k) ∧
      ∀ π k, (∀ b I' lab' lt', Subst P (live g.heap n) (taskOf g.heap) (TransGen (Edge g.heap)) u m b
          I' lab' lt' → SolvesN P I' lab' lt' (holds n.state) π k) →
        ∃ π', NodeSol P g'.heap n2 π' k ∧ π'.length ≤ π.length ∧
          n2.costs + P.planCost π' = n.costs + P.planCost π := by
  obtain ⟨g1, n1, us, hd, hheap, c⟩ := decompose_chain h
  simp only [methodsOf, List.mem_filter, List.mem_range, beq_iff_eq] at hm
  obtain ⟨hm, hhead⟩ := hm
  have hg1 := decomposeBase_good hP hn.good hm hu hhead hd
  obtain ⟨hh1, hok1, hst, S⟩ := decomposeBase_inv hP hn.good.heap hn.good.node hm hd hu
  obtain ⟨u', ps, cc, hu', hps, -, hext, -, -, -, -, -, hsol, hdep, hmix, hcost, hr, -⟩ := decomposeBase_some hd
  obtain rfl : u = u' := by rw [hu] at hu'; exact Option.some.inj hu'
  have huf := hn.good.node.first_min hn.good.heap (List.mem_append_right _ (List.mem_of_getElem? hu))
  have hn1 : NInv P cfg g1.heap n1 := by
    refine ⟨hg1, fun h0 => by rw [hsol] at h0; simp at h0, fun π k hs => ?_, ?_, ?_, ?_⟩
    · unfold NodeSol at hs
      rw [hst] at hs
      have h1 := hn.sound _ _ (hs.of_subst hm hhead huf.1 (huf.2 u huf.1) S)
      rw [hsol, planOf_cons_method, decsOf_cons_method]
      rw [show k + (decsOf n.sol + 1) = k + 1 + decsOf n.sol by omega]
      exact h1
    · rw [hcost, hsol, planOf_cons_method, hn.costs]
    · rw [hdep, hsol, hn.depth]; simp
    · rw [hmix, hsol, decsOf_cons_method, hn.mixed, hcost]; omega
  obtain ⟨h1, h2, h3, h4⟩ := c.inv hP hcfg hg1
  rw [hheap]
  refine ⟨by rw [hext]; exact ⟨_, rfl⟩, hh1, c.ninv hP hcfg hn1, fun hf π k hs => ?_, fun π k hs => ?_⟩
  · exact (h4 (by simp [hr]) hf).no_sol hP h1 hs
  · have hs1 : NodeSol P g1.heap n1 π k := by
      unfold NodeSol; rw [hst]; exact hs _ _ _ _ S
    obtain ⟨π', hp, hs'⟩ := h3 π k hs1
    refine ⟨π', hs', ?_, ?_⟩
    · have := hp.length_eq; simp at this; omega
    · have := planCost_perm (P := P) hp
      rw [planCost_append] at this
      have hcc := c.acc.2.2.1
      rw [hcc, hcost, this]; omega

theorem holds_init (hP : P.WF) : holds (initNode P cfg).2.state = P.initState := by
  funext f
  unfold holds initNode Problem.initState
  simp only
  rw [foldl_set_get _ _ _ _ (fun g hg => by simpa using hP.s0_lt g hg)]
  by_cases hf : f ∈ P.s0
  · simp [hf]
  · simp [hf, List.getElem?_replicate]

/-- The initial node. -/
theorem init_ninv (hP : P.WF) : NInv P cfg (initNode P cfg).1.heap (initNode P cfg).2 ∧
    ∀ π k, NodeSol P (initNode P cfg).1.heap (initNode P cfg).2 π k ↔ IsSolutionN P π k := by
  classical
  set h := (initNode P cfg).1.heap with hh
  set n := (initNode P cfg).2 with hnn
  have hnoedge : ∀ u v, ¬ Edge h u v := by
    rintro u v ⟨st, hst, hv⟩
    cases u with
    | zero =>
      have : st = { task := P.init, succs := [], par := 0, pos := 0 } :=
        (Option.some.inj (show some ({ task := P.init, succs := [], par := 0, pos := 0 } : Step) = some st
          from hst)).symm
      rw [this] at hv; simp at hv
    | succ u => simp [hh, initNode] at hst
  have hnotrans : ∀ u v, ¬ TransGen (Edge h) u v := fun u v ht => by
    obtain ⟨w, hw, _⟩ := TransGen.head'_iff.1 ht; exact hnoedge _ _ hw
  have hok : HeapOK h := ⟨fun u v he => absurd he (hnoedge u v), fun _ => 0, fun u v he => absurd he (hnoedge u v)⟩
  have htask : taskOf h 0 = P.init := rfl
  have hfirst : n.firsts = [0] := rfl
  have hlt : ∀ u ∈ n.firsts, u < h.length := by rw [hfirst]; simp [hh, initNode]
  have hlive : live h n = {0} := by
    ext v
    rw [mem_live hok hlt, hfirst]
    simp only [ReachFrom, List.mem_singleton, exists_eq_left, Finset.mem_singleton]
    constructor
    · intro hr
      rcases reflTransGen_iff_eq_or_transGen.1 hr with rfl | ht
      · rfl
      · exact absurd ht (hnotrans _ _)
    · rintro rfl; exact .refl
  have hsol : ∀ π k, NodeSol P h n π k ↔ IsSolutionN P π k := by
    intro π k
    unfold NodeSol
    rw [hlive, holds_init hP]
    exact isSolutionN_iff htask (hnotrans _ _)
  refine ⟨⟨⟨hok, ⟨?_, ?_, hlt, ?_, ?_, ?_⟩, ?_⟩, fun _ => rfl, ?_, rfl, rfl, rfl⟩, hsol⟩
  · simp [hnn, initNode, foldl_set_length]
  · rw [hfirst]; simp
  · simp [hnn, initNode]
  · intro u hu
    obtain rfl : u = 0 := by simpa [hnn, initNode] using hu
    rw [htask]; exact hP.init_abs
  · exact fun u _ v _ => hnotrans u v
  · intro ht
    have hc : n.contained = [(P.init, 1)] := by simp [hnn, initNode, ht]
    unfold CounterOK
    rw [hc, hlive]
    refine ⟨⟨by simp [keys], by simp⟩, fun t => ?_⟩
    rw [Finset.filter_singleton, htask]
    by_cases hx : P.init = t <;> simp [hx]
  · intro π k hs
    have : planOf n.sol = [] := rfl
    rw [this]; exact (hsol π k).1 hs

end Verif.Prog
