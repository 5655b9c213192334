import Verif.Reached
import Verif.Props.Example

/-! # Properties of progression: C03, C04, C05, C06, C07, C13

All theorems speak about arbitrary nodes reached from the initial node by calls of `apply` and
`decompose` as the search makes them (`Reached`).  The network of a node consists of the plan
steps reachable through `successorList` pointers (`live`); its order is reachability along these
pointers. -/

namespace Verif.Prog

open Verif.Htn Verif.TaskCounter Relation

variable {P : Problem} {cfg : Cfg}

/-- Effect of automatic progression on the network. -/
theorem Chain.net (hP : P.WF) (hcfg : cfg.Ok) {h i n us j n'} (hg : Good P cfg h n)
    (c : Chain P cfg h i n us j n') :
    us.Nodup ∧ (∀ v ∈ us, v ∈ live h n) ∧ (∀ v, v ∈ live h n' ↔ v ∈ live h n ∧ v ∉ us) ∧
      Exec P (holds n.state) (us.map (taskOf h)) (holds n'.state) := by
  classical
  induction c with
  | nil => exact ⟨List.nodup_nil, by simp, by simp, .nil _⟩
  | @step i n u n1 us j n' a f _ ih =>
    obtain ⟨hu, hg1, hl, hst, -, happ⟩ := a.inv hP hcfg hg
    obtain ⟨h1, h2, h3, h4⟩ := ih hg1
    have hul := (hg.node.first_min hg.heap (List.mem_append_left _ hu)).1
    rw [hl] at h2 h3
    refine ⟨List.nodup_cons.2 ⟨fun hu' => ?_, h1⟩, ?_, ?_, ?_⟩
    · have := h2 u hu'; simp at this
    · intro v hv
      rcases List.mem_cons.1 hv with rfl | hv
      · exact hul
      · exact Finset.mem_of_mem_erase (h2 v hv)
    · intro v
      rw [h3 v, Finset.mem_erase, List.mem_cons]
      tauto
    · rw [List.map_cons]
      exact .cons happ (by rw [← hst]; exact h4)
  | flag _ _ ih => exact ih hg.flag

theorem apply_plain {f g n i r} (h1 : cfg.effLess = false) (h2 : cfg.oneMod = false)
    (h : apply P cfg f g n i = some r) : ∃ f', applyBase P cfg f' g n i = some r := by
  cases f with
  | zero => simp [apply] at h
  | succ f =>
    refine ⟨f, ?_⟩
    simp only [apply, Option.bind_eq_bind, Option.bind_eq_some_iff] at h
    obtain ⟨⟨g1, n1⟩, hb, h⟩ := h
    simp only [post, effPart, h1, h2] at h
    simp at h
    rw [hb, h]

theorem decompose_plain {f g n j m r} (h1 : cfg.effLess = false) (h2 : cfg.oneMod = false)
    (h : decompose P cfg f g n j m = some r) : decomposeBase P cfg g n j m = some r := by
  simp only [decompose, Option.bind_eq_bind, Option.bind_eq_some_iff] at h
  obtain ⟨⟨g1, n1⟩, hb, h⟩ := h
  simp only [post, effPart, h1, h2] at h
  simp at h
  rw [hb, h]

/-- If the length of the solution does not change no action has been progressed. -/
theorem Chain.nil_of_sol {h i n us j n'} (c : Chain P cfg h i n us j n')
    (hl : n'.sol.length ≤ n.sol.length) : us = [] := by
  have := c.acc.2.2.2.2.2
  have h0 : us.length = 0 := by omega
  exact List.length_eq_zero_iff.1 h0

end Verif.Prog

namespace Verif.Props

open Verif.Htn Verif.Prog Verif.TaskCounter Relation

variable {P : Problem} {cfg : Cfg}

/-- The lists of unconstrained tasks of `n` contain, without repetition, exactly the minimal
elements of the network, primitive and abstract ones in the respective list. -/
def FirstsExact (P : Problem) (h : Heap) (n : Node) : Prop :=
  (n.prims ++ n.abs).Nodup ∧
  (∀ v, v ∈ n.prims ↔ v ∈ live h n ∧ (∀ w ∈ live h n, ¬ TransGen (Edge h) w v) ∧
    P.prim (taskOf h v) = true) ∧
  (∀ v, v ∈ n.abs ↔ v ∈ live h n ∧ (∀ w ∈ live h n, ¬ TransGen (Edge h) w v) ∧
    P.prim (taskOf h v) = false)

theorem firstsExact {h : Heap} (hh : HeapOK h) {n : Node} (hn : NodeOK P h n) : FirstsExact P h n := by
  have hf : ∀ v, v ∈ n.firsts ↔ v ∈ live h n ∧ (∀ w ∈ live h n, ¬ TransGen (Edge h) w v) :=
    fun v => ⟨fun hv => hn.first_min hh hv, fun hv => hn.min_first hh hv.1 hv.2⟩
  refine ⟨hn.nodup, fun v => ?_, fun v => ?_⟩
  · rw [← and_assoc, ← hf v, Node.firsts, List.mem_append]
    constructor
    · exact fun hv => ⟨.inl hv, hn.prim v hv⟩
    · rintro ⟨hv | hv, hp⟩
      · exact hv
      · rw [hn.abs v hv] at hp; simp at hp
  · rw [← and_assoc, ← hf v, Node.firsts, List.mem_append]
    constructor
    · exact fun hv => ⟨.inr hv, hn.abs v hv⟩
    · rintro ⟨hv | hv, hp⟩
      · rw [hn.prim v hv] at hp; simp at hp
      · exact hv

/-- **C03.**  Applying the unconstrained action `u` (followed by automatic progression of the
actions `us`, none if automatic progression is switched off) leaves exactly the other tasks of
the network, all still linked; the new lists of unconstrained tasks are exact; the state is the
result of executing these actions, and they are appended to the plan.  Independent of the
address order of the candidate set. -/
theorem C03_apply (hP : P.WF) (hcfg : cfg.Ok) {f g n i u g' n'} (hr : Reached P cfg g n)
    (hu : n.prims[i]? = some u) (ha : isApplicable P n.state (taskOf g.heap u) = true)
    (h : apply P cfg f g n i = some (g', n')) :
    g'.heap = g.heap ∧ ∃ us : List Nat, (u :: us).Nodup ∧ (∀ v ∈ u :: us, v ∈ live g.heap n) ∧
      (∀ v, v ∈ live g.heap n' ↔ v ∈ live g.heap n ∧ v ∉ u :: us) ∧
      FirstsExact P g.heap n' ∧
      Exec P (holds n.state) ((u :: us).map (taskOf g.heap)) (holds n'.state) ∧
      planOf n'.sol = planOf n.sol ++ (u :: us).map (taskOf g.heap) ∧
      (cfg.effLess = false → cfg.oneMod = false → us = []) := by
  have hn := hr.ninv hP hcfg
  have happ := isApplicable_iff.1 ha
  obtain ⟨hheap, -, n1, us, a, c⟩ := apply_chain f g n i g' n' u hu happ h
  obtain ⟨hup, hg1, hl, hst, -, -⟩ := a.inv hP hcfg hn.good
  obtain ⟨h1, h2, h3, h4⟩ := c.net hP hcfg hg1
  have hg' := (c.inv hP hcfg hg1).1
  have hul := (hn.good.node.first_min hn.good.heap (List.mem_append_left _ hup)).1
  obtain ⟨ps, hps, hsol, -⟩ := a.sol
  have ht : taskOf g.heap u = ps.task := by simp [taskOf, hps]
  rw [hl] at h2 h3
  refine ⟨hheap, us, List.nodup_cons.2 ⟨fun hu' => ?_, h1⟩, ?_, ?_, firstsExact hg'.heap hg'.node, ?_, ?_, ?_⟩
  · have := h2 u hu'; simp at this
  · intro v hv
    rcases List.mem_cons.1 hv with rfl | hv
    · exact hul
    · exact Finset.mem_of_mem_erase (h2 v hv)
  · intro v
    rw [h3 v, Finset.mem_erase, List.mem_cons]
    tauto
  · rw [List.map_cons]
    exact .cons happ (by rw [← hst]; exact h4)
  · have h5 := c.acc.2.2.2.2.1
    have h6 : planOf n1.sol = planOf n.sol ++ [taskOf g.heap u] := by
      rw [hsol, planOf_cons_action, ht]
    have h7 : planOf n'.sol = planOf n1.sol ++ us.map (taskOf g.heap) := h5
    rw [h7, h6]; simp
  · intro e1 e2
    obtain ⟨f', hb⟩ := apply_plain e1 e2 h
    obtain ⟨u', ps', pf, cc, hu', hps', -, -, -, -, -, -, -, -, -, hsol', -⟩ := applyBase_some hb
    refine c.nil_of_sol ?_
    rw [hsol, hsol']; simp

/-- **C04.**  Decomposing the unconstrained abstract task `u` with method `m` replaces `u` by one
fresh task per subtask, ordered as in the method and like `u` with respect to all other tasks
(`Subst`); then the actions `us` are progressed automatically (none if this is switched off).
The new lists of unconstrained tasks are exact. -/
theorem C04_decompose (hP : P.WF) (hcfg : cfg.Ok) {f g n j u m g' n'} (hr : Reached P cfg g n)
    (hu : n.abs[j]? = some u) (hm : m ∈ methodsOf P (taskOf g.heap u))
    (h : decompose P cfg f g n j m = some (g', n')) :
    g.heap <+: g'.heap ∧ ∃ (I : Finset Nat) (us : List Nat),
      Subst P (live g.heap n) (taskOf g.heap) (TransGen (Edge g.heap)) u m g.heap.length
        I (taskOf g'.heap) (TransGen (Edge g'.heap)) ∧
      us.Nodup ∧ (∀ v ∈ us, v ∈ I) ∧ (∀ v, v ∈ live g'.heap n' ↔ v ∈ I ∧ v ∉ us) ∧
      FirstsExact P g'.heap n' ∧
      Exec P (holds n.state) (us.map (taskOf g'.heap)) (holds n'.state) ∧
      planOf n'.sol = planOf n.sol ++ us.map (taskOf g'.heap) ∧
      (cfg.effLess = false → cfg.oneMod = false → us = []) := by
  have hn := hr.ninv hP hcfg
  obtain ⟨g1, n1, us, hd, hheap, c⟩ := decompose_chain h
  have hm' : m < P.numMethods ∧ P.head m = taskOf g.heap u := by simpa [methodsOf] using hm
  have hg1 := decomposeBase_good hP hn.good hm'.1 hu hm'.2 hd
  obtain ⟨hh1, hok1, hst, S⟩ := decomposeBase_inv hP hn.good.heap hn.good.node hm'.1 hd hu
  obtain ⟨u', ps, cc, hu', hps, -, hext, -, -, -, -, -, hsol, -⟩ := decomposeBase_some hd
  obtain ⟨h1, h2, h3, h4⟩ := c.net hP hcfg hg1
  have hg' := (c.inv hP hcfg hg1).1
  rw [hheap]
  refine ⟨by rw [hext]; exact ⟨_, rfl⟩, live g1.heap n1, us, S, h1, h2, h3,
    firstsExact hg'.heap hg'.node, by rw [← hst]; exact h4, ?_, ?_⟩
  · have h5 : planOf n'.sol = planOf n1.sol ++ us.map (taskOf g1.heap) := c.acc.2.2.2.2.1
    rw [h5, hsol, planOf_cons_method]
  · intro e1 e2
    have hb := decompose_plain e1 e2 h
    rw [hd] at hb
    obtain ⟨-, rfl⟩ := Prod.mk.inj (Option.some.inj hb)
    exact c.nil_of_sol (Nat.le_refl _)

/-- **C05** (`apply`).  Let `N` be the network after the action `u` alone.  The automatic
progression of the actions `us` is neutral: every solution of the new node extends to one of `N`
by `us`, and every solution of `N` can be rearranged to start with `us` and continue with a
solution of the new node, using the same number of decompositions.  If the node is marked as
dead, `N` has no solution. -/
theorem C05_apply (hP : P.WF) (hcfg : cfg.Ok) {f g n i u g' n'} (hr : Reached P cfg g n)
    (hu : n.prims[i]? = some u) (ha : isApplicable P n.state (taskOf g.heap u) = true)
    (h : apply P cfg f g n i = some (g', n')) :
    ∃ us : List Nat, planOf n'.sol = planOf n.sol ++ taskOf g.heap u :: us.map (taskOf g.heap) ∧
      (∀ π k, NodeSol P g'.heap n' π k →
        SolvesN P ((live g.heap n).erase u) (taskOf g.heap) (TransGen (Edge g.heap))
          (P.result (holds n.state) (taskOf g.heap u)) (us.map (taskOf g.heap) ++ π) k) ∧
      (∀ π k, SolvesN P ((live g.heap n).erase u) (taskOf g.heap) (TransGen (Edge g.heap))
          (P.result (holds n.state) (taskOf g.heap u)) π k →
        ∃ π', π.Perm (us.map (taskOf g.heap) ++ π') ∧ NodeSol P g'.heap n' π' k) ∧
      (n'.reachable = false → ∀ π k,
        ¬ SolvesN P ((live g.heap n).erase u) (taskOf g.heap) (TransGen (Edge g.heap))
          (P.result (holds n.state) (taskOf g.heap u)) π k) := by
  have hn := hr.ninv hP hcfg
  have happ := isApplicable_iff.1 ha
  obtain ⟨hheap, -, n1, us, a, c⟩ := apply_chain f g n i g' n' u hu happ h
  obtain ⟨-, hg1, hl, hst, hre, -⟩ := a.inv hP hcfg hn.good
  obtain ⟨h1, h2, h3, h4⟩ := c.inv hP hcfg hg1
  obtain ⟨ps, hps, hsol, -⟩ := a.sol
  have ht : taskOf g.heap u = ps.task := by simp [taskOf, hps]
  have hN : ∀ π k, NodeSol P g.heap n1 π k ↔
      SolvesN P ((live g.heap n).erase u) (taskOf g.heap) (TransGen (Edge g.heap))
          (P.result (holds n.state) (taskOf g.heap u)) π k := by
    intro π k; unfold NodeSol; rw [hl, hst]
  rw [hheap]
  refine ⟨us, ?_, fun π k hs => (hN _ _).1 (h2 π k hs), fun π k hs => h3 π k ((hN _ _).2 hs), ?_⟩
  · have h7 : planOf n'.sol = planOf n1.sol ++ us.map (taskOf g.heap) := c.acc.2.2.2.2.1
    rw [h7, hsol, planOf_cons_action, ht]; simp
  · intro hf π k hs
    obtain ⟨π', -, hs'⟩ := h3 π k ((hN _ _).2 hs)
    exact (h4 (by simp [hre]) hf).no_sol hP h1 hs'

/-- **C05** (`decompose`).  The same for the automatic progression at the end of `decompose`;
`N` is the network after the substitution alone. -/
theorem C05_decompose (hP : P.WF) (hcfg : cfg.Ok) {f g n j u m g' n'} (hr : Reached P cfg g n)
    (hu : n.abs[j]? = some u) (hm : m ∈ methodsOf P (taskOf g.heap u))
    (h : decompose P cfg f g n j m = some (g', n')) :
    ∃ (I : Finset Nat) (us : List Nat),
      Subst P (live g.heap n) (taskOf g.heap) (TransGen (Edge g.heap)) u m g.heap.length
        I (taskOf g'.heap) (TransGen (Edge g'.heap)) ∧
      planOf n'.sol = planOf n.sol ++ us.map (taskOf g'.heap) ∧
      (∀ π k, NodeSol P g'.heap n' π k →
        SolvesN P I (taskOf g'.heap) (TransGen (Edge g'.heap)) (holds n.state)
          (us.map (taskOf g'.heap) ++ π) k) ∧
      (∀ π k, SolvesN P I (taskOf g'.heap) (TransGen (Edge g'.heap)) (holds n.state) π k →
        ∃ π', π.Perm (us.map (taskOf g'.heap) ++ π') ∧ NodeSol P g'.heap n' π' k) ∧
      (n'.reachable = false → ∀ π k,
        ¬ SolvesN P I (taskOf g'.heap) (TransGen (Edge g'.heap)) (holds n.state) π k) := by
  have hn := hr.ninv hP hcfg
  obtain ⟨g1, n1, us, hd, hheap, c⟩ := decompose_chain h
  have hm' : m < P.numMethods ∧ P.head m = taskOf g.heap u := by simpa [methodsOf] using hm
  have hg1 := decomposeBase_good hP hn.good hm'.1 hu hm'.2 hd
  obtain ⟨hh1, hok1, hst, S⟩ := decomposeBase_inv hP hn.good.heap hn.good.node hm'.1 hd hu
  obtain ⟨u', ps, cc, hu', hps, -, hext, -, -, -, -, -, hsol, -, -, -, hre, -⟩ := decomposeBase_some hd
  obtain ⟨h1, h2, h3, h4⟩ := c.inv hP hcfg hg1
  rw [hheap]
  have hN : ∀ π k, NodeSol P g1.heap n1 π k ↔
      SolvesN P (live g1.heap n1) (taskOf g1.heap) (TransGen (Edge g1.heap)) (holds n.state) π k := by
    intro π k; unfold NodeSol; rw [hst]
  refine ⟨live g1.heap n1, us, S, ?_, fun π k hs => (hN _ _).1 (h2 π k hs),
    fun π k hs => h3 π k ((hN _ _).2 hs), ?_⟩
  · have h7 : planOf n'.sol = planOf n1.sol ++ us.map (taskOf g1.heap) := c.acc.2.2.2.2.1
    rw [h7, hsol, planOf_cons_method]
  · intro hf π k hs
    obtain ⟨π', -, hs'⟩ := h3 π k ((hN _ _).2 hs)
    exact (h4 (by simp [hre]) hf).no_sol hP h1 hs'

/-- **C05** (consequence).  A reached node marked as dead has no solution; from a reached node
every solution of the network gives a solution of the problem. -/
theorem C05_solutions_extend (hP : P.WF) (hcfg : cfg.Ok) {g n} (hr : Reached P cfg g n) {π k}
    (hs : NodeSol P g.heap n π k) : IsSolution P (planOf n.sol ++ π) :=
  ⟨_, (hr.ninv hP hcfg).sound π k hs⟩

/-- A node in which an action is unconstrained is not the initial node. -/
theorem reached_sol_ne (hP : P.WF) (hcfg : cfg.Ok) {g n} {i u : Nat} (hr : Reached P cfg g n)
    (hu : n.prims[i]? = some u) : n.sol ≠ [] := by
  intro h0
  have := (hr.ninv hP hcfg).solne h0
  rw [this] at hu; simp at hu

/-- **C06** (`apply`).  Every call terminates without undefined behaviour, and the result does
not depend on the fuel. -/
theorem C06_apply_terminates (hP : P.WF) (hcfg : cfg.Ok) {g n i u} (hr : Reached P cfg g n)
    (hu : n.prims[i]? = some u) (ha : isApplicable P n.state (taskOf g.heap u) = true) :
    ∃ F r, ∀ f, F ≤ f → apply P cfg f g n i = some r := by
  have hn := hr.ninv hP hcfg
  obtain ⟨F, hF⟩ := fuel_exists hP hcfg hn.good.heap
  obtain ⟨g', n', h⟩ := hF F (Nat.le_refl _) g n i u rfl hn.good (reached_sol_ne hP hcfg hr hu) hu
    (isApplicable_iff.1 ha)
  exact ⟨F, (g', n'), fun f hf => apply_mono _ _ _ _ _ hf _ h⟩

/-- **C06** (`decompose`). -/
theorem C06_decompose_terminates (hP : P.WF) (hcfg : cfg.Ok) {g n j u m} (hr : Reached P cfg g n)
    (hu : n.abs[j]? = some u) (hm : m ∈ methodsOf P (taskOf g.heap u)) :
    ∃ F r, ∀ f, F ≤ f → decompose P cfg f g n j m = some r := by
  have hn := hr.ninv hP hcfg
  have hm' : m < P.numMethods ∧ P.head m = taskOf g.heap u := by simpa [methodsOf] using hm
  obtain ⟨F, hF⟩ := decompose_total hP hcfg hn.good hm'.1 hu hm'.2
  obtain ⟨g', n', h⟩ := hF F (Nat.le_refl _)
  exact ⟨F, (g', n'), fun f hf => decompose_mono hf _ h⟩

/-- **C07** (nodes).  In every reached node the stored costs are the costs of the actions applied
so far, the depth is the number of actions plus decompositions, and the mixed depth is the costs
plus the number of decompositions. -/
theorem C07_node_costs (hP : P.WF) (hcfg : cfg.Ok) {g n} (hr : Reached P cfg g n) :
    n.costs = P.planCost (planOf n.sol) ∧
      n.depth = (planOf n.sol).length + (n.sol.filter fun s => s.method.isSome).length ∧
      n.mixed = n.costs + (n.sol.filter fun s => s.method.isSome).length := by
  have hn := hr.ninv hP hcfg
  refine ⟨hn.costs, ?_, hn.mixed⟩
  rw [hn.depth]
  generalize n.sol = l
  induction l with
  | nil => rfl
  | cons x l ih =>
    obtain ⟨t, m, i, p, q⟩ := x
    cases m with
    | none => rw [planOf_cons_action]; simp [ih]; omega
    | some m => rw [planOf_cons_method]; simp [ih]; omega

/-- **C13.**  If task tracking is switched on, the counters of every reached node are sorted, list
exactly the tasks contained in the network, each with its number of occurrences. -/
theorem C13_task_counts (hP : P.WF) (hcfg : cfg.Ok) (ht : cfg.trackTasks = true) {g n}
    (hr : Reached P cfg g n) :
    (n.contained.map Prod.fst).Pairwise (· < ·) ∧
      (∀ t k, (t, k) ∈ n.contained ↔
        k = ((live g.heap n).filter (fun u => taskOf g.heap u = t)).card ∧ 0 < k) := by
  obtain ⟨hok, h3⟩ := (hr.ninv hP hcfg).good.counter ht
  refine ⟨hok.sorted, fun t k => ⟨fun hm => ?_, ?_⟩⟩
  · rw [← h3 t, cnt_of_mem hok hm]
    exact ⟨rfl, hok.pos _ hm⟩
  · rintro ⟨hk, hpos⟩
    rw [← h3 t] at hk
    have : t ∈ keys n.contained := (mem_keys_iff hok).2 (hk ▸ hpos)
    obtain ⟨⟨t', k'⟩, hm, rfl⟩ := List.mem_map.1 this
    rw [cnt_of_mem hok hm] at hk
    rw [hk]; exact hm

/-! ## The hypotheses can be met -/

/-- The initial node of the example, decomposed with `A -> a, B, e`; without automatic
progression. -/
def ex1 : Glob × Node := (decompose exP exCfg 9 (initNode exP exCfg).1 (initNode exP exCfg).2 0 0).get!

theorem ex1_eq : decompose exP exCfg 9 (initNode exP exCfg).1 (initNode exP exCfg).2 0 0 = some ex1 := by
  decide

theorem ex1_reached : Reached exP exCfg ex1.1 ex1.2 :=
  .dec (j := 0) (u := 0) (m := 0) .init (by decide) (by decide) ex1_eq

/-- C03, C05, C06: the node has two unconstrained actions, `a` and `e`; `a` is applied and `B`
becomes unconstrained. -/
example : ∃ g' n', ex1.2.prims[0]? = some 1 ∧ isApplicable exP ex1.2.state (taskOf ex1.1.heap 1) = true ∧
    apply exP exCfg 9 ex1.1 ex1.2 0 = some (g', n') ∧ n'.prims = [3] ∧ n'.abs = [2] :=
  ⟨_, _, by decide, by decide, rfl, by decide, by decide⟩

/-- The same with automatic progression: decomposing `A` progresses `e` immediately. -/
def ex2 : Glob × Node := (decompose exP exCfg2 9 (initNode exP exCfg2).1 (initNode exP exCfg2).2 0 0).get!

theorem ex2_eq : decompose exP exCfg2 9 (initNode exP exCfg2).1 (initNode exP exCfg2).2 0 0 = some ex2 := by
  decide

theorem ex2_reached : Reached exP exCfg2 ex2.1 ex2.2 :=
  .dec (j := 0) (u := 0) (m := 0) .init (by decide) (by decide) ex2_eq

/-- C04, C05, C07: `e` has been progressed and then `a`, since it was the only applicable action. -/
example : planOf ex2.2.sol = [3, 1] ∧ ex2.2.costs = 1 ∧ ex2.2.abs = [2] ∧ ex2.2.prims = [] := by decide

/-- C13: with task tracking. -/
def exCfg3 : Cfg := { exCfg with trackTasks := true }

example : exCfg3.trackTasks = true ∧ exCfg3.Ok ∧ Reached exP exCfg3 (initNode exP exCfg3).1 (initNode exP exCfg3).2 :=
  ⟨rfl, fun _ => List.Perm.refl _, .init⟩

end Verif.Props
