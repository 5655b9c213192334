import Verif.Rc
import Verif.Props.Reach
import Verif.Props.Relaxed

/-! # Properties C17, C48, C49: the relaxed composition heuristics -/

namespace Verif.Props

open Verif.Htn Verif.Prog Verif.TaskCounter Verif.Strips Verif.IntSets Verif.Reach Verif.Scc Verif.Rc Relation

variable {P : Problem} {cfg : Cfg} {nA nT : Nat}

/-- The situation in which the heuristic is called for node `n`: the node has been reached, and its reachability sets
have just been updated (src/Model.cpp 734-735, 1169-1170); only actions are maintained (`last` is
`numActions`, SearchEngine.cpp 227-262). -/
def Evaluated (P : Problem) (cfg : Cfg) (nA nT : Nat) (g : Glob) (n : Node) (c : Cache) : Prop :=
  ∃ junk S Rt st f st', calcSccs nT (taskAdj P) junk P.init = some S ∧ reachTable nT (taskAdj P) nA S = some Rt ∧
    Calls P cfg nA Rt g st ∧ Reached P cfg g n ∧ g.heap.length < f ∧ updateReach Rt g.heap f st n = some st' ∧
    c = st'.cache

/-- The conditions under which the theorems hold: a proper problem, and task counts are kept (SearchEngine.cpp
227-262). -/
structure RcInput (P : Problem) (cfg : Cfg) (nA nT : Nat) : Prop where
  track : cfg.trackTasks = true
  wf : P.WF
  cfg : cfg.Ok
  tasks : TasksOK P nT
  rc : RcOK P nA nT

theorem Evaluated.ready (hI : RcInput P cfg nA nT) {g n c} (h : Evaluated P cfg nA nT g n c) :
    Ready P nA nT nA g.heap n c := by
  obtain ⟨junk, S, Rt, st, f, st', h1, h2, hc, hr, hf, hu, rfl⟩ := h
  obtain ⟨S', Rt', e1, e2, hR⟩ := C14_table hI.tasks junk nA
  rw [h1] at e1
  cases e1
  rw [h2] at e2
  cases e2
  have hg := (Reached.ninv hI.wf hI.cfg hr).good
  obtain ⟨st'', e, hp, hv⟩ := updateReach_spec hg.heap (tableOK hI.wf hI.cfg hI.tasks hR hr)
    (fun u hu => (hg.node.first_min hg.heap hu).1) (hc.inv hI.wf hI.cfg hI.tasks hR) hf
  rw [hu] at e
  cases e
  exact ⟨hg.heap, hg.node, hg.counter hI.track, fun u hu => hI.tasks.lt (Reached.liveTasks hI.wf hI.cfg hr u hu),
    Nat.le_refl _, hp.inv.cache, hv⟩

variable {g : Glob} {n : Node} {c : Cache} {st st' : RcSets}

/-- The sets after the construction of the heuristic (hhRC2.h 76-78): the array of the bucket set is not initialised. -/
theorem sets_init {junk : List Bool} (hj : junk.length = P.numFacts + nA + nT) :
    SetsOK P nA nT ⟨Bucket.init junk, NoDel.init (P.numFacts + nA + nT)⟩ := by
  refine ⟨(Bucket.init_spec junk).1, ?_, NoDel.init_inv _, by simp [NoDel.init]⟩
  rw [Bucket.init, Bucket.clear_length]
  exact hj

/-! ## C17 -/

/-- C17, the classical problem: the state consists of the facts that hold and, for the actions that can be obtained by
decomposition of a step of the network, of their top-down facts; the goal consists of the goal facts and the
bottom-up facts of the tasks in the network. -/
theorem C17_encoding (hI : RcInput P cfg nA nT) (he : Evaluated P cfg nA nT g n c) (hst : SetsOK P nA nT st) :
    ∃ b g', rcS0 P nA c n st.s0 = some b ∧ rcGoal P nA n st.g = some g' ∧
      (∀ f, f ∈ b.elems ↔ holds n.state f ∨ ∃ t < nA, f = P.numFacts + t ∧ ∃ u ∈ live g.heap n, TaskReach P (taskOf g.heap u) t) ∧
      ∀ f, f ∈ g'.ints ↔ f ∈ P.goal ∨ ∃ u ∈ live g.heap n, f = P.numFacts + nA + taskOf g.heap u := by
  have hy := he.ready hI
  obtain ⟨b, g', e1, e2, -, hp⟩ := rcSets_spec hI.wf hI.rc hy.heap hy.node hy.counter hy.lab hy.le hy.cache hy.firsts hst
  exact ⟨b, g', e1, e2, hp.mem, hp.gmem⟩

/-- C17: if the classical problem of a reached node has no relaxed plan, the node has no solution. -/
theorem C17_rc_safe (hI : RcInput P cfg nA nT) (he : Evaluated P cfg nA nT g n c) (hst : SetsOK P nA nT st) (e : Est) :
    ∃ b g', rcS0 P nA c n st.s0 = some b ∧ rcGoal P nA n st.g = some g' ∧
      ((¬ ∃ ρ, SolvesRel (e.model P nA nT) b.elems g'.ints ρ) → ¬ ∃ π k, NodeSol P g.heap n π k) := by
  have hy := he.ready hI
  obtain ⟨b, g', e1, e2, -, hp⟩ := rcSets_spec hI.wf hI.rc hy.heap hy.node hy.counter hy.lab hy.le hy.cache hy.firsts hst
  refine ⟨b, g', e1, e2, fun hno ⟨π, k, hs⟩ => hno ?_⟩
  obtain ⟨⟨ρ, -, h1, -⟩, -⟩ := hp.plan (cM := e.mCost) (cA := e.aCost) hI.wf hI.rc hy.lab hs
  exact ⟨ρ, by rw [e.model_eq]; exact h1⟩

/-- The sum of the costs in the model of the heuristic. -/
def rcTotal (P : Problem) (nA nT : Nat) (e : Est) : Nat := (e.model P nA nT).total (e.model P nA nT).cost

/-- C17, with LM-cut: the computation of the value ends normally, and if the value is `UNREACHABLE`, the node has no
solution.  Hypothesis: the sum of all costs, together with the corrections for this node, is smaller than `INT_MAX`. -/
theorem C17_lmcut_safe (hI : RcInput P cfg nA nT) (pq : PQ) {U : Nat} (e : Est) (htot : rcTotal P nA nT e < U) :
    ∃ F, ∀ fuel, F ≤ fuel → ∀ correct mi g n c st, Evaluated P cfg nA nT g n c → SetsOK P nA nT st →
      (correct = true → rcTotal P nA nT e + corrSum (e.weight P nA mi) n.contained < U) →
      ∃ st' v cuts, rcValue P nA U ⟨e, correct, mi, lmCut (e.model P nA nT) pq U fuel⟩ c n st = some (st', v, cuts) ∧
        SetsOK P nA nT st' ∧ (v = U → ¬ ∃ π k, NodeSol P g.heap n π k) := by
  have hM : (e.model P nA nT).WF := by rw [e.model_eq]; exact rcModel_wf hI.wf hI.rc
  obtain ⟨F, hF⟩ := lmCut_inner pq hM htot
  refine ⟨F, fun fuel hf correct mi g n c st he hst hcor => ?_⟩
  obtain ⟨a1, a2, -, -⟩ := hF fuel hf
  have hy := he.ready hI
  obtain ⟨st', v, cuts, e1, -⟩ := rcValue_total (o := ⟨e, correct, mi, lmCut (e.model P nA nT) pq U fuel⟩) hI.wf hI.rc hy hst
    a2 a1 hcor
  refine ⟨st', v, cuts, e1, (rcValue_some hI.wf hI.rc hy hst a2 e1).1, fun hv => ?_⟩
  subst hv
  exact rcValue_safe hI.wf hI.rc hy hst a2 e1 hcor htot

/-- C17, with FF and the filter: if the value is `UNREACHABLE`, the node has no solution. -/
theorem C17_ff_filter_safe (hI : RcInput P cfg nA nT) (pq : PQ) {U : Nat} (e : Est) (htot : rcTotal P nA nT e < U)
    (cap : Nat) (rb0 : Nat → Option Nat) :
    ∃ F, ∀ fuel, F ≤ fuel → ∀ inner, inner = ffInner (e.model P nA nT) pq U cap rb0 fuel ∨
        inner = filterInner (e.model P nA nT) pq U cap rb0 fuel →
      ∀ correct mi g n c st st' cuts, Evaluated P cfg nA nT g n c → SetsOK P nA nT st →
      (correct = true → rcTotal P nA nT e + corrSum (e.weight P nA mi) n.contained < U) →
      rcValue P nA U ⟨e, correct, mi, inner⟩ c n st = some (st', U, cuts) → ¬ ∃ π k, NodeSol P g.heap n π k := by
  have hM : (e.model P nA nT).WF := by rw [e.model_eq]; exact rcModel_wf hI.wf hI.rc
  obtain ⟨F, hF⟩ := ff_inner pq hM htot cap rb0
  refine ⟨F, fun fuel hf inner hin correct mi g n c st st' cuts he hst hcor e1 => ?_⟩
  obtain ⟨a1, a2, -⟩ := hF fuel hf
  have : InnerSafe (e.model P nA nT) U inner := by
    rcases hin with rfl | rfl
    · exact a1
    · exact a2
  exact rcValue_safe (o := ⟨e, correct, mi, inner⟩) hI.wf hI.rc (he.ready hI) hst this e1 hcor htot

/-! ## C48 -/

/-- C48: the estimate of the costs with LM-cut, with or without correction, never exceeds the costs of a solution of
the node. -/
theorem C48_costs_admissible (hI : RcInput P cfg nA nT) (pq : PQ) {U : Nat} (htot : rcTotal P nA nT .costs < U) :
    ∃ F, ∀ fuel, F ≤ fuel → ∀ correct mi g n c st st' v cuts, Evaluated P cfg nA nT g n c → SetsOK P nA nT st →
      rcValue P nA U ⟨.costs, correct, mi, lmCut (Est.model P nA nT .costs) pq U fuel⟩ c n st = some (st', v, cuts) →
      ∀ π k, NodeSol P g.heap n π k → v ≤ P.planCost π := by
  have hM : (Est.model P nA nT .costs).WF := by rw [Est.model_eq]; exact rcModel_wf hI.wf hI.rc
  obtain ⟨F, hF⟩ := lmCut_inner pq hM htot
  refine ⟨F, fun fuel hf correct mi g n c st st' v cuts he hst e1 π k hs => ?_⟩
  obtain ⟨-, a2, a3, -⟩ := hF fuel hf
  exact rcValue_costs (o := ⟨.costs, correct, mi, lmCut (Est.model P nA nT .costs) pq U fuel⟩) hI.wf hI.rc (he.ready hI) hst rfl
    a2 a3 e1 hs

/-- The same for the filter. -/
theorem C48_filter_admissible (hI : RcInput P cfg nA nT) (pq : PQ) {U : Nat} (htot : rcTotal P nA nT .costs < U)
    (cap : Nat) (rb0 : Nat → Option Nat) :
    ∃ F, ∀ fuel, F ≤ fuel → ∀ correct mi g n c st st' v cuts, Evaluated P cfg nA nT g n c → SetsOK P nA nT st →
      rcValue P nA U ⟨.costs, correct, mi, filterInner (Est.model P nA nT .costs) pq U cap rb0 fuel⟩ c n st =
        some (st', v, cuts) →
      ∀ π k, NodeSol P g.heap n π k → v ≤ P.planCost π := by
  have hM : (Est.model P nA nT .costs).WF := by rw [Est.model_eq]; exact rcModel_wf hI.wf hI.rc
  obtain ⟨F, hF⟩ := ff_inner pq hM htot cap rb0
  refine ⟨F, fun fuel hf correct mi g n c st st' v cuts he hst e1 π k hs => ?_⟩
  obtain ⟨-, a2, a3⟩ := hF fuel hf
  exact rcValue_costs (o := ⟨.costs, correct, mi, filterInner (Est.model P nA nT .costs) pq U cap rb0 fuel⟩) hI.wf hI.rc
    (he.ready hI) hst rfl a2 a3 e1 hs

/-- C48: without correction, the estimate of the distance with LM-cut does not exceed the number of actions and
decompositions of a solution. -/
theorem C48_distance (hI : RcInput P cfg nA nT) (pq : PQ) {U : Nat} (htot : rcTotal P nA nT .distance < U) :
    ∃ F, ∀ fuel, F ≤ fuel → ∀ mi g n c st st' v cuts, Evaluated P cfg nA nT g n c → SetsOK P nA nT st →
      rcValue P nA U ⟨.distance, false, mi, lmCut (Est.model P nA nT .distance) pq U fuel⟩ c n st = some (st', v, cuts) →
      ∀ π k, NodeSol P g.heap n π k → v ≤ π.length + k := by
  have hM : (Est.model P nA nT .distance).WF := by rw [Est.model_eq]; exact rcModel_wf hI.wf hI.rc
  obtain ⟨F, hF⟩ := lmCut_inner pq hM htot
  refine ⟨F, fun fuel hf mi g n c st st' v cuts he hst e1 π k hs => ?_⟩
  obtain ⟨-, a2, a3, -⟩ := hF fuel hf
  have := rcValue_plain (o := ⟨.distance, false, mi, lmCut (Est.model P nA nT .distance) pq U fuel⟩) hI.wf hI.rc (he.ready hI)
    hst (.inl rfl) a2 a3 e1 hs
  simpa [Est.aCost, Est.mCost] using this

/-- C48: the mixed estimate does not exceed the costs plus the number of decompositions of a solution. -/
theorem C48_mixed (hI : RcInput P cfg nA nT) (pq : PQ) {U : Nat} (htot : rcTotal P nA nT .mixed < U) :
    ∃ F, ∀ fuel, F ≤ fuel → ∀ correct mi g n c st st' v cuts, Evaluated P cfg nA nT g n c → SetsOK P nA nT st →
      rcValue P nA U ⟨.mixed, correct, mi, lmCut (Est.model P nA nT .mixed) pq U fuel⟩ c n st = some (st', v, cuts) →
      ∀ π k, NodeSol P g.heap n π k → v ≤ P.planCost π + k := by
  have hM : (Est.model P nA nT .mixed).WF := by rw [Est.model_eq]; exact rcModel_wf hI.wf hI.rc
  obtain ⟨F, hF⟩ := lmCut_inner pq hM htot
  refine ⟨F, fun fuel hf correct mi g n c st st' v cuts he hst e1 π k hs => ?_⟩
  obtain ⟨-, a2, a3, -⟩ := hF fuel hf
  have := rcValue_plain (o := ⟨.mixed, correct, mi, lmCut (Est.model P nA nT .mixed) pq U fuel⟩) hI.wf hI.rc (he.ready hI)
    hst (.inr rfl) a2 a3 e1 hs
  simpa [Est.aCost, Est.mCost] using this

/-! ## C49 -/

/-- C49: every cut stored by the heuristic with LM-cut is transformed without an access outside the array; the result
lists actions up to `firstMethod` and methods (with their numbers in the HTN model) from there on; every way
to solve the node executes one of these actions or uses one of these methods. -/
theorem C49_cuts_are_landmarks (hI : RcInput P cfg nA nT) (pq : PQ) {U : Nat} (e : Est) (htot : rcTotal P nA nT e < U) :
    ∃ F, ∀ fuel, F ≤ fuel → ∀ correct mi g n c st st' v cuts, Evaluated P cfg nA nT g n c → SetsOK P nA nT st →
      rcValue P nA U ⟨e, correct, mi, lmCut (e.model P nA nT) pq U fuel⟩ c n st = some (st', v, cuts) →
      ∀ cut ∈ cuts, ∃ k l, splitCut nA cut = some (k, l) ∧ k ≤ l.length ∧
        ∀ tr occ π s', LinNet P (live g.heap n) (taskOf g.heap) (TransGen (Edge g.heap)) tr occ π →
          Exec P (holds n.state) π s' → P.GoalState s' →
          (∃ a ∈ l.take k, a ∈ π) ∨ ∃ m ∈ l.drop k, ∃ u ∈ live g.heap n, Uses P (tr u) m := by
  have hM : (e.model P nA nT).WF := by rw [e.model_eq]; exact rcModel_wf hI.wf hI.rc
  obtain ⟨F, hF⟩ := lmCut_inner pq hM htot
  refine ⟨F, fun fuel hf correct mi g n c st st' v cuts he hst e1 cut hc => ?_⟩
  obtain ⟨-, a2, -, a4⟩ := hF fuel hf
  obtain ⟨k, l, h1, h2, -, h3⟩ := rcCuts_spec (o := ⟨e, correct, mi, lmCut (e.model P nA nT) pq U fuel⟩) hI.wf hI.rc
    (he.ready hI) hst a2 a4 e1 hc
  exact ⟨k, l, h1, h2, h3⟩

/-! ## Examples -/

/-- Actions 0 = `b` (makes fact 0 true) and 1 = `c` (needs fact 0, makes the goal fact 1 true); task 2 = `I` (initial), 3 = `A`;
methods `I -> A, A`, `A -> b` and `A -> c`. -/
def rcP : Problem where
  numFacts := 2
  prim t := decide (t < 2)
  prec t := if t = 1 then [0] else []
  add t := if t = 0 then [0] else if t = 1 then [1] else []
  del _ := []
  cost t := if t = 0 then 2 else 3
  numMethods := 3
  head m := if m = 0 then 2 else 3
  sub m := if m = 0 then [3, 3] else if m = 1 then [0] else [1]
  ord _ := []
  init := 2
  s0 := []
  goal := [1]

/-- No automatic progression; task counts are kept. -/
def rcCfg : Cfg where
  effLess := false
  oneMod := false
  trackTasks := true
  perm := id

theorem rcP_wf : rcP.WF where
  ord_lt := by intro m _ i j h; simp [rcP] at h
  ord_acyclic := by intro m _; exact ⟨id, fun i j h => by simp [rcP] at h⟩
  sub_ne := by intro m _; simp only [rcP]; split_ifs <;> simp
  head_abs := by intro m _; simp only [rcP]; split_ifs <;> simp
  init_abs := by decide
  prec_lt := by intro a f h; simp only [rcP] at h ⊢; split_ifs at h <;> simp_all
  add_lt := by intro a f h; simp only [rcP] at h ⊢; split_ifs at h <;> simp_all
  del_lt := by intro a f h; simp [rcP] at h
  s0_lt := by simp [rcP]
  goal_lt := by simp [rcP]

theorem rcP_tasks : TasksOK rcP 4 where
  init_lt := by decide
  sub_lt := by decide
  reach := by
    have h3 : TaskReach rcP rcP.init 3 := .single ⟨0, by decide, rfl, by decide⟩
    intro t ht
    rcases (by omega : t = 0 ∨ t = 1 ∨ t = 2 ∨ t = 3) with rfl | rfl | rfl | rfl
    · exact h3.tail ⟨1, by decide, rfl, by decide⟩
    · exact h3.tail ⟨2, by decide, rfl, by decide⟩
    · exact .refl
    · exact h3

theorem rcP_input : RcInput rcP rcCfg 2 4 where
  track := rfl
  wf := rcP_wf
  cfg := fun _ => List.Perm.refl _
  tasks := rcP_tasks
  rc := {
    le := by decide
    prim := fun _ _ => rfl
    init_lt := by decide
    head_lt := by decide
    sub_lt := by decide
    prec_nodup := by decide }

/-- The initial node, decomposed by `I -> A, A`, its sets, and value and cuts for it. -/
def rcRun (P : Problem) (nA nT : Nat) (U : Nat) (o : RcOpt) : Option (Nat × List (List Nat)) := do
  let S ← calcSccs nT (taskAdj P) (fun _ => 0) P.init
  let Rt ← reachTable nT (taskAdj P) nA S
  let (g, n) ← decompose P rcCfg 20 (initNode P rcCfg).1 (initNode P rcCfg).2 0 0
  let st ← updateReach Rt g.heap (g.heap.length + 1) ⟨fun _ => none, NoDel.init nA⟩ n
  let r ← rcValue P nA U o st.cache n ⟨Bucket.init (List.replicate (P.numFacts + nA + nT) true), NoDel.init (P.numFacts + nA + nT)⟩
  return r.2

/-- The decomposition that solves the problem. -/
def rcTree : Tree := .node 0 fun i => if i = 0 then .node 1 fun _ => .leaf 0 else .node 2 fun _ => .leaf 1

theorem rcP_leaf (p : List Nat) (a : Nat) : LeafAt rcP rcTree p a ↔ (p, a) = ([0, 0], 0) ∨ (p, a) = ([1, 0], 1) := by
  constructor
  · intro h
    rcases h with _ | ⟨hi, h⟩
    rename_i i p
    have hi : i < 2 := hi
    rcases (by omega : i = 0 ∨ i = 1) with rfl | rfl
    · rcases h with _ | ⟨hj, h⟩
      rename_i j p
      have hj : j < 1 := hj
      obtain rfl : j = 0 := by omega
      cases h
      exact .inl rfl
    · rcases h with _ | ⟨hj, h⟩
      rename_i j p
      have hj : j < 1 := hj
      obtain rfl : j = 0 := by omega
      cases h
      exact .inr rfl
  · rintro (h | h) <;> cases h
    · exact .child (by decide) (.child (by decide) .here)
    · exact .child (by decide) (.child (by decide) .here)

theorem rcP_solution : IsSolutionN rcP [0, 1] 3 := by
  refine ⟨rcTree, ?_, by decide, ⟨[[0, 0], [1, 0]], by decide, fun p => ?_, ?_, ?_⟩, rcP.result (rcP.result rcP.initState 0) 1, ?_, ?_⟩
  · refine Valid.node (P := rcP) (m := 0) (by decide) fun i t h => ?_
    have h : [3, 3][i]? = some t := h
    rcases i with _ | _ | i <;> simp at h
    · subst h
      refine Valid.node (P := rcP) (m := 1) (by decide) fun i t h => ?_
      have h : [0][i]? = some t := h
      rcases i with _ | i <;> simp at h
      subst h; exact Valid.leaf rfl
    · subst h
      refine Valid.node (P := rcP) (m := 2) (by decide) fun i t h => ?_
      have h : [1][i]? = some t := h
      rcases i with _ | i <;> simp at h
      subst h; exact Valid.leaf rfl
  · simp only [rcP_leaf]
    constructor
    · intro h
      rcases List.mem_cons.1 h with rfl | h
      · exact ⟨0, .inl rfl⟩
      · rw [List.mem_singleton] at h
        subst h
        exact ⟨1, .inr rfl⟩
    · rintro ⟨a, h | h⟩ <;> cases h <;> simp
  · refine List.pairwise_cons.2 ⟨fun q hq hb => ?_, List.pairwise_singleton _ _⟩
    rw [List.mem_singleton] at hq
    subst hq
    cases hb with
    | diff h =>
      rcases TransGen.head'_iff.1 h with ⟨_, h, -⟩
      simp [Problem.OrdRel, rcP] at h
  · exact .cons ((rcP_leaf _ _).2 (.inl rfl)) (.cons ((rcP_leaf _ _).2 (.inr rfl)) .nil)
  · exact .cons (fun f h => by simp [rcP] at h) (.cons (fun f h => .inl h) (.nil _))
  · intro f h; exact .inl h

/-- The node reached by `I -> A, A` is solved by two decompositions and at most two actions. -/
theorem rcP_node {g n} (h : decompose rcP rcCfg 20 (initNode rcP rcCfg).1 (initNode rcP rcCfg).2 0 0 = some (g, n)) :
    Reached rcP rcCfg g n ∧ ∃ π, π.length ≤ 2 ∧ NodeSol rcP g.heap n π 2 := by
  have hu : (initNode rcP rcCfg).2.abs[0]? = some 0 := by decide
  have hm : 0 ∈ methodsOf rcP (taskOf (initNode rcP rcCfg).1.heap 0) := by decide
  obtain ⟨hn, hs⟩ := init_ninv (P := rcP) (cfg := rcCfg) rcP_wf
  refine ⟨.dec .init hu hm h, ?_⟩
  obtain ⟨-, -, -, -, hc⟩ := decompose_step rcP_wf rcP_input.cfg hn hu hm h
  have hlive : 0 ∈ live (initNode rcP rcCfg).1.heap (initNode rcP rcCfg).2 :=
    (mem_live hn.good.heap fun w hw => hn.good.node.lt w hw).2 ⟨0, by decide, .refl⟩
  obtain ⟨m, h1, h2, -, h3⟩ := SolvesN.to_subst hlive (by decide) ((hs _ _).2 rcP_solution)
  have h2 : (if m = 0 then 2 else 3) = 2 := h2
  obtain rfl : m = 0 := by
    by_contra h0
    rw [if_neg h0] at h2; omega
  obtain ⟨π, h4, h5, -⟩ := hc [0, 1] 2 h3
  exact ⟨π, h5, h4⟩

/-- The hypotheses of the theorems hold for this node, which has a solution. -/
example : ∃ g n c, Evaluated rcP rcCfg 2 4 g n c ∧ (∃ π k, NodeSol rcP g.heap n π k) ∧
    SetsOK rcP 2 4 ⟨Bucket.init (List.replicate 8 true), NoDel.init 8⟩ ∧
    rcTotal rcP 2 4 .costs + corrSum (Est.costs.weight rcP 2 fun _ => 0) n.contained < 2147483647 := by
  cases h : decompose rcP rcCfg 20 (initNode rcP rcCfg).1 (initNode rcP rcCfg).2 0 0 with
  | none =>
    have : (decompose rcP rcCfg 20 (initNode rcP rcCfg).1 (initNode rcP rcCfg).2 0 0).isSome = true := by decide +kernel
    rw [h] at this; cases this
  | some x =>
    obtain ⟨g, n⟩ := x
    obtain ⟨hr, π, -, hs⟩ := rcP_node h
    obtain ⟨S, Rt, h1, h2, -⟩ := C14_table rcP_tasks (fun _ => 0) 2
    have hc : Calls rcP rcCfg 2 Rt g ⟨fun _ => none, NoDel.init 2⟩ := .dec .start .init (u := 0) (by decide) (by decide) h
    obtain ⟨st', h3, -⟩ := C14_reachability_sets rcP_wf rcP_input.cfg rcP_tasks h1 h2 hc hr (Nat.lt_succ_self _)
    refine ⟨g, n, _, ⟨_, S, Rt, _, _, st', h1, h2, hc, hr, Nat.lt_succ_self _, h3, rfl⟩, ⟨π, 2, hs⟩, sets_init rfl, ?_⟩
    have : (decompose rcP rcCfg 20 (initNode rcP rcCfg).1 (initNode rcP rcCfg).2 0 0).map (fun x => x.2.contained) =
        some [(3, 2)] := by decide +kernel
    rw [h] at this
    simp only [Option.map_some, Option.some.injEq] at this
    rw [this]
    decide +kernel

/-- Value and cuts for this node: costs 2 and 3 of both actions; two landmarks. -/
example : rcRun rcP 2 4 2147483647 ⟨.costs, true, fun _ => 0, lmCut (Est.model rcP 2 4 .costs) (heapPQ 8) 2147483647 100⟩ =
    some (5, [[1], [0]]) := by decide +kernel

/-- With FF and with the filter. -/
example : rcRun rcP 2 4 2147483647
    ⟨.distance, false, fun _ => 0, ffInner (Est.model rcP 2 4 .distance) (heapPQ 8) 2147483647 50 (fun _ => none) 100⟩ =
    some (3, []) := by decide +kernel

example : rcRun rcP 2 4 2147483647
    ⟨.distance, false, fun _ => 0, filterInner (Est.model rcP 2 4 .distance) (heapPQ 8) 2147483647 50 (fun _ => none) 100⟩ =
    some (0, []) := by decide +kernel

/-- With the goal unreachable: value `UNREACHABLE`. -/
example : rcRun { rcP with goal := [1, 0], add := fun _ => [] } 2 4 2147483647
    ⟨.distance, true, fun _ => 1, lmCut (Est.model { rcP with goal := [1, 0], add := fun _ => [] } 2 4 .distance) (heapPQ 8)
      2147483647 100⟩ = some (2147483647, []) := by decide +kernel

/-- The transformation of cuts: only methods; only actions; both. -/
example : splitCut 2 [4, 3] = some (0, [1, 2]) ∧ splitCut 2 [1] = some (1, [1]) ∧
    splitCut 5 [9, 4, 0, 6, 1] = some (3, [0, 1, 4, 1, 4]) := by decide +kernel

/-- The minimal implied distances, as computed by `calcMinimalImpliedX`. -/
example : ((MinImplied.iter 2147483647 rcP 40 (MinImplied.start rcP 2, MinImplied.startQueue rcP 2)).map fun r =>
    ((List.range 4).map r.1.td, r.2)) = some ([1, 1, 5, 2], []) := by decide +kernel

/-- The estimate of the distance with correction (the minimal implied distance of `A` is 2) is not a lower bound: it
is 5 for a node with a solution of at most 2 actions and 2 decompositions. -/
theorem C48_distance_correction_violated :
    rcRun rcP 2 4 2147483647 ⟨.distance, true, fun t => [1, 1, 5, 2].getD t 0,
      lmCut (Est.model rcP 2 4 .distance) (heapPQ 8) 2147483647 100⟩ = some (5, [[1], [3, 4], [0]]) ∧
    ∀ g n, decompose rcP rcCfg 20 (initNode rcP rcCfg).1 (initNode rcP rcCfg).2 0 0 = some (g, n) →
      ∃ π k, NodeSol rcP g.heap n π k ∧ π.length + k < 5 := by
  refine ⟨by decide +kernel, fun g n h => ?_⟩
  obtain ⟨-, π, h1, h2⟩ := rcP_node h
  exact ⟨π, 2, h2, by omega⟩

end Verif.Props
