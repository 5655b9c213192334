import Verif.DofExact
import Verif.Props.Dof

/-! # Property C73: the value of the delete- and order-free heuristic is the cost of a cheapest delete- and order-free solution -/

namespace Verif.Props

open Verif.Htn Verif.Prog Verif.TaskCounter Verif.Strips Verif.IntSets Verif.Reach Verif.Scc Verif.Rc Verif.AO Verif.PG Verif.Dof Relation

variable {P : Problem} {cfg : Cfg} {nA nT : Nat} {g : Glob} {n : Node} {pq : PQ} {U : Nat}

/-- The solutions of a node if delete effects and all orderings are ignored. -/
def RelaxSol (P : Problem) (h : Heap) (n : Node) (π : List Nat) (k : Nat) : Prop :=
  SolvesN (relax P) (live h n) (taskOf h) (fun _ _ => False) (holds n.state) π k

/-- What a solution costs: the sum of the action costs, or the number of actions and methods. -/
def solCost (P : Problem) (cf : Conf) (π : List Nat) (k : Nat) : Nat := if cf.optimal then (π.map P.cost).sum else π.length + k

/-- Every solution is one of the relaxation. -/
theorem nodeSol_relax {π : List Nat} {k : Nat} (h : NodeSol P g.heap n π k) : RelaxSol P g.heap n π k := by
  obtain ⟨tr, occ, hl, hi, s', hex, hgo⟩ := solvesN_iff.1 h
  exact solvesN_relax.2 ⟨tr, exec_relaxed hl hex hgo, hi⟩

theorem pg_sets (hI : RcInput P cfg nA nT) (hr : Reached P cfg g n) (hU : 0 < U) (hc : ∀ a < nA, P.cost a < U) {ri : Nat → Bool}
    {fuel : Nat} {r : PgRes} (h : pgCalc P nA nT pq U (stateOf n) ri fuel = .done r) : PgSets P nA nT (holds n.state) r := by
  obtain ⟨-, -, -, h4, h5, h6, -⟩ := C60_done hI.wf hI.rc hU hc (state_lt hI hr) h
  have le := hI.rc.le
  refine ⟨pgCalc_shape hI.wf hI.rc h, fun t ht => ?_, fun m hm => ?_, fun f => ?_⟩
  · cases (h4 t).1 ht with
    | base h => omega
    | meth hm _ _ => exact hI.rc.head_lt _ hm
  · obtain ⟨q1, q2, q3⟩ := (h5 m).1 hm
    exact ⟨q1, (h4 _).2 (.meth q1 q2 fun t ht => (h4 t).1 (q3 t ht)), q3⟩
  · rw [h6 f]
    have : stateOf n f = false ↔ ¬ holds n.state f := by rw [← stateOf_iff, Bool.not_eq_true]
    exact and_congr_left fun _ => this

/-- The planning graph keeps the solutions of the relaxation. -/
theorem relaxed_fits (hI : RcInput P cfg nA nT) (hr : Reached P cfg g n) (hU : 0 < U) (hc : ∀ a < nA, P.cost a < U) {ri : Nat → Bool}
    {fuel : Nat} {r : PgRes} (h : pgCalc P nA nT pq U (stateOf n) ri fuel = .done r) {tr : Nat → Htn.Tree} {π : List Nat}
    (hrel : Relaxed P (live g.heap n) (taskOf g.heap) (holds n.state) tr π) (hri : ∀ u ∈ live g.heap n, ∀ t, TaskIn P (tr u) t → ri t = true) :
    Dof.Fits P nA nT (live g.heap n) (holds n.state) tr r ∧ ∀ f ∈ P.goal, r.hP f ≠ U := by
  obtain ⟨h1, h2, -, h4, h5, h6, -⟩ := C60_done hI.wf hI.rc hU hc (state_lt hI hr) h
  have hset := pg_sets hI hr hU hc h
  have hleaf : ∀ {u p a}, u ∈ live g.heap n → LeafAt P (tr u) p a → a ∈ π := by
    intro u p a hu hl
    rw [hrel.perm.mem_iff]
    simp only [List.mem_flatMap, Finset.mem_toList, List.mem_map, Prod.exists]
    exact ⟨u, hu, p, a, mem_leaves.2 hl, rfl⟩
  have hπ : ∀ a ∈ π, a < nA ∧ ri a = true := by
    intro a ha
    have hp := hrel.prim ha
    rw [hrel.perm.mem_iff] at ha
    simp only [List.mem_flatMap, Finset.mem_toList, List.mem_map, Prod.exists] at ha
    obtain ⟨u, hu, p, b, hl, rfl⟩ := ha
    have hin := LeafAt.taskIn (mem_leaves.1 hl)
    refine ⟨?_, hri u hu _ hin⟩
    have := hI.rc.prim b (TaskIn.lt hI.rc (hrel.valid _ hu) (live_lt hI hr _ hu) b hin)
    rw [hp] at this
    simpa using this.symm
  have hA : ∀ π₁ π₂, π = π₁ ++ π₂ → ∀ a ∈ π₁, RelA P nA (stateOf n) ri a := by
    intro π₁
    induction π₁ using List.reverseRecOn with
    | nil => simp
    | append_singleton π₁ a ih =>
      intro π₂ e b hb
      have ih' := ih (a :: π₂) (by rw [e]; simp)
      rcases List.mem_append.1 hb with hb | hb
      · exact ih' b hb
      · rw [List.mem_singleton] at hb
        subst hb
        refine ⟨(hπ b (by rw [e]; simp)).1, (hπ b (by rw [e]; simp)).2, fun f hf => ?_⟩
        rcases hrel.prec π₁ b π₂ (by rw [e]; simp) f hf with hs | ⟨c, hc, hadd⟩
        · exact .init (hI.wf.prec_lt b f hf) (stateOf_iff.2 hs)
        · obtain ⟨a1, a2, a3⟩ := ih' c hc
          exact .act a1 a2 a3 hadd
  have hA' : ∀ a ∈ π, RelA P nA (stateOf n) ri a := hA π [] (by simp)
  obtain ⟨m1, m2⟩ := RelT.mem h2 h5 h4
  have htree := fun u hu => tree_rel (base := RelA P nA (stateOf n) ri) (hrel.valid u hu) (fun p a hl => hA' a (hleaf hu hl)) (hri u hu)
  refine ⟨⟨hset.shape, fun t ht => ?_, fun m hm => ?_, hset.task_lt, fun m hm => (hset.meth m hm).1, fun f hf => ((hset.useful f).1 hf).1⟩, fun f hf => ?_⟩
  · obtain ⟨u, hu, ht⟩ := numT_iff.1 ht
    exact m1 t ((htree u hu).2.1 t ht)
  · obtain ⟨u, hu, hm⟩ := numM_iff.1 hm
    exact m2 m ((htree u hu).2.2 m hm)
  · rcases hrel.goal f hf with hs | ⟨b, hb, hadd⟩
    · exact h1 f (.init (hI.wf.goal_lt f hf) (stateOf_iff.2 hs))
    · obtain ⟨a1, a2, a3⟩ := hA' b hb
      exact h1 f (.act a1 a2 a3 hadd)

theorem sccs_ok (hI : RcInput P cfg nA nT) {junk : Nat → Nat} {S : Sccs} (hS : calcSccs nT (taskAdj P) junk P.init = some S) : SccsOK nT (taskAdj P) S := by
  obtain ⟨S', e, h⟩ := calcSccs_spec hI.tasks.adj_lt junk hI.tasks.init_lt fun t ht => R_iff.2 (hI.tasks.reach t ht)
  rw [hS] at e
  cases e
  exact h

/-- C73: with the full constraints for planning graph and hierarchy (and any of the others), if the integer program has a
solution, the value is the cost of a solution of the node without delete effects and orderings. -/
theorem C73_value_is_relaxed_cost (hI : RcInput P cfg nA nT) {junk : Nat → Nat} {S : Sccs} (hS : calcSccs nT (taskAdj P) junk P.init = some S)
    (hU : 0 < U) (hc : ∀ a < nA, P.cost a < U) {vars : List (Nat × Nat)} {cf : Conf} (hpg : cf.pg = .full) (ht : cf.tdgFull = true)
    {fuel : Nat} {c : Reach.Cache} {st : RcSets} {v : Nat} (he : EvaluatedL P cfg nT nT g n c) (hrun : DofRun P nA nT U pq S vars cf true fuel c n st v)
    (hv : v ≠ U) : ∃ π k, RelaxSol P g.heap n π k ∧ v = solCost P cf π k := by
  have hilp : ∀ cs, IlpRun P nA nT U pq S vars cf true c n cs v → ∃ π k, RelaxSol P g.heap n π k ∧ v = solCost P cf π k := by
    rintro cs ⟨l, r, fl, h1, h2, h3⟩
    have htest : dofTest P nA nT pq U c fl n = .done (dofVerdict P U n r) := by
      unfold dofTest
      have h2' : pgCalc P nA nT pq U (fun f => n.state[f]?.getD false) (fun t => decide (t ∈ l)) fl = .done r := h2
      rw [h1]
      simp only [h2']
    cases e : dofVerdict P U n r with
    | unreach => rw [e] at h3; exact absurd h3 hv
    | zero =>
      rw [e] at h3 htest
      obtain ⟨hf, hg⟩ := isGoal_iff.1 ((C61_zero_iff_goal hI hI.rc.le hU hc he htest).1 rfl)
      have hempty : live g.heap n = ∅ := Finset.eq_empty_of_forall_notMem ((live_empty hI he.reached).2 hf)
      refine ⟨[], 0, solvesN_relax.2 ⟨fun _ => .leaf 0, ⟨fun u hu => by rw [hempty] at hu; simp at hu, by rw [hempty]; simp, fun π₁ a π₂ e => by simp at e,
        fun f hf => .inl (hg f hf)⟩, by rw [hempty]; simp⟩, ?_⟩
      rw [show v = 0 from h3]
      simp [solCost]
    | ilp =>
      rw [e] at h3
      obtain ⟨L, o, -, -, h5, rfl⟩ := h3
      cases o with
      | none => exact absurd rfl hv
      | some w =>
        obtain ⟨x, hx, hobj⟩ := h5.1
        have hset := pg_sets hI he.reached hU hc h2
        have hcount := (Reached.ninv hI.wf hI.cfg he.reached).good.counter hI.track
        have hlab : ∀ u ∈ live g.heap n, taskOf g.heap u ∈ r.tasks := by
          intro u hu
          unfold dofVerdict at e
          split_ifs at e with q1 q2 q3
          have hk := (contained_keys hcount (taskOf g.heap u)).2 ⟨u, hu, rfl⟩
          by_contra hn
          exact q2 (List.any_eq_true.2 ⟨_, hk, decide_eq_true hn⟩)
        obtain ⟨tr, π, hrel, hfit, hua, hme⟩ := feas_relaxed hx rfl hI.wf hI.rc (sccs_ok hI hS) hset hpg ht (tnCount_eq hcount) hlab
        refine ⟨π, _, solvesN_relax.2 ⟨tr, hrel, rfl⟩, ?_⟩
        have hpt := objective_pt (S := S) (lab := taskOf g.heap) hI.wf hI.rc hrel hfit (cf := cf)
        have heq : eval x (objective P nA cf r) = eval (pt P nA nT S (live g.heap n) (taskOf g.heap) tr π) (objective P nA cf r) := by
          unfold objective
          rw [eval_append, eval_append, eval_map, eval_map]
          congr 1
          · refine congrArg List.sum (List.map_congr_left fun a ha => ?_)
            rw [hua a (hset.shape.mem_acts.1 ha).1]
            rfl
          · split_ifs
            · rfl
            · rw [eval_map, eval_map]
              refine congrArg List.sum (List.map_congr_left fun m hm => ?_)
              rw [hme m (mem_meths.1 hm)]
              rfl
        have hw : w = ((solCost P cf π (∑ u ∈ live g.heap n, (tr u).inner P) : Nat) : ℚ) := by
          rw [← hobj]
          exact heq.trans hpt
        rw [hw]
        simp only [result]
        have : ⌊((solCost P cf π (∑ u ∈ live g.heap n, (tr u).inner P) : Nat) : ℚ) + 1 / 2⌋ = (solCost P cf π (∑ u ∈ live g.heap n, (tr u).inner P) : Nat) := by
          rw [Int.floor_eq_iff]
          push_cast
          constructor <;> linarith
        rw [this]
        simp
  unfold DofRun at hrun
  split_ifs at hrun with hl
  · obtain ⟨mi, st'', w, cuts, e1, hrun⟩ := hrun
    split_ifs at hrun with hw
    · exact absurd hrun hv
    · obtain ⟨cs, -, hrun⟩ := hrun
      exact hilp cs hrun
  · exact hilp [] hrun

/-- C73: without landmarks and net change, and as long as no task occurs more than 100 times, no solution without delete effects and
orderings is cheaper than the value.  Full claim: the same without the bound, which is false (`C72_hundred_violated`). -/
theorem C73_minimal_partial (hI : RcInput P cfg nA nT) {junk : Nat → Nat} {S : Sccs} (hS : calcSccs nT (taskAdj P) junk P.init = some S)
    (hU : 0 < U) (hc : ∀ a < nA, P.cost a < U) {vars : List (Nat × Nat)} {cf : Conf} (hao : cf.ao = .none) (hlmc : cf.lmc = false) (hnc : cf.nc = false)
    {ints : Bool} {fuel : Nat} {c : Reach.Cache} {st : RcSets} {v : Nat} (he : EvaluatedL P cfg nT nT g n c)
    (hrun : DofRun P nA nT U pq S vars cf ints fuel c n st v) {tr : Nat → Htn.Tree} {π : List Nat}
    (hrel : Relaxed P (live g.heap n) (taskOf g.heap) (holds n.state) tr π) (h100 : ∀ t, numT P (live g.heap n) tr t ≤ 100)
    (hsz : π.length + ∑ u ∈ live g.heap n, (tr u).inner P ≤ U) :
    v ≤ solCost P cf π (∑ u ∈ live g.heap n, (tr u).inner P) := by
  unfold DofRun at hrun
  rw [if_neg (by rw [hlmc]; decide)] at hrun
  obtain ⟨l, r, fl, h1, h2, h3⟩ := hrun
  obtain ⟨l', k1, k2⟩ := riOf_ready (he.ready hI hI.rc.le)
  rw [h1] at k1
  cases k1
  have hri : ∀ u ∈ live g.heap n, ∀ t, TaskIn P (tr u) t → decide (t ∈ l) = true := by
    intro u hu t ht
    have hv := hrel.valid u hu
    exact decide_eq_true ((k2 t).2 ⟨TaskIn.lt hI.rc hv (live_lt hI he.reached u hu) t ht, u, hu, TaskIn.reach hv t ht⟩)
  obtain ⟨hfit, hgo⟩ := relaxed_fits hI he.reached hU hc h2 hrel hri
  have hcount := (Reached.ninv hI.wf hI.cfg he.reached).good.counter hI.track
  cases e : dofVerdict P U n r with
  | unreach =>
    exfalso
    unfold dofVerdict at e
    split_ifs at e with q1 q2 q3
    · obtain ⟨f, hf, h⟩ := List.any_eq_true.1 q1
      exact hgo f hf (of_decide_eq_true h)
    · obtain ⟨t, ht, h⟩ := List.any_eq_true.1 q2
      obtain ⟨u, hu, rfl⟩ := (contained_keys hcount t).1 ht
      exact of_decide_eq_true h (hfit.task _ (numT_root hrel.valid hu))
  | zero =>
    rw [e] at h3
    rw [show v = 0 from h3]
    exact Nat.zero_le _
  | ilp =>
    rw [e] at h3
    obtain ⟨L, o, -, -, h5, rfl⟩ := h3
    refine result_le (x := pt P nA nT S (live g.heap n) (taskOf g.heap) tr π) h5 ⟨fun d hd => ⟨Nat.cast_nonneg _, ?_⟩, fun _ d _ => ⟨(asg P nA nT S (live g.heap n) (taskOf g.heap) tr π d.var : Nat), by
      simp [pt]⟩, fun c hcc => ?_⟩ (objective_pt hI.wf hI.rc hrel hfit)
    · exact (Nat.cast_le (α := ℚ)).2 (bounds_hold hI.wf hI.rc hrel hfit hsz hU d hd)
    · simp only [prog, hao, hlmc, hnc, List.mem_append] at hcc
      rcases hcc with ((((((hcc | hcc) | hcc) | hcc) | hcc) | hcc) | hcc) | hcc
      · split_ifs at hcc with e
        · simp at hcc
        · exact consPg_holds hI.wf hI.rc hrel hfit (fun a _ => h100 a) c hcc
      · split_ifs at hcc with e
        · exact consTime_holds hI.wf hI.rc hrel hfit c hcc
        · simp at hcc
      · exact consTasks_holds hI.rc hrel.valid hfit (tnCount_eq hcount) c hcc
      · split_ifs at hcc with e
        · obtain ⟨d, -, hcc⟩ := List.mem_flatMap.1 hcc
          exact consScc_holds (sccs_ok hI hS) hI.rc hrel.valid hfit (tnCount_eq hcount) h100 c hcc
        · simp at hcc
      · simp at hcc
      · simp at hcc
      · simp at hcc
      · simp at hcc

theorem numT_le_size {I : Finset Nat} {lab : Nat → Nat} {s : State} {tr : Nat → Htn.Tree} {π : List Nat} (hP : P.WF) (h : Relaxed P I lab s tr π) (t : Nat) :
    numT P I tr t ≤ π.length + ∑ u ∈ I, (tr u).inner P := by
  by_cases hp : P.prim t = true
  · rw [← h.count hP hp]
    have := List.count_le_length (a := t) (l := π)
    omega
  · rw [numT_decomposed h.valid (by simpa using hp), inner_sum h.valid]
    have := Finset.sum_le_sum_of_subset (f := numM P I tr) (Finset.filter_subset (fun m => P.head m = t) (Finset.range P.numMethods))
    omega

/-- C73, both directions for relaxed solutions with at most 100 actions and methods. -/
theorem C73_exact_partial (hI : RcInput P cfg nA nT) {junk : Nat → Nat} {S : Sccs} (hS : calcSccs nT (taskAdj P) junk P.init = some S)
    (hU : 100 < U) (hc : ∀ a < nA, P.cost a < U) {vars : List (Nat × Nat)} {opt : Bool}
    {fuel : Nat} {c : Reach.Cache} {st : RcSets} {v : Nat} (he : EvaluatedL P cfg nT nT g n c)
    (hrun : DofRun P nA nT U pq S vars ⟨opt, true, .full, .none, false, false⟩ true fuel c n st v) :
    (v ≠ U → ∃ π k, RelaxSol P g.heap n π k ∧ v = if opt then (π.map P.cost).sum else π.length + k) ∧
      ∀ π k, RelaxSol P g.heap n π k → π.length + k ≤ 100 → v ≤ if opt then (π.map P.cost).sum else π.length + k := by
  refine ⟨fun hv => C73_value_is_relaxed_cost hI hS (by omega) hc rfl rfl he hrun hv, fun π k hk hsz => ?_⟩
  obtain ⟨tr, hrel, rfl⟩ := solvesN_relax.1 hk
  refine C73_minimal_partial hI hS (by omega) hc rfl rfl rfl he hrun hrel (fun t => ?_) (by omega)
  exact (numT_le_size hI.wf hrel t).trans hsz

/-- C73: the assertion of the constructor (line 156) holds if and only if the initial task is not among its own descendants. -/
theorem C73_assertion (hI : RcInput P cfg nA nT) {junk : Nat → Nat} {S : Sccs} (hS : calcSccs nT (taskAdj P) junk P.init = some S) :
    assertOK P nT S = true ↔ ¬ TransGen (fun x y => ∃ m < P.numMethods, P.head m = x ∧ y ∈ P.sub m) P.init P.init := by
  have hok := sccs_ok hI hS
  have hrel : (fun x y => ∃ m < P.numMethods, P.head m = x ∧ y ∈ P.sub m) = fun x y => y ∈ taskAdj P x := by
    funext x y
    exact propext mem_taskAdj.symm
  rw [hrel]
  have hreach : ∀ t < nT, R (taskAdj P) P.init t := fun t ht => R_iff.2 (hI.tasks.reach t ht)
  have hscc : ∀ t < nT, ∃ k, S.scc t = some k := fun t ht => Option.ne_none_iff_exists'.1 ((hok.ok.some_iff t).2 ht)
  obtain ⟨c₀, hc₀⟩ := hscc _ hI.tasks.init_lt
  simp only [assertOK, List.all_eq_true, List.any_eq_true, List.mem_range, Bool.not_eq_true', List.isEmpty_eq_false_iff_exists_mem]
  constructor
  · intro h hcyc
    obtain ⟨i, hi, m, hm⟩ := h c₀ ((hok.cyclic c₀).2 ⟨_, hc₀, hcyc⟩)
    obtain ⟨h1, h2, h3⟩ := (mem_incoming hok hI.rc hi).1 hm
    have hh := hI.rc.head_lt m h1
    obtain ⟨d, hd⟩ := hscc _ hh
    have ht := taskAt_scc hok hi
    have hback := ((hok.ok.eq _ _ _ _ hc₀ ht).1 rfl).2
    have : d = c₀ := (hok.ok.eq _ _ _ _ hd hc₀).2 ⟨ReflTransGen.head (mem_taskAdj.2 ⟨m, h1, rfl, h3⟩) hback, hreach _ hh⟩
    exact h2 (this ▸ hd)
  · intro hn c hc
    obtain ⟨t, ht, hcyc⟩ := (hok.cyclic c).1 hc
    have hne : S.scc P.init ≠ some c := by
      intro e
      obtain ⟨r1, r2⟩ := (hok.ok.eq _ _ _ _ e ht).1 rfl
      exact hn (TransGen.trans_right r1 (TransGen.trans_left hcyc r2))
    have hlt : t < nT := (hok.ok.some_iff t).1 (by rw [ht]; simp)
    have hpath : R (taskAdj P) P.init t := hreach t hlt
    have key : ∀ b, R (taskAdj P) P.init b → S.scc b = some c → ∃ m < P.numMethods, S.scc (P.head m) ≠ some c ∧ ∃ b' ∈ P.sub m, S.scc b' = some c := by
      intro b hb
      induction hb with
      | refl => intro e; exact absurd e hne
      | @tail a b _ hab ih =>
        intro e
        by_cases ha : S.scc a = some c
        · exact ih ha
        · obtain ⟨m, h1, rfl, h2⟩ := mem_taskAdj.1 hab
          exact ⟨m, h1, ha, b, h2, e⟩
    obtain ⟨m, h1, h2, b, h3, h4⟩ := key t hpath ht
    obtain ⟨i, hi, rfl⟩ := exists_taskAt ((mem_tasks_scc hok).2 ⟨hI.rc.sub_lt m h1 b h3, h4⟩)
    exact ⟨i, hi, m, (mem_incoming hok hI.rc hi).2 ⟨h1, h2, h3⟩⟩

/-- With two instances the value is 4, the cost of `[0, 1, 1]` with one method: the hypotheses of the theorems are met. -/
example : ∃ S c v, calcSccs 3 (taskAdj (manyP 2)) (fun _ => 0) (manyP 2).init = some S ∧
    EvaluatedL (manyP 2) rcCfg 3 3 (initNode (manyP 2) rcCfg).1 (initNode (manyP 2) rcCfg).2 c ∧
    DofRun (manyP 2) 2 3 2147483647 (heapPQ 8) S [] ⟨false, true, .full, .none, false, false⟩ true 0 c (initNode (manyP 2) rcCfg).2
      ⟨Bucket.init (List.replicate 6 true), NoDel.init 6⟩ v ∧ v ≠ 2147483647 ∧
    RelaxSol (manyP 2) (initNode (manyP 2) rcCfg).1.heap (initNode (manyP 2) rcCfg).2 [0, 1, 1] 1 ∧ [0, 1, 1].length + 1 ≤ 100 ∧
    assertOK (manyP 2) 3 S = true := by
  obtain ⟨S, c, tr, h1, h2, h3, -, -, -, h4⟩ := manyP_two
  have hI := manyP_input 1
  obtain ⟨hn, hs⟩ := init_ninv (P := manyP 2) (cfg := rcCfg) hI.wf
  refine ⟨S, c, 4, h1, h2, h4 0 _, by decide, nodeSol_relax ((hs _ _).2 (manyP_solution 2)), by decide, (C73_assertion hI h1).2 fun h => ?_⟩
  obtain ⟨b, -, m, -, -, hb⟩ := TransGen.tail'_iff.1 h
  simp [manyP] at hb

end Verif.Props
