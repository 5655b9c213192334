import Verif.DofRun

/-! # Property C72: the value of the delete- and order-free heuristic -/

namespace Verif.Props

open Verif.Htn Verif.Prog Verif.TaskCounter Verif.Strips Verif.IntSets Verif.Reach Verif.Scc Verif.Rc Verif.AO Verif.PG Verif.Dof Relation

variable {P : Problem} {cfg : Cfg} {nA nT : Nat} {g : Glob} {n : Node} {pq : PQ} {U : Nat}

theorem stateOf_iff {f : Nat} : stateOf n f = true ↔ holds n.state f := by
  unfold stateOf holds
  cases n.state[f]? <;> simp

/-- The sets of the planning graph for a solution. -/
theorem solution_fits (hI : RcInput P cfg nA nT) (hr : Reached P cfg g n) (hU : 0 < U) (hc : ∀ a < nA, P.cost a < U) {ri : Nat → Bool}
    {fuel : Nat} {r : PgRes} (h : pgCalc P nA nT pq U (stateOf n) ri fuel = .done r) {tr : Nat → Htn.Tree} {π : List Nat}
    (hsol : Solution P g.heap n tr π) (hri : ∀ u ∈ live g.heap n, ∀ t, TaskIn P (tr u) t → ri t = true) :
    Dof.Fits P nA nT (live g.heap n) (holds n.state) tr r ∧
      ∀ f < P.numFacts, (holds n.state f ∨ ∃ a ∈ π, f ∈ P.add a) → r.hP f ≠ U := by
  obtain ⟨h1, h2, -, h4, h5, h6, -⟩ := C60_done hI.wf hI.rc hU hc (state_lt hI hr) h
  obtain ⟨k1, k2, k3⟩ := C60_keeps_solutions hI hr hU hc h hsol hri
  have le := hI.rc.le
  refine ⟨⟨pgCalc_shape hI.wf hI.rc h, fun t ht => ?_, fun m hm => ?_, fun t ht => ?_, fun m hm => ((h5 m).1 hm).1, fun f hf hh => ?_⟩, ?_⟩
  · obtain ⟨u, hu, ht⟩ := numT_iff.1 ht
    exact k2 u hu t ht
  · obtain ⟨u, hu, hm⟩ := numM_iff.1 hm
    exact k3 u hu m hm
  · have := (h4 t).1 ht
    cases this with
    | base h => omega
    | meth hm _ _ => exact hI.rc.head_lt _ hm
  · have := ((h6 f).1 hf).1
    have h' : n.state[f]?.getD false = true := stateOf_iff.2 hh
    rw [h'] at this
    cases this
  · obtain ⟨occ, s', hl, hex, hgo⟩ := hsol
    have hπ : ∀ a ∈ π, a < nA ∧ ri a = true := by
      intro a ha
      obtain ⟨y, hy, hya⟩ := forall₂_mem_right hl.labels a ha
      have hyI := ((hl.all y).1 hy).1
      have hin := LeafAt.taskIn hya
      refine ⟨?_, hri _ hyI _ hin⟩
      have := hI.rc.prim a (TaskIn.lt hI.rc (hl.valid _ hyI) (live_lt hI hr _ hyI) a hin)
      rw [(leaf_reach (hl.valid _ hyI) hya).2] at this
      simpa using this.symm
    have hs : ∀ f < P.numFacts, holds n.state f → RelF P nA (stateOf n) ri f := fun f hf hh => .init hf (stateOf_iff.2 hh)
    obtain ⟨-, e2⟩ := exec_rel (s := stateOf n) (nA := nA) (ri := ri) hI.wf hex hπ hs
    rintro f hf (hh | ⟨a, ha, hfa⟩)
    · exact h1 f (hs f hf hh)
    · obtain ⟨a1, a2, a3⟩ := e2 a ha
      exact h1 f (.act a1 a2 a3 hfa)

/-- The landmarks that are put into the program are landmarks. -/
theorem lms_hold (hI : RcInput P cfg nA nT) (hr : Reached P cfg g n) (hU : 0 < U) (hc : ∀ a < nA, P.cost a < U) {ri : Nat → Bool}
    {fuel : Nat} {r : PgRes} (h : pgCalc P nA nT pq U (stateOf n) ri fuel = .done r) {tr : Nat → Htn.Tree} {π : List Nat}
    (hsol : Solution P g.heap n tr π) (hri : ∀ u ∈ live g.heap n, ∀ t, TaskIn P (tr u) t → ri t = true) {L : Lms} (hL : LmsRun P nA nT n r L) :
    (∀ x ∈ L.lms, MetR P nT (live g.heap n) (holds n.state) tr π x) ∧
      (∀ t, numT P (live g.heap n) tr t ≠ 0 → ∀ x ∈ L.imp (tN P t), MetR P nT (live g.heap n) (holds n.state) tr π x) ∧
      (∀ m, numM P (live g.heap n) tr m ≠ 0 → ∀ x ∈ L.imp (mN P nT m), MetR P nT (live g.heap n) (holds n.state) tr π x) ∧
      ∀ f ∈ r.useful, (∃ a ∈ π, f ∈ P.add a) → ∀ x ∈ L.imp f, MetR P nT (live g.heap n) (holds n.state) tr π x := by
  have le := hI.rc.le
  obtain ⟨srt, pick, key, old, fl, s, lms, hsrt, e1, e2, e3, e4⟩ := hL
  obtain ⟨h1, h2, -, h4, h5, h6, -⟩ := C60_done hI.wf hI.rc hU hc (state_lt hI hr) h
  have hpg : PgOK P nA nT (stateOf n) (pgReach P nT r) := by
    refine ⟨fun a ha hra f hf => ?_, fun m hm hrm t ht => ?_, state_lt hI hr⟩
    · rw [pgReach_task (by omega)] at hra
      rw [pgReach_fact (hI.wf.prec_lt a f hf), h6]
      by_cases e : stateOf n f = true
      · exact .inr e
      · exact .inl ⟨Bool.eq_false_iff.2 e, .inr ⟨a, ha, hra, hf⟩⟩
    · rw [pgReach_meth] at hrm
      rw [pgReach_task (hI.rc.sub_lt m hm t ht)]
      exact ((h5 m).1 hrm).2.2 t ht
  obtain ⟨F, lms', k1, k2⟩ := C60_causal_landmarks hI hr hU hc h hsrt pick key old ⟨tr, π, hsol, hri⟩
  have hlms : lms' = lms := by
    have hmono : calcLms P nA nT srt pick key (pgReach P nT r) old (max F fl) n = .done lms := by
      have hcl := causalLoop_mono pick key fl _ s e2 (max F fl) (by omega)
      unfold calcLms at e1 ⊢
      simp only at e1 ⊢
      have e2' : causalLoop srt pick key (causalGraph P nA nT) (fun f => n.state[f]?.getD false) (pgReach P nT r) fl
        (causalStart (causalGraph P nA nT) (fun f => n.state[f]?.getD false) (pgReach P nT r) (List.range P.numFacts) (precLess P nA) old) = .done s := e2
      have hcl' : causalLoop srt pick key (causalGraph P nA nT) (fun f => n.state[f]?.getD false) (pgReach P nT r) (max F fl)
        (causalStart (causalGraph P nA nT) (fun f => n.state[f]?.getD false) (pgReach P nT r) (List.range P.numFacts) (precLess P nA) old) = .done s := hcl
      rw [e2'] at e1
      rw [hcl']
      exact e1
    have := k1 (max F fl) (by omega)
    rw [hmono] at this
    cases this
    rfl
  obtain ⟨s', f', hf', hnok, hexact⟩ := causal_exact hsrt pick key (causal_hyp hI.wf hI.rc hpg) old
  have hss : s' = s := by
    have h1 := hf' (max f' fl) (by omega)
    rw [causalLoop_mono pick key fl _ s e2 (max f' fl) (by omega)] at h1
    cases h1
    rfl
  subst hss
  have himp : ∀ y x, x ∈ L.imp y → ¬ Der (restr (causalGraph P nA nT) (stateOf n) (pgReach P nT r)) (· = x) y := by
    intro y x hx
    rw [e4] at hx
    split_ifs at hx with hfull
    · simp at hx
    · have hfull : (s'.node y).full = false := by simpa using hfull
      obtain ⟨z, hz, e⟩ := List.mem_map.1 hx
      have hz0 : 0 ≤ z := ((hnok y).rng z hz).1
      have := ((hexact y).2 hfull x).1 (by rw [← e, Int.toNat_of_nonneg hz0]; exact hz)
      exact this
  have hcov := causal_covers (s := holds n.state) hI.wf hI.rc hpg (fun f => stateOf_iff.symm)
  obtain ⟨kk1, kk2, kk3⟩ := C60_keeps_solutions hI hr hU hc h hsol hri
  obtain ⟨hfit, hrF⟩ := solution_fits hI hr hU hc h hsol hri
  have hsol' := hsol
  obtain ⟨occ, s'', hl, hex, hgo⟩ := hsol'
  have hRT : ∀ u ∈ live g.heap n, ∀ t, TaskIn P (tr u) t → pgReach P nT r (tN P t) = true := fun u hu t ht => by
    rw [pgReach_task (TaskIn.lt hI.rc (hl.valid u hu) (live_lt hI hr u hu) t ht)]
    exact kk2 u hu t ht
  have hRM : ∀ u ∈ live g.heap n, ∀ m, Uses P (tr u) m → pgReach P nT r (mN P nT m) = true := fun u hu m hm => pgReach_meth.2 (kk3 u hu m hm)
  have key := fun x => nodes_met (x := x) hcov hI.wf hI.rc (live_lt hI hr) hl hex hRT hRM
  refine ⟨fun x hx => Met.metR (k2 tr π hsol hri x (by rw [hlms]; exact (e3 x).1 hx)), fun t ht x hx => ?_, fun m hm x hx => ?_, fun f hfu hf x hx => ?_⟩
  · obtain ⟨u, hu, ht⟩ := numT_iff.1 ht
    exact Met.metR ((key x).1 u hu t ht (himp _ _ hx))
  · obtain ⟨u, hu, hm⟩ := numM_iff.1 hm
    exact Met.metR ((key x).2.1 u hu m hm (himp _ _ hx))
  · obtain ⟨a, ha, hfa⟩ := hf
    have hlt := hI.wf.add_lt a f hfa
    exact Met.metR ((key x).2.2 f hlt (adds_factIn hex ha hfa) (.inl ((pgReach_fact hlt).2 hfu)) (himp _ _ hx))

/-- The program has a feasible point for a solution, with the costs of the solution as objective. -/
theorem solution_feasible (hI : RcInput P cfg nA nT) (hr : Reached P cfg g n) (hU : 0 < U) (hc : ∀ a < nA, P.cost a < U) {ri : Nat → Bool}
    {fuel : Nat} {r : PgRes} (h : pgCalc P nA nT pq U (stateOf n) ri fuel = .done r) {tr : Nat → Htn.Tree} {π : List Nat}
    (hsol : Solution P g.heap n tr π) (hri : ∀ u ∈ live g.heap n, ∀ t, TaskIn P (tr u) t → ri t = true) {S : Sccs} (hS : SccsOK nT (taskAdj P) S)
    {vars : List (Nat × Nat)} {cf : Conf} {L : Lms} (hcuts : cf.lmc = true → ∀ cut ∈ L.cuts, (∃ a ∈ cut.2.take cut.1, a ∈ π) ∨
      ∃ m ∈ cut.2.drop cut.1, ∃ u ∈ live g.heap n, Uses P (tr u) m) (hL : cf.ao ≠ .none → LmsRun P nA nT n r L)
    (hsize : π.length + ∑ u ∈ live g.heap n, (tr u).inner P ≤ U)
    (h100 : cf.pg ≠ .none ∨ cf.tdgFull = true ∨ cf.ao = .full → ∀ t, numT P (live g.heap n) tr t ≤ 100)
    (hnc : cf.nc = true → Covered vars P.numFacts ∧ ∀ π₁ s₁, Exec P (holds n.state) π₁ s₁ → AtMostOne vars s₁) (ints : Bool) :
    ∃ x, Feasible ints (prog P nA nT U S vars cf n r L) x ∧ eval x (prog P nA nT U S vars cf n r L).obj =
      ((if cf.optimal then (π.map P.cost).sum else π.length + ∑ u ∈ live g.heap n, (tr u).inner P : Nat) : ℚ) := by
  obtain ⟨hfit, hrF⟩ := solution_fits hI hr hU hc h hsol hri
  have hcnt := tnCount_eq ((Reached.ninv hI.wf hI.cfg hr).good.counter hI.track)
  have hsol' := hsol
  obtain ⟨occ, s', hl, hex, hgo⟩ := hsol'
  have hrel := exec_relaxed hl hex hgo
  have hLms : LmsHold P nT (live g.heap n) (holds n.state) tr π cf r L := by
    refine ⟨fun e cut hcut => ?_, fun e => (lms_hold hI hr hU hc h hsol hri (hL e)).1,
      fun e => (lms_hold hI hr hU hc h hsol hri (hL (by rw [e]; decide))).2.1,
      fun e => (lms_hold hI hr hU hc h hsol hri (hL (by rw [e]; decide))).2.2.1,
      fun e => (lms_hold hI hr hU hc h hsol hri (hL (by rw [e]; decide))).2.2.2⟩
    rcases hcuts e cut hcut with h | ⟨m, hm, h⟩
    · exact .inl h
    · exact .inr ⟨m, hm, numM_iff.2 h⟩
  refine ⟨pt P nA nT S (live g.heap n) (taskOf g.heap) tr π, ⟨fun d hd => ⟨Nat.cast_nonneg _, ?_⟩, fun _ d _ => ⟨(asg P nA nT S (live g.heap n) (taskOf g.heap) tr π d.var : Nat), by
      simp [pt]⟩, fun c hcc => ?_⟩, objective_pt hI.wf hI.rc hrel hfit⟩
  · exact (Nat.cast_le (α := ℚ)).2 (bounds_hold hI.wf hI.rc hrel hfit hsize hU d hd)
  · simp only [prog, List.mem_append] at hcc
    rcases hcc with ((((((hcc | hcc) | hcc) | hcc) | hcc) | hcc) | hcc) | hcc
    · split_ifs at hcc with e
      · simp at hcc
      · exact consPg_holds hI.wf hI.rc hrel hfit (fun a _ => h100 (.inl e) a) c hcc
    · split_ifs at hcc with e
      · exact consTime_holds hI.wf hI.rc hrel hfit c hcc
      · simp at hcc
    · exact consTasks_holds hI.rc hrel.valid hfit hcnt c hcc
    · split_ifs at hcc with e
      · obtain ⟨d, -, hcc⟩ := List.mem_flatMap.1 hcc
        exact consScc_holds hS hI.rc hrel.valid hfit hcnt (h100 (.inr (.inl e))) c hcc
      · simp at hcc
    · split_ifs at hcc with e
      · obtain ⟨cut, hcut, rfl⟩ := List.mem_map.1 hcc
        exact consCut_holds hI.wf hrel hfit (hLms.cuts e cut hcut)
      · simp at hcc
    · split_ifs at hcc with e
      · simp at hcc
      · exact consLms_holds (fun f => stateOf_iff) (hLms.lms e) c hcc
    · split_ifs at hcc with e
      · exact consImps_holds hI.wf hrel.valid hfit (fun f => stateOf_iff) hrF (h100 (.inr (.inr e))) e hLms c hcc
      · simp at hcc
    · split_ifs at hcc with e
      · exact consNc_holds hI.wf hI.rc hrel hex hgo hfit (fun f => stateOf_iff) (hnc e).1 (hnc e).2 c hcc
      · simp at hcc

theorem result_le {ints : Bool} {p : Prog} {o : Option ℚ} (ho : Solver ints p o) {x : Var → ℚ} (hx : Feasible ints p x) {k : Nat}
    (hk : eval x p.obj = (k : ℚ)) : result U o ≤ k := by
  cases o with
  | none => exact absurd ⟨x, hx⟩ ho
  | some v =>
    have hv := ho.2 x hx
    rw [hk] at hv
    unfold result
    have h1 : ⌊v + 1 / 2⌋ ≤ (k : Int) := by
      have : (⌊v + 1 / 2⌋ : ℤ) < (k : Int) + 1 := by
        rw [Int.floor_lt]
        push_cast
        linarith
      omega
    show (⌊v + 1 / 2⌋).toNat ≤ k
    omega

/-- C72: if all tasks are maintained (`mtrALL`), the value of a reached node is at most the cost of each of its solutions — the sum of
the costs of the actions in the setting for optimal search, else the number of actions and methods — and so it is not
`UNREACHABLE`, for all combinations of constraints, for the integer and for the linear program, and whatever was left
in the reused sets.  Hypotheses about the sizes: costs are below `INT_MAX`, and with the constraints that
contain the constant 100 (anything but the default) no task occurs more than 100 times in the solution.  Net change constraints
need at most one value per variable in every state that can be passed.  Full claim: the same without the bound
on the occurrences, which is false (`C72_hundred_violated`), and with the setting of SearchEngine.cpp 228
(`C61_dof_safe_violated`). -/
theorem C72_admissible_partial (hI : RcInput P cfg nA nT) {junk : Nat → Nat} {S : Sccs} (hS : calcSccs nT (taskAdj P) junk P.init = some S)
    (hc : ∀ a < nA, P.cost a < U) (htot : rcTotal P nA nT .distance < U) {vars : List (Nat × Nat)} {cf : Conf} (ints : Bool) :
    ∃ F, ∀ fuel, F ≤ fuel → ∀ g n c st v, EvaluatedL P cfg nT nT g n c → SetsOK P nA nT st →
      DofRun P nA nT U pq S vars cf ints fuel c n st v →
      (cf.nc = true → Covered vars P.numFacts ∧ ∀ π₁ s₁, Exec P (holds n.state) π₁ s₁ → AtMostOne vars s₁) →
      ∀ tr π, Solution P g.heap n tr π → π.length + ∑ u ∈ live g.heap n, (tr u).inner P < U → (π.map P.cost).sum < U →
        (cf.pg ≠ .none ∨ cf.tdgFull = true ∨ cf.ao = .full → ∀ t, ∑ u ∈ live g.heap n, (tr u).occT P t ≤ 100) →
        v ≠ U ∧ v ≤ if cf.optimal then (π.map P.cost).sum else π.length + ∑ u ∈ live g.heap n, (tr u).inner P := by
  have hU : 0 < U := by omega
  have hM : (Est.model P nA nT .distance).WF := by rw [Est.model_eq]; exact rcModel_wf hI.wf hI.rc
  obtain ⟨F, hF⟩ := lmCut_inner pq hM htot
  refine ⟨F, fun fuel hfu g n c st v he hst hrun hnc tr π hsol hsz1 hsz2 h100 => ?_⟩
  have hy := he.ready hI hI.rc.le
  have hS' : SccsOK nT (taskAdj P) S := by
    obtain ⟨S', e, h⟩ := calcSccs_spec hI.tasks.adj_lt junk hI.tasks.init_lt fun t ht => R_iff.2 (hI.tasks.reach t ht)
    rw [hS] at e
    cases e
    exact h
  obtain ⟨a1, a2, -, a4⟩ := hF fuel hfu
  suffices h : v ≤ if cf.optimal then (π.map P.cost).sum else π.length + ∑ u ∈ live g.heap n, (tr u).inner P by
    refine ⟨?_, h⟩
    rintro rfl
    split_ifs at h <;> omega
  have hilp : ∀ cs, (cf.lmc = true → ∀ cut ∈ cs, (∃ a ∈ cut.2.take cut.1, a ∈ π) ∨ ∃ m ∈ cut.2.drop cut.1, ∃ u ∈ live g.heap n, Uses P (tr u) m) →
      IlpRun P nA nT U pq S vars cf ints c n cs v → v ≤ if cf.optimal then (π.map P.cost).sum else π.length + ∑ u ∈ live g.heap n, (tr u).inner P := by
    rintro cs hcs ⟨l, r, fl, h1, h2, h3⟩
    have htest : dofTest P nA nT pq U c fl n = .done (dofVerdict P U n r) := by
      unfold dofTest
      have h2' : pgCalc P nA nT pq U (fun f => n.state[f]?.getD false) (fun t => decide (t ∈ l)) fl = .done r := h2
      rw [h1]
      simp only [h2']
    cases e : dofVerdict P U n r with
    | unreach =>
      rw [e] at htest
      exact absurd ⟨π, nodeSol_iff.2 ⟨tr, hsol⟩⟩ (C61_dof_safe_partial hI hU hc he htest)
    | zero =>
      rw [e] at h3
      simp only at h3
      omega
    | ilp =>
      rw [e] at h3
      obtain ⟨L, o, rfl, h4, h5, rfl⟩ := h3
      obtain ⟨l', k1, k2⟩ := riOf_ready hy
      rw [h1] at k1
      cases k1
      have hri : ∀ u ∈ live g.heap n, ∀ t, TaskIn P (tr u) t → decide (t ∈ l) = true := by
        intro u hu t ht
        obtain ⟨occ, s', hlin, -, -⟩ := hsol
        have hv := hlin.valid u hu
        exact decide_eq_true ((k2 t).2 ⟨TaskIn.lt hI.rc hv (live_lt hI he.reached u hu) t ht, u, hu, TaskIn.reach hv t ht⟩)
      obtain ⟨x, hx, hobj⟩ := solution_feasible hI he.reached hU hc h2 hsol hri hS' hcs h4 hsz1.le h100 hnc ints
      exact result_le h5 hx hobj
  unfold DofRun at hrun
  split_ifs at hrun with hl
  · obtain ⟨mi, st', w, cuts, e1, hrun⟩ := hrun
    split_ifs at hrun with hw
    · subst hw
      exfalso
      have : ∃ π k, NodeSol P g.heap n π k := ⟨π, nodeSol_iff.2 ⟨tr, hsol⟩⟩
      exact rcValue_safe (o := lmcOpt P nA nT w pq mi fuel) hI.wf hI.rc hy hst a2 e1 (fun h => by cases h) htot this
    · obtain ⟨cs, e2, hrun⟩ := hrun
      refine hilp cs (fun _ cut hcut => ?_) hrun
      have : some cut ∈ cuts.map (splitCut nA) := by rw [e2]; exact List.mem_map_of_mem hcut
      obtain ⟨cut', hcut', e3⟩ := List.mem_map.1 this
      obtain ⟨k, l, j1, -, -, j2⟩ := rcCuts_spec (o := lmcOpt P nA nT U pq mi fuel) hI.wf hI.rc hy hst a2 a4 e1 hcut'
      rw [j1] at e3
      cases e3
      obtain ⟨occ, s', hlin, hex, hgo⟩ := hsol
      exact j2 tr occ π s' hlin hex hgo
  · exact hilp [] (fun h => absurd h hl) hrun

/-- The settings that SearchEngine.cpp 351-405 chooses without options. -/
def defaultConf : Conf := ⟨false, false, .none, .none, true, true⟩

/-- C72 with the settings that are chosen without options: no bound on the occurrences is needed. -/
theorem C72_default (hI : RcInput P cfg nA nT) {junk : Nat → Nat} {S : Sccs} (hS : calcSccs nT (taskAdj P) junk P.init = some S)
    (hc : ∀ a < nA, P.cost a < U) (htot : rcTotal P nA nT .distance < U) {vars : List (Nat × Nat)} (hcov : Covered vars P.numFacts) (ints : Bool) :
    ∃ F, ∀ fuel, F ≤ fuel → ∀ g n c st v, EvaluatedL P cfg nT nT g n c → SetsOK P nA nT st →
      DofRun P nA nT U pq S vars defaultConf ints fuel c n st v → (∀ π₁ s₁, Exec P (holds n.state) π₁ s₁ → AtMostOne vars s₁) →
      ∀ π k, NodeSol P g.heap n π k → π.length + k < U → (π.map P.cost).sum < U → v ≠ U ∧ v ≤ π.length + k := by
  obtain ⟨F, hF⟩ := C72_admissible_partial (pq := pq) (vars := vars) (cf := defaultConf) hI hS hc htot ints
  refine ⟨F, fun fuel hfu g n c st v he hst hrun hmx π k hk h1 h2 => ?_⟩
  obtain ⟨tr, occ, hl, hi, s', hex, hgo⟩ := solvesN_iff.1 hk
  have := hF fuel hfu g n c st v he hst hrun (fun _ => ⟨hcov, hmx⟩) tr π ⟨occ, s', hl, hex, hgo⟩ (by rw [hi]; exact h1) h2 (by simp [defaultConf])
  rw [hi] at this
  exact this

/-! ## The constant 100 -/

/-- The only method replaces the initial task 2 by action 0, which adds fact 0, and `k` times action 1, which needs it. -/
def manyP (k : Nat) : Problem where
  numFacts := 1
  prim t := decide (t < 2)
  prec t := if t = 1 then [0] else []
  add t := if t = 0 then [0] else []
  del _ := []
  cost _ := 1
  numMethods := 1
  head _ := 2
  sub _ := 0 :: List.replicate k 1
  ord _ := []
  init := 2
  s0 := []
  goal := [0]

theorem manyP_input (k : Nat) : RcInput (manyP (k + 1)) rcCfg 2 3 where
  track := rfl
  wf := {
    ord_lt := by intro m _ i j h; simp [manyP] at h
    ord_acyclic := by intro m _; exact ⟨id, fun i j h => by simp [manyP] at h⟩
    sub_ne := by intro m _; simp [manyP]
    head_abs := by intro m _; simp [manyP]
    init_abs := by simp [manyP]
    prec_lt := by intro a f h; simp only [manyP] at h ⊢; split_ifs at h <;> simp_all
    add_lt := by intro a f h; simp only [manyP] at h ⊢; split_ifs at h <;> simp_all
    del_lt := by intro a f h; simp [manyP] at h
    s0_lt := by simp [manyP]
    goal_lt := by simp [manyP] }
  cfg := fun _ => List.Perm.refl _
  tasks := {
    init_lt := by simp [manyP]
    sub_lt := by
      intro m _ t ht
      simp only [manyP, List.mem_cons, List.mem_replicate] at ht
      omega
    reach := by
      intro t ht
      rcases (by omega : t = 0 ∨ t = 1 ∨ t = 2) with rfl | rfl | rfl
      · exact .single ⟨0, by simp [manyP], rfl, by simp [manyP]⟩
      · exact .single ⟨0, by simp [manyP], rfl, by simp [manyP]⟩
      · exact .refl }
  rc := {
    le := by decide
    prim := fun _ _ => rfl
    init_lt := by simp [manyP]
    head_lt := by intro m _; simp [manyP]
    sub_lt := by
      intro m _ t ht
      simp only [manyP, List.mem_cons, List.mem_replicate] at ht
      omega
    prec_nodup := by intro a _; simp only [manyP]; split_ifs <;> simp }

theorem manyP_sub {k i t : Nat} (h : ((manyP k).sub 0)[i]? = some t) : t < 2 := by
  have := List.mem_of_getElem? h
  simp only [manyP, List.mem_cons, List.mem_replicate] at this
  omega

theorem manyP_leaf {k : Nat} (p : List Nat) (a : Nat) :
    LeafAt (manyP k) (.node 0 fun i => .leaf (((manyP k).sub 0)[i]?.getD 0)) p a ↔ ∃ i < k + 1, p = [i] ∧ a = if i = 0 then 0 else 1 := by
  have hl : ((manyP k).sub 0).length = k + 1 := by simp [manyP]
  have hv : ∀ i < k + 1, ((manyP k).sub 0)[i]?.getD 0 = if i = 0 then 0 else 1 := by
    intro i hi
    rcases i with _ | i
    · rfl
    · simp only [manyP, List.getElem?_cons_succ, List.getElem?_replicate]
      rw [if_pos (by omega)]
      simp
  constructor
  · intro h
    cases h with
    | child hi h =>
      cases h
      exact ⟨_, hl ▸ hi, rfl, hv _ (hl ▸ hi)⟩
  · rintro ⟨i, hi, rfl, rfl⟩
    rw [← hv i hi]
    exact .child (by rw [hl]; exact hi) .here

theorem manyP_exec {k : Nat} : ∀ (j : Nat) {s : State}, s 0 → ∃ s', Exec (manyP k) s (List.replicate j 1) s' ∧ s' 0
  | 0, s, h => ⟨s, .nil _, h⟩
  | j + 1, s, h => by
    obtain ⟨s', h1, h2⟩ := manyP_exec (k := k) j (s := (manyP k).result s 1) (.inr ⟨h, by simp [manyP]⟩)
    exact ⟨s', .cons (fun f hf => by simp only [manyP, if_true, List.mem_singleton] at hf; exact hf ▸ h) h1, h2⟩

theorem manyP_solution (k : Nat) : IsSolutionN (manyP k) (0 :: List.replicate k 1) 1 := by
  obtain ⟨s', h1, h2⟩ := manyP_exec (k := k) k (s := (manyP k).result (manyP k).initState 0) (.inl (by simp [manyP]))
  refine ⟨.node 0 fun i => .leaf (((manyP k).sub 0)[i]?.getD 0), ?_, by simp [Tree.inner], ⟨(List.range (k + 1)).map fun i => [i], ?_, fun p => ?_, ?_, ?_⟩,
    s', .cons (fun f hf => by simp [manyP] at hf) h1, fun f hf => ?_⟩
  · refine Valid.node (P := manyP k) (m := 0) (by simp [manyP]) fun i t h => ?_
    rw [h]
    exact .leaf (by simpa [manyP] using manyP_sub h)
  · exact List.Nodup.map (fun a b h => by simpa using h) List.nodup_range
  · simp only [manyP_leaf, List.mem_map, List.mem_range]
    constructor
    · rintro ⟨i, hi, rfl⟩
      exact ⟨_, i, hi, rfl, rfl⟩
    · rintro ⟨a, i, hi, rfl, -⟩
      exact ⟨i, hi, rfl⟩
  · rw [List.pairwise_map]
    refine List.Pairwise.imp (fun {a b} _ hb => ?_) (List.pairwise_lt_range (n := k + 1))
    cases hb with
    | same h => cases h
    | diff h =>
      rcases TransGen.head'_iff.1 h with ⟨_, h, -⟩
      simp [Problem.OrdRel, manyP] at h
  · rw [List.forall₂_map_left_iff, List.forall₂_iff_get]
    refine ⟨by simp, fun i h1 h2 => (manyP_leaf _ _).2 ?_⟩
    simp only [List.length_range] at h1
    refine ⟨i, h1, by simp, ?_⟩
    rcases i with _ | i
    · rfl
    · simp
  · simp only [manyP, List.mem_singleton] at hf
    exact hf ▸ h2

/-- The feasible points of the program for the initial node. -/
theorem manyP_values (k : Nat) (hU : 1 < U) {cf : Conf} {l : List Nat} {fl : Nat} {r : PgRes}
    (e2 : pgCalc (manyP (k + 1)) 2 3 pq U (stateOf (initNode (manyP (k + 1)) rcCfg).2) (fun t => decide (t ∈ l)) fl = .done r)
    (e : dofVerdict (manyP (k + 1)) U (initNode (manyP (k + 1)) rcCfg).2 r = .ilp) {S : Sccs} {vars : List (Nat × Nat)} {L : Lms} {ints : Bool} {x : Var → ℚ}
    (hx : Feasible ints (prog (manyP (k + 1)) 2 3 U S vars cf (initNode (manyP (k + 1)) rcCfg).2 r L) x) :
    Shape 2 r ∧ 0 ∈ r.useful ∧ 0 ∈ r.tasks ∧ 1 ∈ r.tasks ∧ meths r = [0] ∧ x (.me 0) = 1 ∧ x (.ua 0) = 1 ∧ x (.ua 1) = ((k + 1 : Nat) : ℚ) := by
  have hI := manyP_input k
  have hcon : keys (initNode (manyP (k + 1)) rcCfg).2.contained = [2] := rfl
  have hct : (initNode (manyP (k + 1)) rcCfg).2.contained = [(2, 1)] := rfl
  obtain ⟨-, -, -, d4, d5, d6, -⟩ := C60_done hI.wf hI.rc (by omega) (fun a _ => by simp only [manyP]; omega) (state_lt hI .init) e2
  have hsh := pgCalc_shape hI.wf hI.rc e2
  have t2 : 2 ∈ r.tasks := by
    unfold dofVerdict at e
    split_ifs at e with q1 q2 q3
    rw [hcon] at q2
    simpa using q2
  obtain ⟨hri, t0, t1⟩ : decide (2 ∈ l) = true ∧ 0 ∈ r.tasks ∧ 1 ∈ r.tasks := by
    cases (d4 2).1 t2 with
    | base h => omega
    | @meth m hm hr hsub =>
      exact ⟨hr, (d4 0).2 (hsub 0 (by simp [manyP])), (d4 1).2 (hsub 1 (by simp [manyP]))⟩
  have hmeth : meths r = [0] := by
    have hm0 : 0 ∈ r.methods := (d5 0).2 ⟨by simp [manyP], hri, fun t ht => by
      simp only [manyP, List.mem_cons, List.mem_replicate] at ht
      rcases ht with rfl | ⟨-, rfl⟩
      · exact t0
      · exact t1⟩
    have : r.methods.Perm [0] := (List.perm_ext_iff_of_nodup hsh.mnd (by simp)).2 fun m => by
      refine ⟨fun h => ?_, fun h => by rw [List.mem_singleton] at h; exact h ▸ hm0⟩
      have := ((d5 m).1 h).1
      simp only [manyP] at this
      rw [List.mem_singleton]
      omega
    rw [meths, List.perm_singleton.1 this]
    rfl
  have u0 : 0 ∈ r.useful := (d6 0).2 ⟨rfl, .inl (by simp [manyP])⟩
  have hcs := hx.cons
  have htk : ∀ t ∈ r.tasks, eval x (tup (manyP (k + 1)) r t) + tnCount (initNode (manyP (k + 1)) rcCfg).2 t = x (.ua t) := by
    intro t ht
    have := hcs ⟨tup (manyP (k + 1)) r t ++ K (tnCount (initNode (manyP (k + 1)) rcCfg).2 t), .eq, V (.ua t)⟩ (by
      simp only [prog, List.mem_append]
      refine .inl (.inl (.inl (.inl (.inl (.inr ?_)))))
      exact List.mem_flatMap.2 ⟨t, List.mem_reverse.2 ht, List.mem_cons_self⟩)
    simp only [Con.Holds, eval_append, eval_V, eval_K] at this
    exact_mod_cast this
  have e2' := htk 2 t2
  have e1' := htk 1 t1
  have e0' := htk 0 t0
  rw [eval_tup, hmeth] at e0' e1' e2'
  have n2 : tnCount (initNode (manyP (k + 1)) rcCfg).2 2 = 1 := by
    rw [tnCount, hct]
    decide +kernel
  have n1 : tnCount (initNode (manyP (k + 1)) rcCfg).2 1 = 0 := by
    rw [tnCount, hct]
    decide +kernel
  have m1 : x (.me 0) = x (.ua 2) := by
    have := hcs ⟨sumV (((methodsOf (manyP (k + 1)) 2).filter fun m => m ∈ r.methods).map .me), .eq, V (.ua 2)⟩ (by
      simp only [prog, List.mem_append]
      refine .inl (.inl (.inl (.inl (.inl (.inr ?_)))))
      exact List.mem_flatMap.2 ⟨2, List.mem_reverse.2 t2, by rw [if_pos (by omega)]; simp⟩)
    simp only [Con.Holds, eval_sumV, eval_V] at this
    have hm : ((methodsOf (manyP (k + 1)) 2).filter fun m => m ∈ r.methods) = [0] := by
      have h0 : 0 ∈ r.methods := List.mem_reverse.1 (by rw [← meths, hmeth]; simp)
      have : methodsOf (manyP (k + 1)) 2 = [0] := rfl
      rw [this]
      simp [h0]
    rw [hm] at this
    simpa using this
  have n0 : tnCount (initNode (manyP (k + 1)) rcCfg).2 0 = 0 := by
    rw [tnCount, hct]
    decide +kernel
  have c0 : ((manyP (k + 1)).sub 0).count 0 = 1 := by simp [manyP, List.count_replicate]
  have c2 : ((manyP (k + 1)).sub 0).count 2 = 0 := by simp [manyP, List.count_replicate]
  have c1 : ((manyP (k + 1)).sub 0).count 1 = k + 1 := by simp [manyP, List.count_replicate]
  simp only [List.map_cons, List.map_nil, List.sum_cons, List.sum_nil, c0, c1, c2, n0, n1, n2, Nat.cast_zero, Nat.cast_one, zero_mul, one_mul, add_zero, zero_add] at e0' e1' e2'
  rw [m1, ← e2', mul_one] at e1'
  rw [m1, ← e2'] at e0'
  exact ⟨hsh, u0, t0, t1, hmeth, by rw [m1, ← e2'], e0'.symm, e1'.symm⟩

/-- The program for the initial node has no feasible point, not even with fractions. -/
theorem manyP_infeasible (k : Nat) (hk : 100 < k + 1) (hU : 1 < U) {cf : Conf} (hpg : cf.pg ≠ .none) {l : List Nat} {fl : Nat} {r : PgRes}
    (e2 : pgCalc (manyP (k + 1)) 2 3 pq U (stateOf (initNode (manyP (k + 1)) rcCfg).2) (fun t => decide (t ∈ l)) fl = .done r)
    (e : dofVerdict (manyP (k + 1)) U (initNode (manyP (k + 1)) rcCfg).2 r = .ilp) {S : Sccs} {vars : List (Nat × Nat)} {L : Lms} {ints : Bool} :
    ¬ ∃ x, Feasible ints (prog (manyP (k + 1)) 2 3 U S vars cf (initNode (manyP (k + 1)) rcCfg).2 r L) x := by
  rintro ⟨x, hx⟩
  obtain ⟨hsh, u0, -, t1, -, -, -, e1'⟩ := manyP_values k hU e2 e hx
  have c100 := hx.cons ⟨cV 100 (.uf 0), .ge, V (.ua 1)⟩ (by
    simp only [prog, List.mem_append]
    refine .inl (.inl (.inl (.inl (.inl (.inl (.inl ?_))))))
    rw [if_neg hpg]
    simp only [consPg, List.mem_append]
    refine .inl (.inr (List.mem_flatMap.2 ⟨1, hsh.mem_acts.2 ⟨t1, by omega⟩, List.mem_append.2 (.inl ?_)⟩))
    exact List.mem_map.2 ⟨0, List.mem_filter.2 ⟨by simp [manyP], by simpa using u0⟩, rfl⟩)
  simp only [Con.Holds, eval_V, eval_cV] at c100
  have up := (hx.bounds ⟨.uf 0, 1⟩ (by
    simp only [prog, decls, declsBase, List.mem_append]
    exact .inl (.inl (.inl (.inl (.inl (List.mem_map.2 ⟨0, List.mem_reverse.2 u0, rfl⟩)))))) ).2
  rw [e1'] at c100
  have hk' : (100 : ℚ) < ((k + 1 : Nat) : ℚ) := by exact_mod_cast hk
  push_cast at c100 up hk'
  linarith

/-- C72 is violated if an action occurs more than 100 times: with the constraints for the planning graph the program for the initial
node has no feasible point, and the node, which has a solution, gets the value `UNREACHABLE`. -/
theorem C72_hundred_violated (k : Nat) (hk : 100 < k) (hU : 1 < U) {S : Sccs} (hS : calcSccs 3 (taskAdj (manyP k)) (fun _ => 0) (manyP k).init = some S) :
    ∃ c, EvaluatedL (manyP k) rcCfg 3 3 (initNode (manyP k) rcCfg).1 (initNode (manyP k) rcCfg).2 c ∧
      NodeSol (manyP k) (initNode (manyP k) rcCfg).1.heap (initNode (manyP k) rcCfg).2 (0 :: List.replicate k 1) 1 ∧
      ∀ vars cf ints fuel st v, cf.pg ≠ .none → DofRun (manyP k) 2 3 U pq S vars cf ints fuel c (initNode (manyP k) rcCfg).2 st v → v = U := by
  obtain ⟨k, rfl⟩ : ∃ j, k = j + 1 := ⟨k - 1, by omega⟩
  have hI := manyP_input k
  obtain ⟨hn, hs⟩ := init_ninv (P := manyP (k + 1)) (cfg := rcCfg) hI.wf
  have hsol := (hs _ _).2 (manyP_solution (k + 1))
  obtain ⟨S', Rt, h1, h2, -⟩ := C14_table hI.tasks (fun _ => 0) 3
  obtain ⟨st', h3, -⟩ := C14_reachability_sets hI.wf hI.cfg hI.tasks h1 h2 .start .init (Nat.lt_succ_self _)
  have he : EvaluatedL (manyP (k + 1)) rcCfg 3 3 (initNode (manyP (k + 1)) rcCfg).1 (initNode (manyP (k + 1)) rcCfg).2 st'.cache :=
    ⟨_, S', Rt, _, _, st', h1, h2, .start, .init, Nat.lt_succ_self _, h3, rfl⟩
  refine ⟨_, he, hsol, fun vars cf ints fuel st v hpg hrun => ?_⟩
  have hcon : keys (initNode (manyP (k + 1)) rcCfg).2.contained = [2] := rfl
  have hilp : ∀ cs, IlpRun (manyP (k + 1)) 2 3 U pq S vars cf ints st'.cache (initNode (manyP (k + 1)) rcCfg).2 cs v → v = U := by
    rintro cs ⟨l, r, fl, e1, e2, e3⟩
    cases e : dofVerdict (manyP (k + 1)) U (initNode (manyP (k + 1)) rcCfg).2 r with
    | unreach => rw [e] at e3; exact e3
    | zero =>
      unfold dofVerdict at e
      split_ifs at e with q1 q2 q3
      rw [hcon] at q3
      cases q3
    | ilp =>
      rw [e] at e3
      obtain ⟨L, o, -, -, e5, rfl⟩ := e3
      cases o with
      | none => rfl
      | some w =>
        exfalso
        obtain ⟨x, hx, -⟩ := e5.1
        exact manyP_infeasible k hk hU hpg e2 e ⟨x, hx⟩
  unfold DofRun at hrun
  split_ifs at hrun with hl
  · obtain ⟨mi, st'', w, cuts, e1, hrun⟩ := hrun
    split_ifs at hrun with hw
    · exact hrun
    · obtain ⟨cs, -, hrun⟩ := hrun
      exact hilp cs hrun
  · exact hilp [] hrun

/-- The planning graph for the initial node. -/
def manyRun (k U : Nat) : Option (Option DofV) := do
  let S ← calcSccs 3 (taskAdj (manyP k)) (fun _ => 0) (manyP k).init
  let Rt ← reachTable 3 (taskAdj (manyP k)) 3 S
  let (g, n) := initNode (manyP k) rcCfg
  let st ← updateReach Rt g.heap (g.heap.length + 1) ⟨fun _ => none, NoDel.init 3⟩ n
  return showDof (dofTest (manyP k) 2 3 (heapPQ 8) U st.cache 100 n)

theorem manyRun_spec {k : Nat} (h : manyRun k 2147483647 = some (some .ilp)) :
    ∃ S c l r, calcSccs 3 (taskAdj (manyP k)) (fun _ => 0) (manyP k).init = some S ∧
      EvaluatedL (manyP k) rcCfg 3 3 (initNode (manyP k) rcCfg).1 (initNode (manyP k) rcCfg).2 c ∧ riOf c (initNode (manyP k) rcCfg).2 = some l ∧
      pgCalc (manyP k) 2 3 (heapPQ 8) 2147483647 (stateOf (initNode (manyP k) rcCfg).2) (fun t => decide (t ∈ l)) 100 = .done r ∧
      dofVerdict (manyP k) 2147483647 (initNode (manyP k) rcCfg).2 r = .ilp := by
  unfold manyRun at h
  simp only [Option.bind_eq_bind, Option.bind_eq_some_iff, Option.pure_def, Option.some.injEq] at h
  obtain ⟨S, h1, Rt, h2, st, h4, h5⟩ := h
  unfold dofTest at h5
  cases e : riOf st.cache (initNode (manyP k) rcCfg).2 with
  | none => rw [e] at h5; cases h5
  | some l =>
    rw [e] at h5
    simp only at h5
    have e' : ∀ o, pgCalc (manyP k) 2 3 (heapPQ 8) 2147483647 (stateOf (initNode (manyP k) rcCfg).2) (fun t => decide (t ∈ l)) 100 = o →
      pgCalc (manyP k) 2 3 (heapPQ 8) 2147483647 (fun f => (initNode (manyP k) rcCfg).2.state[f]?.getD false) (fun t => decide (t ∈ l)) 100 = o := fun _ h => h
    cases e2 : pgCalc (manyP k) 2 3 (heapPQ 8) 2147483647 (stateOf (initNode (manyP k) rcCfg).2) (fun t => decide (t ∈ l)) 100 with
    | done r =>
      rw [e' _ e2] at h5
      simp only [showDof, Option.some.injEq] at h5
      exact ⟨S, _, l, r, h1, ⟨_, S, Rt, _, _, st, h1, h2, .start, .init, Nat.lt_succ_self _, h4, rfl⟩, e, e2, h5⟩
    | over => rw [e' _ e2] at h5; cases h5
    | fuel => rw [e' _ e2] at h5; cases h5
    | ub => rw [e' _ e2] at h5; cases h5

/-- The settings for the next examples: constraints for the planning graph and for the hierarchy. -/
def fullConf : Conf := ⟨false, true, .full, .none, false, false⟩

/-- With 101 instances of the action the run exists: the value is `UNREACHABLE`. -/
example : ∃ S c, calcSccs 3 (taskAdj (manyP 101)) (fun _ => 0) (manyP 101).init = some S ∧
    EvaluatedL (manyP 101) rcCfg 3 3 (initNode (manyP 101) rcCfg).1 (initNode (manyP 101) rcCfg).2 c ∧
    ∀ fuel st, DofRun (manyP 101) 2 3 2147483647 (heapPQ 8) S [] fullConf true fuel c (initNode (manyP 101) rcCfg).2 st 2147483647 := by
  obtain ⟨S, c, l, r, h1, h2, h3, h4, h5⟩ := manyRun_spec (k := 101) (by decide +kernel)
  refine ⟨S, c, h1, h2, fun fuel st => ?_⟩
  unfold DofRun IlpRun
  rw [if_neg (by decide)]
  refine ⟨l, r, 100, h3, h4, ?_⟩
  rw [h5]
  exact ⟨⟨[], [], fun _ => []⟩, none, rfl, fun h => absurd rfl h, manyP_infeasible 100 (by omega) (by omega) (by decide) h4 h5, rfl⟩

theorem manyP_solution_tree {k : Nat} {π : List Nat} {j : Nat} (h : NodeSol (manyP (k + 1)) (initNode (manyP (k + 1)) rcCfg).1.heap (initNode (manyP (k + 1)) rcCfg).2 π j) :
    ∃ tr, Solution (manyP (k + 1)) (initNode (manyP (k + 1)) rcCfg).1.heap (initNode (manyP (k + 1)) rcCfg).2 tr π ∧
      ∑ u ∈ live (initNode (manyP (k + 1)) rcCfg).1.heap (initNode (manyP (k + 1)) rcCfg).2, (tr u).inner (manyP (k + 1)) = j := by
  obtain ⟨tr, occ, hl, hi, s', hex, hgo⟩ := solvesN_iff.1 h
  exact ⟨tr, ⟨occ, s', hl, hex, hgo⟩, hi⟩

/-- With two instances the value is 4: three actions and one method.  The hypotheses of `C72_admissible_partial` are met. -/
theorem manyP_two : ∃ S c tr, calcSccs 3 (taskAdj (manyP 2)) (fun _ => 0) (manyP 2).init = some S ∧
    EvaluatedL (manyP 2) rcCfg 3 3 (initNode (manyP 2) rcCfg).1 (initNode (manyP 2) rcCfg).2 c ∧
    Solution (manyP 2) (initNode (manyP 2) rcCfg).1.heap (initNode (manyP 2) rcCfg).2 tr [0, 1, 1] ∧
    (∀ t, numT (manyP 2) (live (initNode (manyP 2) rcCfg).1.heap (initNode (manyP 2) rcCfg).2) tr t ≤ 100) ∧
    rcTotal (manyP 2) 2 3 .distance < 2147483647 ∧ SetsOK (manyP 2) 2 3 ⟨Bucket.init (List.replicate 6 true), NoDel.init 6⟩ ∧
    ∀ fuel st, DofRun (manyP 2) 2 3 2147483647 (heapPQ 8) S [] fullConf true fuel c (initNode (manyP 2) rcCfg).2 st 4 := by
  obtain ⟨S, c, l, r, h1, h2, h3, h4, h5⟩ := manyRun_spec (k := 2) (by decide +kernel)
  have hI := manyP_input 1
  obtain ⟨hn, hs⟩ := init_ninv (P := manyP 2) (cfg := rcCfg) hI.wf
  obtain ⟨tr, hsol, hin⟩ := manyP_solution_tree ((hs _ _).2 (manyP_solution 2))
  have hri : ∀ u ∈ live (initNode (manyP 2) rcCfg).1.heap (initNode (manyP 2) rcCfg).2, ∀ t, TaskIn (manyP 2) (tr u) t → decide (t ∈ l) = true := by
    obtain ⟨l', k1, k2⟩ := riOf_ready (h2.ready hI hI.rc.le)
    rw [h3] at k1
    cases k1
    intro u hu t ht
    obtain ⟨occ, s', hlin, -, -⟩ := hsol
    have hv := hlin.valid u hu
    exact decide_eq_true ((k2 t).2 ⟨TaskIn.lt hI.rc hv (live_lt hI h2.reached u hu) t ht, u, hu, TaskIn.reach hv t ht⟩)
  have h100 : ∀ t, numT (manyP 2) (live (initNode (manyP 2) rcCfg).1.heap (initNode (manyP 2) rcCfg).2) tr t ≤ 100 := by
    intro t
    obtain ⟨hfit, -⟩ := solution_fits hI .init (by omega) (fun a _ => by simp [manyP]) h4 hsol hri
    obtain ⟨occ, s', hl, hex, hgo⟩ := hsol
    have := numT_le hI.wf hI.rc (exec_relaxed hl hex hgo) hfit t
    rw [hin] at this
    exact this.trans (by decide)
  refine ⟨S, c, tr, h1, h2, hsol, h100, by decide +kernel, sets_init rfl, fun fuel st => ?_⟩
  unfold DofRun IlpRun
  rw [if_neg (by decide)]
  refine ⟨l, r, 100, h3, h4, ?_⟩
  rw [h5]
  have hS' : SccsOK 3 (taskAdj (manyP 2)) S := by
    obtain ⟨S', e, h⟩ := calcSccs_spec hI.tasks.adj_lt (fun _ => 0) hI.tasks.init_lt fun t ht => R_iff.2 (hI.tasks.reach t ht)
    rw [h1] at e
    cases e
    exact h
  obtain ⟨x, hx, hobj⟩ := solution_feasible (vars := []) (cf := fullConf) (L := ⟨[], [], fun _ => []⟩) hI .init (by omega) (fun a _ => by simp [manyP]) h4 hsol hri hS'
    (fun h => by cases h) (fun h => absurd rfl h) (by rw [hin]; decide) (fun _ => h100) (fun h => by cases h) true
  rw [hin] at hobj
  have hval : ∀ y, Feasible true (prog (manyP 2) 2 3 2147483647 S [] fullConf (initNode (manyP 2) rcCfg).2 r ⟨[], [], fun _ => []⟩) y →
      eval y (prog (manyP 2) 2 3 2147483647 S [] fullConf (initNode (manyP 2) rcCfg).2 r ⟨[], [], fun _ => []⟩).obj = 4 := by
    intro y hy
    obtain ⟨hsh, -, t0, t1, hm, v1, v2, v3⟩ := manyP_values 1 (by omega) h4 h5 hy
    have hacts : (acts 2 r).Perm [0, 1] := (List.perm_ext_iff_of_nodup hsh.acts_nodup (by simp)).2 fun a => by
      rw [hsh.mem_acts]
      constructor
      · rintro ⟨-, h⟩
        rcases (by omega : a = 0 ∨ a = 1) with rfl | rfl <;> simp
      · intro h
        rcases List.mem_cons.1 h with rfl | h
        · exact ⟨t0, by omega⟩
        · rw [List.mem_singleton] at h
          subst h
          exact ⟨t1, by omega⟩
    have : (prog (manyP 2) 2 3 2147483647 S [] fullConf (initNode (manyP 2) rcCfg).2 r ⟨[], [], fun _ => []⟩).obj =
      (acts 2 r).map (fun a => ((1 : Int), some (.ua a))) ++ (meths r).map fun m => ((1 : Int), some (.me m)) := rfl
    rw [this, eval_append, eval_map, eval_map, (hacts.map _).sum_eq, hm]
    simp [v1, v2, v3]
    norm_num
  refine ⟨⟨[], [], fun _ => []⟩, some 4, rfl, fun h => absurd rfl h, ⟨⟨x, hx, hval x hx⟩, fun y hy => (hval y hy).ge⟩, ?_⟩
  have : ⌊(4 : ℚ) + 1 / 2⌋ = 4 := by rw [Int.floor_eq_iff]; norm_num
  simp only [result, this]
  rfl

end Verif.Props
