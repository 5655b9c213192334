import Verif.PlanGraph
import Verif.Props.Landmarks

/-! # Properties C60, C61: the planning graph, and the tests of the delete- and order-free heuristic -/

namespace Verif.Props

open Verif.Htn Verif.Prog Verif.TaskCounter Verif.Strips Verif.IntSets Verif.Reach Verif.Scc Verif.Rc Verif.AO Verif.PG Relation

variable {P : Problem} {cfg : Cfg} {nA nT : Nat} {g : Glob} {n : Node} {pq : PQ} {U : Nat} {s ri : Nat → Bool}

/-! ## C60: `planningGraph` -/

/-- C60: with any priority queue, the computation of the planning graph stops without overflow of the stack, unless an additive value
reaches `INT_MAX`.  All facts and actions that are reachable in the delete relaxation with the actions of `ri` have been
found.  The tasks are exactly those that can be composed from the actions found, by methods for tasks of `ri`, the
methods those whose subtasks have been found, the useful facts the goal facts and the preconditions of actions found,
without the facts of the state.  If the start enters no fact twice into the queue, then only reachable facts and
actions have been found. -/
theorem C60_planning_graph (hP : P.WF) (hR : RcOK P nA nT) (hU : 0 < U) (hc : ∀ a < nA, P.cost a < U)
    (hs : ∀ f, s f = true → f < P.numFacts) :
    ∃ F, (∀ fuel, F ≤ fuel → pgCalc P nA nT pq U s ri fuel = .over) ∨
      ∃ r, (∀ fuel, F ≤ fuel → pgCalc P nA nT pq U s ri fuel = .done r) ∧
        (∀ f, RelF P nA s ri f → r.hP f ≠ U) ∧ (∀ a, RelA P nA s ri a → a ∈ r.tasks) ∧ (∀ a < nA, a ∈ r.tasks → ri a = true) ∧
        (∀ t, t ∈ r.tasks ↔ RelT P ri (fun a => a < nA ∧ a ∈ r.tasks) t) ∧
        (∀ m, m ∈ r.methods ↔ m < P.numMethods ∧ ri (P.head m) = true ∧ ∀ t ∈ P.sub m, t ∈ r.tasks) ∧
        (∀ f, f ∈ r.useful ↔ s f = false ∧ (f ∈ P.goal ∨ ∃ a < nA, a ∈ r.tasks ∧ f ∈ P.prec a)) ∧
        (Clean P nA s ri → (∀ f, r.hP f ≠ U → RelF P nA s ri f) ∧ ∀ a < nA, a ∈ r.tasks → RelA P nA s ri a) :=
  pgCalc_spec hP hR hU hc hs

/-- C60, for a computation that has ended. -/
theorem C60_done (hP : P.WF) (hR : RcOK P nA nT) (hU : 0 < U) (hc : ∀ a < nA, P.cost a < U)
    (hs : ∀ f, s f = true → f < P.numFacts) {fuel : Nat} {r : PgRes} (h : pgCalc P nA nT pq U s ri fuel = .done r) :
    (∀ f, RelF P nA s ri f → r.hP f ≠ U) ∧ (∀ a, RelA P nA s ri a → a ∈ r.tasks) ∧ (∀ a < nA, a ∈ r.tasks → ri a = true) ∧
      (∀ t, t ∈ r.tasks ↔ RelT P ri (fun a => a < nA ∧ a ∈ r.tasks) t) ∧
      (∀ m, m ∈ r.methods ↔ m < P.numMethods ∧ ri (P.head m) = true ∧ ∀ t ∈ P.sub m, t ∈ r.tasks) ∧
      (∀ f, f ∈ r.useful ↔ s f = false ∧ (f ∈ P.goal ∨ ∃ a < nA, a ∈ r.tasks ∧ f ∈ P.prec a)) ∧
      (Clean P nA s ri → (∀ f, r.hP f ≠ U → RelF P nA s ri f) ∧ ∀ a < nA, a ∈ r.tasks → RelA P nA s ri a) := by
  have h1 := pgCalc_mono (f := fuel) (by rw [h]; simp)
  obtain ⟨F', h' | ⟨r', h', hh⟩⟩ := C60_planning_graph (pq := pq) (ri := ri) hP hR hU hc hs
  · have h2 := h1 (max fuel F') (by omega)
    rw [h' (max fuel F') (by omega), h] at h2
    cases h2
  · have h2 := h1 (max fuel F') (by omega)
    rw [h' (max fuel F') (by omega), h] at h2
    cases h2
    exact hh

theorem state_lt (hI : RcInput P cfg nA nT) (hr : Reached P cfg g n) : ∀ f, n.state[f]?.getD false = true → f < P.numFacts := by
  intro f hf
  rw [← (Reached.ninv hI.wf hI.cfg hr).good.node.state_len]
  by_contra h
  rw [List.getElem?_eq_none (by omega)] at hf
  simp at hf

/-- C60: the planning graph for a node keeps everything that occurs in a solution of the node, if the tasks of the solution are in
the set `ri`: the goal facts are reachable; tasks and methods of the decomposition are found. -/
theorem C60_keeps_solutions (hI : RcInput P cfg nA nT) (hr : Reached P cfg g n) (hU : 0 < U) (hc : ∀ a < nA, P.cost a < U)
    {fuel : Nat} {r : PgRes} (h : pgCalc P nA nT pq U (fun f => n.state[f]?.getD false) ri fuel = .done r)
    {tr : Nat → Htn.Tree} {π : List Nat} (hsol : Solution P g.heap n tr π)
    (hri : ∀ u ∈ live g.heap n, ∀ t, TaskIn P (tr u) t → ri t = true) :
    (∀ f ∈ P.goal, r.hP f ≠ U) ∧ (∀ u ∈ live g.heap n, ∀ t, TaskIn P (tr u) t → t ∈ r.tasks) ∧
      ∀ u ∈ live g.heap n, ∀ m, Uses P (tr u) m → m ∈ r.methods := by
  obtain ⟨h1, h2, -, h4, h5, -, -⟩ := C60_done hI.wf hI.rc hU hc (state_lt hI hr) h
  obtain ⟨occ, s', hl, hex, hgo⟩ := hsol
  obtain ⟨k1, k2, k3⟩ := sol_rel (s := fun f => n.state[f]?.getD false) hI.wf hI.rc (live_lt hI hr) hl hex
    (fun f _ hf => by unfold holds at hf; simp [hf]) hri
  obtain ⟨m1, m2⟩ := RelT.mem h2 h5 h4
  exact ⟨fun f hf => h1 f (k1 f (hI.wf.goal_lt f hf) (hgo f hf)), fun u hu t ht => m1 t (k2 u hu t ht), fun u hu m hm => m2 m (k3 u hu m hm)⟩

/-- C60 with C59: the landmarks of `LmCausal` with the planning graph of the node are met by every solution whose tasks are in
`ri`. -/
theorem C60_causal_landmarks (hI : RcInput P cfg nA nT) (hr : Reached P cfg g n) (hU : 0 < U) (hc : ∀ a < nA, P.cost a < U)
    {fuel : Nat} {r : PgRes} (h : pgCalc P nA nT pq U (fun f => n.state[f]?.getD false) ri fuel = .done r)
    {srt : (Nat → Nat) → List Nat → List Nat} (hsrt : SortOK srt) (pick : List (Nat × Nat) → Nat) (key : AoNode → Nat → Nat)
    (old : Nat → List Int)
    (hsol : ∃ tr π, Solution P g.heap n tr π ∧ ∀ u ∈ live g.heap n, ∀ t, TaskIn P (tr u) t → ri t = true) :
    ∃ F lms, (∀ f, F ≤ f → calcLms P nA nT srt pick key (pgReach P nT r) old f n = .done lms) ∧
      ∀ tr π, Solution P g.heap n tr π → (∀ u ∈ live g.heap n, ∀ t, TaskIn P (tr u) t → ri t = true) →
        ∀ x ∈ lms, Met P nT (holds n.state) π (live g.heap n) tr x := by
  have le := hI.rc.le
  obtain ⟨h1, h2, -, h4, h5, h6, -⟩ := C60_done hI.wf hI.rc hU hc (state_lt hI hr) h
  have hpg : PgOK P nA nT (fun f => n.state[f]?.getD false) (pgReach P nT r) := by
    refine ⟨fun a ha hra f hf => ?_, fun m hm hrm t ht => ?_, state_lt hI hr⟩
    · rw [pgReach_task (by omega)] at hra
      rw [pgReach_fact (hI.wf.prec_lt a f hf), h6]
      by_cases e : n.state[f]?.getD false = true
      · exact .inr e
      · exact .inl ⟨by simpa using e, .inr ⟨a, ha, hra, hf⟩⟩
    · rw [pgReach_meth] at hrm
      rw [pgReach_task (hI.rc.sub_lt m hm t ht)]
      exact ((h5 m).1 hrm).2.2 t ht
  have hk : ∀ tr π, Solution P g.heap n tr π → (∀ u ∈ live g.heap n, ∀ t, TaskIn P (tr u) t → ri t = true) →
      PgKeeps P nT g.heap n (pgReach P nT r) tr := by
    intro tr π hs hri
    obtain ⟨k1, k2, k3⟩ := C60_keeps_solutions hI hr hU hc h hs hri
    obtain ⟨occ, s', hl, -, -⟩ := hs
    refine ⟨fun u hu t ht => ?_, fun u hu m hm => pgReach_meth.2 (k3 u hu m hm), fun f hf => ?_⟩
    · rw [pgReach_task (TaskIn.lt hI.rc (hl.valid u hu) (live_lt hI hr u hu) t ht)]
      exact k2 u hu t ht
    · rw [pgReach_fact (hI.wf.goal_lt f hf), h6]
      by_cases e : holds n.state f
      · exact .inr e
      · refine .inl ⟨?_, .inl hf⟩
        unfold holds at e
        rcases e' : n.state[f]? with _ | b
        · rfl
        · rw [e'] at e
          cases b
          · rfl
          · exact absurd rfl e
  obtain ⟨tr, π, hs, hri⟩ := hsol
  obtain ⟨F, lms, k1, -, k3⟩ := C59_causal hI hr hsrt pick key old hpg ⟨tr, π, hs, hk tr π hs hri⟩
  exact ⟨F, lms, k1, fun tr π hs hri => k3 tr π hs (hk tr π hs hri)⟩

/-! ## C61: the tests of `hhDOfree` -/

/-- As `Evaluated`, with the tasks below `last` maintained. -/
def EvaluatedL (P : Problem) (cfg : Cfg) (last nT : Nat) (g : Glob) (n : Node) (c : Cache) : Prop :=
  ∃ junk S Rt st f st', calcSccs nT (taskAdj P) junk P.init = some S ∧ reachTable nT (taskAdj P) last S = some Rt ∧
    Calls P cfg last Rt g st ∧ Reached P cfg g n ∧ g.heap.length < f ∧ updateReach Rt g.heap f st n = some st' ∧
    c = st'.cache

theorem EvaluatedL.ready (hI : RcInput P cfg nA nT) {last : Nat} (hl : nA ≤ last) {c : Cache} (h : EvaluatedL P cfg last nT g n c) :
    Ready P nA nT last g.heap n c := by
  obtain ⟨junk, S, Rt, st, f, st', h1, h2, hc, hr, hf, hu, rfl⟩ := h
  obtain ⟨S', Rt', e1, e2, hR⟩ := C14_table hI.tasks junk last
  rw [h1] at e1
  cases e1
  rw [h2] at e2
  cases e2
  have hg := (Reached.ninv hI.wf hI.cfg hr).good
  obtain ⟨st'', e, hp, hv⟩ := updateReach_spec hg.heap (tableOK hI.wf hI.cfg hI.tasks hR hr)
    (fun u hu => (hg.node.first_min hg.heap hu).1) (hc.inv hI.wf hI.cfg hI.tasks hR) hf
  rw [hu] at e
  cases e
  exact ⟨hg.heap, hg.node, hg.counter hI.track, fun u hu => hI.tasks.lt (Reached.liveTasks hI.wf hI.cfg hr u hu),
    hl, hp.inv.cache, hv⟩

theorem EvaluatedL.reached {last : Nat} {c : Cache} (h : EvaluatedL P cfg last nT g n c) : Reached P cfg g n := by
  obtain ⟨-, -, -, -, -, -, -, -, -, h, -⟩ := h
  exact h

theorem EvaluatedL.iff {c : Cache} : EvaluatedL P cfg nA nT g n c ↔ Evaluated P cfg nA nT g n c := Iff.rfl

/-- The tests end with a verdict, unless an additive value reaches `INT_MAX`. -/
theorem C61_runs (hI : RcInput P cfg nA nT) {last : Nat} (hl : nA ≤ last) (hU : 0 < U) (hc : ∀ a < nA, P.cost a < U) {c : Cache}
    (he : EvaluatedL P cfg last nT g n c) :
    ∃ F, (∀ fuel, F ≤ fuel → dofTest P nA nT pq U c fuel n = .over) ∨ ∃ v, ∀ fuel, F ≤ fuel → dofTest P nA nT pq U c fuel n = .done v := by
  obtain ⟨l, h1, -⟩ := riOf_ready (he.ready hI hl)
  obtain ⟨F, h | ⟨r, h, -⟩⟩ := C60_planning_graph (pq := pq) (ri := fun t => t ∈ l) hI.wf hI.rc hU hc (state_lt hI he.reached)
  · exact ⟨F, .inl fun f hf => by simp only [dofTest, h1, h f hf]⟩
  · exact ⟨F, .inr ⟨dofVerdict P U n r, fun f hf => by simp only [dofTest, h1, h f hf]⟩⟩

theorem dofTest_done {last : Nat} {c : Cache} (hy : Ready P nA nT last g.heap n c) {fuel : Nat} {v : DofV}
    (h : dofTest P nA nT pq U c fuel n = .done v) :
    ∃ (l : List Nat) (r : PgRes), (∀ t, t ∈ l ↔ t < last ∧ ∃ u ∈ live g.heap n, TaskReach P (taskOf g.heap u) t) ∧
      pgCalc P nA nT pq U (fun f => n.state[f]?.getD false) (fun t => decide (t ∈ l)) fuel = .done r ∧ v = dofVerdict P U n r := by
  obtain ⟨l, h1, h2⟩ := riOf_ready hy
  rw [dofTest, h1] at h
  simp only at h
  cases e : pgCalc P nA nT pq U (fun f => n.state[f]?.getD false) (fun t => decide (t ∈ l)) fuel with
  | over => rw [e] at h; cases h
  | fuel => rw [e] at h; cases h
  | ub => rw [e] at h; cases h
  | done r =>
    rw [e] at h
    cases h
    exact ⟨l, r, h2, e, rfl⟩

theorem live_empty (hI : RcInput P cfg nA nT) (hr : Reached P cfg g n) : (∀ u, u ∉ live g.heap n) ↔ n.firsts = [] := by
  have hg := (Reached.ninv hI.wf hI.cfg hr).good
  constructor
  · intro h
    cases e : n.firsts with
    | nil => rfl
    | cons u l => exact absurd ((mem_live hg.heap fun w hw => hg.node.lt w hw).2 ⟨u, by simp [e], .refl⟩) (h u)
  · intro h u hu
    obtain ⟨v, hv, -⟩ := (mem_live hg.heap fun w hw => hg.node.lt w hw).1 hu
    rw [h] at hv
    simp at hv

/-- C61, for both settings: value 0 without solving the linear program is given exactly to goal nodes. -/
theorem C61_zero_iff_goal (hI : RcInput P cfg nA nT) {last : Nat} (hl : nA ≤ last) (hU : 0 < U) (hc : ∀ a < nA, P.cost a < U) {c : Cache}
    (he : EvaluatedL P cfg last nT g n c) {fuel : Nat} {v : DofV} (h : dofTest P nA nT pq U c fuel n = .done v) :
    v = .zero ↔ isGoal P n = true := by
  have hy := he.ready hI hl
  obtain ⟨l, r, h1, h2, rfl⟩ := dofTest_done hy h
  obtain ⟨k1, -, -, -, -, -, k7⟩ := C60_done hI.wf hI.rc hU hc (state_lt hI he.reached) h2
  have hkeys : keys n.contained = [] ↔ n.firsts = [] := by
    rw [← live_empty hI he.reached, List.eq_nil_iff_forall_not_mem]
    simp only [contained_keys hy.counter]
    exact ⟨fun h u hu => h _ ⟨u, hu, rfl⟩, fun h t ⟨u, hu, _⟩ => h u hu⟩
  have hex : n.firsts = [] → ∀ f, r.hP f ≠ U → holds n.state f := by
    intro hf
    have hl0 : ∀ t, t ∉ l := by
      intro t ht
      obtain ⟨-, u, hu, -⟩ := (h1 t).1 ht
      exact (live_empty hI he.reached).2 hf u hu
    have hcl : Clean P nA (fun f => n.state[f]?.getD false) (fun t => decide (t ∈ l)) := by
      unfold Clean
      rw [show ((List.range nA).filter fun a => P.prec a = [] ∧ decide (a ∈ l) = true) = [] by simp [hl0]]
      simpa using List.nodup_range.filter _
    intro f hfu
    have := (k7 hcl).1 f hfu
    cases this with
    | init _ h => unfold holds; cases e : n.state[f]? <;> simp_all
    | act _ h _ _ => simp [hl0] at h
  rw [isGoal_iff]
  unfold dofVerdict
  constructor
  · intro h
    split_ifs at h with a b d
    refine ⟨hkeys.1 d, fun f hf => hex (hkeys.1 d) f fun e => a ?_⟩
    exact List.any_eq_true.2 ⟨f, hf, by simpa using e⟩
  · rintro ⟨hf, hg⟩
    rw [if_neg, if_neg, if_pos (hkeys.2 hf)]
    · simp [hkeys.2 hf]
    · rw [List.any_eq_true]
      rintro ⟨f, hfg, e⟩
      have hh := hg f hfg
      unfold holds at hh
      exact k1 f (.init (hI.wf.goal_lt f hfg) (by simp [hh])) (by simpa using e)

/-- C61: a node that is declared unreachable has no solution — with all tasks maintained (`mtrALL`).  Full claim: the same with the
setting of SearchEngine.cpp 228 (`mtrACTIONS`), for which it is false (`C61_dof_safe_violated`). -/
theorem C61_dof_safe_partial (hI : RcInput P cfg nA nT) (hU : 0 < U) (hc : ∀ a < nA, P.cost a < U) {c : Cache}
    (he : EvaluatedL P cfg nT nT g n c) {fuel : Nat} (h : dofTest P nA nT pq U c fuel n = .done .unreach) :
    ¬ ∃ π k, NodeSol P g.heap n π k := by
  rintro ⟨π, hk⟩
  have hy := he.ready hI hI.rc.le
  obtain ⟨tr, hs⟩ := nodeSol_iff.1 hk
  obtain ⟨l, r, h1, h2, hv⟩ := dofTest_done hy h
  have hs' := hs
  obtain ⟨occ, s', hlin, -, -⟩ := hs'
  obtain ⟨k1, k2, -⟩ := C60_keeps_solutions hI he.reached hU hc h2 hs fun u hu t ht => by
    have hv := hlin.valid u hu
    exact decide_eq_true ((h1 t).2 ⟨TaskIn.lt hI.rc hv (live_lt hI he.reached u hu) t ht, u, hu, TaskIn.reach hv t ht⟩)
  unfold dofVerdict at hv
  split_ifs at hv with a b d
  · obtain ⟨f, hf, e⟩ := List.any_eq_true.1 a
    exact k1 f hf (by simpa using e)
  · obtain ⟨t, ht, e⟩ := List.any_eq_true.1 b
    obtain ⟨u, hu, rfl⟩ := (contained_keys hy.counter t).1 ht
    have := k2 u hu _ (Valid.taskIn (hlin.valid u hu))
    simp [this] at e

/-- C61 with the setting of SearchEngine.cpp 228: every node whose network contains an abstract task is declared unreachable, whatever
its solutions are. -/
theorem C61_actions_only (hI : RcInput P cfg nA nT) (hU : 0 < U) (hc : ∀ a < nA, P.cost a < U) {c : Cache}
    (he : EvaluatedL P cfg nA nT g n c) (habs : ∃ u ∈ live g.heap n, nA ≤ taskOf g.heap u) {fuel : Nat} {v : DofV}
    (h : dofTest P nA nT pq U c fuel n = .done v) : v = .unreach := by
  obtain ⟨u, hu, ha⟩ := habs
  have hy := he.ready hI (Nat.le_refl _)
  obtain ⟨l, r, h1, h2, rfl⟩ := dofTest_done hy h
  obtain ⟨-, -, -, k4, -⟩ := C60_done hI.wf hI.rc hU hc (state_lt hI he.reached) h2
  have hno : taskOf g.heap u ∉ r.tasks := by
    intro ht
    have := (k4 _).1 ht
    generalize taskOf g.heap u = t at this ha
    cases this with
    | base h => omega
    | meth _ h _ =>
      have := ((h1 _).1 (of_decide_eq_true h)).1
      omega
  unfold dofVerdict
  rw [if_pos (c := ((keys n.contained).any fun t => decide (t ∉ r.tasks)) = true)
    (List.any_eq_true.2 ⟨_, (contained_keys hy.counter _).2 ⟨u, hu, rfl⟩, by simpa using hno⟩)]
  simp

/-! ## Examples and witnesses -/

def showPg : Out PgRes → Option (List Nat × List Nat × List Nat × List Nat)
  | .done r => some ([r.hP 0, r.hP 1, r.hP 2], r.tasks, r.methods, r.useful)
  | _ => none

def showDof : Out DofV → Option DofV
  | .done v => some v
  | _ => none

/-- The planning graph of the initial node of the example: all tasks and methods; additive values 2 and 5.  Without the first
action nothing is reachable. -/
example : showPg (pgCalc rcP 2 4 (heapPQ 8) 2147483647 (fun _ => false) (fun _ => true) 100) =
      some ([2, 5, 2147483647], [2, 3, 1, 0], [1, 0, 2], [0, 1]) ∧
    showPg (pgCalc rcP 2 4 (heapPQ 8) 2147483647 (fun _ => false) (fun t => t != 0) 100) =
      some ([2147483647, 2147483647, 2147483647], [], [], [1]) := by decide +kernel

/-- The hypotheses of `C60_planning_graph`, and the condition for exactness. -/
example : rcP.WF ∧ RcOK rcP 2 4 ∧ (∀ a < 2, rcP.cost a < 2147483647) ∧ Clean rcP 2 (fun _ => false) (fun _ => true) :=
  ⟨rcP_wf, rcP_input.rc, by decide, by unfold Clean; decide⟩

/-- Facts 0 and 1, `b` (task 0) adds 0, `c` (task 1) needs 0 and 1 and adds 2; `I` (task 2) is decomposed to `b, c`. -/
def dblP : Problem where
  numFacts := 3
  prim t := decide (t < 2)
  prec t := if t = 1 then [0, 1] else []
  add t := if t = 0 then [0] else if t = 1 then [2] else []
  del _ := []
  cost _ := 1
  numMethods := 1
  head _ := 2
  sub _ := [0, 1]
  ord _ := []
  init := 2
  s0 := [0]
  goal := [2]

/-- Without the condition `Clean` the planning graph is not exact: fact 0 holds and is added by an action without preconditions, so it is
entered twice into the queue and counted twice as precondition of `c`, which is reached although fact 1 is
unreachable. -/
theorem C60_exact_violated : ∃ r, pgCalc dblP 2 3 (heapPQ 8) 2147483647 (fun f => f == 0) (fun _ => true) 100 = .done r ∧
    1 ∈ r.tasks ∧ r.hP 2 ≠ 2147483647 ∧ r.hP 1 = 2147483647 ∧ ¬ RelA dblP 2 (fun f => f == 0) (fun _ => true) 1 := by
  have h : showPg (pgCalc dblP 2 3 (heapPQ 8) 2147483647 (fun f => f == 0) (fun _ => true) 100) =
      some ([1, 2147483647, 2], [2, 1, 0], [0], [1, 2]) := by decide +kernel
  cases e : pgCalc dblP 2 3 (heapPQ 8) 2147483647 (fun f => f == 0) (fun _ => true) 100 with
  | over => rw [e] at h; cases h
  | fuel => rw [e] at h; cases h
  | ub => rw [e] at h; cases h
  | done r =>
    rw [e] at h
    simp only [showPg, Option.some.injEq, Prod.mk.injEq, List.cons.injEq, and_true] at h
    refine ⟨r, rfl, by rw [h.2.1]; decide, by rw [h.1.2.2]; decide, h.1.2.1, fun hA => ?_⟩
    have h1 := hA.2.2 1 (by decide)
    cases h1 with
    | init _ h => simp at h
    | @act a _ ha _ _ h =>
      rcases (by omega : a = 0 ∨ a = 1) with rfl | rfl
      · exact absurd h (by decide)
      · exact absurd h (by decide)

/-- The other outcome of `C60_planning_graph`: the sum of two costs below `INT_MAX` exceeds it. -/
example : (match pgCalc { rcP with cost := fun _ => 2147483646 } 2 4 (heapPQ 8) 2147483647 (fun _ => false) (fun _ => true) 100 with
    | .over => true
    | _ => false) = true := by decide +kernel

/-- The tests for the node reached by `I -> A, A`, with the tasks below `last` maintained. -/
def dofRun (P : Problem) (nA nT last U : Nat) : Option (Option DofV) := do
  let S ← calcSccs nT (taskAdj P) (fun _ => 0) P.init
  let Rt ← reachTable nT (taskAdj P) last S
  let (g, n) ← decompose P rcCfg 20 (initNode P rcCfg).1 (initNode P rcCfg).2 0 0
  let st ← updateReach Rt g.heap (g.heap.length + 1) ⟨fun _ => none, NoDel.init last⟩ n
  return showDof (dofTest P nA nT (heapPQ 8) U st.cache 100 n)

/-- With all tasks maintained, the linear program is built; if no action adds a fact, the node is unreachable; with actions only, it is
unreachable in any case. -/
example : dofRun rcP 2 4 4 2147483647 = some (some .ilp) ∧ dofRun { rcP with add := fun _ => [] } 2 4 4 2147483647 = some (some .unreach) ∧
    dofRun rcP 2 4 2 2147483647 = some (some .unreach) := by decide +kernel

theorem dofRun_spec {last : Nat} {v : DofV} (h : dofRun rcP 2 4 last 2147483647 = some (some v)) :
    ∃ g n c, EvaluatedL rcP rcCfg last 4 g n c ∧ lmNode rcP = some (g, n) ∧
      dofTest rcP 2 4 (heapPQ 8) 2147483647 c 100 n = .done v ∧ ∃ π k, NodeSol rcP g.heap n π k := by
  unfold dofRun at h
  simp only [Option.bind_eq_bind, Option.bind_eq_some_iff, Option.pure_def, Option.some.injEq] at h
  obtain ⟨S, h1, Rt, h2, ⟨g, n⟩, h3, st, h4, h5⟩ := h
  obtain ⟨hr, π, -, hs⟩ := rcP_node h3
  refine ⟨g, n, st.cache, ⟨_, S, Rt, _, _, st, h1, h2, .dec .start .init (u := 0) (by decide) (by decide) h3, hr, Nat.lt_succ_self _, h4, rfl⟩,
    h3, ?_, π, 2, hs⟩
  simp only at h5
  cases e : dofTest rcP 2 4 (heapPQ 8) 2147483647 st.cache 100 n with
  | done v' => rw [e] at h5; simp only [showDof, Option.some.injEq] at h5; rw [h5]
  | over => rw [e] at h5; cases h5
  | fuel => rw [e] at h5; cases h5
  | ub => rw [e] at h5; cases h5

/-- C61 is violated with the setting of SearchEngine.cpp 228 (`mtrACTIONS`): a node that has a solution is declared unreachable. -/
theorem C61_dof_safe_violated : ∃ g n c, Evaluated rcP rcCfg 2 4 g n c ∧ dofTest rcP 2 4 (heapPQ 8) 2147483647 c 100 n = .done .unreach ∧
    ∃ π k, NodeSol rcP g.heap n π k := by
  obtain ⟨g, n, c, h1, -, h2, h3⟩ := dofRun_spec (last := 2) (v := .unreach) (by decide +kernel)
  exact ⟨g, n, c, h1, h2, h3⟩

/-- The hypotheses of `C61_dof_safe_partial` and `C61_zero_iff_goal` hold for the same node when all tasks are maintained. -/
example : ∃ g n c, EvaluatedL rcP rcCfg 4 4 g n c ∧ dofTest rcP 2 4 (heapPQ 8) 2147483647 c 100 n = .done .ilp ∧
    ∃ π k, NodeSol rcP g.heap n π k := by
  obtain ⟨g, n, c, h1, -, h2, h3⟩ := dofRun_spec (last := 4) (v := .ilp) (by decide +kernel)
  exact ⟨g, n, c, h1, h2, h3⟩

/-- `LmCausal` with the planning graph for this node. -/
example : (lmNode rcP).bind (fun x =>
      match pgCalc rcP 2 4 (heapPQ 8) 2147483647 (fun f => x.2.state[f]?.getD false) (fun _ => true) 100 with
      | .done r => showOut (calcLms rcP 2 4 insSort (fun _ => 0) (fun _ _ => 0) (pgReach rcP 4 r) (fun _ => [7, 7]) 100 x.2)
      | _ => none) = some [0, 1, 2, 3, 5] := by decide +kernel

end Verif.Props
